import Verif.StrictRun
/-
  Accepting runs of checked packet descriptions (for C68), continued: arrays, expressions, transforms, choices.
-/

set_option linter.unusedVariables false

namespace Cnd

/-- The two descriptions of proper nesting agree. -/
theorem nested_of_from (n : Nat) : ∀ bs : List Byte, bs.length ≤ n →
    (nestedFrom bs 0 = true → Nested bs) ∧
    (∀ d, nestedFrom bs (d + 1) = true → ∃ xs ys, bs = xs ++ 0x38 :: ys ∧ Nested xs ∧ nestedFrom ys d = true) := by
  induction n with
  | zero =>
    intro bs hb
    have : bs = [] := List.length_eq_zero_iff.1 (by omega)
    subst this
    exact ⟨fun _ => .nil, fun d h => by simp [nestedFrom] at h⟩
  | succ n ih =>
    intro bs hb
    cases bs with
    | nil => exact ⟨fun _ => .nil, fun d h => by simp [nestedFrom] at h⟩
    | cons b bs =>
      have hb' : bs.length ≤ n := by simpa using hb
      obtain ⟨ih1, ih2⟩ := ih bs hb'
      constructor
      · intro h
        unfold nestedFrom at h
        split at h
        · rename_i hop
          obtain ⟨xs, ys, rfl, hx, hy⟩ := ih2 0 h
          refine .arr b xs ys hop hx ((ih ys ?_).1 hy)
          simp only [List.length_append, List.length_cons] at hb'
          omega
        · rename_i hop
          split at h
          · simp at h
          · rename_i h38
            exact .byte b bs (by simpa using hop) (by simpa using h38) (ih1 h)
      · intro d h
        unfold nestedFrom at h
        split at h
        · rename_i hop
          obtain ⟨xs, ys, rfl, hx, hy⟩ := ih2 (d + 1) h
          simp only [List.length_append, List.length_cons] at hb'
          obtain ⟨xs', ys', rfl, hx', hy'⟩ := (ih ys (by omega)).2 d hy
          refine ⟨b :: (xs ++ 0x38 :: xs'), ys', by simp, .arr b xs xs' hop hx hx', hy'⟩
        · rename_i hop
          split at h
          · rename_i h38
            simp only [Bool.and_eq_true, Nat.add_sub_cancel] at h
            refine ⟨[], bs, ?_, .nil, h.2⟩
            have : b = 0x38 := by simpa using h38
            rw [this]; rfl
          · rename_i h38
            obtain ⟨xs, ys, rfl, hx, hy⟩ := ih2 d h
            exact ⟨b :: xs, ys, rfl, .byte b xs (by simpa using hop) (by simpa using h38) hx, hy⟩

theorem nested_of {bs : List Byte} (h : nestedFrom bs 0 = true) : Nested bs := (nested_of_from _ bs (Nat.le_refl _)).1 h

section
variable {K : View} {L : Nat → Nat} {E : Env (List Ev)} {sf s s' : St (List Ev)} {a b c w : Pin} {x y code : List Byte}
  {R R' : P → P → Prop} {p : P}

/-! ### Arrays -/

theorem bytes_bytes (p : P) (es : List Ev) : (p.bytes 0 []).bytes 0 es = p.bytes 0 es := by
  unfold P.bytes
  simp only [List.append_nil]
  congr 1
  unfold up8
  omega

/-- The end of a body: another round, or behind the array. -/
theorem arrEnd_step (hH : E.host = taker K) {f : Frame} {fs : List Frame} (hat : At E.prog s.ip [0x38]) (hl : s.loops = f :: fs)
    (hf : f.rem ≠ 0xFFFFFFFF) :
    step E s = if f.rem - 1 > 0 then .run { s with ip := f.start, cursor := s.fieldPos, bit := 0, loops := ⟨f.start, f.rem - 1⟩ :: fs }
      else .run { s with ip := s.ip + 1, cursor := s.fieldPos, bit := 0, loops := fs, host := s.host ++ [.note 0 0x38] } := by
  rw [step_pre hat, pre_aligned 0x38 s rfl]
  show handleArrEnd E _ = _
  unfold handleArrEnd
  have he' : (f.rem == 0xFFFFFFFF) = false := by simpa using hf
  simp only [hl, he', if_false, Bool.false_eq_true, decide_eq_true_eq]
  split
  · rfl
  · unfold callNotify
    rw [hH]
    rfl

theorem fits_end {es : List Ev} {i : Nat} {fs : List Frame} (hf : Fits K p a s) :
    Fits K (p.bytes 0 (vis K es)) a.aligned { s with ip := i, cursor := s.fieldPos, bit := 0, loops := fs, host := s.host ++ es } := by
  have h := (fits_took (k := 0) (n := 0) (es := es) (o := a.opt)
    (s' := { s with ip := s.ip + 0, cursor := s.fieldPos, bit := 0, host := s.host ++ es }) hf
    ⟨rfl, rfl, rfl, rfl, rfl, rfl, hf.trans, .inl rfl, hf.opt⟩).2
  exact ⟨h.bit, h.pos, h.be, h.evs, h.trans, h.opt, h.al, h.order⟩

theorem rounds_got (hH : E.host = taker K) (hbody : Snd K E sf code w b R) (hle : b.aligned.le w = true) (fs : List Frame) (start : Nat)
    (hat : At E.prog start (code ++ [0x38])) :
    ∀ (n : Nat) (s : St (List Ev)) (p : P), n + 1 < 0xFFFFFFFF → s.ip = start → s.loops = ⟨start, n + 1⟩ :: fs → Fits K p w s → Acc E sf s →
      ∃ s' m, Reps R (n + 1) p m ∧ s'.ip = start + (code.length + 1) ∧ s'.loops = fs ∧ s'.buf.length = s.buf.length ∧
        Fits K (m.bytes 0 [.note 0 0x38]) w s' ∧ Acc E sf s' := by
  intro n
  induction n with
  | zero =>
    intro s p hn hip hl hf ha
    obtain ⟨m, q, r1, p1, f1, a1⟩ := hbody s p (hip ▸ hat.left) hf ha
    have hst := arrEnd_step hH (p1.ip ▸ hip ▸ hat.right) (p1.loops.trans hl) (by dsimp only; omega)
    rw [if_neg (by dsimp only; omega)] at hst
    refine ⟨_, q.bytes 0 [], ⟨q, r1, rfl⟩, ?_, ?_, ?_, ?_, acc_run a1 hst⟩
    · dsimp only; rw [p1.ip, hip]; omega
    · rfl
    · exact p1.len
    · rw [bytes_bytes]
      exact (fits_end (es := [.note 0 0x38]) f1).mono hle
  | succ n ih =>
    intro s p hn hip hl hf ha
    obtain ⟨m, q, r1, p1, f1, a1⟩ := hbody s p (hip ▸ hat.left) hf ha
    have hst := arrEnd_step hH (p1.ip ▸ hip ▸ hat.right) (p1.loops.trans hl) (by dsimp only; omega)
    rw [if_pos (by dsimp only; omega)] at hst
    have f2 := (fits_end (es := []) (i := start) (fs := ⟨start, n + 1⟩ :: fs) f1).mono hle
    rw [List.append_nil] at f2
    obtain ⟨s', m', r2, e1, e2, e3, e4, e5⟩ := ih _ _ (by omega) rfl rfl f2 (acc_run a1 hst)
    exact ⟨s', m', ⟨q, r1, r2⟩, e1, e2, e3.trans p1.len, e4, e5⟩

/-- Into an array, or over it. -/
def Entered (prog : List Byte) (count : Nat) (s s' : St (List Ev)) : Prop :=
  (count = 0 ∧ s' = { s with ip := skipBody prog s.ip }) ∨ (0 < count ∧ s' = { s with loops := ⟨s.ip, count⟩ :: s.loops })

theorem enter_pass (hH : E.host = taker K) (count : Nat) : Pass (Entered E.prog count s) (enterArray E s count) := by
  refine post_enter hH (fun h => .inl ⟨h, rfl⟩) fun h => ?_
  apply post_pushLoop
  · intro _; exact .inr ⟨h, rfl⟩
  · intro _ e; cases e

theorem Entered.host {prog : List Byte} {count : Nat} (h : Entered prog count s s') : s'.host = s.host := by
  rcases h with ⟨_, rfl⟩ | ⟨_, rfl⟩ <;> rfl

/-- What the check of an array says. -/
structure ArrFit (K : View) (E : Env (List Ev)) (sf : St (List Ev)) (code : List Byte) (w : Pin) (R : P → P → Prop) : Prop where
  body : ∃ b, Snd K E sf code w b R ∧ b.aligned.le w = true
  nested : nestedFrom code 0 = true

theorem entered_got (hH : E.host = taker K) (hA : ArrFit K E sf code w R) {count : Nat} (hc : count < 0xFFFFFFFF)
    (hat : At E.prog s.ip (code ++ [0x38])) (hf : Fits K p w s) (he : Entered E.prog count s s') (ha : Acc E sf s') :
    Got K E sf (code.length + 1) w (ArrBody R code count p) s := by
  rcases he with ⟨h0, rfl⟩ | ⟨h0, rfl⟩
  · refine ⟨_, p, ?_, ?_, ?_, ha⟩
    · unfold ArrBody
      rw [if_pos h0]
      exact ⟨nested_of hA.nested, rfl⟩
    · refine ⟨?_, rfl, rfl⟩
      dsimp only; rw [skipBody_nestedFrom hA.nested hat]; omega
    · exact ⟨hf.bit, hf.pos, hf.be, hf.evs, hf.trans, hf.opt, hf.al, hf.order⟩
  · obtain ⟨b, hb, hle⟩ := hA.body
    obtain ⟨n, rfl⟩ := Nat.exists_eq_succ_of_ne_zero (Nat.ne_of_gt h0)
    obtain ⟨s', m, r, e1, e2, e3, e4, e5⟩ := rounds_got hH hb hle s.loops s.ip hat n
      { s with loops := ⟨s.ip, n + 1⟩ :: s.loops } p (by omega) rfl rfl
      ⟨hf.bit, hf.pos, hf.be, hf.evs, hf.trans, hf.opt, hf.al, hf.order⟩ ha
    refine ⟨s', _, ?_, ⟨e1, e2, e3⟩, e4, e5⟩
    unfold ArrBody
    rw [if_neg (by omega)]
    exact ⟨m, r, rfl⟩

/-- An array whose head has been read. -/
theorem head_got (hH : E.host = taker K) (hA : ArrFit K E sf code w R) (hw : a.aligned.le w = true) {k n key : Nat} {op : Byte} {v : Word}
    {s0 : St (List Ev)} (hat : At E.prog (s.ip + k) (code ++ [0x38])) (hK : K key = false) (hf : Fits K p a s)
    (ht : Took2 k n [.num key op v] s.opt s s0) (hc : v.toNat < 0xFFFFFFFF) (he : Entered E.prog v.toNat s0 s') (ha : Acc E sf s') :
    Got K E sf (k + (code.length + 1)) w (ArrBody R code v.toNat (p.bytes n [.num key op v])) s := by
  have ht' : Took2 k n [.num key op v] a.opt s s0 := ⟨ht.ip, ht.loops, ht.len, ht.be, ht.host, ht.bit, ht.trans, ht.cur, fun e => hf.opt (ht.opt e)⟩
  obtain ⟨h1, h2⟩ := fits_took hf ht'
  rw [vis_one hK] at h2
  obtain ⟨t, q, r, p1, f1, a1⟩ := entered_got hH hA hc (h1.ip ▸ hat) (h2.mono hw) he ha
  exact ⟨t, q, r, h1.then p1, f1, a1⟩

theorem fine_count {op : Byte} {key : Nat} {v : Word} (hop : op = 0x34 ∨ op = 0x35 ∨ op = 0x36 ∨ op = 0x37 ∨ op = 0x3B)
    (h : (Ev.num key op v).fine L = true) (hv : v.toNat < 2 ^ 32) : v.toNat < 0xFFFFFFFF := by
  have hne : v ≠ 0xFFFFFFFF := by
    rcases hop with rfl | rfl | rfl | rfl | rfl <;> simpa [Ev.fine] using h
  have : v.toNat ≠ 0xFFFFFFFF := fun e => hne (BitVec.eq_of_toNat_eq e)
  omega

theorem snd_arrFixed (hH : E.host = taker K) {k0 k1 : Byte} {n : Word} (hn : n.toNat < 0xFFFFFFFF) (hK : K (keyNum k0 k1) = false)
    (hA : ArrFit K E sf code w R) (hw : a.aligned.le w = true) :
    Snd K E sf (([0x34, k0, k1] ++ leBytes 4 n) ++ (code ++ [0x38])) a w
      (fun p q => n.toNat < 0xFFFFFFFF ∧ K (keyNum k0 k1) = false ∧
        ArrBody R code n.toNat (p.bytes 0 [.num (keyNum k0 k1) 0x34 n]) q) := by
  intro s p hat hf ha
  have hat0 : At E.prog s.ip (0x34 :: ([k0, k1] ++ leBytes 4 n)) := hat.left
  have hat1 := hat.right
  simp only [List.length_append, List.length_cons, List.length_nil, leBytes_length] at hat1
  have hP : Pass (fun s' => ∃ s0, Took2 7 0 [.num (keyNum k0 k1) 0x34 n] s.opt s s0 ∧ Entered E.prog n.toNat s0 s') (step E s) := by
    rw [step_pre hat0, pre_aligned 0x34 s rfl]
    show Pass _ (handleArrFixed E 0x34 _)
    unfold handleArrFixed
    refine post_fetB hat0.tail.left rfl (by omega) ?_
    refine post_fetB (bs := leBytes 4 n) hat0.tail.right (by simp) (by omega) ?_
    refine post_give hH (by decide) ?_
    rw [leWord_key, leWord_leBytes_lt (by omega) (by omega), truncB_of_lt 4 n (by omega)]
    exact pass_imp (enter_pass hH _) fun s' h => ⟨_, (by exact ⟨rfl, rfl, rfl, rfl, rfl, rfl, hf.trans, .inl rfl, id⟩), h⟩
  obtain ⟨s', ⟨s0, ht, he⟩, ha'⟩ := acc_step ha hP
  obtain ⟨t, q, r, g⟩ := head_got hH hA hw (k := 7) hat1 hK hf ht hn he ha'
  refine ⟨t, q, ⟨hn, hK, r⟩, ?_⟩
  simpa only [List.length_append, List.length_cons, List.length_nil, leBytes_length, Nat.zero_add] using g

theorem snd_arrPre (hH : E.host = taker K) (henc : E.enc = false) (hfine : ∀ e ∈ vis K sf.host, e.fine L = true) {r : Pre} {k0 k1 : Byte}
    (hK : K (keyNum k0 k1) = false) (hA : ArrFit K E sf code w R) (hw : a.aligned.le w = true) :
    Snd K E sf ([r.arrOp, k0, k1] ++ (code ++ [0x38])) a w
      (fun p q => ∃ n : Word, n.toNat < 2 ^ (8 * r.size) ∧ n.toNat < 0xFFFFFFFF ∧ K (keyNum k0 k1) = false ∧
        ArrBody R code n.toNat (p.bytes r.size [.num (keyNum k0 k1) r.arrOp n]) q) := by
  intro s p hat hf ha
  have hal : aligns r.arrOp = true := by cases r <;> rfl
  have hat0 : At E.prog s.ip (r.arrOp :: [k0, k1]) := hat.left
  have hat1 := hat.right
  simp only [List.length_cons, List.length_nil] at hat1
  obtain ⟨hs0, hs4, _⟩ := pre_size_small r
  have hP : Pass (fun s' => ∃ n s0, n.toNat < 2 ^ (8 * r.size) ∧ Took2 3 r.size [.num (keyNum k0 k1) r.arrOp n] s.opt s s0 ∧
      Entered E.prog n.toNat s0 s') (step E s) := by
    rw [step_pre hat0, pre_aligned _ s hal]
    have hx : ∀ t : St (List Ev), execOp E r.arrOp t = handleArrPre E r r.arrOp t := by intro t; cases r <;> rfl
    rw [hx]
    unfold handleArrPre
    refine post_fetB hat0.tail rfl (by omega) ?_
    rw [henc]
    simp only [Bool.false_eq_true, if_false]
    refine post_dite (fun _ => fun e => by cases e) fun hc => ?_
    refine post_rdAt (fun bs hbs => ?_) fun _ => trivial
    have hlt : (rdWord s.be bs).toNat < 2 ^ (8 * r.size) := by
      have hl := slice_length hbs
      rw [← hl]; exact toNat_rdWord_lt _ _ (by rw [hl]; omega)
    refine post_give hH (by cases r <;> decide) ?_
    rw [leWord_key, truncB_of_lt r.size _ hlt]
    exact pass_imp (enter_pass hH _) fun s' h => ⟨_, _, hlt, (by exact ⟨rfl, rfl, rfl, rfl, rfl, rfl, hf.trans, .inl rfl, id⟩), h⟩
  obtain ⟨s', ⟨n, s0, hn, ht, he⟩, ha'⟩ := acc_step ha hP
  have hh := acc_grow hH ha'
  rw [he.host, ht.host] at hh
  have hn32 : n.toNat < 2 ^ 32 := Nat.lt_of_lt_of_le hn (Nat.pow_le_pow_right (by decide) (by omega))
  have hc := fine_count (by cases r <;> decide) (fine_last hfine (vis_one hK) hh) hn32
  obtain ⟨t, q, r', g⟩ := head_got hH hA hw (k := 3) hat1 hK hf ht hc he ha'
  refine ⟨t, q, ⟨n, hn, hc, hK, r'⟩, ?_⟩
  simpa only [List.length_append, List.length_cons, List.length_nil, Nat.zero_add] using g

theorem snd_arrDyn (hH : E.host = taker K) (hfine : ∀ e ∈ vis K sf.host, e.fine L = true) {k0 k1 r0 r1 : Byte}
    (hK : K (keyNum k0 k1) = false) (hKr : K (keyNum r0 r1) = false) (hA : ArrFit K E sf code w R) (hw : a.aligned.le w = true) :
    Snd K E sf ([0x3B, k0, k1, r0, r1] ++ (code ++ [0x38])) a w
      (fun p q => ∃ n : Word, K.look (keyNum r0 r1) p.evs = some n ∧ n.toNat < 0xFFFFFFFF ∧
        K (keyNum k0 k1) = false ∧ K (keyNum r0 r1) = false ∧
        ArrBody R code n.toNat (p.bytes 0 [.num (keyNum k0 k1) 0x3B n]) q) := by
  intro s p hat hf ha
  have hat0 : At E.prog s.ip (0x3B :: ([k0, k1] ++ [r0, r1])) := hat.left
  have hat1 := hat.right
  simp only [List.length_cons, List.length_nil] at hat1
  have hP : Pass (fun s' => ∃ n s0, K.look (keyNum r0 r1) p.evs = some n ∧ n.toNat < 2 ^ 32 ∧
      Took2 5 0 [.num (keyNum k0 k1) 0x3B n] s.opt s s0 ∧ Entered E.prog n.toNat s0 s') (step E s) := by
    rw [step_pre hat0, pre_aligned 0x3B s rfl]
    show Pass _ (handleArrDynamic E 0x3B _)
    unfold handleArrDynamic
    refine post_fetB hat0.tail.left rfl (by omega) ?_
    refine post_fetB (bs := [r0, r1]) hat0.tail.right rfl (by omega) ?_
    rw [leWord_key, leWord_key]
    refine post_ask hH (.inl rfl) hKr (fun v hv => ?_) fun e => by cases e
    rw [truncB_of_lt 8 v (by have := v.isLt; omega)]
    refine post_dite (fun _ => fun e => by cases e) fun hc => ?_
    refine post_give hH (by decide) ?_
    rw [truncB_of_lt 4 v (by omega)]
    dsimp only at hv
    rw [hf.evs] at hv
    exact pass_imp (enter_pass hH _) fun s' h => ⟨v, _, hv, by omega, (by exact ⟨rfl, rfl, rfl, rfl, rfl, rfl, hf.trans, .inl rfl, id⟩), h⟩
  obtain ⟨s', ⟨n, s0, hl, hn, ht, he⟩, ha'⟩ := acc_step ha hP
  have hh := acc_grow hH ha'
  rw [he.host, ht.host] at hh
  have hc := fine_count (by decide) (fine_last hfine (vis_one hK) hh) hn
  obtain ⟨t, q, r', g⟩ := head_got hH hA hw (k := 5) hat1 hK hf ht hc he ha'
  refine ⟨t, q, ⟨n, hl, hc, hK, hKr, r'⟩, ?_⟩
  simpa only [List.length_append, List.length_cons, List.length_nil, Nat.zero_add] using g

theorem arrStrict_fit {check : Pin → Option Pin} (h : arrStrict check code a = some w)
    (hs : ∀ a r, check a = some r → Snd K E sf code a r R) : ArrFit K E sf code w R ∧ a.le w = true := by
  unfold arrStrict at h
  obtain ⟨r, h1, h⟩ := Option.bind_eq_some_iff.1 h
  obtain ⟨q, h2, h⟩ := Option.bind_eq_some_iff.1 h
  split at h
  · rename_i hc
    injection h with h
    subst h
    rw [Bool.and_eq_true] at hc
    exact ⟨⟨⟨q, hs _ _ h2, hc.1⟩, hc.2⟩, pin_le_left _ _⟩
  · cases h

/-! ### Fields as described -/

theorem fld_snd (hH : E.host = taker K) (henc : E.enc = false) (hfine : ∀ e ∈ vis K sf.host, e.fine L = true) (f : Fld) :
    ∀ a r, f.strict K.hid L a = some r → Snd K E sf f.code a r (Rec K f) := by
  induction f with
  | empty => intro a r h; injection h with h; subst h; exact Snd.nil
  | seq f g ihf ihg =>
    intro a r h
    unfold Fld.strict at h
    obtain ⟨r1, h1, h2⟩ := Option.bind_eq_some_iff.1 h
    exact (ihf _ _ h1).then (ihg _ _ h2)
  | scalar op k0 k1 =>
    intro a r h
    unfold Fld.strict at h
    split at h
    · rename_i hc
      injection h with h; subst h
      simp only [Bool.and_eq_true, Bool.not_eq_true'] at hc
      exact snd_scalar hH henc hc.1 hc.2
    · cases h
  | range t k0 k1 lo hi =>
    intro a r h
    unfold Fld.strict at h
    split at h
    · rename_i hc
      injection h with h; subst h
      simp only [Bool.and_eq_true, Bool.not_eq_true', Ty.room, decide_eq_true_eq] at hc
      exact snd_range hH henc hc.1.1.1 hc.1.1.2 hc.1.2 hc.2
    · cases h
  | enum t k0 k1 vals =>
    intro a r h
    unfold Fld.strict at h
    split at h
    · rename_i hc
      injection h with h; subst h
      simp only [Bool.and_eq_true, Bool.not_eq_true', List.all_eq_true, Ty.room, decide_eq_true_eq] at hc
      exact snd_enum hH henc hc.1.1.1 hc.1.1.2 hc.1.2 hc.2
    · cases h
  | const t k0 k1 x =>
    intro a r h
    unfold Fld.strict at h
    split at h
    · rename_i hc
      injection h with h; subst h
      simp only [Bool.and_eq_true, Ty.room, decide_eq_true_eq] at hc
      exact snd_const hH henc hc.1 hc.2
    · cases h
  | strNull k0 k1 m0 m1 =>
    intro a r h
    unfold Fld.strict at h
    split at h
    · rename_i hc
      injection h with h; subst h
      exact snd_strNull hH henc hfine hc
    · cases h
  | strPre p k0 k1 => intro a r h; injection h with h; subst h; exact snd_strPre hH henc hfine
  | bitU k0 k1 n =>
    intro a r h
    unfold Fld.strict at h
    split at h
    · rename_i hc
      injection h with h; subst h
      simp only [Bool.and_eq_true, Bool.not_eq_true', decide_eq_true_eq] at hc
      exact snd_bitU hH henc hc.1 hc.2
    · cases h
  | bitI k0 k1 n =>
    intro a r h
    unfold Fld.strict at h
    split at h
    · rename_i hc
      injection h with h; subst h
      simp only [Bool.and_eq_true, Bool.not_eq_true', decide_eq_true_eq] at hc
      exact snd_bitI hH henc hc.1.1 hc.1.2 hc.2
    · cases h
  | bitBool k0 k1 =>
    intro a r h
    unfold Fld.strict at h
    split at h
    · rename_i hc
      injection h with h; subst h
      simp only [Bool.not_eq_true'] at hc
      exact snd_bitBool hH henc hc
    · cases h
  | pad n =>
    intro a r h
    unfold Fld.strict at h
    split at h
    · rename_i hc
      injection h with h; subst h
      exact snd_pad hH henc hc
    · cases h
  | fill n => intro a r h; injection h with h; subst h; exact snd_fill hH henc
  | setLE =>
    intro a r h
    unfold Fld.strict at h
    split at h
    · rename_i hc
      injection h with h; subst h
      exact snd_order (big := false) hH hc
    · cases h
  | setBE =>
    intro a r h
    unfold Fld.strict at h
    split at h
    · rename_i hc
      injection h with h; subst h
      exact snd_order (big := true) hH hc
    · cases h
  | nop => intro a r h; injection h with h; subst h; exact snd_noop hH (.inl rfl)
  | enterBit => intro a r h; injection h with h; subst h; exact snd_noop hH (.inr rfl)
  | exitBit =>
    intro a r h
    unfold Fld.strict at h
    split at h
    · rename_i hc
      injection h with h; subst h
      exact snd_exitBit hH hc
    · cases h
  | version x => intro a r h; injection h with h; subst h; exact snd_version hH
  | name x y => intro a r h; injection h with h; subst h; exact snd_name hH
  | struct k0 k1 f ih => intro a r h; exact snd_struct hH (ih _ _ h)
  | arrFixed k0 k1 n f ih =>
    intro a r h
    unfold Fld.strict at h
    split at h
    · rename_i hc
      simp only [Bool.and_eq_true, Bool.not_eq_true', decide_eq_true_eq] at hc
      obtain ⟨hA, hw⟩ := arrStrict_fit h ih
      exact snd_arrFixed hH hc.1 hc.2 hA hw
    · cases h
  | arrPre p k0 k1 f ih =>
    intro a r h
    unfold Fld.strict at h
    split at h
    · rename_i hc
      simp only [Bool.not_eq_true'] at hc
      obtain ⟨hA, hw⟩ := arrStrict_fit h ih
      exact snd_arrPre hH henc hfine hc hA hw
    · cases h
  | arrDyn k0 k1 r0 r1 f ih =>
    intro a r h
    unfold Fld.strict at h
    split at h
    · rename_i hc
      simp only [Bool.and_eq_true, Bool.not_eq_true'] at hc
      obtain ⟨hA, hw⟩ := arrStrict_fit h ih
      exact snd_arrDyn hH hfine hc.1 hc.2 hA hw
    · cases h
  | crc c =>
    intro a r h
    unfold Fld.strict at h
    split at h
    · rename_i hc
      injection h with h; subst h
      simp only [decide_eq_true_eq] at hc
      exact snd_crc hH henc hc
    · cases h

/-! ### Expressions -/

theorem alu_val {z : Alu} {v : Word} {r : EVal} (h : AluIs z r) (hz : z = .val v) : r = .val v.toNat := by
  subst hz
  cases r with
  | val n => exact congrArg EVal.val (Eq.symm h)
  | divZero => exact h.elim
  | undef => exact h.elim

/-- The code of an expression leaves its value, if the run goes on to the end. -/
theorem expr_acc (hH : E.host = taker K) (e : IExpr) : ∀ s : St (List Ev), At E.prog s.ip e.code → (∀ k ∈ e.keys, K k = false) → Acc E sf s →
    ∃ w, Acc E sf { s with ip := s.ip + e.code.length, stack := w :: s.stack } ∧
      e.value (valuesIn K (vis K s.host)) = .val w.toNat ∧ ∀ k ∈ e.keys, K.look k (vis K s.host) ≠ none := by
  induction e with
  | lit l =>
    intro s hat _ ha
    have hat' : At E.prog s.ip (0x61 :: leBytes 8 l) := hat
    have hP : Pass (fun s' => s' = { s with ip := s.ip + 9, stack := l :: s.stack }) (step E s) := by
      rw [step_pre hat', pre_unaligned _ s rfl]
      show Pass _ (fet E _ 8 fun w s => push s w)
      refine post_fetB hat'.tail (by simp) (by omega) ?_
      rw [leWord_leBytes_lt (by omega) (by have := l.isLt; omega)]
      apply post_push
      · intro _; rfl
      · intro _ e; cases e
    obtain ⟨s', rfl, ha'⟩ := acc_step ha hP
    refine ⟨l, ?_, rfl, fun k hk => by cases hk⟩
    simpa only [IExpr.code, List.length_cons, leBytes_length] using ha'
  | fld k0 k1 =>
    intro s hat hk ha
    have hat' : At E.prog s.ip (0x60 :: [k0, k1]) := hat
    have hK : K (keyNum k0 k1) = false := hk _ (by simp [IExpr.keys])
    have hP : Pass (fun s' => ∃ w, K.look (keyNum k0 k1) (vis K s.host) = some w ∧ s' = { s with ip := s.ip + 3, stack := w :: s.stack }) (step E s) := by
      rw [step_pre hat', pre_unaligned _ s rfl]
      show Pass _ (handleLoadCtx E 0x60 _)
      unfold handleLoadCtx
      refine post_fetB hat'.tail rfl (by omega) ?_
      rw [leWord_key]
      refine post_ask hH (.inr rfl) hK (fun w hw => ?_) fun e => by cases e
      rw [truncB_of_lt 8 w (by have := w.isLt; omega)]
      apply post_push
      · intro _; exact ⟨w, hw, rfl⟩
      · intro _ e; cases e
    obtain ⟨s', ⟨w, hw, rfl⟩, ha'⟩ := acc_step ha hP
    refine ⟨w, ha', ?_, ?_⟩
    · unfold IExpr.value valuesIn
      rw [hw]; rfl
    · intro k hk'
      have : k = keyNum k0 k1 := by simpa [IExpr.keys] using hk'
      rw [this, hw]
      intro e; cases e
  | un o e ih =>
    intro s hat hk ha
    have hat' : At E.prog s.ip (e.code ++ [o.byte]) := hat
    obtain ⟨w, ha1, hv, hs⟩ := ih s hat'.left hk ha
    have hP : Pass (fun s' => ∃ z, o.value w.toNat = .val z.toNat ∧ s' = { s with ip := s.ip + (e.code.length + 1), stack := z :: s.stack })
        (step E { s with ip := s.ip + e.code.length, stack := w :: s.stack }) := by
      rw [un_runs (o := o) hat'.right]
      unfold unary
      dsimp only
      apply post_aluDone
      · intro z hz
        apply post_push
        · intro _; exact ⟨z, alu_val (iun_value E.fl o w) hz, rfl⟩
        · intro _ e; cases e
      · intro e he h
        subst h
        have := iun_value E.fl o w
        rw [he] at this
        cases hr : o.value w.toNat <;> rw [hr] at this <;> first | exact this.elim | cases this
      · intro _ _; trivial
    obtain ⟨s', ⟨z, hz, rfl⟩, ha'⟩ := acc_step ha1 hP
    refine ⟨z, ?_, ?_, hs⟩
    · simpa only [IExpr.code, List.length_append, List.length_cons, List.length_nil, Nat.zero_add] using ha'
    · unfold IExpr.value
      rw [hv]
      exact hz
  | bin o l r ihl ihr =>
    intro s hat hk ha
    have hat' : At E.prog s.ip (l.code ++ (r.code ++ [o.byte])) := hat
    obtain ⟨w, ha1, hv, hs⟩ := ihl s hat'.left (fun k h => hk k (List.mem_append_left _ h)) ha
    obtain ⟨v, ha2, hv2, hs2⟩ := ihr _ hat'.right.left (fun k h => hk k (List.mem_append_right _ h)) ha1
    have hP : Pass (fun s' => ∃ z, o.value w.toNat v.toNat = .val z.toNat ∧
        s' = { s with ip := s.ip + (l.code.length + (r.code.length + 1)), stack := z :: s.stack })
        (step E { s with ip := s.ip + l.code.length + r.code.length, stack := v :: w :: s.stack }) := by
      rw [bin_runs (o := o) hat'.right.right]
      unfold binary
      dsimp only
      apply post_aluDone
      · intro z hz
        apply post_push
        · intro _
          refine ⟨z, alu_val (ibin_value o w v) hz, ?_⟩
          dsimp only
          congr 1
          omega
        · intro _ e; cases e
      · intro e he h
        subst h
        have := ibin_value o w v
        rw [he] at this
        cases hr : o.value w.toNat v.toNat <;> rw [hr] at this <;> first | exact this.elim | cases this
      · intro _ _; trivial
    obtain ⟨s', ⟨z, hz, rfl⟩, ha'⟩ := acc_step ha2 hP
    refine ⟨z, ?_, ?_, ?_⟩
    · simpa only [IExpr.code, List.length_append, List.length_cons, List.length_nil, Nat.zero_add] using ha'
    · unfold IExpr.value
      rw [hv]
      dsimp only at hv2 ⊢
      rw [hv2]
      exact hz
    · intro k hk'
      rcases List.mem_append.1 hk' with h | h
      · exact hs k h
      · exact hs2 k h

theorem strict_keys {e : IExpr} (h : e.strict K.hid = true) : e.depth ≤ 8 ∧ ∀ k ∈ e.keys, K k = false := by
  simp only [IExpr.strict, Bool.and_eq_true, decide_eq_true_eq, List.all_eq_true, Bool.not_eq_true'] at h
  exact h

/-- The same place with another stack. -/
theorem Fits.stack (hf : Fits K p a s) (i : Nat) (st : List Word) : Fits K p a { s with ip := i, stack := st } :=
  ⟨hf.bit, hf.pos, hf.be, hf.evs, hf.trans, hf.opt, hf.al, hf.order⟩

theorem snd_opt (hH : E.host = taker K) : Snd K E sf [0x4A] a ⟨a.pos, a.be, true⟩ (fun p q => q = p) := by
  refine Snd.one (fun s p hat hf _ => ?_) hH
  have hp := pre_unaligned 0x4A s rfl
  show Pass _ (.run { pre 0x4A s with opt := true })
  rw [hp]
  intro _
  exact ⟨p, rfl, ⟨rfl, rfl, rfl⟩, ⟨hf.bit, hf.pos, hf.be, hf.evs, hf.trans, fun _ => rfl, hf.al, hf.order⟩⟩

/-- A change of the byte order that a computed or transformed field brings with it. -/
theorem big_acc {big : Bool} {m : St (List Ev)} (hat : At E.prog m.ip (if big then [0x02] else [])) (ha : Acc E sf m) :
    Acc E sf { m with ip := m.ip + (if big then [(0x02 : Byte)] else []).length, be := m.be || big } := by
  cases big with
  | false => simpa using ha
  | true =>
    have := acc_run ha (setBE_step hat)
    simpa using this

theorem fits_big {big : Bool} (hf : Fits K p a s) : Fits K ⟨p.pos, p.be || big, p.evs⟩ ⟨a.pos, a.big big, a.opt⟩ { s with be := s.be || big } := by
  refine ⟨hf.bit, hf.pos, by dsimp only; rw [hf.be], hf.evs, hf.trans, hf.opt, hf.al, fun b e => ?_⟩
  unfold Pin.big at e
  dsimp only at e ⊢
  cases big with
  | true => simp at e; simp [← e]
  | false => simp at e; rw [hf.order b e]; simp

/-! ### Computed fields -/

theorem snd_calc (hH : E.host = taker K) (henc : E.enc = false) {e : IExpr} {big : Bool} {tag k0 k1 : Byte} (he : e.strict K.hid = true)
    (hK : K (keyNum k0 k1) = false) (hw : (intWidth tag).isSome = true) (h0 : a.pos = some 0) :
    Snd K E sf (Sch.calc e big tag k0 k1).code a ⟨some 0, a.big big, a.opt⟩
      (fun p q => ∃ n m : Nat, intWidth tag = some n ∧ e.sees K p.evs ∧
        e.value (valuesIn K p.evs) = .val m ∧ m < 2 ^ (8 * n) ∧ p.pos % 8 = 0 ∧ K (keyNum k0 k1) = false ∧
        q = (⟨p.pos, p.be || big, p.evs⟩ : P).bytes n [.num (keyNum k0 k1) 0x78 (BitVec.ofNat 64 m)]) := by
  obtain ⟨n, hn⟩ := Option.isSome_iff_exists.1 hw
  obtain ⟨hd, hk⟩ := strict_keys he
  intro s p hat hf ha
  have hat0 : At E.prog s.ip (e.code ++ ((if big then [0x02] else []) ++ ([0x64] ++ ([0x78, k0, k1] ++ [0x65, tag])))) := by
    unfold Sch.code at hat; exact hat
  obtain ⟨w, ha1, hv, hs⟩ := expr_acc hH e s hat0.left hk ha
  have ha2 := big_acc (m := { s with ip := s.ip + e.code.length, stack := w :: s.stack }) hat0.right.left ha1
  have hat2 := hat0.right.right
  dsimp only at ha2
  generalize hB : (if big then [(0x02 : Byte)] else []).length = B at ha2 hat2
  have hat3 := hat2.right
  have hat4 := hat3.right
  simp only [List.length_cons, List.length_nil, Nat.zero_add] at hat3 hat4
  -- duplicate
  have hP1 : Pass (fun s' => s' = { s with ip := s.ip + e.code.length + B + 1, stack := w :: w :: s.stack, be := s.be || big })
      (step E { s with ip := s.ip + e.code.length + B, stack := w :: s.stack, be := s.be || big }) := by
    rw [step_pre hat2.left, pre_unaligned 0x64 _ rfl]
    show Pass _ (push _ w)
    apply post_push
    · intro _; rfl
    · intro _ e; cases e
  obtain ⟨_, rfl, ha3⟩ := acc_step ha2 hP1
  -- store
  have hP2 : Pass (fun s' => s' = { s with ip := s.ip + e.code.length + B + 1 + 3, stack := w :: s.stack, be := s.be || big,
                                           host := s.host ++ [.num (keyNum k0 k1) 0x78 w] })
      (step E { s with ip := s.ip + e.code.length + B + 1, stack := w :: w :: s.stack, be := s.be || big }) := by
    rw [step_pre hat3.left, pre_unaligned 0x78 _ rfl]
    show Pass _ (handleStoreCtx E 0x78 _)
    unfold handleStoreCtx
    refine post_fetB hat3.left.tail rfl (by omega) ?_
    dsimp only
    rw [leWord_key]
    refine post_give hH (by decide) ?_
    rfl
  obtain ⟨_, rfl, ha4⟩ := acc_step ha3 hP2
  -- emit
  obtain ⟨h1, h2, h3, h4, h5⟩ := intWidth_emit hn
  have hP3 : Pass (fun s' => w.toNat < 2 ^ (8 * n) ∧
        s' = { s with ip := s.ip + e.code.length + B + 1 + 3 + 2, be := s.be || big, cursor := s.cursor + n,
                      host := s.host ++ [.num (keyNum k0 k1) 0x78 w] })
      (step E { s with ip := s.ip + e.code.length + B + 1 + 3, stack := w :: s.stack, be := s.be || big,
                       host := s.host ++ [.num (keyNum k0 k1) 0x78 w] }) := by
    rw [step_pre hat4, pre_unaligned 0x65 _ rfl]
    show Pass _ (handleEmit E _)
    unfold handleEmit
    refine post_fetB hat4.tail rfl (by omega) ?_
    dsimp only
    rw [h1]
    dsimp only
    refine post_dite (fun _ => fun e => by cases e) fun hc => ?_
    rw [henc]
    simp only [Bool.false_eq_true, if_false]
    refine post_rdAt (fun bs hbs => ?_) fun _ => trivial
    have hlt : (rdWord (s.be || big) bs).toNat < 2 ^ (8 * n) := by
      have hl := slice_length hbs
      rw [← hl]; exact toNat_rdWord_lt _ _ (by rw [hl]; omega)
    simp only [if_neg h2, if_neg h3]
    refine post_dite (fun _ => fun e => by cases e) fun hb => ?_
    have hbw : rdWord (s.be || big) bs = w := by simpa using hb
    exact ⟨hbw ▸ hlt, rfl⟩
  obtain ⟨_, ⟨hlt, rfl⟩, ha5⟩ := acc_step ha4 hP3
  have hp0 := hf.al 0 h0
  rw [hf.evs] at hv hs
  refine ⟨_, _, ⟨n, w.toNat, hn, ⟨hd, fun k h => ⟨hk k h, hs k h⟩⟩, hv, hlt, hp0, hK, rfl⟩, ?_, ?_, ha5⟩
  · refine ⟨?_, rfl, rfl⟩
    simp only [Sch.code, List.length_append, hB, List.length_cons, List.length_nil]
    omega
  · have hup : up8 p.pos = p.pos := by unfold up8; omega
    have g := fits_big (big := big) hf
    refine ⟨hf.bit, ?_, g.be, ?_, hf.trans, hf.opt, ?_, g.order⟩
    · show 8 * (s.cursor + n) + s.bit = up8 p.pos + 8 * n ∨ 8 * s.buf.length < up8 p.pos + 8 * n
      rw [hup]
      rcases hf.pos with h | h
      · left; unfold St.at at h; omega
      · right; omega
    · show vis K (s.host ++ _) = p.evs ++ _
      rw [vis_append, hf.evs, vis_one hK, BitVec.ofNat_toNat, BitVec.setWidth_eq]
    · intro m e
      injection e with e
      subst e
      show (up8 p.pos + 8 * n) % 8 = 0
      omega

/-! ### Transforms -/

theorem toI64_holds {t : Ty} (ht : t ≠ .u64) {v : Word} (hv : v.toNat < 2 ^ (8 * t.size)) : t.holds (t.toI64 v).toInt := by
  have h1 : ∀ (n : Nat) (x : BitVec n), 0 < n → n ≤ 64 → -(2 ^ (n - 1) : Int) ≤ (x.signExtend 64).toInt ∧ (x.signExtend 64).toInt < 2 ^ (n - 1) := by
    intro n x h0 hn
    rw [BitVec.toInt_signExtend_of_le (by omega)]
    have h1 := BitVec.le_toInt x
    have h2 := BitVec.toInt_lt (x := x)
    exact ⟨h1, h2⟩
  have h2 : v.toNat < 2 ^ 63 → v.toInt = v.toNat := by
    intro h
    rw [BitVec.toInt_eq_toNat_cond, if_pos (by omega)]
  unfold Ty.holds
  cases t
  case u8 => simp only [Ty.size] at hv; show 0 ≤ v.toInt ∧ v.toInt < _; rw [h2 (by omega)]; simp only [Ty.size]; omega
  case u16 => simp only [Ty.size] at hv; show 0 ≤ v.toInt ∧ v.toInt < _; rw [h2 (by omega)]; simp only [Ty.size]; omega
  case u32 => simp only [Ty.size] at hv; show 0 ≤ v.toInt ∧ v.toInt < _; rw [h2 (by omega)]; simp only [Ty.size]; omega
  case u64 => exact absurd rfl ht
  case i8 => exact h1 8 _ (by omega) (by omega)
  case i16 => exact h1 16 _ (by omega) (by omega)
  case i32 => exact h1 32 _ (by omega) (by omega)
  case i64 => exact toInt_word _

theorem i64?_some {y : Int} {e : Word} (h : i64? y = some e) : e.toInt = y := by
  unfold i64? at h
  split at h
  · rename_i hc
    injection h with h
    rw [← h]
    exact toInt_ofInt64 hc.1 hc.2
  · cases h

/-- Dividing and multiplying back comes no further from zero. -/
theorem tdiv_mul_between (r c : Int) : (0 ≤ r → 0 ≤ r.tdiv c * c ∧ r.tdiv c * c ≤ r) ∧ (r ≤ 0 → r ≤ r.tdiv c * c ∧ r.tdiv c * c ≤ 0) := by
  have h1 := Int.mul_tdiv_add_tmod r c
  rw [Int.mul_comm] at h1
  have h2 : (r.tmod c).natAbs = r.natAbs % c.natAbs := Int.natAbs_tmod r c
  have h3 : r.natAbs % c.natAbs ≤ r.natAbs := Nat.mod_le _ _
  constructor
  · intro h
    have := Int.tmod_nonneg c h
    omega
  · intro h
    have := Int.tmod_nonneg c (a := -r) (by omega)
    rw [Int.neg_tmod] at this
    omega

theorem holds_between {t : Ty} {r r' : Int} (h : t.holds r) (h1 : 0 ≤ r → 0 ≤ r' ∧ r' ≤ r) (h2 : r ≤ 0 → r ≤ r' ∧ r' ≤ 0) : t.holds r' := by
  unfold Ty.holds at h ⊢
  have hp : ∀ n : Nat, (0 : Int) < 2 ^ n := fun n => Int.pow_pos (by decide)
  have := hp (8 * t.size - 1)
  split
  · rename_i hs
    rw [if_pos hs] at h
    rcases Int.le_total 0 r with h0 | h0
    · have := h1 h0; omega
    · have := h2 h0; omega
  · rename_i hs
    rw [if_neg hs] at h
    have := h1 h.1
    omega

theorem eng_rel {x : ITrans} {t : Ty} {c v e : Word} (hc : x = .mul ∨ x = .div → c ≠ 0) (h : intToEng x.tr c v = some e) (hv : t.holds v.toInt) :
    ∃ r, x.rel c.toInt e.toInt r ∧ t.holds r ∧ r < 2 ^ 63 := by
  have hi := toInt_word v
  have hn : c ≠ 0 → c.toInt ≠ 0 := fun h e => h (BitVec.eq_of_toInt_eq e)
  cases x
  case add => exact ⟨_, i64?_some h, hv, hi.2⟩
  case sub => exact ⟨_, i64?_some h, hv, hi.2⟩
  case mul => exact ⟨_, ⟨hn (hc (.inl rfl)), i64?_some h⟩, hv, hi.2⟩
  case div =>
    have h0 := hc (.inr rfl)
    have h' : i64? (v.toInt.tdiv c.toInt) = some e := by
      have : intToEng .div c v = if c ≠ 0 then i64? (v.toInt.tdiv c.toInt) else some v := rfl
      rw [← if_pos (c := c ≠ 0) (t := i64? (v.toInt.tdiv c.toInt)) (e := some v) h0, ← this]
      exact h
    have hb := tdiv_mul_between v.toInt c.toInt
    refine ⟨_, ⟨hn h0, rfl⟩, ?_, ?_⟩
    · rw [i64?_some h']
      exact holds_between hv hb.1 hb.2
    · rw [i64?_some h']
      rcases Int.le_total 0 v.toInt with h0 | h0
      · have := hb.1 h0; omega
      · have := hb.2 h0; omega

theorem snd_trans (hH : E.host = taker K) (henc : E.enc = false) {x : ITrans} {c0 : Word} {big : Bool} {t : Ty} {k0 k1 : Byte}
    (ho : a.opt = false) (hK : K (keyNum k0 k1) = false) (ht : t ≠ .u64) (hc : x = .mul ∨ x = .div → c0 ≠ 0)
    (hb : big = true → a.turns true = true) :
    Snd K E sf (Sch.trans x c0 big t k0 k1).code a ⟨some 0, a.big big, false⟩
      (fun p q => ∃ e r : Int, x.rel c0.toInt e r ∧ t.holds r ∧ r < 2 ^ 63 ∧
        -(2 ^ 63 : Int) ≤ e ∧ e < 2 ^ 63 ∧ K (keyNum k0 k1) = false ∧ (big = true → p.pos % 8 = 0 ∨ p.be = true) ∧
        q = (⟨p.pos, p.be || big, p.evs⟩ : P).bytes t.size [.num (keyNum k0 k1) 0x17 (BitVec.ofInt 64 e)]) := by
  intro s p hat hf ha
  have hl9 : ([x.op] ++ leBytes 8 c0).length = 9 := by simp
  have hat0 : At E.prog s.ip (([x.op] ++ leBytes 8 c0) ++ ((if big then [0x02] else []) ++ [t.tag, k0, k1])) := by
    unfold Sch.code at hat; exact hat
  have hat2 : At E.prog (s.ip + 9) ((if big then [0x02] else []) ++ [t.tag, k0, k1]) := hl9 ▸ hat0.right
  have hos : s.opt = false := by
    cases h : s.opt with
    | false => rfl
    | true => have := hf.opt h; rw [ho] at this; cases this
  have ha1 := acc_run ha (trans_step hat0.left)
  have ha2 := big_acc (big := big) (m := { s with ip := s.ip + 9, trans := x.tr, iVal := c0 }) hat2.left ha1
  have hat3 := hat2.right
  dsimp only at ha2
  generalize hB : (if big then [(0x02 : Byte)] else []).length = B at ha2 hat3
  have hal : aligns t.tag = true := by cases t <;> rfl
  have hP : Pass (fun s' => ∃ v e, v.toNat < 2 ^ (8 * t.size) ∧ intToEng x.tr c0 (t.toI64 v) = some e ∧
        s' = { s with ip := s.ip + 9 + B + 3, trans := .none, iVal := c0, be := s.be || big, cursor := s.fieldPos + t.size, bit := 0,
                      opt := false, host := s.host ++ [.num (keyNum k0 k1) 0x17 e] })
      (step E { s with ip := s.ip + 9 + B, trans := x.tr, iVal := c0, be := s.be || big }) := by
    rw [step_pre hat3, pre_aligned _ _ hal, prim_exec]
    unfold handlePrim
    refine post_fetB hat3.tail rfl (by omega) ?_
    dsimp only
    rw [leWord_key, henc, hos]
    refine post_dite (fun _ => ?_) fun hr => ?_
    · simp only [Bool.false_eq_true, if_false]
      intro e; cases e
    · cases x
      all_goals
        simp only [ITrans.tr, Bool.false_eq_true, if_false]
        refine post_rdAt (fun bs hbs => ?_) fun _ => trivial
        have hlt : (rdWord (s.be || big) bs).toNat < 2 ^ (8 * t.size) := by
          have hl := slice_length hbs
          rw [← hl]; exact toNat_rdWord_lt _ _ (by rw [hl]; exact t.size_le)
        split
        · trivial
        · rename_i e he
          refine post_give hH (by decide) ?_
          exact ⟨_, e, hlt, he, rfl⟩
  obtain ⟨s', ⟨v, e, hv, he, rfl⟩, ha3⟩ := acc_step ha2 hP
  have hi := toInt_word e
  obtain ⟨r, hr1, hr2, hr3⟩ := eng_rel hc he (toI64_holds ht hv)
  have g := fits_big (big := big) hf
  obtain ⟨g1, g2⟩ := fits_took (k := 9 + B + 3) (n := t.size) (es := [.num (keyNum k0 k1) 0x17 e]) (o := false)
    (s' := { s with ip := s.ip + 9 + B + 3, trans := .none, iVal := c0, be := s.be || big, cursor := s.fieldPos + t.size, bit := 0,
                    opt := false, host := s.host ++ [.num (keyNum k0 k1) 0x17 e] }) g
    ⟨by dsimp only; omega, rfl, rfl, rfl, rfl, rfl, rfl, .inl rfl, fun e => by cases e⟩
  rw [vis_one hK] at g2
  refine ⟨_, _, ⟨e.toInt, r, hr1, hr2, hr3, hi.1, hi.2, hK, fun h => ?_, rfl⟩, ?_, ?_, ha3⟩
  · have := hb h
    unfold Pin.turns at this
    rcases of_decide_eq_true this with h | h
    · exact .inl (hf.al 0 h)
    · exact .inr (hf.order _ h)
  · refine ⟨?_, rfl, rfl⟩
    simp only [Sch.code, List.length_append, hB, List.length_cons, List.length_nil, leBytes_length]
    omega
  · rw [BitVec.ofInt_toInt]
    exact g2

/-! ### Choices -/

theorem jumpIfNot_run {r : Nat} {w : Word} {rest : List Word} (hat : At E.prog s.ip (0x50 :: u32le r)) (hst : s.stack = w :: rest)
    (hr : r < 2 ^ 31) (hle : s.ip + 5 + r ≤ E.prog.length) :
    step E s = .run { s with ip := if w = 0 then s.ip + 5 + r else s.ip + 5, stack := rest } := by
  rw [step_pre hat, pre_unaligned 0x50 _ rfl]
  show handleJumpIfNot E _ = _
  unfold handleJumpIfNot
  refine fet_ok hat.tail (by simp) (by omega) ?_
  dsimp only
  rw [hst]
  dsimp only
  by_cases h : w = 0
  · rw [if_pos h, if_pos h]
    unfold u32le
    rw [goto_ahead hr (by show s.ip + 1 + 4 + r ≤ _; omega)]
  · rw [if_neg h, if_neg h]

/-- A block followed by a jump ahead. -/
theorem block_got (h : Snd K E sf x a b R) {r : Nat} (hat : At E.prog s.ip (x ++ ([0x52] ++ u32le r))) (hf : Fits K p a s) (ha : Acc E sf s)
    (hr : r < 2 ^ 31) (hle : s.ip + x.length + 5 + r ≤ E.prog.length) : Got K E sf (x.length + 5 + r) b (R p) s := by
  obtain ⟨m, q, r1, p1, f1, a1⟩ := h s p hat.left hf ha
  refine ⟨{ m with ip := m.ip + 5 + r }, q, r1, ⟨?_, p1.loops, p1.len⟩, ?_,
    acc_run a1 (jump_ends (r := r) (p1.ip ▸ hat.right) hr (by rw [p1.ip]; omega))⟩
  · dsimp only; rw [p1.ip]; omega
  · exact ⟨f1.bit, f1.pos, f1.be, f1.evs, f1.trans, f1.opt, f1.al, f1.order⟩

theorem Got.moved {k l : Nat} {R : P → Prop} {m : St (List Ev)} (h : Got K E sf l b R m) (hip : m.ip = s.ip + k) (hl : m.loops = s.loops)
    (hb : m.buf.length = s.buf.length) (hbc : b.le c = true) : Got K E sf (k + l) c R s := by
  obtain ⟨t, q, r, p1, f1, a1⟩ := h
  exact ⟨t, q, r, ⟨by rw [p1.ip, hip]; omega, p1.loops.trans hl, p1.len.trans hb⟩, f1.mono hbc, a1⟩

theorem snd_ite (hH : E.host = taker K) (hE : E.prog.length < 2 ^ 31) {e : IExpr} (he : e.strict K.hid = true) {thn els : List Byte} {b1 b2 : Pin}
    (h1 : Snd K E sf thn a b1 R) (h2 : Snd K E sf els a b2 R') :
    Snd K E sf (iteCode e.code thn els) a (b1.join b2) (fun p q => ∃ n : Nat, e.sees K p.evs ∧ e.value (valuesIn K p.evs) = .val n ∧
      if n ≠ 0 then R p q else R' p q) := by
  obtain ⟨hd, hk⟩ := strict_keys he
  intro s p hat hf ha
  have hat' : At E.prog s.ip (e.code ++ ((0x50 :: u32le (thn.length + 5)) ++ ((thn ++ ([0x52] ++ u32le els.length)) ++ els))) := by
    unfold iteCode at hat
    simpa only [List.append_assoc, List.cons_append, List.nil_append] using hat
  have hl := hat'.le (by simp)
  have hlen : (iteCode e.code thn els).length = e.code.length + 5 + (thn.length + 5) + els.length := by
    unfold iteCode
    simp only [List.length_append, List.length_cons, List.length_nil, u32le_length]
    omega
  simp only [List.length_append, List.length_cons, List.length_nil, u32le_length] at hl
  have hatT := hat'.right.right.left
  have hatE := hat'.right.right.right
  simp only [List.length_append, List.length_cons, List.length_nil, u32le_length] at hatT hatE
  rw [hlen]
  obtain ⟨w, ha1, hv, hs⟩ := expr_acc hH e s hat'.left hk ha
  rw [hf.evs] at hv hs
  have ha2 := acc_run ha1 (jumpIfNot_run (r := thn.length + 5) hat'.right.left rfl (by omega) (by dsimp only; omega))
  have hsee : e.sees K p.evs := ⟨hd, fun k h => ⟨hk k h, hs k h⟩⟩
  dsimp only at ha2
  by_cases hw : w = 0
  · rw [if_pos hw] at ha2
    have hg := h2 _ p (by
      dsimp only
      rw [show s.ip + e.code.length + 5 + (thn.length + 5) = s.ip + e.code.length + (4 + 1) + (thn.length + (0 + 1 + 4)) by omega]
      exact hatE) (hf.stack _ s.stack) ha2
    obtain ⟨t, q, r, g⟩ := hg.moved (s := s) (k := e.code.length + 5 + (thn.length + 5)) (by dsimp only; omega) rfl rfl (pin_le_right b1 b2)
    refine ⟨t, q, ⟨w.toNat, hsee, hv, ?_⟩, g⟩
    rw [if_neg (by rw [hw]; simp)]
    exact r
  · rw [if_neg hw] at ha2
    have hg := block_got h1 (r := els.length) (s := { s with ip := s.ip + e.code.length + 5, stack := s.stack }) (by exact hatT)
      (hf.stack _ s.stack) ha2 (by omega) (by dsimp only; omega)
    obtain ⟨t, q, r, g⟩ := hg.moved (s := s) (k := e.code.length + 5) (by dsimp only; omega) rfl rfl (pin_le_left b1 b2)
    refine ⟨t, q, ⟨w.toNat, hsee, hv, ?_⟩, ?_⟩
    · have hw0 : w.toNat ≠ 0 := fun h => hw (BitVec.eq_of_toNat_eq h)
      rw [if_pos hw0]
      exact r
    · rw [show e.code.length + 5 + (thn.length + 5) + els.length = e.code.length + 5 + (thn.length + 5 + els.length) by omega]
      exact g

theorem switch_no {k0 k1 : Byte} {l : List (Option Word × List Byte)} {v : Word} {h : List Ev}
    (hat : At E.prog s.ip (switchCode (keyNum k0 k1) l)) (hhost : E.host.scalar s.host (keyNum k0 k1) 0x06 0 = (false, v, h)) :
    Pass (fun _ => False) (step E s) := by
  have hkey : u16le (keyNum k0 k1) = [k0, k1] := by
    have := leBytes_leWord [k0, k1] (by simp)
    unfold u16le
    rw [← leWord_key, BitVec.ofNat_toNat, BitVec.setWidth_eq]
    exact this
  have hop := table_op (armsAt 0 l) (armsSize l)
  unfold switchCode at hat
  generalize tableOf (armsAt 0 l) (armsSize l) = t at hat hop
  have hat0 : At E.prog s.ip (t.1 :: ([k0, k1] ++ u32le (armsSize l))) := by
    have : At E.prog s.ip (([t.1] ++ u16le (keyNum k0 k1) ++ u32le (armsSize l)) ++ (armsCode t.2.length l ++ t.2)) := by
      simpa only [List.append_assoc] using hat
    have := this.left
    rw [hkey] at this
    exact this
  have hno : ∀ (s' : St (List Ev)) k, s'.host = s.host → Pass (fun _ => False) (callScalar E s' (keyNum k0 k1) 0x06 8 0 k) := by
    intro s' k hs'
    unfold callScalar
    rw [hs', hhost]
    intro e; cases e
  have hat1 := hat0.tail
  rcases hop with hop | hop
  · rw [hop] at hat0
    rw [step_pre hat0, pre_unaligned 0x51 _ rfl]
    show Pass _ (handleSwitch E _)
    unfold handleSwitch
    refine post_fetB hat1.left rfl (by omega) ?_
    refine post_fetB (bs := u32le (armsSize l)) hat1.right (by simp) (by omega) ?_
    refine post_dite (fun _ => fun e => by cases e) fun _ => ?_
    dsimp only
    rw [leWord_key]
    exact hno _ _ rfl
  · rw [hop] at hat0
    rw [step_pre hat0, pre_unaligned 0x53 _ rfl]
    show Pass _ (handleSwitchTable E _)
    unfold handleSwitchTable
    refine post_fetB hat1.left rfl (by omega) ?_
    refine post_fetB (bs := u32le (armsSize l)) hat1.right (by simp) (by omega) ?_
    refine post_dite (fun _ => fun e => by cases e) fun _ => ?_
    dsimp only
    rw [leWord_key]
    exact hno _ _ rfl

theorem snd_switch (hH : E.host = taker K) (hE : E.prog.length < 2 ^ 31) {k0 k1 : Byte} {cs : Cases} {RC : Option Word → P → P → Prop}
    (hK : K (keyNum k0 k1) = false) (hn : cs.labels.length < 2 ^ 16) (hab : a.le b = true)
    (hc : ∀ lab c, cs.codes.lookup lab = some c → Snd K E sf c a b (RC lab)) :
    Snd K E sf (switchCode (keyNum k0 k1) cs.codes) a b
      (fun p q => ∃ v : Word, K.look (keyNum k0 k1) p.evs = some v ∧ K (keyNum k0 k1) = false ∧ cs.labels.length < 2 ^ 16 ∧
        if some v ∈ cs.labels then RC (some v) p q else if none ∈ cs.labels then RC none p q else q = p) := by
  intro s p hat hf ha
  have hask : E.host.scalar s.host (keyNum k0 k1) 0x06 0 = match K.look (keyNum k0 k1) p.evs with
      | some v => (true, v, s.host)
      | none => (false, 0, s.host) := by
    rw [hH, ← hf.evs]
    simp only [taker, hK, Bool.false_eq_true, if_false, true_or, if_true]
    split <;> simp_all
  cases hl : K.look (keyNum k0 k1) p.evs with
  | none =>
    rw [hl] at hask
    obtain ⟨_, h, _⟩ := acc_step ha (switch_no hat hask)
    exact h.elim
  | some v =>
    rw [hl] at hask
    have hst := switch_lands hE hat (by rw [codes_length]; exact hn) hask
    have hlen : (switchCode (keyNum k0 k1) cs.codes).length =
        7 + armsSize cs.codes + (tableOf (armsAt 0 cs.codes) (armsSize cs.codes)).2.length := by
      unfold switchCode
      simp only [List.length_append, List.length_cons, List.length_nil, u32le_length, u16le_length, armsCode_length]
    have hle := hat.le (by unfold switchCode; simp)
    rw [hlen] at hle
    rw [hlen]
    have hatC : At E.prog (s.ip + 7) (armsCode (tableOf (armsAt 0 cs.codes) (armsSize cs.codes)).2.length cs.codes) := by
      unfold switchCode at hat
      have := hat.left.right
      simpa only [List.length_append, List.length_cons, List.length_nil, u32le_length, u16le_length] using this
    generalize tableOf (armsAt 0 cs.codes) (armsSize cs.codes) = t at *
    have ha1 := acc_run ha hst
    have run : ∀ lab o, (armsAt 0 cs.codes).lookup lab = some o → Acc E sf { s with ip := s.ip + 7 + o } →
        Got K E sf (7 + armsSize cs.codes + t.2.length) b (RC lab p) s := by
      intro lab o ho hm
      obtain ⟨c, r, e1, _, e3, e4⟩ := arm_found cs.codes t.2.length 0 (s.ip + 7) lab o ho hatC
      rw [Nat.sub_zero] at e3 e4
      have hg := block_got (hc lab c e1) (r := r) (s := { s with ip := s.ip + 7 + o }) e3 (hf.stack _ s.stack) hm (by omega) (by dsimp only; omega)
      have := hg.moved (s := s) (k := 7 + o) (by dsimp only; omega) rfl rfl (pin_le_refl b)
      rw [show 7 + armsSize cs.codes + t.2.length = 7 + o + (c.length + 5 + r) by omega]
      exact this
    have hin : ∀ lab, ((armsAt 0 cs.codes).lookup lab = none ↔ lab ∉ cs.labels) := fun lab => (arms_lookup _ _ _).trans (codes_lookup cs lab)
    unfold goesTo at ha1
    cases h1 : (armsAt 0 cs.codes).lookup (some v) with
    | some o =>
      rw [h1] at ha1
      obtain ⟨t', q, r, g⟩ := run _ o h1 ha1
      refine ⟨t', q, ⟨v, hl, hK, hn, ?_⟩, g⟩
      rw [if_pos (Classical.not_not.1 fun h => by rw [(hin _).2 h] at h1; cases h1)]
      exact r
    | none =>
      rw [h1] at ha1
      have hno := (hin _).1 h1
      cases h2 : (armsAt 0 cs.codes).lookup none with
      | some o =>
        rw [h2] at ha1
        obtain ⟨t', q, r, g⟩ := run _ o h2 ha1
        refine ⟨t', q, ⟨v, hl, hK, hn, ?_⟩, g⟩
        rw [if_neg hno, if_pos (Classical.not_not.1 fun h => by rw [(hin _).2 h] at h2; cases h2)]
        exact r
      | none =>
        rw [h2] at ha1
        refine ⟨_, p, ⟨v, hl, hK, hn, ?_⟩, ?_, ?_, ha1⟩
        · rw [if_neg hno, if_neg ((hin _).1 h2)]
        · exact ⟨by simp only [Option.getD_none]; omega, rfl, rfl⟩
        · exact (hf.stack _ s.stack).mono hab

end

/-! ### Descriptions -/

section
variable {K : View} {L : Nat → Nat} {E : Env (List Ev)} {sf : St (List Ev)}

mutual

theorem sch_snd (hH : E.host = taker K) (henc : E.enc = false) (hfine : ∀ e ∈ vis K sf.host, e.fine L = true) (hE : E.prog.length < 2 ^ 31) :
    (f : Sch) → ∀ a r, f.strict K.hid L a = some r → Snd K E sf f.code a r (SRec E.fl K f)
  | .fld f, a, r, h => by
    unfold Sch.strict at h
    unfold Sch.code
    refine (fld_snd hH henc hfine f a r h).weaken (pin_le_refl _) fun p q h => ?_
    unfold SRec; exact h
  | .seq f g, a, r, h => by
    unfold Sch.strict at h
    obtain ⟨r1, h1, h2⟩ := Option.bind_eq_some_iff.1 h
    unfold Sch.code
    refine ((sch_snd hH henc hfine hE f _ _ h1).then (sch_snd hH henc hfine hE g _ _ h2)).weaken (pin_le_refl _) fun p q h => ?_
    unfold SRec; exact h
  | .struct k0 k1 f, a, r, h => by
    unfold Sch.strict at h
    unfold Sch.code
    refine (snd_struct hH (sch_snd hH henc hfine hE f _ _ h)).weaken (pin_le_refl _) fun p q h => ?_
    unfold SRec; exact h
  | .arrFixed k0 k1 n f, a, r, h => by
    unfold Sch.strict at h
    split at h
    · rename_i hc
      simp only [Bool.and_eq_true, Bool.not_eq_true', decide_eq_true_eq] at hc
      obtain ⟨hA, hw⟩ := arrStrict_fit h (sch_snd hH henc hfine hE f)
      unfold Sch.code
      refine (snd_arrFixed hH hc.1 hc.2 hA hw).weaken (pin_le_refl _) fun p q h => ?_
      unfold SRec; exact h
    · cases h
  | .arrPre p k0 k1 f, a, r, h => by
    unfold Sch.strict at h
    split at h
    · rename_i hc
      simp only [Bool.not_eq_true'] at hc
      obtain ⟨hA, hw⟩ := arrStrict_fit h (sch_snd hH henc hfine hE f)
      unfold Sch.code
      refine (snd_arrPre hH henc hfine hc hA hw).weaken (pin_le_refl _) fun p q h => ?_
      unfold SRec; exact h
    · cases h
  | .arrDyn k0 k1 r0 r1 f, a, r, h => by
    unfold Sch.strict at h
    split at h
    · rename_i hc
      simp only [Bool.and_eq_true, Bool.not_eq_true'] at hc
      obtain ⟨hA, hw⟩ := arrStrict_fit h (sch_snd hH henc hfine hE f)
      unfold Sch.code
      refine (snd_arrDyn hH hfine hc.1 hc.2 hA hw).weaken (pin_le_refl _) fun p q h => ?_
      unfold SRec; exact h
    · cases h
  | .opt, a, r, h => by
    unfold Sch.strict at h
    injection h with h
    subst h
    refine (snd_opt hH).weaken (pin_le_refl _) fun p q h => ?_
    unfold SRec; exact h
  | .trans x c big t k0 k1, a, r, h => by
    unfold Sch.strict at h
    split at h
    · rename_i hc
      injection h with h
      subst h
      simp only [Bool.and_eq_true, Bool.or_eq_true, Bool.not_eq_true', decide_eq_true_eq] at hc
      obtain ⟨⟨⟨c1, c2⟩, c3, c4⟩, c6⟩ := hc
      refine (snd_trans hH henc c1 c2 c3 c4 fun hb => ?_).weaken (pin_le_refl _) fun p q h => ?_
      · rcases c6 with h | h
        · rw [hb] at h; cases h
        · exact h
      · unfold SRec; exact h
    · cases h
  | .curve c big n k0 k1, a, r, h => by
    unfold Sch.strict at h
    cases h
  | .calc e big tag k0 k1, a, r, h => by
    unfold Sch.strict at h
    split at h
    · rename_i hc
      injection h with h
      subst h
      simp only [Bool.and_eq_true, Bool.not_eq_true', decide_eq_true_eq] at hc
      refine (snd_calc hH henc hc.1.1.1 hc.1.1.2 hc.1.2 hc.2).weaken (pin_le_refl _) fun p q h => ?_
      unfold SRec; exact h
    · cases h
  | .ite c f g, a, r, h => by
    unfold Sch.strict at h
    split at h
    · rename_i hc
      obtain ⟨r1, h1, h2⟩ := Option.bind_eq_some_iff.1 h
      obtain ⟨r2, h3, h4⟩ := Option.map_eq_some_iff.1 h2
      subst h4
      unfold Sch.code
      refine (snd_ite hH hE hc (sch_snd hH henc hfine hE f _ _ h1) (sch_snd hH henc hfine hE g _ _ h3)).weaken (pin_le_refl _) fun p q h => ?_
      unfold SRec; exact h
    · cases h
  | .switch k0 k1 cs, a, r, h => by
    unfold Sch.strict at h
    split at h
    · rename_i hc
      simp only [Bool.and_eq_true, Bool.not_eq_true', decide_eq_true_eq] at hc
      obtain ⟨hab, hcs⟩ := cases_snd hH henc hfine hE cs _ _ h
      unfold Sch.code
      refine (snd_switch hH hE hc.1 hc.2 hab hcs).weaken (pin_le_refl _) fun p q h => ?_
      unfold SRec; exact h
    · cases h

theorem cases_snd (hH : E.host = taker K) (henc : E.enc = false) (hfine : ∀ e ∈ vis K sf.host, e.fine L = true) (hE : E.prog.length < 2 ^ 31) :
    (cs : Cases) → ∀ a r, cs.strict K.hid L a = some r →
      a.le r = true ∧ ∀ lab c, cs.codes.lookup lab = some c → Snd K E sf c a r (CaseRec E.fl K cs lab)
  | .nil, a, r, h => by
    unfold Cases.strict at h
    injection h with h
    subst h
    exact ⟨pin_le_refl _, fun lab c e => by unfold Cases.codes at e; cases e⟩
  | .cons l f rest, a, r, h => by
    unfold Cases.strict at h
    obtain ⟨r1, h1, h2⟩ := Option.bind_eq_some_iff.1 h
    obtain ⟨r2, h3, h4⟩ := Option.map_eq_some_iff.1 h2
    subst h4
    obtain ⟨ih1, ih2⟩ := cases_snd hH henc hfine hE rest _ _ h3
    refine ⟨pin_le_trans ih1 (pin_le_right _ _), fun lab c e => ?_⟩
    unfold Cases.codes at e
    rw [List.lookup_cons] at e
    split at e
    · rename_i hl
      injection e with e
      subst e
      refine (sch_snd hH henc hfine hE f _ _ h1).weaken (pin_le_left _ _) fun p q h => ?_
      unfold CaseRec
      rw [if_pos (by simpa using Eq.symm (by simpa using hl))]
      exact h
    · rename_i hl
      refine (ih2 lab c e).weaken (pin_le_right _ _) fun p q h => ?_
      unfold CaseRec
      rw [if_neg (fun e => by rw [e] at hl; simp at hl)]
      exact h

end

end

end Cnd
