import Verif.TameRun
/-
  Runs of checked packet descriptions (for C66), continued: arrays, expressions, transforms, choices.
-/

set_option linter.unusedVariables false

namespace Cnd
variable {σ : Type}

section
variable {E : Env σ} {a b c w : Know} {v adv : Bool} {x y code : List Byte}

/-! ### Arrays -/

theorem skipScan_nestedFrom (bs rest : List Byte) (d k : Nat) (h : nestedFrom bs d = true) :
    skipScan (bs ++ rest) (d + k + 1) = bs.length + skipScan rest (k + 1) := by
  induction bs generalizing d with
  | nil =>
    have : d = 0 := by simpa [nestedFrom] using h
    subst this
    simp
  | cons b bs ih =>
    unfold nestedFrom at h
    simp only [List.cons_append, skipScan, List.length_cons]
    split at h
    · rename_i hb
      rw [if_pos hb]
      have := ih (d + 1) h
      rw [show d + k + 2 = d + 1 + k + 1 by omega, this]
      omega
    · rename_i hb
      rw [if_neg hb]
      split at h
      · rename_i h38
        simp only [Bool.and_eq_true, bne_iff_ne, ne_eq] at h
        rw [if_pos h38]
        have := ih (d - 1) h.2
        rw [show d + k = d - 1 + k + 1 by omega, this]
        omega
      · rename_i h38
        rw [if_neg h38, ih d h]
        omega

theorem skipBody_nestedFrom {prog : List Byte} {ip : Nat} {bs : List Byte} (h : nestedFrom bs 0 = true)
    (hat : At prog ip (bs ++ [0x38])) : skipBody prog ip = ip + bs.length + 1 := by
  obtain ⟨rest, hr⟩ := hat
  unfold skipBody
  rw [hr, List.append_assoc]
  have := skipScan_nestedFrom bs ([0x38] ++ rest) 0 0 h
  rw [Nat.add_zero] at this
  rw [this]
  simp only [List.cons_append, List.nil_append, skipScan]
  rw [if_neg (by decide), if_pos (by decide)]
  have : skipScan rest 0 = 0 := by cases rest <;> rfl
  omega

theorem post_dite {P : St σ → Prop} {Q : Err → St σ → Prop} {U : UB → Prop} {c : Prop} [Decidable c] {a b : Res σ}
    (ha : c → Post P Q U a) (hb : ¬ c → Post P Q U b) : Post P Q U (if c then a else b) := by
  split
  · rename_i h; exact ha h
  · rename_i h; exact hb h

theorem arrEnd_safe {s : St σ} {f : Frame} {fs : List Frame} (hat : At E.prog s.ip [0x38]) (hl : s.loops = f :: fs) :
    Safe (fun s' => s'.buf = s.buf ∧ s'.cursor = s.fieldPos ∧ s'.bit = 0 ∧ s'.trans = s.trans ∧ s'.opt = s.opt ∧
      (s'.ip = f.start ∧ s'.loops = ⟨f.start, if f.rem = 0xFFFFFFFF then f.rem else f.rem - 1⟩ :: fs ∧
        (if f.rem = 0xFFFFFFFF then s'.cursor < s'.buf.length else 1 < f.rem) ∨
       s'.ip = s.ip + 1 ∧ s'.loops = fs)) (step E s) := by
  rw [step_pre hat, pre_aligned 0x38 s rfl]
  show Safe _ (handleArrEnd E _)
  unfold handleArrEnd
  by_cases he : f.rem = 0xFFFFFFFF
  · have he' : (f.rem == 0xFFFFFFFF) = true := by simpa using he
    simp only [hl, he', if_true]
    refine post_dite (fun hc => ?_) fun _ => ?_
    · simp only [decide_eq_true_eq] at hc
      refine ⟨rfl, rfl, rfl, rfl, rfl, .inl ⟨rfl, ?_, ?_⟩⟩
      · rw [if_pos he]
      · rw [if_pos he]; exact hc
    · apply post_callNotify
      · intro h _
        exact ⟨rfl, rfl, rfl, rfl, rfl, .inr ⟨rfl, rfl⟩⟩
      · intro _ _; trivial
  · have he' : (f.rem == 0xFFFFFFFF) = false := by simpa using he
    simp only [hl, he', if_false, Bool.false_eq_true]
    refine post_dite (fun hc => ?_) fun _ => ?_
    · simp only [gt_iff_lt, decide_eq_true_eq] at hc
      refine ⟨rfl, rfl, rfl, rfl, rfl, .inl ⟨rfl, ?_, ?_⟩⟩
      · rw [if_neg he]
      · rw [if_neg he]; omega
    · apply post_callNotify
      · intro h _
        exact ⟨rfl, rfl, rfl, rfl, rfl, .inr ⟨rfl, rfl⟩⟩
      · intro _ _; trivial

/-- The state behind an array. -/
structure Over (start k : Nat) (fs : List Frame) (w : Know) (s s' : St σ) : Prop where
  ip : s'.ip = start + k
  loops : s'.loops = fs
  len : s'.buf.length = s.buf.length
  good : Good w s'
  fwd : s.at ≤ s'.at

theorem fieldPos_at {s : St σ} (hb : s.bit < 8) : s.at ≤ 8 * s.fieldPos ∧ s.fieldPos * 8 ≤ s.at + 7 ∧ s.cursor ≤ s.fieldPos := by
  unfold St.at St.fieldPos
  split <;> omega

/-- One round: the body and its end. -/
theorem round (hbody : Seg E code w b adv) (hle : b.aligned.le w = true) {s : St σ} {f : Frame} {fs : List Frame}
    (hat : At E.prog s.ip (code ++ [0x38])) (hl : s.loops = f :: fs) (hs : f.start = s.ip) (hg : Good w s) :
    Ends E (fun s' => s'.buf.length = s.buf.length ∧ Good w s' ∧ s.at ≤ s'.at ∧
      (s'.ip = s.ip ∧ s'.loops = ⟨s.ip, if f.rem = 0xFFFFFFFF then f.rem else f.rem - 1⟩ :: fs ∧
        (if f.rem = 0xFFFFFFFF then s'.cursor < s'.buf.length ∧ (adv = true → s.at < s'.at) else 1 < f.rem) ∨
       s'.ip = s.ip + (code.length + 1) ∧ s'.loops = fs)) s := by
  refine (hbody s hat.left hg).bind fun m hm => ?_
  have hf := fieldPos_at hm.good.bit
  refine Ends.of_post (arrEnd_safe (hm.ip ▸ hat.right) (hm.loops.trans hl)) fun s' h => .here ?_
  obtain ⟨h1, h2, h3, h4, h5, h6⟩ := h
  have hat' : s'.at = 8 * m.fieldPos := by unfold St.at; omega
  have hlen : s'.buf.length = s.buf.length := by rw [h1]; exact hm.len
  have hfwd := hm.fwd
  refine ⟨hlen, Good.mono (a := b.aligned) ⟨by omega, h4.trans hm.good.trans, fun e => hm.good.opt (h5 ▸ e), fun e => ?_, fun _ => h3⟩ hle,
    by omega, ?_⟩
  · have := hm.good.fit e
    have := hm.len
    rw [hat']
    have h8 := hm.good.bit
    omega
  · rcases h6 with ⟨e1, e2, e3⟩ | ⟨e1, e2⟩
    · left
      rw [hs] at e1 e2
      refine ⟨e1, e2, ?_⟩
      by_cases he : f.rem = 0xFFFFFFFF
      · rw [if_pos he] at e3 ⊢
        refine ⟨e3, fun ha => ?_⟩
        rcases hm.adv ha with h | h
        · omega
        · have := hm.len
          rw [hlen, h2] at e3
          omega
      · rw [if_neg he] at e3 ⊢
        exact e3
    · right
      exact ⟨by rw [e1, hm.ip]; omega, e2⟩

theorem rounds_counted (hbody : Seg E code w b adv) (hle : b.aligned.le w = true) (fs : List Frame) (start : Nat)
    (hat : At E.prog start (code ++ [0x38])) :
    ∀ (n : Nat) (s : St σ), n + 1 < 0xFFFFFFFF → s.ip = start → s.loops = ⟨start, n + 1⟩ :: fs → Good w s →
      Ends E (Over start (code.length + 1) fs w s) s := by
  intro n
  induction n with
  | zero =>
    intro s hn hip hl hg
    refine (round hbody hle (hip ▸ hat) hl hip.symm hg).mono fun s' h => ?_
    obtain ⟨h1, h2, h3, h4 | h4⟩ := h
    · have := h4.2.2
      rw [if_neg (by dsimp only; omega)] at this
      dsimp only at this
      omega
    · exact ⟨by rw [h4.1, hip], h4.2, h1, h2, h3⟩
  | succ n ih =>
    intro s hn hip hl hg
    refine (round hbody hle (hip ▸ hat) hl hip.symm hg).bind fun s' h => ?_
    obtain ⟨h1, h2, h3, h4 | h4⟩ := h
    · obtain ⟨e1, e2, e3⟩ := h4
      rw [if_neg (by dsimp only; omega)] at e2
      refine (ih s' (by omega) (e1.trans hip) (by rw [e2, hip]; rfl) h2).mono fun t h => ?_
      exact ⟨h.ip, h.loops, h.len.trans h1, h.good, Nat.le_trans h3 h.fwd⟩
    · exact .here ⟨by rw [h4.1, hip], h4.2, h1, h2, h3⟩

theorem rounds_open (hbody : Seg E code w b true) (hle : b.aligned.le w = true) (fs : List Frame) (start : Nat)
    (hat : At E.prog start (code ++ [0x38])) :
    ∀ (n : Nat) (s : St σ), 8 * s.buf.length - s.at ≤ n → s.ip = start → s.loops = ⟨start, 0xFFFFFFFF⟩ :: fs → Good w s →
      Ends E (Over start (code.length + 1) fs w s) s := by
  intro n
  induction n with
  | zero =>
    intro s hn hip hl hg
    refine (round hbody hle (hip ▸ hat) hl hip.symm hg).mono fun s' h => ?_
    obtain ⟨h1, h2, h3, h4 | h4⟩ := h
    · have h5 := h4.2.2
      rw [if_pos rfl] at h5
      have h6 := h5.2 rfl
      have h7 := h2.bit
      have h8 := h5.1
      unfold St.at at *
      omega
    · exact ⟨by rw [h4.1, hip], h4.2, h1, h2, h3⟩
  | succ n ih =>
    intro s hn hip hl hg
    refine (round hbody hle (hip ▸ hat) hl hip.symm hg).bind fun s' h => ?_
    obtain ⟨h1, h2, h3, h4 | h4⟩ := h
    · obtain ⟨e1, e2, e3⟩ := h4
      rw [if_pos rfl] at e2 e3
      have h6 := e3.2 rfl
      refine (ih s' (by omega) (e1.trans hip) (by rw [e2, hip]) h2).mono fun t h => ?_
      exact ⟨h.ip, h.loops, h.len.trans h1, h.good, Nat.le_trans h3 h.fwd⟩
    · exact .here ⟨by rw [h4.1, hip], h4.2, h1, h2, h3⟩

theorem rounds (hbody : Seg E code w b adv) (hle : b.aligned.le w = true) {s : St σ} {count : Nat} (hc : 0 < count)
    (hc2 : count < 2 ^ 32) (hadv : count = 0xFFFFFFFF → adv = true) (hat : At E.prog s.ip (code ++ [0x38])) (hg : Good w s) :
    Safe (Ends E (Over s.ip (code.length + 1) s.loops w s)) (pushLoop s count) := by
  apply post_pushLoop
  · intro _
    have hg' : Good w { s with loops := ⟨s.ip, count⟩ :: s.loops } := ⟨hg.bit, hg.trans, hg.opt, hg.fit, hg.al⟩
    by_cases he : count = 0xFFFFFFFF
    · have := hadv he
      subst this
      subst he
      refine (rounds_open hbody hle s.loops s.ip hat _ { s with loops := ⟨s.ip, 0xFFFFFFFF⟩ :: s.loops } (Nat.le_refl _) rfl rfl hg').mono
        fun t h => ⟨h.ip, h.loops, h.len, h.good, h.fwd⟩
    · obtain ⟨n, rfl⟩ := Nat.exists_eq_succ_of_ne_zero (Nat.ne_of_gt hc)
      refine (rounds_counted hbody hle s.loops s.ip hat n { s with loops := ⟨s.ip, n + 1⟩ :: s.loops } (by omega) rfl rfl hg').mono
        fun t h => ⟨h.ip, h.loops, h.len, h.good, h.fwd⟩
  · intro _; trivial

theorem at_bulk {prog : List Byte} {ip : Nat} (hat : At prog ip (code ++ [0x38])) (hb : bulkFits code = true) {n m : Byte}
    (hn : prog[ip]? = some n) (hm : prog[ip + 3]? = some m) (h : ((n == 0x10 || n == 0x14) && m == 0x38) = true) :
    code.length = 3 := by
  obtain ⟨rest, hr⟩ := hat
  have hd0 : (prog.drop ip)[0]? = some n := by rw [List.getElem?_drop]; exact hn
  have hd3 : (prog.drop ip)[3]? = some m := by rw [List.getElem?_drop]; exact hm
  rw [hr] at hd0 hd3
  simp only [Bool.and_eq_true, Bool.or_eq_true, beq_iff_eq] at h
  unfold bulkFits at hb
  simp only [Bool.or_eq_true, beq_iff_eq, Bool.not_eq_true', Bool.or_eq_false_iff, beq_eq_false_iff_ne, Bool.and_eq_true,
    decide_eq_true_eq, bne_iff_ne] at hb
  rcases hb with (hb | hb) | hb
  · exact hb
  · cases code with
    | nil =>
      simp at hd0
      subst hd0
      rcases h.1 with h | h <;> cases h
    | cons y ys =>
      simp at hd0 hb
      subst hd0
      rcases h.1 with h | h
      · exact absurd h hb.1
      · exact absurd h hb.2
  · rw [List.append_assoc, List.getElem?_append_left (by omega)] at hd3
    exact absurd (hd3.trans (congrArg some h.2)) hb.2

theorem enterArray_safe (hbody : Seg E code w b adv) (hle : b.aligned.le w = true) (hmid : w.mid = false)
    (hn : nestedFrom code 0 = true) (hbf : bulkFits code = true) {s : St σ} {count : Nat}
    (hc2 : count < 2 ^ 32) (hadv : count = 0xFFFFFFFF → adv = true) (hat : At E.prog s.ip (code ++ [0x38])) (hg : Good w s) :
    Safe (Ends E (Over s.ip (code.length + 1) s.loops w s)) (enterArray E s count) := by
  have hb0 := hg.al hmid
  unfold enterArray
  split
  · refine Ends.here ⟨?_, rfl, rfl, ⟨hg.bit, hg.trans, hg.opt, hg.fit, hg.al⟩, Nat.le_refl _⟩
    dsimp only
    rw [skipBody_nestedFrom hn hat]
    omega
  · rename_i hc
    have hpos : 0 < count := by omega
    split
    · rename_i nextOp afterOp h0 h3
      split
      · rename_i hcond
        rw [Bool.and_eq_true, decide_eq_true_eq] at hcond
        have h3' := at_bulk hat hbf h0 h3 hcond.1
        apply post_callAt
        · intro h b hh
          refine Ends.here ⟨?_, rfl, by simp only [hostBuf_length], ⟨hg.bit, hg.trans, hg.opt, fun _ => ?_, hg.al⟩, ?_⟩
          · dsimp only; omega
          · unfold St.at
            simp only [hostBuf_length]
            omega
          · unfold St.at
            dsimp only
            omega
        · intro h b hh
          have := rounds hbody hle (s := { s with host := h, buf := hostBuf s.buf b }) hpos hc2 hadv hat
            ⟨hg.bit, hg.trans, hg.opt, fun e => by rw [hostBuf_length]; exact hg.fit e, hg.al⟩
          refine post_imp this fun t ht => ht.mono fun t h => ⟨h.ip, h.loops, ?_, h.good, h.fwd⟩
          rw [h.len]; simp only [hostBuf_length]
      · exact rounds hbody hle hpos hc2 hadv hat hg
    · exact rounds hbody hle hpos hc2 hadv hat hg

/-- The checks of an array. -/
structure ArrOk (E : Env σ) (code : List Byte) (w : Know) (big : Bool) : Prop where
  body : ∃ b adv, Seg E code w b adv ∧ b.aligned.le w = true ∧ (big = true → adv = true)
  mid : w.mid = false
  nested : nestedFrom code 0 = true
  bulk : bulkFits code = true

/-- The head of an array has been read, the state is `s1`. -/
theorem arr_after {big : Bool} (hA : ArrOk E code w big) {s s1 : St σ} {k count : Nat} (hip : s1.ip = s.ip + k)
    (hloops : s1.loops = s.loops) (hlen : s1.buf.length = s.buf.length) (hg : Good w s1) (hfwd : s.at ≤ s1.at)
    (hadv : v = true → s.at < s1.at) (hc2 : count < 2 ^ 32) (hbig : count = 0xFFFFFFFF → big = true)
    (hat : At E.prog s1.ip (code ++ [0x38])) :
    Safe (Ends E (Land (k + (code.length + 1)) w v s)) (enterArray E s1 count) := by
  obtain ⟨b, adv, hbody, hle, hb⟩ := hA.body
  refine post_imp (enterArray_safe hbody hle hA.mid hA.nested hA.bulk hc2 (fun e => hb (hbig e)) hat hg) fun t ht => ht.mono fun s' h => ?_
  refine ⟨by rw [h.ip, hip]; omega, h.loops.trans hloops, h.len.trans hlen, h.good, Nat.le_trans hfwd h.fwd, fun e => .inl ?_⟩
  have := hadv e
  have := h.fwd
  omega

/-- A state after alignment. -/
theorem good_pre {op : Byte} {s : St σ} (ha : aligns op = true) (hg : Good a s) : Good a.aligned (pre op s) := by
  have hf := pre_fields op s
  have hp := pre_pos op s hg.bit
  have hb := hp.2.2.2.2.1 ha
  refine ⟨by omega, by rw [hf.2.2.2.2.2.2.1]; exact hg.trans, fun e => hg.opt (hf.2.2.2.2.2.2.2.2.2.2.2 ▸ e), fun e => ?_, fun _ => hb⟩
  rw [hf.1]
  exact pre_fit op s (hg.fit e)

theorem truncB_lt4 (x : Word) (n : Nat) (h : n ≤ 4) : (truncB n x).toNat < 2 ^ 32 := by
  rw [toNat_truncB]
  have : x.toNat % 2 ^ (8 * n) < 2 ^ (8 * n) := Nat.mod_lt _ (Nat.pow_pos (by decide))
  have : 2 ^ (8 * n) ≤ 2 ^ 32 := Nat.pow_le_pow_right (by decide) (by omega)
  omega

theorem seg_arrFixed {k0 k1 : Byte} {n : Word} (hA : ArrOk E code w true) (hw : a.aligned.le w = true) :
    Seg E (([0x34, k0, k1] ++ leBytes 4 n) ++ (code ++ [0x38])) a w false := by
  intro s hat hg
  have hat0 : At E.prog s.ip (0x34 :: ([k0, k1] ++ leBytes 4 n)) := hat.left
  have hat1 := hat.right
  have hl := hat0.le (by simp)
  simp only [List.length_append, List.length_cons, List.length_nil, leBytes_length] at hl hat1
  have hf := pre_fields 0x34 s
  have hp := pre_pos 0x34 s hg.bit
  have hgp := good_pre (op := 0x34) rfl hg
  refine Ends.of_post (P := Ends E (Land (7 + (code.length + 1)) w false s)) ?_ fun s' h => ?_
  · rw [step_pre hat0]
    show Safe _ (handleArrFixed E 0x34 _)
    unfold handleArrFixed
    apply post_fetX (by omega)
    apply post_fetX (by dsimp only; omega)
    apply post_callScalar
    · intro x h _
      refine arr_after hA (s := s) (k := 7) ?_ ?_ ?_ ?_ hp.1 (fun e => by cases e) (truncB_lt4 _ 4 (by omega)) (fun _ => rfl) ?_
      · dsimp only; omega
      · exact hf.2.2.2.1
      · dsimp only; rw [hf.1]
      · exact Good.mono ⟨hgp.bit, hgp.trans, hgp.opt, hgp.fit, hgp.al⟩ hw
      · dsimp only
        rw [show (pre 0x34 s).ip + 2 + 4 = s.ip + 7 by omega]
        exact hat1
    · intro x h _; trivial
  · refine h.mono fun s' h => ?_
    simpa only [List.length_append, List.length_cons, List.length_nil, leBytes_length, Nat.zero_add] using h

theorem seg_arrDyn {k0 k1 r0 r1 : Byte} (hA : ArrOk E code w true) (hw : a.aligned.le w = true) :
    Seg E ([0x3B, k0, k1, r0, r1] ++ (code ++ [0x38])) a w false := by
  intro s hat hg
  have hat0 : At E.prog s.ip (0x3B :: [k0, k1, r0, r1]) := hat.left
  have hat1 := hat.right
  have hl := hat0.le (by simp)
  simp only [List.length_cons, List.length_nil] at hl hat1
  have hf := pre_fields 0x3B s
  have hp := pre_pos 0x3B s hg.bit
  have hgp := good_pre (op := 0x3B) rfl hg
  refine Ends.of_post (P := Ends E (Land (5 + (code.length + 1)) w false s)) ?_ fun s' h => ?_
  · rw [step_pre hat0]
    show Safe _ (handleArrDynamic E 0x3B _)
    unfold handleArrDynamic
    apply post_fetX (by omega)
    apply post_fetX (by dsimp only; omega)
    apply post_callScalar
    · intro y h _
      apply post_ite
      · trivial
      apply post_callScalar
      · intro x h2 _
        refine arr_after hA (s := s) (k := 5) ?_ ?_ ?_ ?_ hp.1 (fun e => by cases e) (truncB_lt4 _ 4 (by omega)) (fun _ => rfl) ?_
        · dsimp only; omega
        · exact hf.2.2.2.1
        · dsimp only; rw [hf.1]
        · exact Good.mono ⟨hgp.bit, hgp.trans, hgp.opt, hgp.fit, hgp.al⟩ hw
        · dsimp only
          rw [show (pre 0x3B s).ip + 2 + 2 = s.ip + 5 by omega]
          exact hat1
      · intro x h _; trivial
    · intro x h _; trivial
  · refine h.mono fun s' h => ?_
    simpa only [List.length_append, List.length_cons, List.length_nil, Nat.zero_add] using h

theorem pre_size_small (p : Pre) : 0 < p.size ∧ p.size ≤ 4 ∧ (p ≠ .p4 → p.size ≤ 2) := by cases p <;> decide

theorem seg_arrPre {p : Pre} {k0 k1 : Byte} (hA : ArrOk E code w (decide (p = .p4))) (hw : (Know.mk a.opt false false).le w = true) :
    Seg E ([p.arrOp, k0, k1] ++ (code ++ [0x38])) a w true := by
  intro s hat hg
  have ha : aligns p.arrOp = true := by cases p <;> rfl
  have hat0 : At E.prog s.ip (p.arrOp :: [k0, k1]) := hat.left
  have hat1 := hat.right
  have hl := hat0.le (by simp)
  simp only [List.length_cons, List.length_nil] at hl hat1
  have hf := pre_fields p.arrOp s
  have hp := pre_pos p.arrOp s hg.bit
  have hgp := good_pre (op := p.arrOp) ha hg
  have hb0 := hp.2.2.2.2.1 ha
  obtain ⟨hs0, hs4, hs2⟩ := pre_size_small p
  have hbig : ∀ x : Word, (truncB p.size x).toNat = 0xFFFFFFFF → decide (p = .p4) = true := by
    intro x hx
    refine decide_eq_true ?_
    by_cases hp4 : p = .p4
    · exact hp4
    · have h2 := hs2 hp4
      rw [toNat_truncB] at hx
      have : x.toNat % 2 ^ (8 * p.size) < 2 ^ (8 * p.size) := Nat.mod_lt _ (Nat.pow_pos (by decide))
      have : 2 ^ (8 * p.size) ≤ 2 ^ 16 := Nat.pow_le_pow_right (by decide) (by omega)
      omega
  refine Ends.of_post (P := Ends E (Land (3 + (code.length + 1)) w true s)) ?_ fun s' h => ?_
  · rw [step_pre hat0, show execOp E p.arrOp (pre p.arrOp s) = handleArrPre E p p.arrOp (pre p.arrOp s) by cases p <;> rfl]
    unfold handleArrPre
    apply post_fetX (by omega)
    refine post_dite (fun henc => ?_) fun henc => ?_
    · apply post_callScalar
      · intro x h _
        refine post_dite (fun _ => trivial) fun hroom => ?_
        dsimp only at hroom
        apply post_wrAt
        · intro b hb hbl
          dsimp only at hbl
          refine arr_after hA (s := s) (k := 3) ?_ ?_ ?_ ?_ ?_ (fun _ => ?_) (truncB_lt4 _ _ hs4) (hbig _) ?_
          · dsimp only; omega
          · exact hf.2.2.2.1
          · dsimp only; rw [hbl, hf.1]
          · refine Good.mono (a := ⟨a.opt, false, false⟩) ⟨hgp.bit, hgp.trans, hgp.opt, fun _ => ?_, fun _ => hb0⟩ hw
            unfold St.at
            dsimp only
            omega
          · have := hp.1
            unfold St.at
            dsimp only
            omega
          · have := hp.1
            unfold St.at
            dsimp only
            omega
          · dsimp only
            rw [show (pre p.arrOp s).ip + 2 = s.ip + 3 by omega]
            exact hat1
        · intro h; dsimp only at h; omega
      · intro x h _; trivial
    · refine post_dite (fun _ => trivial) fun hroom => ?_
      dsimp only at hroom
      apply post_rdAt
      · intro bs hbs
        apply post_callScalar
        · intro x h _
          refine arr_after hA (s := s) (k := 3) ?_ ?_ ?_ ?_ ?_ (fun _ => ?_) (truncB_lt4 _ _ hs4) (hbig _) ?_
          · dsimp only; omega
          · exact hf.2.2.2.1
          · dsimp only; rw [hf.1]
          · refine Good.mono (a := ⟨a.opt, false, false⟩) ⟨hgp.bit, hgp.trans, hgp.opt, fun _ => ?_, fun _ => hb0⟩ hw
            unfold St.at
            dsimp only
            omega
          · have := hp.1
            unfold St.at
            dsimp only
            omega
          · have := hp.1
            unfold St.at
            dsimp only
            omega
          · dsimp only
            rw [show (pre p.arrOp s).ip + 2 = s.ip + 3 by omega]
            exact hat1
        · intro x h _; trivial
      · intro h; dsimp only at h; omega
  · refine h.mono fun s' h => ?_
    simpa only [List.length_append, List.length_cons, List.length_nil, Nat.zero_add] using h

theorem arrCheck_ok {check : Know → Option (Know × Bool)} {big : Bool} (h : arrCheck check code big a = some w)
    (ha : a.mid = false) (hseg : ∀ a r, check a = some r → Seg E code a r.1 r.2) : ArrOk E code w big ∧ a.le w = true := by
  unfold arrCheck at h
  cases h1 : check a with
  | none => rw [h1] at h; cases h
  | some r =>
    rw [h1] at h
    simp only [Option.bind_some] at h
    cases h2 : check (a.join r.1.aligned) with
    | none => rw [h2] at h; cases h
    | some q =>
      rw [h2] at h
      simp only [Option.bind_some] at h
      split at h
      · rename_i hc
        injection h with h
        subst h
        simp only [Bool.and_eq_true, Bool.or_eq_true, Bool.not_eq_true'] at hc
        refine ⟨⟨⟨q.1, q.2, hseg _ _ h2, hc.1.1.1, fun e => ?_⟩, ?_, hc.1.1.2, hc.1.2⟩, le_join_left _ _⟩
        · rcases hc.2 with h | h
          · exact h
          · rw [e] at h; cases h
        · show (a.mid || false) = false
          rw [ha]; rfl
      · cases h

/-! ### Fields as described -/

theorem fld_seg (f : Fld) : ∀ a r, f.check E.enc a = some r → Seg E f.code a r.1 r.2 := by
  induction f with
  | empty => intro a r h; injection h with h; subst h; exact Seg.nil
  | seq f g ihf ihg =>
    intro a r h
    unfold Fld.check at h
    obtain ⟨r1, h1, h2⟩ := Option.bind_eq_some_iff.1 h
    obtain ⟨r2, h3, h4⟩ := Option.map_eq_some_iff.1 h2
    subst h4
    exact (ihf _ _ h1).then (ihg _ _ h3)
  | scalar op k0 k1 =>
    intro a r h
    unfold Fld.check at h
    split at h
    · rename_i hop; injection h with h; subst h; exact seg_scalar hop
    · cases h
  | range t k0 k1 lo hi =>
    intro a r h
    unfold Fld.check at h
    split at h
    · cases h
    · rename_i hc; injection h with h; subst h; exact seg_range (by simpa using hc)
  | enum t k0 k1 vals =>
    intro a r h
    unfold Fld.check at h
    split at h
    · cases h
    · rename_i hc
      injection h with h; subst h
      simp only [Bool.or_eq_true, decide_eq_true_eq, not_or, Bool.not_eq_true] at hc
      exact seg_enum hc.1 (by omega)
  | const t k0 k1 x => intro a r h; injection h with h; subst h; exact seg_const
  | strNull k0 k1 m0 m1 =>
    intro a r h
    unfold Fld.check at h
    split at h
    · cases h
    · rename_i hc
      injection h with h; subst h
      refine seg_strNull fun he => ?_
      rw [he] at hc
      simpa using hc
  | strPre p k0 k1 => intro a r h; injection h with h; subst h; exact seg_strPre
  | bitU k0 k1 n =>
    intro a r h
    unfold Fld.check at h
    split at h
    · rename_i hc; injection h with h; subst h; exact seg_bitU hc
    · cases h
  | bitI k0 k1 n =>
    intro a r h
    unfold Fld.check at h
    split at h
    · rename_i hc; injection h with h; subst h; exact seg_bitI hc.1 hc.2
    · cases h
  | bitBool k0 k1 => intro a r h; injection h with h; subst h; exact seg_bitBool
  | pad n =>
    intro a r h
    unfold Fld.check at h
    split at h
    · rename_i he
      split at h
      · rename_i hc; injection h with h; subst h; exact seg_pad_enc he hc
      · cases h
    · rename_i he; injection h with h; subst h; exact seg_pad_dec (by simpa using he)
  | fill n => intro a r h; injection h with h; subst h; exact seg_fill
  | setLE => intro a r h; injection h with h; subst h; exact seg_setLE
  | setBE => intro a r h; injection h with h; subst h; exact seg_setBE
  | nop => intro a r h; injection h with h; subst h; exact seg_nop
  | enterBit => intro a r h; injection h with h; subst h; exact seg_enterBit
  | exitBit => intro a r h; injection h with h; subst h; exact seg_exitBit
  | version x => intro a r h; injection h with h; subst h; exact seg_version
  | name x y => intro a r h; injection h with h; subst h; exact seg_name
  | struct k0 k1 f ih => intro a r h; exact seg_struct (ih _ _ h)
  | arrFixed k0 k1 n f ih =>
    intro a r h
    obtain ⟨w, h1, h2⟩ := Option.map_eq_some_iff.1 h
    subst h2
    obtain ⟨hA, hw⟩ := arrCheck_ok h1 rfl ih
    exact seg_arrFixed hA hw
  | arrPre p k0 k1 f ih =>
    intro a r h
    obtain ⟨w, h1, h2⟩ := Option.map_eq_some_iff.1 h
    subst h2
    obtain ⟨hA, hw⟩ := arrCheck_ok h1 rfl ih
    exact seg_arrPre hA hw
  | arrDyn k0 k1 r0 r1 f ih =>
    intro a r h
    obtain ⟨w, h1, h2⟩ := Option.map_eq_some_iff.1 h
    subst h2
    obtain ⟨hA, hw⟩ := arrCheck_ok h1 rfl ih
    exact seg_arrDyn hA hw
  | crc p =>
    intro a r h
    unfold Fld.check at h
    split at h
    · cases h
    · rename_i hc; injection h with h; subst h; exact seg_crc (by simpa using hc)

/-! ### Expressions -/

theorem un_runs {s : St σ} {o : IUn} (hat : At E.prog s.ip [o.byte]) :
    step E s = unary { s with ip := s.ip + 1 } (unEval E.fl o.un) := by
  cases o <;> (rw [step_pre hat, pre_unaligned _ s rfl]; rfl)

theorem bin_runs {s : St σ} {o : IBin} (hat : At E.prog s.ip [o.byte]) :
    step E s = binary { s with ip := s.ip + 1 } (ibinEval o) := by
  cases o <;> (rw [step_pre hat, pre_unaligned _ s rfl]; rfl)

/-- The state after an expression. -/
def Gave (e : IExpr) (s s' : St σ) : Prop :=
  ∃ x h, s' = { s with ip := s.ip + e.code.length, stack := x :: s.stack, host := h } ∧ ∀ l, e = .lit l → x = l

theorem bin_ends {s m : St σ} {o : IBin} {l r : IExpr} (hat : At E.prog s.ip (l.code ++ (r.code ++ [o.byte])))
    (hl : Ends E (Gave l s) s) (hr : ∀ m : St σ, At E.prog m.ip r.code → Ends E (Gave r m) m)
    (hok : ∀ x y, (∀ w, r = .lit w → y = w) → ∀ u, ibinEval o x y ≠ .ub u) : Ends E (Gave (.bin o l r) s) s := by
  refine hl.bind fun m hm => ?_
  obtain ⟨x, h1, rfl, _⟩ := hm
  refine (hr _ hat.right.left).bind fun m hm => ?_
  obtain ⟨y, h2, rfl, hy⟩ := hm
  refine Ends.of_post (P := Gave (.bin o l r) s) ?_ fun s' h => .here h
  rw [bin_runs (o := o) hat.right.right]
  unfold binary
  dsimp only
  apply post_aluDone
  · intro z _
    apply post_push
    · intro _
      refine ⟨z, h2, ?_, fun w e => by cases e⟩
      simp only [IExpr.code, List.length_append, List.length_cons, List.length_nil]
      congr 1
      omega
    · intro _; trivial
  · intro _ _; trivial
  · intro u hu; exact (hok x y hy u hu).elim

theorem expr_ends (e : IExpr) (he : e.tame = true) : ∀ s : St σ, At E.prog s.ip e.code → Ends E (Gave e s) s := by
  induction e with
  | lit l =>
    intro s hat
    have hat' : At E.prog s.ip (0x61 :: leBytes 8 l) := hat
    refine Ends.of_post (P := Gave (.lit l) s) ?_ fun s' h => .here h
    have hl := hat'.le (by simp)
    have hf : fetch E.prog (s.ip + 1) 8 = (leWord (leBytes 8 l), s.ip + 1 + 8) := hat'.tail.fetch (by simp) (by omega)
    rw [step_pre hat', pre_unaligned _ s rfl]
    show Safe _ (fet E _ 8 fun w s => push s w)
    unfold fet
    dsimp only
    rw [hf]
    apply post_push
    · intro _
      refine ⟨l, s.host, ?_, fun w e => by cases e; rfl⟩
      rw [leWord_leBytes_lt (by omega) (by have := l.isLt; omega)]
      simp only [IExpr.code, List.length_cons, leBytes_length]
    · intro _; trivial
  | fld k0 k1 =>
    intro s hat
    have hat' : At E.prog s.ip (0x60 :: [k0, k1]) := hat
    have hl := hat'.le (by simp)
    simp only [List.length_cons, List.length_nil] at hl
    refine Ends.of_post (P := Gave (.fld k0 k1) s) ?_ fun s' h => .here h
    rw [step_pre hat', pre_unaligned _ s rfl]
    show Safe _ (handleLoadCtx E 0x60 _)
    unfold handleLoadCtx
    apply post_fetX (by dsimp only; omega)
    apply post_callScalar
    · intro h x _
      apply post_push
      · intro _
        exact ⟨_, h, rfl, fun w e => by cases e⟩
      · intro _; trivial
    · intro _ _ _; trivial
  | un o e ih =>
    intro s hat
    have hat' : At E.prog s.ip (e.code ++ [o.byte]) := hat
    have hne : o ≠ .neg := by rintro rfl; cases he
    have he' : e.tame = true := by cases o <;> first | exact he | cases he
    refine (ih he' s hat'.left).bind fun m hm => ?_
    obtain ⟨x, h1, rfl, _⟩ := hm
    refine Ends.of_post (P := Gave (.un o e) s) ?_ fun s' h => .here h
    rw [un_runs (o := o) hat'.right]
    unfold unary
    dsimp only
    apply post_aluDone
    · intro z _
      apply post_push
      · intro _
        refine ⟨z, h1, ?_, fun w e => by cases e⟩
        simp only [IExpr.code, List.length_append, List.length_cons, List.length_nil]
        congr 1
      · intro _; trivial
    · intro _ _; trivial
    · intro u hu
      cases o with
      | neg => exact hne rfl
      | bnot => cases hu
      | lnot => cases hu
  | bin o l r ihl ihr =>
    intro s hat
    have hsimple : (o ≠ .shl ∧ o ≠ .shr → l.tame = true ∧ r.tame = true) := by
      intro hn
      cases o <;> first | exact absurd rfl hn.1 | exact absurd rfl hn.2 | (simpa [IExpr.tame] using he)
    by_cases hs : o = .shl ∨ o = .shr
    · have hshape : ∃ w, r = .lit w ∧ l.tame = true ∧ w.toNat < 64 := by
        rcases hs with rfl | rfl <;> cases r <;> first | (simp [IExpr.tame] at he; done) | skip
        all_goals
          simp only [IExpr.tame, Bool.and_eq_true, decide_eq_true_eq] at he
          exact ⟨_, rfl, he⟩
      obtain ⟨w, rfl, hlt, hw⟩ := hshape
      refine bin_ends (m := s) hat (ihl hlt s (At.left hat)) (ihr rfl) ?_
      intro x y hy u
      rw [hy w rfl]
      rcases hs with rfl | rfl <;> (unfold ibinEval; dsimp only; rw [if_neg (by omega)]; intro e; cases e)
    · simp only [not_or] at hs
      obtain ⟨h1, h2⟩ := hsimple hs
      refine bin_ends (m := s) hat (ihl h1 s (At.left hat)) (ihr h2) ?_
      intro x y _ u
      cases o <;> first | exact absurd rfl hs.1 | exact absurd rfl hs.2 | skip
      all_goals (unfold ibinEval; dsimp only)
      all_goals first
        | (intro e; cases e; done)
        | (split <;> (intro e; cases e))

theorem Gave.good {e : IExpr} {s s' : St σ} (h : Gave e s s') (hg : Good a s) : Land e.code.length a false s s' ∧ s'.stack ≠ [] := by
  obtain ⟨x, h, rfl, _⟩ := h
  exact ⟨⟨rfl, rfl, rfl, ⟨hg.bit, hg.trans, hg.opt, hg.fit, hg.al⟩, Nat.le_refl _, fun e => by cases e⟩, by simp⟩

theorem seg_expr {e : IExpr} (he : e.tame = true) : Seg E e.code a a false :=
  fun s hat hg => (expr_ends e he s hat).mono fun s' h => (h.good hg).1

theorem seg_big {big : Bool} : Seg E (if big then [0x02] else []) a a false := by
  cases big with
  | true => exact seg_setBE
  | false => exact Seg.nil

theorem seg_dup : Seg E [0x64] a a false := by
  refine Seg.one fun s hat hg => ?_
  have hp := pre_unaligned 0x64 s rfl
  have hx : execOp E 0x64 (pre 0x64 s) = match (pre 0x64 s).stack with
      | [] => .stop .stackUnderflow (pre 0x64 s)
      | v :: _ => push (pre 0x64 s) v := rfl
  rw [hx]
  split
  · trivial
  · apply post_push
    · intro _
      rw [hp]
      exact ⟨rfl, rfl, rfl, ⟨hg.bit, hg.trans, hg.opt, hg.fit, hg.al⟩, Nat.le_refl _, fun e => by cases e⟩
    · intro _; trivial

theorem seg_store {k0 k1 : Byte} : Seg E [0x78, k0, k1] a a false := by
  refine Seg.one fun s hat hg => ?_
  have hp := pre_unaligned 0x78 s rfl
  have hl := hat.le (by simp)
  simp only [List.length_cons, List.length_nil] at hl
  show Safe _ (handleStoreCtx E 0x78 _)
  unfold handleStoreCtx
  apply post_fetX (by rw [hp]; dsimp only; omega)
  split
  · trivial
  · apply post_callScalar
    · intro h x _
      rw [hp]
      exact ⟨rfl, rfl, rfl, ⟨hg.bit, hg.trans, hg.opt, hg.fit, hg.al⟩, Nat.le_refl _, fun e => by cases e⟩
    · intro _ _ _; trivial

theorem seg_emit {tag : Byte} : Seg E [0x65, tag] a ⟨a.opt, a.mid, a.mid⟩ true := by
  refine Seg.one fun s hat hg => ?_
  have hp := pre_unaligned 0x65 s rfl
  have hl := hat.le (by simp)
  simp only [List.length_cons, List.length_nil] at hl
  have := handleEmit_safe E (pre 0x65 s) (by rw [hp]; dsimp only; omega)
  refine post_imp this fun s' h => ?_
  rw [hp] at h
  obtain ⟨h, h1, h2, h3, h4, h5⟩ := h
  dsimp only at h1 h2 h3 h4 h5
  have h8 := hg.bit
  have hlen : s'.buf.length = s.buf.length := h.len
  refine ⟨h.ip, h.loops, hlen, ⟨by omega, by rw [h2]; exact hg.trans, fun e => hg.opt (h3 ▸ e), fun e => ?_, fun e => by rw [h1]; exact hg.al e⟩, ?_, fun _ => .inl ?_⟩
  · have := hg.al e; unfold St.at; omega
  · unfold St.at; omega
  · unfold St.at; omega

theorem seg_calc {e : IExpr} {big : Bool} {tag k0 k1 : Byte} (he : e.tame = true) :
    Seg E (Sch.calc e big tag k0 k1).code a ⟨a.opt, a.mid, a.mid⟩ true :=
  (seg_expr he).then (seg_big.then (seg_dup.then (seg_store.then seg_emit)))

theorem seg_opt : Seg E [0x4A] a ⟨true, a.behind, a.mid⟩ false := by
  refine Seg.one fun s hat hg => ?_
  have hp := pre_unaligned 0x4A s rfl
  show Safe _ (.run { pre 0x4A s with opt := true })
  rw [hp]
  exact ⟨rfl, rfl, rfl, ⟨hg.bit, hg.trans, fun _ => rfl, hg.fit, hg.al⟩, Nat.le_refl _, fun e => by cases e⟩

/-! ### Transforms -/

theorem i64_some {n : Int} (h : -(2 ^ 63 : Int) ≤ n ∧ n < 2 ^ 63) : i64? n ≠ none := by
  unfold i64?
  rw [if_pos (by omega)]
  intro e; cases e

theorem tdiv_bounds {x y : Int} (hx : -(2 ^ 63 : Int) ≤ x ∧ x < 2 ^ 63) (hy : y ≠ -1) : -(2 ^ 63 : Int) ≤ x.tdiv y ∧ x.tdiv y < 2 ^ 63 := by
  have h1 : (x.tdiv y).natAbs = x.natAbs / y.natAbs := Int.natAbs_tdiv x y
  by_cases h2 : y.natAbs ≤ 1
  · have : y = 0 ∨ y = 1 := by omega
    rcases this with rfl | rfl
    · rw [Int.tdiv_zero]; omega
    · rw [Int.tdiv_one]; exact hx
  · have h3 : x.natAbs / y.natAbs ≤ x.natAbs / 2 := Nat.div_le_div_left (by omega) (by decide)
    omega

theorem toInt_word (x : Word) : -(2 ^ 63 : Int) ≤ x.toInt ∧ x.toInt < 2 ^ 63 := by
  have h1 := BitVec.le_toInt x
  have h2 := BitVec.toInt_lt (x := x)
  constructor <;> omega

/-- The numbers in fields of at most four bytes are small. -/
theorem toI64_small (t : Ty) (ht : t.size ≤ 4) (be : Bool) (bs : List Byte) (hl : bs.length = t.size) :
    (t.toI64 (rdWord be bs)).toInt.natAbs < 2 ^ 32 := by
  have hr : (rdWord be bs).toNat < 2 ^ (8 * t.size) := by
    rw [← hl]; exact toNat_rdWord_lt be bs (by omega)
  generalize rdWord be bs = w at hr
  have h1 : ∀ (n : Nat) (x : BitVec n), n ≤ 32 → (x.signExtend 64).toInt.natAbs < 2 ^ 32 := by
    intro n x hn
    rw [BitVec.toInt_signExtend_of_le (by omega)]
    have h1 := BitVec.le_toInt x
    have h2 := BitVec.toInt_lt (x := x)
    have h3 : (2 : Int) ^ (n - 1) ≤ 2 ^ 31 := by
      exact_mod_cast Nat.pow_le_pow_right (by decide : 0 < 2) (by omega : n - 1 ≤ 31)
    omega
  have h2 : w.toNat < 2 ^ 32 → w.toInt.natAbs < 2 ^ 32 := by
    intro h
    rw [BitVec.toInt_eq_toNat_cond]
    rw [if_pos (by omega)]
    omega
  cases t
  case u8 => exact h2 (by simp only [Ty.size] at hr; omega)
  case u16 => exact h2 (by simp only [Ty.size] at hr; omega)
  case u32 => exact h2 (by simp only [Ty.size] at hr; omega)
  case u64 => simp only [Ty.size] at ht; omega
  case i8 => exact h1 8 _ (by omega)
  case i16 => exact h1 16 _ (by omega)
  case i32 => exact h1 32 _ (by omega)
  case i64 => simp only [Ty.size] at ht; omega

theorem mul_small {x y : Int} (hx : x.natAbs < 2 ^ 32) (hy : y.natAbs ≤ 2 ^ 30) : -(2 ^ 63 : Int) ≤ x * y ∧ x * y < 2 ^ 63 := by
  have h1 : (x * y).natAbs = x.natAbs * y.natAbs := Int.natAbs_mul x y
  have h2 : x.natAbs * y.natAbs ≤ 2 ^ 32 * 2 ^ 30 := Nat.mul_le_mul (by omega) hy
  omega

theorem word_cases {c : Word} (h : c = 0 ∨ c = 1) : c.toInt = 0 ∨ c.toInt = 1 := by
  rcases h with rfl | rfl
  · left; rfl
  · right; rfl

theorem word_ne_neg {c : Word} (h : c ≠ -1) : c.toInt ≠ -1 := by
  intro e
  apply h
  have := BitVec.ofInt_toInt (x := c)
  rw [e] at this
  exact this.symm

theorem tame_raw {x : ITrans} {t : Ty} {c : Word} (h : x.tame true t c = true) (w : Word) : intToRaw x.tr c w ≠ none := by
  have hw := toInt_word w
  cases x
  all_goals simp only [ITrans.tame, Bool.not_true, Bool.false_and, Bool.or_false, decide_eq_true_eq] at h
  · subst h
    exact i64_some (by rw [show (0 : Word).toInt = 0 from rfl]; omega)
  · subst h
    exact i64_some (by rw [show (0 : Word).toInt = 0 from rfl]; omega)
  · show (if c ≠ 0 then i64? _ else some _) ≠ none
    split
    · exact i64_some (tdiv_bounds hw (word_ne_neg h))
    · intro e; cases e
  · refine i64_some ?_
    rcases word_cases h with e | e <;> rw [e] <;> omega

theorem tame_eng {x : ITrans} {t : Ty} {c : Word} (h : x.tame false t c = true) (be : Bool) (bs : List Byte) (hl : bs.length = t.size) :
    intToEng x.tr c (t.toI64 (rdWord be bs)) ≠ none := by
  have hw := toInt_word (t.toI64 (rdWord be bs))
  have hs := fun ht => toI64_small t ht be bs hl
  generalize t.toI64 (rdWord be bs) = w at hw hs
  cases x
  all_goals simp only [ITrans.tame, Bool.not_false, Bool.true_and, Bool.or_eq_true, decide_eq_true_eq] at h
  · rcases h with h | h
    · subst h
      exact i64_some (by rw [show (0 : Word).toInt = 0 from rfl]; omega)
    · have := hs h.1
      exact i64_some (by omega)
  · rcases h with h | h
    · subst h
      exact i64_some (by rw [show (0 : Word).toInt = 0 from rfl]; omega)
    · have := hs h.1
      exact i64_some (by omega)
  · refine i64_some ?_
    rcases h with h | h
    · rcases word_cases h with e | e <;> rw [e] <;> omega
    · exact mul_small (hs h.1) h.2
  · show (if c ≠ 0 then i64? _ else some _) ≠ none
    split
    · exact i64_some (tdiv_bounds hw (word_ne_neg h))
    · intro e; cases e

/-- What a pending transform leaves alone. -/
structure Pend (tr : Trans) (c : Word) (k : Nat) (s s' : St σ) : Prop where
  st : s' = { s with ip := s.ip + k, trans := tr, iVal := s'.iVal, fFactor := s'.fFactor, fOffset := s'.fOffset, be := s'.be }
  val : s'.iVal = c

theorem big_ends {big : Bool} {tr : Trans} {c0 : Word} {k : Nat} {s m : St σ} (hat : At E.prog m.ip (if big then [0x02] else [])) (hm : Pend tr c0 k s m) :
    Ends E (Pend tr c0 (k + (if big then [(0x02 : Byte)] else []).length) s) m := by
  cases big with
  | false => exact .here hm
  | true =>
    have hat' : At E.prog m.ip [0x02] := hat
    refine .next (setBE_step hat') (.here ⟨?_, hm.val⟩)
    have := hm.st
    rw [this]
    rfl

/-- An integer field under a transform. -/
theorem field_pend {t : Ty} {k0 k1 : Byte} {tr : Trans} {c0 : Word} {k : Nat} {s m : St σ} (hat : At E.prog m.ip [t.tag, k0, k1])
    (hg : Good a s) (ho : a.opt = false) (hm : Pend tr c0 k s m)
    (hsafe : ∀ op s, s.ip + 2 ≤ E.prog.length → s.bit = 0 → s.trans = tr → s.opt = false → s.iVal = c0 → Safe (Took 2 t.size s) (handlePrim E t op s)) :
    Ends E (Land (k + 3) ⟨false, false, false⟩ true s) m := by
  have ha : aligns t.tag = true := by cases t <;> rfl
  have hf := pre_fields t.tag m
  have hl := hat.le (by simp)
  have hmb : m.bit = s.bit ∧ m.cursor = s.cursor ∧ m.opt = s.opt ∧ m.ip = s.ip + k ∧ m.trans = tr ∧ m.buf = s.buf ∧ m.loops = s.loops := by
    rw [hm.st]; exact ⟨rfl, rfl, rfl, rfl, rfl, rfl, rfl⟩
  obtain ⟨m1, m2, m3, m4, m5, m6, m7⟩ := hmb
  have hb8 : m.bit < 8 := by rw [m1]; exact hg.bit
  have hp := pre_pos t.tag m hb8
  have hb := hp.2.2.2.2.1 ha
  have hl' : (pre t.tag m).ip + 2 ≤ E.prog.length := by rw [hf.2.1]; simp only [List.length_cons, List.length_nil] at hl; omega
  have hos : s.opt = false := by
    cases hs : s.opt with
    | false => rfl
    | true => rw [hg.opt hs] at ho; cases ho
  have hiv : (pre t.tag m).iVal = c0 := by
    rw [← hm.val]; unfold pre alignSt; split <;> rfl
  have hop : (pre t.tag m).opt = false := by rw [hf.2.2.2.2.2.2.2.2.2.2.2, m3]; exact hos
  refine Ends.of_post (P := Land (k + 3) ⟨false, false, false⟩ true s) ?_ fun s' h => .here h
  rw [step_pre hat, show execOp E t.tag (pre t.tag m) = handlePrim E t t.tag (pre t.tag m) by unfold execOp; rw [io_decode]]
  refine post_imp (hsafe t.tag _ hl' hb (by rw [hf.2.2.2.2.2.2.1]; exact m5) hop hiv) fun s' h => ?_
  have hlen : s'.buf.length = s.buf.length := by rw [h.len, hf.1, m6]
  have hpos : s'.cursor = (pre t.tag m).cursor + t.size ∧ s'.cursor ≤ s.buf.length := by
    rcases h.pos with ⟨e, _⟩ | ⟨e1, e2⟩
    · rw [hop] at e; cases e
    · rw [hf.1, m6] at e2; exact ⟨e1, e2⟩
  have hs0 := ty_pos t
  have h3 := h.bit
  have h4 := hp.1
  refine ⟨by rw [h.ip, hf.2.1]; omega, by rw [h.loops, hf.2.2.2.1, m7], hlen, ⟨by omega, h.trans, ?_, ?_, fun _ => h.bit⟩, ?_, fun _ => .inl ?_⟩
  · intro e; rw [h.opt] at e; cases e
  · intro _; unfold St.at; omega
  · unfold St.at; omega
  · unfold St.at; omega

theorem seg_trans {x : ITrans} {c0 : Word} {big : Bool} {t : Ty} {k0 k1 : Byte} (ho : a.opt = false) (hx : x.tame E.enc t c0 = true) :
    Seg E (Sch.trans x c0 big t k0 k1).code a ⟨false, false, false⟩ true := by
  intro s hat hg
  have hl9 : ([x.op] ++ leBytes 8 c0).length = 9 := by simp
  have hat0 : At E.prog s.ip (([x.op] ++ leBytes 8 c0) ++ ((if big then [0x02] else []) ++ [t.tag, k0, k1])) := hat
  have hat1 := hat0.left
  have hat2 : At E.prog (s.ip + 9) ((if big then [0x02] else []) ++ [t.tag, k0, k1]) := hl9 ▸ hat0.right
  refine .next (trans_step hat1) ?_
  refine (big_ends (k := 9) (tr := x.tr) (c0 := c0) (s := s) hat2.left ⟨rfl, rfl⟩).bind fun m hm => ?_
  have hmip : m.ip = s.ip + 9 + (if big then [(0x02 : Byte)] else []).length := by rw [hm.st]; dsimp only; omega
  have := field_pend (t := t) (k0 := k0) (k1 := k1) (hmip ▸ hat2.right) hg ho hm ?_
  · refine this.mono fun s' h => ?_
    simpa only [Sch.code, List.length_append, List.length_cons, List.length_nil, leBytes_length, Nat.zero_add, Nat.add_assoc,
      show 1 + 8 = 9 from rfl] using h
  · intro op s h1 h2 h3 h4 h5
    refine handlePrim_safe_trans E t op s h1 h2 (by rw [h3]; cases x <;> simp [ITrans.tr]) h4 ?_ ?_
    · intro he w
      rw [he] at hx
      rw [h3, h5]
      exact tame_raw hx w
    · intro he bs hbs
      rw [he] at hx
      rw [h3, h5]
      exact tame_eng hx s.be bs hbs

theorem big_goes {big : Bool} {m : St σ} (hat : At E.prog m.ip (if big then [0x02] else [])) :
    Ends E (fun m' => m' = { m with ip := m.ip + (if big then [(0x02 : Byte)] else []).length, be := m'.be }) m := by
  cases big with
  | false => exact .here rfl
  | true =>
    have hat' : At E.prog m.ip [0x02] := hat
    exact .next (setBE_step hat') (.here rfl)

/-- A number field under a pending transform. -/
theorem field_curve {c : Curve} {n : Num} {k0 k1 : Byte} {m : St σ} (hat : At E.prog m.ip [n.tag, k0, k1]) (hr : c.Ready E m)
    (ht : c.tame E.enc n = true) (hb8 : m.bit < 8) (ho : m.opt = false) :
    Ends E (Land 3 ⟨false, false, false⟩ true m) m := by
  unfold Curve.tame at ht
  simp only [Bool.and_eq_true, Bool.or_eq_true, Bool.not_eq_true'] at ht
  obtain ⟨hsu, ht⟩ := ht
  have ha := n.aligns
  have hf := pre_fields n.tag m
  have hl := hat.le (by simp)
  have hp := pre_pos n.tag m hb8
  have hb := hp.2.2.2.2.1 ha
  have hl' : (pre n.tag m).ip + 2 ≤ E.prog.length := by rw [hf.2.1]; simp only [List.length_cons, List.length_nil] at hl; omega
  have hop : (pre n.tag m).opt = false := by rw [hf.2.2.2.2.2.2.2.2.2.2.2]; exact ho
  have hr' := ready_pre hr n.tag ha
  have hsafe : Safe (Took 2 n.size (pre n.tag m)) (execOp E n.tag (pre n.tag m)) := by
    cases n with
    | int t =>
      rw [show execOp E (Num.int t).tag (pre (Num.int t).tag m) = handlePrim E t (Num.int t).tag (pre (Num.int t).tag m) by
        unfold execOp; rw [num_decode]]
      refine handlePrim_safe_curve E ?_ t _ _ hl' hb ?_ (ready_tab hr') hop
      · rcases ht with h | h
        · exact h
        · cases h
      · cases c
        · exact .inl hr'.1
        · exact .inr (.inl hr'.1)
        · exact .inr (.inr hr'.1)
    | flt d =>
      obtain ⟨x, y, rfl⟩ := flt_scale hsu
      rw [float_exec, float_size]
      exact handleFloat_safe_scale E d _ _ hl' hb hr'.1 hop
  refine Ends.of_post (P := Land 3 ⟨false, false, false⟩ true m) ?_ fun s' h => .here h
  rw [step_pre hat]
  refine post_imp hsafe fun s' h => ?_
  have hlen : s'.buf.length = m.buf.length := by rw [h.len, hf.1]
  have hpos : s'.cursor = (pre n.tag m).cursor + n.size ∧ s'.cursor ≤ m.buf.length := by
    rcases h.pos with ⟨e, _⟩ | ⟨e1, e2⟩
    · rw [hop] at e; cases e
    · rw [hf.1] at e2; exact ⟨e1, e2⟩
  have hs0 := n.size_pos
  have h3 := h.bit
  have h4 := hp.1
  refine ⟨by rw [h.ip, hf.2.1], by rw [h.loops, hf.2.2.2.1], hlen, ⟨by omega, h.trans, ?_, ?_, fun _ => h.bit⟩, ?_, fun _ => .inl ?_⟩
  · intro e; rw [h.opt] at e; cases e
  · intro _; unfold St.at; omega
  · unfold St.at; omega
  · unfold St.at; omega

theorem seg_curve {c : Curve} {big : Bool} {n : Num} {k0 k1 : Byte} (ho : a.opt = false) (ht : c.tame E.enc n = true) :
    Seg E (Sch.curve c big n k0 k1).code a ⟨false, false, false⟩ true := by
  intro s hat hg
  have hsu : c.suits n = true := by
    unfold Curve.tame at ht
    simp only [Bool.and_eq_true] at ht
    exact ht.1
  have hat0 : At E.prog s.ip (c.code ++ ((if big then [0x02] else []) ++ [n.tag, k0, k1])) := hat
  obtain ⟨hs1, hrd⟩ := curve_step hat0.left hsu
  have hip := c.load_ip s
  have hat2 : At E.prog (c.load s).ip ((if big then [0x02] else []) ++ [n.tag, k0, k1]) := hip ▸ hat0.right
  obtain ⟨q1, q2, q3, q4, q5, q6, q7⟩ := c.load_same s
  obtain ⟨q8, q9⟩ := c.load_pos s
  have hbit := hg.bit
  refine .next hs1 ((big_goes hat2.left).bind fun m hm => ?_)
  have m1 : m.ip = (c.load s).ip + (if big then [(0x02 : Byte)] else []).length := by rw [hm]
  have m3 : m.buf = s.buf := by rw [hm]; exact q1
  have m6 : m.loops = s.loops := by rw [hm]; exact q2
  have m7 : m.opt = s.opt := by rw [hm]; exact q6
  have m8 : c.Ready E m := by rw [hm]; cases c <;> exact hrd
  have m9 : m.cursor = s.cursor ∧ m.bit = s.bit ∨ m.cursor = s.fieldPos ∧ m.bit = 0 := by rw [hm]; exact q9
  have hos : s.opt = false := by
    cases hs : s.opt with
    | false => rfl
    | true => rw [hg.opt hs] at ho; cases ho
  have hat' : s.at ≤ m.at ∧ m.bit < 8 := by
    unfold St.at
    rcases m9 with ⟨e1, e2⟩ | ⟨e1, e2⟩
    · omega
    · unfold St.fieldPos at e1
      split at e1 <;> omega
  refine (field_curve (m1 ▸ hat2.right) m8 ht hat'.2 (m7.trans hos)).mono fun s' h => ?_
  refine ⟨?_, h.loops.trans m6, by rw [h.len, m3], h.good, Nat.le_trans hat'.1 h.fwd, fun e => ?_⟩
  · rw [h.ip, m1, hip]
    simp only [Sch.code, List.length_append, List.length_cons, List.length_nil]
    omega
  · rcases h.adv e with h | h
    · exact .inl (by omega)
    · exact .inr h

/-! ### Choices -/

theorem jump_ends {r : Nat} {s : St σ} (hat : At E.prog s.ip ([0x52] ++ u32le r)) (hr : r < 2 ^ 31) (hle : s.ip + 5 + r ≤ E.prog.length) :
    step E s = .run { s with ip := s.ip + 5 + r } := by
  have hat' : At E.prog s.ip (0x52 :: u32le r) := hat
  rw [step_pre hat', pre_unaligned 0x52 _ rfl]
  show handleJump E _ = _
  unfold handleJump
  refine fet_ok hat'.tail (by simp) (by omega) ?_
  unfold u32le
  rw [goto_ahead hr (by show s.ip + 1 + 4 + r ≤ _; omega)]

/-- The same state at another place. -/
theorem land_goto {s : St σ} {i k : Nat} {b : Know} (hg : Good b s) (hi : i = s.ip + k) : Land k b false s { s with ip := i } :=
  ⟨hi, rfl, rfl, ⟨hg.bit, hg.trans, hg.opt, hg.fit, hg.al⟩, Nat.le_refl _, fun e => by cases e⟩

/-- A block followed by a jump ahead. -/
theorem block_jump (h : Seg E x a b v) {s : St σ} {r : Nat} (hat : At E.prog s.ip (x ++ ([0x52] ++ u32le r))) (hg : Good a s)
    (hr : r < 2 ^ 31) (hle : s.ip + x.length + 5 + r ≤ E.prog.length) : Ends E (Land (x.length + 5 + r) b v s) s := by
  refine (h s hat.left hg).bind fun m hm => ?_
  refine .next (jump_ends (r := r) (hm.ip ▸ hat.right) hr (by rw [hm.ip]; omega)) (.here ?_)
  have := hm.then (land_goto (s := m) (i := m.ip + 5 + r) (k := 5 + r) hm.good (by omega))
  rw [Bool.or_false, ← Nat.add_assoc] at this
  exact this

/-- Having started elsewhere. -/
theorem Land.from {k l : Nat} {s m s' : St σ} (hm : m = { s with ip := m.ip, stack := m.stack, host := m.host }) (hip : m.ip = s.ip + k)
    (h : Land l b v m s') : Land (k + l) b v s s' := by
  have hat : m.at = s.at := by rw [hm]; rfl
  refine ⟨by rw [h.ip, hip]; omega, by rw [h.loops, hm], by rw [h.len, hm], h.good, by rw [← hat]; exact h.fwd, fun e => by rw [← hat]; exact h.adv e⟩

theorem good_from {s m : St σ} (hm : m = { s with ip := m.ip, stack := m.stack, host := m.host }) (hg : Good a s) : Good a m := by
  rw [hm]; exact ⟨hg.bit, hg.trans, hg.opt, hg.fit, hg.al⟩

theorem jumpIfNot_safe {s : St σ} {r : Nat} (hat : At E.prog s.ip (0x50 :: u32le r)) (hr : r < 2 ^ 31) (hle : s.ip + 5 + r ≤ E.prog.length) :
    Safe (fun s' => ∃ st, s' = { s with ip := s.ip + 5, stack := st } ∨ s' = { s with ip := s.ip + 5 + r, stack := st }) (step E s) := by
  have hl := hat.le (by simp)
  simp only [List.length_cons, u32le_length] at hl
  rw [step_pre hat, pre_unaligned 0x50 _ rfl]
  show Safe _ (handleJumpIfNot E _)
  unfold handleJumpIfNot
  have hf : fetch E.prog (s.ip + 1) 4 = (leWord (u32le r), s.ip + 1 + 4) := hat.tail.fetch (by simp) (by omega)
  unfold fet
  dsimp only
  rw [hf]
  cases hst : s.stack with
  | nil => trivial
  | cons c rest =>
    dsimp only
    refine post_dite (fun _ => ?_) fun _ => ⟨rest, .inl rfl⟩
    unfold u32le
    rw [goto_ahead hr (by omega)]
    exact ⟨rest, .inr rfl⟩

theorem seg_ite (hE : E.prog.length < 2 ^ 31) {e : IExpr} (he : e.tame = true) {thn els : List Byte} {b1 b2 : Know} {v1 v2 : Bool}
    (h1 : Seg E thn a b1 v1) (h2 : Seg E els a b2 v2) : Seg E (iteCode e.code thn els) a (b1.join b2) (v1 && v2) := by
  intro s hat hg
  have hat' : At E.prog s.ip (e.code ++ ((0x50 :: u32le (thn.length + 5)) ++ ((thn ++ ([0x52] ++ u32le els.length)) ++ els))) := by
    unfold iteCode at hat
    simpa only [List.append_assoc, List.cons_append, List.nil_append] using hat
  have hl := hat'.le (by simp)
  have hlen : (iteCode e.code thn els).length = e.code.length + 5 + (thn.length + 5) + els.length := by
    unfold iteCode
    simp only [List.length_append, List.length_cons, List.length_nil, u32le_length]
    omega
  simp only [List.length_append, List.length_cons, List.length_nil, u32le_length] at hl
  have hatT := hat'.right.right.left
  have hatE := hat'.right.right.right
  simp only [List.length_append, List.length_cons, List.length_nil, u32le_length] at hatT hatE
  rw [hlen]
  refine (expr_ends e he s hat'.left).bind fun m hm => ?_
  obtain ⟨x, h, rfl, _⟩ := hm
  refine Ends.of_post (jumpIfNot_safe (r := thn.length + 5) hat'.right.left (by omega) (by dsimp only; omega)) fun m hm => ?_
  obtain ⟨st, rfl | rfl⟩ := hm
  · refine (block_jump h1 (r := els.length) (by exact hatT) (good_from rfl hg) (by omega) (by dsimp only; omega)).mono fun s' hs => ?_
    have := Land.from (s := s) (k := e.code.length + 5) rfl (by dsimp only; omega) hs
    rw [show e.code.length + 5 + (thn.length + 5) + els.length = e.code.length + 5 + (thn.length + 5 + els.length) by omega]
    exact this.weaken (le_join_left _ _) (fun e => (Bool.and_eq_true _ _ ▸ e).1)
  · refine (h2 _ (by
      dsimp only
      rw [show s.ip + e.code.length + 5 + (thn.length + 5) = s.ip + e.code.length + (4 + 1) + (thn.length + (0 + 1 + 4)) by omega]
      exact hatE) (good_from rfl hg)).mono fun s' hs => ?_
    have := Land.from (s := s) (k := e.code.length + 5 + (thn.length + 5)) rfl (by dsimp only; omega) hs
    exact this.weaken (le_join_right _ _) (fun e => (Bool.and_eq_true _ _ ▸ e).2)

theorem switch_refused {s : St σ} {k0 k1 : Byte} {l : List (Option Word × List Byte)} {x : Word} {h : σ}
    (hat : At E.prog s.ip (switchCode (keyNum k0 k1) l)) (hhost : E.host.scalar s.host (keyNum k0 k1) 0x06 0 = (false, x, h)) :
    Safe (fun _ => False) (step E s) := by
  have hkey : u16le (keyNum k0 k1) = [k0, k1] := by
    have := leBytes_leWord [k0, k1] (by simp)
    unfold u16le
    rw [← leWord_key, BitVec.ofNat_toNat, BitVec.setWidth_eq]
    exact this
  have hop := table_op (armsAt 0 l) (armsSize l)
  unfold switchCode at hat
  generalize tableOf (armsAt 0 l) (armsSize l) = t at hat hop
  have hat0 : At E.prog s.ip (t.1 :: ([k0, k1] ++ u32le (armsSize l))) := by
    have : At E.prog s.ip (([t.1] ++ u16le (keyNum k0 k1) ++ u32le (armsSize l)) ++ (armsCode t.2.length l ++ t.2)) := by
      simpa only [List.append_assoc] using hat
    have := this.left
    rw [hkey] at this
    exact this
  have hl := hat0.le (by simp)
  simp only [List.length_append, List.length_cons, List.length_nil, u32le_length] at hl
  have hf : fetch E.prog (s.ip + 1) 2 = (leWord [k0, k1], s.ip + 1 + 2) := hat0.tail.left.fetch rfl (by omega)
  have hno : ∀ (s' : St σ) k, s'.host = s.host → Safe (fun _ => False) (callScalar E s' (leWord [k0, k1]).toNat 0x06 8 0 k) := by
    intro s' k hs'
    rw [leWord_key]
    apply post_callScalar
    · intro h' w hw
      rw [hs', hhost] at hw
      cases hw
    · intro _ _ _; trivial
  rcases hop with hop | hop
  · rw [hop] at hat0
    rw [step_pre hat0, pre_unaligned 0x51 _ rfl]
    show Safe _ (handleSwitch E _)
    unfold handleSwitch
    apply post_fetX (by dsimp only; omega)
    apply post_fetX (by dsimp only; omega)
    apply post_ite
    · trivial
    · dsimp only
      rw [hf]
      exact hno _ _ rfl
  · rw [hop] at hat0
    rw [step_pre hat0, pre_unaligned 0x53 _ rfl]
    show Safe _ (handleSwitchTable E _)
    unfold handleSwitchTable
    apply post_fetX (by dsimp only; omega)
    apply post_fetX (by dsimp only; omega)
    apply post_ite
    · trivial
    · dsimp only
      rw [hf]
      exact hno _ _ rfl

theorem seg_switch (hE : E.prog.length < 2 ^ 31) {k0 k1 : Byte} {cs : Cases} (hn : cs.labels.length < 2 ^ 16) (hab : a.le b = true)
    (hc : ∀ lab c, cs.codes.lookup lab = some c → Seg E c a b v) :
    Seg E (switchCode (keyNum k0 k1) cs.codes) a b (v && cs.labels.contains none) := by
  intro s hat hg
  generalize hk : E.host.scalar s.host (keyNum k0 k1) 0x06 0 = ans
  obtain ⟨ok, x, h⟩ := ans
  cases ok with
  | false => exact Ends.of_post (switch_refused hat hk) fun s' h => h.elim
  | true =>
    have hst := switch_lands hE hat (by rw [codes_length]; exact hn) hk
    have hlen : (switchCode (keyNum k0 k1) cs.codes).length =
        7 + armsSize cs.codes + (tableOf (armsAt 0 cs.codes) (armsSize cs.codes)).2.length := by
      unfold switchCode
      simp only [List.length_append, List.length_cons, List.length_nil, u32le_length, u16le_length, armsCode_length]
    have hl := hat.le (by unfold switchCode; simp)
    rw [hlen] at hl
    rw [hlen]
    have hatC : At E.prog (s.ip + 7) (armsCode (tableOf (armsAt 0 cs.codes) (armsSize cs.codes)).2.length cs.codes) := by
      unfold switchCode at hat
      have := hat.left.right
      simpa only [List.length_append, List.length_cons, List.length_nil, u32le_length, u16le_length] using this
    generalize tableOf (armsAt 0 cs.codes) (armsSize cs.codes) = t at *
    refine .next hst ?_
    have run : ∀ lab o, (armsAt 0 cs.codes).lookup lab = some o → ∀ m : St σ, m = { s with ip := s.ip + 7 + o, host := h } →
        Ends E (Land (7 + armsSize cs.codes + t.2.length) b (v && cs.labels.contains none) s) m := by
      intro lab o ho m hm
      obtain ⟨c, r, e1, _, e3, e4⟩ := arm_found cs.codes t.2.length 0 (s.ip + 7) lab o ho hatC
      rw [Nat.sub_zero] at e3 e4
      have hmip : m.ip = s.ip + 7 + o := by rw [hm]
      refine (block_jump (hc lab c e1) (r := r) (hmip ▸ e3) (good_from (s := s) (by rw [hm]) hg) (by omega) (by omega)).mono fun s' hs => ?_
      have := Land.from (s := s) (m := m) (k := 7 + o) (by rw [hm]) (by omega) hs
      rw [show 7 + armsSize cs.codes + t.2.length = 7 + o + (c.length + 5 + r) by omega]
      exact this.weaken (by obtain ⟨b1, b2, b3⟩ := b; cases b1 <;> cases b2 <;> cases b3 <;> rfl) (fun e => (Bool.and_eq_true _ _ ▸ e).1)
    unfold goesTo
    cases h1 : (armsAt 0 cs.codes).lookup (some x) with
    | some o => exact run _ o h1 _ rfl
    | none =>
      cases h2 : (armsAt 0 cs.codes).lookup none with
      | some o => exact run _ o h2 _ rfl
      | none =>
        refine .here ?_
        have hnl : cs.labels.contains none = false := by
          have := (codes_lookup cs none).1 ((arms_lookup _ _ _).1 h2)
          simpa using this
        rw [hnl, Bool.and_false]
        simp only [Option.getD_none]
        exact ⟨by dsimp only; omega, rfl, rfl, Good.mono ⟨hg.bit, hg.trans, hg.opt, hg.fit, hg.al⟩ hab, Nat.le_refl _, fun e => by cases e⟩

end

/-! ### Descriptions -/

theorem le_refl' (a : Know) : a.le a = true := by
  obtain ⟨b1, b2, b3⟩ := a; cases b1 <;> cases b2 <;> cases b3 <;> rfl

theorem le_trans' {a b c : Know} (h1 : a.le b = true) (h2 : b.le c = true) : a.le c = true := by
  obtain ⟨a1, a2, a3⟩ := a
  obtain ⟨b1, b2, b3⟩ := b
  obtain ⟨c1, c2, c3⟩ := c
  simp only [Know.le, Bool.and_eq_true, Bool.or_eq_true, Bool.not_eq_true'] at h1 h2 ⊢
  obtain ⟨⟨h11, h12⟩, h13⟩ := h1
  obtain ⟨⟨h21, h22⟩, h23⟩ := h2
  refine ⟨⟨?_, ?_⟩, ?_⟩
  · rcases h11 with h | h
    · exact .inl h
    · rcases h21 with h' | h'
      · rw [h] at h'; cases h'
      · exact .inr h'
  · rcases h12 with h | h
    · exact .inl h
    · rcases h22 with h' | h'
      · rw [h] at h'; cases h'
      · exact .inr h'
  · rcases h13 with h | h
    · exact .inl h
    · rcases h23 with h' | h'
      · rw [h] at h'; cases h'
      · exact .inr h'

section
variable {E : Env σ}

mutual

theorem sch_seg (hE : E.prog.length < 2 ^ 31) : (f : Sch) → ∀ a r, f.check E.enc a = some r → Seg E f.code a r.1 r.2
  | .fld f, a, r, h => by
    unfold Sch.check at h
    unfold Sch.code
    exact fld_seg f a r h
  | .seq f g, a, r, h => by
    unfold Sch.check at h
    obtain ⟨r1, h1, h2⟩ := Option.bind_eq_some_iff.1 h
    obtain ⟨r2, h3, h4⟩ := Option.map_eq_some_iff.1 h2
    subst h4
    unfold Sch.code
    exact (sch_seg hE f _ _ h1).then (sch_seg hE g _ _ h3)
  | .struct k0 k1 f, a, r, h => by
    unfold Sch.check at h
    unfold Sch.code
    exact seg_struct (sch_seg hE f _ _ h)
  | .arrFixed k0 k1 n f, a, r, h => by
    unfold Sch.check at h
    obtain ⟨w, h1, h2⟩ := Option.map_eq_some_iff.1 h
    subst h2
    obtain ⟨hA, hw⟩ := arrCheck_ok h1 rfl (sch_seg hE f)
    unfold Sch.code
    exact seg_arrFixed hA hw
  | .arrPre p k0 k1 f, a, r, h => by
    unfold Sch.check at h
    obtain ⟨w, h1, h2⟩ := Option.map_eq_some_iff.1 h
    subst h2
    obtain ⟨hA, hw⟩ := arrCheck_ok h1 rfl (sch_seg hE f)
    unfold Sch.code
    exact seg_arrPre hA hw
  | .arrDyn k0 k1 r0 r1 f, a, r, h => by
    unfold Sch.check at h
    obtain ⟨w, h1, h2⟩ := Option.map_eq_some_iff.1 h
    subst h2
    obtain ⟨hA, hw⟩ := arrCheck_ok h1 rfl (sch_seg hE f)
    unfold Sch.code
    exact seg_arrDyn hA hw
  | .opt, a, r, h => by
    unfold Sch.check at h
    injection h with h
    subst h
    exact seg_opt
  | .trans x c big t k0 k1, a, r, h => by
    unfold Sch.check at h
    split at h
    · cases h
    · rename_i hc
      injection h with h
      subst h
      simp only [Bool.or_eq_true, not_or, Bool.not_eq_true, Bool.not_eq_false'] at hc
      exact seg_trans hc.1 hc.2
  | .curve x big n k0 k1, a, r, h => by
    unfold Sch.check at h
    split at h
    · cases h
    · rename_i hc
      injection h with h
      subst h
      simp only [Bool.or_eq_true, not_or, Bool.not_eq_true, Bool.not_eq_false'] at hc
      exact seg_curve hc.1 hc.2
  | .calc e big tag k0 k1, a, r, h => by
    unfold Sch.check at h
    split at h
    · rename_i hc
      injection h with h
      subst h
      exact seg_calc hc
    · cases h
  | .ite c f g, a, r, h => by
    unfold Sch.check at h
    split at h
    · rename_i hc
      obtain ⟨r1, h1, h2⟩ := Option.bind_eq_some_iff.1 h
      obtain ⟨r2, h3, h4⟩ := Option.map_eq_some_iff.1 h2
      subst h4
      unfold Sch.code
      exact seg_ite hE hc (sch_seg hE f _ _ h1) (sch_seg hE g _ _ h3)
    · cases h
  | .switch k0 k1 cs, a, r, h => by
    unfold Sch.check at h
    split at h
    · rename_i hn
      obtain ⟨q, h1, h2⟩ := Option.map_eq_some_iff.1 h
      subst h2
      obtain ⟨hab, hc⟩ := cases_seg hE cs _ _ h1
      unfold Sch.code
      exact seg_switch hE hn hab hc
    · cases h

theorem cases_seg (hE : E.prog.length < 2 ^ 31) : (cs : Cases) → ∀ a r, cs.check E.enc a = some r →
    a.le r.1 = true ∧ ∀ lab c, cs.codes.lookup lab = some c → Seg E c a r.1 r.2
  | .nil, a, r, h => by
    unfold Cases.check at h
    injection h with h
    subst h
    exact ⟨le_refl' _, fun lab c e => by unfold Cases.codes at e; cases e⟩
  | .cons l f rest, a, r, h => by
    unfold Cases.check at h
    obtain ⟨r1, h1, h2⟩ := Option.bind_eq_some_iff.1 h
    obtain ⟨r2, h3, h4⟩ := Option.map_eq_some_iff.1 h2
    subst h4
    obtain ⟨ih1, ih2⟩ := cases_seg hE rest _ _ h3
    refine ⟨le_trans' ih1 (le_join_right _ _), fun lab c e => ?_⟩
    unfold Cases.codes at e
    rw [List.lookup_cons] at e
    split at e
    · injection e with e
      subst e
      exact (sch_seg hE f _ _ h1).weaken (le_join_left _ _) (fun e => (Bool.and_eq_true _ _ ▸ e).1)
    · exact (ih2 lab c e).weaken (le_join_right _ _) (fun e => (Bool.and_eq_true _ _ ▸ e).2)

end

end

end Cnd
