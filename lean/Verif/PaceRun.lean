import Verif.TameRuns
import Verif.Pace
import Verif.SweepOpt
import Verif.Props.CodeFlow
/-
  Runs of checked packet descriptions (for C92): how many instructions they take.
-/

set_option linter.unusedVariables false

namespace Cnd
variable {σ : Type}

/-- How much of the packet lies before the position. -/
def St.inn (s : St σ) : Nat := min s.cursor s.buf.length

/-- A run with an account: every instruction costs one, and every byte of the packet that is passed pays in `B`. The run stops
before the account is used up, or comes to a state with `Q`, the first argument of which is what is left. -/
inductive Paid (E : Env σ) (B : Nat) (Q : Nat → St σ → Prop) : Nat → St σ → Prop
  | here {c : Nat} {s : St σ} (h : Q c s) : Paid E B Q c s
  | stop {c : Nat} {s : St σ} (h : ∀ s', step E s ≠ .run s') : Paid E B Q (c + 1) s
  | next {c : Nat} {s s' : St σ} (h : step E s = .run s') (h' : Paid E B Q (c + B * (s'.inn - s.inn)) s') : Paid E B Q (c + 1) s

section
variable {E : Env σ} {B : Nat} {Q R : Nat → St σ → Prop} {c d : Nat} {s : St σ}

theorem Paid.bind (h : Paid E B Q c s) (hR : ∀ c' s', Q c' s' → Paid E B R c' s') : Paid E B R c s := by
  induction h with
  | here h => exact hR _ _ h
  | stop h => exact .stop h
  | next h _ ih => exact .next h ih

theorem Paid.mono (h : Paid E B Q c s) (hR : ∀ c' s', Q c' s' → R c' s') : Paid E B R c s :=
  h.bind fun c' s' hq => .here (hR c' s' hq)

/-- What is paid in on top, and what was in the account on top, is left. -/
theorem Paid.boost (D : Nat) (h : Paid E B Q c s) (x : Nat) :
    Paid E (B + D) (fun c' s' => ∃ c0, Q c0 s' ∧ c0 + x + D * (s'.inn - s.inn) ≤ c') (c + x) s := by
  induction h generalizing x with
  | here h => exact .here ⟨_, h, by simp⟩
  | stop h =>
    rw [Nat.add_right_comm]
    exact .stop h
  | @next c s s1 h _ ih =>
    rw [Nat.add_right_comm]
    refine .next h ?_
    have := ih (x + D * (s1.inn - s.inn))
    rw [show c + x + (B + D) * (s1.inn - s.inn) = c + B * (s1.inn - s.inn) + (x + D * (s1.inn - s.inn)) by rw [Nat.add_mul]; omega]
    refine this.mono fun c' s' ⟨c0, hq, hle⟩ => ⟨c0, hq, ?_⟩
    have : D * (s'.inn - s.inn) ≤ D * (s1.inn - s.inn) + D * (s'.inn - s1.inn) := by
      rw [← Nat.mul_add]
      exact Nat.mul_le_mul_left _ (by omega)
    omega

theorem Paid.of_post {P : St σ → Prop} (h : Post P (fun _ _ => True) (fun _ => True) (step E s)) (hc : 0 < c)
    (hQ : ∀ s' c', P s' → c ≤ c' + 1 → Paid E B Q c' s') : Paid E B Q c s := by
  obtain ⟨c, rfl⟩ := Nat.exists_eq_succ_of_ne_zero (Nat.ne_of_gt hc)
  cases hs : step E s with
  | run s' => rw [hs] at h; exact .next hs (hQ s' _ h (by omega))
  | stop e s' => exact .stop fun s1 h1 => by rw [hs] at h1; cases h1
  | ub u => exact .stop fun s1 h1 => by rw [hs] at h1; cases h1

theorem inn_mono {s s' : St σ} (h : s.at ≤ s'.at) (hb : s'.bit < 8) (hl : s'.buf.length = s.buf.length) : s.inn ≤ s'.inn := by
  have := at_cursor h hb
  unfold St.inn
  omega

/-- What every step does. -/
theorem step_goes {s' : St σ} (hi : Inv s) (hs : step E s = .run s') :
    Inv s' ∧ s'.buf.length = s.buf.length ∧ s.at ≤ s'.at := by
  refine ⟨step_inv hi hs, ?_⟩
  cases hop : E.prog[s.ip]? with
  | none => rw [step_end hop] at hs; cases hs
  | some op =>
    have hm := step_mono hi hop
    rw [hs] at hm
    have hm : Mono _ _ (pre op s) s' := hm
    have hp := pre_pos op s hi.bit
    have h1 := hm.pos
    have h2 := hp.1
    exact ⟨by rw [hm.len, (pre_fields op s).1], by unfold St.at; omega⟩

/-- The account bounds the number of instructions. -/
theorem Paid.exec (h : Paid E B Q c s) (hi : Inv s) :
    ∃ n, n ≤ c + B * (s.buf.length - s.inn) ∧
      ((∃ c' s', exec E n s = .run s' ∧ Q c' s') ∨ ∀ s', exec E n s ≠ .run s') := by
  induction h with
  | here h => exact ⟨0, Nat.zero_le _, .inl ⟨_, _, rfl, h⟩⟩
  | @stop c s h =>
    refine ⟨1, by omega, .inr fun s' hs => ?_⟩
    cases h1 : step E s with
    | run s1 => exact h s1 h1
    | stop e s1 => rw [exec_stop_succ h1 0] at hs; cases hs
    | ub u =>
      unfold Cnd.exec at hs
      rw [h1] at hs
      cases hs
  | @next c s s1 h _ ih =>
    obtain ⟨hi1, hl1, hf1⟩ := step_goes hi h
    obtain ⟨n, hn, hr⟩ := ih hi1
    have hm := inn_mono hf1 hi1.bit hl1
    have hle : s1.inn ≤ s.buf.length := by unfold St.inn; omega
    refine ⟨n + 1, ?_, ?_⟩
    · have : B * (s1.inn - s.inn) + B * (s1.buf.length - s1.inn) = B * (s.buf.length - s.inn) := by
        rw [← Nat.mul_add, hl1]
        congr 1
        omega
      omega
    · rw [exec_run_succ h]
      exact hr

end

/-- The state after a piece of code of `k` bytes. -/
structure Trip (k : Nat) (o v : Bool) (s s' : St σ) : Prop where
  ip : s'.ip = s.ip + k
  loops : s'.loops = s.loops
  len : s'.buf.length = s.buf.length
  inv : Inv s'
  fwd : s.at ≤ s'.at
  opt : s'.opt = true → o = true
  far : v = true → s.inn < s'.inn

/-- From every state at the code: the run stops or comes to the end of the code, and each byte of code costs one at most. -/
def Lap (E : Env σ) (B : Nat) (code : List Byte) (o o' v : Bool) : Prop :=
  ∀ s c, At E.prog s.ip code → Inv s → (s.opt = true → o = true) → code.length ≤ c →
    Paid E B (fun c' s' => Trip code.length o' v s s' ∧ c ≤ c' + code.length) c s

theorem Trip.inn {k : Nat} {o v : Bool} {s s' : St σ} (h : Trip k o v s s') : s.inn ≤ s'.inn := inn_mono h.fwd h.inv.bit h.len

theorem Trip.then {k l : Nat} {o o' v w : Bool} {s m s' : St σ} (h1 : Trip k o v s m) (h2 : Trip l o' w m s') :
    Trip (k + l) o' (v || w) s s' where
  ip := by rw [h2.ip, h1.ip]; omega
  loops := h2.loops.trans h1.loops
  len := h2.len.trans h1.len
  inv := h2.inv
  fwd := Nat.le_trans h1.fwd h2.fwd
  opt := h2.opt
  far := by
    intro h
    have hf := h1.inn
    have hg := h2.inn
    rcases Bool.or_eq_true _ _ ▸ h with h | h
    · have := h1.far h; omega
    · have := h2.far h; omega

theorem Trip.weaken {k : Nat} {o o' v w : Bool} {s s' : St σ} (h : Trip k o v s s') (ho : o = true → o' = true)
    (hw : w = true → v = true) : Trip k o' w s s' :=
  ⟨h.ip, h.loops, h.len, h.inv, h.fwd, fun e => ho (h.opt e), fun e => h.far (hw e)⟩

section
variable {E : Env σ} {B : Nat} {o o' o'' v w : Bool} {x y code : List Byte}

theorem Lap.then (h1 : Lap E B x o o' v) (h2 : Lap E B y o' o'' w) : Lap E B (x ++ y) o o'' (v || w) := by
  intro s c hat hi ho hc
  rw [List.length_append] at hc
  refine (h1 s c hat.left hi ho (by omega)).bind fun c' m hm => ?_
  refine (h2 m c' (hm.1.ip ▸ hat.right) hm.1.inv hm.1.opt (by omega)).mono fun c'' s' hs => ?_
  rw [List.length_append]
  exact ⟨hm.1.then hs.1, by omega⟩

theorem Lap.weaken (h : Lap E B x o o' v) (ho : o' = true → o'' = true) (hw : w = true → v = true) : Lap E B x o o'' w :=
  fun s c hat hi hs hc => (h s c hat hi hs hc).mono fun c' s' h => ⟨h.1.weaken ho hw, h.2⟩

theorem Lap.nil : Lap E B [] o o false :=
  fun s c _ hi ho _ => .here ⟨⟨rfl, rfl, rfl, hi, Nat.le_refl _, ho, fun h => by cases h⟩, Nat.le_refl _⟩

/-- The `@optional` flag after an instruction, and whether it takes a byte for certain. -/
def Op.after (p : Op) (o : Bool) : Bool × Bool :=
  if p.eats then (false, !o) else if p.locks then (o, true) else if p = .markOptional then (true, false) else (o, false)

theorem step_paced {s s' : St σ} {op : Byte} {r : List Byte} (hat : At E.prog s.ip (op :: r)) (hi : Inv s) (ho : s.opt = true → o = true)
    (hs : step E s = .run s') :
    (s'.opt = true → ((decodeOp op).after o).1 = true) ∧ (((decodeOp op).after o).2 = true → s.inn < s'.inn) := by
  have hp := pre_pos op s hi.bit
  have hf := pre_fields op s
  have h := execOp_pace E op (pre op s)
  rw [← step_pre hat, hs] at h
  have h : Paced (decodeOp op) (pre op s) s' := h
  obtain ⟨hi', hl, _⟩ := step_goes hi hs
  have hopt : (pre op s).opt = s.opt := hf.2.2.2.2.2.2.2.2.2.2.2
  have hinn : Ate (pre op s) s' → s.inn < s'.inn := by
    intro ⟨h1, h2⟩
    rw [hf.1] at h2
    have h3 := hp.1
    have h4 := hp.2.2.1
    unfold St.inn
    omega
  unfold Op.after
  refine ⟨fun e => ?_, fun e => hinn (h.ate ?_)⟩
  · rcases h.opt e with h1 | ⟨h1, h2⟩
    · rw [h1]; rfl
    · rw [hopt] at h1
      rw [if_neg (by rw [h2]; exact Bool.false_ne_true)]
      split
      · exact ho h1
      · split
        · rfl
        · exact ho h1
  · split at e
    · rename_i h1
      left
      refine ⟨h1, ?_⟩
      rw [hopt]
      cases h2 : s.opt with
      | false => rfl
      | true => rw [ho h2] at e; cases e
    · split at e
      · rename_i h1; exact .inr h1
      · split at e <;> cases e

/-- Instructions that go on to the next one. -/
def Op.straight (p : Op) : Bool := !p.jumps && !p.arr && decide (p ≠ .arrEnd)

theorem straight_next {s s' : St σ} {op : Byte} {r : List Byte} (hat : At E.prog s.ip (op :: r))
    (hv : opArgs (decodeOp op) r = some r.length) (hst : (decodeOp op).straight = true) (hs : step E s = .run s') :
    s'.ip = s.ip + (r.length + 1) ∧ s'.loops = s.loops := by
  have hlen := vmLen_at hat (vmLen_cons op r hv)
  have hop : E.prog[s.ip]? = some op := hat.head
  unfold Op.straight at hst
  simp only [Bool.and_eq_true, Bool.not_eq_true', decide_eq_true_eq] at hst
  have htf : tableFits E.prog s.ip := by
    unfold tableFits
    rw [hop]
    simp only [Option.map_some]
    split
    · rename_i h; injection h with h; rw [h] at hst; cases hst.1.1
    · rename_i h; injection h with h; rw [h] at hst; cases hst.1.1
    · trivial
  have hn := step_next E s s' _ hlen htf hs
  generalize s'.ip = i' at *
  generalize s'.loops = l' at *
  generalize s.loops = l at *
  cases hn with
  | seq h => rw [hlen] at h; injection h with h; subst h; exact ⟨by simp, rfl⟩
  | enter ho ha h => rw [hop] at ho; injection ho with ho; subst ho; rw [ha] at hst; cases hst.1.2
  | skip ho ha h _ => rw [hop] at ho; injection ho with ho; subst ho; rw [ha] at hst; cases hst.1.2
  | bulk ho ha h _ _ _ => rw [hop] at ho; injection ho with ho; subst ho; rw [ha] at hst; cases hst.1.2
  | again ho ha => rw [hop] at ho; injection ho with ho; subst ho; exact (hst.2 ha).elim
  | leave ho ha => rw [hop] at ho; injection ho with ho; subst ho; exact (hst.2 ha).elim
  | jump h =>
    unfold targets at h
    rw [hop] at h
    simp only [Option.map_some] at h
    split at h
    · rename_i h'; injection h' with h'; rw [h'] at hst; cases hst.1.1
    · rename_i h'; injection h' with h'; rw [h'] at hst; cases hst.1.1
    · rename_i h'; injection h' with h'; rw [h'] at hst; cases hst.1.1
    · rename_i h'; injection h' with h'; rw [h'] at hst; cases hst.1.1
    · cases h

/-- One instruction. -/
theorem Lap.one {op : Byte} {r : List Byte} (hv : opArgs (decodeOp op) r = some r.length) (hst : (decodeOp op).straight = true) :
    Lap E B (op :: r) o ((decodeOp op).after o).1 ((decodeOp op).after o).2 := by
  intro s c hat hi ho hc
  rw [List.length_cons] at hc ⊢
  refine Paid.of_post (P := Trip (r.length + 1) ((decodeOp op).after o).1 ((decodeOp op).after o).2 s) ?_ (by omega) fun s' c' h hc' => .here ⟨h, by omega⟩
  cases hs : step E s with
  | run s' =>
    obtain ⟨h1, h2⟩ := straight_next hat hv hst hs
    obtain ⟨h3, h4, h5⟩ := step_goes hi hs
    obtain ⟨h6, h7⟩ := step_paced hat hi ho hs
    exact ⟨h1, h2, h4, h3, h5, h6, h7⟩
  | stop e s' => trivial
  | ub u => trivial

/-! ### Arrays -/

/-- The state behind an array. -/
structure Gone (start k : Nat) (fs : List Frame) (o : Bool) (s s' : St σ) : Prop where
  ip : s'.ip = start + k
  loops : s'.loops = fs
  len : s'.buf.length = s.buf.length
  inv : Inv s'
  fwd : s.at ≤ s'.at
  opt : s'.opt = true → o = true

theorem arrEnd_goes {s : St σ} {f : Frame} {fs : List Frame} (hat : At E.prog s.ip [0x38]) (hl : s.loops = f :: fs) :
    Post (fun s' => s'.opt = s.opt ∧ (s'.ip = f.start ∧ (∃ r, s'.loops = ⟨f.start, r⟩ :: fs) ∨ s'.ip = s.ip + 1 ∧ s'.loops = fs))
      (fun _ _ => True) (fun _ => True) (step E s) := by
  have := arrEnd_safe hat hl
  cases hs : step E s with
  | run s' =>
    rw [hs] at this
    obtain ⟨_, _, _, _, h5, h6⟩ := this
    refine ⟨h5, ?_⟩
    rcases h6 with ⟨h1, h2, _⟩ | h
    · exact .inl ⟨h1, _, h2⟩
    · exact .inr h
  | stop e s' => trivial
  | ub u => trivial

theorem post_step {P P' : St σ → Prop} {s : St σ} (h : Post P (fun _ _ => True) (fun _ => True) (step E s))
    (hp : ∀ s', step E s = .run s' → P s' → P' s') : Post P' (fun _ _ => True) (fun _ => True) (step E s) := by
  cases hs : step E s with
  | run s' => rw [hs] at h; exact hp s' hs h
  | stop e s' => trivial
  | ub u => trivial

/-- The rounds of an array: what a round costs is paid in by the bytes it takes. -/
theorem rounds_paid (hbody : Lap E B code w w true) (D : Nat) (hD : code.length + 1 ≤ D) (fs : List Frame) (start : Nat)
    (hat : At E.prog start (code ++ [0x38])) :
    ∀ (n : Nat) (s : St σ) (c r : Nat), s.buf.length - s.inn ≤ n → s.ip = start → s.loops = ⟨start, r⟩ :: fs → Inv s →
      (s.opt = true → w = true) → code.length + 1 ≤ c →
      Paid E (B + D) (fun c' s' => Gone start (code.length + 1) fs w s s' ∧ c ≤ c' + (code.length + 1)) c s := by
  intro n
  induction n with
  | zero =>
    intro s c r hn hip hl hi ho hc
    refine ((hbody s c (hip ▸ hat.left) hi ho (by omega)).boost D 0).bind fun c' m ⟨c0, hm, _⟩ => ?_
    have h1 := hm.1.far rfl
    have h2 := hm.1.len
    have : m.inn ≤ m.buf.length := by unfold St.inn; omega
    omega
  | succ n ih =>
    intro s c r hn hip hl hi ho hc
    refine ((hbody s c (hip ▸ hat.left) hi ho (by omega)).boost D 0).bind fun c' m ⟨c0, hm, hle⟩ => ?_
    have h1 := hm.1.far rfl
    have h2 := hm.1.len
    have hml : m.inn ≤ m.buf.length := by unfold St.inn; omega
    have hmi := hm.1.inv
    have hge : D ≤ D * (m.inn - s.inn) := Nat.le_mul_of_pos_right _ (by omega)
    refine Paid.of_post (P := fun s' => (s'.opt = true → w = true) ∧ Inv s' ∧ s'.buf.length = s.buf.length ∧ m.at ≤ s'.at ∧
      (s'.ip = start ∧ (∃ r, s'.loops = ⟨start, r⟩ :: fs) ∨ s'.ip = start + (code.length + 1) ∧ s'.loops = fs)) ?_ (by omega) ?_
    · refine post_step (arrEnd_goes (by rw [hm.1.ip, hip]; exact hat.right) (hm.1.loops.trans hl)) fun s' hs h => ?_
      obtain ⟨g1, g2, g3⟩ := step_goes hmi hs
      refine ⟨fun e => hm.1.opt (h.1 ▸ e), g1, g2.trans h2, g3, ?_⟩
      rcases h.2 with h | ⟨h, h'⟩
      · exact .inl h
      · exact .inr ⟨by rw [h, hm.1.ip, hip]; omega, h'⟩
    · intro s' c'' ⟨p1, p2, p3, p4, p5⟩ hc'
      have h3 := inn_mono p4 p2.bit (p3.trans h2.symm)
      have h4 := hm.1.fwd
      rcases p5 with ⟨e1, r', e2⟩ | ⟨e1, e2⟩
      · refine (ih s' c'' r' (by rw [p3]; omega) e1 e2 p2 p1 (by omega)).mono fun c3 t h => ?_
        obtain ⟨h, h'⟩ := h
        exact ⟨⟨h.ip, h.loops, h.len.trans p3, h.inv, by have := h.fwd; omega, h.opt⟩, by omega⟩
      · exact .here ⟨⟨e1, e2, p3, p2, by omega, p1⟩, by omega⟩

/-- Into an array: over it, through it in one piece, or into the first round. -/
structure Enters (code : List Byte) (k : Nat) (s s' : St σ) : Prop where
  opt : s'.opt = s.opt
  to : s'.ip = s.ip + (k + (code.length + 1)) ∧ s'.loops = s.loops ∨ s'.ip = s.ip + k ∧ ∃ r, s'.loops = ⟨s.ip + k, r⟩ :: s.loops

theorem enterArray_goes (hn : nestedFrom code 0 = true) (hbf : bulkFits code = true) {s s1 : St σ} {count k : Nat}
    (hat : At E.prog s1.ip (code ++ [0x38])) (hip : s1.ip = s.ip + k) (hl : s1.loops = s.loops) (ho : s1.opt = s.opt) :
    Post (Enters code k s) (fun _ _ => True) (fun _ => True) (enterArray E s1 count) := by
  have hpush : ∀ s2 : St σ, s2.ip = s1.ip → s2.loops = s1.loops → s2.opt = s1.opt →
      Post (Enters code k s) (fun _ _ => True) (fun _ => True) (pushLoop s2 count) := by
    intro s2 h1 h2 h3
    apply post_pushLoop
    · intro _
      exact ⟨h3.trans ho, .inr ⟨h1.trans hip, count, by rw [h1, h2, hip, hl]⟩⟩
    · intro _; trivial
  unfold enterArray
  split
  · refine ⟨ho, .inl ⟨?_, hl⟩⟩
    dsimp only
    rw [skipBody_nestedFrom hn hat]
    omega
  · split
    · rename_i nextOp afterOp h0 h3
      split
      · rename_i hcond
        rw [Bool.and_eq_true, decide_eq_true_eq] at hcond
        have h3' := at_bulk hat hbf h0 h3 hcond.1
        apply post_callAt
        · intro h b hh
          refine ⟨ho, .inl ⟨?_, hl⟩⟩
          dsimp only
          omega
        · intro h b hh
          exact hpush _ rfl rfl rfl
      · exact hpush _ rfl rfl rfl
    · exact hpush _ rfl rfl rfl

/-- An array whose head, of `k` bytes, does what the heads of arrays do. -/
theorem lap_arr {head : List Byte} (hbody : Lap E B code w w true) (ho : o = true → w = true) (hk : 0 < head.length)
    (hhead : ∀ s : St σ, At E.prog s.ip (head ++ (code ++ [0x38])) → Inv s →
      Post (Enters code head.length s) (fun _ _ => True) (fun _ => True) (step E s))
    (hfar : ∀ s s' : St σ, At E.prog s.ip (head ++ (code ++ [0x38])) → Inv s → v = true → step E s = .run s' → s.inn < s'.inn) :
    Lap E (B + E.prog.length) (head ++ (code ++ [0x38])) o w v := by
  intro s c hat hi hos hc
  have hlen := hat.le (by simp)
  simp only [List.length_append, List.length_cons, List.length_nil] at hc hlen
  refine Paid.of_post (P := fun s' => (s'.opt = true → w = true) ∧ Inv s' ∧ s'.buf.length = s.buf.length ∧ s.at ≤ s'.at ∧ (v = true → s.inn < s'.inn) ∧
    (s'.ip = s.ip + (head.length + (code.length + 1)) ∧ s'.loops = s.loops ∨
      s'.ip = s.ip + head.length ∧ ∃ r, s'.loops = ⟨s.ip + head.length, r⟩ :: s.loops)) ?_ (by omega) ?_
  · refine post_step (hhead s hat hi) fun s' hs h => ?_
    obtain ⟨g1, g2, g3⟩ := step_goes hi hs
    exact ⟨fun e => ho (hos (h.opt ▸ e)), g1, g2, g3, fun e => hfar s s' hat hi e hs, h.to⟩
  · intro m c' ⟨p1, p2, p3, p4, p5, p6⟩ hc'
    simp only [List.length_append, List.length_cons, List.length_nil]
    rcases p6 with ⟨e1, e2⟩ | ⟨e1, r, e2⟩
    · exact .here ⟨⟨e1, e2, p3, p2, p4, p1, p5⟩, by omega⟩
    · refine (rounds_paid hbody E.prog.length (by omega) s.loops (s.ip + head.length) hat.right _ m c' r (Nat.le_refl _) e1 e2 p2 p1
        (by omega)).mono fun c'' s' h => ?_
      obtain ⟨h, h'⟩ := h
      have hf := h.fwd
      have hm := inn_mono h.fwd h.inv.bit h.len
      exact ⟨⟨by rw [h.ip]; omega, h.loops, h.len.trans p3, h.inv, by omega, h.opt, fun e => by have := p5 e; omega⟩, by omega⟩

/-- The checks of an array. -/
structure Swarm (E : Env σ) (B : Nat) (code : List Byte) (w : Bool) : Prop where
  body : Lap E B code w w true
  nested : nestedFrom code 0 = true
  bulk : bulkFits code = true

theorem lap_arrFixed {k0 k1 : Byte} {n : Word} (hA : Swarm E B code w) (hw : o = true → w = true) :
    Lap E (B + E.prog.length) (([0x34, k0, k1] ++ leBytes 4 n) ++ (code ++ [0x38])) o w false := by
  refine lap_arr hA.body hw (by simp) ?_ (fun s s' _ _ e => by cases e)
  intro s hat hi
  have hat0 : At E.prog s.ip (0x34 :: ([k0, k1] ++ leBytes 4 n)) := hat.left
  have hat1 := hat.right
  have hl := hat0.le (by simp)
  simp only [List.length_append, List.length_cons, List.length_nil, leBytes_length] at hl hat1 ⊢
  have hf := pre_fields 0x34 s
  rw [step_pre hat0]
  show Post _ _ _ (handleArrFixed E 0x34 _)
  unfold handleArrFixed
  apply post_fetX (by omega)
  apply post_fetX (by dsimp only; omega)
  apply post_callScalar
  · intro x h _
    refine enterArray_goes hA.nested hA.bulk (s := s) ?_ ?_ hf.2.2.2.1 hf.2.2.2.2.2.2.2.2.2.2.2
    · dsimp only
      rw [show (pre 0x34 s).ip + 2 + 4 = s.ip + 7 by omega]
      exact hat1
    · dsimp only; omega
  · intro x h _; trivial

theorem lap_arrDyn {k0 k1 r0 r1 : Byte} (hA : Swarm E B code w) (hw : o = true → w = true) :
    Lap E (B + E.prog.length) ([0x3B, k0, k1, r0, r1] ++ (code ++ [0x38])) o w false := by
  refine lap_arr hA.body hw (by simp) ?_ (fun s s' _ _ e => by cases e)
  intro s hat hi
  have hat0 : At E.prog s.ip (0x3B :: [k0, k1, r0, r1]) := hat.left
  have hat1 := hat.right
  have hl := hat0.le (by simp)
  simp only [List.length_cons, List.length_nil] at hl hat1 ⊢
  have hf := pre_fields 0x3B s
  rw [step_pre hat0]
  show Post _ _ _ (handleArrDynamic E 0x3B _)
  unfold handleArrDynamic
  apply post_fetX (by omega)
  apply post_fetX (by dsimp only; omega)
  apply post_callScalar
  · intro y h _
    apply post_ite
    · trivial
    apply post_callScalar
    · intro x h2 _
      refine enterArray_goes hA.nested hA.bulk (s := s) ?_ ?_ hf.2.2.2.1 hf.2.2.2.2.2.2.2.2.2.2.2
      · dsimp only
        rw [show (pre 0x3B s).ip + 2 + 2 = s.ip + 5 by omega]
        exact hat1
      · dsimp only; omega
    · intro x h _; trivial
  · intro x h _; trivial

theorem handleArrPre_far (E : Env σ) (p : Pre) (op : Byte) (s : St σ) :
    Post (fun s' => Ate s s') (fun _ _ => True) (fun _ => True) (handleArrPre E p op s) := by
  have hp : 0 < p.size := by cases p <;> decide
  unfold handleArrPre Ate
  vm_sweep
  all_goals (dsimp only at *; omega)

theorem lap_arrPre {p : Pre} {k0 k1 : Byte} (hA : Swarm E B code w) (hw : o = true → w = true) :
    Lap E (B + E.prog.length) ([p.arrOp, k0, k1] ++ (code ++ [0x38])) o w true := by
  have ha : aligns p.arrOp = true := by cases p <;> rfl
  have hx : ∀ s : St σ, execOp E p.arrOp s = handleArrPre E p p.arrOp s := fun s => by cases p <;> rfl
  refine lap_arr hA.body hw (by simp) ?_ ?_
  · intro s hat hi
    have hat0 : At E.prog s.ip (p.arrOp :: [k0, k1]) := hat.left
    have hat1 := hat.right
    have hl := hat0.le (by simp)
    simp only [List.length_cons, List.length_nil] at hl hat1 ⊢
    have hf := pre_fields p.arrOp s
    have hgo : ∀ (s1 : St σ) (count : Nat), s1.ip = (pre p.arrOp s).ip + 2 → s1.loops = (pre p.arrOp s).loops → s1.opt = (pre p.arrOp s).opt →
        Post (Enters code 3 s) (fun _ _ => True) (fun _ => True) (enterArray E s1 count) := by
      intro s1 count h1 h2 h3
      refine enterArray_goes hA.nested hA.bulk (s := s) ?_ (by omega) (h2.trans hf.2.2.2.1) (h3.trans hf.2.2.2.2.2.2.2.2.2.2.2)
      rw [h1, show (pre p.arrOp s).ip + 2 = s.ip + 3 by omega]
      exact hat1
    rw [step_pre hat0, hx]
    unfold handleArrPre
    apply post_fetX (by omega)
    refine post_dite (fun henc => ?_) fun henc => ?_
    · apply post_callScalar
      · intro x h _
        refine post_dite (fun _ => trivial) fun hroom => ?_
        apply post_wrAt
        · intro b hb hbl
          exact hgo _ _ rfl rfl rfl
        · intro h; trivial
      · intro x h _; trivial
    · refine post_dite (fun _ => trivial) fun hroom => ?_
      apply post_rdAt
      · intro bs hbs
        apply post_callScalar
        · intro x h _
          exact hgo _ _ rfl rfl rfl
        · intro x h _; trivial
      · intro h; trivial
  · intro s s' hat hi _ hs
    have hat0 : At E.prog s.ip (p.arrOp :: [k0, k1]) := hat.left
    have h := handleArrPre_far E p p.arrOp (pre p.arrOp s)
    rw [← hx, ← step_pre hat0, hs] at h
    have h : Ate (pre p.arrOp s) s' := h
    obtain ⟨h1, h2⟩ := h
    have hp := pre_pos p.arrOp s hi.bit
    have hf := pre_fields p.arrOp s
    obtain ⟨_, hl, _⟩ := step_goes hi hs
    rw [hf.1] at h2
    have h3 := hp.1
    have h4 := hp.2.2.1
    unfold St.inn
    omega

theorem paceArr_ok {pace : Bool → Option (Bool × Bool)} (h : paceArr pace code o = some w)
    (hlap : ∀ o r, pace o = some r → Lap E B code o r.1 r.2) : Swarm E B code w ∧ (o = true → w = true) := by
  unfold paceArr at h
  cases h1 : pace o with
  | none => rw [h1] at h; cases h
  | some r =>
    rw [h1] at h
    simp only [Option.bind_some] at h
    cases h2 : pace (o || r.1) with
    | none => rw [h2] at h; cases h
    | some q =>
      rw [h2] at h
      simp only [Option.bind_some] at h
      split at h
      · rename_i hc
        injection h with h
        subst h
        simp only [Bool.and_eq_true, Bool.or_eq_true, Bool.not_eq_true'] at hc
        obtain ⟨⟨⟨hc1, hc2⟩, hc3⟩, hc4⟩ := hc
        refine ⟨⟨(hlap _ _ h2).weaken (fun e => ?_) (fun _ => hc2), hc3, hc4⟩, fun e => by rw [e]; rfl⟩
        rcases hc1 with h | h
        · rw [h] at e; cases e
        · exact Bool.or_eq_true _ _ ▸ h
      · cases h

end

end Cnd
