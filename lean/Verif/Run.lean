import Verif.SweepMono
import Verif.SweepFrame
import Verif.SweepUb
import Verif.SweepErr
import Verif.SweepIp
/-
  Runs: iterating `step`, reachable states, and the step-level form of the sweeps.
-/

namespace Cnd
variable {σ : Type}

theorem exec_zero (E : Env σ) (s : St σ) : exec E 0 s = .run s := rfl

theorem exec_succ (E : Env σ) (n : Nat) (s : St σ) :
    exec E (n + 1) s = match step E s with
      | .run s' => exec E n s'
      | r => r := by
  conv => lhs; unfold exec
  cases step E s <;> rfl

theorem exec_run_succ {E : Env σ} {s s1 : St σ} (h : step E s = .run s1) (n : Nat) :
    exec E (n + 1) s = exec E n s1 := by rw [exec_succ, h]

theorem exec_stop_succ {E : Env σ} {s s1 : St σ} {e : Err} (h : step E s = .stop e s1) (n : Nat) :
    exec E (n + 1) s = .stop e s1 := by rw [exec_succ, h]

theorem exec_add (E : Env σ) (m n : Nat) (s : St σ) :
    exec E (m + n) s = match exec E m s with
      | .run s' => exec E n s'
      | r => r := by
  induction m generalizing s with
  | zero => simp [exec_zero]
  | succ m ih =>
    rw [Nat.add_right_comm, exec_succ, exec_succ]
    cases h : step E s with
    | run s1 => simp only; exact ih s1
    | stop e s1 => rfl
    | ub u => rfl

theorem exec_add_run {E : Env σ} {m : Nat} {s s1 : St σ} (h : exec E m s = .run s1) (n : Nat) :
    exec E (m + n) s = exec E n s1 := by rw [exec_add, h]

/-- `s'` is a state of the run that starts in `s`. -/
def Reach (E : Env σ) (s s' : St σ) : Prop := ∃ n, exec E n s = .run s'

theorem Reach.refl (E : Env σ) (s : St σ) : Reach E s s := ⟨0, rfl⟩

theorem Reach.trans {E : Env σ} {a b c : St σ} (h1 : Reach E a b) (h2 : Reach E b c) : Reach E a c := by
  obtain ⟨m, hm⟩ := h1
  obtain ⟨n, hn⟩ := h2
  exact ⟨m + n, by rw [exec_add_run hm, hn]⟩

theorem Reach.one {E : Env σ} {a b : St σ} (h : step E a = .run b) : Reach E a b :=
  ⟨1, by rw [exec_run_succ h, exec_zero]⟩

theorem Reach.snoc {E : Env σ} {a b c : St σ} (h1 : Reach E a b) (h2 : step E b = .run c) : Reach E a c :=
  h1.trans (Reach.one h2)

/-- Invariants hold in every reachable state. -/
theorem Reach.inv {E : Env σ} {I : St σ → Prop} (hstep : ∀ a b, I a → step E a = .run b → I b)
    {s s' : St σ} (h : Reach E s s') (h0 : I s) : I s' := by
  obtain ⟨n, hn⟩ := h
  induction n generalizing s with
  | zero => simp [exec_zero] at hn; exact hn ▸ h0
  | succ n ih =>
    rw [exec_succ] at hn
    cases hs : Cnd.step E s with
    | run s1 => rw [hs] at hn; exact ih (hstep _ _ h0 hs) hn
    | stop e s1 => rw [hs] at hn; cases hn
    | ub u => rw [hs] at hn; cases hn

/-- A run that ends did so in some reachable state. -/
theorem exec_stop_from {E : Env σ} {n : Nat} {s s' : St σ} {e : Err} (h : exec E n s = .stop e s') :
    ∃ s0, Reach E s s0 ∧ step E s0 = .stop e s' := by
  induction n generalizing s with
  | zero => simp [exec_zero] at h
  | succ n ih =>
    rw [exec_succ] at h
    cases hs : step E s with
    | run s1 =>
      rw [hs] at h
      obtain ⟨s0, h1, h2⟩ := ih h
      exact ⟨s0, (Reach.one hs).trans h1, h2⟩
    | stop e1 s1 => rw [hs] at h; exact ⟨s, Reach.refl _ _, by rw [hs]; exact h⟩
    | ub u => rw [hs] at h; cases h

theorem exec_ub_from {E : Env σ} {n : Nat} {s : St σ} {u : UB} (h : exec E n s = .ub u) :
    ∃ s0, Reach E s s0 ∧ step E s0 = .ub u := by
  induction n generalizing s with
  | zero => simp [exec_zero] at h
  | succ n ih =>
    rw [exec_succ] at h
    cases hs : step E s with
    | run s1 =>
      rw [hs] at h
      obtain ⟨s0, h1, h2⟩ := ih h
      exact ⟨s0, (Reach.one hs).trans h1, h2⟩
    | stop e1 s1 => rw [hs] at h; cases h
    | ub u => rw [hs] at h; exact ⟨s, Reach.refl _ _, by rw [hs]; exact h⟩

/-- The instruction about to be executed. -/
def curOp (E : Env σ) (s : St σ) : Option Op := (E.prog[s.ip]?).map decodeOp

theorem step_eq {E : Env σ} {s : St σ} {op : Byte} (h : E.prog[s.ip]? = some op) :
    step E s = execOp E op (alignSt op { s with ip := s.ip + 1 }) := by
  unfold step; rw [h]

theorem step_end {E : Env σ} {s : St σ} (h : E.prog[s.ip]? = none) : step E s = .stop .ok s := by
  unfold step; rw [h]

/-- The aligned successor state used by `step`. -/
def pre (op : Byte) (s : St σ) : St σ := alignSt op { s with ip := s.ip + 1 }

theorem pre_fields (op : Byte) (s : St σ) :
    (pre op s).buf = s.buf ∧ (pre op s).ip = s.ip + 1 ∧ (pre op s).be = s.be ∧
    (pre op s).loops = s.loops ∧ (pre op s).stack = s.stack ∧ (pre op s).host = s.host ∧
    (pre op s).trans = s.trans ∧ (pre op s).polyPos = s.polyPos ∧ (pre op s).polyCnt = s.polyCnt ∧
    (pre op s).splPos = s.splPos ∧ (pre op s).splCnt = s.splCnt ∧ (pre op s).opt = s.opt := by
  unfold pre alignSt; split <;> simp

/-- Alignment moves to the next byte boundary, if the instruction asks for it. -/
theorem pre_pos (op : Byte) (s : St σ) (hb : s.bit < 8) :
    8 * s.cursor + s.bit ≤ 8 * (pre op s).cursor + (pre op s).bit ∧
    8 * (pre op s).cursor + (pre op s).bit ≤ 8 * s.cursor + s.bit + 7 ∧
    (pre op s).bit < 8 ∧ s.cursor ≤ (pre op s).cursor ∧
    (aligns op = true → (pre op s).bit = 0) ∧
    (aligns op = false → (pre op s).cursor = s.cursor ∧ (pre op s).bit = s.bit) := by
  have h1 : aligns op = true → (pre op s).bit = 0 := fun h => alignSt_bit op _ h
  refine ⟨?_, ?_, ?_, ?_, h1, ?_⟩
  all_goals unfold pre alignSt
  all_goals split
  all_goals simp_all
  all_goals omega

theorem pre_cursor_le (op : Byte) (s : St σ) (h : 8 * s.cursor + s.bit ≤ 8 * s.buf.length) :
    (pre op s).cursor ≤ s.buf.length := by
  unfold pre alignSt; split <;> simp_all <;> omega

theorem pre_fit (op : Byte) (s : St σ) (h : 8 * s.cursor + s.bit ≤ 8 * s.buf.length) :
    8 * (pre op s).cursor + (pre op s).bit ≤ 8 * s.buf.length := by
  unfold pre alignSt; split <;> simp_all <;> omega

/-- The machine invariant: bit offset in range, stacks within their arrays. -/
structure Inv (s : St σ) : Prop where
  bit : s.bit < 8
  stk : s.stack.length ≤ 8
  lps : s.loops.length ≤ 8

theorem Inv.pre {s : St σ} (h : Inv s) (op : Byte) : Inv (pre op s) := by
  have := pre_fields op s
  exact ⟨(pre_pos op s h.bit).2.2.1, by rw [this.2.2.2.2.1]; exact h.stk, by rw [this.2.2.2.1]; exact h.lps⟩

theorem init_inv (old : St σ) (buf : List Byte) (user : σ) : Inv (initSt old buf user) :=
  ⟨by simp [initSt], by simp [initSt], by simp [initSt]⟩

theorem step_mono {E : Env σ} {s : St σ} (h : Inv s) {op : Byte} (hop : E.prog[s.ip]? = some op) :
    MonoRes (slackOf op (pre op s)) (decodeOp op).bulk (pre op s) (step E s) := by
  rw [step_eq hop]
  have hp := h.pre op
  exact execOp_mono E op (pre op s) ((pre_pos op s h.bit).2.2.2.2.1) hp.bit hp.stk hp.lps

theorem step_inv {E : Env σ} {s s' : St σ} (h : Inv s) (hs : step E s = .run s') : Inv s' := by
  cases hop : E.prog[s.ip]? with
  | none => rw [step_end hop] at hs; cases hs
  | some op =>
    have := step_mono h hop
    rw [hs] at this
    exact ⟨this.bit, this.stk, this.lps⟩

theorem reach_inv {E : Env σ} {s s' : St σ} (h : Inv s) (hr : Reach E s s') : Inv s' :=
  hr.inv (fun _ _ => step_inv) h

end Cnd
