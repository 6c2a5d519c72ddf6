import Verif.SweepCnt
import Verif.Run
import Verif.Demo
/-
  C32: termination.
-/
set_option linter.unusedVariables false

namespace Cnd
variable {σ : Type}

/-! ### A measure on the loop stack -/

/-- Weight of one byte of bytecode at a place with room for `d` more loops. -/
def W (L : Nat) : Nat → Nat
  | 0 => 1
  | d + 1 => 2 ^ 32 * ((L + 2) * W L d)

theorem W_pos (L d : Nat) : 0 < W L d := by
  induction d with
  | zero => simp [W]
  | succ d ih => simp only [W]; exact Nat.mul_pos (by decide) (Nat.mul_pos (by omega) ih)

/-- Instructions still to come, at most; the loop stack is given bottom first. -/
def meas (L : Nat) : List Frame → Nat → Nat → Nat
  | [], d, ip => (L + 1 - ip) * W L d
  | _ :: _, 0, _ => 0
  | f :: fs, d + 1, ip => (L + 1 - f.start) * W L (d + 1) + (f.rem * ((L + 2) * W L d) + meas L fs d ip)

/-- Loops were opened in order, before the current instruction; bottom first. -/
def Chain : List Frame → Nat → Nat → Prop
  | [], lo, ip => lo ≤ ip
  | f :: fs, lo, ip => lo ≤ f.start ∧ f.rem < 2 ^ 32 ∧ Chain fs f.start ip

theorem unit_lt {a b w : Nat} (h : b < a) (hw : 0 < w) : b * w < a * w := Nat.mul_lt_mul_of_pos_right h hw

theorem meas_adv {L : Nat} {fs : List Frame} {d ip ip' : Nat} (hd : fs.length ≤ d) (hip : ip ≤ L) (h : ip < ip') :
    meas L fs d ip' < meas L fs d ip := by
  induction fs generalizing d with
  | nil => exact unit_lt (by omega) (W_pos _ _)
  | cons f fs ih =>
    cases d with
    | zero => simp at hd
    | succ d =>
      have := ih (d := d) (by simpa using hd)
      simp only [meas]
      omega

theorem iter_le (L d ip : Nat) : (L + 1 - ip) * W L d < (L + 2) * W L d := unit_lt (by omega) (W_pos _ _)

theorem meas_push {L : Nat} {fs : List Frame} {d ip i c ip' : Nat} (hd : fs.length < d) (hip : ip ≤ L) (hi : ip < i)
    (hc : c < 2 ^ 32) : meas L (fs ++ [⟨i, c⟩]) d ip' < meas L fs d ip := by
  induction fs generalizing d with
  | nil =>
    cases d with
    | zero => simp at hd
    | succ d =>
      simp only [List.nil_append, meas]
      have h1 := iter_le L d ip'
      have h2 : (L + 1 - i) * W L (d + 1) + W L (d + 1) ≤ (L + 1 - ip) * W L (d + 1) := by
        rw [← Nat.succ_mul]; exact Nat.mul_le_mul_right _ (by omega)
      have h3 : c * ((L + 2) * W L d) + ((L + 2) * W L d) ≤ W L (d + 1) := by
        rw [← Nat.succ_mul]; exact Nat.mul_le_mul_right _ (by omega)
      omega
  | cons f fs ih =>
    cases d with
    | zero => simp at hd
    | succ d =>
      have := ih (d := d) (by simpa using hd)
      simp only [List.cons_append, meas]
      omega

theorem meas_back {L : Nat} {fs : List Frame} {d st r ip ip' : Nat} (hd : fs.length < d) (hr : 0 < r) :
    meas L (fs ++ [⟨st, r - 1⟩]) d ip' < meas L (fs ++ [⟨st, r⟩]) d ip := by
  induction fs generalizing d with
  | nil =>
    cases d with
    | zero => simp at hd
    | succ d =>
      simp only [List.nil_append, meas]
      have h1 := iter_le L d ip'
      have h3 : (r - 1) * ((L + 2) * W L d) + ((L + 2) * W L d) = r * ((L + 2) * W L d) := by
        rw [← Nat.succ_mul]; congr 1; omega
      omega
  | cons f fs ih =>
    cases d with
    | zero => simp at hd
    | succ d =>
      have := ih (d := d) (by simpa using hd)
      simp only [List.cons_append, meas]
      omega

theorem meas_pop {L : Nat} {fs : List Frame} {d st r ip ip' : Nat} (hd : fs.length < d) (hip : ip ≤ L)
    (h1 : st ≤ ip') : meas L fs d ip' < meas L (fs ++ [⟨st, r⟩]) d ip := by
  induction fs generalizing d with
  | nil =>
    cases d with
    | zero => simp at hd
    | succ d =>
      simp only [List.nil_append, meas]
      have h2 : (L + 1 - ip') * W L (d + 1) ≤ (L + 1 - st) * W L (d + 1) := Nat.mul_le_mul_right _ (by omega)
      have h3 : 0 < (L + 1 - ip) * W L d := Nat.mul_pos (by omega) (W_pos _ _)
      omega
  | cons f fs ih =>
    cases d with
    | zero => simp at hd
    | succ d =>
      have := ih (d := d) (by simpa using hd)
      simp only [List.cons_append, meas]
      omega

theorem meas_init (L ip : Nat) : meas L [] 8 ip ≤ (L + 1) * W L 8 := Nat.mul_le_mul_right _ (by omega)

theorem chain_adv {fs : List Frame} {lo ip ip' : Nat} (h : Chain fs lo ip) (hi : ip ≤ ip') : Chain fs lo ip' := by
  induction fs generalizing lo with
  | nil => exact Nat.le_trans h hi
  | cons f fs ih => exact ⟨h.1, h.2.1, ih h.2.2⟩

theorem chain_snoc {fs : List Frame} {f : Frame} {lo ip : Nat} :
    Chain (fs ++ [f]) lo ip ↔ Chain fs lo f.start ∧ f.rem < 2 ^ 32 ∧ f.start ≤ ip := by
  induction fs generalizing lo with
  | nil => simp [Chain]
  | cons g fs ih => simp [Chain, ih, and_assoc]

/-! ### The theorem -/

/-- No instruction executed in the run from `s0` jumps backwards, and no loop is opened with the count that means "to
the end of the data". -/
structure Forward (E : Env σ) (s0 : St σ) : Prop where
  jump : ∀ s s', Reach E s0 s → step E s = .run s' → (curOp E s).any (·.jumps) = true → s.ip < s'.ip
  count : ∀ s, Reach E s0 s → ∀ f ∈ s.loops, f.rem ≠ 0xFFFFFFFF

/-- The state between two instructions of such a run. -/
structure Tidy (E : Env σ) (s : St σ) : Prop where
  len : s.loops.length ≤ 8
  chain : Chain s.loops.reverse 0 s.ip

theorem step_tidy {E : Env σ} {s0 s s' : St σ} (hF : Forward E s0) (hr : Reach E s0 s)
    (h0 : Inv s) (ht : Tidy E s) (hs : step E s = .run s') :
    Tidy E s' ∧ meas E.prog.length s'.loops.reverse 8 s'.ip < meas E.prog.length s.loops.reverse 8 s.ip := by
  have h0' := step_inv h0 hs
  cases hop : E.prog[s.ip]? with
  | none => rw [step_end hop] at hs; cases hs
  | some op =>
    have hL : s.ip < E.prog.length := (List.getElem?_eq_some_iff.1 hop).1
    have hcur : curOp E s = some (decodeOp op) := by simp [curOp, hop]
    have hpl : (pre op s).loops = s.loops := (pre_fields op s).2.2.2.1
    have hpi : (pre op s).ip = s.ip + 1 := (pre_fields op s).2.1
    have hs' := hs
    rw [step_eq hop] at hs
    change execOp E op (pre op s) = _ at hs
    -- instructions that leave the loop stack alone and move forward
    have same : s'.loops = s.loops → s.ip < s'.ip →
        Tidy E s' ∧ meas E.prog.length s'.loops.reverse 8 s'.ip < meas E.prog.length s.loops.reverse 8 s.ip := by
      intro hl hi
      refine ⟨⟨h0'.lps, by rw [hl]; exact chain_adv ht.chain (by omega)⟩, ?_⟩
      rw [hl]
      exact meas_adv (by simpa using ht.len) (by omega) hi
    by_cases hend : decodeOp op = .arrEnd
    · simp only [execOp, hend] at hs
      unfold handleArrEnd at hs
      rw [hpl] at hs
      cases hl : s.loops with
      | nil => rw [hl] at hs; cases hs
      | cons f fs =>
        rw [hl] at hs
        have hne : f.rem ≠ 0xFFFFFFFF := hF.count s hr f (by simp [hl])
        have hfe : (f.rem == 0xFFFFFFFF) = false := by simpa using hne
        have hc := ht.chain
        rw [hl, List.reverse_cons, chain_snoc] at hc
        have hlen : fs.reverse.length < 8 := by have := ht.len; rw [hl] at this; simp at this ⊢; omega
        simp only [hfe, Bool.false_eq_true, if_false, decide_eq_true_eq] at hs
        split at hs
        · rename_i hgt
          injection hs with hs
          subst hs
          simp only [List.reverse_cons]
          refine ⟨⟨by have := ht.len; rw [hl] at this; simpa using this, ?_⟩, ?_⟩
          · simp only [List.reverse_cons]
            rw [chain_snoc]
            exact ⟨hc.1, by simp only; omega, Nat.le_refl _⟩
          · exact meas_back hlen (by omega)
        · unfold callNotify at hs
          simp only at hs
          split at hs
          · injection hs with hs
            subst hs
            simp only [List.reverse_cons]
            refine ⟨⟨by have := ht.len; rw [hl] at this; simp at this; simp only; omega, ?_⟩, ?_⟩
            · simp only [hpi]
              exact chain_adv hc.1 (by omega)
            · simp only [hpi]
              exact meas_pop hlen (by omega) (by omega)
          · cases hs
    by_cases hj : (decodeOp op).jumps = true
    · have h1 := hF.jump s s' hr hs' (by rw [hcur]; exact hj)
      have h2 := execOp_jmp E op (pre op s) hj (by rw [hpi]; omega)
      rw [hs] at h2
      exact same (by rw [← hpl]; exact h2.lps) h1
    by_cases henum : decodeOp op = .enumCheck
    · have h2 : execOp E op (pre op s) = handleEnum E (pre op s) := by simp only [execOp, henum]
      have h3 := handleEnum_adv E (pre op s)
      rw [← h2, hs] at h3
      exact same (by rw [← hpl]; exact h3.2) (by have := h3.1; rw [hpi] at this; omega)
    have ha := execOp_adv E op (pre op s) (by simpa using hj) hend henum
    rw [hs] at ha
    have hge := ha.ge
    rw [hpi] at hge
    rcases ha.lps with hl | ⟨i, c, hl, hi1, hi2, hc32⟩
    · exact same (by rw [hl, hpl]) (by omega)
    · rw [hpl] at hl
      have hlen' := h0'.lps
      rw [hl] at hlen' ⊢
      simp only [List.length_cons] at hlen'
      refine ⟨⟨h0'.lps, ?_⟩, ?_⟩
      · rw [hl, List.reverse_cons, chain_snoc]
        exact ⟨chain_adv ht.chain (by simp only; omega), hc32, hi2⟩
      · rw [List.reverse_cons]
        exact meas_push (by simp; omega) (by omega) (by omega) hc32

theorem ends {E : Env σ} {s0 : St σ} (hF : Forward E s0) (n : Nat) {s : St σ}
    (hr : Reach E s0 s) (h0 : Inv s) (ht : Tidy E s)
    (hn : meas E.prog.length s.loops.reverse 8 s.ip ≤ n) (s' : St σ) : exec E (n + 1) s ≠ .run s' := by
  induction n generalizing s with
  | zero =>
    intro h
    rw [exec_succ] at h
    cases hs : step E s with
    | run s1 => have := (step_tidy hF hr h0 ht hs).2; omega
    | stop e s1 => rw [hs] at h; cases h
    | ub u => rw [hs] at h; cases h
  | succ n ih =>
    intro h
    rw [exec_succ] at h
    cases hs : step E s with
    | run s1 =>
      rw [hs] at h
      have := step_tidy hF hr h0 ht hs
      exact ih (hr.snoc hs) (step_inv h0 hs) this.1 (by omega) h
    | stop e s1 => rw [hs] at h; cases h
    | ub u => rw [hs] at h; cases h

/-- Number of instructions a bytecode of `L` bytes can execute. -/
def stepBound (L : Nat) : Nat := (L + 1) * (2 ^ 32 * (L + 2)) ^ 8 + 1

theorem W_eq (L d : Nat) : W L d = (2 ^ 32 * (L + 2)) ^ d := by
  induction d with
  | zero => rfl
  | succ d ih =>
    show 2 ^ 32 * ((L + 2) * W L d) = _
    rw [ih]
    generalize (2 ^ 32 : Nat) = K
    rw [Nat.pow_succ, Nat.mul_comm ((K * (L + 2)) ^ d), Nat.mul_assoc]

/-- **C32 (partial).** A run in which no jump goes backwards and no loop is opened with the count 0xFFFFFFFF, which the
machine takes for a read-to-end array, is over after `stepBound` instructions, a number that depends only on the
length of the bytecode: whatever the packet, the mode and the host. C32 as stated (which excludes only the
read-to-end instruction) is false of the other runs: see `C32_false`. -/
theorem C32_ends_partial (E : Env σ) (old : St σ) (buf : List Byte) (user : σ)
    (hF : Forward E (initSt old buf user)) (n : Nat) (hn : stepBound E.prog.length ≤ n) (s' : St σ) :
    exec E n (initSt old buf user) ≠ .run s' := by
  obtain ⟨m, rfl⟩ : ∃ m, n = m + 1 := ⟨n - 1, by unfold stepBound at hn; omega⟩
  refine ends hF m (Reach.refl _ _) (init_inv _ _ _) ⟨by simp [initSt], by simp [initSt, Chain]⟩ ?_ s'
  refine Nat.le_trans (meas_init _ _) ?_
  rw [W_eq]
  unfold stepBound at hn
  omega

/-- The instruction at `p`, if it is a jump or switch, has no negative offset, and is not a read-to-end array. For a
switch this is said of the offset that each discriminator selects. -/
def FwdAt (prog : List Byte) (p : Nat) : Prop :=
  match (prog[p]?).map decodeOp with
  | some .jump => (fetch prog (p + 1) 4).1.toNat < 2 ^ 31
  | some .jumpIfNot => (fetch prog (p + 1) 4).1.toNat < 2 ^ 31
  | some .switch =>
    let k := fetch prog (p + 1) 2
    let rel := fetch prog k.2 4
    let count := fetch prog (rel.2 + rel.1.toNat) 2
    let dflt := fetch prog count.2 4
    ∀ disc, (switchScan prog disc count.1.toNat dflt.2 false dflt.1).toNat < 2 ^ 31
  | some .switchTable =>
    let k := fetch prog (p + 1) 2
    let rel := fetch prog k.2 4
    let tbl := rel.2 + rel.1.toNat
    (fetch prog (tbl + 16) 4).1.toNat < 2 ^ 31 ∧
    ∀ i : Nat, i ≤ (fetch prog (tbl + 8) 8).1.toNat - (fetch prog tbl 8).1.toNat →
      (fetch prog ((tbl + 20 + (i * 4) % 2 ^ 64) % 2 ^ 64) 4).1.toNat < 2 ^ 31
  | some .arrEof => False
  | _ => True

theorem branch_fwd {len base t : Nat} {off : Word} (h : branch len base off = some t) (ho : off.toNat < 2 ^ 31) :
    base ≤ t := by
  have h1 : 0 ≤ (off.setWidth 32).toInt := by
    rw [BitVec.toInt_eq_toNat_cond, BitVec.toNat_setWidth]
    split <;> omega
  unfold branch at h
  simp only at h
  rw [if_neg (by omega)] at h
  simp only at h
  split at h
  · cases h
  · simp only [Option.some.injEq] at h; omega

theorem goto_fwd {E : Env σ} {s s' : St σ} {base : Nat} {off : Word} (h : goto E s base off = .run s')
    (ho : off.toNat < 2 ^ 31) : base ≤ s'.ip := by
  unfold goto at h
  split at h
  · cases h
  · rename_i t ht
    injection h with h
    subst h
    exact branch_fwd ht ho

theorem jump_fwd {E : Env σ} {s s' : St σ} (hf : FwdAt E.prog s.ip) (hs : step E s = .run s')
    (hj : (curOp E s).any (·.jumps) = true) : s.ip < s'.ip := by
  cases hop : E.prog[s.ip]? with
  | none => rw [step_end hop] at hs; cases hs
  | some op =>
    have hpi : (pre op s).ip = s.ip + 1 := (pre_fields op s).2.1
    simp only [curOp, hop, Option.map_some, Option.any_some] at hj
    rw [step_eq hop] at hs
    change execOp E op (pre op s) = _ at hs
    unfold FwdAt at hf
    rw [hop, Option.map_some] at hf
    generalize pre op s = q at hs hpi
    have g := fun n => fetch_ip_ge E.prog (s.ip + 1) n
    have g2 := fetch_ip_ge E.prog (fetch E.prog (s.ip + 1) 2).2 4
    cases hd : decodeOp op <;> simp only [hd, Op.jumps, Bool.false_eq_true] at hj hf <;> simp only [execOp, hd] at hs
    · -- jumpIfNot
      unfold handleJumpIfNot fet at hs
      simp only [hpi] at hs
      have := g 4
      split at hs
      · cases hs
      · split at hs
        · have := goto_fwd hs hf; omega
        · injection hs with hs; subst hs; simp only; omega
    · -- switch
      unfold handleSwitch fet at hs
      simp only [hpi] at hs
      have := g 2
      split at hs
      · cases hs
      · unfold callScalar at hs
        simp only at hs
        split at hs
        · have := goto_fwd hs (hf _); omega
        · cases hs
    · -- jump
      unfold handleJump fet at hs
      simp only [hpi] at hs
      have := g 4
      have := goto_fwd hs hf; omega
    · -- switchTable
      unfold handleSwitchTable fet at hs
      simp only [hpi] at hs
      have := g 2
      split at hs
      · cases hs
      · unfold callScalar at hs
        simp only at hs
        split at hs
        · split at hs
          · split at hs
            · cases hs
            · split at hs
              · have := goto_fwd hs (hf.2 _ (by omega)); omega
              · cases hs
          · have := goto_fwd hs hf.1; omega
        · cases hs

/-- No loop of the run has the count 0xFFFFFFFF. -/
theorem counts_run (E : Env σ) (old : St σ) (buf : List Byte) (user : σ) (hh : CountsOk E.host)
    (hE : ∀ s, Reach E (initSt old buf user) s → curOp E s ≠ some .arrEof) (s : St σ) (hr : Reach E (initSt old buf user) s) :
    ∀ f ∈ s.loops, f.rem < 0xFFFFFFFF := by
  obtain ⟨m, hm⟩ := hr
  induction m generalizing s with
  | zero => rw [exec_zero] at hm; injection hm with hm; subst hm; simp [initSt]
  | succ m ih =>
    rw [exec_add] at hm
    cases h1 : exec E m (initSt old buf user) with
    | stop e s1 => rw [h1] at hm; cases hm
    | ub u => rw [h1] at hm; cases hm
    | run s1 =>
      rw [h1] at hm
      have hr1 : Reach E (initSt old buf user) s1 := ⟨m, h1⟩
      have ih := ih s1 h1
      simp only [exec_succ, exec_zero] at hm
      cases hs : step E s1 with
      | stop e s2 => rw [hs] at hm; cases hm
      | ub u => rw [hs] at hm; cases hm
      | run s2 =>
        rw [hs] at hm
        injection hm with hm
        subst hm
        cases hop : E.prog[s1.ip]? with
        | none => rw [step_end hop] at hs; cases hs
        | some op =>
          have hpl : (pre op s1).loops = s1.loops := (pre_fields op s1).2.2.2.1
          rw [step_eq hop] at hs
          change execOp E op (pre op s1) = _ at hs
          by_cases hend : decodeOp op = .arrEnd
          · simp only [execOp, hend] at hs
            unfold handleArrEnd at hs
            rw [hpl] at hs
            cases hl : s1.loops with
            | nil => rw [hl] at hs; cases hs
            | cons f fs =>
              rw [hl] at hs ih
              have hfe : (f.rem == 0xFFFFFFFF) = false := by simpa using Nat.ne_of_lt (ih f (by simp))
              have hch := ih f (by simp)
              simp only [hfe, Bool.false_eq_true, if_false, decide_eq_true_eq] at hs
              split at hs
              · injection hs with hs
                subst hs
                intro g hg
                simp only [List.mem_cons] at hg
                rcases hg with rfl | hg
                · simp only; omega
                · exact ih g (by simp [hg])
              · unfold callNotify at hs
                simp only at hs
                split at hs
                · injection hs with hs
                  subst hs
                  intro g hg
                  exact ih g (by simp only at hg; simp [hg])
                · cases hs
          · have heof : decodeOp op ≠ .arrEof := by
              intro h
              exact hE s1 hr1 (by rw [curOp, hop, Option.map_some, h])
            have hc := execOp_counted E op (pre op s1) hend heof hh
            rw [hs] at hc
            rcases hc with hc | ⟨i, c, hc, hn⟩
            · rw [hc, hpl]; exact ih
            · rw [hc, hpl]
              intro g hg
              simp only [List.mem_cons] at hg
              rcases hg with rfl | hg
              · exact hn
              · exact ih g hg

/-- **C32 (partial), in terms of the program and the host.** If no instruction that the run reaches has a negative
offset or is a read-to-end array, and the host never answers an array instruction with the count 0xFFFFFFFF, the run
is over after `stepBound` instructions. -/
theorem C32_program_partial (E : Env σ) (old : St σ) (buf : List Byte) (user : σ) (hh : CountsOk E.host)
    (hF : ∀ s, Reach E (initSt old buf user) s → FwdAt E.prog s.ip) (n : Nat) (hn : stepBound E.prog.length ≤ n)
    (s' : St σ) : exec E n (initSt old buf user) ≠ .run s' := by
  have hlt := counts_run E old buf user hh (fun s hr h => by
    have := hF s hr
    unfold FwdAt at this
    unfold curOp at h
    rw [h] at this
    exact this)
  exact C32_ends_partial E old buf user ⟨fun s s' hr hs hj => jump_fwd (hF s hr) hs hj,
      fun s hr f hf => Nat.ne_of_lt (hlt s hr f hf)⟩ n hn s'

/-! ### Examples -/

/-- The hypotheses of `C32_program_partial` hold of an encoder's run over a nested pair of arrays with a forward jump
in the inner one, for every packet buffer and every host input that has only small numbers. -/
def Demo.nested : List Byte :=
  [0x35, 1, 0, 0x34, 2, 0, 3, 0, 0, 0, 0x61, 1, 0, 0, 0, 0, 0, 0, 0, 0x50, 3, 0, 0, 0, 0x10, 3, 0, 0x38, 0x38]

/-- A host whose every answer is below 1000. -/
def Demo.modest : Host Demo.Tape := { Demo.giver with
  scalar := fun t key op v => let r := Demo.giver.scalar t key op v; (r.1, BitVec.ofNat 64 (r.2.1.toNat % 1000), r.2.2) }

theorem Demo.modest_counts : CountsOk Demo.modest := by
  intro h key op v _
  show (truncB 4 (BitVec.ofNat 64 _)).toNat ≠ _
  rw [toNat_truncB, BitVec.toNat_ofNat]
  omega

theorem Demo.nested_fwd (p : Nat) : FwdAt Demo.nested p := by
  have key : ∀ p : Fin 29, (Demo.nested[p.val]?).map decodeOp ∉
        [some Op.jump, some .jumpIfNot, some .switch, some .switchTable, some .arrEof] ∨
      ((Demo.nested[p.val]?).map decodeOp = some .jumpIfNot ∧ (fetch Demo.nested (p.val + 1) 4).1.toNat < 2 ^ 31) := by
    decide +kernel
  unfold FwdAt
  by_cases h : p < 29
  · rcases key ⟨p, h⟩ with h | ⟨h1, h2⟩
    · simp only [List.mem_cons, not_or] at h
      obtain ⟨h1, h2, h3, h4, h5, _⟩ := h
      split <;> first | trivial | contradiction
    · simp only at h1
      rw [h1]
      exact h2
  · have : Demo.nested[p]? = none := List.getElem?_eq_none (by simp [Demo.nested]; omega)
    rw [this]
    trivial

example (buf : List Byte) (t : Demo.Tape) (s' : St Demo.Tape) :
    exec { Demo.env Demo.nested true with host := Demo.modest } (stepBound 29) (initSt Demo.blank buf t) ≠ .run s' :=
  C32_program_partial { Demo.env Demo.nested true with host := Demo.modest } _ _ _ Demo.modest_counts
    (fun s _ => Demo.nested_fwd s.ip) _ (Nat.le_refl _) _

/-- It runs the inner body six times for a count of two. -/
example : Demo.obs (exec { Demo.env Demo.nested true with host := Demo.modest } 100
      (initSt Demo.blank (List.replicate 9 0) { inp := [2, 3, 4, 5, 6, 3, 7, 8, 9] })) =
    .stopped .ok [2, 4, 5, 6, 7, 8, 9, 0, 0] 7 0 { log := [(1, 0x35, 2), (2, 0x34, 3), (3, 0x10, 4), (3, 0x10, 5),
      (3, 0x10, 6), (0, 0x38, 0), (2, 0x34, 3), (3, 0x10, 7), (3, 0x10, 8), (3, 0x10, 9), (0, 0x38, 0), (0, 0x38, 0)] } := by
  decide +kernel

/-! ### C32 is false of counts 0xFFFFFFFF -/

/-- An array with a four-byte count and elements that take no space. -/
def Demo.hollow : Env Demo.Tape := Demo.env [0x37, 1, 0, 0x38] false

/-- The state it stays in. -/
def Demo.stuck : St Demo.Tape := { Demo.start [0xFF, 0xFF, 0xFF, 0xFF, 0] {} with
  ip := 3, cursor := 4, loops := [⟨3, 0xFFFFFFFF⟩], host := { log := [(1, 0x37, 0xFFFFFFFF)] } }

/-- **C32 fails.** The decoder never finishes with the five-byte packet `FF FF FF FF 00`, for a description with one
array whose elements are empty, although the program has no jump and no read-to-end array: the machine takes the
count 0xFFFFFFFF for "to the end of the data", which is never reached. -/
theorem C32_false :
    (∀ p, FwdAt Demo.hollow.prog p) ∧
    ∀ n, ∃ s, exec Demo.hollow n (Demo.start [0xFF, 0xFF, 0xFF, 0xFF, 0] {}) = .run s := by
  refine ⟨?_, ?_⟩
  · intro p
    match p with
    | 0 | 1 | 2 | 3 | n + 4 => simp [FwdAt, Demo.hollow, Demo.env, decodeOp]
  have h1 : step Demo.hollow (Demo.start [0xFF, 0xFF, 0xFF, 0xFF, 0] {}) = .run Demo.stuck := by rfl
  have h2 : step Demo.hollow Demo.stuck = .run Demo.stuck := by rfl
  have h3 : ∀ n, exec Demo.hollow n Demo.stuck = .run Demo.stuck := by
    intro n
    induction n with
    | zero => rfl
    | succ n ih => rw [exec_run_succ h2, ih]
  intro n
  cases n with
  | zero => exact ⟨_, rfl⟩
  | succ n => exact ⟨_, by rw [exec_run_succ h1, h3]⟩

end Cnd
