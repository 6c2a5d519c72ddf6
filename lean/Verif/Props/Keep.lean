import Verif.SweepKeep
import Verif.Code
import Verif.Props.Safety
/-
  C57: what has been written stays as written.
-/

namespace Cnd
variable {σ : Type}

/-- C57 as stated is false: EMIT does not align, so in the middle of a byte it overwrites the bits already
written there (here the three bits 101 of a bit field). -/
theorem C57_false : ∃ (E : Env Demo.Tape) (s s' : St Demo.Tape) (k : Nat), E.enc = true ∧
    step E s = .run s' ∧ k < s.pos ∧ bitAt s.be s'.buf k ≠ bitAt s.be s.buf k := by
  refine ⟨Demo.env [0x65, 0x10] true, { Demo.start [5, 0] {} with bit := 3, stack := [0] },
    { Demo.start [0, 0] {} with bit := 3, cursor := 1, ip := 2 }, 0, rfl, ?_, by decide, by decide +kernel⟩
  rfl

/-- C57, what holds: for every program, state and host that does not itself write to the packet, an instruction
other than an EMIT in the middle of a byte changes no bit before the position. Missing: that EMIT. -/
theorem C57_step_keeps_partial (E : Env σ) (hq : Quiet E.host) (s s' : St σ) (hi : Inv s)
    (hemit : E.prog[s.ip]? = some 0x65 → s.bit = 0)
    (hs : step E s = .run s' ∨ ∃ e, step E s = .stop e s') (k : Nat) (hk : k < s.pos) :
    bitAt s.be s'.buf k = bitAt s.be s.buf k := by
  cases hop : E.prog[s.ip]? with
  | none =>
    rw [step_end hop] at hs
    rcases hs with hs | ⟨e, hs⟩
    · cases hs
    · injection hs with _ h2; subst h2; rfl
  | some op =>
    have hp := hi.pre op
    have hpos := pre_pos op s hi.bit
    have hem : decodeOp op = .emit → (pre op s).bit = 0 := by
      intro h
      have h65 : op = 0x65 := by
        have key : ∀ n : Fin 256, decodeOp (BitVec.ofFin n) = .emit → (BitVec.ofFin n : Byte) = 0x65 := by decide +kernel
        exact key op.toFin h
      subst h65
      rw [pre_unaligned _ _ rfl]
      exact hemit hop
    have hf := execOp_kept E op (pre op s) hpos.2.2.2.2.1 hp.bit hq hem
    have e0 : execOp E op (pre op s) = step E s := (step_eq hop).symm
    rw [e0] at hf
    have hfld := pre_fields op s
    have hpp : s.pos ≤ 8 * (pre op s).cursor + (pre op s).bit := by
      have := hpos
      simp only [St.pos]
      omega
    have hbe : (pre op s).be = s.be := by
      unfold pre alignSt
      split <;> rfl
    have : Kept (pre op s) s' := by
      rcases hs with hs | ⟨e, hs⟩ <;> rw [hs] at hf <;> exact hf
    have := this.bits k (by omega)
    rw [hbe, hfld.1] at this
    exact this

/-- C57 for whole runs, bytes: a byte the cursor has passed keeps its value until the end of the run, without any
exception. -/
theorem C57_bytes_final (E : Env σ) (hq : Quiet E.host) (s : St σ) (hi : Inv s) (n : Nat) (s' : St σ)
    (h : exec E n s = .run s' ∨ ∃ e, exec E n s = .stop e s') (i : Nat) (hlt : i < s.cursor) :
    s'.buf[i]? = s.buf[i]? := by
  have run : ∀ a, Reach E s a → Inv a ∧ s.cursor ≤ a.cursor ∧ ∀ i, i < s.cursor → a.buf[i]? = s.buf[i]? := by
    intro a ha
    refine ha.inv (I := fun a => Inv a ∧ s.cursor ≤ a.cursor ∧ ∀ i, i < s.cursor → a.buf[i]? = s.buf[i]?) ?_
      ⟨hi, Nat.le_refl _, fun _ _ => rfl⟩
    rintro a b ⟨h1, h2, h3⟩ hab
    refine ⟨step_inv h1 hab, ?_, ?_⟩
    · cases hop : E.prog[a.ip]? with
      | none => rw [step_end hop] at hab; cases hab
      | some op =>
        have hm := step_mono h1 hop
        rw [hab] at hm
        have := hm.pos
        have hb := hm.bit
        have hpos := pre_pos op a h1.bit
        have := h1.bit
        omega
    · intro i hi'
      rw [(C03_step_frame E hq a h1 b (.inl hab)).2 i (Or.inl (by omega)), h3 i hi']
  rcases h with h | ⟨e, h⟩
  · exact (run s' ⟨n, h⟩).2.2 i hlt
  · obtain ⟨s0, hr, hs⟩ := exec_stop_from h
    obtain ⟨h1, h2, h3⟩ := run s0 hr
    rw [(C03_step_frame E hq s0 h1 s' (.inr ⟨e, hs⟩)).2 i (Or.inl (by omega)), h3 i hlt]

/-- C57 for whole runs, bits: a bit the position has passed keeps its value until the end of the run, if no EMIT
happens in the middle of a byte and the byte order is not switched. -/
theorem C57_bits_final_partial (E : Env σ) (hq : Quiet E.host) (s : St σ) (hi : Inv s)
    (hemit : ∀ a, Reach E s a → E.prog[a.ip]? = some 0x65 → a.bit = 0)
    (hbe : ∀ a, Reach E s a → a.be = s.be) (n : Nat) (s' : St σ)
    (h : exec E n s = .run s' ∨ ∃ e, exec E n s = .stop e s') (k : Nat) (hk : k < s.pos) :
    bitAt s.be s'.buf k = bitAt s.be s.buf k := by
  have run : ∀ n a, exec E n s = .run a → Inv a ∧ s.pos ≤ a.pos ∧ bitAt s.be a.buf k = bitAt s.be s.buf k := by
    intro n a ha
    have : Reach E s a ∧ Inv a ∧ s.pos ≤ a.pos ∧ bitAt s.be a.buf k = bitAt s.be s.buf k := by
      refine Reach.inv (s := s) (I := fun a => Reach E s a ∧ Inv a ∧ s.pos ≤ a.pos ∧ bitAt s.be a.buf k = bitAt s.be s.buf k) ?_
        ⟨n, ha⟩ ⟨Reach.refl _ _, hi, Nat.le_refl _, rfl⟩
      rintro a b ⟨h0, h1, h2, h3⟩ hab
      refine ⟨h0.snoc hab, step_inv h1 hab, ?_, ?_⟩
      · cases hop : E.prog[a.ip]? with
        | none => rw [step_end hop] at hab; cases hab
        | some op =>
          have hm := step_mono h1 hop
          rw [hab] at hm
          have := hm.pos
          have hpos := pre_pos op a h1.bit
          simp only [St.pos] at *
          omega
      · have := C57_step_keeps_partial E hq a b h1 (hemit a h0) (.inl hab) k (by omega)
        rw [hbe a h0] at this
        rw [this, h3]
    exact this.2
  rcases h with h | ⟨e, h⟩
  · exact (run n s' h).2.2
  · obtain ⟨s0, ⟨m, hr⟩, hs⟩ := exec_stop_from h
    obtain ⟨h1, h2, h3⟩ := run m s0 hr
    have := C57_step_keeps_partial E hq s0 s' h1 (hemit s0 ⟨m, hr⟩) (.inr ⟨e, hs⟩) k (by omega)
    rw [hbe s0 ⟨m, hr⟩] at this
    rw [this, h3]

/-- Two bit fields and a byte field: the first field's bits (101) survive. And the byte-order hypothesis
matters: after a switch of byte order in the middle of a byte the second bit field lands on the first. -/
example :
    Demo.obs (exec (Demo.env [0x20, 1, 0, 3, 0x20, 2, 0, 4, 0x10, 3, 0] true) 9
      (Demo.start [0, 0] { inp := [5, 9, 7] })) =
      .stopped .ok [0x4D, 7] 2 0 { log := [(1, 0x20, 5), (2, 0x20, 9), (3, 0x10, 7)] } ∧
    Demo.obs (exec (Demo.env [0x20, 1, 0, 3, 0x02, 0x20, 2, 0, 5] true) 9
      (Demo.start [0, 0] { inp := [5, 0] })) =
      .stopped .ok [0, 0] 1 0 { log := [(1, 0x20, 5), (2, 0x20, 0)] } := by
  decide +kernel

end Cnd
