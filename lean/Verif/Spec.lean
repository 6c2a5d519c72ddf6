import Verif.Code
/-
  Specification vocabulary used in the statements of the property theorems: what it means for the packet to
  hold a number, and what number a field of an integer type denotes. Independent of the VM's own read and
  write functions; the lemmas here relate the two.
-/

namespace Cnd
variable {σ : Type}

/-- The packet holds the `n`-byte number `v` at position `p`: byte `i` of the number (counted from the least
significant) is at `p + i` in little-endian order and at `p + n - 1 - i` in big-endian order. -/
def FieldAt (be : Bool) (buf : List Byte) (p n : Nat) (v : Nat) : Prop :=
  ∀ i, i < n → buf[p + (if be then n - 1 - i else i)]? = some (BitVec.ofNat 8 (v / 256 ^ i % 256))

/-- The integer a field of type `t` with contents `v` denotes. -/
def Ty.val (t : Ty) (v : Nat) : Int :=
  if t.signed ∧ 2 ^ (8 * t.size - 1) ≤ v then (v : Int) - 2 ^ (8 * t.size) else v

/-- Byte `i` of a written word. -/
theorem leBytes_getElem? (n : Nat) (w : Word) (i : Nat) (hi : i < n) :
    (leBytes n w)[i]? = some (BitVec.ofNat 8 (w.toNat / 256 ^ i)) := by
  induction n generalizing w i with
  | zero => omega
  | succ n ih =>
    cases i with
    | zero =>
      simp only [leBytes, List.getElem?_cons_zero, Nat.pow_zero, Nat.div_one]
      congr 1
    | succ i =>
      simp only [leBytes, List.getElem?_cons_succ]
      rw [ih _ _ (by omega), BitVec.toNat_ushiftRight, Nat.shiftRight_eq_div_pow, Nat.div_div_eq_div_mul,
        Nat.pow_succ 256 i, Nat.mul_comm]

theorem wrBytes_getElem? (be : Bool) (n : Nat) (w : Word) (i : Nat) (hi : i < n) :
    (wrBytes be n w)[if be then n - 1 - i else i]? = some (BitVec.ofNat 8 (w.toNat / 256 ^ i % 256)) := by
  have hmod : BitVec.ofNat 8 (w.toNat / 256 ^ i % 256) = BitVec.ofNat 8 (w.toNat / 256 ^ i) := by
    apply BitVec.eq_of_toNat_eq
    simp
  rw [hmod, ← leBytes_getElem? n w i hi]
  cases be with
  | false => rfl
  | true =>
    simp only [wrBytes, if_true]
    rw [List.getElem?_reverse (by simp; omega)]
    congr 1
    simp only [leBytes_length]
    omega

theorem fieldAt_of_slice {be : Bool} {buf : List Byte} {p n : Nat} {w : Word}
    (h : slice buf p n = some (wrBytes be n w)) : FieldAt be buf p n w.toNat := by
  intro i hi
  obtain ⟨hl, he⟩ := slice_eq_some.1 h
  rw [← wrBytes_getElem? be n w i hi, he, List.getElem?_take_of_lt (by split <;> omega), List.getElem?_drop]

theorem slice_of_fieldAt {be : Bool} {buf : List Byte} {p n : Nat} {w : Word} (h0 : 0 < n)
    (h : FieldAt be buf p n w.toNat) : slice buf p n = some (wrBytes be n w) := by
  have hlast : p + (n - 1) < buf.length := by
    cases hbe : be with
    | false =>
      have := h (n - 1) (by omega)
      simp only [hbe, Bool.false_eq_true, if_false] at this
      exact (List.getElem?_eq_some_iff.1 this).1
    | true =>
      have := h 0 (by omega)
      simp only [hbe, if_true, Nat.sub_zero] at this
      exact (List.getElem?_eq_some_iff.1 this).1
  rw [slice_eq_some]
  refine ⟨by omega, ?_⟩
  apply List.ext_getElem?
  intro j
  rcases Nat.lt_or_ge j n with hj | hj
  · rw [List.getElem?_take_of_lt hj, List.getElem?_drop]
    cases hbe : be with
    | false =>
      have e1 := h j hj
      have e2 := wrBytes_getElem? be n w j hj
      simp only [hbe, Bool.false_eq_true, if_false] at e1 e2
      rw [e1, e2]
    | true =>
      have e1 := h (n - 1 - j) (by omega)
      have e2 := wrBytes_getElem? be n w (n - 1 - j) (by omega)
      have : n - 1 - (n - 1 - j) = j := by omega
      simp only [hbe, if_true, this] at e1 e2
      rw [e1, e2]
  · rw [List.getElem?_eq_none (by simp; omega), List.getElem?_eq_none (by simp; omega)]

theorem fieldAt_iff {be : Bool} {buf : List Byte} {p n : Nat} {w : Word} (h0 : 0 < n) :
    FieldAt be buf p n w.toNat ↔ slice buf p n = some (wrBytes be n w) :=
  ⟨slice_of_fieldAt h0, fieldAt_of_slice⟩

theorem fieldAt_store {be : Bool} {buf b : List Byte} {p n : Nat} {w : Word}
    (h : store buf p (wrBytes be n w) = some b) : FieldAt be b p n w.toNat := by
  have := slice_store_same h
  rw [wrBytes_length] at this
  exact fieldAt_of_slice this

/-- Every packet position with room holds some number. -/
theorem fieldAt_exists (be : Bool) (buf : List Byte) (p n : Nat) (h0 : 0 < n) (hn : n ≤ 8)
    (h : p + n ≤ buf.length) : ∃ w : Word, FieldAt be buf p n w.toNat ∧ w.toNat < 2 ^ (8 * n) := by
  have hl : ((buf.drop p).take n).length = n := by simp; omega
  refine ⟨rdWord be ((buf.drop p).take n), ?_, ?_⟩
  · rw [fieldAt_iff h0, slice_eq_some]
    refine ⟨h, ?_⟩
    have := wrBytes_rdWord be ((buf.drop p).take n) (by omega)
    rwa [hl] at this
  · have := toNat_rdWord_lt be ((buf.drop p).take n) (by omega)
    rwa [hl] at this

/-- A packet position holds only one number of a given width. -/
theorem fieldAt_unique {be : Bool} {buf : List Byte} {p n : Nat} {v w : Word} (h0 : 0 < n) (hn : n ≤ 8)
    (hv : v.toNat < 2 ^ (8 * n)) (hw : w.toNat < 2 ^ (8 * n)) (h1 : FieldAt be buf p n v.toNat)
    (h2 : FieldAt be buf p n w.toNat) : v = w := by
  rw [fieldAt_iff h0] at h1 h2
  rw [h1] at h2
  injection h2 with h2
  have := wrBytes_inj be n v w hn h2
  rwa [truncB_of_lt _ _ hv, truncB_of_lt _ _ hw] at this

/-- The VM's read of a packet position that holds `v`. -/
theorem rdAt_field {s : St σ} {p n : Nat} {w : Word} {k : Word → Res σ} {r : Res σ} (h0 : 0 < n) (hn : n ≤ 8)
    (hw : w.toNat < 2 ^ (8 * n)) (h : FieldAt s.be s.buf p n w.toNat) (hk : k w = r) : rdAt s p n k = r := by
  rw [fieldAt_iff h0] at h
  refine rdAt_ok h ?_
  rw [rdWord_wrBytes _ _ _ hn, truncB_of_lt _ _ hw]
  exact hk

/-- Operand fetch from known program text. -/
theorem fet_at {E : Env σ} {s : St σ} {n : Nat} {bs : List Byte} {k : Word → St σ → Res σ}
    (h : At E.prog s.ip bs) (hn : bs.length = n) (h0 : 0 < n) :
    fet E s n k = k (leWord bs) { s with ip := s.ip + n } := by
  unfold fet
  rw [h.fetch hn h0]

theorem fet_ok {E : Env σ} {s : St σ} {n : Nat} {bs : List Byte} {k : Word → St σ → Res σ} {r : Res σ}
    (h : At E.prog s.ip bs) (hn : bs.length = n) (h0 : 0 < n)
    (hk : k (leWord bs) { s with ip := s.ip + n } = r) : fet E s n k = r := (fet_at h hn h0).trans hk

theorem leWord_leBytes_lt {n : Nat} {w : Word} (hn : n ≤ 8) (hw : w.toNat < 2 ^ (8 * n)) :
    leWord (leBytes n w) = w := by
  rw [leWord_leBytes _ _ hn, truncB_of_lt _ _ hw]

end Cnd
