import Verif.Bytes
/-
  Helper lemmas about byte lists and byte-order conversions.
-/

namespace Cnd

/-- Number denoted by a byte list, least significant byte first (specification). -/
def leNat : List Byte → Nat
  | [] => 0
  | b :: bs => b.toNat + 256 * leNat bs

theorem leNat_lt (bs : List Byte) : leNat bs < 256 ^ bs.length := by
  induction bs with
  | nil => simp [leNat]
  | cons b bs ih =>
    simp only [leNat, List.length_cons, Nat.pow_succ]
    have := b.isLt
    omega

theorem pow256 (n : Nat) : 256 ^ n = 2 ^ (8 * n) := by
  rw [Nat.pow_mul]

theorem or_shl8 (a x : Nat) (ha : a < 256) : a ||| (x <<< 8) = a + 256 * x := by
  rw [Nat.or_comm, ← Nat.shiftLeft_add_eq_or_of_lt (i := 8) (by omega)]
  rw [Nat.shiftLeft_eq]; omega

theorem toNat_leWord (bs : List Byte) (h : bs.length ≤ 8) : (leWord bs).toNat = leNat bs := by
  suffices H : (leWord bs).toNat = leNat bs % 2 ^ 64 by
    rw [H, Nat.mod_eq_of_lt]
    have h1 := leNat_lt bs
    have h2 : 256 ^ bs.length ≤ 256 ^ 8 := Nat.pow_le_pow_right (by omega) h
    omega
  clear h
  induction bs with
  | nil => simp [leWord, leNat]
  | cons b bs ih =>
    simp only [leWord, leNat, BitVec.toNat_or, BitVec.toNat_setWidth, BitVec.toNat_shiftLeft, ih]
    have hb := b.isLt
    have e1 : b.toNat % 2 ^ 64 = b.toNat := by omega
    rw [e1, Nat.shiftLeft_eq]
    generalize leNat bs = x
    have : (x % 2 ^ 64 * 2 ^ 8) % 2 ^ 64 = ((x % 2 ^ 56)) <<< 8 := by
      rw [Nat.shiftLeft_eq]; omega
    rw [this, or_shl8 _ _ (by omega)]
    omega

@[simp] theorem leBytes_length (n : Nat) (w : Word) : (leBytes n w).length = n := by
  induction n generalizing w with
  | zero => simp [leBytes]
  | succ n ih => simp [leBytes, ih]

@[simp] theorem wrBytes_length (be : Bool) (n : Nat) (w : Word) : (wrBytes be n w).length = n := by
  unfold wrBytes; split <;> simp

theorem leNat_leBytes (n : Nat) (w : Word) : leNat (leBytes n w) = w.toNat % 256 ^ n := by
  induction n generalizing w with
  | zero => simp [leBytes, leNat, Nat.mod_one]
  | succ n ih =>
    simp only [leBytes, leNat, ih, BitVec.toNat_setWidth, BitVec.toNat_ushiftRight]
    have e : 256 ^ (n + 1) = 256 * 256 ^ n := by rw [Nat.pow_succ, Nat.mul_comm]
    rw [e, Nat.mod_mul, Nat.shiftRight_eq_div_pow]

theorem toNat_truncB (n : Nat) (w : Word) : (truncB n w).toNat = w.toNat % 2 ^ (8 * n) := by
  unfold truncB
  rw [BitVec.toNat_ofNat]
  apply Nat.mod_eq_of_lt
  exact Nat.lt_of_le_of_lt (Nat.mod_le _ _) w.isLt

theorem leWord_leBytes (n : Nat) (w : Word) (h : n ≤ 8) : leWord (leBytes n w) = truncB n w := by
  apply BitVec.eq_of_toNat_eq
  rw [toNat_leWord _ (by simpa using h), leNat_leBytes, toNat_truncB, pow256]

/-- Reading back what was written gives the value modulo the field width. -/
theorem rdWord_wrBytes (be : Bool) (n : Nat) (w : Word) (h : n ≤ 8) :
    rdWord be (wrBytes be n w) = truncB n w := by
  unfold rdWord wrBytes
  cases be <;> simp [leWord_leBytes n w h]

theorem leBytes_congr (n : Nat) (a b : Word) (h : a.toNat % 256 ^ n = b.toNat % 256 ^ n) :
    leBytes n a = leBytes n b := by
  induction n generalizing a b with
  | zero => simp [leBytes]
  | succ n ih =>
    simp only [leBytes]
    rw [Nat.pow_succ, Nat.mul_comm (256 ^ n) 256, Nat.mod_mul, Nat.mod_mul] at h
    congr 1
    · apply BitVec.eq_of_toNat_eq
      simp only [BitVec.toNat_setWidth]
      have := Nat.mod_lt a.toNat (y := 256) (by omega)
      have := Nat.mod_lt b.toNat (y := 256) (by omega)
      omega
    · apply ih
      simp only [BitVec.toNat_ushiftRight, Nat.shiftRight_eq_div_pow, show (2 : Nat) ^ 8 = 256 from rfl]
      have := Nat.mod_lt a.toNat (y := 256) (by omega)
      have := Nat.mod_lt b.toNat (y := 256) (by omega)
      omega

theorem leBytes_leWord (bs : List Byte) (h : bs.length ≤ 8) : leBytes bs.length (leWord bs) = bs := by
  have key : ∀ (xs ys : List Byte), xs.length = ys.length → leNat xs = leNat ys → xs = ys := by
    intro xs
    induction xs with
    | nil => intro ys hl _; cases ys with
      | nil => rfl
      | cons _ _ => simp at hl
    | cons x xs ih =>
      intro ys hl he
      cases ys with
      | nil => simp at hl
      | cons y ys =>
        simp only [leNat] at he
        have := x.isLt
        have := y.isLt
        have e : x = y := BitVec.eq_of_toNat_eq (by omega)
        subst e
        rw [ih ys (by simpa using hl) (by omega)]
  apply key
  · simp
  · rw [leNat_leBytes, toNat_leWord bs h, Nat.mod_eq_of_lt (leNat_lt bs)]

/-- Writing back what was read restores the bytes. -/
theorem wrBytes_rdWord (be : Bool) (bs : List Byte) (h : bs.length ≤ 8) :
    wrBytes be bs.length (rdWord be bs) = bs := by
  unfold rdWord wrBytes
  cases be
  · simp [leBytes_leWord bs h]
  · have := leBytes_leWord bs.reverse (by simpa using h)
    simp only [List.length_reverse] at this
    simp [this]

theorem toNat_rdWord_lt (be : Bool) (bs : List Byte) (h : bs.length ≤ 8) :
    (rdWord be bs).toNat < 2 ^ (8 * bs.length) := by
  unfold rdWord
  rw [← pow256]
  split
  · rw [toNat_leWord _ (by simpa using h)]
    have := leNat_lt bs.reverse
    simpa using this
  · rw [toNat_leWord _ h]
    exact leNat_lt bs

theorem truncB_of_lt (n : Nat) (w : Word) (h : w.toNat < 2 ^ (8 * n)) : truncB n w = w := by
  apply BitVec.eq_of_toNat_eq
  rw [toNat_truncB, Nat.mod_eq_of_lt h]

theorem truncB_rdWord (be : Bool) (bs : List Byte) (h : bs.length ≤ 8) :
    truncB bs.length (rdWord be bs) = rdWord be bs :=
  truncB_of_lt _ _ (toNat_rdWord_lt be bs h)

@[simp] theorem truncB_truncB (n : Nat) (w : Word) : truncB n (truncB n w) = truncB n w := by
  apply truncB_of_lt
  rw [toNat_truncB]
  exact Nat.mod_lt _ (Nat.two_pow_pos _)

theorem truncB_eight (w : Word) : truncB 8 w = w := truncB_of_lt _ _ (by have := w.isLt; omega)

theorem wrBytes_truncB (be : Bool) (n : Nat) (w : Word) : wrBytes be n (truncB n w) = wrBytes be n w := by
  unfold wrBytes
  have : leBytes n (truncB n w) = leBytes n w := by
    apply leBytes_congr
    rw [toNat_truncB, pow256, Nat.mod_mod]
  rw [this]

/-- Injectivity: different values of the field's width are written differently. -/
theorem wrBytes_inj (be : Bool) (n : Nat) (a b : Word) (hn : n ≤ 8)
    (h : wrBytes be n a = wrBytes be n b) : truncB n a = truncB n b := by
  rw [← rdWord_wrBytes be n a hn, ← rdWord_wrBytes be n b hn, h]

/-! ### slice / splice / store -/

theorem slice_eq_some {buf : List Byte} {p n : Nat} {bs : List Byte} :
    slice buf p n = some bs ↔ p + n ≤ buf.length ∧ bs = (buf.drop p).take n := by
  unfold slice
  by_cases h : p + n ≤ buf.length <;> simp [h, eq_comm]

theorem slice_eq_none {buf : List Byte} {p n : Nat} :
    slice buf p n = none ↔ buf.length < p + n := by
  unfold slice
  split <;> simp_all

theorem slice_length {buf : List Byte} {p n : Nat} {bs : List Byte} (h : slice buf p n = some bs) :
    bs.length = n := by
  obtain ⟨h1, rfl⟩ := slice_eq_some.1 h
  simp; omega

theorem store_eq_some {buf : List Byte} {p : Nat} {bs buf' : List Byte} :
    store buf p bs = some buf' ↔ p + bs.length ≤ buf.length ∧ buf' = splice buf p bs := by
  unfold store
  by_cases h : p + bs.length ≤ buf.length <;> simp [h, eq_comm]

theorem store_eq_none {buf : List Byte} {p : Nat} {bs : List Byte} :
    store buf p bs = none ↔ buf.length < p + bs.length := by
  unfold store
  split <;> simp_all

theorem splice_length {buf : List Byte} {p : Nat} {bs : List Byte} (h : p + bs.length ≤ buf.length) :
    (splice buf p bs).length = buf.length := by
  unfold splice; simp; omega

theorem store_length {buf : List Byte} {p : Nat} {bs buf' : List Byte} (h : store buf p bs = some buf') :
    buf'.length = buf.length := by
  obtain ⟨h1, rfl⟩ := store_eq_some.1 h
  exact splice_length h1

theorem getElem?_splice_lt {buf : List Byte} {p : Nat} {bs : List Byte} (h : p + bs.length ≤ buf.length)
    {i : Nat} (hi : i < p) : (splice buf p bs)[i]? = buf[i]? := by
  unfold splice
  rw [List.append_assoc, List.getElem?_append_left (by simp; omega), List.getElem?_take_of_lt hi]

theorem getElem?_splice_ge {buf : List Byte} {p : Nat} {bs : List Byte} (h : p + bs.length ≤ buf.length)
    {i : Nat} (hi : p + bs.length ≤ i) : (splice buf p bs)[i]? = buf[i]? := by
  unfold splice
  rw [List.getElem?_append_right (by simp; omega), List.getElem?_drop]
  congr 1
  simp; omega

theorem getElem?_splice_mid {buf : List Byte} {p : Nat} {bs : List Byte} (h : p + bs.length ≤ buf.length)
    {i : Nat} (hi : i < bs.length) : (splice buf p bs)[p + i]? = bs[i]? := by
  unfold splice
  rw [List.append_assoc, List.getElem?_append_right (by simp; omega),
    List.getElem?_append_left (by simp; omega)]
  congr 1
  simp; omega

theorem slice_splice_same {buf : List Byte} {p : Nat} {bs : List Byte} (h : p + bs.length ≤ buf.length) :
    slice (splice buf p bs) p bs.length = some bs := by
  rw [slice_eq_some, splice_length h]
  refine ⟨h, ?_⟩
  unfold splice
  rw [List.append_assoc, List.drop_append]
  simp [Nat.min_eq_left (show p ≤ buf.length by omega)]

/-- Reading the region just written. -/
theorem slice_store_same {buf : List Byte} {p : Nat} {bs buf' : List Byte}
    (h : store buf p bs = some buf') : slice buf' p bs.length = some bs := by
  obtain ⟨h1, rfl⟩ := store_eq_some.1 h
  exact slice_splice_same h1

theorem take_splice {buf : List Byte} {p q : Nat} {bs : List Byte} (h : p + bs.length ≤ buf.length)
    (hq : q ≤ p) : (splice buf p bs).take q = buf.take q := by
  unfold splice
  rw [List.append_assoc, List.take_append_of_le_length (by simp; omega), List.take_take,
    Nat.min_eq_left hq]

theorem drop_splice {buf : List Byte} {p q : Nat} {bs : List Byte} (h : p + bs.length ≤ buf.length)
    (hq : p + bs.length ≤ q) : (splice buf p bs).drop q = buf.drop q := by
  apply List.ext_getElem?
  intro i
  rw [List.getElem?_drop, List.getElem?_drop, getElem?_splice_ge h (by omega)]

/-- The first `p + bs.length` bytes after a write at `p`. -/
theorem take_splice_end {buf : List Byte} {p : Nat} {bs : List Byte} (h : p + bs.length ≤ buf.length) :
    (splice buf p bs).take (p + bs.length) = buf.take p ++ bs := by
  unfold splice
  rw [List.take_append_of_le_length (by simp; omega), List.take_of_length_le (by simp; omega)]

theorem Ty.size_le (t : Ty) : t.size ≤ 8 := by cases t <;> simp [Ty.size]
theorem Ty.size_pos (t : Ty) : 0 < t.size := by cases t <;> simp [Ty.size]

end Cnd
