import Verif.Demo
/-
  Double precision for integers, in software: conversions between 64-bit integers and IEEE-754 doubles (round to nearest, ties to
  even) and comparison. Used for the examples and witnesses of C63; the theorems there only use the laws `IntExact`.
-/

namespace Cnd.Soft

/-- The bits of the double nearest to a natural number below 2^64. -/
def bitsOfNat (n : Nat) : Nat :=
  if n = 0 then 0
  else if n.log2 ≤ 52 then (1022 + n.log2) * 2 ^ 52 + n * 2 ^ (52 - n.log2)
  else
    let sh := n.log2 - 52
    let q := n / 2 ^ sh
    let r := n % 2 ^ sh
    (1022 + n.log2) * 2 ^ 52 + (if 2 ^ (sh - 1) < r ∨ r = 2 ^ (sh - 1) ∧ q % 2 = 1 then q + 1 else q)

def ofI64 (w : Word) : Word :=
  if w.toInt < 0 then BitVec.ofNat 64 (2 ^ 63 + bitsOfNat w.toInt.natAbs) else BitVec.ofNat 64 (bitsOfNat w.toInt.natAbs)

def ofU64 (w : Word) : Word := BitVec.ofNat 64 (bitsOfNat w.toNat)

/-- The magnitude of a double, cut off; `none` for infinities and NaN. -/
def natOfBits (m : Nat) : Option Nat :=
  if m / 2 ^ 52 = 2047 then none
  else if m / 2 ^ 52 < 1023 then some 0
  else if m / 2 ^ 52 ≤ 1075 then some ((2 ^ 52 + m % 2 ^ 52) / 2 ^ (1075 - m / 2 ^ 52))
  else some ((2 ^ 52 + m % 2 ^ 52) * 2 ^ (m / 2 ^ 52 - 1075))

def toInt (d : Word) : Option Int :=
  if d.toNat < 2 ^ 63 then (natOfBits d.toNat).map fun n => (n : Int) else (natOfBits (d.toNat - 2 ^ 63)).map fun n => -(n : Int)

/-- The range of a C integer type. -/
def inTy (t : Ty) (i : Int) : Bool :=
  if t.signed then decide (-(2 ^ (8 * t.size - 1) : Int) ≤ i ∧ i < 2 ^ (8 * t.size - 1)) else decide (0 ≤ i ∧ i < 2 ^ (8 * t.size))

def toTy (t : Ty) (d : Word) : Option Word := (toInt d).bind fun i => if inTy t i then some (BitVec.ofInt 64 i) else none

def nan (d : Word) : Bool := decide (0x7FF0000000000000 < d.toNat % 2 ^ 63)

/-- The place of a double in the order. -/
def ord (d : Word) : Int := if d.toNat < 2 ^ 63 then d.toNat else -((d.toNat - 2 ^ 63 : Nat) : Int)

def le (a b : Word) : Bool := !nan a && !nan b && decide (ord a ≤ ord b)

def fl : FloatOps := { Demo.fl with ofI64 := ofI64, ofU64 := ofU64, toTy := toTy, le := le }

end Cnd.Soft

namespace Cnd

/-- What is used of double precision: integers below 2^53 are exact. -/
structure IntExact (F : FloatOps) : Prop where
  u64 : ∀ w : Word, w.toNat < 2 ^ 53 → F.ofU64 w = F.ofI64 w
  max : F.ofI64 2147483647 = 0x41DFFFFFFFC00000
  min : F.ofI64 (BitVec.ofInt 64 (-2147483648)) = 0xC1E0000000000000
  le : ∀ a b : Word, -(2 ^ 53 : Int) < a.toInt → a.toInt < 2 ^ 53 → -(2 ^ 53 : Int) < b.toInt → b.toInt < 2 ^ 53 →
    (F.le (F.ofI64 a) (F.ofI64 b) = true ↔ a.toInt ≤ b.toInt)
  toI32 : ∀ a : Word, -(2 ^ 31 : Int) ≤ a.toInt → a.toInt < 2 ^ 31 → (F.toTy .i32 (F.ofI64 a)).map (Ty.toI64 .i32) = some a
  toI64 : ∀ a : Word, -(2 ^ 53 : Int) < a.toInt → a.toInt < 2 ^ 53 → F.toTy .i64 (F.ofI64 a) = some a
  toU64 : ∀ a : Word, 0 ≤ a.toInt → a.toInt < 2 ^ 53 → F.toTy .u64 (F.ofI64 a) = some a

namespace Soft

theorem bits_small {n : Nat} (h0 : n ≠ 0) (h : n < 2 ^ 53) : bitsOfNat n = (1022 + n.log2) * 2 ^ 52 + n * 2 ^ (52 - n.log2) ∧ n.log2 ≤ 52 := by
  have : n.log2 < 53 := (Nat.log2_lt h0).2 h
  unfold bitsOfNat
  rw [if_neg h0, if_pos (by omega)]
  exact ⟨rfl, by omega⟩

/-- The significand. -/
theorem sig_bounds {n : Nat} (h0 : n ≠ 0) (h : n < 2 ^ 53) : 2 ^ 52 ≤ n * 2 ^ (52 - n.log2) ∧ n * 2 ^ (52 - n.log2) < 2 ^ 53 := by
  have hl : n.log2 ≤ 52 := (bits_small h0 h).2
  have h1 : 2 ^ n.log2 ≤ n := Nat.log2_self_le h0
  have h2 : n < 2 ^ (n.log2 + 1) := Nat.lt_log2_self
  constructor
  · calc 2 ^ 52 = 2 ^ n.log2 * 2 ^ (52 - n.log2) := by rw [← Nat.pow_add]; congr 1; omega
      _ ≤ _ := Nat.mul_le_mul_right _ h1
  · calc n * 2 ^ (52 - n.log2) < 2 ^ (n.log2 + 1) * 2 ^ (52 - n.log2) := Nat.mul_lt_mul_of_pos_right h2 (Nat.pow_pos (by omega))
      _ = 2 ^ 53 := by rw [← Nat.pow_add]; congr 1; omega

theorem bits_lt {n : Nat} (h : n < 2 ^ 53) : bitsOfNat n < 1076 * 2 ^ 52 := by
  by_cases h0 : n = 0
  · subst h0; decide
  · obtain ⟨e, hl⟩ := bits_small h0 h
    have := sig_bounds h0 h
    rw [e]
    omega

theorem natOf_bits {n : Nat} (h : n < 2 ^ 53) : natOfBits (bitsOfNat n) = some n := by
  by_cases h0 : n = 0
  · subst h0; decide
  · obtain ⟨e, hl⟩ := bits_small h0 h
    obtain ⟨s1, s2⟩ := sig_bounds h0 h
    have hd : bitsOfNat n / 2 ^ 52 = 1023 + n.log2 := by rw [e]; omega
    have hm : 2 ^ 52 + bitsOfNat n % 2 ^ 52 = n * 2 ^ (52 - n.log2) := by rw [e]; omega
    unfold natOfBits
    rw [hd, hm, if_neg (by omega), if_neg (by omega), if_pos (by omega)]
    have : 1075 - (1023 + n.log2) = 52 - n.log2 := by omega
    rw [this, Nat.mul_div_cancel _ (Nat.pow_pos (by omega))]

theorem bits_mono {a b : Nat} (h : a < b) (hb : b < 2 ^ 53) : bitsOfNat a < bitsOfNat b := by
  have hb0 : b ≠ 0 := by omega
  obtain ⟨e, hl⟩ := bits_small hb0 hb
  obtain ⟨s1, s2⟩ := sig_bounds hb0 hb
  by_cases h0 : a = 0
  · subst h0
    show 0 < _
    rw [e]; omega
  · obtain ⟨e', hl'⟩ := bits_small h0 (by omega)
    obtain ⟨t1, t2⟩ := sig_bounds h0 (by omega)
    have hle : a.log2 ≤ b.log2 := by
      have := Nat.log2_self_le h0
      exact (Nat.le_log2 hb0).2 (by omega)
    by_cases hq : a.log2 = b.log2
    · rw [e, e', hq]
      have : a * 2 ^ (52 - b.log2) < b * 2 ^ (52 - b.log2) := Nat.mul_lt_mul_of_pos_right h (Nat.pow_pos (by omega))
      omega
    · rw [e, e']; omega

theorem ofI64_toNat {w : Word} (h1 : -(2 ^ 53 : Int) < w.toInt) (h2 : w.toInt < 2 ^ 53) :
    (ofI64 w).toNat = (if w.toInt < 0 then 2 ^ 63 else 0) + bitsOfNat w.toInt.natAbs := by
  have := bits_lt (n := w.toInt.natAbs) (by omega)
  unfold ofI64
  split <;> rw [BitVec.toNat_ofNat] <;> omega

theorem toInt_ofI64 {w : Word} (h1 : -(2 ^ 53 : Int) < w.toInt) (h2 : w.toInt < 2 ^ 53) : toInt (ofI64 w) = some w.toInt := by
  have hb := bits_lt (n := w.toInt.natAbs) (by omega)
  have hn := natOf_bits (n := w.toInt.natAbs) (by omega)
  have e := ofI64_toNat h1 h2
  unfold toInt
  by_cases hs : w.toInt < 0
  · rw [if_pos hs] at e
    rw [if_neg (by omega), e]
    have : 2 ^ 63 + bitsOfNat w.toInt.natAbs - 2 ^ 63 = bitsOfNat w.toInt.natAbs := by omega
    rw [this, hn]
    exact congrArg some (show -(w.toInt.natAbs : Int) = _ by omega)
  · rw [if_neg hs] at e
    rw [if_pos (by omega), e, Nat.zero_add, hn]
    exact congrArg some (show (w.toInt.natAbs : Int) = _ by omega)

theorem ord_ofI64 {w : Word} (h1 : -(2 ^ 53 : Int) < w.toInt) (h2 : w.toInt < 2 ^ 53) :
    nan (ofI64 w) = false ∧ ord (ofI64 w) = if w.toInt < 0 then -(bitsOfNat w.toInt.natAbs : Int) else bitsOfNat w.toInt.natAbs := by
  have hb := bits_lt (n := w.toInt.natAbs) (by omega)
  have e := ofI64_toNat h1 h2
  constructor
  · unfold nan
    rw [decide_eq_false_iff_not]
    rw [e]
    split <;> omega
  · unfold ord
    by_cases hs : w.toInt < 0
    · rw [if_pos hs] at e ⊢
      rw [if_neg (by omega), e]
      omega
    · rw [if_neg hs] at e ⊢
      rw [if_pos (by omega), e]
      omega

theorem ofInt_toInt' (w : Word) : BitVec.ofInt 64 w.toInt = w := BitVec.ofInt_toInt

theorem exact : IntExact fl where
  u64 w h := by
    show ofU64 w = ofI64 w
    have : w.toInt = w.toNat := BitVec.toInt_eq_toNat_of_lt (by omega)
    unfold ofU64 ofI64
    rw [this, if_neg (by omega)]
    rfl
  max := by decide +kernel
  min := by decide +kernel
  le a b a1 a2 b1 b2 := by
    show le (ofI64 a) (ofI64 b) = true ↔ _
    obtain ⟨n1, o1⟩ := ord_ofI64 a1 a2
    obtain ⟨n2, o2⟩ := ord_ofI64 b1 b2
    unfold le
    rw [n1, n2, o1, o2]
    simp only [Bool.not_false, Bool.true_and, decide_eq_true_eq]
    have hm : ∀ x y : Nat, x < 2 ^ 53 → y < 2 ^ 53 → (bitsOfNat x ≤ bitsOfNat y ↔ x ≤ y) := by
      intro x y hx hy
      constructor
      · intro h
        rcases Nat.lt_or_ge y x with hlt | hge
        · have := bits_mono hlt hx; omega
        · exact hge
      · intro h
        rcases Nat.lt_or_ge x y with hlt | hge
        · have := bits_mono hlt hy; omega
        · have : x = y := by omega
          rw [this]; exact Nat.le_refl _
    have e1 := hm a.toInt.natAbs b.toInt.natAbs (by omega) (by omega)
    have e2 := hm b.toInt.natAbs a.toInt.natAbs (by omega) (by omega)
    have z : ∀ x : Nat, x ≠ 0 → x < 2 ^ 53 → 0 < bitsOfNat x := fun x h hx => by
      have := bits_mono (a := 0) (b := x) (by omega) hx
      have : bitsOfNat 0 = 0 := rfl
      omega
    have za := z a.toInt.natAbs
    have zb := z b.toInt.natAbs
    split <;> split <;> omega
  toI32 a h1 h2 := by
    show (toTy .i32 (ofI64 a)).map (Ty.toI64 .i32) = some a
    unfold toTy
    rw [toInt_ofI64 (by omega) (by omega)]
    simp only [Option.bind_some]
    rw [if_pos (by unfold inTy; exact decide_eq_true (show (-(2 ^ 31 : Int) ≤ a.toInt ∧ a.toInt < 2 ^ 31) from ⟨by omega, by omega⟩)), ofInt_toInt']
    simp only [Option.map_some, Option.some.injEq, Ty.toI64, Ty.signed, if_true, sextB, Ty.size]
    apply BitVec.eq_of_toInt_eq
    simp only [show ¬ (4 = 1) by decide, show ¬ (4 = 2) by decide, if_false, if_true]
    rw [BitVec.toInt_signExtend_of_le (by decide), BitVec.toInt_setWidth]
    have := BitVec.toInt_eq_toNat_cond a
    rw [Int.bmod_def]
    split at this <;> omega
  toI64 a h1 h2 := by
    show toTy .i64 (ofI64 a) = some a
    unfold toTy
    rw [toInt_ofI64 (by omega) (by omega)]
    simp only [Option.bind_some]
    rw [if_pos (by unfold inTy; exact decide_eq_true (show (-(2 ^ 63 : Int) ≤ a.toInt ∧ a.toInt < 2 ^ 63) from ⟨by omega, by omega⟩)), ofInt_toInt']
  toU64 a h1 h2 := by
    show toTy .u64 (ofI64 a) = some a
    unfold toTy
    rw [toInt_ofI64 (by omega) (by omega)]
    simp only [Option.bind_some]
    rw [if_pos (by unfold inTy; exact decide_eq_true (show (0 ≤ a.toInt ∧ a.toInt < 2 ^ 64) from ⟨by omega, by omega⟩)), ofInt_toInt']

end Soft
end Cnd
