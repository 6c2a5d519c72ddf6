import Verif.IeeeNear
import Verif.Props.Curves
/-
  C83 with rounding: what comes back through `@scale` is the number or its neighbour towards 0.
-/

namespace Cnd

/-- Between -c and c. -/
def Within (x c : Rat) : Prop := -c ≤ x ∧ x ≤ c

theorem Within.mul {x y c d : Rat} (hx : Within x c) (hy : Within y d) : Within (x * y) (c * d) := by
  obtain ⟨h1, h2⟩ := hx
  obtain ⟨h3, h4⟩ := hy
  have k1 : 0 ≤ (c - x) * (d + y) := Rat.mul_nonneg (by grind) (by grind)
  have k2 : 0 ≤ (c + x) * (d - y) := Rat.mul_nonneg (by grind) (by grind)
  have k3 : 0 ≤ (c - x) * (d - y) := Rat.mul_nonneg (by grind) (by grind)
  have k4 : 0 ≤ (c + x) * (d + y) := Rat.mul_nonneg (by grind) (by grind)
  constructor <;> grind

theorem bounded_mul {A K X : Rat} (h : Bounded (A * K)) (hX : Within X K) : Bounded (A * X) := by
  obtain ⟨h1, h2⟩ := h
  obtain ⟨x1, x2⟩ := hX
  rcases Rat.le_total (a := 0) (b := A) with g | g
  · have k1 : 0 ≤ A * (K - X) := Rat.mul_nonneg g (by grind)
    have k2 : 0 ≤ A * (K + X) := Rat.mul_nonneg g (by grind)
    constructor <;> grind
  · have k1 : 0 ≤ -A * (K - X) := Rat.mul_nonneg (by grind) (by grind)
    have k2 : 0 ≤ -A * (K + X) := Rat.mul_nonneg (by grind) (by grind)
    constructor <;> grind

set_option exponentiation.threshold 3000 in
theorem tiny_ge : 2 ≤ Dbl.tiny := by
  unfold Dbl.tiny
  exact Nat.pow_le_pow_right (n := 2) (by omega) (show 1 ≤ 1022 by omega)

set_option exponentiation.threshold 3000 in
theorem tiny_big : 2 ^ 60 ≤ Dbl.tiny := by
  unfold Dbl.tiny
  exact Nat.pow_le_pow_right (n := 2) (by omega) (show 60 ≤ 1022 by omega)

set_option exponentiation.threshold 3000 in
theorem huge_big : 2 ^ 60 * 2 ^ 60 < Dbl.huge := by
  unfold Dbl.huge
  rw [← Nat.pow_add]
  exact Nat.pow_lt_pow_right (a := 2) (by omega) (show 60 + 60 < 1023 by omega)

set_option exponentiation.threshold 3000 in
theorem huge_gt : 2 ^ 60 < Dbl.huge := by
  unfold Dbl.huge
  exact Nat.pow_lt_pow_right (a := 2) (by omega) (show 60 < 1023 by omega)

/-- Factors between 2^-60 and 2^60 in size. -/
theorem plain_factor {A : Rat} (h : (1 : Rat) ≤ A * 1152921504606846976 ∧ A ≤ 1152921504606846976 ∨
    (1 : Rat) ≤ -A * 1152921504606846976 ∧ -A ≤ 1152921504606846976) : Normal A ∧ Bounded (A * 1152921504606846976) := by
  have h1 : (1152921504606846976 : Rat) ≤ (Dbl.tiny : Rat) := by exact_mod_cast tiny_big
  have h2 : (1152921504606846976 * 1152921504606846976 : Rat) < (Dbl.huge : Rat) := by exact_mod_cast huge_big
  unfold Normal Bounded
  generalize (Dbl.tiny : Rat) = t at *
  generalize (Dbl.huge : Rat) = u at *
  rcases h with ⟨g1, g2⟩ | ⟨g1, g2⟩
  · have : 0 ≤ A * (t - 1152921504606846976) := Rat.mul_nonneg (by grind) (by grind)
    exact ⟨.inl (by grind), by grind, by grind⟩
  · have : 0 ≤ -A * (t - 1152921504606846976) := Rat.mul_nonneg (by grind) (by grind)
    exact ⟨.inr (by grind), by grind, by grind⟩

theorem normal_mul {A X : Rat} (h : Normal A) (hX : 1 ≤ X ∨ X ≤ -1) : Normal (A * X) := by
  have ht : (0 : Rat) ≤ (Dbl.tiny : Rat) := by exact_mod_cast Nat.zero_le _
  unfold Normal at *
  generalize (Dbl.tiny : Rat) = t at *
  rcases h with h | h <;> rcases hX with g | g
  · have : 0 ≤ A * t * (X - 1) := Rat.mul_nonneg (by grind) (by grind)
    left; grind
  · have : 0 ≤ A * t * (-X - 1) := Rat.mul_nonneg (by grind) (by grind)
    right; grind
  · have : 0 ≤ -A * t * (X - 1) := Rat.mul_nonneg (by grind) (by grind)
    right; grind
  · have : 0 ≤ -A * t * (-X - 1) := Rat.mul_nonneg (by grind) (by grind)
    left; grind

theorem normal_half {X : Rat} (hX : 1 / 2 ≤ X ∨ X ≤ -(1 / 2)) : Normal X := by
  have ht : (2 : Rat) ≤ (Dbl.tiny : Rat) := by exact_mod_cast tiny_ge
  unfold Normal
  generalize (Dbl.tiny : Rat) = t at *
  rcases hX with h | h
  · have : 0 ≤ (X - 1 / 2) * t := Rat.mul_nonneg (by grind) (by grind)
    left; grind
  · have : 0 ≤ (-X - 1 / 2) * t := Rat.mul_nonneg (by grind) (by grind)
    right; grind

theorem SmallErr.within {e : Rat} (h : SmallErr e) : Within e (1 / 9007199254740992) := h

/-- Numbers other than 0 have one form. -/
theorem dbl_unique {w w' : Word} {y : Rat} (h : IsDbl w y) (h' : IsDbl w' y) (hy : y ≠ 0) : w = w' := by
  have k1 := ((Soft.val_le h h').trans (Soft.ord_fix h.1 h'.1).symm).1 Rat.le_refl
  have k2 := ((Soft.val_le h' h).trans (Soft.ord_fix h'.1 h.1).symm).1 Rat.le_refl
  have hz : Soft.ord w ≠ 0 := by
    intro h0
    have hw0 : Soft.ord 0 = 0 := by decide
    apply hy
    apply Rat.le_antisymm
    · exact ((Soft.val_le h zero_is).trans (Soft.ord_fix h.1 zero_is.1).symm).2 (by omega)
    · exact ((Soft.val_le zero_is h).trans (Soft.ord_fix zero_is.1 h.1).symm).2 (by omega)
  apply BitVec.eq_of_toNat_eq
  unfold Soft.ord at *
  have := w.isLt
  have := w'.isLt
  split at k1 <;> split at k1 <;> simp_all <;> omega

/-- What is left of `r` after some small error, cut: itself or its neighbour towards 0. -/
theorem cut_near {x : Rat} {r : Int} (hr : r ≠ 0) (h : Within (x - r) (1 / 2)) :
    ∃ i, Cut x i ∧ (i = r ∨ 0 < r ∧ i = r - 1 ∨ r < 0 ∧ i = r + 1) := by
  obtain ⟨h1, h2⟩ := h
  by_cases hp : 0 < r
  · by_cases hx : (r : Rat) ≤ x
    · exact ⟨r, .inl ⟨by omega, hx, by grind⟩, .inl rfl⟩
    · refine ⟨r - 1, .inl ⟨by omega, ?_, ?_⟩, .inr (.inl ⟨hp, rfl⟩)⟩ <;> rw [Rat.intCast_sub, show ((1 : Int) : Rat) = 1 from rfl] <;> grind
  · by_cases hx : x ≤ (r : Rat)
    · exact ⟨r, .inr ⟨by omega, by grind, hx⟩, .inl rfl⟩
    · refine ⟨r + 1, .inr ⟨by omega, ?_, ?_⟩, .inr (.inr ⟨by omega, rfl⟩)⟩ <;> rw [Rat.intCast_add, show ((1 : Int) : Rat) = 1 from rfl] <;> grind

theorem holds_towards {t : Ty} {r i : Int} (ht : t.holds r) (h : i = r ∨ 0 < r ∧ i = r - 1 ∨ r < 0 ∧ i = r + 1) : t.holds i := by
  cases t <;> simp only [Ty.holds, Ty.signed, Ty.size, Bool.false_eq_true, if_false, if_true] at * <;> omega

/-- **C83, scalings with rounding.** Any factor and offset: decoding gives r times the factor, plus the offset, up to two roundings, and encoding
that value gives the same field or its neighbour towards 0 (which does happen, `C83_false_scale`). Missing: factors smaller than 2^-1022,
numbers and quotients offset / factor beyond 2^48. -/
theorem C83_scale_near_partial {F : FloatOps} (hF : Ieee F) (hN : Near F) {a b : Word} {A B : Rat} (ha : IsDbl a A) (hb : IsDbl b B)
    (hA : Normal A) (hA2 : Bounded (A * 1152921504606846976)) (hB : Within (B / A) 281474976710656) (t : Ty) (r : Int) (ht : t.holds r)
    (hr : r.natAbs ≤ 2 ^ 48) :
    ∃ y i e1 e2, CReads F (.scale a b) t r y ∧ CWrites F (.scale a b) t i y ∧ SmallErr e1 ∧ SmallErr e2 ∧ y = (r * A * (1 + e1) + B) * (1 + e2) ∧
      (i = r ∨ 0 < r ∧ i = r - 1 ∨ r < 0 ∧ i = r + 1) := by
  have hA0 : A ≠ 0 := by
    unfold Normal at hA
    intro h
    rw [h] at hA
    grind
  have hrep : Rep (r : Rat) := rep_int (by omega)
  by_cases hr0 : r = 0
  · subst hr0
    have e0 : ((0 : Int) : Rat) * A = 0 := by rw [show ((0 : Int) : Rat) = 0 from rfl]; grind
    have e1 : ((0 : Int) : Rat) * A + B = B := by rw [e0]; grind
    obtain ⟨k1, k2⟩ := C83_scale_partial hF ha hb hA0 t 0 ht hrep (by rw [e0]; exact ⟨0, zero_is⟩) (by rw [e1]; exact ⟨_, hb⟩)
    exact ⟨_, 0, 0, 0, k1, k2, ⟨by decide +kernel, by decide +kernel⟩, ⟨by decide +kernel, by decide +kernel⟩, by grind, .inl rfl⟩
  have hd := asDouble_is hF ht hrep
  have hr1 : (1 : Rat) ≤ r ∨ (r : Rat) ≤ -1 := by
    rcases Int.lt_or_gt_of_ne hr0 with h | h
    · right
      have : (r : Rat) ≤ ((-1 : Int) : Rat) := Rat.intCast_le_intCast.2 (by omega)
      exact this
    · left
      have : ((1 : Int) : Rat) ≤ (r : Rat) := Rat.intCast_le_intCast.2 (by omega)
      exact this
  have hrw : Within (r : Rat) 281474976710656 := by
    have k1 : ((-281474976710656 : Int) : Rat) ≤ (r : Rat) := Rat.intCast_le_intCast.2 (by omega)
    have k2 : (r : Rat) ≤ ((281474976710656 : Int) : Rat) := Rat.intCast_le_intCast.2 (by omega)
    exact ⟨k1, k2⟩
  generalize hRR : (r : Rat) = R at *
  obtain ⟨β, hβ⟩ : ∃ β, β = B / A := ⟨_, rfl⟩
  have hBA : B = A * β := by rw [hβ]; grind
  rw [← hβ] at hB
  -- decoding
  have c1 : R * A = A * R := by grind
  obtain ⟨e1, he1, d1⟩ := hN.mul hd ha (by rw [c1]; exact bounded_mul hA2 ⟨by have := hrw.1; grind, by have := hrw.2; grind⟩)
    (by rw [c1]; exact normal_mul hA hr1)
  have w1 := hrw.mul he1.within
  have c2 : R * A * (1 + e1) + B = A * (R + R * e1 + β) := by rw [hBA]; grind
  generalize hT : R + R * e1 + β = T at c2
  have wT : Within T 1125899906842624 := by
    obtain ⟨q1, q2⟩ := w1; obtain ⟨q3, q4⟩ := hrw; obtain ⟨q5, q6⟩ := hB
    constructor <;> grind
  obtain ⟨e2, he2, d2⟩ := hN.add d1 hb (by rw [c2]; exact bounded_mul hA2 ⟨by have := wT.1; grind, by have := wT.2; grind⟩)
  have w2 := wT.mul he2.within
  -- encoding
  have c3 : (R * A * (1 + e1) + B) * (1 + e2) - B = A * (R + R * e1 + T * e2) := by rw [c2, hBA, ← hT]; grind
  generalize hX : R + R * e1 + T * e2 = X at c3
  have wX : Within X 562949953421312 := by
    obtain ⟨q1, q2⟩ := w1; obtain ⟨q3, q4⟩ := hrw; obtain ⟨q5, q6⟩ := w2
    constructor <;> grind
  have enc : ∃ i, (i = r ∨ 0 < r ∧ i = r - 1 ∨ r < 0 ∧ i = r + 1) ∧ CWrites F (.scale a b) t i ((R * A * (1 + e1) + B) * (1 + e2)) := by
    obtain ⟨w0, hw0⟩ : ∃ w0, IsDbl w0 ((R * A * (1 + e1) + B) * (1 + e2)) := ⟨_, d2⟩
    -- the result does not depend on the form of the double
    have huniq : ∀ w, IsDbl w ((R * A * (1 + e1) + B) * (1 + e2)) → F.div (F.sub w b) a = F.div (F.sub w0 b) a := by
      intro w hw
      by_cases hy : (R * A * (1 + e1) + B) * (1 + e2) = 0
      · rw [hy] at hw hw0 c3
        have hB0 : B ≠ 0 := by
          intro h0
          have hβ0 : β = 0 := by rw [hβ, h0]; grind
          have hX0 : A * X = 0 := by rw [← c3, h0]; grind
          have hX1 : X = 0 := by
            rcases Rat.mul_eq_zero.1 hX0 with g | g
            · exact absurd g hA0
            · exact g
          obtain ⟨q1, q2⟩ := w1; obtain ⟨q5, q6⟩ := w2
          rcases hr1 with g | g <;> grind
        have en : 0 - B = -B := by grind
        have s1 := hF.sub hw hb (by rw [en]; exact rep_neg ⟨_, hb⟩)
        have s2 := hF.sub hw0 hb (by rw [en]; exact rep_neg ⟨_, hb⟩)
        rw [dbl_unique s1 s2 (by grind)]
      · rw [dbl_unique hw hw0 hy]
    obtain ⟨e3, he3, d3⟩ := hN.sub hw0 hb (by rw [c3]; exact bounded_mul hA2 ⟨by have := wX.1; grind, by have := wX.2; grind⟩)
    have w3 := wX.mul he3.within
    rw [c3] at d3
    have c4 : A * X * (1 + e3) / A = X + X * e3 := by grind
    generalize hZ : X + X * e3 = Z at c4
    have wZ : Within Z 1125899906842624 := by
      obtain ⟨q1, q2⟩ := w3; obtain ⟨q3, q4⟩ := wX
      constructor <;> grind
    have hhuge : (1152921504606846976 : Rat) < (Dbl.huge : Rat) := by exact_mod_cast huge_gt
    obtain ⟨e4, he4, d4⟩ := hN.div d3 ha hA0 (by rw [c4]; obtain ⟨q1, q2⟩ := wZ; constructor <;> grind)
      (by rw [c4]; apply normal_half
          obtain ⟨q1, q2⟩ := w1; obtain ⟨q3, q4⟩ := w2; obtain ⟨q5, q6⟩ := w3
          rcases hr1 with g | g
          · left; grind
          · right; grind)
    have w4 := wZ.mul he4.within
    rw [c4] at d4
    obtain ⟨i, hc, hi⟩ := cut_near (x := Z * (1 + e4)) hr0 (by
      rw [hRR]
      obtain ⟨q1, q2⟩ := w1; obtain ⟨q3, q4⟩ := w2; obtain ⟨q5, q6⟩ := w3; obtain ⟨q7, q8⟩ := w4
      constructor <;> grind)
    refine ⟨i, hi, cwrites_of rfl fun w hw => ?_⟩
    show F.toTy t (F.div (F.sub w b) a) = _
    rw [huniq w hw]
    exact hF.toTy d4 hc (inTy_of (holds_towards ht hi))
  obtain ⟨i, hi, hw⟩ := enc
  exact ⟨_, i, e1, e2, creads_of rfl d2, hw, he1, he2, rfl, hi⟩

/-- Every i32 under `@scale(0.01) @offset(-40)`. -/
example (r : Int) (h0 : -2147483648 ≤ r) (h : r < 2147483648) :
    ∃ y i e1 e2, CReads Soft.ieee (.scale 0x3F847AE147AE147B 0xC044000000000000) .i32 r y ∧
      CWrites Soft.ieee (.scale 0x3F847AE147AE147B 0xC044000000000000) .i32 i y ∧ SmallErr e1 ∧ SmallErr e2 ∧
      y = (r * Dbl.val 0x3F847AE147AE147B * (1 + e1) + -40) * (1 + e2) ∧ (i = r ∨ 0 < r ∧ i = r - 1 ∨ r < 0 ∧ i = r + 1) := by
  obtain ⟨k1, k2⟩ := plain_factor (A := Dbl.val 0x3F847AE147AE147B) (by decide +kernel)
  exact C83_scale_near_partial Soft.ieee_law Soft.ieee_near ⟨by decide, rfl⟩ ⟨by decide, by decide +kernel⟩ k1 k2
    ⟨by decide +kernel, by decide +kernel⟩ .i32 r (by simp only [Ty.holds, Ty.signed, Ty.size, if_true]; omega) (by omega)

end Cnd
