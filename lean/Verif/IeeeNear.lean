import Verif.Ieee
/-
  Rounding in double precision: the result of an operation differs from the exact one by a factor between 1 - 2^-53 and 1 + 2^-53, if the
  latter is neither too large nor, for products and quotients, too small. `Near` is this law; `Soft.ieee` has it (`Soft.ieee_near`).
-/

namespace Cnd

namespace Dbl

/-- One divided by this is the smallest normal double. -/
@[irreducible] def tiny : Nat := 2 ^ 1022

/-- Half the size of the range. -/
@[irreducible] def huge : Nat := 2 ^ 1023

end Dbl

/-- A relative error of at most 2^-53. -/
def SmallErr (e : Rat) : Prop := -(1 / 9007199254740992) ≤ e ∧ e ≤ 1 / 9007199254740992

/-- Not too large. -/
def Bounded (z : Rat) : Prop := z < (Dbl.huge : Rat) ∧ -z < (Dbl.huge : Rat)

/-- Not too small. -/
def Normal (z : Rat) : Prop := 1 ≤ z * (Dbl.tiny : Rat) ∨ 1 ≤ -z * (Dbl.tiny : Rat)

/-- IEEE 754 operations round to the nearest double. -/
structure Near (F : FloatOps) : Prop where
  add : ∀ {a b : Word} {x y : Rat}, IsDbl a x → IsDbl b y → Bounded (x + y) → ∃ e, SmallErr e ∧ IsDbl (F.add a b) ((x + y) * (1 + e))
  sub : ∀ {a b : Word} {x y : Rat}, IsDbl a x → IsDbl b y → Bounded (x - y) → ∃ e, SmallErr e ∧ IsDbl (F.sub a b) ((x - y) * (1 + e))
  mul : ∀ {a b : Word} {x y : Rat}, IsDbl a x → IsDbl b y → Bounded (x * y) → Normal (x * y) →
    ∃ e, SmallErr e ∧ IsDbl (F.mul a b) (x * y * (1 + e))
  div : ∀ {a b : Word} {x y : Rat}, IsDbl a x → IsDbl b y → y ≠ 0 → Bounded (x / y) → Normal (x / y) →
    ∃ e, SmallErr e ∧ IsDbl (F.div a b) (x / y * (1 + e))

namespace Soft
open Dbl

set_option exponentiation.threshold 3000 in
theorem unit_tiny : unit = 2 ^ 52 * tiny := by
  unfold unit tiny
  rw [← Nat.pow_add]

theorem mag_sh {Q : Nat} (sh : Nat) (h1 : 2 ^ 52 ≤ Q) (h2 : Q ≤ 2 ^ 53) : mag (sh * 2 ^ 52 + Q) = Q * 2 ^ sh := by
  rw [mag_norm (by omega)]
  by_cases h : Q = 2 ^ 53
  · subst h
    rw [show (sh * 2 ^ 52 + 2 ^ 53) % 2 ^ 52 = 0 by omega, show (sh * 2 ^ 52 + 2 ^ 53) / 2 ^ 52 - 1 = sh + 1 by omega, show 2 ^ (sh + 1) = 2 ^ sh * 2 from Nat.pow_succ 2 sh, Nat.add_zero,
      Nat.mul_comm (2 ^ sh) 2, ← Nat.mul_assoc]
  · rw [show 2 ^ 52 + (sh * 2 ^ 52 + Q) % 2 ^ 52 = Q by omega, show (sh * 2 ^ 52 + Q) / 2 ^ 52 - 1 = sh by omega]

/-- What rounding to 53 binary places does, given the number of places lost. -/
theorem round_near {n d sh : Nat} (hd : 0 < d) (h1 : 2 ^ 52 ≤ n / d / 2 ^ sh) (h2 : n / d / 2 ^ sh < 2 ^ 53) (hsh : sh ≤ 2044) (m : Nat)
    (hm : m = min (sh * 2 ^ 52 + (if d * 2 ^ sh < 2 * (n % (d * 2 ^ sh)) ∨ 2 * (n % (d * 2 ^ sh)) = d * 2 ^ sh ∧ n / (d * 2 ^ sh) % 2 = 1
      then n / (d * 2 ^ sh) + 1 else n / (d * 2 ^ sh))) (2047 * 2 ^ 52)) :
    m < 2047 * 2 ^ 52 ∧ 2 ^ 53 * (mag m * d) ≤ 2 ^ 53 * n + n ∧ 2 ^ 53 * n ≤ 2 ^ 53 * (mag m * d) + n := by
  rw [Nat.div_div_eq_div_mul] at h1 h2
  have hD : 0 < d * 2 ^ sh := Nat.mul_pos hd (Nat.two_pow_pos _)
  have hdm := Nat.div_add_mod n (d * 2 ^ sh)
  have hlt := Nat.mod_lt n hD
  have hge : d * 2 ^ sh * 2 ^ 52 ≤ d * 2 ^ sh * (n / (d * 2 ^ sh)) := Nat.mul_le_mul_left _ h1
  generalize hQ : (if d * 2 ^ sh < 2 * (n % (d * 2 ^ sh)) ∨ 2 * (n % (d * 2 ^ sh)) = d * 2 ^ sh ∧ n / (d * 2 ^ sh) % 2 = 1
      then n / (d * 2 ^ sh) + 1 else n / (d * 2 ^ sh)) = Q at hm
  have hQ1 : 2 ^ 52 ≤ Q ∧ Q ≤ 2 ^ 53 := by split at hQ <;> omega
  have hbits : sh * 2 ^ 52 + Q < 2047 * 2 ^ 52 := by omega
  rw [Nat.min_eq_left (Nat.le_of_lt hbits)] at hm
  rw [hm]
  refine ⟨hbits, ?_⟩
  rw [mag_sh sh hQ1.1 hQ1.2, Nat.mul_assoc, Nat.mul_comm (2 ^ sh) d]
  clear hm hbits hsh
  generalize d * 2 ^ sh = D at *
  generalize n / D = q at *
  generalize n % D = r at *
  split at hQ
  · subst hQ
    rw [Nat.add_mul, Nat.one_mul, Nat.mul_comm q D]
    generalize D * q = X at *
    omega
  · subst hQ
    rw [Nat.mul_comm q D]
    generalize D * q = X at *
    omega

theorem bitsOf_near {n d : Nat} (hd : 0 < d) (hlo : d = 1 ∨ 2 ^ 52 * d ≤ n) (hhi : (n / d).log2 < 2097) :
    bitsOf n d < 2047 * 2 ^ 52 ∧ 2 ^ 53 * (mag (bitsOf n d) * d) ≤ 2 ^ 53 * n + n ∧ 2 ^ 53 * n ≤ 2 ^ 53 * (mag (bitsOf n d) * d) + n := by
  by_cases hq : n / d < 2 ^ 53
  · by_cases hlow : n / d < 2 ^ 52
    · have h1 : d = 1 := by
        rcases hlo with h | h
        · exact h
        · have := (Nat.le_div_iff_mul_le hd).2 h
          omega
      subst h1
      rw [Nat.div_one] at hlow
      have hm : mag n = n := if_pos (by omega)
      have := bitsOf_mag (m := n) (d := 1) (by omega) (by omega)
      rw [hm, Nat.mul_one] at this
      rw [this, hm]
      omega
    · exact round_near (sh := 0) hd (by rw [Nat.pow_zero, Nat.div_one]; omega) (by rw [Nat.pow_zero, Nat.div_one]; omega) (by omega) _
        (by unfold bitsOf; rw [if_pos hq])
  · have h0 : n / d ≠ 0 := by omega
    have hl : (2 : Nat) ^ 53 ≤ n / d := by omega
    have h53 : 53 ≤ (n / d).log2 := (Nat.le_log2 h0).2 hl
    have hle : 2 ^ (n / d).log2 ≤ n / d := (Nat.le_log2 h0).1 (Nat.le_refl _)
    have hlt : n / d < 2 ^ ((n / d).log2 + 1) := Nat.lt_log2_self
    obtain ⟨sh, hsh⟩ : ∃ sh, (n / d).log2 = 52 + sh := ⟨(n / d).log2 - 52, by omega⟩
    refine round_near (sh := sh) hd ?_ ?_ (by omega) _ (by unfold bitsOf; rw [if_neg hq, hsh, show 52 + sh - 52 = sh by omega])
    · rw [hsh, Nat.pow_add] at hle
      exact (Nat.le_div_iff_mul_le (Nat.two_pow_pos _)).2 hle
    · rw [hsh, show 52 + sh + 1 = 53 + sh by omega, Nat.pow_add] at hlt
      exact (Nat.div_lt_iff_lt_mul (Nat.two_pow_pos _)).2 hlt

set_option exponentiation.threshold 3000 in
theorem huge_unit : huge * unit = 2 ^ 2097 := by
  unfold unit huge
  rw [← Nat.pow_add]

/-- From the bits to the number. -/
theorem near_of {b : Bool} {N : Int} {d : Nat} {z : Rat} (hd : 0 < d) (hz : z * unit * d = N) (hlo : d = 1 ∨ Normal z) (hhi : Bounded z)
    (hb1 : N < 0 → b = true) (hb2 : 0 < N → b = false) :
    ∃ e, SmallErr e ∧ IsDbl (withSign b (bitsOf N.natAbs d)) (z * (1 + e)) := by
  have hu := unit_rat
  have hdr : (0 : Rat) < d := by exact_mod_cast hd
  have habs : ((N.natAbs : Nat) : Rat) = N ∨ ((N.natAbs : Nat) : Rat) = -N := by
    rcases Int.natAbs_eq N with h | h
    · left; conv => rhs; rw [h]
      rw [Rat.intCast_natCast]
    · right; conv => rhs; rw [h]
      rw [Rat.intCast_neg, Rat.intCast_natCast]; grind
  have hn0 : (0 : Rat) ≤ ((N.natAbs : Nat) : Rat) := by exact_mod_cast Nat.zero_le _
  have hlt : N.natAbs / d < 2 ^ 2097 := by
    rw [← huge_unit, Nat.div_lt_iff_lt_mul hd]
    have : ((N.natAbs : Nat) : Rat) < ((huge * unit * d : Nat) : Rat) := by
      rw [Rat.natCast_mul, Rat.natCast_mul]
      have k1 := Rat.mul_lt_mul_of_pos_right (Rat.mul_lt_mul_of_pos_right hhi.1 hu) hdr
      have k2 := Rat.mul_lt_mul_of_pos_right (Rat.mul_lt_mul_of_pos_right hhi.2 hu) hdr
      rcases habs with h | h <;> grind
    exact_mod_cast this
  have hlog : (N.natAbs / d).log2 < 2097 := by
    by_cases h0 : N.natAbs / d = 0
    · rw [h0, Nat.log2_zero]; omega
    · exact (Nat.log2_lt h0).2 hlt
  have hlow : d = 1 ∨ 2 ^ 52 * d ≤ N.natAbs := by
    refine hlo.imp id fun h => ?_
    have : ((2 ^ 52 * d : Nat) : Rat) ≤ ((N.natAbs : Nat) : Rat) := by
      rw [Rat.natCast_mul]
      have hu2 : (unit : Rat) = ((2 ^ 52 : Nat) : Rat) * (tiny : Rat) := by rw [unit_tiny, Rat.natCast_mul]
      have h52 : (0 : Rat) ≤ ((2 ^ 52 : Nat) : Rat) * d := by rw [← Rat.natCast_mul]; exact_mod_cast Nat.zero_le _
      rcases h with h | h
      · have := Rat.mul_le_mul_of_nonneg_right h h52
        have hN : (N : Rat) = z * (tiny : Rat) * (((2 ^ 52 : Nat) : Rat) * d) := by rw [← hz, hu2]; grind
        have hpos : (0 : Rat) ≤ N := by grind
        rcases habs with g | g <;> grind
      · have := Rat.mul_le_mul_of_nonneg_right h h52
        have hN : -(N : Rat) = -z * (tiny : Rat) * (((2 ^ 52 : Nat) : Rat) * d) := by rw [← hz, hu2]; grind
        rcases habs with g | g <;> grind
    exact_mod_cast this
  obtain ⟨r1, r2, r3⟩ := bitsOf_near hd hlow hlog
  by_cases hN : N = 0
  · subst hN
    refine ⟨0, ⟨by decide +kernel, by decide +kernel⟩, withSign_fin r1, ?_⟩
    have hz0 : z = 0 := by
      rw [show ((0 : Int) : Rat) = 0 from rfl] at hz
      have h1 := unit_ne
      have h2 : (d : Rat) ≠ 0 := by grind
      clear hlo hlow hlt hlog hb1 hb2
      rcases Rat.mul_eq_zero.1 hz with h | h
      · rcases Rat.mul_eq_zero.1 h with g | g
        · exact g
        · exact absurd g h1
      · exact absurd h h2
    have hm0 : mag (bitsOf (0 : Int).natAbs d) = 0 := by
      have := bitsOf_mag (m := 0) (by omega) hd
      rw [mag_zero, Nat.zero_mul] at this
      show mag (bitsOf 0 d) = 0
      rw [this, mag_zero]
    rw [val_eq, withSign_fix r1, hm0, hz0]
    have : (if b = true then -((0 : Nat) : Int) else ((0 : Nat) : Int)) = 0 := by split <;> rfl
    rw [this]
    show (0 : Rat) = _
    grind
  · generalize bitsOf N.natAbs d = m at *
    have hNpos : (0 : Rat) < ((N.natAbs : Nat) : Rat) := by
      have : 0 < N.natAbs := by omega
      exact_mod_cast this
    have q2 : (9007199254740992 : Rat) * ((mag m : Rat) * d) ≤ 9007199254740992 * (N.natAbs : Rat) + (N.natAbs : Rat) := by
      have : ((2 ^ 53 * (mag m * d) : Nat) : Rat) ≤ ((2 ^ 53 * N.natAbs + N.natAbs : Nat) : Rat) := by exact_mod_cast r2
      rwa [Rat.natCast_mul, Rat.natCast_mul, Rat.natCast_add, Rat.natCast_mul] at this
    have q3 : 9007199254740992 * (N.natAbs : Rat) ≤ (9007199254740992 : Rat) * ((mag m : Rat) * d) + (N.natAbs : Rat) := by
      have : ((2 ^ 53 * N.natAbs : Nat) : Rat) ≤ ((2 ^ 53 * (mag m * d) + N.natAbs : Nat) : Rat) := by exact_mod_cast r3
      rwa [Rat.natCast_add, Rat.natCast_mul, Rat.natCast_mul, Rat.natCast_mul] at this
    generalize hnn : ((N.natAbs : Nat) : Rat) = n at *
    -- the error
    have herr : ∃ e, SmallErr e ∧ (mag m : Rat) * d = n * (1 + e) := by
      refine ⟨((mag m : Rat) * d - n) / n, ⟨?_, ?_⟩, by grind⟩
      · have : ((mag m : Rat) * d - n) / n * n = (mag m : Rat) * d - n := by grind
        apply Rat.le_of_mul_le_mul_right _ hNpos
        rw [this]; grind
      · have : ((mag m : Rat) * d - n) / n * n = (mag m : Rat) * d - n := by grind
        apply Rat.le_of_mul_le_mul_right _ hNpos
        rw [this]; grind
    obtain ⟨e, he, hm⟩ := herr
    refine ⟨e, he, withSign_fin r1, ?_⟩
    rw [val_eq, withSign_fix r1]
    rcases Int.lt_or_gt_of_ne hN with h | h
    · rw [hb1 h, if_pos rfl, Rat.intCast_neg, Rat.intCast_natCast]
      have hn : n = -N := by
        rcases habs with g | g
        · have : (N : Rat) < ((0 : Int) : Rat) := Rat.intCast_lt_intCast.2 h
          rw [show ((0 : Int) : Rat) = 0 from rfl] at this
          grind
        · exact g
      grind
    · rw [hb2 h]
      simp only [Bool.false_eq_true, if_false]
      rw [Rat.intCast_natCast]
      have hn : n = N := by
        rcases habs with g | g
        · exact g
        · have : ((0 : Int) : Rat) < (N : Rat) := Rat.intCast_lt_intCast.2 h
          rw [show ((0 : Int) : Rat) = 0 from rfl] at this
          grind
      grind

theorem add_near {a b : Word} {x y : Rat} (ha : IsDbl a x) (hb : IsDbl b y) (hB : Bounded (x + y)) :
    ∃ e, SmallErr e ∧ IsDbl (add a b) ((x + y) * (1 + e)) := by
  have h1 := val_eq.1 ha.2
  have h2 := val_eq.1 hb.2
  unfold add
  rw [(fin_nan ha.1).1, (fin_nan ha.1).2, (fin_nan hb.1).1, (fin_nan hb.1).2]
  simp only [Bool.or_self, Bool.false_eq_true, if_false]
  split
  · rename_i h0
    have hz : (0 : Nat) < 2047 * 2 ^ 52 := by omega
    refine ⟨0, ⟨by decide +kernel, by decide +kernel⟩, withSign_fin hz, ?_⟩
    rw [val_eq, withSign_fix hz, mag_zero]
    have e0 : (if (sgn a && sgn b) = true then -((0 : Nat) : Int) else ((0 : Nat) : Int)) = 0 := by split <;> rfl
    rw [e0]
    have : ((fix a + fix b : Int) : Rat) = 0 := by rw [h0]; rfl
    rw [Rat.intCast_add] at this
    show (0 : Rat) = _
    grind
  · exact near_of (by omega) (by rw [Rat.intCast_add, h1, h2, show ((1 : Nat) : Rat) = 1 from rfl]; grind) (.inl rfl) hB
      (fun h => decide_eq_true h) (fun h => decide_eq_false (by omega))

theorem ieee_near : Near ieee where
  add ha hb hB := add_near ha hb hB
  sub {a b x y} ha hb hB := by
    show ∃ e, SmallErr e ∧ IsDbl (sub a b) _
    unfold sub
    rw [(fin_nan hb.1).1]
    simp only [Bool.false_eq_true, if_false]
    obtain ⟨n1, n2⟩ := neg_fix hb.1
    have hn : IsDbl (neg b) (-y) := by
      refine ⟨n1, ?_⟩
      have := val_eq.1 hb.2
      rw [val_eq, n2, Rat.intCast_neg, this]
      grind
    have e : x - y = x + -y := by grind
    rw [e] at hB ⊢
    exact add_near ha hn hB
  mul {a b x y} ha hb hB hN := by
    have h1 := val_eq.1 ha.2
    have h2 := val_eq.1 hb.2
    show ∃ e, SmallErr e ∧ IsDbl (mul a b) _
    unfold mul
    rw [(fin_nan ha.1).1, (fin_nan ha.1).2, (fin_nan hb.1).1, (fin_nan hb.1).2]
    simp only [Bool.or_self, Bool.false_eq_true, if_false]
    exact near_of unit_pos (by rw [Rat.intCast_mul, h1, h2]; grind) (.inr hN) hB sgn_mul.1 sgn_mul.2
  div {a b x y} ha hb hy hB hN := by
    have h1 := val_eq.1 ha.2
    have h2 := val_eq.1 hb.2
    have h0 : fix b ≠ 0 := by
      intro h
      rw [h] at h2
      have : (0 : Rat) = y * unit := by rw [← h2]; rfl
      have := unit_ne
      grind
    show ∃ e, SmallErr e ∧ IsDbl (div a b) _
    unfold div
    rw [(fin_nan ha.1).1, (fin_nan ha.1).2, (fin_nan hb.1).1, (fin_nan hb.1).2]
    simp only [Bool.or_self, Bool.false_eq_true, if_false, h0]
    have hu : (0 : Int) < unit := by have := unit_pos; omega
    have hun := unit_ne
    have hs := sgn_mul (a := a) (b := b)
    rcases Int.lt_or_gt_of_ne h0 with g | g
    · have e : (fix a * unit).natAbs = (-(fix a * unit)).natAbs := by omega
      rw [e]
      refine near_of (N := -(fix a * unit)) (by omega) ?_ (.inr hN) hB (fun h => hs.1 ?_) (fun h => hs.2 ?_)
      · have : (((fix b).natAbs : Nat) : Rat) = -(fix b : Rat) := by
          have : (fix b) = -((fix b).natAbs : Int) := by omega
          conv => rhs; rw [this]
          rw [Rat.intCast_neg, Rat.intCast_natCast]; grind
        rw [this, Rat.intCast_neg, Rat.intCast_mul, Rat.intCast_natCast, h1, h2]
        grind
      · exact Int.mul_neg_of_pos_of_neg ((pos_of_mul hu).2.1 (by omega)) g
      · exact Int.mul_pos_of_neg_of_neg ((pos_of_mul hu).1.1 (by omega)) g
    · refine near_of (N := fix a * unit) (by omega) ?_ (.inr hN) hB (fun h => hs.1 ?_) (fun h => hs.2 ?_)
      · have : (((fix b).natAbs : Nat) : Rat) = (fix b : Rat) := by
          have : (fix b) = ((fix b).natAbs : Int) := by omega
          conv => rhs; rw [this]
          rw [Rat.intCast_natCast]
        rw [this, Rat.intCast_mul, Rat.intCast_natCast, h1, h2]
        grind
      · exact Int.mul_neg_of_neg_of_pos ((pos_of_mul hu).1.1 h) g
      · exact Int.mul_pos ((pos_of_mul hu).2.1 h) g

end Soft
end Cnd
