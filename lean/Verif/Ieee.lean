import Verif.Soft
/-
  What double-precision arithmetic means (IEEE 754, used by vm_exec.c 17-96 and the transforms): which number the bits of a double
  denote, and the law that an operation whose exact result is a double gives that double. Theorems assume the law (`Ieee`). Below it
  is shown of an implementation in software with rounding to nearest, ties to even (`Soft.ieee`), which examples use.
-/

namespace Cnd

namespace Dbl

/-- The size of the double with the bits `m` (without sign), in units of 2^-1074: exponent and fraction. -/
def mag (m : Nat) : Nat := if m / 2 ^ 52 = 0 then m else (2 ^ 52 + m % 2 ^ 52) * 2 ^ (m / 2 ^ 52 - 1)

/-- With its sign, bit 63. -/
def fix (w : Word) : Int := if w.toNat < 2 ^ 63 then (mag w.toNat : Int) else -(mag (w.toNat - 2 ^ 63) : Int)

/-- The smallest positive double is one divided by this. -/
@[irreducible] def unit : Nat := 2 ^ 1074

def val (w : Word) : Rat := (fix w : Rat) / (unit : Rat)

/-- Neither an infinity nor NaN: their exponent bits are all one. -/
def finite (w : Word) : Prop := w.toNat % 2 ^ 63 < 2047 * 2 ^ 52

instance (w : Word) : Decidable (finite w) := inferInstanceAs (Decidable (_ < _))

end Dbl

/-- The double `w` is the number `r`. -/
def IsDbl (w : Word) (r : Rat) : Prop := Dbl.finite w ∧ Dbl.val w = r

/-- `r` is a double. -/
def Rep (r : Rat) : Prop := ∃ w, IsDbl w r

/-- `i` is `x` without its fraction. -/
def Cut (x : Rat) (i : Int) : Prop := (0 ≤ i ∧ (i : Rat) ≤ x ∧ x < (i : Rat) + 1) ∨ (i ≤ 0 ∧ (i : Rat) - 1 < x ∧ x ≤ (i : Rat))

/-- The part of IEEE 754 that is used: exact results are exact, comparisons are those of numbers, conversions to integers cut off. -/
structure Ieee (F : FloatOps) : Prop where
  add : ∀ {a b : Word} {x y : Rat}, IsDbl a x → IsDbl b y → Rep (x + y) → IsDbl (F.add a b) (x + y)
  sub : ∀ {a b : Word} {x y : Rat}, IsDbl a x → IsDbl b y → Rep (x - y) → IsDbl (F.sub a b) (x - y)
  mul : ∀ {a b : Word} {x y : Rat}, IsDbl a x → IsDbl b y → Rep (x * y) → IsDbl (F.mul a b) (x * y)
  div : ∀ {a b : Word} {x y : Rat}, IsDbl a x → IsDbl b y → y ≠ 0 → Rep (x / y) → IsDbl (F.div a b) (x / y)
  lt : ∀ {a b : Word} {x y : Rat}, IsDbl a x → IsDbl b y → (F.lt a b = true ↔ x < y)
  le : ∀ {a b : Word} {x y : Rat}, IsDbl a x → IsDbl b y → (F.le a b = true ↔ x ≤ y)
  eq : ∀ {a b : Word} {x y : Rat}, IsDbl a x → IsDbl b y → (F.eq a b = true ↔ x = y)
  ofI64 : ∀ {w : Word}, Rep (w.toInt : Rat) → IsDbl (F.ofI64 w) (w.toInt : Rat)
  ofU64 : ∀ {w : Word}, Rep ((w.toNat : Int) : Rat) → IsDbl (F.ofU64 w) ((w.toNat : Int) : Rat)
  toTy : ∀ {t : Ty} {d : Word} {x : Rat} {i : Int}, IsDbl d x → Cut x i → Soft.inTy t i = true → F.toTy t d = some (BitVec.ofInt 64 i)

namespace Soft
open Dbl

/-- The bits of the double nearest to n/d (in units of 2^-1074): `sh` places are lost. -/
def bitsOf (n d : Nat) : Nat :=
  let sh := if n / d < 2 ^ 53 then 0 else (n / d).log2 - 52
  let D := d * 2 ^ sh
  let q := n / D
  let r := n % D
  min (sh * 2 ^ 52 + (if D < 2 * r ∨ 2 * r = D ∧ q % 2 = 1 then q + 1 else q)) (2047 * 2 ^ 52)

def withSign (neg : Bool) (bits : Nat) : Word := BitVec.ofNat 64 ((if neg then 2 ^ 63 else 0) + bits)

def sgn (w : Word) : Bool := decide (2 ^ 63 ≤ w.toNat)
def inf (w : Word) : Bool := decide (w.toNat % 2 ^ 63 = 0x7FF0000000000000)
def aNan : Word := 0x7FF8000000000000

/-- n/d in units of 2^-1074. -/
def ofFrac (n : Int) (d : Nat) : Word := withSign (decide (n < 0)) (bitsOf n.natAbs d)

/-- The sign bit changed. -/
def neg (a : Word) : Word := a + 0x8000000000000000

def add (a b : Word) : Word :=
  if nan a || nan b then aNan
  else if inf a then (if inf b && (sgn a != sgn b) then aNan else a)
  else if inf b then b
  else if fix a + fix b = 0 then withSign (sgn a && sgn b) 0
  else ofFrac (fix a + fix b) 1

def sub (a b : Word) : Word := if nan b then aNan else add a (neg b)

def mul (a b : Word) : Word :=
  if nan a || nan b then aNan
  else if inf a || inf b then (if fix a = 0 ∨ fix b = 0 then aNan else withSign (sgn a != sgn b) 0x7FF0000000000000)
  else withSign (sgn a != sgn b) (bitsOf (fix a * fix b).natAbs unit)

def div (a b : Word) : Word :=
  if nan a || nan b then aNan
  else if inf a then (if inf b then aNan else withSign (sgn a != sgn b) 0x7FF0000000000000)
  else if inf b then withSign (sgn a != sgn b) 0
  else if fix b = 0 then (if fix a = 0 then aNan else withSign (sgn a != sgn b) 0x7FF0000000000000)
  else withSign (sgn a != sgn b) (bitsOf (fix a * unit).natAbs (fix b).natAbs)

def cut (d : Word) : Option Int := if finite d then some ((fix d).tdiv unit) else none

/-- Double precision in software. Sine and so on are left out. -/
def ieee : FloatOps :=
  { Demo.fl with
    add := add, sub := sub, mul := mul, div := div, neg := neg,
    eq := fun a b => !nan a && !nan b && decide (ord a = ord b),
    lt := fun a b => !nan a && !nan b && decide (ord a < ord b),
    le := le,
    ofI64 := fun w => ofFrac (w.toInt * unit) 1,
    ofU64 := fun w => ofFrac (w.toNat * unit) 1,
    toTy := fun t d => (cut d).bind fun i => if inTy t i then some (BitVec.ofInt 64 i) else none }

/-- 0.1 + 0.2 and 0.29 / 0.01 come out as everywhere. -/
example : add 0x3FB999999999999A 0x3FC999999999999A = 0x3FD3333333333334 ∧ div 0x3FD28F5C28F5C28F 0x3F847AE147AE147B = 0x403CFFFFFFFFFFFF ∧
    mul 0x403D000000000000 0x3F847AE147AE147B = 0x3FD28F5C28F5C28F ∧ div 0x3FF0000000000000 0x4008000000000000 = 0x3FD5555555555555 := by decide +kernel

/-! ### The law holds -/

theorem mag_zero : mag 0 = 0 := by decide

theorem mag_norm {m : Nat} (h : m / 2 ^ 52 ≠ 0) : mag m = (2 ^ 52 + m % 2 ^ 52) * 2 ^ (m / 2 ^ 52 - 1) := if_neg h

theorem log2_shift {s k : Nat} (h1 : 2 ^ 52 ≤ s) (h2 : s < 2 ^ 53) : (s * 2 ^ k).log2 = 52 + k := by
  have h0 : s * 2 ^ k ≠ 0 := Nat.ne_of_gt (Nat.mul_pos (by omega) (Nat.pow_pos (by omega)))
  refine (Nat.log2_eq_iff h0).2 ⟨?_, ?_⟩
  · rw [Nat.pow_add]; exact Nat.mul_le_mul_right _ h1
  · rw [show 52 + k + 1 = 53 + k by omega, Nat.pow_add]; exact Nat.mul_lt_mul_of_pos_right h2 (Nat.pow_pos (by omega))

/-- Rounding changes no double. -/
theorem bitsOf_mag {m d : Nat} (hm : m < 2047 * 2 ^ 52) (hd : 0 < d) : bitsOf (mag m * d) d = m := by
  unfold bitsOf
  rw [Nat.mul_div_cancel _ hd]
  by_cases h : m / 2 ^ 52 ≤ 1
  · have e : mag m = m := by
      unfold mag
      split
      · rfl
      · rw [show m / 2 ^ 52 - 1 = 0 by omega]; omega
    rw [e, if_pos (by omega)]
    simp only [Nat.pow_zero, Nat.mul_one, Nat.mul_div_cancel _ hd, Nat.mul_mod_left]
    rw [if_neg (by omega)]
    omega
  · have e := mag_norm (m := m) (by omega)
    generalize hs : 2 ^ 52 + m % 2 ^ 52 = s at e
    generalize hk : m / 2 ^ 52 - 1 = k at e
    have hl := log2_shift (s := s) (k := k) (by omega) (by omega)
    have hge : ¬ s * 2 ^ k < 2 ^ 53 := by
      have : 2 ^ 1 ≤ 2 ^ k := Nat.pow_le_pow_right (by omega) (by omega)
      have := Nat.mul_le_mul (show 2 ^ 52 ≤ s by omega) this
      omega
    rw [e, if_neg hge, hl, show 52 + k - 52 = k by omega]
    have hp : 0 < d * 2 ^ k := Nat.mul_pos hd (Nat.pow_pos (by omega))
    rw [show s * 2 ^ k * d = s * (d * 2 ^ k) by rw [Nat.mul_assoc, Nat.mul_comm (2 ^ k)]]
    have hm' : k * 2 ^ 52 + s = m := by omega
    clear hs hk e hl hge
    dsimp only
    rw [Nat.mul_div_cancel _ hp, Nat.mul_mod_left]
    generalize d * 2 ^ k = D at hp ⊢
    rw [if_neg (by omega), hm']
    exact Nat.min_eq_left (Nat.le_of_lt hm)

theorem withSign_toNat {b : Bool} {m : Nat} (hm : m < 2047 * 2 ^ 52) : (withSign b m).toNat = (if b then 2 ^ 63 else 0) + m := by
  unfold withSign
  rw [BitVec.toNat_ofNat]
  cases b <;> simp only [Bool.false_eq_true, if_false, if_true] <;> omega

theorem withSign_fin {b : Bool} {m : Nat} (hm : m < 2047 * 2 ^ 52) : finite (withSign b m) := by
  unfold finite
  rw [withSign_toNat hm]
  cases b <;> simp only [Bool.false_eq_true, if_false, if_true] <;> omega

theorem withSign_fix {b : Bool} {m : Nat} (hm : m < 2047 * 2 ^ 52) : fix (withSign b m) = if b then -(mag m : Int) else (mag m : Int) := by
  unfold fix
  rw [withSign_toNat hm]
  cases b
  · rw [if_pos (by simp only [Bool.false_eq_true, if_false]; omega)]
    simp
  · rw [if_neg (by simp only [if_true]; omega), if_pos rfl]
    simp

theorem fix_abs (w : Word) : (fix w).natAbs = mag (w.toNat % 2 ^ 63) := by
  unfold fix
  have := w.isLt
  split
  · rw [show w.toNat % 2 ^ 63 = w.toNat by omega]; omega
  · rw [show w.toNat % 2 ^ 63 = w.toNat - 2 ^ 63 by omega]; omega

theorem fix_neg {w : Word} (h : fix w < 0) : sgn w = true := by
  unfold fix at h
  unfold sgn
  split at h
  · omega
  · exact decide_eq_true (by omega)

theorem fix_pos {w : Word} (h : 0 < fix w) : sgn w = false := by
  unfold fix at h
  unfold sgn
  split at h
  · exact decide_eq_false (by omega)
  · omega

set_option exponentiation.threshold 2000 in
theorem unit_pos : 0 < unit := by unfold unit; exact Nat.two_pow_pos _

theorem unit_ne : (unit : Rat) ≠ 0 := by
  have := unit_pos
  intro h
  have : unit = 0 := by exact_mod_cast h
  omega

theorem val_eq {a : Word} {x : Rat} : val a = x ↔ (fix a : Rat) = x * unit := by
  have := unit_ne
  unfold val
  grind

/-- The double with the size of `c` and the right sign. -/
theorem sized {b : Bool} {c : Word} {N : Int} {n d : Nat} (hc : finite c) (hN : N = fix c) (hd : 0 < d) (hn : n = N.natAbs * d)
    (hb1 : N < 0 → b = true) (hb2 : 0 < N → b = false) : finite (withSign b (bitsOf n d)) ∧ fix (withSign b (bitsOf n d)) = fix c := by
  rw [hn, hN, fix_abs, bitsOf_mag hc hd]
  refine ⟨withSign_fin hc, ?_⟩
  rw [withSign_fix hc, ← fix_abs]
  subst hN
  cases b
  · have := fun h => hb1 h
    simp only [Bool.false_eq_true, if_false, imp_false] at this ⊢
    omega
  · have := fun h => hb2 h
    simp only [Bool.true_eq_false, if_true, imp_false] at this ⊢
    omega

theorem ofFrac_is {c : Word} (hc : finite c) : finite (ofFrac (fix c) 1) ∧ fix (ofFrac (fix c) 1) = fix c :=
  sized hc rfl (by omega) (by omega) (fun h => decide_eq_true h) (fun h => decide_eq_false (by omega))

theorem fin_nan {w : Word} (h : finite w) : nan w = false ∧ inf w = false := by
  unfold finite at h
  exact ⟨decide_eq_false (by omega), decide_eq_false (by omega)⟩

theorem add_fix {a b c : Word} (ha : finite a) (hb : finite b) (hc : finite c) (h : fix c = fix a + fix b) :
    finite (add a b) ∧ fix (add a b) = fix c := by
  unfold add
  rw [(fin_nan ha).1, (fin_nan ha).2, (fin_nan hb).1, (fin_nan hb).2, ← h]
  simp only [Bool.or_self, Bool.false_eq_true, if_false]
  split
  · rename_i h0
    have hz : (0 : Nat) < 2047 * 2 ^ 52 := by omega
    refine ⟨withSign_fin hz, ?_⟩
    rw [withSign_fix hz, h0, mag_zero]
    split <;> rfl
  · exact ofFrac_is hc

theorem neg_toNat (b : Word) : (neg b).toNat = if b.toNat < 2 ^ 63 then b.toNat + 2 ^ 63 else b.toNat - 2 ^ 63 := by
  have := b.isLt
  unfold neg
  rw [BitVec.toNat_add, show (0x8000000000000000 : Word).toNat = 2 ^ 63 from rfl]
  split <;> omega

theorem neg_fix {b : Word} (hb : finite b) : finite (neg b) ∧ fix (neg b) = -fix b := by
  have := b.isLt
  have e := neg_toNat b
  unfold finite at hb ⊢
  unfold fix
  by_cases h : b.toNat < 2 ^ 63
  · rw [if_pos h] at e
    refine ⟨by omega, ?_⟩
    rw [if_neg (by omega), if_pos h, e, show b.toNat + 2 ^ 63 - 2 ^ 63 = b.toNat by omega]
  · rw [if_neg h] at e
    refine ⟨by omega, ?_⟩
    rw [if_pos (by omega), if_neg h, e]
    omega

theorem sub_fix {a b c : Word} (ha : finite a) (hb : finite b) (hc : finite c) (h : fix c = fix a - fix b) :
    finite (sub a b) ∧ fix (sub a b) = fix c := by
  unfold sub
  rw [(fin_nan hb).1]
  simp only [Bool.false_eq_true, if_false]
  obtain ⟨n1, n2⟩ := neg_fix hb
  exact add_fix ha n1 hc (by rw [n2]; omega)

theorem sgn_mul {a b : Word} : (fix a * fix b < 0 → (sgn a != sgn b) = true) ∧ (0 < fix a * fix b → (sgn a != sgn b) = false) := by
  rcases Int.lt_trichotomy (fix a) 0 with h | h | h
  · rcases Int.lt_trichotomy (fix b) 0 with g | g | g
    · have := Int.mul_pos_of_neg_of_neg h g
      rw [fix_neg h, fix_neg g]
      exact ⟨fun _ => by omega, fun _ => rfl⟩
    · rw [g, Int.mul_zero]; exact ⟨fun _ => by omega, fun _ => by omega⟩
    · have := Int.mul_neg_of_neg_of_pos h g
      rw [fix_neg h, fix_pos g]
      exact ⟨fun _ => rfl, fun _ => by omega⟩
  · rw [h, Int.zero_mul]; exact ⟨fun _ => by omega, fun _ => by omega⟩
  · rcases Int.lt_trichotomy (fix b) 0 with g | g | g
    · have := Int.mul_neg_of_pos_of_neg h g
      rw [fix_pos h, fix_neg g]
      exact ⟨fun _ => rfl, fun _ => by omega⟩
    · rw [g, Int.mul_zero]; exact ⟨fun _ => by omega, fun _ => by omega⟩
    · have := Int.mul_pos h g
      rw [fix_pos h, fix_pos g]
      exact ⟨fun _ => by omega, fun _ => rfl⟩

theorem pos_of_mul {a b : Int} (hb : 0 < b) : (a * b < 0 ↔ a < 0) ∧ (0 < a * b ↔ 0 < a) := by
  rcases Int.lt_trichotomy a 0 with h | h | h
  · have := Int.mul_neg_of_neg_of_pos h hb
    omega
  · subst h; rw [Int.zero_mul]; omega
  · have := Int.mul_pos h hb
    omega

theorem mul_fix {a b c : Word} (ha : finite a) (hb : finite b) (hc : finite c) (h : fix c * unit = fix a * fix b) :
    finite (mul a b) ∧ fix (mul a b) = fix c := by
  unfold mul
  rw [(fin_nan ha).1, (fin_nan ha).2, (fin_nan hb).1, (fin_nan hb).2, ← h]
  simp only [Bool.or_self, Bool.false_eq_true, if_false]
  have hu : (0 : Int) < unit := by have := unit_pos; omega
  have hs := sgn_mul (a := a) (b := b)
  rw [← h, (pos_of_mul hu).1, (pos_of_mul hu).2] at hs
  exact sized hc rfl unit_pos (by rw [Int.natAbs_mul, Int.natAbs_natCast]) hs.1 hs.2

theorem div_fix {a b c : Word} (ha : finite a) (hb : finite b) (hc : finite c) (h0 : fix b ≠ 0) (h : fix c * fix b = fix a * unit) :
    finite (div a b) ∧ fix (div a b) = fix c := by
  unfold div
  rw [(fin_nan ha).1, (fin_nan ha).2, (fin_nan hb).1, (fin_nan hb).2, ← h]
  simp only [Bool.or_self, Bool.false_eq_true, if_false, h0]
  have hu : (0 : Int) < unit := by have := unit_pos; omega
  -- the sign of the quotient is that of the product
  have hs := sgn_mul (a := a) (b := b)
  have hq : fix a * fix b * unit = fix c * (fix b * fix b) := by
    rw [← Int.mul_assoc, h, Int.mul_assoc, Int.mul_comm (fix b), Int.mul_assoc]
  have hbb : 0 < fix b * fix b := by
    rcases Int.lt_or_gt_of_ne h0 with g | g
    · exact Int.mul_pos_of_neg_of_neg g g
    · exact Int.mul_pos g g
  rw [← (pos_of_mul hu).1, ← (pos_of_mul (a := fix a * fix b) hu).2, hq, (pos_of_mul hbb).1, (pos_of_mul hbb).2] at hs
  exact sized hc rfl (by omega) (by rw [Int.natAbs_mul]) hs.1 hs.2

/-! Order -/

theorem mag_step {m : Nat} (hm : m < 2047 * 2 ^ 52) : mag m < mag (m + 1) := by
  by_cases h : m / 2 ^ 52 = 0
  · have e : mag m = m := if_pos h
    rw [e]
    unfold mag
    split
    · omega
    · have : (m + 1) / 2 ^ 52 - 1 = 0 := by omega
      rw [this]; omega
  · rw [mag_norm h, mag_norm (by omega)]
    by_cases h' : (m + 1) / 2 ^ 52 = m / 2 ^ 52
    · rw [h']
      exact Nat.mul_lt_mul_of_pos_right (by omega) (Nat.two_pow_pos _)
    · have h1 : (m + 1) / 2 ^ 52 - 1 = (m / 2 ^ 52 - 1) + 1 := by omega
      have h2 : (m + 1) % 2 ^ 52 = 0 := by omega
      have h3 : m % 2 ^ 52 < 2 ^ 52 := by omega
      rw [h1, h2]
      generalize m / 2 ^ 52 - 1 = k
      rw [Nat.pow_add 2 k 1, Nat.pow_one, Nat.mul_comm (2 ^ k) 2, ← Nat.mul_assoc]
      exact Nat.mul_lt_mul_of_pos_right (by omega) (Nat.two_pow_pos _)

theorem mag_mono {m n : Nat} (h : m < n) (hn : n < 2047 * 2 ^ 52) : mag m < mag n := by
  induction n with
  | zero => omega
  | succ n ih =>
    rcases Nat.lt_or_ge m n with g | g
    · exact Nat.lt_trans (ih g (by omega)) (mag_step (by omega))
    · have : m = n := by omega
      subst this
      exact mag_step (by omega)

theorem mag_le {m n : Nat} (hm : m < 2047 * 2 ^ 52) (hn : n < 2047 * 2 ^ 52) : mag m ≤ mag n ↔ m ≤ n := by
  constructor
  · intro h
    rcases Nat.lt_or_ge n m with g | g
    · have := mag_mono g hm; omega
    · exact g
  · intro h
    rcases Nat.lt_or_ge m n with g | g
    · exact Nat.le_of_lt (mag_mono g hn)
    · rw [show m = n by omega]; exact Nat.le_refl _

theorem ord_fix {a b : Word} (ha : finite a) (hb : finite b) : ord a ≤ ord b ↔ fix a ≤ fix b := by
  have h1 := a.isLt
  have h2 := b.isLt
  unfold finite at ha hb
  unfold ord fix
  have k1 := mag_le ha hb
  have k2 := mag_le hb ha
  have z1 := mag_le (m := 0) (by omega) ha
  have z2 := mag_le (m := 0) (by omega) hb
  have z3 := mag_le (n := 0) ha (by omega)
  have z4 := mag_le (n := 0) hb (by omega)
  rw [mag_zero] at z1 z2 z3 z4
  by_cases ga : a.toNat < 2 ^ 63 <;> by_cases gb : b.toNat < 2 ^ 63
  · rw [if_pos ga, if_pos gb, if_pos ga, if_pos gb]
    rw [Nat.mod_eq_of_lt ga, Nat.mod_eq_of_lt gb] at *
    omega
  · rw [if_pos ga, if_neg gb, if_pos ga, if_neg gb]
    rw [Nat.mod_eq_of_lt ga, show b.toNat % 2 ^ 63 = b.toNat - 2 ^ 63 by omega] at *
    omega
  · rw [if_neg ga, if_pos gb, if_neg ga, if_pos gb]
    rw [Nat.mod_eq_of_lt gb, show a.toNat % 2 ^ 63 = a.toNat - 2 ^ 63 by omega] at *
    omega
  · rw [if_neg ga, if_neg gb, if_neg ga, if_neg gb]
    rw [show a.toNat % 2 ^ 63 = a.toNat - 2 ^ 63 by omega, show b.toNat % 2 ^ 63 = b.toNat - 2 ^ 63 by omega] at *
    omega

theorem unit_rat : (0 : Rat) < (unit : Rat) := by
  have := unit_pos
  exact_mod_cast this

theorem val_le {a b : Word} {x y : Rat} (ha : IsDbl a x) (hb : IsDbl b y) : x ≤ y ↔ fix a ≤ fix b := by
  rw [← Rat.intCast_le_intCast, val_eq.1 ha.2, val_eq.1 hb.2]
  have := unit_rat
  constructor
  · intro h; exact Rat.mul_le_mul_of_nonneg_right h (Rat.le_of_lt this)
  · intro h; exact Rat.le_of_mul_le_mul_right h this

theorem lifts {a c : Word} {r s : Rat} (h : finite a ∧ fix a = fix c) (hc : IsDbl c r) (e : r = s) : IsDbl a s := by
  refine ⟨h.1, ?_⟩
  rw [val_eq, h.2, val_eq.1 hc.2, e]

theorem ieee_law : Ieee ieee where
  add {a b x y} ha hb hr := by
    obtain ⟨c, hc⟩ := hr
    refine lifts (add_fix ha.1 hb.1 hc.1 ?_) hc rfl
    have h1 := val_eq.1 ha.2
    have h2 := val_eq.1 hb.2
    have h3 := val_eq.1 hc.2
    have : (fix c : Rat) = ((fix a + fix b : Int) : Rat) := by rw [Rat.intCast_add]; grind
    exact_mod_cast this
  sub {a b x y} ha hb hr := by
    obtain ⟨c, hc⟩ := hr
    refine lifts (sub_fix ha.1 hb.1 hc.1 ?_) hc rfl
    have h1 := val_eq.1 ha.2
    have h2 := val_eq.1 hb.2
    have h3 := val_eq.1 hc.2
    have : (fix c : Rat) = ((fix a - fix b : Int) : Rat) := by rw [Rat.intCast_sub]; grind
    exact_mod_cast this
  mul {a b x y} ha hb hr := by
    obtain ⟨c, hc⟩ := hr
    refine lifts (mul_fix ha.1 hb.1 hc.1 ?_) hc rfl
    have h1 := val_eq.1 ha.2
    have h2 := val_eq.1 hb.2
    have h3 := val_eq.1 hc.2
    have : ((fix c * (unit : Nat) : Int) : Rat) = ((fix a * fix b : Int) : Rat) := by
      rw [Rat.intCast_mul, Rat.intCast_mul, Rat.intCast_natCast]; grind
    exact_mod_cast this
  div {a b x y} ha hb hy hr := by
    obtain ⟨c, hc⟩ := hr
    have h1 := val_eq.1 ha.2
    have h2 := val_eq.1 hb.2
    have h3 := val_eq.1 hc.2
    have hu := unit_ne
    refine lifts (div_fix ha.1 hb.1 hc.1 ?_ ?_) hc rfl
    · intro h
      rw [h] at h2
      have : (0 : Rat) = y * unit := by rw [← h2]; rfl
      grind
    · have : ((fix c * fix b : Int) : Rat) = ((fix a * (unit : Nat) : Int) : Rat) := by
        rw [Rat.intCast_mul, Rat.intCast_mul, Rat.intCast_natCast]; grind
      exact_mod_cast this
  le {a b x y} ha hb := by
    show le a b = true ↔ _
    unfold le
    rw [(fin_nan ha.1).1, (fin_nan hb.1).1, val_le ha hb, ← ord_fix ha.1 hb.1]
    simp
  lt {a b x y} ha hb := by
    show (!nan a && !nan b && decide (ord a < ord b)) = true ↔ _
    rw [(fin_nan ha.1).1, (fin_nan hb.1).1, ← Rat.not_le, val_le hb ha, ← ord_fix hb.1 ha.1]
    simp
  eq {a b x y} ha hb := by
    show (!nan a && !nan b && decide (ord a = ord b)) = true ↔ _
    have h1 := (val_le ha hb).trans (ord_fix ha.1 hb.1).symm
    have h2 := (val_le hb ha).trans (ord_fix hb.1 ha.1).symm
    rw [(fin_nan ha.1).1, (fin_nan hb.1).1]
    simp only [Bool.not_false, Bool.true_and, decide_eq_true_eq]
    constructor
    · intro h; exact Rat.le_antisymm (h1.2 (by omega)) (h2.2 (by omega))
    · intro h; subst h
      have := h1.1 Rat.le_refl
      have := h2.1 Rat.le_refl
      omega
  ofI64 {w} hr := by
    obtain ⟨c, hc⟩ := hr
    have h3 := val_eq.1 hc.2
    show IsDbl (ofFrac (w.toInt * unit) 1) _
    have : fix c = w.toInt * unit := by
      have : (fix c : Rat) = ((w.toInt * (unit : Nat) : Int) : Rat) := by rw [Rat.intCast_mul, Rat.intCast_natCast]; exact h3
      exact_mod_cast this
    rw [← this]
    exact lifts (ofFrac_is hc.1) hc rfl
  ofU64 {w} hr := by
    obtain ⟨c, hc⟩ := hr
    have h3 := val_eq.1 hc.2
    show IsDbl (ofFrac ((w.toNat : Int) * unit) 1) _
    have : fix c = (w.toNat : Int) * unit := by
      have : (fix c : Rat) = (((w.toNat : Int) * (unit : Nat) : Int) : Rat) := by rw [Rat.intCast_mul, Rat.intCast_natCast]; exact h3
      exact_mod_cast this
    rw [← this]
    exact lifts (ofFrac_is hc.1) hc rfl
  toTy {t d x i} hd hc ht := by
    show (cut d).bind _ = _
    have h1 := val_eq.1 hd.2
    have hu := unit_pos
    have hur := unit_rat
    have hui : (0 : Int) < unit := by omega
    have cast : ∀ j : Int, ((j * (unit : Nat) : Int) : Rat) = (j : Rat) * (unit : Rat) := fun j => by rw [Rat.intCast_mul, Rat.intCast_natCast]
    have hle : ∀ j : Int, (j : Rat) ≤ x → j * unit ≤ fix d := fun j h => by
      have : ((j * (unit : Nat) : Int) : Rat) ≤ (fix d : Rat) := by
        rw [cast, h1]; exact Rat.mul_le_mul_of_nonneg_right h (Rat.le_of_lt hur)
      exact_mod_cast this
    have hge : ∀ j : Int, x ≤ (j : Rat) → fix d ≤ j * unit := fun j h => by
      have : (fix d : Rat) ≤ ((j * (unit : Nat) : Int) : Rat) := by
        rw [cast, h1]; exact Rat.mul_le_mul_of_nonneg_right h (Rat.le_of_lt hur)
      exact_mod_cast this
    have hlt : ∀ j : Int, x < (j : Rat) → fix d < j * unit := fun j h => by
      have : (fix d : Rat) < ((j * (unit : Nat) : Int) : Rat) := by
        rw [cast, h1]; exact Rat.mul_lt_mul_of_pos_right h hur
      exact_mod_cast this
    have hgt : ∀ j : Int, (j : Rat) < x → j * unit < fix d := fun j h => by
      have : ((j * (unit : Nat) : Int) : Rat) < (fix d : Rat) := by
        rw [cast, h1]; exact Rat.mul_lt_mul_of_pos_right h hur
      exact_mod_cast this
    have : (fix d).tdiv unit = i := by
      rcases hc with ⟨h0, ha, hb⟩ | ⟨h0, ha, hb⟩
      · have e1 := hle i ha
        have e2 := hlt (i + 1) (by rw [Rat.intCast_add]; exact hb)
        have e3 : 0 ≤ i * unit := Int.mul_nonneg h0 (by omega)
        rw [Int.tdiv_eq_ediv_of_nonneg (by omega)]
        rw [Int.add_mul, Int.one_mul] at e2
        exact (Int.ediv_emod_unique hui |>.2 ⟨by rw [Int.mul_comm]; exact Int.sub_add_cancel (fix d) _, by omega, by omega⟩).1
      · have e1 := hge i hb
        have e2 := hgt (i - 1) (by rw [Rat.intCast_sub]; exact ha)
        have e3 : i * unit ≤ 0 := Int.mul_nonpos_of_nonpos_of_nonneg h0 (by omega)
        rw [← Int.neg_neg ((fix d).tdiv unit), ← Int.neg_tdiv, Int.tdiv_eq_ediv_of_nonneg (by omega)]
        rw [Int.sub_mul, Int.one_mul] at e2
        have : (-fix d) / (unit : Int) = -i :=
          (Int.ediv_emod_unique hui (r := -fix d + i * unit) |>.2 ⟨by rw [Int.mul_neg, Int.mul_comm (unit : Int)]; omega, by omega, by omega⟩).1
        omega
    unfold cut
    rw [if_pos hd.1, this]
    simp only [Option.bind_some]
    rw [if_pos ht]

end Soft
end Cnd
