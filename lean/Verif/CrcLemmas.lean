import Verif.Crc
/-
  Bit-level facts about the shift register of calc_crc.
-/

namespace Cnd

/-- The bits of `reflect`. -/
theorem getLsbD_reflect (v : BitVec 32) (n : Nat) (hn : n ≤ 32) (j : Nat) :
    (reflect v n).getLsbD j = (decide (j < n) && v.getLsbD (n - 1 - j)) := by
  have key : ∀ k, k ≤ n → ∀ j,
      ((List.range k).foldl
        (fun (res : BitVec 32) i => if v.getLsbD i then res ||| ((1 : BitVec 32) <<< (n - 1 - i)) else res) 0).getLsbD j =
      (decide (j < n) && decide (n - 1 - j < k) && v.getLsbD (n - 1 - j)) := by
    intro k hk
    induction k with
    | zero => intro j; simp
    | succ k ih =>
      intro j
      rw [List.range_succ, List.foldl_append]
      simp only [List.foldl_cons, List.foldl_nil]
      have hone : ((1 : BitVec 32) <<< (n - 1 - k)).getLsbD j = decide (j = n - 1 - k) := by
        rw [BitVec.getLsbD_shiftLeft]
        have h1 : ∀ m, (1 : BitVec 32).getLsbD m = decide (m = 0) := by
          intro m
          cases m with
          | zero => rfl
          | succ m => simp [BitVec.getLsbD, Nat.testBit_succ]
        rw [h1]
        by_cases h : j = n - 1 - k
        · subst h; simp; omega
        · by_cases h2 : j < n - 1 - k
          · simp [h, h2]
          · have : ¬ (j - (n - 1 - k) = 0) := by omega
            simp [h, this]
      by_cases hb : v.getLsbD k
      · rw [if_pos hb, BitVec.getLsbD_or, ih (by omega), hone]
        by_cases hj : j < n
        · by_cases he : j = n - 1 - k
          · subst he
            have : n - 1 - (n - 1 - k) = k := by omega
            simp [this, hb, hj]
          · have : n - 1 - j ≠ k := by omega
            have h2 : decide (n - 1 - j < k + 1) = decide (n - 1 - j < k) := by
              by_cases h3 : n - 1 - j < k
              · simp [h3]; omega
              · simp [h3]; omega
            simp [he, h2]
        · have he : ¬ (j = n - 1 - k) := by omega
          simp [hj, he]
      · rw [if_neg hb, ih (by omega)]
        by_cases h3 : n - 1 - j = k
        · simp [h3, hb]
        · have h2 : decide (n - 1 - j < k + 1) = decide (n - 1 - j < k) := by
            by_cases h4 : n - 1 - j < k
            · simp [h4]; omega
            · simp [h4]; omega
          rw [h2]
  have := key n (Nat.le_refl n) j
  unfold reflect
  rw [this]
  by_cases hj : j < n
  · have : n - 1 - j < n := by omega
    simp [hj, this]
  · simp [hj]

/-- The two values have the same low `w` bits. -/
def LowEq (w : Nat) (a b : BitVec 32) : Prop := ∀ i, i < w → a.getLsbD i = b.getLsbD i

theorem lowEq_32 {a b : BitVec 32} (h : LowEq 32 a b) : a = b :=
  BitVec.eq_of_getLsbD_eq fun i hi => h i hi

theorem reflect_lowEq {w : Nat} (hw : w ≤ 32) {a b : BitVec 32} (h : LowEq w (reflect a w) (reflect b w)) :
    LowEq w a b := by
  intro i hi
  have := h (w - 1 - i) (by omega)
  rw [getLsbD_reflect _ _ hw, getLsbD_reflect _ _ hw] at this
  have e : w - 1 - (w - 1 - i) = i := by omega
  have e2 : w - 1 - i < w := by omega
  simpa [e, e2] using this

theorem reflect_reflect (a : BitVec 32) : reflect (reflect a 32) 32 = a := by
  apply BitVec.eq_of_getLsbD_eq
  intro i hi
  rw [getLsbD_reflect _ _ (by omega), getLsbD_reflect _ _ (by omega)]
  have e : 32 - 1 - (32 - 1 - i) = i := by omega
  have e2 : 32 - 1 - i < 32 := by omega
  simp [e, e2, hi]

/-- One step of the register of width 16. -/
def sh16 (poly x : BitVec 32) : BitVec 32 :=
  if x &&& 0x8000 ≠ 0 then ((x <<< 1) ^^^ poly) &&& 0xFFFF else (x <<< 1) &&& 0xFFFF

/-- One step of the register of width 32. -/
def sh32 (poly x : BitVec 32) : BitVec 32 :=
  if x &&& 0x80000000 ≠ 0 then (x <<< 1) ^^^ poly else x <<< 1

theorem crcBits16_succ (poly : BitVec 32) (n : Nat) (x : BitVec 32) :
    crcBits16 poly (n + 1) x = crcBits16 poly n (sh16 poly x) := rfl
theorem crcBits32_succ (poly : BitVec 32) (n : Nat) (x : BitVec 32) :
    crcBits32 poly (n + 1) x = crcBits32 poly n (sh32 poly x) := rfl

theorem mask_ne (x : BitVec 32) (k : Nat) (hk : k < 32) : (x &&& BitVec.twoPow 32 k ≠ 0) ↔ x.getLsbD k = true := by
  rw [BitVec.and_twoPow]
  by_cases h : x.getLsbD k
  · simp only [h, if_true]
    constructor
    · intro _; trivial
    · intro _ e
      have := congrArg (fun b : BitVec 32 => b.getLsbD k) e
      simp [BitVec.getLsbD_twoPow, hk] at this
  · simp [h]

theorem ffff_bit (i : Nat) : (0xFFFF : BitVec 32).getLsbD i = decide (i < 16) := by
  by_cases h : i < 32
  · have key : ∀ j : Fin 32, (0xFFFF : BitVec 32).getLsbD j.val = decide (j.val < 16) := by decide
    exact key ⟨i, h⟩
  · rw [BitVec.getLsbD_of_ge _ _ (by omega)]
    simp; omega

theorem getLsbD_sh32 (poly x : BitVec 32) (i : Nat) (hi : i < 32) :
    (sh32 poly x).getLsbD i = ((decide (0 < i) && x.getLsbD (i - 1)) ^^ (x.getLsbD 31 && poly.getLsbD i)) := by
  unfold sh32
  have hm := mask_ne x 31 (by omega)
  rw [show (BitVec.twoPow 32 31) = (0x80000000 : BitVec 32) from rfl] at hm
  by_cases h : x.getLsbD 31
  · rw [if_pos (hm.2 h)]
    simp only [BitVec.getLsbD_xor, BitVec.getLsbD_shiftLeft, h, Bool.true_and, hi, decide_true]
    congr 1
    cases i <;> simp
  · rw [if_neg (by rw [hm]; exact h)]
    simp only [BitVec.getLsbD_shiftLeft, h, Bool.false_and, hi, decide_true, Bool.true_and, Bool.xor_false]
    cases i <;> simp

theorem getLsbD_sh16 (poly x : BitVec 32) (i : Nat) (hi : i < 16) :
    (sh16 poly x).getLsbD i = ((decide (0 < i) && x.getLsbD (i - 1)) ^^ (x.getLsbD 15 && poly.getLsbD i)) := by
  unfold sh16
  have hm := mask_ne x 15 (by omega)
  rw [show (BitVec.twoPow 32 15) = (0x8000 : BitVec 32) from rfl] at hm
  have hi' : i < 32 := by omega
  by_cases h : x.getLsbD 15
  · rw [if_pos (hm.2 h)]
    simp only [BitVec.getLsbD_and, ffff_bit, BitVec.getLsbD_xor, BitVec.getLsbD_shiftLeft, h, Bool.true_and, hi', hi,
      decide_true, Bool.and_true]
    congr 1
    cases i <;> simp
  · rw [if_neg (by rw [hm]; exact h)]
    simp only [BitVec.getLsbD_and, ffff_bit, BitVec.getLsbD_shiftLeft, h, Bool.false_and, hi', hi, decide_true,
      Bool.true_and, Bool.xor_false, Bool.and_true]
    cases i <;> simp

/-- With an odd polynomial a register step loses no information. -/
theorem sh_inj {w : Nat} {sh : BitVec 32 → BitVec 32} {poly : BitVec 32} (hodd : poly.getLsbD 0 = true) (hw : 0 < w)
    (hsh : ∀ x i, i < w → (sh x).getLsbD i =
      ((decide (0 < i) && x.getLsbD (i - 1)) ^^ (x.getLsbD (w - 1) && poly.getLsbD i)))
    {a b : BitVec 32} (h : LowEq w (sh a) (sh b)) : LowEq w a b := by
  have htop : a.getLsbD (w - 1) = b.getLsbD (w - 1) := by
    have := h 0 hw
    rw [hsh _ _ hw, hsh _ _ hw] at this
    rw [hodd] at this
    simpa only [Nat.lt_irrefl, decide_false, Bool.false_and, Bool.false_xor, Bool.and_true] using this
  intro i hi
  by_cases he : i = w - 1
  · rw [he]; exact htop
  · have := h (i + 1) (by omega)
    rw [hsh _ _ (by omega), hsh _ _ (by omega), htop] at this
    simpa using this

theorem crcBits32_inj {poly : BitVec 32} (hodd : poly.getLsbD 0 = true) (n : Nat) {a b : BitVec 32}
    (h : LowEq 32 (crcBits32 poly n a) (crcBits32 poly n b)) : LowEq 32 a b := by
  induction n generalizing a b with
  | zero => exact h
  | succ n ih =>
    rw [crcBits32_succ, crcBits32_succ] at h
    exact sh_inj hodd (by omega) (fun x i hi => getLsbD_sh32 poly x i hi) (ih h)

theorem crcBits16_inj {poly : BitVec 32} (hodd : poly.getLsbD 0 = true) (n : Nat) {a b : BitVec 32}
    (h : LowEq 16 (crcBits16 poly n a) (crcBits16 poly n b)) : LowEq 16 a b := by
  induction n generalizing a b with
  | zero => exact h
  | succ n ih =>
    rw [crcBits16_succ, crcBits16_succ] at h
    exact sh_inj hodd (by omega) (fun x i hi => getLsbD_sh16 poly x i hi) (ih h)

/-- The register contents a byte is combined with. -/
def octetBits (w32 refin : Bool) (b : Byte) : BitVec 32 :=
  let o : BitVec 32 := b.setWidth 32
  let octet : BitVec 32 := if refin then (reflect o 8) &&& 0xFF else o
  if w32 then octet <<< 24 else (octet <<< 8) &&& 0xFFFF

def crcWidth (w32 : Bool) : Nat := if w32 then 32 else 16

def crcRun (w32 : Bool) (poly : BitVec 32) (x : BitVec 32) : BitVec 32 :=
  if w32 then crcBits32 poly 8 x else crcBits16 poly 8 x

theorem crcByte_eq (w32 refin : Bool) (poly crc : BitVec 32) (b : Byte) :
    crcByte w32 refin poly crc b = crcRun w32 poly (crc ^^^ octetBits w32 refin b) := by
  unfold crcByte crcRun octetBits
  cases w32 <;> simp only [Bool.false_eq_true, if_false, if_true]

theorem crcRun_inj {w32 : Bool} {poly : BitVec 32} (hodd : poly.getLsbD 0 = true) {a b : BitVec 32}
    (h : LowEq (crcWidth w32) (crcRun w32 poly a) (crcRun w32 poly b)) : LowEq (crcWidth w32) a b := by
  cases w32
  · exact crcBits16_inj hodd 8 h
  · exact crcBits32_inj hodd 8 h

theorem ff_bit (i : Nat) : (0xFF : BitVec 32).getLsbD i = decide (i < 8) := by
  by_cases h : i < 32
  · have key : ∀ j : Fin 32, (0xFF : BitVec 32).getLsbD j.val = decide (j.val < 8) := by decide
    exact key ⟨i, h⟩
  · rw [BitVec.getLsbD_of_ge _ _ (by omega)]
    simp; omega

/-- The bits of the octet: the byte's bits, reversed if requested, in the top eight positions. -/
theorem getLsbD_octetBits (w32 refin : Bool) (b : Byte) (i : Nat) (hi : i < 8) :
    (octetBits w32 refin b).getLsbD (crcWidth w32 - 8 + i) = b.getLsbD (if refin then 7 - i else i) := by
  have ho : ∀ i, i < 8 → (if refin then (reflect (b.setWidth 32) 8) &&& 0xFF else (b.setWidth 32 : BitVec 32)).getLsbD i
      = b.getLsbD (if refin then 7 - i else i) := by
    intro i hi
    have h32 : i < 32 := by omega
    have h7 : 7 - i < 32 := by omega
    cases refin
    · simp [h32]
    · simp only [if_true, BitVec.getLsbD_and, ff_bit, getLsbD_reflect _ 8 (by omega), hi, decide_true, Bool.true_and,
        Bool.and_true, BitVec.getLsbD_setWidth]
      rw [show 8 - 1 - i = 7 - i by omega]
      simp [h7]
  unfold octetBits crcWidth
  cases w32
  · simp only [Bool.false_eq_true, if_false, BitVec.getLsbD_and, BitVec.getLsbD_shiftLeft, ffff_bit]
    rw [show 16 - 8 + i - 8 = i by omega, ho i hi]
    have h1 : 16 - 8 + i < 32 := by omega
    have h2 : ¬ (16 - 8 + i < 8) := by omega
    have h3 : 16 - 8 + i < 16 := by omega
    simp only [h1, h2, h3, decide_true, decide_false, Bool.not_false, Bool.true_and, Bool.and_true]
  · simp only [if_true, BitVec.getLsbD_shiftLeft]
    rw [show 32 - 8 + i - 24 = i by omega, ho i hi]
    have h1 : 32 - 8 + i < 32 := by omega
    have h2 : ¬ (32 - 8 + i < 24) := by omega
    simp only [h1, h2, decide_true, decide_false, Bool.not_false, Bool.true_and]

/-- Different bytes put different bits into the register. -/
theorem octetBits_inj (w32 refin : Bool) {a b : Byte} {c : BitVec 32}
    (h : LowEq (crcWidth w32) (c ^^^ octetBits w32 refin a) (c ^^^ octetBits w32 refin b)) : a = b := by
  apply BitVec.eq_of_getLsbD_eq
  intro i hi
  have hj : (if refin then 7 - i else i) < 8 := by split <;> omega
  have := h (crcWidth w32 - 8 + (if refin then 7 - i else i)) (by unfold crcWidth; cases w32 <;> simp <;> omega)
  rw [BitVec.getLsbD_xor, BitVec.getLsbD_xor, getLsbD_octetBits _ _ _ _ hj, getLsbD_octetBits _ _ _ _ hj] at this
  have e : (if refin then 7 - (if refin then 7 - i else i) else (if refin then 7 - i else i)) = i := by
    cases refin <;> simp; omega
  rw [e] at this
  simpa using this

theorem xor_lowEq {w : Nat} {a b c : BitVec 32} (h : LowEq w (a ^^^ c) (b ^^^ c)) : LowEq w a b := by
  intro i hi
  have := h i hi
  simpa using this

/-- Feeding the same bytes keeps different register contents different. -/
theorem crcFold_inj {w32 refin : Bool} {poly : BitVec 32} (hodd : poly.getLsbD 0 = true) (data : List Byte)
    {a b : BitVec 32}
    (h : LowEq (crcWidth w32) (data.foldl (crcByte w32 refin poly) a) (data.foldl (crcByte w32 refin poly) b)) :
    LowEq (crcWidth w32) a b := by
  induction data generalizing a b with
  | nil => exact h
  | cons x xs ih =>
    have := ih h
    rw [crcByte_eq, crcByte_eq] at this
    exact xor_lowEq (crcRun_inj hodd this)

/-- The last part of the generic algorithm keeps different register contents different. -/
theorem crcFinish_inj {w32 refout : Bool} {xorout a b : BitVec 32}
    (h : ((if refout then reflect a (if w32 then 32 else 16) else a) ^^^ xorout) &&&
        (if w32 then 0xFFFFFFFF else 0xFFFF) =
      ((if refout then reflect b (if w32 then 32 else 16) else b) ^^^ xorout) &&&
        (if w32 then (0xFFFFFFFF : BitVec 32) else 0xFFFF)) : LowEq (crcWidth w32) a b := by
  have h1 : LowEq (crcWidth w32) (if refout then reflect a (if w32 then 32 else 16) else a)
      (if refout then reflect b (if w32 then 32 else 16) else b) := by
    intro i hi
    have := congrArg (fun x : BitVec 32 => x.getLsbD i) h
    cases w32
    · simp only [crcWidth, Bool.false_eq_true, if_false] at hi this ⊢
      simp only [BitVec.getLsbD_and, BitVec.getLsbD_xor, ffff_bit, hi, decide_true, Bool.and_true] at this
      simpa using this
    · simp only [crcWidth, if_true] at hi this ⊢
      rw [show (0xFFFFFFFF : BitVec 32) = BitVec.allOnes 32 from rfl, BitVec.and_allOnes, BitVec.and_allOnes] at this
      simpa using this
  cases refout
  · simpa using h1
  · simp only [if_true] at h1
    have e : (if w32 = true then 32 else 16) = crcWidth w32 := rfl
    rw [e] at h1
    exact reflect_lowEq (by unfold crcWidth; split <;> omega) h1

theorem sh_congr {w : Nat} {sh : BitVec 32 → BitVec 32} {poly : BitVec 32}
    (hsh : ∀ x i, i < w → (sh x).getLsbD i =
      ((decide (0 < i) && x.getLsbD (i - 1)) ^^ (x.getLsbD (w - 1) && poly.getLsbD i)))
    {a b : BitVec 32} (h : LowEq w a b) : LowEq w (sh a) (sh b) := by
  intro i hi
  rw [hsh _ _ hi, hsh _ _ hi, h (i - 1) (by omega), h (w - 1) (by omega)]

theorem crcRun_congr {w32 : Bool} {poly : BitVec 32} {a b : BitVec 32} (h : LowEq (crcWidth w32) a b) :
    LowEq (crcWidth w32) (crcRun w32 poly a) (crcRun w32 poly b) := by
  cases w32
  · have key : ∀ n (a b : BitVec 32), LowEq 16 a b → LowEq 16 (crcBits16 poly n a) (crcBits16 poly n b) := by
      intro n
      induction n with
      | zero => intro a b h; exact h
      | succ n ih => intro a b h; exact ih _ _ (sh_congr (fun x i hi => getLsbD_sh16 poly x i hi) h)
    exact key 8 a b h
  · have key : ∀ n (a b : BitVec 32), LowEq 32 a b → LowEq 32 (crcBits32 poly n a) (crcBits32 poly n b) := by
      intro n
      induction n with
      | zero => intro a b h; exact h
      | succ n ih => intro a b h; exact ih _ _ (sh_congr (fun x i hi => getLsbD_sh32 poly x i hi) h)
    exact key 8 a b h

theorem crcByte_congr {w32 refin : Bool} {poly : BitVec 32} {a b : BitVec 32} {o : Byte}
    (h : LowEq (crcWidth w32) a b) :
    LowEq (crcWidth w32) (crcByte w32 refin poly a o) (crcByte w32 refin poly b o) := by
  rw [crcByte_eq, crcByte_eq]
  apply crcRun_congr
  intro i hi
  rw [BitVec.getLsbD_xor, BitVec.getLsbD_xor, h i hi]

/-! ### Bursts -/

/-- The two values have the same bits in positions `lo` up to `hi`. -/
def EqOn (lo hi : Nat) (a b : BitVec 32) : Prop := ∀ i, lo ≤ i → i < hi → a.getLsbD i = b.getLsbD i

/-- Running the register backwards for one step. -/
theorem sh_back {w : Nat} {sh : BitVec 32 → BitVec 32} {poly : BitVec 32} (hodd : poly.getLsbD 0 = true) (hw : 0 < w)
    (hsh : ∀ x i, i < w → (sh x).getLsbD i =
      ((decide (0 < i) && x.getLsbD (i - 1)) ^^ (x.getLsbD (w - 1) && poly.getLsbD i)))
    {a b : BitVec 32} (h : (sh a).getLsbD 0 = (sh b).getLsbD 0) :
    a.getLsbD (w - 1) = b.getLsbD (w - 1) ∧
      ∀ i, i + 1 < w → (sh a).getLsbD (i + 1) = (sh b).getLsbD (i + 1) → a.getLsbD i = b.getLsbD i := by
  have htop : a.getLsbD (w - 1) = b.getLsbD (w - 1) := by
    have := h
    rw [hsh _ _ hw, hsh _ _ hw, hodd] at this
    simpa only [Nat.lt_irrefl, decide_false, Bool.false_and, Bool.false_xor, Bool.and_true] using this
  refine ⟨htop, ?_⟩
  intro i hi this
  rw [hsh _ _ (by omega), hsh _ _ (by omega), htop] at this
  simpa using this

/-- Running the register backwards for `n` steps: agreement on the low bits of the results gives agreement on
the top bits of the arguments. -/
theorem run_back {w : Nat} {sh : BitVec 32 → BitVec 32} {run : Nat → BitVec 32 → BitVec 32} {poly : BitVec 32}
    (hodd : poly.getLsbD 0 = true)
    (hsh : ∀ x i, i < w → (sh x).getLsbD i =
      ((decide (0 < i) && x.getLsbD (i - 1)) ^^ (x.getLsbD (w - 1) && poly.getLsbD i)))
    (hz : ∀ x, run 0 x = x) (hr : ∀ n x, run (n + 1) x = run n (sh x)) (n m : Nat) (hn : n ≤ m) (hm : m ≤ w)
    {a b : BitVec 32} (h : EqOn 0 m (run n a) (run n b)) : EqOn (w - n) w a b ∧ EqOn 0 (m - n) a b := by
  induction n generalizing a b with
  | zero =>
    rw [hz, hz] at h
    refine ⟨?_, h⟩
    intro i h1 h2
    omega
  | succ n ih =>
    rw [hr, hr] at h
    obtain ⟨h1, h2⟩ := ih (by omega) h
    obtain ⟨ht, hb⟩ := sh_back hodd (by omega) hsh (h2 0 (by omega) (by omega))
    constructor
    · intro i hi1 hi2
      by_cases he : i = w - 1
      · rw [he]; exact ht
      · exact hb i (by omega) (h1 (i + 1) (by omega) (by omega))
    · intro i hi1 hi2
      exact hb i (by omega) (h2 (i + 1) (by omega) (by omega))

theorem crcRun_back {w32 : Bool} {poly : BitVec 32} (hodd : poly.getLsbD 0 = true) (m : Nat) (h8 : 8 ≤ m)
    (hm : m ≤ crcWidth w32) {a b : BitVec 32} (h : EqOn 0 m (crcRun w32 poly a) (crcRun w32 poly b)) :
    EqOn (crcWidth w32 - 8) (crcWidth w32) a b ∧ EqOn 0 (m - 8) a b := by
  cases w32
  · exact run_back (run := crcBits16 poly) hodd (fun x i hi => getLsbD_sh16 poly x i hi) (fun _ => rfl)
      (fun _ _ => rfl) 8 m h8 hm h
  · exact run_back (run := crcBits32 poly) hodd (fun x i hi => getLsbD_sh32 poly x i hi) (fun _ => rfl)
      (fun _ _ => rfl) 8 m h8 hm h

theorem getLsbD_octetBits_low (w32 refin : Bool) (b : Byte) (i : Nat) (hi : i < crcWidth w32 - 8) :
    (octetBits w32 refin b).getLsbD i = false := by
  unfold octetBits
  unfold crcWidth at hi
  cases w32
  · simp only [Bool.false_eq_true, if_false] at hi ⊢
    rw [BitVec.getLsbD_and, BitVec.getLsbD_shiftLeft]
    simp [hi]
  · simp only [if_true] at hi ⊢
    rw [BitVec.getLsbD_shiftLeft]
    simp [hi]

/-- If as many bytes as the register holds, or fewer, lead to the same register contents, the unshifted part was
the same; and from the same contents only the same bytes do. -/
theorem burst_back {w32 refin : Bool} {poly : BitVec 32} (hodd : poly.getLsbD 0 = true) (as bs : List Byte)
    (hl : as.length = bs.length) (hw : 8 * as.length ≤ crcWidth w32) {x y : BitVec 32}
    (h : LowEq (crcWidth w32) (as.foldl (crcByte w32 refin poly) x) (bs.foldl (crcByte w32 refin poly) y)) :
    EqOn 0 (crcWidth w32 - 8 * as.length) x y ∧ (LowEq (crcWidth w32) x y → as = bs) := by
  induction as generalizing bs x y with
  | nil =>
    cases bs with
    | cons b bs => simp at hl
    | nil => exact ⟨fun i _ hi => h i (by simpa using hi), fun _ => rfl⟩
  | cons a as ih =>
    cases bs with
    | nil => simp at hl
    | cons b bs =>
      simp only [List.length_cons] at hl hw ⊢
      simp only [List.foldl_cons] at h
      obtain ⟨i1, i2⟩ := ih bs (by omega) (by omega) h
      have i1' := i1
      rw [crcByte_eq, crcByte_eq] at i1
      obtain ⟨j1, j2⟩ := crcRun_back hodd _ (by omega) (by omega) i1
      constructor
      · intro i _ hi
        have := j2 i (by omega) (by omega)
        rw [BitVec.getLsbD_xor, BitVec.getLsbD_xor, getLsbD_octetBits_low _ _ _ _ (by omega),
          getLsbD_octetBits_low _ _ _ _ (by omega)] at this
        simpa using this
      · intro hxy
        have hab : a = b := by
          apply octetBits_inj w32 refin (c := x)
          intro i hi
          by_cases hlo : i < crcWidth w32 - 8
          · rw [BitVec.getLsbD_xor, BitVec.getLsbD_xor, getLsbD_octetBits_low _ _ _ _ hlo,
              getLsbD_octetBits_low _ _ _ _ hlo]
          · have := j1 i (by omega) hi
            rw [BitVec.getLsbD_xor, BitVec.getLsbD_xor, ← hxy i hi] at this
            rw [BitVec.getLsbD_xor, BitVec.getLsbD_xor]
            exact this
        subst hab
        congr 1
        apply i2
        exact crcByte_congr (by assumption)

/-! ### The bit-serial register -/

/-- The textbook register: one message bit at a time, as polynomial division does it. `r` is the remainder so
far, a number of `w` bits. -/
def serialStep (w poly r : Nat) (bit : Bool) : Nat :=
  if r.testBit (w - 1) != bit then (2 * r % 2 ^ w) ^^^ poly else 2 * r % 2 ^ w

theorem serialStep_lt (w poly r : Nat) (bit : Bool) (hp : poly < 2 ^ w) : serialStep w poly r bit < 2 ^ w := by
  have h : 2 * r % 2 ^ w < 2 ^ w := Nat.mod_lt _ (Nat.two_pow_pos w)
  unfold serialStep
  split
  · exact Nat.xor_lt_two_pow h hp
  · exact h

theorem testBit_serialStep (w poly r : Nat) (bit : Bool) (i : Nat) (hi : i < w) :
    (serialStep w poly r bit).testBit i =
      ((decide (0 < i) && r.testBit (i - 1)) ^^ ((r.testBit (w - 1) ^^ bit) && poly.testBit i)) := by
  have hm : (2 * r % 2 ^ w).testBit i = (decide (0 < i) && r.testBit (i - 1)) := by
    rw [Nat.testBit_mod_two_pow]
    cases i with
    | zero => simp
    | succ i => rw [Nat.testBit_succ]; simp [hi]
  unfold serialStep
  have hx : (r.testBit (w - 1) != bit) = (r.testBit (w - 1) ^^ bit) := by
    cases r.testBit (w - 1) <;> cases bit <;> rfl
  rw [hx]
  by_cases h : (r.testBit (w - 1) ^^ bit) = true
  · rw [if_pos h, Nat.testBit_xor, hm, h, Bool.true_and]
  · rw [if_neg h, hm]
    rw [Bool.not_eq_true] at h
    rw [h, Bool.false_and, Bool.xor_false]

/-- Xoring pending bits into the top of the register and then shifting is the same as feeding them one by one. -/
theorem run_serial {w : Nat} {sh : BitVec 32 → BitVec 32} {run : Nat → BitVec 32 → BitVec 32} {poly : BitVec 32}
    (hsh : ∀ x i, i < w → (sh x).getLsbD i =
      ((decide (0 < i) && x.getLsbD (i - 1)) ^^ (x.getLsbD (w - 1) && poly.getLsbD i)))
    (hz : ∀ x, run 0 x = x) (hr : ∀ n x, run (n + 1) x = run n (sh x)) (bits : List Bool) (hl : bits.length ≤ w)
    (x : BitVec 32) (r : Nat)
    (h : ∀ i, i < w → x.getLsbD i = (r.testBit i ^^ bits.getD (w - 1 - i) false)) :
    ∀ i, i < w → (run bits.length x).getLsbD i = (bits.foldl (serialStep w poly.toNat) r).testBit i := by
  induction bits generalizing x r with
  | nil =>
    intro i hi
    rw [List.length_nil, hz, h i hi]
    simp
  | cons b bs ih =>
    simp only [List.length_cons] at hl ⊢
    rw [hr, List.foldl_cons]
    apply ih (by omega)
    intro i hi
    rw [hsh _ _ hi, testBit_serialStep _ _ _ _ _ hi, h (w - 1) (by omega)]
    have e0 : (b :: bs).getD (w - 1 - (w - 1)) false = b := by simp
    rw [e0]
    change ((decide (0 < i) && x.getLsbD (i - 1)) ^^ ((r.testBit (w - 1) ^^ b) && poly.getLsbD i)) =
      (((decide (0 < i) && r.testBit (i - 1)) ^^ ((r.testBit (w - 1) ^^ b) && poly.getLsbD i)) ^^ bs.getD (w - 1 - i) false)
    cases i with
    | zero =>
      have : bs.getD (w - 1 - 0) false = false := by
        rw [List.getD_eq_getElem?_getD, List.getElem?_eq_none (by omega)]
        rfl
      rw [this]
      simp
    | succ i =>
      rw [show i + 1 - 1 = i by omega, h i (by omega)]
      have e1 : (b :: bs).getD (w - 1 - i) false = bs.getD (w - 1 - (i + 1)) false := by
        rw [show w - 1 - i = (w - 1 - (i + 1)) + 1 by omega, List.getD_cons_succ]
      rw [e1]
      generalize bs.getD (w - 1 - (i + 1)) false = q
      generalize r.testBit i = p
      generalize ((r.testBit (w - 1) ^^ b) && poly.getLsbD (i + 1)) = t
      cases p <;> cases q <;> cases t <;> rfl

/-- The bits of a byte in the order in which they are transmitted. -/
def byteBits (refin : Bool) (b : Byte) : List Bool :=
  (List.range 8).map fun i => b.toNat.testBit (if refin then i else 7 - i)

theorem crcByte_serial (w32 refin : Bool) (poly x : BitVec 32) (r : Nat) (b : Byte)
    (h : ∀ i, i < crcWidth w32 → x.getLsbD i = r.testBit i) :
    ∀ i, i < crcWidth w32 → (crcByte w32 refin poly x b).getLsbD i =
      ((byteBits refin b).foldl (serialStep (crcWidth w32) poly.toNat) r).testBit i := by
  have hlen : (byteBits refin b).length = 8 := by simp [byteBits]
  have hw8 : 8 ≤ crcWidth w32 := by unfold crcWidth; split <;> omega
  have hb : ∀ i, i < crcWidth w32 → (x ^^^ octetBits w32 refin b).getLsbD i =
      (r.testBit i ^^ (byteBits refin b).getD (crcWidth w32 - 1 - i) false) := by
    intro i hi
    rw [BitVec.getLsbD_xor, h i hi]
    congr 1
    by_cases hlo : i < crcWidth w32 - 8
    · rw [getLsbD_octetBits_low _ _ _ _ hlo, List.getD_eq_getElem?_getD, List.getElem?_eq_none (by omega)]
      rfl
    · obtain ⟨j, rfl⟩ : ∃ j, i = crcWidth w32 - 8 + j := ⟨i - (crcWidth w32 - 8), by omega⟩
      rw [getLsbD_octetBits _ _ _ _ (by omega)]
      have e : crcWidth w32 - 1 - (crcWidth w32 - 8 + j) = 7 - j := by omega
      rw [e, List.getD_eq_getElem?_getD]
      have hj : 7 - j < 8 := by omega
      have : (byteBits refin b)[7 - j]? = some (b.toNat.testBit (if refin then 7 - j else 7 - (7 - j))) := by
        unfold byteBits
        rw [List.getElem?_map, List.getElem?_range hj]
        rfl
      rw [this, show 7 - (7 - j) = j by omega]
      rfl
  rw [crcByte_eq]
  unfold crcRun
  cases w32
  · have := run_serial (run := crcBits16 poly) (fun x i hi => getLsbD_sh16 poly x i hi) (fun _ => rfl) (fun _ _ => rfl)
      (byteBits refin b) (by rw [hlen]; decide) _ r hb
    rw [hlen] at this
    exact this
  · have := run_serial (run := crcBits32 poly) (fun x i hi => getLsbD_sh32 poly x i hi) (fun _ => rfl) (fun _ _ => rfl)
      (byteBits refin b) (by rw [hlen]; decide) _ r hb
    rw [hlen] at this
    exact this

theorem crcFold_serial (w32 refin : Bool) (poly : BitVec 32) (data : List Byte) (x : BitVec 32) (r : Nat)
    (h : ∀ i, i < crcWidth w32 → x.getLsbD i = r.testBit i) :
    ∀ i, i < crcWidth w32 → (data.foldl (crcByte w32 refin poly) x).getLsbD i =
      ((data.flatMap (byteBits refin)).foldl (serialStep (crcWidth w32) poly.toNat) r).testBit i := by
  induction data generalizing x r with
  | nil => exact h
  | cons b bs ih =>
    rw [List.foldl_cons, List.flatMap_cons, List.foldl_append]
    exact ih _ _ (crcByte_serial w32 refin poly x r b h)

/-! ### The reflected register -/

/-- One step of the reflected register, polynomial 0xEDB88320. -/
def rsh (x : BitVec 32) : BitVec 32 := if x.getLsbD 0 then (x >>> 1) ^^^ 0xEDB88320 else x >>> 1

def rshN : Nat → BitVec 32 → BitVec 32
  | 0, x => x
  | n + 1, x => rshN n (rsh x)

theorem getLsbD_rsh (x : BitVec 32) (i : Nat) :
    (rsh x).getLsbD i = (x.getLsbD (1 + i) ^^ (x.getLsbD 0 && (0xEDB88320 : BitVec 32).getLsbD i)) := by
  unfold rsh
  by_cases h : x.getLsbD 0
  · rw [if_pos h]
    simp [h]
  · rw [if_neg h]
    rw [Bool.not_eq_true] at h
    rw [h, BitVec.getLsbD_ushiftRight, Bool.false_and, Bool.xor_false]

theorem rsh_xor (a b : BitVec 32) : rsh (a ^^^ b) = rsh a ^^^ rsh b := by
  apply BitVec.eq_of_getLsbD_eq
  intro i hi
  rw [BitVec.getLsbD_xor, getLsbD_rsh, getLsbD_rsh, getLsbD_rsh, BitVec.getLsbD_xor, BitVec.getLsbD_xor]
  generalize a.getLsbD (1 + i) = p
  generalize b.getLsbD (1 + i) = q
  generalize a.getLsbD 0 = r
  generalize b.getLsbD 0 = s
  generalize (0xEDB88320 : BitVec 32).getLsbD i = t
  cases p <;> cases q <;> cases r <;> cases s <;> cases t <;> rfl

theorem rshN_xor (n : Nat) (a b : BitVec 32) : rshN n (a ^^^ b) = rshN n a ^^^ rshN n b := by
  induction n generalizing a b with
  | zero => rfl
  | succ n ih => simp only [rshN, rsh_xor, ih]

/-- Shifting out zeros is a plain shift. -/
theorem rshN_shift (n : Nat) (x : BitVec 32) (h : ∀ i, i < n → x.getLsbD i = false) : rshN n x = x >>> n := by
  induction n generalizing x with
  | zero => simp [rshN]
  | succ n ih =>
    have h0 : rsh x = x >>> 1 := by
      unfold rsh
      rw [h 0 (by omega)]
      simp
    simp only [rshN, h0]
    rw [ih]
    · rw [← BitVec.shiftRight_add, Nat.add_comm 1 n]
    · intro i hi
      rw [BitVec.getLsbD_ushiftRight]
      exact h (1 + i) (by omega)

/-- The 256 table entries are what eight reflected steps give: a check of every entry. -/
theorem table_spec (i : Nat) (hi : i < 256) : crc32Table.getD i 0 = rshN 8 (BitVec.ofNat 32 i) := by
  have key : ∀ j : Fin 256, crc32Table.getD j.val 0 = rshN 8 (BitVec.ofNat 32 j.val) := by decide +kernel
  exact key ⟨i, hi⟩

/-- One step of the table-driven loop, vm_exec.c 478. -/
def fastStep (crc : BitVec 32) (b : Byte) : BitVec 32 :=
  (crc >>> 8) ^^^ crc32Table.getD ((crc ^^^ b.setWidth 32) &&& 0xFF).toNat 0

theorem fastStep_eq (crc : BitVec 32) (b : Byte) : fastStep crc b = rshN 8 (crc ^^^ b.setWidth 32) := by
  unfold fastStep
  generalize hx : crc ^^^ b.setWidth 32 = x
  have hlt : (x &&& 0xFF).toNat < 256 := by
    rw [BitVec.toNat_and]
    exact Nat.lt_of_le_of_lt Nat.and_le_right (by decide)
  rw [table_spec _ hlt]
  have e1 : (BitVec.ofNat 32 (x &&& 0xFF).toNat) = x &&& 0xFF := by simp
  rw [e1]
  have hsplit : x = (x &&& ~~~0xFF) ^^^ (x &&& 0xFF) := by
    apply BitVec.eq_of_getLsbD_eq
    intro i hi
    simp only [BitVec.getLsbD_xor, BitVec.getLsbD_and, BitVec.getLsbD_not, hi, decide_true, Bool.true_and]
    generalize (0xFF : BitVec 32).getLsbD i = q
    generalize x.getLsbD i = p
    cases p <;> cases q <;> rfl
  have hhi : rshN 8 (x &&& ~~~0xFF) = crc >>> 8 := by
    rw [rshN_shift]
    · apply BitVec.eq_of_getLsbD_eq
      intro i hi
      rw [BitVec.getLsbD_ushiftRight, BitVec.getLsbD_ushiftRight, BitVec.getLsbD_and, BitVec.getLsbD_not, ff_bit, ← hx,
        BitVec.getLsbD_xor, BitVec.getLsbD_setWidth]
      by_cases h32 : 8 + i < 32
      · have h2 : b.getLsbD (8 + i) = false := BitVec.getLsbD_of_ge _ _ (by omega)
        simp [h32, h2]
      · have h2 : crc.getLsbD (8 + i) = false := BitVec.getLsbD_of_ge _ _ (by omega)
        simp [h32, h2]
    · intro i hi
      rw [BitVec.getLsbD_and, BitVec.getLsbD_not, ff_bit]
      simp [hi]
  rw [show rshN 8 x = rshN 8 ((x &&& ~~~0xFF) ^^^ (x &&& 0xFF)) from by rw [← hsplit], rshN_xor, hhi]

/-- Reflection turns the register of width 32 with polynomial 0x04C11DB7 into the reflected register. -/
theorem reflect_sh32 (x : BitVec 32) : reflect (sh32 0x04C11DB7 x) 32 = rsh (reflect x 32) := by
  apply BitVec.eq_of_getLsbD_eq
  intro i hi
  rw [getLsbD_reflect _ _ (by omega), getLsbD_rsh, getLsbD_reflect _ _ (by omega), getLsbD_reflect _ _ (by omega)]
  rw [getLsbD_sh32 _ _ _ (by omega)]
  have hp : (0x04C11DB7 : BitVec 32).getLsbD (32 - 1 - i) = (0xEDB88320 : BitVec 32).getLsbD i := by
    have key : ∀ j : Fin 32, (0x04C11DB7 : BitVec 32).getLsbD (32 - 1 - j.val) = (0xEDB88320 : BitVec 32).getLsbD j.val := by
      decide
    exact key ⟨i, hi⟩
  rw [hp]
  simp only [hi, decide_true, Bool.true_and, Nat.sub_zero, show (0 < 32) from by omega]
  by_cases h1 : 1 + i < 32
  · have e : 32 - 1 - (1 + i) = 32 - 1 - i - 1 := by omega
    have h0 : 0 < 32 - 1 - i := by omega
    simp only [h1, e, h0, decide_true, Bool.true_and]
  · have h0 : ¬ (0 < 32 - 1 - i) := by omega
    simp only [h1, h0, decide_false, Bool.false_and]

theorem reflect_crcBits32 (n : Nat) (x : BitVec 32) :
    reflect (crcBits32 0x04C11DB7 n x) 32 = rshN n (reflect x 32) := by
  induction n generalizing x with
  | zero => rfl
  | succ n ih => rw [crcBits32_succ, ih, reflect_sh32]; rfl

theorem reflect_xor (a b : BitVec 32) : reflect (a ^^^ b) 32 = reflect a 32 ^^^ reflect b 32 := by
  apply BitVec.eq_of_getLsbD_eq
  intro i hi
  rw [BitVec.getLsbD_xor, getLsbD_reflect _ _ (by omega), getLsbD_reflect _ _ (by omega), getLsbD_reflect _ _ (by omega),
    BitVec.getLsbD_xor]
  simp [hi]

theorem reflect_octet (b : Byte) : reflect (octetBits true true b) 32 = b.setWidth 32 := by
  have key : ∀ j : Fin 256, reflect (octetBits true true (BitVec.ofFin j)) 32 = (BitVec.ofFin j : Byte).setWidth 32 := by
    decide +kernel
  exact key b.toFin

/-- The table-driven loop is the reflected image of the bitwise loop. -/
theorem fold_reflect (data : List Byte) (init : BitVec 32) :
    reflect (data.foldl (crcByte true true 0x04C11DB7) init) 32 = data.foldl fastStep (reflect init 32) := by
  induction data generalizing init with
  | nil => rfl
  | cons b bs ih =>
    rw [List.foldl_cons, ih, List.foldl_cons]
    congr 1
    rw [crcByte_eq]
    unfold crcRun
    simp only [if_true]
    rw [reflect_crcBits32, reflect_xor, reflect_octet, fastStep_eq]

end Cnd
