/-
  C59, switches: the table, the jumps to its end and the patched distances.
-/
import Verif.Props.SourceField

namespace Cnd

/-! ### Patching -/

@[simp] theorem u32le_length (n : Nat) : (u32le n).length = 4 := by simp [u32le]
@[simp] theorem u16le_length (n : Nat) : (u16le n).length = 2 := by simp [u16le]

theorem splice_mid (A x y B : List Byte) (h : x.length = y.length) : splice (A ++ (x ++ B)) A.length y = A ++ (y ++ B) := by
  unfold splice
  rw [List.take_left, List.append_assoc, ← List.drop_drop, List.drop_left, ← h, List.drop_left]

theorem cst_patch (C : Ctx) (k : Bool × Nat) (g : Gen) (p : Tok) (ts : List Tok) (A x y B : List Byte) (n : Nat) (hn : n = A.length)
    (h : x.length = y.length) : (cst C k g (A ++ (x ++ B)) p ts).patch n y = cst C k g (A ++ (y ++ B)) p ts := by
  subst hn
  unfold CSt.patch
  rw [if_neg (by simp only [cst_out, List.length_append]; omega), cst_out, splice_mid A x y B h]
  rfl

/-! ### The table -/

theorem u32_mod (n : Nat) : leBytes 4 (BitVec.ofNat 64 (n % 2 ^ 32)) = u32le n := by
  apply leBytes_congr
  simp only [BitVec.toNat_ofNat]
  omega

theorem fold_min (x : Word) (cs : List (Word × Word)) :
    (minCase x cs).toNat = (cs.map fun c => c.1.toNat).foldl Nat.min x.toNat := by
  unfold minCase
  induction cs generalizing x with
  | nil => rfl
  | cons c cs ih =>
    simp only [List.foldl_cons, List.map_cons]
    rw [ih]
    congr 1
    show _ = min x.toNat c.1.toNat
    by_cases h : c.1.ult x = true
    · rw [if_pos h]; simp only [BitVec.ult, decide_eq_true_eq] at h; omega
    · rw [if_neg h]; simp only [BitVec.ult, decide_eq_true_eq] at h; omega

theorem fold_max (x : Word) (cs : List (Word × Word)) :
    (maxCase x cs).toNat = (cs.map fun c => c.1.toNat).foldl Nat.max x.toNat := by
  unfold maxCase
  induction cs generalizing x with
  | nil => rfl
  | cons c cs ih =>
    simp only [List.foldl_cons, List.map_cons]
    rw [ih]
    congr 1
    show _ = max x.toNat c.1.toNat
    by_cases h : x.ult c.1 = true
    · rw [if_pos h]; simp only [BitVec.ult, decide_eq_true_eq] at h; omega
    · rw [if_neg h]; simp only [BitVec.ult, decide_eq_true_eq] at h; omega

theorem fold_min_le (l : List Nat) (a : Nat) : l.foldl Nat.min a ≤ a := by
  induction l generalizing a with
  | nil => exact Nat.le_refl _
  | cons x xs ih => exact Nat.le_trans (ih _) (Nat.min_le_left _ _)

theorem le_fold_max (l : List Nat) (a : Nat) : a ≤ l.foldl Nat.max a := by
  induction l generalizing a with
  | nil => exact Nat.le_refl _
  | cons x xs ih => exact Nat.le_trans (Nat.le_max_left _ _) (ih _)

/-- What the compiler keeps of a case. -/
def offOf (c : Word × Nat) : Word × Word := (c.1, BitVec.ofNat 64 (c.2 % 2 ^ 32))

theorem offs_map (cs : List (Word × Nat)) : ((cs.map offOf).map fun c => c.1.toNat) = cs.map fun c => c.1.toNat := by
  rw [List.map_map]; rfl

theorem target_eq (l : List (Option Word × Nat)) (d : Nat) (v : Word) :
    leBytes 4 (caseTarget ((caseAt l).map offOf) (BitVec.ofNat 64 (d % 2 ^ 32)) v) = u32le ((l.lookup (some v)).getD d) := by
  unfold caseTarget
  induction l with
  | nil => exact u32_mod d
  | cons x xs ih =>
    obtain ⟨lab, n⟩ := x
    cases lab with
    | none =>
      have e : caseAt ((none, n) :: xs) = caseAt xs := rfl
      rw [e, ih]
      rfl
    | some w =>
      have e : caseAt ((some w, n) :: xs) = (w, n) :: caseAt xs := rfl
      rw [e, List.map_cons, List.find?_cons]
      by_cases hw : w = v
      · subst hw
        have : ((offOf (w, n)).1 == w) = true := by simp [offOf]
        rw [this]
        simp only [List.lookup, beq_self_eq_true, Option.getD_some]
        exact u32_mod n
      · have h1 : ((offOf (w, n)).1 == v) = false := by simpa [offOf] using hw
        have h2 : ((some v : Option Word) == some w) = false := by
          simpa using fun q : v = w => hw q.symm
        rw [h1]
        simp only [List.lookup, h2]
        exact ih

theorem table_eq (l : List (Option Word × Nat)) (fix : List Nat) (base size : Nat) :
    tableEmit ⟨caseAt l, fix, l.lookup none⟩ (base + size) base = tableOf l size := by
  unfold tableEmit tableOf
  have hoff : (fun c : Word × Nat => (c.1, BitVec.ofNat 64 (c.2 % 2 ^ 32))) = offOf := rfl
  simp only [hoff]
  have hlin : (0x51, u16le ((caseAt l).map offOf).length ++
        leBytes 4 (BitVec.ofNat 64 (((l.lookup none).getD (base + size + (6 + ((caseAt l).map offOf).length * 12) - base)) % 2 ^ 32)) ++
        (((caseAt l).map offOf).map fun c => leBytes 8 c.1 ++ leBytes 4 c.2).flatten) =
      ((0x51, u16le (caseAt l).length ++ u32le ((l.lookup none).getD (size + 6 + 12 * (caseAt l).length)) ++
        (caseAt l).flatMap fun c => leBytes 8 c.1 ++ u32le c.2) : Byte × List Byte) := by
    have e1 : base + size + (6 + (caseAt l).length * 12) - base = size + 6 + 12 * (caseAt l).length := by omega
    rw [List.length_map, e1, u32_mod, List.map_map, List.flatMap]
    congr 3
    apply List.map_congr_left
    intro c _
    show leBytes 8 c.1 ++ leBytes 4 (BitVec.ofNat 64 (c.2 % 2 ^ 32)) = _
    rw [u32_mod]
  cases hc : caseAt l with
  | nil =>
    rw [hc] at hlin
    simp only [List.map_nil, useJumpTable, Bool.false_eq_true, if_false, List.length_nil, Nat.not_lt_zero, false_and, gt_iff_lt] at hlin ⊢
    exact hlin
  | cons c cs =>
    have hmn := fold_min (offOf c).1 (cs.map offOf)
    have hmx := fold_max (offOf c).1 (cs.map offOf)
    rw [offs_map] at hmn hmx
    have elo : ((c :: cs).map fun c => c.1.toNat).foldl Nat.min (2 ^ 64) = (minCase (offOf c).1 (cs.map offOf)).toNat := by
      rw [hmn, List.map_cons, List.foldl_cons]
      congr 1
      show min (2 ^ 64) c.1.toNat = c.1.toNat
      have := c.1.isLt
      omega
    have ehi : ((c :: cs).map fun c => c.1.toNat).foldl Nat.max 0 = (maxCase (offOf c).1 (cs.map offOf)).toNat := by
      rw [hmx, List.map_cons, List.foldl_cons]
      exact congrArg (fun n => List.foldl Nat.max n _) (Nat.zero_max _)
    rw [elo, ehi]
    have hle : (minCase (offOf c).1 (cs.map offOf)).toNat ≤ (maxCase (offOf c).1 (cs.map offOf)).toNat := by
      rw [hmn, hmx]
      exact Nat.le_trans (fold_min_le _ _) (le_fold_max _ _)
    have hsub : (maxCase (offOf c).1 (cs.map offOf) - minCase (offOf c).1 (cs.map offOf)).toNat =
        (maxCase (offOf c).1 (cs.map offOf)).toNat - (minCase (offOf c).1 (cs.map offOf)).toNat := by
      have := (maxCase (offOf c).1 (cs.map offOf)).isLt
      have := (minCase (offOf c).1 (cs.map offOf)).isLt
      rw [BitVec.toNat_sub]
      omega
    rw [hc] at hlin
    have htgt := target_eq l
    rw [hc] at htgt
    simp only [List.map_cons, useJumpTable, hsub, List.length_cons, List.length_map] at hlin htgt ⊢
    generalize hMN : minCase (offOf c).1 (cs.map offOf) = mn at *
    generalize hMX : maxCase (offOf c).1 (cs.map offOf) = mx at *
    by_cases hj : cs.length + 1 > 3 ∧ mx.toNat - mn.toNat < 256
    · rw [if_pos (by simpa using hj), if_pos hj]
      have e1 : base + size + (20 + (mx.toNat - mn.toNat + 1) * 4) - base = size + 20 + 4 * (mx.toNat - mn.toNat + 1) := by omega
      rw [e1, u32_mod, BitVec.ofNat_toNat, BitVec.ofNat_toNat, BitVec.setWidth_eq, BitVec.setWidth_eq]
      congr 2
      unfold tableOffsets
      rw [List.map_map, List.flatMap]
      congr 1
      apply List.map_congr_left
      intro i _
      rw [Function.comp_apply, htgt]
      congr 3
      apply congrArg
      apply BitVec.eq_of_toNat_eq
      simp
    · rw [if_neg (by simpa using hj), if_neg hj]
      exact hlin

/-! ### The jumps at the end of the cases -/

/-- The cases before their jumps have a target. -/
def rawArms : List (Option Word × List Byte) → List Byte
  | [] => []
  | x :: xs => x.2 ++ (0x52 :: ([0, 0, 0, 0] ++ rawArms xs))

/-- Where the jumps are, if the cases begin at `n`. -/
def fixAt (n : Nat) : List (Option Word × List Byte) → List Nat
  | [] => []
  | x :: xs => (n + x.2.length) :: fixAt (n + x.2.length + 5) xs

theorem armsSize_cons (x : Option Word × List Byte) (xs : List (Option Word × List Byte)) :
    armsSize (x :: xs) = x.2.length + 5 + armsSize xs := by simp [armsSize]

theorem rawArms_length (l : List (Option Word × List Byte)) : (rawArms l).length = armsSize l := by
  induction l with
  | nil => rfl
  | cons x xs ih =>
    rw [armsSize_cons, rawArms]
    simp only [List.length_append, List.length_cons, List.length_nil, ih]
    omega

theorem fix_step (C : Ctx) (k : Bool × Nat) (g : Gen) (p : Tok) (ts : List Tok) (l : List (Option Word × List Byte)) (A T : List Byte) (start : Nat)
    (hs : start = A.length + armsSize l) :
    (fixAt A.length l).foldl (fun s j => s.patch (j + 1) (u32le (start + T.length - (j + 5)))) (cst C k g (A ++ (rawArms l ++ T)) p ts) =
      cst C k g (A ++ (armsCode T.length l ++ T)) p ts := by
  induction l generalizing A with
  | nil => rfl
  | cons x xs ih =>
    rw [armsSize_cons] at hs
    rw [fixAt, List.foldl_cons]
    have e1 : A ++ (rawArms (x :: xs) ++ T) = (A ++ x.2 ++ [0x52]) ++ ([0, 0, 0, 0] ++ (rawArms xs ++ T)) := by
      simp [rawArms]
    have e2 : start + T.length - (A.length + x.2.length + 5) = armsSize xs + T.length := by omega
    rw [e1, e2, cst_patch C k g p ts (A ++ x.2 ++ [0x52]) [0, 0, 0, 0] (u32le (armsSize xs + T.length)) _ _ (by simp; omega) (by simp)]
    have e3 : (A ++ x.2 ++ [0x52]) ++ (u32le (armsSize xs + T.length) ++ (rawArms xs ++ T)) =
        (A ++ x.2 ++ [0x52] ++ u32le (armsSize xs + T.length)) ++ (rawArms xs ++ T) := by simp
    have e4 : A.length + x.2.length + 5 = (A ++ x.2 ++ [0x52] ++ u32le (armsSize xs + T.length)).length := by simp; omega
    rw [e3, e4, ih (A ++ x.2 ++ [0x52] ++ u32le (armsSize xs + T.length)) (by rw [← e4]; omega)]
    simp [armsCode]

theorem table_op (l : List (Option Word × Nat)) (size : Nat) : (tableOf l size).1 = 0x51 ∨ (tableOf l size).1 = 0x53 := by
  unfold tableOf
  dsimp only
  split
  · exact .inr rfl
  · exact .inl rfl

/-- The end of a switch. -/
theorem switchEnd_step (C : Ctx) (k : Bool × Nat) (g : Gen) (p : Tok) (ks : List Tok) (key : Nat) (l : List (Option Word × List Byte)) (o : List Byte)
    (hne : NoErr ks) :
    switchEnd ⟨caseAt (armsAt 0 l), fixAt (o.length + 7) l, (armsAt 0 l).lookup none⟩ o.length
      (cst C k g (o ++ (0x51 :: (u16le key ++ [0, 0, 0, 0])) ++ rawArms l) p (tRb :: ks)) = cst C k g (o ++ switchCode key l) tRb ks := by
  unfold switchEnd
  rw [cst_eat .rbrace rfl hne]
  have hl : (cst C k g (o ++ (0x51 :: (u16le key ++ [0, 0, 0, 0])) ++ rawArms l) tRb ks).out.length = o.length + 7 + armsSize l := by
    simp only [cst_out, List.length_append, List.length_cons, List.length_nil, u16le_length, rawArms_length]
  dsimp only
  rw [hl, table_eq]
  generalize ht : tableOf (armsAt 0 l) (armsSize l) = t
  have e1 : o ++ (0x51 :: (u16le key ++ [0, 0, 0, 0])) ++ rawArms l = o ++ ([0x51] ++ (u16le key ++ ([0, 0, 0, 0] ++ rawArms l))) := by simp
  have h1 : (if t.1 = 0x53 then (cst C k g (o ++ (0x51 :: (u16le key ++ [0, 0, 0, 0])) ++ rawArms l) tRb ks).patch o.length [0x53]
      else cst C k g (o ++ (0x51 :: (u16le key ++ [0, 0, 0, 0])) ++ rawArms l) tRb ks) =
      cst C k g (o ++ ([t.1] ++ (u16le key ++ ([0, 0, 0, 0] ++ rawArms l)))) tRb ks := by
    rw [e1]
    rcases table_op (armsAt 0 l) (armsSize l) with h | h
    · rw [ht] at h; rw [h, if_neg (by decide)]
    · rw [ht] at h; rw [h, if_pos rfl, cst_patch C k g tRb ks o [0x51] [0x53] _ _ rfl rfl]
  rw [h1, cst_put]
  have e2 : o ++ ([t.1] ++ (u16le key ++ ([0, 0, 0, 0] ++ rawArms l))) ++ t.2 =
      (o ++ [t.1] ++ u16le key ++ [0, 0, 0, 0]) ++ (rawArms l ++ t.2) := by simp
  have e3 : o.length + 7 = (o ++ [t.1] ++ u16le key ++ [0, 0, 0, 0]).length := by simp
  rw [e2, e3, fix_step C k g tRb ks l _ t.2 _ rfl, ← e3]
  have e4 : o ++ [t.1] ++ u16le key ++ [0, 0, 0, 0] ++ (armsCode t.2.length l ++ t.2) =
      (o ++ [t.1] ++ u16le key) ++ ([0, 0, 0, 0] ++ (armsCode t.2.length l ++ t.2)) := by simp
  have e5 : o.length + 7 + armsSize l - (o.length + 7) = armsSize l := by omega
  rw [e4, e5, cst_patch C k g tRb ks (o ++ [t.1] ++ u16le key) [0, 0, 0, 0] (u32le (armsSize l)) _ _ (by simp) (by simp)]
  unfold switchCode
  rw [ht]
  simp

end Cnd
