/-
  C54: the disassembler and the VM agree on instruction boundaries.
-/
import Verif.Inspect
import Verif.Walk

namespace Cnd

/-! ### Specification -/

/-- The VM's instruction boundaries of a straight-line program starting at offset `off`: the program is a sequence of complete
instructions, none of them of the two kinds excluded in the partial theorem. -/
inductive Bounds : Nat → List Byte → List Nat → Prop
  | nil (off) : Bounds off [] []
  | cons {off op l n bs} : vmLen (op :: l) = some n → op ≠ 0x3A → op ≠ 0x53 →
      Bounds (off + n) ((op :: l).drop n) bs → Bounds off (op :: l) (off :: bs)

/-! ### Proof -/

theorem adv_ok {n : Nat} {l : List Byte} (h : n ≤ l.length) : adv n l = l.drop n := by
  unfold adv; rw [if_neg (by omega)]

theorem advN_ok (k n : Nat) (l : List Byte) (h : k * n ≤ l.length) : advN k n l = l.drop (k * n) := by
  induction k generalizing l with
  | zero => simp [advN]
  | succ k ih =>
    unfold advN
    have : (k + 1) * n = k * n + n := Nat.succ_mul k n
    rw [adv_ok (by omega), ih _ (by rw [List.length_drop]; omega), List.drop_drop]
    congr 1; omega

theorem insVal_ok {n : Nat} {l : List Byte} (h : n ≤ l.length) : insVal n l = (leWord (l.take n)).toNat := by
  unfold insVal; rw [if_neg (by omega)]

/-- An integer type tag and its size. -/
theorem tyTag_size {w : Word} {t : Ty} (h : tyTag w = some t) : insSize w.toNat = t.size ∧ w.toNat ≠ 0x18 ∧ w.toNat ≠ 0x19 ∧
    (t.signed = false → w.toNat = 0x10 ∨ w.toNat = 0x11 ∨ w.toNat = 0x12 ∨ w.toNat = 0x13) := by
  unfold tyTag at h
  split at h <;> first | (cases h; done) | (rename_i hw; cases h; rw [hw]; simp [insSize, Ty.size, Ty.signed])

theorem adv2_ok (a b : Nat) {l : List Byte} (h : a + b ≤ l.length) : adv b (adv a l) = l.drop (a + b) := by
  rw [adv_ok (n := a) (by omega), adv_ok (by rw [List.length_drop]; omega), List.drop_drop]

theorem adv4_ok (a b c d : Nat) {l : List Byte} (h : a + b + c + d ≤ l.length) :
    adv d (adv c (adv b (adv a l))) = l.drop (a + b + c + d) := by
  rw [adv2_ok a b (by omega), adv2_ok c d (by rw [List.length_drop]; omega), List.drop_drop]
  congr 1; omega

theorem take_one_take (l : List Byte) (n : Nat) (h : n + 1 ≤ l.length) :
    insVal 1 (l.drop n) = (leWord ((l.drop n).take 1)).toNat := insVal_ok (by rw [List.length_drop]; omega)

/-- Opcodes whose operands the disassembler reads. -/
def insHandled : List Nat :=
  [0x05, 0x07, 0x10, 0x11, 0x12, 0x13, 0x14, 0x15, 0x16, 0x17, 0x18, 0x19, 0x1A, 0x03, 0x30, 0x31, 0x32, 0x33, 0x35, 0x36, 0x37,
   0x20, 0x21, 0x22, 0x34, 0x3B, 0x39, 0x41, 0x40, 0x42, 0x43, 0x45, 0x46, 0x47, 0x48, 0x4C, 0x4D, 0x44, 0x49, 0x4B, 0x51, 0x52, 0x50,
   0x60, 0x78, 0x61, 0x65, 0x23, 0x24]

theorem ins_other (op : Byte) (l : List Byte) (h : decodeOp op = .other) : insOperands op l = some l := by
  have key : ∀ m : Fin 256, decodeOp (BitVec.ofFin m) = .other → m.val ∉ insHandled := by decide +kernel
  have hn : op.toNat ∉ insHandled := key op.toFin h
  unfold insOperands
  split
  all_goals first
    | rfl
    | (rename_i hk; rw [hk] at hn; exact absurd (by decide) hn)

set_option maxHeartbeats 1000000 in
/-- One instruction: if it is complete, the disassembler moves on by its length. -/
theorem ins_len (op : Byte) (l : List Byte) (m : Nat) (h : opArgs (decodeOp op) l = some m) (hm : m ≤ l.length)
    (h1 : op.toNat ≠ 0x3A) (h2 : op.toNat ≠ 0x53) : insOperands op l = some (l.drop m) := by
  by_cases hop : decodeOp op = .other
  · rw [hop] at h
    cases h
    exact ins_other op l hop
  unfold decodeOp at h
  split at h
  case h_38 hk =>
    -- CONST_CHECK
    unfold insOperands
    rw [hk]
    show some (adv (insSize (insVal 1 (adv 2 l))) (adv 1 (adv 2 l))) = _
    simp only [opArgs, Option.map_eq_some_iff] at h
    obtain ⟨t, ht, rfl⟩ := h
    obtain ⟨s1, -, -, -⟩ := tyTag_size ht
    rw [adv2_ok 2 1 (by omega), adv_ok (n := 2) (by omega), take_one_take _ _ (by omega), s1,
      adv_ok (by rw [List.length_drop]; omega), List.drop_drop]
  case h_39 hk =>
    -- CONST_WRITE
    unfold insOperands
    rw [hk]
    simp only [opArgs] at h
    split at h
    case h_2 => cases h
    case h_1 t ht =>
      split at h
      · cases h
      · next hs =>
        obtain ⟨s1, -, -, s4⟩ := tyTag_size ht
        cases h
        have hv : insVal 1 l = (leWord (l.take 1)).toNat := insVal_ok (by omega)
        show some (if insVal 1 l = 0x10 ∨ insVal 1 l = 0x11 ∨ insVal 1 l = 0x12 ∨ insVal 1 l = 0x13 then
          adv (insSize (insVal 1 l)) (adv 1 l) else adv 1 l) = _
        rw [hv, if_pos (s4 (by simpa using hs)), s1, adv2_ok 1 _ (by omega)]
  case h_40 hk =>
    -- RANGE_CHECK
    unfold insOperands
    rw [hk]
    simp only [opArgs] at h
    show (if insVal 1 l = 0x18 then if (adv 1 l).length < 8 then none else some ((adv 1 l).drop 8)
      else if insVal 1 l = 0x19 then if (adv 1 l).length < 16 then none else some ((adv 1 l).drop 16)
      else some (adv (insSize (insVal 1 l)) (adv (insSize (insVal 1 l)) (adv 1 l)))) = _
    have hl : 1 ≤ l.length := by
      split at h
      · cases h; omega
      · split at h
        · cases h; omega
        · split at h
          · cases h; omega
          · cases h
    have hv : insVal 1 l = (leWord (l.take 1)).toNat := insVal_ok hl
    rw [hv, adv_ok hl]
    split at h
    case h_1 t ht =>
      obtain ⟨s1, s2, s3, -⟩ := tyTag_size ht
      cases h
      rw [if_neg s2, if_neg s3, s1, adv2_ok _ _ (by rw [List.length_drop]; omega), List.drop_drop]
      congr 2; omega
    case h_2 =>
      split at h
      · next h18 =>
        cases h
        rw [if_pos (by rw [h18]; rfl), if_neg (by rw [List.length_drop]; omega), List.drop_drop]
      · next h18 =>
        split at h
        · next h19 =>
          cases h
          rw [if_neg (by rw [h19]; decide), if_pos (by rw [h19]; rfl), if_neg (by rw [List.length_drop]; omega), List.drop_drop]
        · cases h
  case h_49 hk =>
    -- ENUM_CHECK
    unfold insOperands
    rw [hk]
    show some (advN (insVal 2 (adv 1 l)) (insSize (insVal 1 l)) (adv 2 (adv 1 l))) = _
    simp only [opArgs, Option.map_eq_some_iff] at h
    obtain ⟨t, ht, rfl⟩ := h
    obtain ⟨s1, -, -, -⟩ := tyTag_size ht
    have hv : insVal 1 l = (leWord (l.take 1)).toNat := insVal_ok (by omega)
    have hv2 : insVal 2 (l.drop 1) = (leWord ((l.drop 1).take 2)).toNat := insVal_ok (by rw [List.length_drop]; omega)
    rw [adv2_ok 1 2 (by omega), adv_ok (n := 1) (by omega), hv, hv2, s1, advN_ok _ _ _ (by rw [List.length_drop]; omega),
      List.drop_drop]
  case h_50 hk =>
    -- TRANS_POLY
    unfold insOperands
    rw [hk]
    show some (advN (insVal 1 l) 8 (adv 1 l)) = _
    simp only [opArgs] at h
    cases h
    have hv : insVal 1 l = (leWord (l.take 1)).toNat := insVal_ok (by omega)
    rw [hv, adv_ok (n := 1) (by omega), advN_ok _ _ _ (by rw [List.length_drop]; omega), List.drop_drop]
  case h_51 hk =>
    -- TRANS_SPLINE
    unfold insOperands
    rw [hk]
    show some (advN (2 * insVal 1 l) 8 (adv 1 l)) = _
    simp only [opArgs] at h
    cases h
    have hv : insVal 1 l = (leWord (l.take 1)).toNat := insVal_ok (by omega)
    rw [hv, adv_ok (n := 1) (by omega), advN_ok _ _ _ (by rw [List.length_drop]; omega), List.drop_drop]
    congr 2; omega
  case h_103 => exact absurd (by unfold decodeOp; split <;> first | contradiction | rfl) hop
  all_goals first
    | contradiction
    | (rename_i hk
       unfold insOperands
       rw [hk]
       simp only [opArgs, Option.some.injEq] at h
       subst h
       first
         | rfl
         | exact congrArg some (adv_ok hm)
         | exact congrArg some (adv2_ok 2 2 hm)
         | exact congrArg some (adv2_ok 2 1 hm)
         | exact congrArg some (adv2_ok 2 4 hm)
         | exact congrArg some (adv2_ok 8 8 hm)
         | exact congrArg some (adv4_ok 2 2 2 1 hm)
         | exact congrArg some (adv4_ok 4 4 4 1 hm))

/-- C54 for straight-line programs made of complete instructions, without ARR_EOF and SWITCH_TABLE: the offsets printed are
exactly the VM's instruction boundaries. Missing: those two instructions (false, see below) and incomplete ones. -/
theorem C54_boundaries_partial (off : Nat) (prog : List Byte) (bs : List Nat) (h : Bounds off prog bs) :
    insWalk prog.length off prog = some bs := by
  have key : ∀ fuel, prog.length ≤ fuel → insWalk fuel off prog = some bs := by
    induction h with
    | nil off => intro fuel _; cases fuel <;> rfl
    | @cons off op l n bs hv h1 h2 hb ih =>
      intro fuel hf
      simp only [List.length_cons] at hf
      obtain ⟨fuel, rfl⟩ : ∃ f, fuel = f + 1 := ⟨fuel - 1, by omega⟩
      unfold vmLen at hv
      dsimp only at hv
      split at hv
      · cases hv
      · next m hm =>
        split at hv
        · next hle =>
          cases hv
          have hne1 : op.toNat ≠ 0x3A := fun e => h1 (BitVec.eq_of_toNat_eq e)
          have hne2 : op.toNat ≠ 0x53 := fun e => h2 (BitVec.eq_of_toNat_eq e)
          unfold insWalk
          rw [ins_len op l m hm hle hne1 hne2]
          dsimp only
          have e1 : off + (l.length + 1 - (l.drop m).length) = off + (m + 1) := by rw [List.length_drop]; omega
          rw [e1]
          have e2 : (op :: l).drop (m + 1) = l.drop m := rfl
          rw [e2] at ih
          rw [ih fuel (by rw [List.length_drop]; omega)]
          rfl
        · cases hv
  exact key _ (Nat.le_refl _)

/-- `IO_BIT_U key 5; ENUM_CHECK u8 {1,2}; JUMP 0; EMIT u8` -/
example : insWalk 20 0 [0x20, 1, 0, 5, 0x4B, 0x10, 2, 0, 1, 2, 0x52, 0, 0, 0, 0, 0x65, 0x10] = some [0, 4, 10, 15] :=
  C54_boundaries_partial 0 [0x20, 1, 0, 5, 0x4B, 0x10, 2, 0, 1, 2, 0x52, 0, 0, 0, 0, 0x65, 0x10] _
    (.cons rfl (by decide) (by decide) (.cons rfl (by decide) (by decide) (.cons rfl (by decide) (by decide)
      (.cons rfl (by decide) (by decide) (.nil _)))))

/-- The key of a read-to-end array is printed as instructions: `ARR_EOF key 0; IO_U8 key 0; ARR_END` has boundaries
0, 3, 6 but offsets 0, 1, 2, 3, 6 are printed. -/
theorem C54_false_eof : ∃ prog : List Byte, vmLen prog = some 3 ∧ vmLen (prog.drop 3) = some 3 ∧ vmLen (prog.drop 6) = some 1 ∧
    prog.length = 7 ∧ insWalk 7 0 prog = some [0, 1, 2, 3, 6] :=
  ⟨[0x3A, 0, 0, 0x10, 0, 0, 0x38], by decide +kernel, by decide +kernel, by decide +kernel, rfl, by decide +kernel⟩

/-- The operands of a jump-table switch are printed as instructions too. -/
theorem C54_false_table : ∃ prog : List Byte, vmLen prog = some 7 ∧ (insWalk 7 0 prog).map (·.take 2) = some [0, 1] :=
  ⟨[0x53, 0, 0, 0, 0, 0, 0], by decide +kernel, by decide +kernel⟩

/-- A file that ends inside a floating-point range check makes the pointer run behind the end of the file. -/
theorem C54_past_end : insWalk 3 0 [0x42, 0x19, 0] = none := by decide +kernel

end Cnd
