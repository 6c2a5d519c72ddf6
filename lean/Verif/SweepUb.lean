import Verif.VMLemmas
/-
  Sweep over all opcodes: where out-of-bounds accesses can come from (used for C05, C06, C31).
-/
set_option linter.unusedVariables false

namespace Cnd
variable {σ : Type}

/-- A pending polynomial or spline transform refers to coefficients inside the program. -/
def TransIn (E : Env σ) (s : St σ) : Prop :=
  (s.trans = .poly → s.polyPos + 8 * s.polyCnt ≤ E.prog.length) ∧
  (s.trans = .spline → s.splPos + 16 * s.splCnt ≤ E.prog.length)

/-- Undefined accesses need a special instruction once cursor and transform are in range. -/
def UbOk (E : Env σ) (enum tbl : Prop) (s : St σ) (u : UB) : Prop :=
  (s.cursor ≤ s.buf.length → u = .dataOOB → enum) ∧
  (u = .codeOOB → tbl)

/-- An enum check at `s` (operands at `s.ip`) whose field would start before the packet. -/
def EnumUnder (E : Env σ) (s : St σ) : Prop :=
  ∃ t, tyTag (fetch E.prog s.ip 1).1 = some t ∧ s.cursor < t.size

/-- A jump-table dispatch at `s` (operands at `s.ip`) whose table claims so many entries that the
64-bit slot address wraps around. -/
def TableWrap (E : Env σ) (s : St σ) : Prop :=
  let tbl := (fetch E.prog (fetch E.prog s.ip 2).2 4).2 + (fetch E.prog (fetch E.prog s.ip 2).2 4).1.toNat
  2 ^ 64 ≤ tbl + 24 +
    4 * ((fetch E.prog (tbl + 8) 8).1.toNat - (fetch E.prog tbl 8).1.toNat)

def UbRes (E : Env σ) (enum tbl : Prop) (s : St σ) : Res σ → Prop :=
  Post (TransIn E) (fun _ _ => True) (UbOk E enum tbl s)

theorem decodeOp_transI {b : Byte} {t : Trans} (h : decodeOp b = .transI t) :
    t = .add ∨ t = .sub ∨ t = .mul ∨ t = .div := by
  have H : ∀ b : Byte, (match decodeOp b with
      | .transI t => decide (t = .add ∨ t = .sub ∨ t = .mul ∨ t = .div)
      | _ => true) = true := by decide +kernel
  have := H b
  rw [h] at this
  simpa using this

theorem ibinEval_ub {o : IBin} {a b : Word} {u : UB} (h : ibinEval o a b = .ub u) :
    u ≠ .dataOOB ∧ u ≠ .codeOOB := by
  unfold ibinEval at h
  split at h <;> (try split at h) <;> simp at h <;> subst h <;> simp

theorem fbinEval_ub {F : FloatOps} {o : FBin} {a b : Word} {u : UB} (h : fbinEval F o a b = .ub u) :
    u ≠ .dataOOB ∧ u ≠ .codeOOB := by
  unfold fbinEval at h
  split at h <;> (try split at h) <;> (try split at h) <;> simp at h

theorem unEval_ub {F : FloatOps} {o : Un} {a : Word} {u : UB} (h : unEval F o a = .ub u) :
    u ≠ .dataOOB ∧ u ≠ .codeOOB := by
  unfold unEval at h
  split at h <;> (try split at h) <;> simp at h <;> subst h <;> simp

set_option hygiene false in
macro "ub_close" : tactic => `(tactic|
  first
    | exact hT
    | (refine ⟨?_, ?_⟩ <;>
        first
          | (intro h1 h2; cases h2; done)
          | (intro h2; cases h2; done)
          | (intro h1 h2; exfalso; simp only [List.length_append, List.length_cons, List.length_nil] at *; omega)
          | (intros; exact ⟨_, ‹_›, by dsimp only at *; omega⟩)
          | (intros; unfold TableWrap; dsimp only at *; omega)
          | (intros; exfalso; simp_all; done)
          | (intro h1 h2; exfalso; have := slice_eq_none.1 ‹slice _ _ _ = none›; dsimp only at *; omega)
          | (intro h2; exfalso; have := hT.1 ‹_›; dsimp only at *; omega)
          | (intro h2; exfalso; have := hT.2 ‹_›; dsimp only at *; omega)
          | (intros; exfalso; have := ibinEval_ub ‹ibinEval _ _ _ = _›; simp_all; done)
          | (intros; exfalso; have := fbinEval_ub ‹fbinEval _ _ _ _ = _›; simp_all; done)
          | (intros; exfalso; have := unEval_ub ‹unEval _ _ _ = _›; simp_all; done))
    | (simp_all [TransIn]; done)
    | (simp_all [TransIn]; omega))

theorem handlePrim_ub (E : Env σ) (t : Ty) (op : Byte) (s : St σ) (hT : TransIn E s) :
    UbRes E False False s (handlePrim E t op s) := by
  unfold UbRes handlePrim
  try dsimp only
  vm_sweep
  all_goals ub_close

theorem handleFloat_ub (E : Env σ) (dbl : Bool) (op : Byte) (s : St σ) (hT : TransIn E s) :
    UbRes E False False s (handleFloat E dbl op s) := by
  unfold UbRes handleFloat
  try dsimp only
  vm_sweep
  all_goals ub_close

theorem handleBool_ub (E : Env σ) (op : Byte) (s : St σ) (hT : TransIn E s) :
    UbRes E False False s (handleBool E op s) := by
  unfold UbRes handleBool
  try dsimp only
  vm_sweep
  all_goals ub_close

theorem handleBitU_ub (E : Env σ) (op : Byte) (s : St σ) (hT : TransIn E s) :
    UbRes E False False s (handleBitU E op s) := by
  unfold UbRes handleBitU
  try dsimp only
  vm_sweep
  all_goals ub_close

theorem handleBitI_ub (E : Env σ) (op : Byte) (s : St σ) (hT : TransIn E s) :
    UbRes E False False s (handleBitI E op s) := by
  unfold UbRes handleBitI
  try dsimp only
  vm_sweep
  all_goals ub_close

theorem handleBitBool_ub (E : Env σ) (op : Byte) (s : St σ) (hT : TransIn E s) :
    UbRes E False False s (handleBitBool E op s) := by
  unfold UbRes handleBitBool
  try dsimp only
  vm_sweep
  all_goals ub_close

theorem handlePad_ub (E : Env σ) (s : St σ) (hT : TransIn E s) :
    UbRes E False False s (handlePad E s) := by
  unfold UbRes handlePad
  try dsimp only
  vm_sweep
  all_goals ub_close

theorem handleFill_ub (E : Env σ) (s : St σ) (hT : TransIn E s) :
    UbRes E False False s (handleFill E s) := by
  unfold UbRes handleFill
  try dsimp only
  vm_sweep
  all_goals ub_close

theorem handleStrNull_ub (E : Env σ) (op : Byte) (s : St σ) (hT : TransIn E s) :
    UbRes E False False s (handleStrNull E op s) := by
  unfold UbRes handleStrNull
  try dsimp only
  vm_sweep
  all_goals ub_close

theorem handleStrPre_ub (E : Env σ) (p : Pre) (op : Byte) (s : St σ) (hT : TransIn E s) :
    UbRes E False False s (handleStrPre E p op s) := by
  unfold UbRes handleStrPre
  try dsimp only
  vm_sweep
  all_goals ub_close

theorem handleArrFixed_ub (E : Env σ) (op : Byte) (s : St σ) (hT : TransIn E s) :
    UbRes E False False s (handleArrFixed E op s) := by
  unfold UbRes handleArrFixed
  try dsimp only
  vm_sweep
  all_goals ub_close

theorem handleArrPre_ub (E : Env σ) (p : Pre) (op : Byte) (s : St σ) (hT : TransIn E s) :
    UbRes E False False s (handleArrPre E p op s) := by
  unfold UbRes handleArrPre
  try dsimp only
  vm_sweep
  all_goals ub_close

theorem handleArrEnd_ub (E : Env σ) (s : St σ) (hT : TransIn E s) :
    UbRes E False False s (handleArrEnd E s) := by
  unfold UbRes handleArrEnd
  try dsimp only
  vm_sweep
  all_goals ub_close

theorem handleRaw_ub (E : Env σ) (op : Byte) (s : St σ) (hT : TransIn E s) :
    UbRes E False False s (handleRaw E op s) := by
  unfold UbRes handleRaw
  try dsimp only
  vm_sweep
  all_goals ub_close

theorem handleArrEof_ub (E : Env σ) (s : St σ) (hT : TransIn E s) :
    UbRes E False False s (handleArrEof E s) := by
  unfold UbRes handleArrEof
  try dsimp only
  vm_sweep
  all_goals ub_close

theorem handleArrDynamic_ub (E : Env σ) (op : Byte) (s : St σ) (hT : TransIn E s) :
    UbRes E False False s (handleArrDynamic E op s) := by
  unfold UbRes handleArrDynamic
  try dsimp only
  vm_sweep
  all_goals ub_close

theorem handleConstCheck_ub (E : Env σ) (s : St σ) (hT : TransIn E s) :
    UbRes E False False s (handleConstCheck E s) := by
  unfold UbRes handleConstCheck
  try dsimp only
  vm_sweep
  all_goals ub_close

theorem handleConstWrite_ub (E : Env σ) (s : St σ) (hT : TransIn E s) :
    UbRes E False False s (handleConstWrite E s) := by
  unfold UbRes handleConstWrite
  try dsimp only
  vm_sweep
  all_goals ub_close

theorem handleRange_ub (E : Env σ) (s : St σ) (hT : TransIn E s) :
    UbRes E False False s (handleRange E s) := by
  unfold UbRes handleRange
  try dsimp only
  vm_sweep
  all_goals ub_close

theorem handleCrc_ub (E : Env σ) (w32 : Bool) (s : St σ) (hT : TransIn E s) :
    UbRes E False False s (handleCrc E w32 s) := by
  unfold UbRes handleCrc
  try dsimp only
  vm_sweep
  all_goals ub_close

theorem handleEnum_ub (E : Env σ) (s : St σ) (hT : TransIn E s) :
    UbRes E (EnumUnder E s) False s (handleEnum E s) := by
  unfold UbRes handleEnum
  try dsimp only
  vm_sweep
  all_goals ub_close

theorem handleJump_ub (E : Env σ) (s : St σ) (hT : TransIn E s) :
    UbRes E False False s (handleJump E s) := by
  unfold UbRes handleJump
  try dsimp only
  vm_sweep
  all_goals ub_close

theorem handleJumpIfNot_ub (E : Env σ) (s : St σ) (hT : TransIn E s) :
    UbRes E False False s (handleJumpIfNot E s) := by
  unfold UbRes handleJumpIfNot
  try dsimp only
  vm_sweep
  all_goals ub_close

theorem handleSwitch_ub (E : Env σ) (s : St σ) (hT : TransIn E s) :
    UbRes E False False s (handleSwitch E s) := by
  unfold UbRes handleSwitch
  try dsimp only
  vm_sweep
  all_goals ub_close

theorem handleSwitchTable_ub (E : Env σ) (s : St σ) (hT : TransIn E s) :
    UbRes E False (TableWrap E s) s (handleSwitchTable E s) := by
  unfold UbRes handleSwitchTable
  try dsimp only
  vm_sweep
  all_goals ub_close

theorem handleLoadCtx_ub (E : Env σ) (op : Byte) (s : St σ) (hT : TransIn E s) :
    UbRes E False False s (handleLoadCtx E op s) := by
  unfold UbRes handleLoadCtx
  try dsimp only
  vm_sweep
  all_goals ub_close

theorem handleStoreCtx_ub (E : Env σ) (op : Byte) (s : St σ) (hT : TransIn E s) :
    UbRes E False False s (handleStoreCtx E op s) := by
  unfold UbRes handleStoreCtx
  try dsimp only
  vm_sweep
  all_goals ub_close

theorem handleEmit_ub (E : Env σ) (s : St σ) (hT : TransIn E s) :
    UbRes E False False s (handleEmit E s) := by
  unfold UbRes handleEmit
  try dsimp only
  vm_sweep
  all_goals ub_close

theorem execOp_ub (E : Env σ) (op : Byte) (s : St σ) (hT : TransIn E s) :
    UbRes E (decodeOp op = .enumCheck ∧ EnumUnder E s) (decodeOp op = .switchTable ∧ TableWrap E s) s
      (execOp E op s) := by
  unfold execOp
  cases h : decodeOp op <;>
    simp only [reduceCtorEq, false_and, true_and]
  case io => exact handlePrim_ub _ _ _ _ hT
  case ioF32 => exact handleFloat_ub _ _ _ _ hT
  case ioF64 => exact handleFloat_ub _ _ _ _ hT
  case ioBool => exact handleBool_ub _ _ _ hT
  case bitU => exact handleBitU_ub _ _ _ hT
  case bitI => exact handleBitI_ub _ _ _ hT
  case bitBool => exact handleBitBool_ub _ _ _ hT
  case alignPad => exact handlePad_ub _ _ hT
  case alignFill => exact handleFill_ub _ _ hT
  case strNull => exact handleStrNull_ub _ _ _ hT
  case strPre => exact handleStrPre_ub _ _ _ _ hT
  case arrFixed => exact handleArrFixed_ub _ _ _ hT
  case arrPre => exact handleArrPre_ub _ _ _ _ hT
  case arrEnd => exact handleArrEnd_ub _ _ hT
  case rawBytes => exact handleRaw_ub _ _ _ hT
  case arrEof => exact handleArrEof_ub _ _ hT
  case arrDynamic => exact handleArrDynamic_ub _ _ _ hT
  case constCheck => exact handleConstCheck_ub _ _ hT
  case constWrite => exact handleConstWrite_ub _ _ hT
  case rangeCheck => exact handleRange_ub _ _ hT
  case crc16 => exact handleCrc_ub _ _ _ hT
  case crc32 => exact handleCrc_ub _ _ _ hT
  case enumCheck => exact handleEnum_ub _ _ hT
  case jumpIfNot => exact handleJumpIfNot_ub _ _ hT
  case switch => exact handleSwitch_ub _ _ hT
  case jump => exact handleJump_ub _ _ hT
  case switchTable => exact handleSwitchTable_ub _ _ hT
  case loadCtx => exact handleLoadCtx_ub _ _ _ hT
  case emit => exact handleEmit_ub _ _ hT
  case storeCtx => exact handleStoreCtx_ub _ _ _ hT
  case transI t =>
    have ht := decodeOp_transI h
    apply post_fet
    apply post_run
    refine ⟨?_, ?_⟩ <;> intro he <;> dsimp only at he <;> subst he <;> simp at ht
  all_goals
    unfold UbRes
    try dsimp only
    vm_sweep
    all_goals ub_close

end Cnd
