import Verif.VMLemmas
/-
  Sweep over all opcodes: only SET_ENDIAN_LE and SET_ENDIAN_BE change the byte order (used for C52).
-/

set_option linter.unusedVariables false

namespace Cnd
variable {σ : Type}

structure BeSame (s s' : St σ) : Prop where
  be : s'.be = s.be

def BeRes (s : St σ) : Res σ → Prop := Post (BeSame s) (fun _ => BeSame s) (fun _ => True)

macro "be_close" : tactic => `(tactic| exact ⟨rfl⟩)

theorem handlePrim_be (E : Env σ) (t : Ty) (op : Byte) (s : St σ) :
    BeRes s (handlePrim E t op s) := by
  unfold BeRes handlePrim
  try dsimp only
  vm_sweep
  all_goals be_close

theorem handleFloat_be (E : Env σ) (dbl : Bool) (op : Byte) (s : St σ) :
    BeRes s (handleFloat E dbl op s) := by
  unfold BeRes handleFloat
  try dsimp only
  vm_sweep
  all_goals be_close

theorem handleBool_be (E : Env σ) (op : Byte) (s : St σ) :
    BeRes s (handleBool E op s) := by
  unfold BeRes handleBool
  try dsimp only
  vm_sweep
  all_goals be_close

theorem handleBitU_be (E : Env σ) (op : Byte) (s : St σ) :
    BeRes s (handleBitU E op s) := by
  unfold BeRes handleBitU
  try dsimp only
  vm_sweep
  all_goals be_close

theorem handleBitI_be (E : Env σ) (op : Byte) (s : St σ) :
    BeRes s (handleBitI E op s) := by
  unfold BeRes handleBitI
  try dsimp only
  vm_sweep
  all_goals be_close

theorem handleBitBool_be (E : Env σ) (op : Byte) (s : St σ) :
    BeRes s (handleBitBool E op s) := by
  unfold BeRes handleBitBool
  try dsimp only
  vm_sweep
  all_goals be_close

theorem handlePad_be (E : Env σ) (s : St σ) :
    BeRes s (handlePad E s) := by
  unfold BeRes handlePad
  try dsimp only
  vm_sweep
  all_goals be_close

theorem handleFill_be (E : Env σ) (s : St σ) :
    BeRes s (handleFill E s) := by
  unfold BeRes handleFill
  try dsimp only
  vm_sweep
  all_goals be_close

theorem handleStrNull_be (E : Env σ) (op : Byte) (s : St σ) :
    BeRes s (handleStrNull E op s) := by
  unfold BeRes handleStrNull
  try dsimp only
  vm_sweep
  all_goals be_close

theorem handleStrPre_be (E : Env σ) (p : Pre) (op : Byte) (s : St σ) :
    BeRes s (handleStrPre E p op s) := by
  unfold BeRes handleStrPre
  try dsimp only
  vm_sweep
  all_goals be_close

theorem handleArrFixed_be (E : Env σ) (op : Byte) (s : St σ) :
    BeRes s (handleArrFixed E op s) := by
  unfold BeRes handleArrFixed
  try dsimp only
  vm_sweep
  all_goals be_close

theorem handleArrPre_be (E : Env σ) (p : Pre) (op : Byte) (s : St σ) :
    BeRes s (handleArrPre E p op s) := by
  unfold BeRes handleArrPre
  try dsimp only
  vm_sweep
  all_goals be_close

theorem handleArrEnd_be (E : Env σ) (s : St σ) :
    BeRes s (handleArrEnd E s) := by
  unfold BeRes handleArrEnd
  try dsimp only
  vm_sweep
  all_goals be_close

theorem handleRaw_be (E : Env σ) (op : Byte) (s : St σ) :
    BeRes s (handleRaw E op s) := by
  unfold BeRes handleRaw
  try dsimp only
  vm_sweep
  all_goals be_close

theorem handleArrEof_be (E : Env σ) (s : St σ) :
    BeRes s (handleArrEof E s) := by
  unfold BeRes handleArrEof
  try dsimp only
  vm_sweep
  all_goals be_close

theorem handleArrDynamic_be (E : Env σ) (op : Byte) (s : St σ) :
    BeRes s (handleArrDynamic E op s) := by
  unfold BeRes handleArrDynamic
  try dsimp only
  vm_sweep
  all_goals be_close

theorem handleConstCheck_be (E : Env σ) (s : St σ) :
    BeRes s (handleConstCheck E s) := by
  unfold BeRes handleConstCheck
  try dsimp only
  vm_sweep
  all_goals be_close

theorem handleConstWrite_be (E : Env σ) (s : St σ) :
    BeRes s (handleConstWrite E s) := by
  unfold BeRes handleConstWrite
  try dsimp only
  vm_sweep
  all_goals be_close

theorem handleRange_be (E : Env σ) (s : St σ) :
    BeRes s (handleRange E s) := by
  unfold BeRes handleRange
  try dsimp only
  vm_sweep
  all_goals be_close

theorem handleCrc_be (E : Env σ) (w32 : Bool) (s : St σ) :
    BeRes s (handleCrc E w32 s) := by
  unfold BeRes handleCrc
  try dsimp only
  vm_sweep
  all_goals be_close

theorem handleEnum_be (E : Env σ) (s : St σ) :
    BeRes s (handleEnum E s) := by
  unfold BeRes handleEnum
  try dsimp only
  vm_sweep
  all_goals be_close

theorem handleJump_be (E : Env σ) (s : St σ) :
    BeRes s (handleJump E s) := by
  unfold BeRes handleJump
  try dsimp only
  vm_sweep
  all_goals be_close

theorem handleJumpIfNot_be (E : Env σ) (s : St σ) :
    BeRes s (handleJumpIfNot E s) := by
  unfold BeRes handleJumpIfNot
  try dsimp only
  vm_sweep
  all_goals be_close

theorem handleSwitch_be (E : Env σ) (s : St σ) :
    BeRes s (handleSwitch E s) := by
  unfold BeRes handleSwitch
  try dsimp only
  vm_sweep
  all_goals be_close

theorem handleSwitchTable_be (E : Env σ) (s : St σ) :
    BeRes s (handleSwitchTable E s) := by
  unfold BeRes handleSwitchTable
  try dsimp only
  vm_sweep
  all_goals be_close

theorem handleLoadCtx_be (E : Env σ) (op : Byte) (s : St σ) :
    BeRes s (handleLoadCtx E op s) := by
  unfold BeRes handleLoadCtx
  try dsimp only
  vm_sweep
  all_goals be_close

theorem handleStoreCtx_be (E : Env σ) (op : Byte) (s : St σ) :
    BeRes s (handleStoreCtx E op s) := by
  unfold BeRes handleStoreCtx
  try dsimp only
  vm_sweep
  all_goals be_close

theorem handleEmit_be (E : Env σ) (s : St σ) :
    BeRes s (handleEmit E s) := by
  unfold BeRes handleEmit
  try dsimp only
  vm_sweep
  all_goals be_close

theorem execOp_be (E : Env σ) (op : Byte) (s : St σ) (h1 : decodeOp op ≠ .setLE) (h2 : decodeOp op ≠ .setBE) :
    BeRes s (execOp E op s) := by
  unfold execOp
  cases h : decodeOp op <;> simp only [h] at h1 h2 ⊢
  case setLE => exact absurd rfl h1
  case setBE => exact absurd rfl h2
  case io => exact handlePrim_be _ _ _ _
  case ioF32 => exact handleFloat_be _ _ _ _
  case ioF64 => exact handleFloat_be _ _ _ _
  case ioBool => exact handleBool_be _ _ _
  case bitU => exact handleBitU_be _ _ _
  case bitI => exact handleBitI_be _ _ _
  case bitBool => exact handleBitBool_be _ _ _
  case alignPad => exact handlePad_be _ _
  case alignFill => exact handleFill_be _ _
  case strNull => exact handleStrNull_be _ _ _
  case strPre => exact handleStrPre_be _ _ _ _
  case arrFixed => exact handleArrFixed_be _ _ _
  case arrPre => exact handleArrPre_be _ _ _ _
  case arrEnd => exact handleArrEnd_be _ _
  case rawBytes => exact handleRaw_be _ _ _
  case arrEof => exact handleArrEof_be _ _
  case arrDynamic => exact handleArrDynamic_be _ _ _
  case constCheck => exact handleConstCheck_be _ _
  case constWrite => exact handleConstWrite_be _ _
  case rangeCheck => exact handleRange_be _ _
  case crc16 => exact handleCrc_be _ _ _
  case crc32 => exact handleCrc_be _ _ _
  case enumCheck => exact handleEnum_be _ _
  case jumpIfNot => exact handleJumpIfNot_be _ _
  case switch => exact handleSwitch_be _ _
  case jump => exact handleJump_be _ _
  case switchTable => exact handleSwitchTable_be _ _
  case loadCtx => exact handleLoadCtx_be _ _ _
  case emit => exact handleEmit_be _ _
  case storeCtx => exact handleStoreCtx_be _ _ _
  all_goals
    unfold BeRes
    try dsimp only
    vm_sweep
    all_goals be_close

end Cnd
