import Verif.SweepIp
/-
  Sweep over all opcodes: a program without bit fields, padding and optional marks stays on byte boundaries and never has an optional mark
  pending (used for C93).
-/
set_option linter.unusedVariables false

namespace Cnd
variable {σ : Type}

/-- On a byte boundary, with no optional mark pending. -/
def Byted (s : St σ) : Prop := s.opt = false ∧ s.bit = 0

def BytedRes : Res σ → Prop := Post Byted (fun _ _ => True) (fun _ => True)

/-- Instructions for which the end of the buffer is never an answer: all but bit fields, padding, optional marks and read-to-end arrays. -/
def Op.firm : Op → Bool
  | .bitU | .bitI | .bitBool | .alignPad | .arrEof | .markOptional => false
  | _ => true

theorem enterArray_byted (E : Env σ) (s : St σ) (c : Nat) (h : Byted s) : BytedRes (enterArray E s c) := by
  unfold BytedRes Byted at *
  obtain ⟨h1, h2⟩ := h
  ip_sweep
  all_goals exact ⟨h1, h2⟩

theorem handlePrim_byted (E : Env σ) (t : Ty) (op : Byte) (s : St σ) (h : Byted s) : BytedRes (handlePrim E t op s) := by
  obtain ⟨h1, h2⟩ := h
  unfold BytedRes handlePrim
  try dsimp only
  ip_sweep
  all_goals first
    | exact ⟨h1, h2⟩
    | exact ⟨rfl, h2⟩
    | exact enterArray_byted _ _ _ ⟨h1, h2⟩
    | (exfalso; omega)
    | (exfalso; simp_all; done)

theorem handleFloat_byted (E : Env σ) (dbl : Bool) (op : Byte) (s : St σ) (h : Byted s) : BytedRes (handleFloat E dbl op s) := by
  obtain ⟨h1, h2⟩ := h
  unfold BytedRes handleFloat
  try dsimp only
  ip_sweep
  all_goals first
    | exact ⟨h1, h2⟩
    | exact ⟨rfl, h2⟩
    | exact enterArray_byted _ _ _ ⟨h1, h2⟩
    | (exfalso; omega)
    | (exfalso; simp_all; done)

theorem handleBool_byted (E : Env σ) (op : Byte) (s : St σ) (h : Byted s) : BytedRes (handleBool E op s) := by
  obtain ⟨h1, h2⟩ := h
  unfold BytedRes handleBool
  try dsimp only
  ip_sweep
  all_goals first
    | exact ⟨h1, h2⟩
    | exact ⟨rfl, h2⟩
    | exact enterArray_byted _ _ _ ⟨h1, h2⟩
    | (exfalso; omega)
    | (exfalso; simp_all; done)

theorem handleFill_byted (E : Env σ) (s : St σ) (h : Byted s) : BytedRes (handleFill E s) := by
  obtain ⟨h1, h2⟩ := h
  unfold BytedRes handleFill
  try dsimp only
  ip_sweep
  all_goals first
    | exact ⟨h1, h2⟩
    | exact ⟨rfl, h2⟩
    | exact enterArray_byted _ _ _ ⟨h1, h2⟩
    | (exfalso; omega)
    | (exfalso; simp_all; done)

theorem handleStrNull_byted (E : Env σ) (op : Byte) (s : St σ) (h : Byted s) : BytedRes (handleStrNull E op s) := by
  obtain ⟨h1, h2⟩ := h
  unfold BytedRes handleStrNull
  try dsimp only
  ip_sweep
  all_goals first
    | exact ⟨h1, h2⟩
    | exact ⟨rfl, h2⟩
    | exact enterArray_byted _ _ _ ⟨h1, h2⟩
    | (exfalso; omega)
    | (exfalso; simp_all; done)

theorem handleStrPre_byted (E : Env σ) (p : Pre) (op : Byte) (s : St σ) (h : Byted s) : BytedRes (handleStrPre E p op s) := by
  obtain ⟨h1, h2⟩ := h
  unfold BytedRes handleStrPre
  try dsimp only
  ip_sweep
  all_goals first
    | exact ⟨h1, h2⟩
    | exact ⟨rfl, h2⟩
    | exact enterArray_byted _ _ _ ⟨h1, h2⟩
    | (exfalso; omega)
    | (exfalso; simp_all; done)

theorem handleArrFixed_byted (E : Env σ) (op : Byte) (s : St σ) (h : Byted s) : BytedRes (handleArrFixed E op s) := by
  obtain ⟨h1, h2⟩ := h
  unfold BytedRes handleArrFixed
  try dsimp only
  ip_sweep
  all_goals first
    | exact ⟨h1, h2⟩
    | exact ⟨rfl, h2⟩
    | exact enterArray_byted _ _ _ ⟨h1, h2⟩
    | (exfalso; omega)
    | (exfalso; simp_all; done)

theorem handleArrPre_byted (E : Env σ) (p : Pre) (op : Byte) (s : St σ) (h : Byted s) : BytedRes (handleArrPre E p op s) := by
  obtain ⟨h1, h2⟩ := h
  unfold BytedRes handleArrPre
  try dsimp only
  ip_sweep
  all_goals first
    | exact ⟨h1, h2⟩
    | exact ⟨rfl, h2⟩
    | exact enterArray_byted _ _ _ ⟨h1, h2⟩
    | (exfalso; omega)
    | (exfalso; simp_all; done)

theorem handleArrEnd_byted (E : Env σ) (s : St σ) (h : Byted s) : BytedRes (handleArrEnd E s) := by
  obtain ⟨h1, h2⟩ := h
  unfold BytedRes handleArrEnd
  try dsimp only
  ip_sweep
  all_goals first
    | exact ⟨h1, h2⟩
    | exact ⟨rfl, h2⟩
    | exact enterArray_byted _ _ _ ⟨h1, h2⟩
    | (exfalso; omega)
    | (exfalso; simp_all; done)

theorem handleRaw_byted (E : Env σ) (op : Byte) (s : St σ) (h : Byted s) : BytedRes (handleRaw E op s) := by
  obtain ⟨h1, h2⟩ := h
  unfold BytedRes handleRaw
  try dsimp only
  ip_sweep
  all_goals first
    | exact ⟨h1, h2⟩
    | exact ⟨rfl, h2⟩
    | exact enterArray_byted _ _ _ ⟨h1, h2⟩
    | (exfalso; omega)
    | (exfalso; simp_all; done)

theorem handleArrDynamic_byted (E : Env σ) (op : Byte) (s : St σ) (h : Byted s) : BytedRes (handleArrDynamic E op s) := by
  obtain ⟨h1, h2⟩ := h
  unfold BytedRes handleArrDynamic
  try dsimp only
  ip_sweep
  all_goals first
    | exact ⟨h1, h2⟩
    | exact ⟨rfl, h2⟩
    | exact enterArray_byted _ _ _ ⟨h1, h2⟩
    | (exfalso; omega)
    | (exfalso; simp_all; done)

theorem handleConstCheck_byted (E : Env σ) (s : St σ) (h : Byted s) : BytedRes (handleConstCheck E s) := by
  obtain ⟨h1, h2⟩ := h
  unfold BytedRes handleConstCheck
  try dsimp only
  ip_sweep
  all_goals first
    | exact ⟨h1, h2⟩
    | exact ⟨rfl, h2⟩
    | exact enterArray_byted _ _ _ ⟨h1, h2⟩
    | (exfalso; omega)
    | (exfalso; simp_all; done)

theorem handleConstWrite_byted (E : Env σ) (s : St σ) (h : Byted s) : BytedRes (handleConstWrite E s) := by
  obtain ⟨h1, h2⟩ := h
  unfold BytedRes handleConstWrite
  try dsimp only
  ip_sweep
  all_goals first
    | exact ⟨h1, h2⟩
    | exact ⟨rfl, h2⟩
    | exact enterArray_byted _ _ _ ⟨h1, h2⟩
    | (exfalso; omega)
    | (exfalso; simp_all; done)

theorem handleRange_byted (E : Env σ) (s : St σ) (h : Byted s) : BytedRes (handleRange E s) := by
  obtain ⟨h1, h2⟩ := h
  unfold BytedRes handleRange
  try dsimp only
  ip_sweep
  all_goals first
    | exact ⟨h1, h2⟩
    | exact ⟨rfl, h2⟩
    | exact enterArray_byted _ _ _ ⟨h1, h2⟩
    | (exfalso; omega)
    | (exfalso; simp_all; done)

theorem handleCrc_byted (E : Env σ) (w : Bool) (s : St σ) (h : Byted s) : BytedRes (handleCrc E w s) := by
  obtain ⟨h1, h2⟩ := h
  unfold BytedRes handleCrc
  try dsimp only
  ip_sweep
  all_goals first
    | exact ⟨h1, h2⟩
    | exact ⟨rfl, h2⟩
    | exact enterArray_byted _ _ _ ⟨h1, h2⟩
    | (exfalso; omega)
    | (exfalso; simp_all; done)

theorem handleEnum_byted (E : Env σ) (s : St σ) (h : Byted s) : BytedRes (handleEnum E s) := by
  obtain ⟨h1, h2⟩ := h
  unfold BytedRes handleEnum
  try dsimp only
  ip_sweep
  all_goals first
    | exact ⟨h1, h2⟩
    | exact ⟨rfl, h2⟩
    | exact enterArray_byted _ _ _ ⟨h1, h2⟩
    | (exfalso; omega)
    | (exfalso; simp_all; done)

theorem handleJump_byted (E : Env σ) (s : St σ) (h : Byted s) : BytedRes (handleJump E s) := by
  obtain ⟨h1, h2⟩ := h
  unfold BytedRes handleJump
  try dsimp only
  ip_sweep
  all_goals first
    | exact ⟨h1, h2⟩
    | exact ⟨rfl, h2⟩
    | exact enterArray_byted _ _ _ ⟨h1, h2⟩
    | (exfalso; omega)
    | (exfalso; simp_all; done)

theorem handleJumpIfNot_byted (E : Env σ) (s : St σ) (h : Byted s) : BytedRes (handleJumpIfNot E s) := by
  obtain ⟨h1, h2⟩ := h
  unfold BytedRes handleJumpIfNot
  try dsimp only
  ip_sweep
  all_goals first
    | exact ⟨h1, h2⟩
    | exact ⟨rfl, h2⟩
    | exact enterArray_byted _ _ _ ⟨h1, h2⟩
    | (exfalso; omega)
    | (exfalso; simp_all; done)

theorem handleSwitch_byted (E : Env σ) (s : St σ) (h : Byted s) : BytedRes (handleSwitch E s) := by
  obtain ⟨h1, h2⟩ := h
  unfold BytedRes handleSwitch
  try dsimp only
  ip_sweep
  all_goals first
    | exact ⟨h1, h2⟩
    | exact ⟨rfl, h2⟩
    | exact enterArray_byted _ _ _ ⟨h1, h2⟩
    | (exfalso; omega)
    | (exfalso; simp_all; done)

theorem handleSwitchTable_byted (E : Env σ) (s : St σ) (h : Byted s) : BytedRes (handleSwitchTable E s) := by
  obtain ⟨h1, h2⟩ := h
  unfold BytedRes handleSwitchTable
  try dsimp only
  ip_sweep
  all_goals first
    | exact ⟨h1, h2⟩
    | exact ⟨rfl, h2⟩
    | exact enterArray_byted _ _ _ ⟨h1, h2⟩
    | (exfalso; omega)
    | (exfalso; simp_all; done)

theorem handleLoadCtx_byted (E : Env σ) (op : Byte) (s : St σ) (h : Byted s) : BytedRes (handleLoadCtx E op s) := by
  obtain ⟨h1, h2⟩ := h
  unfold BytedRes handleLoadCtx
  try dsimp only
  ip_sweep
  all_goals first
    | exact ⟨h1, h2⟩
    | exact ⟨rfl, h2⟩
    | exact enterArray_byted _ _ _ ⟨h1, h2⟩
    | (exfalso; omega)
    | (exfalso; simp_all; done)

theorem handleStoreCtx_byted (E : Env σ) (op : Byte) (s : St σ) (h : Byted s) : BytedRes (handleStoreCtx E op s) := by
  obtain ⟨h1, h2⟩ := h
  unfold BytedRes handleStoreCtx
  try dsimp only
  ip_sweep
  all_goals first
    | exact ⟨h1, h2⟩
    | exact ⟨rfl, h2⟩
    | exact enterArray_byted _ _ _ ⟨h1, h2⟩
    | (exfalso; omega)
    | (exfalso; simp_all; done)

theorem handleEmit_byted (E : Env σ) (s : St σ) (h : Byted s) : BytedRes (handleEmit E s) := by
  obtain ⟨h1, h2⟩ := h
  unfold BytedRes handleEmit
  try dsimp only
  ip_sweep
  all_goals first
    | exact ⟨h1, h2⟩
    | exact ⟨rfl, h2⟩
    | exact enterArray_byted _ _ _ ⟨h1, h2⟩
    | (exfalso; omega)
    | (exfalso; simp_all; done)

theorem execOp_byted (E : Env σ) (op : Byte) (s : St σ) (hf : (decodeOp op).firm = true) (h : Byted s) : BytedRes (execOp E op s) := by
  unfold execOp
  cases hd : decodeOp op <;> simp only [hd, Op.firm, Bool.false_eq_true] at hf ⊢
  case io => exact handlePrim_byted _ _ _ _ h
  case ioF32 => exact handleFloat_byted _ _ _ _ h
  case ioF64 => exact handleFloat_byted _ _ _ _ h
  case ioBool => exact handleBool_byted _ _ _ h
  case alignFill => exact handleFill_byted _ _ h
  case strNull => exact handleStrNull_byted _ _ _ h
  case strPre => exact handleStrPre_byted _ _ _ _ h
  case arrFixed => exact handleArrFixed_byted _ _ _ h
  case arrPre => exact handleArrPre_byted _ _ _ _ h
  case arrEnd => exact handleArrEnd_byted _ _ h
  case rawBytes => exact handleRaw_byted _ _ _ h
  case arrDynamic => exact handleArrDynamic_byted _ _ _ h
  case constCheck => exact handleConstCheck_byted _ _ h
  case constWrite => exact handleConstWrite_byted _ _ h
  case rangeCheck => exact handleRange_byted _ _ h
  case crc16 => exact handleCrc_byted _ _ _ h
  case crc32 => exact handleCrc_byted _ _ _ h
  case enumCheck => exact handleEnum_byted _ _ h
  case jumpIfNot => exact handleJumpIfNot_byted _ _ h
  case switch => exact handleSwitch_byted _ _ h
  case jump => exact handleJump_byted _ _ h
  case switchTable => exact handleSwitchTable_byted _ _ h
  case loadCtx => exact handleLoadCtx_byted _ _ _ h
  case storeCtx => exact handleStoreCtx_byted _ _ _ h
  case emit => exact handleEmit_byted _ _ h
  all_goals
    obtain ⟨h1, h2⟩ := h
    unfold BytedRes
    try dsimp only
    ip_sweep
    all_goals first
      | exact ⟨h1, h2⟩
      | exact ⟨rfl, h2⟩
      | exact enterArray_byted _ _ _ ⟨h1, h2⟩
      | (exfalso; omega)
      | (exfalso; simp_all; done)

end Cnd
