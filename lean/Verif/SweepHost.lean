import Verif.VMLemmas
/-
  Sweep over all opcodes: the state of the host changes only by host calls, so a relation that every call respects holds
  between the host before and after an instruction (used for C68).
-/
set_option linter.unusedVariables false

namespace Cnd
variable {σ : Type}

/-- A reflexive and transitive relation that every host call respects. -/
structure HostGrow (H : Host σ) (R : σ → σ → Prop) : Prop where
  refl : ∀ h, R h h
  trans : ∀ {a b c}, R a b → R b c → R a c
  notify : ∀ {h key op b h'}, H.notify h key op = (b, h') → R h h'
  scalar : ∀ {h key op v b w h'}, H.scalar h key op v = (b, w, h') → R h h'
  str : ∀ {h key op b w h'}, H.str h key op = (b, w, h') → R h h'
  bytes : ∀ {h key op be buf p b w h'}, H.bytesAt h key op be buf p = (b, w, h') → R h h'

/-- The host afterwards is related to the host before. -/
def Grown (R : σ → σ → Prop) (s : St σ) : Res σ → Prop :=
  Post (fun s' => R s.host s'.host) (fun _ s' => R s.host s'.host) (fun _ => True)

section
variable {R : σ → σ → Prop} {E : Env σ}

macro "grow_close" h:ident : tactic => `(tactic| (
  first
  | exact ($h).refl _
  | exact ($h).scalar (by assumption)
  | exact ($h).notify (by assumption)
  | exact ($h).str (by assumption)
  | exact ($h).bytes (by assumption)
  | (refine ($h).trans (($h).scalar (by assumption)) ?_
     first
     | exact ($h).refl _
     | exact ($h).scalar (by assumption)
     | exact ($h).bytes (by assumption)
     | (refine ($h).trans (($h).scalar (by assumption)) ?_
        exact ($h).bytes (by assumption)))))

theorem handlePrim_grow (hR : HostGrow E.host R) (t : Ty) (op : Byte) (s : St σ) : Grown R s (handlePrim E t op s) := by
  unfold Grown handlePrim
  try dsimp only
  vm_sweep
  all_goals grow_close hR

theorem handleFloat_grow (hR : HostGrow E.host R) (dbl : Bool) (op : Byte) (s : St σ) : Grown R s (handleFloat E dbl op s) := by
  unfold Grown handleFloat
  try dsimp only
  vm_sweep
  all_goals grow_close hR

theorem handleBool_grow (hR : HostGrow E.host R) (op : Byte) (s : St σ) : Grown R s (handleBool E op s) := by
  unfold Grown handleBool
  try dsimp only
  vm_sweep
  all_goals grow_close hR

theorem handleBitU_grow (hR : HostGrow E.host R) (op : Byte) (s : St σ) : Grown R s (handleBitU E op s) := by
  unfold Grown handleBitU
  try dsimp only
  vm_sweep
  all_goals grow_close hR

theorem handleBitI_grow (hR : HostGrow E.host R) (op : Byte) (s : St σ) : Grown R s (handleBitI E op s) := by
  unfold Grown handleBitI
  try dsimp only
  vm_sweep
  all_goals grow_close hR

theorem handleBitBool_grow (hR : HostGrow E.host R) (op : Byte) (s : St σ) : Grown R s (handleBitBool E op s) := by
  unfold Grown handleBitBool
  try dsimp only
  vm_sweep
  all_goals grow_close hR

theorem handlePad_grow (hR : HostGrow E.host R) (s : St σ) : Grown R s (handlePad E s) := by
  unfold Grown handlePad
  try dsimp only
  vm_sweep
  all_goals grow_close hR

theorem handleFill_grow (hR : HostGrow E.host R) (s : St σ) : Grown R s (handleFill E s) := by
  unfold Grown handleFill
  try dsimp only
  vm_sweep
  all_goals grow_close hR

theorem handleStrNull_grow (hR : HostGrow E.host R) (op : Byte) (s : St σ) : Grown R s (handleStrNull E op s) := by
  unfold Grown handleStrNull
  try dsimp only
  vm_sweep
  all_goals grow_close hR

theorem handleStrPre_grow (hR : HostGrow E.host R) (p : Pre) (op : Byte) (s : St σ) : Grown R s (handleStrPre E p op s) := by
  unfold Grown handleStrPre
  try dsimp only
  vm_sweep
  all_goals grow_close hR

theorem handleRaw_grow (hR : HostGrow E.host R) (op : Byte) (s : St σ) : Grown R s (handleRaw E op s) := by
  unfold Grown handleRaw
  try dsimp only
  vm_sweep
  all_goals grow_close hR

theorem handleArrPre_grow (hR : HostGrow E.host R) (p : Pre) (op : Byte) (s : St σ) : Grown R s (handleArrPre E p op s) := by
  unfold Grown handleArrPre
  try dsimp only
  vm_sweep
  all_goals grow_close hR

theorem handleArrFixed_grow (hR : HostGrow E.host R) (op : Byte) (s : St σ) : Grown R s (handleArrFixed E op s) := by
  unfold Grown handleArrFixed
  try dsimp only
  vm_sweep
  all_goals grow_close hR

theorem handleArrEof_grow (hR : HostGrow E.host R) (s : St σ) : Grown R s (handleArrEof E s) := by
  unfold Grown handleArrEof
  try dsimp only
  vm_sweep
  all_goals grow_close hR

theorem handleArrDynamic_grow (hR : HostGrow E.host R) (op : Byte) (s : St σ) : Grown R s (handleArrDynamic E op s) := by
  unfold Grown handleArrDynamic
  try dsimp only
  vm_sweep
  all_goals grow_close hR

theorem handleArrEnd_grow (hR : HostGrow E.host R) (s : St σ) : Grown R s (handleArrEnd E s) := by
  unfold Grown handleArrEnd
  try dsimp only
  vm_sweep
  all_goals grow_close hR

theorem handleConstCheck_grow (hR : HostGrow E.host R) (s : St σ) : Grown R s (handleConstCheck E s) := by
  unfold Grown handleConstCheck
  try dsimp only
  vm_sweep
  all_goals grow_close hR

theorem handleConstWrite_grow (hR : HostGrow E.host R) (s : St σ) : Grown R s (handleConstWrite E s) := by
  unfold Grown handleConstWrite
  try dsimp only
  vm_sweep
  all_goals grow_close hR

theorem handleRange_grow (hR : HostGrow E.host R) (s : St σ) : Grown R s (handleRange E s) := by
  unfold Grown handleRange
  try dsimp only
  vm_sweep
  all_goals grow_close hR

theorem handleCrc_grow (hR : HostGrow E.host R) (w32 : Bool) (s : St σ) : Grown R s (handleCrc E w32 s) := by
  unfold Grown handleCrc
  try dsimp only
  vm_sweep
  all_goals grow_close hR

theorem handleEnum_grow (hR : HostGrow E.host R) (s : St σ) : Grown R s (handleEnum E s) := by
  unfold Grown handleEnum
  try dsimp only
  vm_sweep
  all_goals grow_close hR

theorem handleJump_grow (hR : HostGrow E.host R) (s : St σ) : Grown R s (handleJump E s) := by
  unfold Grown handleJump
  try dsimp only
  vm_sweep
  all_goals grow_close hR

theorem handleJumpIfNot_grow (hR : HostGrow E.host R) (s : St σ) : Grown R s (handleJumpIfNot E s) := by
  unfold Grown handleJumpIfNot
  try dsimp only
  vm_sweep
  all_goals grow_close hR

theorem handleSwitch_grow (hR : HostGrow E.host R) (s : St σ) : Grown R s (handleSwitch E s) := by
  unfold Grown handleSwitch
  try dsimp only
  vm_sweep
  all_goals grow_close hR

theorem handleSwitchTable_grow (hR : HostGrow E.host R) (s : St σ) : Grown R s (handleSwitchTable E s) := by
  unfold Grown handleSwitchTable
  try dsimp only
  vm_sweep
  all_goals grow_close hR

theorem handleLoadCtx_grow (hR : HostGrow E.host R) (op : Byte) (s : St σ) : Grown R s (handleLoadCtx E op s) := by
  unfold Grown handleLoadCtx
  try dsimp only
  vm_sweep
  all_goals grow_close hR

theorem handleStoreCtx_grow (hR : HostGrow E.host R) (op : Byte) (s : St σ) : Grown R s (handleStoreCtx E op s) := by
  unfold Grown handleStoreCtx
  try dsimp only
  vm_sweep
  all_goals grow_close hR

theorem handleEmit_grow (hR : HostGrow E.host R) (s : St σ) : Grown R s (handleEmit E s) := by
  unfold Grown handleEmit
  try dsimp only
  vm_sweep
  all_goals grow_close hR

theorem execOp_grow (hR : HostGrow E.host R) (op : Byte) (s : St σ) : Grown R s (execOp E op s) := by
  unfold execOp
  cases h : decodeOp op <;> dsimp only
  case io => exact handlePrim_grow hR _ _ _
  case ioF32 => exact handleFloat_grow hR _ _ _
  case ioF64 => exact handleFloat_grow hR _ _ _
  case ioBool => exact handleBool_grow hR _ _
  case bitU => exact handleBitU_grow hR _ _
  case bitI => exact handleBitI_grow hR _ _
  case bitBool => exact handleBitBool_grow hR _ _
  case alignPad => exact handlePad_grow hR _
  case alignFill => exact handleFill_grow hR _
  case strNull => exact handleStrNull_grow hR _ _
  case strPre => exact handleStrPre_grow hR _ _ _
  case rawBytes => exact handleRaw_grow hR _ _
  case arrPre => exact handleArrPre_grow hR _ _ _
  case arrFixed => exact handleArrFixed_grow hR _ _
  case arrEof => exact handleArrEof_grow hR _
  case arrDynamic => exact handleArrDynamic_grow hR _ _
  case arrEnd => exact handleArrEnd_grow hR _
  case constCheck => exact handleConstCheck_grow hR _
  case constWrite => exact handleConstWrite_grow hR _
  case rangeCheck => exact handleRange_grow hR _
  case crc16 => exact handleCrc_grow hR _ _
  case crc32 => exact handleCrc_grow hR _ _
  case enumCheck => exact handleEnum_grow hR _
  case jump => exact handleJump_grow hR _
  case jumpIfNot => exact handleJumpIfNot_grow hR _
  case switch => exact handleSwitch_grow hR _
  case switchTable => exact handleSwitchTable_grow hR _
  case loadCtx => exact handleLoadCtx_grow hR _ _
  case storeCtx => exact handleStoreCtx_grow hR _ _
  case emit => exact handleEmit_grow hR _
  all_goals
    unfold Grown
    try dsimp only
    vm_sweep
    all_goals grow_close hR

end

end Cnd
