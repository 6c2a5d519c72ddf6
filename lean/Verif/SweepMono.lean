import Verif.VMLemmas
/-
  Sweep over all opcodes: buffer length, position and stack depths (used for C07, C08 and others).
-/

set_option linter.unusedVariables false

namespace Cnd
variable {σ : Type}

/-- What every instruction respects, whatever it does. -/
structure Mono (slack : Nat) (big : Bool) (s s' : St σ) : Prop where
  len : s'.buf.length = s.buf.length
  bit : s'.bit < 8
  pos : 8 * s.cursor + s.bit ≤ 8 * s'.cursor + s'.bit
  up : 8 * s'.cursor + s'.bit ≤ max (8 * s.cursor + s.bit) (8 * s.buf.length) + slack
  small : big = false → 8 * s'.cursor + s'.bit ≤ 8 * s.cursor + s.bit + 255
  stk : s'.stack.length ≤ 8
  lps : s'.loops.length ≤ 8

def MonoRes (slack : Nat) (big : Bool) (s : St σ) : Res σ → Prop :=
  Post (Mono slack big s) (fun _ => Mono slack big s) (fun _ => True)

theorem emitSize_le {tag : Word} {n : Nat} (h : emitSize tag = some n) : n ≤ 8 := by
  unfold emitSize at h
  split at h <;> simp at h <;> omega

/-- Instructions that may consume an unbounded amount of packet data. -/
def Op.bulk : Op → Bool
  | .strNull | .strPre _ | .arrFixed | .arrPre _ | .arrEof | .arrDynamic | .rawBytes => true
  | _ => false

macro "mono_close" : tactic => `(tactic| (
  refine ⟨?_, ?_, ?_, ?_, ?_, ?_, ?_⟩ <;> (try dsimp only) <;>
    first
      | assumption
      | (intro h; cases h; done)
      | omega
      | (simp only [room] at * ; omega)
      | (simp_all [hostBuf_length, maxDepth] <;> done)
      | (simp_all [hostBuf_length, maxDepth] <;> omega)))

theorem handlePrim_mono (E : Env σ) (t : Ty) (op : Byte) (s : St σ) (hal : s.bit = 0) (hb : s.bit < 8)
    (h1 : s.stack.length ≤ 8) (h2 : s.loops.length ≤ 8) : MonoRes 0 false s (handlePrim E t op s) := by
  unfold MonoRes handlePrim
  have hf := t.size_le
  try dsimp only
  vm_sweep
  all_goals mono_close

theorem handleFloat_mono (E : Env σ) (dbl : Bool) (op : Byte) (s : St σ) (hal : s.bit = 0) (hb : s.bit < 8)
    (h1 : s.stack.length ≤ 8) (h2 : s.loops.length ≤ 8) : MonoRes 0 false s (handleFloat E dbl op s) := by
  unfold MonoRes handleFloat
  try dsimp only
  vm_sweep
  all_goals mono_close

theorem handleBool_mono (E : Env σ) (op : Byte) (s : St σ) (hal : s.bit = 0) (hb : s.bit < 8)
    (h1 : s.stack.length ≤ 8) (h2 : s.loops.length ≤ 8) : MonoRes 0 false s (handleBool E op s) := by
  unfold MonoRes handleBool
  try dsimp only
  vm_sweep
  all_goals mono_close

theorem handleBitU_mono (E : Env σ) (op : Byte) (s : St σ) (hb : s.bit < 8)
    (h1 : s.stack.length ≤ 8) (h2 : s.loops.length ≤ 8) : MonoRes 0 false s (handleBitU E op s) := by
  unfold MonoRes handleBitU
  have hf := fetch_lt E.prog (fetch E.prog s.ip 2).2 1 (by omega)
  try dsimp only
  vm_sweep
  all_goals mono_close

theorem handleBitI_mono (E : Env σ) (op : Byte) (s : St σ) (hb : s.bit < 8)
    (h1 : s.stack.length ≤ 8) (h2 : s.loops.length ≤ 8) : MonoRes 0 false s (handleBitI E op s) := by
  unfold MonoRes handleBitI
  have hf := fetch_lt E.prog (fetch E.prog s.ip 2).2 1 (by omega)
  try dsimp only
  vm_sweep
  all_goals mono_close

theorem handleBitBool_mono (E : Env σ) (op : Byte) (s : St σ) (hb : s.bit < 8)
    (h1 : s.stack.length ≤ 8) (h2 : s.loops.length ≤ 8) : MonoRes 0 false s (handleBitBool E op s) := by
  unfold MonoRes handleBitBool
  try dsimp only
  vm_sweep
  all_goals mono_close

theorem handlePad_mono (E : Env σ) (s : St σ) (hb : s.bit < 8)
    (h1 : s.stack.length ≤ 8) (h2 : s.loops.length ≤ 8) : MonoRes 255 false s (handlePad E s) := by
  unfold MonoRes handlePad
  have hf := fetch_lt E.prog s.ip 1 (by omega)
  try dsimp only
  vm_sweep
  all_goals mono_close

theorem handleFill_mono (E : Env σ) (s : St σ) (hb : s.bit < 8)
    (h1 : s.stack.length ≤ 8) (h2 : s.loops.length ≤ 8) : MonoRes 0 false s (handleFill E s) := by
  unfold MonoRes handleFill
  try dsimp only
  vm_sweep
  all_goals mono_close

theorem handleStrNull_mono (E : Env σ) (op : Byte) (s : St σ) (hal : s.bit = 0) (hb : s.bit < 8)
    (h1 : s.stack.length ≤ 8) (h2 : s.loops.length ≤ 8) : MonoRes 0 true s (handleStrNull E op s) := by
  unfold MonoRes handleStrNull
  have hw := takeWhile_window s.buf s.cursor (fetch E.prog (fetch E.prog s.ip 2).2 2).1.toNat (· ≠ 0)
  try dsimp only
  vm_sweep
  all_goals mono_close

theorem handleStrPre_mono (E : Env σ) (p : Pre) (op : Byte) (s : St σ) (hal : s.bit = 0) (hb : s.bit < 8)
    (h1 : s.stack.length ≤ 8) (h2 : s.loops.length ≤ 8) : MonoRes 0 true s (handleStrPre E p op s) := by
  unfold MonoRes handleStrPre
  try dsimp only
  vm_sweep
  all_goals mono_close

theorem handleArrFixed_mono (E : Env σ) (op : Byte) (s : St σ) (hal : s.bit = 0) (hb : s.bit < 8)
    (h1 : s.stack.length ≤ 8) (h2 : s.loops.length ≤ 8) : MonoRes 0 true s (handleArrFixed E op s) := by
  unfold MonoRes handleArrFixed
  try dsimp only
  vm_sweep
  all_goals mono_close

theorem handleArrPre_mono (E : Env σ) (p : Pre) (op : Byte) (s : St σ) (hal : s.bit = 0) (hb : s.bit < 8)
    (h1 : s.stack.length ≤ 8) (h2 : s.loops.length ≤ 8) : MonoRes 0 true s (handleArrPre E p op s) := by
  unfold MonoRes handleArrPre
  try dsimp only
  vm_sweep
  all_goals mono_close

theorem handleArrEnd_mono (E : Env σ) (s : St σ) (hal : s.bit = 0) (hb : s.bit < 8)
    (h1 : s.stack.length ≤ 8) (h2 : s.loops.length ≤ 8) : MonoRes 0 false s (handleArrEnd E s) := by
  unfold MonoRes handleArrEnd
  try dsimp only
  vm_sweep
  all_goals mono_close

theorem handleRaw_mono (E : Env σ) (op : Byte) (s : St σ) (hal : s.bit = 0) (hb : s.bit < 8)
    (h1 : s.stack.length ≤ 8) (h2 : s.loops.length ≤ 8) : MonoRes 0 true s (handleRaw E op s) := by
  unfold MonoRes handleRaw
  try dsimp only
  vm_sweep
  all_goals mono_close

theorem handleArrEof_mono (E : Env σ) (s : St σ) (hal : s.bit = 0) (hb : s.bit < 8)
    (h1 : s.stack.length ≤ 8) (h2 : s.loops.length ≤ 8) : MonoRes 0 true s (handleArrEof E s) := by
  unfold MonoRes handleArrEof
  try dsimp only
  vm_sweep
  all_goals mono_close

theorem handleArrDynamic_mono (E : Env σ) (op : Byte) (s : St σ) (hal : s.bit = 0) (hb : s.bit < 8)
    (h1 : s.stack.length ≤ 8) (h2 : s.loops.length ≤ 8) : MonoRes 0 true s (handleArrDynamic E op s) := by
  unfold MonoRes handleArrDynamic
  try dsimp only
  vm_sweep
  all_goals mono_close

theorem handleConstCheck_mono (E : Env σ) (s : St σ) (hal : s.bit = 0) (hb : s.bit < 8)
    (h1 : s.stack.length ≤ 8) (h2 : s.loops.length ≤ 8) : MonoRes 0 false s (handleConstCheck E s) := by
  unfold MonoRes handleConstCheck
  try dsimp only
  vm_sweep
  all_goals try have hsz := Ty.size_le ‹Ty›
  all_goals mono_close

theorem handleConstWrite_mono (E : Env σ) (s : St σ) (hal : s.bit = 0) (hb : s.bit < 8)
    (h1 : s.stack.length ≤ 8) (h2 : s.loops.length ≤ 8) : MonoRes 0 false s (handleConstWrite E s) := by
  unfold MonoRes handleConstWrite
  try dsimp only
  vm_sweep
  all_goals try have hsz := Ty.size_le ‹Ty›
  all_goals mono_close

theorem handleRange_mono (E : Env σ) (s : St σ) (hb : s.bit < 8)
    (h1 : s.stack.length ≤ 8) (h2 : s.loops.length ≤ 8) : MonoRes 0 false s (handleRange E s) := by
  unfold MonoRes handleRange
  try dsimp only
  vm_sweep
  all_goals mono_close

theorem handleCrc_mono (E : Env σ) (w32 : Bool) (s : St σ) (hal : s.bit = 0) (hb : s.bit < 8)
    (h1 : s.stack.length ≤ 8) (h2 : s.loops.length ≤ 8) : MonoRes 0 false s (handleCrc E w32 s) := by
  unfold MonoRes handleCrc
  try dsimp only
  vm_sweep
  all_goals mono_close

theorem handleEnum_mono (E : Env σ) (s : St σ) (hal : s.bit = 0) (hb : s.bit < 8)
    (h1 : s.stack.length ≤ 8) (h2 : s.loops.length ≤ 8) : MonoRes 0 false s (handleEnum E s) := by
  unfold MonoRes handleEnum
  try dsimp only
  vm_sweep
  all_goals mono_close

theorem handleJump_mono (E : Env σ) (s : St σ) (hb : s.bit < 8)
    (h1 : s.stack.length ≤ 8) (h2 : s.loops.length ≤ 8) : MonoRes 0 false s (handleJump E s) := by
  unfold MonoRes handleJump
  try dsimp only
  vm_sweep
  all_goals mono_close

theorem handleJumpIfNot_mono (E : Env σ) (s : St σ) (hb : s.bit < 8)
    (h1 : s.stack.length ≤ 8) (h2 : s.loops.length ≤ 8) : MonoRes 0 false s (handleJumpIfNot E s) := by
  unfold MonoRes handleJumpIfNot
  try dsimp only
  vm_sweep
  all_goals mono_close

theorem handleSwitch_mono (E : Env σ) (s : St σ) (hb : s.bit < 8)
    (h1 : s.stack.length ≤ 8) (h2 : s.loops.length ≤ 8) : MonoRes 0 false s (handleSwitch E s) := by
  unfold MonoRes handleSwitch
  try dsimp only
  vm_sweep
  all_goals mono_close

theorem handleSwitchTable_mono (E : Env σ) (s : St σ) (hb : s.bit < 8)
    (h1 : s.stack.length ≤ 8) (h2 : s.loops.length ≤ 8) : MonoRes 0 false s (handleSwitchTable E s) := by
  unfold MonoRes handleSwitchTable
  try dsimp only
  vm_sweep
  all_goals mono_close

theorem handleLoadCtx_mono (E : Env σ) (op : Byte) (s : St σ) (hb : s.bit < 8)
    (h1 : s.stack.length ≤ 8) (h2 : s.loops.length ≤ 8) : MonoRes 0 false s (handleLoadCtx E op s) := by
  unfold MonoRes handleLoadCtx
  try dsimp only
  vm_sweep
  all_goals mono_close

theorem handleStoreCtx_mono (E : Env σ) (op : Byte) (s : St σ) (hb : s.bit < 8)
    (h1 : s.stack.length ≤ 8) (h2 : s.loops.length ≤ 8) : MonoRes 0 false s (handleStoreCtx E op s) := by
  unfold MonoRes handleStoreCtx
  try dsimp only
  vm_sweep
  all_goals mono_close

theorem handleEmit_mono (E : Env σ) (s : St σ) (hb : s.bit < 8)
    (h1 : s.stack.length ≤ 8) (h2 : s.loops.length ≤ 8) : MonoRes s.bit false s (handleEmit E s) := by
  unfold MonoRes handleEmit
  try dsimp only
  vm_sweep
  all_goals try have hsz := emitSize_le ‹emitSize _ = some _›
  all_goals mono_close

/-- How far past the larger of position and packet end an instruction may move. -/
def slackOf (op : Byte) (s : St σ) : Nat :=
  if decodeOp op = .alignPad then 255 else if decodeOp op = .emit then s.bit else 0

macro "mono_inline" : tactic => `(tactic| (
  unfold MonoRes
  try dsimp only
  vm_sweep
  all_goals mono_close))

theorem execOp_mono (E : Env σ) (op : Byte) (s : St σ) (hal : aligns op = true → s.bit = 0)
    (hb : s.bit < 8) (h1 : s.stack.length ≤ 8) (h2 : s.loops.length ≤ 8) :
    MonoRes (slackOf op s) (decodeOp op).bulk s (execOp E op s) := by
  have hA : decodeOp op ≠ .other → (decodeOp op).aligned = true → s.bit = 0 := fun h h' =>
    hal (by rw [aligns_decodeOp op h, h'])
  unfold execOp slackOf
  cases h : decodeOp op <;> simp only [h] at hA ⊢ <;>
    simp only [Op.aligned, Op.bulk, reduceCtorEq, ne_eq, not_false_eq_true, forall_const, not_true_eq_false,
      false_imp_iff, Bool.false_eq_true, if_false, if_true] at hA ⊢
  case io => exact handlePrim_mono _ _ _ _ hA hb h1 h2
  case ioF32 => exact handleFloat_mono _ _ _ _ hA hb h1 h2
  case ioF64 => exact handleFloat_mono _ _ _ _ hA hb h1 h2
  case ioBool => exact handleBool_mono _ _ _ hA hb h1 h2
  case bitU => exact handleBitU_mono _ _ _ hb h1 h2
  case bitI => exact handleBitI_mono _ _ _ hb h1 h2
  case bitBool => exact handleBitBool_mono _ _ _ hb h1 h2
  case alignPad => exact handlePad_mono _ _ hb h1 h2
  case alignFill => exact handleFill_mono _ _ hb h1 h2
  case strNull => exact handleStrNull_mono _ _ _ hA hb h1 h2
  case strPre => exact handleStrPre_mono _ _ _ _ hA hb h1 h2
  case arrFixed => exact handleArrFixed_mono _ _ _ hA hb h1 h2
  case arrPre => exact handleArrPre_mono _ _ _ _ hA hb h1 h2
  case arrEnd => exact handleArrEnd_mono _ _ hA hb h1 h2
  case rawBytes => exact handleRaw_mono _ _ _ hA hb h1 h2
  case arrEof => exact handleArrEof_mono _ _ hA hb h1 h2
  case arrDynamic => exact handleArrDynamic_mono _ _ _ hA hb h1 h2
  case constCheck => exact handleConstCheck_mono _ _ hA hb h1 h2
  case constWrite => exact handleConstWrite_mono _ _ hA hb h1 h2
  case rangeCheck => exact handleRange_mono _ _ hb h1 h2
  case crc16 => exact handleCrc_mono _ _ _ hA hb h1 h2
  case crc32 => exact handleCrc_mono _ _ _ hA hb h1 h2
  case enumCheck => exact handleEnum_mono _ _ hA hb h1 h2
  case jumpIfNot => exact handleJumpIfNot_mono _ _ hb h1 h2
  case switch => exact handleSwitch_mono _ _ hb h1 h2
  case jump => exact handleJump_mono _ _ hb h1 h2
  case switchTable => exact handleSwitchTable_mono _ _ hb h1 h2
  case loadCtx => exact handleLoadCtx_mono _ _ _ hb h1 h2
  case emit => exact handleEmit_mono _ _ hb h1 h2
  case storeCtx => exact handleStoreCtx_mono _ _ _ hb h1 h2
  all_goals mono_inline

end Cnd
