import Verif.VMLemmas
/-
  Sweep over all opcodes: which error codes an instruction can report, and why (used for C53).
-/
set_option linter.unusedVariables false

namespace Cnd
variable {σ : Type}

/-- The last host call of a step reported an error and left the host in state `h'`. -/
def HostFailed (H : Host σ) (h' : σ) : Prop :=
  (∃ h key op, H.notify h key op = (false, h')) ∨
  (∃ h key op v w, H.scalar h key op v = (false, w, h')) ∨
  (∃ h key op str, H.str h key op = (false, str, h')) ∨
  (∃ h key op be buf p b, H.bytesAt h key op be buf p = (false, b, h'))

/-- Documented reasons for each error code, by instruction (the CRC error needs decode mode, stack
errors need a full or empty stack, and so on). -/
def Reason (E : Env σ) (op : Op) (s : St σ) (h' : σ) : Err → Prop
  | .ok => False
  | .oob => True
  | .invalidOp =>
    (op = .arrEnd ∧ s.loops = []) ∨ op = .constCheck ∨ op = .constWrite ∨ op = .rangeCheck ∨
      op = .enumCheck ∨ op = .emit
  | .validation =>
    op = .ioBool ∨ op = .bitBool ∨ (op = .exitBit ∧ 0 < s.bit) ∨
      (op = .constCheck ∧ E.enc = false) ∨ op = .rangeCheck ∨ op = .enumCheck ∨
      (op = .emit ∧ E.enc = false)
  | .callback => HostFailed E.host h'
  | .stackOverflow =>
    (s.stack.length = 8 ∧ (op = .pushImm ∨ op = .dup ∨ op = .loadCtx)) ∨
      (s.loops.length = 8 ∧ op = .arrEof)
  | .stackUnderflow =>
    (s.stack = [] ∧ (op = .jumpIfNot ∨ op = .pop ∨ op = .dup ∨ op = .emit ∨ op = .storeCtx ∨
        ∃ o, op = .un o)) ∨
      (s.stack.length < 2 ∧ ((∃ o, op = .ibin o) ∨ ∃ o, op = .fbin o))
  | .crcMismatch => (op = .crc16 ∨ op = .crc32) ∧ E.enc = false
  | .arithmetic =>
    op = .arrDynamic ∨ op = .ibin .div ∨ op = .ibin .mod ∨ op = .fbin .div ∨ op = .fbin .pow ∨
      op = .un .sqrt ∨ op = .un .log

/-- The out-of-bounds error comes only from instructions that touch the packet, jump or open a loop. -/
def Op.mayOob : Op → Bool
  | .io _ | .ioF32 | .ioF64 | .ioBool | .strNull | .strPre _ | .arrFixed | .arrPre _ | .rawBytes
  | .arrDynamic | .constCheck | .constWrite | .rangeCheck | .crc16 | .crc32 | .transPoly | .transSpline
  | .jumpIfNot | .switch | .jump | .switchTable | .emit => true
  | _ => false

def ErrRes (E : Env σ) (op : Op) (s : St σ) : Res σ → Prop :=
  Post (fun _ => True)
    (fun e s' => Reason E op s s'.host e ∧ (e = .oob → op.mayOob = true)) (fun _ => True)

theorem ibinEval_err {o : IBin} {a b : Word} {e : Err} (h : ibinEval o a b = .err e) :
    e = .arithmetic ∧ (o = .div ∨ o = .mod) := by
  unfold ibinEval at h
  split at h <;> (try split at h) <;> simp at h <;> subst h <;> simp

theorem fbinEval_err {F : FloatOps} {o : FBin} {a b : Word} {e : Err} (h : fbinEval F o a b = .err e) :
    e = .arithmetic ∧ (o = .div ∨ o = .pow) := by
  unfold fbinEval at h
  split at h <;> (try split at h) <;> (try split at h) <;> simp at h <;> subst h <;> simp

theorem unEval_err {F : FloatOps} {o : Un} {a : Word} {e : Err} (h : unEval F o a = .err e) :
    e = .arithmetic ∧ (o = .sqrt ∨ o = .log) := by
  unfold unEval at h
  split at h <;> (try split at h) <;> simp at h <;> subst h <;> simp

macro "err_close" : tactic => `(tactic|
  first
    | (refine ⟨trivial, fun _ => rfl⟩; done)
    | (refine ⟨Or.inl ⟨_, _, _, ‹_›⟩, fun h => by cases h⟩; done)
    | (refine ⟨Or.inr (Or.inl ⟨_, _, _, _, _, ‹_›⟩), fun h => by cases h⟩; done)
    | (refine ⟨Or.inr (Or.inr (Or.inl ⟨_, _, _, _, ‹_›⟩)), fun h => by cases h⟩; done)
    | (refine ⟨Or.inr (Or.inr (Or.inr ⟨_, _, _, _, _, _, _, ‹_›⟩)), fun h => by cases h⟩; done)
    | (refine ⟨?_, fun h => by cases h⟩; simp_all [Reason, maxDepth]; done)
    | (refine ⟨?_, fun h => by cases h⟩; simp_all [Reason, maxDepth]; omega))

theorem handlePrim_err (E : Env σ) (t : Ty) (op : Byte) (s : St σ) (h1 : s.stack.length ≤ 8) (h2 : s.loops.length ≤ 8) :
    ErrRes E (.io t) s (handlePrim E t op s) := by
  unfold ErrRes handlePrim
  try dsimp only
  vm_sweep
  all_goals err_close

theorem handleFloat_err (E : Env σ) (dbl : Bool) (op : Byte) (s : St σ) (o : Op) (ho : o = .ioF32 ∨ o = .ioF64) (h1 : s.stack.length ≤ 8) (h2 : s.loops.length ≤ 8) :
    ErrRes E o s (handleFloat E dbl op s) := by
  rcases ho with rfl | rfl
  all_goals
    unfold ErrRes handleFloat
    try dsimp only
    vm_sweep
    all_goals err_close

theorem handleBool_err (E : Env σ) (op : Byte) (s : St σ) (h1 : s.stack.length ≤ 8) (h2 : s.loops.length ≤ 8) :
    ErrRes E .ioBool s (handleBool E op s) := by
  unfold ErrRes handleBool
  try dsimp only
  vm_sweep
  all_goals err_close

theorem handleBitU_err (E : Env σ) (op : Byte) (s : St σ) (h1 : s.stack.length ≤ 8) (h2 : s.loops.length ≤ 8) :
    ErrRes E .bitU s (handleBitU E op s) := by
  unfold ErrRes handleBitU
  try dsimp only
  vm_sweep
  all_goals err_close

theorem handleBitI_err (E : Env σ) (op : Byte) (s : St σ) (h1 : s.stack.length ≤ 8) (h2 : s.loops.length ≤ 8) :
    ErrRes E .bitI s (handleBitI E op s) := by
  unfold ErrRes handleBitI
  try dsimp only
  vm_sweep
  all_goals err_close

theorem handleBitBool_err (E : Env σ) (op : Byte) (s : St σ) (h1 : s.stack.length ≤ 8) (h2 : s.loops.length ≤ 8) :
    ErrRes E .bitBool s (handleBitBool E op s) := by
  unfold ErrRes handleBitBool
  try dsimp only
  vm_sweep
  all_goals err_close

theorem handlePad_err (E : Env σ) (s : St σ) (h1 : s.stack.length ≤ 8) (h2 : s.loops.length ≤ 8) :
    ErrRes E .alignPad s (handlePad E s) := by
  unfold ErrRes handlePad
  try dsimp only
  vm_sweep
  all_goals err_close

theorem handleFill_err (E : Env σ) (s : St σ) (h1 : s.stack.length ≤ 8) (h2 : s.loops.length ≤ 8) :
    ErrRes E .alignFill s (handleFill E s) := by
  unfold ErrRes handleFill
  try dsimp only
  vm_sweep
  all_goals err_close

theorem handleStrNull_err (E : Env σ) (op : Byte) (s : St σ) (h1 : s.stack.length ≤ 8) (h2 : s.loops.length ≤ 8) :
    ErrRes E .strNull s (handleStrNull E op s) := by
  unfold ErrRes handleStrNull
  try dsimp only
  vm_sweep
  all_goals err_close

theorem handleStrPre_err (E : Env σ) (p : Pre) (op : Byte) (s : St σ) (h1 : s.stack.length ≤ 8) (h2 : s.loops.length ≤ 8) :
    ErrRes E (.strPre p) s (handleStrPre E p op s) := by
  unfold ErrRes handleStrPre
  try dsimp only
  vm_sweep
  all_goals err_close

theorem handleArrFixed_err (E : Env σ) (op : Byte) (s : St σ) (h1 : s.stack.length ≤ 8) (h2 : s.loops.length ≤ 8) :
    ErrRes E .arrFixed s (handleArrFixed E op s) := by
  unfold ErrRes handleArrFixed
  try dsimp only
  vm_sweep
  all_goals err_close

theorem handleArrPre_err (E : Env σ) (p : Pre) (op : Byte) (s : St σ) (h1 : s.stack.length ≤ 8) (h2 : s.loops.length ≤ 8) :
    ErrRes E (.arrPre p) s (handleArrPre E p op s) := by
  unfold ErrRes handleArrPre
  try dsimp only
  vm_sweep
  all_goals err_close

theorem handleArrEnd_err (E : Env σ) (s : St σ) (h1 : s.stack.length ≤ 8) (h2 : s.loops.length ≤ 8) :
    ErrRes E .arrEnd s (handleArrEnd E s) := by
  unfold ErrRes handleArrEnd
  try dsimp only
  vm_sweep
  all_goals err_close

theorem handleRaw_err (E : Env σ) (op : Byte) (s : St σ) (h1 : s.stack.length ≤ 8) (h2 : s.loops.length ≤ 8) :
    ErrRes E .rawBytes s (handleRaw E op s) := by
  unfold ErrRes handleRaw
  try dsimp only
  vm_sweep
  all_goals err_close

theorem handleArrEof_err (E : Env σ) (s : St σ) (h1 : s.stack.length ≤ 8) (h2 : s.loops.length ≤ 8) :
    ErrRes E .arrEof s (handleArrEof E s) := by
  unfold ErrRes handleArrEof
  try dsimp only
  vm_sweep
  all_goals err_close

theorem handleArrDynamic_err (E : Env σ) (op : Byte) (s : St σ) (h1 : s.stack.length ≤ 8) (h2 : s.loops.length ≤ 8) :
    ErrRes E .arrDynamic s (handleArrDynamic E op s) := by
  unfold ErrRes handleArrDynamic
  try dsimp only
  vm_sweep
  all_goals err_close

theorem handleConstCheck_err (E : Env σ) (s : St σ) (h1 : s.stack.length ≤ 8) (h2 : s.loops.length ≤ 8) :
    ErrRes E .constCheck s (handleConstCheck E s) := by
  unfold ErrRes handleConstCheck
  try dsimp only
  vm_sweep
  all_goals err_close

theorem handleConstWrite_err (E : Env σ) (s : St σ) (h1 : s.stack.length ≤ 8) (h2 : s.loops.length ≤ 8) :
    ErrRes E .constWrite s (handleConstWrite E s) := by
  unfold ErrRes handleConstWrite
  try dsimp only
  vm_sweep
  all_goals err_close

theorem handleRange_err (E : Env σ) (s : St σ) (h1 : s.stack.length ≤ 8) (h2 : s.loops.length ≤ 8) :
    ErrRes E .rangeCheck s (handleRange E s) := by
  unfold ErrRes handleRange
  try dsimp only
  vm_sweep
  all_goals err_close

theorem handleCrc_err (E : Env σ) (w32 : Bool) (s : St σ) (o : Op) (ho : o = .crc16 ∨ o = .crc32) (h1 : s.stack.length ≤ 8) (h2 : s.loops.length ≤ 8) :
    ErrRes E o s (handleCrc E w32 s) := by
  rcases ho with rfl | rfl
  all_goals
    unfold ErrRes handleCrc
    try dsimp only
    vm_sweep
    all_goals err_close

theorem handleEnum_err (E : Env σ) (s : St σ) (h1 : s.stack.length ≤ 8) (h2 : s.loops.length ≤ 8) :
    ErrRes E .enumCheck s (handleEnum E s) := by
  unfold ErrRes handleEnum
  try dsimp only
  vm_sweep
  all_goals err_close

theorem handleJump_err (E : Env σ) (s : St σ) (h1 : s.stack.length ≤ 8) (h2 : s.loops.length ≤ 8) :
    ErrRes E .jump s (handleJump E s) := by
  unfold ErrRes handleJump
  try dsimp only
  vm_sweep
  all_goals err_close

theorem handleJumpIfNot_err (E : Env σ) (s : St σ) (h1 : s.stack.length ≤ 8) (h2 : s.loops.length ≤ 8) :
    ErrRes E .jumpIfNot s (handleJumpIfNot E s) := by
  unfold ErrRes handleJumpIfNot
  try dsimp only
  vm_sweep
  all_goals err_close

theorem handleSwitch_err (E : Env σ) (s : St σ) (h1 : s.stack.length ≤ 8) (h2 : s.loops.length ≤ 8) :
    ErrRes E .switch s (handleSwitch E s) := by
  unfold ErrRes handleSwitch
  try dsimp only
  vm_sweep
  all_goals err_close

theorem handleSwitchTable_err (E : Env σ) (s : St σ) (h1 : s.stack.length ≤ 8) (h2 : s.loops.length ≤ 8) :
    ErrRes E .switchTable s (handleSwitchTable E s) := by
  unfold ErrRes handleSwitchTable
  try dsimp only
  vm_sweep
  all_goals err_close

theorem handleLoadCtx_err (E : Env σ) (op : Byte) (s : St σ) (h1 : s.stack.length ≤ 8) (h2 : s.loops.length ≤ 8) :
    ErrRes E .loadCtx s (handleLoadCtx E op s) := by
  unfold ErrRes handleLoadCtx
  try dsimp only
  vm_sweep
  all_goals err_close

theorem handleStoreCtx_err (E : Env σ) (op : Byte) (s : St σ) (h1 : s.stack.length ≤ 8) (h2 : s.loops.length ≤ 8) :
    ErrRes E .storeCtx s (handleStoreCtx E op s) := by
  unfold ErrRes handleStoreCtx
  try dsimp only
  vm_sweep
  all_goals err_close

theorem handleEmit_err (E : Env σ) (s : St σ) (h1 : s.stack.length ≤ 8) (h2 : s.loops.length ≤ 8) :
    ErrRes E .emit s (handleEmit E s) := by
  unfold ErrRes handleEmit
  try dsimp only
  vm_sweep
  all_goals err_close

theorem execOp_err (E : Env σ) (op : Byte) (s : St σ) (h1 : s.stack.length ≤ 8)
    (h2 : s.loops.length ≤ 8) : ErrRes E (decodeOp op) s (execOp E op s) := by
  unfold execOp
  cases h : decodeOp op <;> simp only
  case io => exact handlePrim_err _ _ _ _ h1 h2
  case ioF32 => exact handleFloat_err _ _ _ _ _ (.inl rfl) h1 h2
  case ioF64 => exact handleFloat_err _ _ _ _ _ (.inr rfl) h1 h2
  case ioBool => exact handleBool_err _ _ _ h1 h2
  case bitU => exact handleBitU_err _ _ _ h1 h2
  case bitI => exact handleBitI_err _ _ _ h1 h2
  case bitBool => exact handleBitBool_err _ _ _ h1 h2
  case alignPad => exact handlePad_err _ _ h1 h2
  case alignFill => exact handleFill_err _ _ h1 h2
  case strNull => exact handleStrNull_err _ _ _ h1 h2
  case strPre => exact handleStrPre_err _ _ _ _ h1 h2
  case arrFixed => exact handleArrFixed_err _ _ _ h1 h2
  case arrPre => exact handleArrPre_err _ _ _ _ h1 h2
  case arrEnd => exact handleArrEnd_err _ _ h1 h2
  case rawBytes => exact handleRaw_err _ _ _ h1 h2
  case arrEof => exact handleArrEof_err _ _ h1 h2
  case arrDynamic => exact handleArrDynamic_err _ _ _ h1 h2
  case constCheck => exact handleConstCheck_err _ _ h1 h2
  case constWrite => exact handleConstWrite_err _ _ h1 h2
  case rangeCheck => exact handleRange_err _ _ h1 h2
  case crc16 => exact handleCrc_err _ _ _ _ (.inl rfl) h1 h2
  case crc32 => exact handleCrc_err _ _ _ _ (.inr rfl) h1 h2
  case enumCheck => exact handleEnum_err _ _ h1 h2
  case jumpIfNot => exact handleJumpIfNot_err _ _ h1 h2
  case switch => exact handleSwitch_err _ _ h1 h2
  case jump => exact handleJump_err _ _ h1 h2
  case switchTable => exact handleSwitchTable_err _ _ h1 h2
  case loadCtx => exact handleLoadCtx_err _ _ _ h1 h2
  case emit => exact handleEmit_err _ _ h1 h2
  case storeCtx => exact handleStoreCtx_err _ _ _ h1 h2
  case ibin o =>
    unfold ErrRes
    vm_sweep
    case h1.h2 he => obtain ⟨rfl, ho⟩ := ibinEval_err he; rcases ho with rfl | rfl <;> err_close
    all_goals err_close
  case fbin o =>
    unfold ErrRes
    vm_sweep
    case h1.h2 he => obtain ⟨rfl, ho⟩ := fbinEval_err he; rcases ho with rfl | rfl <;> err_close
    all_goals err_close
  case un o =>
    unfold ErrRes
    vm_sweep
    case h1.h2 he => obtain ⟨rfl, ho⟩ := unEval_err he; rcases ho with rfl | rfl <;> err_close
    all_goals err_close
  all_goals
    unfold ErrRes
    try dsimp only
    vm_sweep
    all_goals err_close

end Cnd
