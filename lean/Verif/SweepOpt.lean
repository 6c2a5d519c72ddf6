import Verif.VMLemmas
/-
  Sweep over all opcodes: which instructions change the `@optional` flag, and which must move on inside the packet (used for C92).
-/

set_option linter.unusedVariables false

namespace Cnd
variable {σ : Type}

/-- Fields and strings: they use the `@optional` flag up. -/
def Op.eats : Op → Bool
  | .io _ | .ioF32 | .ioF64 | .ioBool | .strNull | .strPre _ => true
  | _ => false

/-- Constants and checksums: they are there whatever the flag says. -/
def Op.locks : Op → Bool
  | .constCheck | .constWrite | .crc16 | .crc32 => true
  | _ => false

/-- The position has moved on, and is inside the packet or at its end. -/
def Ate (s s' : St σ) : Prop := s.cursor < s'.cursor ∧ s'.cursor ≤ s.buf.length

structure Eaten (s s' : St σ) : Prop where
  opt : s'.opt = false
  ate : s.opt = false → Ate s s'

def EatRes (s : St σ) : Res σ → Prop := Post (Eaten s) (fun _ _ => True) (fun _ => True)

structure Locked (s s' : St σ) : Prop where
  opt : s'.opt = s.opt
  ate : Ate s s'

def LockRes (s : St σ) : Res σ → Prop := Post (Locked s) (fun _ _ => True) (fun _ => True)

def OptRes (s : St σ) : Res σ → Prop := Post (fun s' => s'.opt = s.opt) (fun _ _ => True) (fun _ => True)

macro "eat_close" : tactic => `(tactic| first
  | exact ⟨rfl, fun h => ⟨by (try dsimp only at *); omega, by (try dsimp only at *); omega⟩⟩
  | exact ⟨rfl, fun h => by simp_all⟩
  | exact ⟨by simp_all, fun h => by simp_all⟩)

theorem handlePrim_eat (E : Env σ) (t : Ty) (op : Byte) (s : St σ) : EatRes s (handlePrim E t op s) := by
  have ht : 0 < t.size := by cases t <;> decide
  unfold EatRes handlePrim
  try dsimp only
  vm_sweep
  all_goals eat_close

theorem handleFloat_eat (E : Env σ) (dbl : Bool) (op : Byte) (s : St σ) : EatRes s (handleFloat E dbl op s) := by
  unfold EatRes handleFloat
  cases dbl <;>
  · try dsimp only
    vm_sweep
    all_goals eat_close

theorem handleBool_eat (E : Env σ) (op : Byte) (s : St σ) : EatRes s (handleBool E op s) := by
  unfold EatRes handleBool
  try dsimp only
  vm_sweep
  all_goals eat_close

theorem handleStrNull_eat (E : Env σ) (op : Byte) (s : St σ) : EatRes s (handleStrNull E op s) := by
  unfold EatRes handleStrNull
  try dsimp only
  vm_sweep
  all_goals eat_close

theorem handleStrPre_eat (E : Env σ) (p : Pre) (op : Byte) (s : St σ) : EatRes s (handleStrPre E p op s) := by
  have hp : 0 < p.size := by cases p <;> decide
  unfold EatRes handleStrPre
  try dsimp only
  vm_sweep
  all_goals eat_close

macro "lock_close" : tactic => `(tactic| first
  | exact ⟨rfl, ⟨by (try dsimp only at *); omega, by (try dsimp only at *); omega⟩⟩
  | exact ⟨rfl, by simp_all⟩)

theorem handleConstCheck_lock (E : Env σ) (s : St σ) : LockRes s (handleConstCheck E s) := by
  have hty : ∀ t : Ty, 0 < t.size := fun t => by cases t <;> decide
  unfold LockRes handleConstCheck
  try dsimp only
  vm_sweep
  all_goals have ht := hty ‹Ty›
  all_goals lock_close

theorem handleConstWrite_lock (E : Env σ) (s : St σ) : LockRes s (handleConstWrite E s) := by
  have hty : ∀ t : Ty, 0 < t.size := fun t => by cases t <;> decide
  unfold LockRes handleConstWrite
  try dsimp only
  vm_sweep
  all_goals have ht := hty ‹Ty›
  all_goals lock_close

theorem handleCrc_lock (E : Env σ) (w32 : Bool) (s : St σ) : LockRes s (handleCrc E w32 s) := by
  unfold LockRes handleCrc
  cases w32 <;>
  · try dsimp only
    vm_sweep
    all_goals lock_close

theorem handleBitU_opt (E : Env σ) (op : Byte) (s : St σ) : OptRes s (handleBitU E op s) := by
  unfold OptRes handleBitU
  try dsimp only
  vm_sweep
  all_goals rfl

theorem handleBitI_opt (E : Env σ) (op : Byte) (s : St σ) : OptRes s (handleBitI E op s) := by
  unfold OptRes handleBitI
  try dsimp only
  vm_sweep
  all_goals rfl

theorem handleBitBool_opt (E : Env σ) (op : Byte) (s : St σ) : OptRes s (handleBitBool E op s) := by
  unfold OptRes handleBitBool
  try dsimp only
  vm_sweep
  all_goals rfl

theorem handlePad_opt (E : Env σ) (s : St σ) : OptRes s (handlePad E s) := by
  unfold OptRes handlePad
  try dsimp only
  vm_sweep
  all_goals rfl

theorem handleFill_opt (E : Env σ) (s : St σ) : OptRes s (handleFill E s) := by
  unfold OptRes handleFill
  try dsimp only
  vm_sweep
  all_goals rfl

theorem handleArrFixed_opt (E : Env σ) (op : Byte) (s : St σ) : OptRes s (handleArrFixed E op s) := by
  unfold OptRes handleArrFixed
  try dsimp only
  vm_sweep
  all_goals rfl

theorem handleArrPre_opt (E : Env σ) (p : Pre) (op : Byte) (s : St σ) : OptRes s (handleArrPre E p op s) := by
  unfold OptRes handleArrPre
  try dsimp only
  vm_sweep
  all_goals rfl

theorem handleArrEnd_opt (E : Env σ) (s : St σ) : OptRes s (handleArrEnd E s) := by
  unfold OptRes handleArrEnd
  try dsimp only
  vm_sweep
  all_goals rfl

theorem handleRaw_opt (E : Env σ) (op : Byte) (s : St σ) : OptRes s (handleRaw E op s) := by
  unfold OptRes handleRaw
  try dsimp only
  vm_sweep
  all_goals rfl

theorem handleArrEof_opt (E : Env σ) (s : St σ) : OptRes s (handleArrEof E s) := by
  unfold OptRes handleArrEof
  try dsimp only
  vm_sweep
  all_goals rfl

theorem handleArrDynamic_opt (E : Env σ) (op : Byte) (s : St σ) : OptRes s (handleArrDynamic E op s) := by
  unfold OptRes handleArrDynamic
  try dsimp only
  vm_sweep
  all_goals rfl

theorem handleRange_opt (E : Env σ) (s : St σ) : OptRes s (handleRange E s) := by
  unfold OptRes handleRange
  try dsimp only
  vm_sweep
  all_goals rfl

theorem handleEnum_opt (E : Env σ) (s : St σ) : OptRes s (handleEnum E s) := by
  unfold OptRes handleEnum
  try dsimp only
  vm_sweep
  all_goals rfl

theorem handleJump_opt (E : Env σ) (s : St σ) : OptRes s (handleJump E s) := by
  unfold OptRes handleJump
  try dsimp only
  vm_sweep
  all_goals rfl

theorem handleJumpIfNot_opt (E : Env σ) (s : St σ) : OptRes s (handleJumpIfNot E s) := by
  unfold OptRes handleJumpIfNot
  try dsimp only
  vm_sweep
  all_goals rfl

theorem handleSwitch_opt (E : Env σ) (s : St σ) : OptRes s (handleSwitch E s) := by
  unfold OptRes handleSwitch
  try dsimp only
  vm_sweep
  all_goals rfl

theorem handleSwitchTable_opt (E : Env σ) (s : St σ) : OptRes s (handleSwitchTable E s) := by
  unfold OptRes handleSwitchTable
  try dsimp only
  vm_sweep
  all_goals rfl

theorem handleLoadCtx_opt (E : Env σ) (op : Byte) (s : St σ) : OptRes s (handleLoadCtx E op s) := by
  unfold OptRes handleLoadCtx
  try dsimp only
  vm_sweep
  all_goals rfl

theorem handleStoreCtx_opt (E : Env σ) (op : Byte) (s : St σ) : OptRes s (handleStoreCtx E op s) := by
  unfold OptRes handleStoreCtx
  try dsimp only
  vm_sweep
  all_goals rfl

theorem handleEmit_opt (E : Env σ) (s : St σ) : OptRes s (handleEmit E s) := by
  unfold OptRes handleEmit
  try dsimp only
  vm_sweep
  all_goals rfl

/-- What every instruction does with the flag and the position. -/
structure Paced (o : Op) (s s' : St σ) : Prop where
  opt : s'.opt = true → o = .markOptional ∨ s.opt = true ∧ o.eats = false
  ate : o.eats = true ∧ s.opt = false ∨ o.locks = true → Ate s s'

def PaceRes (o : Op) (s : St σ) : Res σ → Prop := Post (Paced o s) (fun _ _ => True) (fun _ => True)

theorem EatRes.pace {o : Op} {s : St σ} {r : Res σ} (h : EatRes s r) (hl : o.locks = false) : PaceRes o s r := by
  cases r with
  | run s' =>
    have h : Eaten s s' := h
    refine ⟨fun e => ?_, fun e => ?_⟩
    · rw [h.opt] at e; cases e
    · rcases e with e | e
      · exact h.ate e.2
      · rw [hl] at e; cases e
  | _ => trivial

theorem LockRes.pace {o : Op} {s : St σ} {r : Res σ} (h : LockRes s r) (he : o.eats = false) : PaceRes o s r := by
  cases r with
  | run s' =>
    have h : Locked s s' := h
    exact ⟨fun e => .inr ⟨h.opt ▸ e, he⟩, fun _ => h.ate⟩
  | _ => trivial

theorem OptRes.pace {o : Op} {s : St σ} {r : Res σ} (h : OptRes s r) (he : o.eats = false) (hl : o.locks = false) : PaceRes o s r := by
  cases r with
  | run s' =>
    have h : s'.opt = s.opt := h
    refine ⟨fun e => .inr ⟨h ▸ e, he⟩, fun e => ?_⟩
    rcases e with e | e
    · rw [he] at e; cases e.1
    · rw [hl] at e; cases e
  | _ => trivial

theorem execOp_pace (E : Env σ) (op : Byte) (s : St σ) : PaceRes (decodeOp op) s (execOp E op s) := by
  unfold execOp
  cases h : decodeOp op <;> simp only
  case io => exact (handlePrim_eat _ _ _ _).pace rfl
  case ioF32 => exact (handleFloat_eat _ _ _ _).pace rfl
  case ioF64 => exact (handleFloat_eat _ _ _ _).pace rfl
  case ioBool => exact (handleBool_eat _ _ _).pace rfl
  case bitU => exact (handleBitU_opt _ _ _).pace rfl rfl
  case bitI => exact (handleBitI_opt _ _ _).pace rfl rfl
  case bitBool => exact (handleBitBool_opt _ _ _).pace rfl rfl
  case alignPad => exact (handlePad_opt _ _).pace rfl rfl
  case alignFill => exact (handleFill_opt _ _).pace rfl rfl
  case strNull => exact (handleStrNull_eat _ _ _).pace rfl
  case strPre => exact (handleStrPre_eat _ _ _ _).pace rfl
  case arrFixed => exact (handleArrFixed_opt _ _ _).pace rfl rfl
  case arrPre => exact (handleArrPre_opt _ _ _ _).pace rfl rfl
  case arrEnd => exact (handleArrEnd_opt _ _).pace rfl rfl
  case rawBytes => exact (handleRaw_opt _ _ _).pace rfl rfl
  case arrEof => exact (handleArrEof_opt _ _).pace rfl rfl
  case arrDynamic => exact (handleArrDynamic_opt _ _ _).pace rfl rfl
  case constCheck => exact (handleConstCheck_lock _ _).pace rfl
  case constWrite => exact (handleConstWrite_lock _ _).pace rfl
  case rangeCheck => exact (handleRange_opt _ _).pace rfl rfl
  case crc16 => exact (handleCrc_lock _ _ _).pace rfl
  case crc32 => exact (handleCrc_lock _ _ _).pace rfl
  case enumCheck => exact (handleEnum_opt _ _).pace rfl rfl
  case jump => exact (handleJump_opt _ _).pace rfl rfl
  case jumpIfNot => exact (handleJumpIfNot_opt _ _).pace rfl rfl
  case switch => exact (handleSwitch_opt _ _).pace rfl rfl
  case switchTable => exact (handleSwitchTable_opt _ _).pace rfl rfl
  case loadCtx => exact (handleLoadCtx_opt _ _ _).pace rfl rfl
  case emit => exact (handleEmit_opt _ _).pace rfl rfl
  case storeCtx => exact (handleStoreCtx_opt _ _ _).pace rfl rfl
  case markOptional => exact ⟨fun _ => .inl rfl, fun e => by rcases e with e | e <;> simp [Op.eats, Op.locks] at e⟩
  all_goals
    refine OptRes.pace ?_ rfl rfl
    unfold OptRes
    try dsimp only
    vm_sweep
    all_goals rfl

end Cnd
