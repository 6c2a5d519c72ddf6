import Verif.VMLemmas
/-
  Sweep over all opcodes: how an instruction moves the instruction pointer and the loop stack
  (used for C31, C32).
-/
set_option linter.unusedVariables false

namespace Cnd
variable {σ : Type}

theorem post_fetI {P : St σ → Prop} {Q : Err → St σ → Prop} {U : UB → Prop} {E : Env σ} {s : St σ}
    {n : Nat} {k : Word → St σ → Res σ}
    (h : ∀ w ip', s.ip ≤ ip' → (s.ip ≤ E.prog.length → ip' ≤ E.prog.length) →
      (n ≤ 8 → w.toNat < 256 ^ n) → Post P Q U (k w { s with ip := ip' })) :
    Post P Q U (fet E s n k) :=
  h _ _ (fetch_ip_ge _ _ _) (fetch_ip_le _ _ _) (fetch_lt _ _ _)

/-- Forward progress: the loop stack is untouched or gets one new frame opened after `s.ip`. -/
structure Adv (L : Nat) (s s' : St σ) : Prop where
  ge : s.ip ≤ s'.ip
  le : s.ip ≤ L → s'.ip ≤ L
  lps : s'.loops = s.loops ∨
    ∃ i c, s'.loops = ⟨i, c⟩ :: s.loops ∧ s.ip ≤ i ∧ i ≤ s'.ip ∧ c < 2 ^ 32

/-- A control transfer: inside the program, loop stack untouched. -/
structure Jmp (L : Nat) (s s' : St σ) : Prop where
  le : s'.ip ≤ L
  lps : s'.loops = s.loops

def AdvRes (E : Env σ) (s : St σ) : Res σ → Prop :=
  Post (Adv E.prog.length s) (fun _ _ => True) (fun _ => True)

def JmpRes (E : Env σ) (s : St σ) : Res σ → Prop :=
  Post (Jmp E.prog.length s) (fun _ _ => True) (fun _ => True)

theorem skipScan_le (bs : List Byte) (d : Nat) : skipScan bs d ≤ bs.length := by
  induction bs generalizing d with
  | nil => simp [skipScan]
  | cons b bs ih =>
    cases d with
    | zero => simp [skipScan]
    | succ d =>
      simp only [skipScan, List.length_cons]
      have := ih (if isArrOp b then d + 2 else if b == 0x38 then d else d + 1)
      omega

theorem skipBody_ge (prog : List Byte) (ip : Nat) : ip ≤ skipBody prog ip := by
  unfold skipBody; omega

theorem skipBody_le (prog : List Byte) (ip : Nat) (h : ip ≤ prog.length) :
    skipBody prog ip ≤ prog.length := by
  unfold skipBody
  have := skipScan_le (prog.drop ip) 1
  simp at this
  omega

theorem branch_le {len base : Nat} {off : Word} {t : Nat} (h : branch len base off = some t) : t ≤ len := by
  unfold branch at h
  simp only at h
  split at h
  · simp at h
  · split at h
    · simp at h
    · simp at h; omega

theorem enumScan_ge {prog : List Byte} {size : Nat} {a : Word} {n ip ip' : Nat}
    (h : enumScan prog size a n ip = some ip') : ip ≤ ip' := by
  induction n generalizing ip with
  | zero => simp [enumScan] at h
  | succ n ih =>
    simp only [enumScan] at h
    have := fetch_ip_ge prog ip size
    split at h
    · simp at h; omega
    · have := ih h; omega

theorem truncB_lt32 (n : Nat) (w : Word) (h : n ≤ 4) : (truncB n w).toNat < 2 ^ 32 := by
  rw [toNat_truncB]
  have h1 : w.toNat % 2 ^ (8 * n) < 2 ^ (8 * n) := Nat.mod_lt _ (Nat.pow_pos (by omega))
  have h2 : 2 ^ (8 * n) ≤ 2 ^ 32 := Nat.pow_le_pow_right (by omega) (by omega)
  omega

theorem Pre.size_le (p : Pre) : p.size ≤ 4 := by cases p <;> simp [Pre.size]

macro "ip_sweep" : tactic => `(tactic|
  repeat' (first | intro _ | with_reducible apply post_fetI | vm_rule | split | with_reducible trivial))

macro "adv_close" : tactic => `(tactic| (

  refine ⟨?_, ?_, ?_⟩ <;> (try dsimp only at *) <;>
    first
      | omega
      | (left; rfl)
      | (right; exact ⟨_, _, rfl, by (try dsimp only); omega, by (try dsimp only); omega, truncB_lt32 _ _ (by first | omega | exact Pre.size_le _)⟩)
      | (right; exact ⟨_, _, rfl, by (try dsimp only); omega, by (try dsimp only); exact skipBody_ge _ _, by decide⟩)
      | (right; exact ⟨_, _, rfl, by (try dsimp only); omega, by (try dsimp only); omega, by decide⟩)
      | (refine Nat.le_trans ?_ (skipBody_ge _ _); omega)
      | (intro; apply skipBody_le; omega)))

theorem handlePrim_adv (E : Env σ) (t : Ty) (op : Byte) (s : St σ) : AdvRes E s (handlePrim E t op s) := by
  unfold AdvRes handlePrim
  try dsimp only
  ip_sweep
  all_goals adv_close

theorem handleFloat_adv (E : Env σ) (dbl : Bool) (op : Byte) (s : St σ) : AdvRes E s (handleFloat E dbl op s) := by
  unfold AdvRes handleFloat
  try dsimp only
  ip_sweep
  all_goals adv_close

theorem handleBool_adv (E : Env σ) (op : Byte) (s : St σ) : AdvRes E s (handleBool E op s) := by
  unfold AdvRes handleBool
  try dsimp only
  ip_sweep
  all_goals adv_close

theorem handleBitU_adv (E : Env σ) (op : Byte) (s : St σ) : AdvRes E s (handleBitU E op s) := by
  unfold AdvRes handleBitU
  try dsimp only
  ip_sweep
  all_goals adv_close

theorem handleBitI_adv (E : Env σ) (op : Byte) (s : St σ) : AdvRes E s (handleBitI E op s) := by
  unfold AdvRes handleBitI
  try dsimp only
  ip_sweep
  all_goals adv_close

theorem handleBitBool_adv (E : Env σ) (op : Byte) (s : St σ) : AdvRes E s (handleBitBool E op s) := by
  unfold AdvRes handleBitBool
  try dsimp only
  ip_sweep
  all_goals adv_close

theorem handlePad_adv (E : Env σ) (s : St σ) : AdvRes E s (handlePad E s) := by
  unfold AdvRes handlePad
  try dsimp only
  ip_sweep
  all_goals adv_close

theorem handleFill_adv (E : Env σ) (s : St σ) : AdvRes E s (handleFill E s) := by
  unfold AdvRes handleFill
  try dsimp only
  ip_sweep
  all_goals adv_close

theorem handleStrNull_adv (E : Env σ) (op : Byte) (s : St σ) : AdvRes E s (handleStrNull E op s) := by
  unfold AdvRes handleStrNull
  try dsimp only
  ip_sweep
  all_goals adv_close

theorem handleStrPre_adv (E : Env σ) (p : Pre) (op : Byte) (s : St σ) : AdvRes E s (handleStrPre E p op s) := by
  unfold AdvRes handleStrPre
  try dsimp only
  ip_sweep
  all_goals adv_close

theorem handleArrFixed_adv (E : Env σ) (op : Byte) (s : St σ) : AdvRes E s (handleArrFixed E op s) := by
  unfold AdvRes handleArrFixed
  try dsimp only
  ip_sweep
  all_goals adv_close

theorem handleArrPre_adv (E : Env σ) (p : Pre) (op : Byte) (s : St σ) : AdvRes E s (handleArrPre E p op s) := by
  unfold AdvRes handleArrPre
  try dsimp only
  ip_sweep
  all_goals adv_close

theorem handleRaw_adv (E : Env σ) (op : Byte) (s : St σ) : AdvRes E s (handleRaw E op s) := by
  unfold AdvRes handleRaw
  try dsimp only
  ip_sweep
  all_goals adv_close

theorem handleArrEof_adv (E : Env σ) (s : St σ) : AdvRes E s (handleArrEof E s) := by
  unfold AdvRes handleArrEof
  try dsimp only
  ip_sweep
  all_goals adv_close

theorem handleArrDynamic_adv (E : Env σ) (op : Byte) (s : St σ) : AdvRes E s (handleArrDynamic E op s) := by
  unfold AdvRes handleArrDynamic
  try dsimp only
  ip_sweep
  all_goals adv_close

theorem handleConstCheck_adv (E : Env σ) (s : St σ) : AdvRes E s (handleConstCheck E s) := by
  unfold AdvRes handleConstCheck
  try dsimp only
  ip_sweep
  all_goals adv_close

theorem handleConstWrite_adv (E : Env σ) (s : St σ) : AdvRes E s (handleConstWrite E s) := by
  unfold AdvRes handleConstWrite
  try dsimp only
  ip_sweep
  all_goals adv_close

theorem handleRange_adv (E : Env σ) (s : St σ) : AdvRes E s (handleRange E s) := by
  unfold AdvRes handleRange
  try dsimp only
  ip_sweep
  all_goals adv_close

theorem handleCrc_adv (E : Env σ) (w32 : Bool) (s : St σ) : AdvRes E s (handleCrc E w32 s) := by
  unfold AdvRes handleCrc
  try dsimp only
  ip_sweep
  all_goals adv_close

theorem handleEnum_adv (E : Env σ) (s : St σ) :
    Post (fun s' => s.ip ≤ s'.ip ∧ s'.loops = s.loops) (fun _ _ => True) (fun _ => True)
      (handleEnum E s) := by
  unfold handleEnum
  try dsimp only
  ip_sweep
  rename_i he
  have := enumScan_ge he
  exact ⟨by dsimp only at *; omega, rfl⟩

theorem handleJump_jmp (E : Env σ) (s : St σ) (hip : s.ip ≤ E.prog.length) : JmpRes E s (handleJump E s) := by
  unfold JmpRes handleJump
  try dsimp only
  ip_sweep
  all_goals exact ⟨by first | exact branch_le ‹_› | (dsimp only at *; omega), rfl⟩

theorem handleJumpIfNot_jmp (E : Env σ) (s : St σ) (hip : s.ip ≤ E.prog.length) : JmpRes E s (handleJumpIfNot E s) := by
  unfold JmpRes handleJumpIfNot
  try dsimp only
  ip_sweep
  all_goals exact ⟨by first | exact branch_le ‹_› | (dsimp only at *; omega), rfl⟩

theorem handleSwitch_jmp (E : Env σ) (s : St σ) (hip : s.ip ≤ E.prog.length) : JmpRes E s (handleSwitch E s) := by
  unfold JmpRes handleSwitch
  try dsimp only
  ip_sweep
  all_goals exact ⟨by first | exact branch_le ‹_› | (dsimp only at *; omega), rfl⟩

theorem handleSwitchTable_jmp (E : Env σ) (s : St σ) (hip : s.ip ≤ E.prog.length) : JmpRes E s (handleSwitchTable E s) := by
  unfold JmpRes handleSwitchTable
  try dsimp only
  ip_sweep
  all_goals exact ⟨by first | exact branch_le ‹_› | (dsimp only at *; omega), rfl⟩

theorem handleLoadCtx_adv (E : Env σ) (op : Byte) (s : St σ) : AdvRes E s (handleLoadCtx E op s) := by
  unfold AdvRes handleLoadCtx
  try dsimp only
  ip_sweep
  all_goals adv_close

theorem handleStoreCtx_adv (E : Env σ) (op : Byte) (s : St σ) : AdvRes E s (handleStoreCtx E op s) := by
  unfold AdvRes handleStoreCtx
  try dsimp only
  ip_sweep
  all_goals adv_close

theorem handleEmit_adv (E : Env σ) (s : St σ) : AdvRes E s (handleEmit E s) := by
  unfold AdvRes handleEmit
  try dsimp only
  ip_sweep
  all_goals adv_close

/-- Control-transfer instructions. -/
def Op.jumps : Op → Bool
  | .jumpIfNot | .switch | .jump | .switchTable => true
  | _ => false

theorem execOp_adv (E : Env σ) (op : Byte) (s : St σ) (h1 : (decodeOp op).jumps = false)
    (h2 : decodeOp op ≠ .arrEnd) (h3 : decodeOp op ≠ .enumCheck) :
    AdvRes E s (execOp E op s) := by
  unfold execOp
  cases h : decodeOp op <;> simp only [h, Op.jumps, ne_eq, not_true_eq_false, reduceCtorEq] at h1 h2 h3 ⊢
  case io => exact handlePrim_adv _ _ _ _ 
  case ioF32 => exact handleFloat_adv _ _ _ _ 
  case ioF64 => exact handleFloat_adv _ _ _ _ 
  case ioBool => exact handleBool_adv _ _ _ 
  case bitU => exact handleBitU_adv _ _ _ 
  case bitI => exact handleBitI_adv _ _ _ 
  case bitBool => exact handleBitBool_adv _ _ _ 
  case alignPad => exact handlePad_adv _ _ 
  case alignFill => exact handleFill_adv _ _ 
  case strNull => exact handleStrNull_adv _ _ _ 
  case strPre => exact handleStrPre_adv _ _ _ _ 
  case arrFixed => exact handleArrFixed_adv _ _ _ 
  case arrPre => exact handleArrPre_adv _ _ _ _ 
  case rawBytes => exact handleRaw_adv _ _ _ 
  case arrEof => exact handleArrEof_adv _ _ 
  case arrDynamic => exact handleArrDynamic_adv _ _ _ 
  case constCheck => exact handleConstCheck_adv _ _ 
  case constWrite => exact handleConstWrite_adv _ _ 
  case rangeCheck => exact handleRange_adv _ _ 
  case crc16 => exact handleCrc_adv _ _ _ 
  case crc32 => exact handleCrc_adv _ _ _ 
  case loadCtx => exact handleLoadCtx_adv _ _ _ 
  case emit => exact handleEmit_adv _ _ 
  case storeCtx => exact handleStoreCtx_adv _ _ _ 
  all_goals
    unfold AdvRes
    try dsimp only
    ip_sweep
    all_goals adv_close

theorem execOp_jmp (E : Env σ) (op : Byte) (s : St σ) (h1 : (decodeOp op).jumps = true)
    (hip : s.ip ≤ E.prog.length) : JmpRes E s (execOp E op s) := by
  unfold execOp
  cases h : decodeOp op <;> simp only [h, Op.jumps, reduceCtorEq, Bool.false_eq_true] at h1 ⊢
  case jumpIfNot => exact handleJumpIfNot_jmp _ _ hip
  case switch => exact handleSwitch_jmp _ _ hip
  case jump => exact handleJump_jmp _ _ hip
  case switchTable => exact handleSwitchTable_jmp _ _ hip

end Cnd
