import Verif.Run
/-
  Sweep over the opcodes that do not align: which bits of the packet before the current position an
  instruction can change (used for C52 and C57).
-/

set_option linter.unusedVariables false

namespace Cnd
variable {σ : Type}

/-- Bits before the position of `s`, in the byte order of `s`, keep their values. -/
structure Kept (s s' : St σ) : Prop where
  bits : ∀ k, k < 8 * s.cursor + s.bit → bitAt s.be s'.buf k = bitAt s.be s.buf k

def KeptRes (s : St σ) : Res σ → Prop := Post (Kept s) (fun _ => Kept s) (fun _ => True)

macro "kept_close" : tactic => `(tactic| (
  refine ⟨?_⟩ <;> (try dsimp only) <;>
    first
      | (intros; rfl)
      | (intro k hk
         have hw := (writeBits_spec _ _ _ _ _ _ ‹_› ‹writeBits _ _ _ _ _ _ = some _›).2.2.2
         (try dsimp only at hw)
         rw [hw]; exact if_neg (by omega))))

theorem handleBitU_kept (E : Env σ) (op : Byte) (s : St σ) (hb : s.bit < 8) : KeptRes s (handleBitU E op s) := by
  unfold KeptRes handleBitU
  try dsimp only
  vm_sweep
  all_goals kept_close

theorem handleBitI_kept (E : Env σ) (op : Byte) (s : St σ) (hb : s.bit < 8) : KeptRes s (handleBitI E op s) := by
  unfold KeptRes handleBitI
  try dsimp only
  vm_sweep
  all_goals kept_close

theorem handleBitBool_kept (E : Env σ) (op : Byte) (s : St σ) (hb : s.bit < 8) : KeptRes s (handleBitBool E op s) := by
  unfold KeptRes handleBitBool
  try dsimp only
  vm_sweep
  all_goals kept_close

theorem handlePad_kept (E : Env σ) (s : St σ) (hb : s.bit < 8) : KeptRes s (handlePad E  s) := by
  unfold KeptRes handlePad
  try dsimp only
  vm_sweep
  all_goals kept_close

theorem handleFill_kept (E : Env σ) (s : St σ) (hb : s.bit < 8) : KeptRes s (handleFill E  s) := by
  unfold KeptRes handleFill
  try dsimp only
  vm_sweep
  all_goals kept_close

theorem handleRange_kept (E : Env σ) (s : St σ) (hb : s.bit < 8) : KeptRes s (handleRange E  s) := by
  unfold KeptRes handleRange
  try dsimp only
  vm_sweep
  all_goals kept_close

theorem handleJump_kept (E : Env σ) (s : St σ) (hb : s.bit < 8) : KeptRes s (handleJump E  s) := by
  unfold KeptRes handleJump
  try dsimp only
  vm_sweep
  all_goals kept_close

theorem handleJumpIfNot_kept (E : Env σ) (s : St σ) (hb : s.bit < 8) : KeptRes s (handleJumpIfNot E  s) := by
  unfold KeptRes handleJumpIfNot
  try dsimp only
  vm_sweep
  all_goals kept_close

theorem handleSwitch_kept (E : Env σ) (s : St σ) (hb : s.bit < 8) : KeptRes s (handleSwitch E  s) := by
  unfold KeptRes handleSwitch
  try dsimp only
  vm_sweep
  all_goals kept_close

theorem handleSwitchTable_kept (E : Env σ) (s : St σ) (hb : s.bit < 8) : KeptRes s (handleSwitchTable E  s) := by
  unfold KeptRes handleSwitchTable
  try dsimp only
  vm_sweep
  all_goals kept_close

theorem handleLoadCtx_kept (E : Env σ) (op : Byte) (s : St σ) (hb : s.bit < 8) : KeptRes s (handleLoadCtx E op s) := by
  unfold KeptRes handleLoadCtx
  try dsimp only
  vm_sweep
  all_goals kept_close

theorem handleStoreCtx_kept (E : Env σ) (op : Byte) (s : St σ) (hb : s.bit < 8) : KeptRes s (handleStoreCtx E op s) := by
  unfold KeptRes handleStoreCtx
  try dsimp only
  vm_sweep
  all_goals kept_close

theorem bitAt_of_byte {be : Bool} {a b : List Byte} {k : Nat} (h : a[k / 8]? = b[k / 8]?) :
    bitAt be a k = bitAt be b k := by
  unfold bitAt; rw [h]

/-- Instructions keep the bits before the position, except an EMIT in the middle of a byte. -/
theorem execOp_kept (E : Env σ) (op : Byte) (s : St σ) (hal : aligns op = true → s.bit = 0)
    (hb : s.bit < 8) (hq : Quiet E.host) (hem : decodeOp op = .emit → s.bit = 0) :
    KeptRes s (execOp E op s) := by
  by_cases h0 : s.bit = 0
  · have hf := execOp_frm E op s hal hb hq
    have key : ∀ s' : St σ, Frm E (decide (decodeOp op = .constWrite)) s s' → Kept s s' := fun s' h =>
      ⟨fun k hk => bitAt_of_byte (h.out _ (.inl (by omega)))⟩
    unfold FrmRes at hf
    unfold KeptRes
    cases hr : execOp E op s with
    | run s' => rw [hr] at hf; exact key _ hf
    | stop e s' => rw [hr] at hf; exact key _ hf
    | ub u => trivial
  · have hA : decodeOp op ≠ .other → (decodeOp op).aligned = true → False := fun h h' =>
      h0 (hal (by rw [aligns_decodeOp op h, h']))
    unfold execOp
    cases h : decodeOp op <;> simp only [h] at hA hem ⊢ <;>
      simp only [Op.aligned, reduceCtorEq, ne_eq, not_false_eq_true, forall_const, not_true_eq_false,
        false_imp_iff, Bool.false_eq_true, true_implies] at hA hem ⊢
    case bitU => exact handleBitU_kept _ _ _ hb
    case bitI => exact handleBitI_kept _ _ _ hb
    case bitBool => exact handleBitBool_kept _ _ _ hb
    case alignPad => exact handlePad_kept _ _ hb
    case alignFill => exact handleFill_kept _ _ hb
    case rangeCheck => exact handleRange_kept _ _ hb
    case jumpIfNot => exact handleJumpIfNot_kept _ _ hb
    case switch => exact handleSwitch_kept _ _ hb
    case jump => exact handleJump_kept _ _ hb
    case switchTable => exact handleSwitchTable_kept _ _ hb
    case loadCtx => exact handleLoadCtx_kept _ _ _ hb
    case storeCtx => exact handleStoreCtx_kept _ _ _ hb
    case emit => exact absurd hem h0
    all_goals
      unfold KeptRes
      try dsimp only
      vm_sweep
      all_goals kept_close

end Cnd
