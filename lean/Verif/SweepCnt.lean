import Verif.SweepIp
/-
  Sweep over all opcodes: which instructions open a loop, and with what count (used for C32).
-/
set_option linter.unusedVariables false

namespace Cnd
variable {σ : Type}

/-- The loop stack is left alone. -/
def SameLoops (s : St σ) : Res σ → Prop :=
  Post (fun s' => s'.loops = s.loops) (fun _ _ => True) (fun _ => True)

theorem handlePrim_loops (E : Env σ) (t : Ty) (op : Byte) (s : St σ) : SameLoops s (handlePrim E t op s) := by
  unfold SameLoops handlePrim
  try dsimp only
  ip_sweep
  all_goals rfl

theorem handleFloat_loops (E : Env σ) (dbl : Bool) (op : Byte) (s : St σ) : SameLoops s (handleFloat E dbl op s) := by
  unfold SameLoops handleFloat
  try dsimp only
  ip_sweep
  all_goals rfl

theorem handleBool_loops (E : Env σ) (op : Byte) (s : St σ) : SameLoops s (handleBool E op s) := by
  unfold SameLoops handleBool
  try dsimp only
  ip_sweep
  all_goals rfl

theorem handleBitU_loops (E : Env σ) (op : Byte) (s : St σ) : SameLoops s (handleBitU E op s) := by
  unfold SameLoops handleBitU
  try dsimp only
  ip_sweep
  all_goals rfl

theorem handleBitI_loops (E : Env σ) (op : Byte) (s : St σ) : SameLoops s (handleBitI E op s) := by
  unfold SameLoops handleBitI
  try dsimp only
  ip_sweep
  all_goals rfl

theorem handleBitBool_loops (E : Env σ) (op : Byte) (s : St σ) : SameLoops s (handleBitBool E op s) := by
  unfold SameLoops handleBitBool
  try dsimp only
  ip_sweep
  all_goals rfl

theorem handlePad_loops (E : Env σ) (s : St σ) : SameLoops s (handlePad E s) := by
  unfold SameLoops handlePad
  try dsimp only
  ip_sweep
  all_goals rfl

theorem handleFill_loops (E : Env σ) (s : St σ) : SameLoops s (handleFill E s) := by
  unfold SameLoops handleFill
  try dsimp only
  ip_sweep
  all_goals rfl

theorem handleStrNull_loops (E : Env σ) (op : Byte) (s : St σ) : SameLoops s (handleStrNull E op s) := by
  unfold SameLoops handleStrNull
  try dsimp only
  ip_sweep
  all_goals rfl

theorem handleStrPre_loops (E : Env σ) (p : Pre) (op : Byte) (s : St σ) : SameLoops s (handleStrPre E p op s) := by
  unfold SameLoops handleStrPre
  try dsimp only
  ip_sweep
  all_goals rfl

theorem handleRaw_loops (E : Env σ) (op : Byte) (s : St σ) : SameLoops s (handleRaw E op s) := by
  unfold SameLoops handleRaw
  try dsimp only
  ip_sweep
  all_goals rfl

theorem handleConstCheck_loops (E : Env σ) (s : St σ) : SameLoops s (handleConstCheck E s) := by
  unfold SameLoops handleConstCheck
  try dsimp only
  ip_sweep
  all_goals rfl

theorem handleConstWrite_loops (E : Env σ) (s : St σ) : SameLoops s (handleConstWrite E s) := by
  unfold SameLoops handleConstWrite
  try dsimp only
  ip_sweep
  all_goals rfl

theorem handleRange_loops (E : Env σ) (s : St σ) : SameLoops s (handleRange E s) := by
  unfold SameLoops handleRange
  try dsimp only
  ip_sweep
  all_goals rfl

theorem handleCrc_loops (E : Env σ) (w32 : Bool) (s : St σ) : SameLoops s (handleCrc E w32 s) := by
  unfold SameLoops handleCrc
  try dsimp only
  ip_sweep
  all_goals rfl

theorem handleEnum_loops (E : Env σ) (s : St σ) : SameLoops s (handleEnum E s) := by
  unfold SameLoops handleEnum
  try dsimp only
  ip_sweep
  all_goals rfl

theorem handleJump_loops (E : Env σ) (s : St σ) : SameLoops s (handleJump E s) := by
  unfold SameLoops handleJump
  try dsimp only
  ip_sweep
  all_goals rfl

theorem handleJumpIfNot_loops (E : Env σ) (s : St σ) : SameLoops s (handleJumpIfNot E s) := by
  unfold SameLoops handleJumpIfNot
  try dsimp only
  ip_sweep
  all_goals rfl

theorem handleSwitch_loops (E : Env σ) (s : St σ) : SameLoops s (handleSwitch E s) := by
  unfold SameLoops handleSwitch
  try dsimp only
  ip_sweep
  all_goals rfl

theorem handleSwitchTable_loops (E : Env σ) (s : St σ) : SameLoops s (handleSwitchTable E s) := by
  unfold SameLoops handleSwitchTable
  try dsimp only
  ip_sweep
  all_goals rfl

theorem handleLoadCtx_loops (E : Env σ) (op : Byte) (s : St σ) : SameLoops s (handleLoadCtx E op s) := by
  unfold SameLoops handleLoadCtx
  try dsimp only
  ip_sweep
  all_goals rfl

theorem handleStoreCtx_loops (E : Env σ) (op : Byte) (s : St σ) : SameLoops s (handleStoreCtx E op s) := by
  unfold SameLoops handleStoreCtx
  try dsimp only
  ip_sweep
  all_goals rfl

theorem handleEmit_loops (E : Env σ) (s : St σ) : SameLoops s (handleEmit E s) := by
  unfold SameLoops handleEmit
  try dsimp only
  ip_sweep
  all_goals rfl

/-- Instructions that open a loop. -/
def Op.opens : Op → Bool
  | .arrFixed | .arrPre _ | .arrDynamic | .arrEof => true
  | _ => false

theorem execOp_loops (E : Env σ) (op : Byte) (s : St σ) (h1 : (decodeOp op).opens = false)
    (h2 : decodeOp op ≠ .arrEnd) : SameLoops s (execOp E op s) := by
  unfold execOp
  cases h : decodeOp op <;> simp only [h, Op.opens, ne_eq, not_true_eq_false, reduceCtorEq, Bool.true_eq_false] at h1 h2 ⊢
  case io => exact handlePrim_loops _ _ _ _
  case ioF32 => exact handleFloat_loops _ _ _ _
  case ioF64 => exact handleFloat_loops _ _ _ _
  case ioBool => exact handleBool_loops _ _ _
  case bitU => exact handleBitU_loops _ _ _
  case bitI => exact handleBitI_loops _ _ _
  case bitBool => exact handleBitBool_loops _ _ _
  case alignPad => exact handlePad_loops _ _
  case alignFill => exact handleFill_loops _ _
  case strNull => exact handleStrNull_loops _ _ _
  case strPre => exact handleStrPre_loops _ _ _ _
  case rawBytes => exact handleRaw_loops _ _ _
  case constCheck => exact handleConstCheck_loops _ _
  case constWrite => exact handleConstWrite_loops _ _
  case rangeCheck => exact handleRange_loops _ _
  case crc16 => exact handleCrc_loops _ _ _
  case crc32 => exact handleCrc_loops _ _ _
  case enumCheck => exact handleEnum_loops _ _
  case jump => exact handleJump_loops _ _
  case jumpIfNot => exact handleJumpIfNot_loops _ _
  case switch => exact handleSwitch_loops _ _
  case switchTable => exact handleSwitchTable_loops _ _
  case loadCtx => exact handleLoadCtx_loops _ _ _
  case storeCtx => exact handleStoreCtx_loops _ _ _
  case emit => exact handleEmit_loops _ _
  all_goals
    unfold SameLoops
    try dsimp only
    ip_sweep
    all_goals rfl

/-- At most one loop is opened, with a count other than the one that means "to the end of the data". -/
def Counted (s : St σ) : Res σ → Prop :=
  Post (fun s' => s'.loops = s.loops ∨ ∃ i c, s'.loops = ⟨i, c⟩ :: s.loops ∧ c < 0xFFFFFFFF)
    (fun _ _ => True) (fun _ => True)

/-- The host never answers an array instruction with the element count 0xFFFFFFFF. -/
def CountsOk (H : Host σ) : Prop :=
  ∀ h key op v, (op = 0x34 ∨ op = 0x37 ∨ op = 0x3B) → (truncB 4 (H.scalar h key op v).2.1).toNat ≠ 0xFFFFFFFF

theorem enterArray_counted {E : Env σ} {s : St σ} {count : Nat} (h : count < 0xFFFFFFFF) :
    Counted s (enterArray E s count) := by
  unfold Counted
  ip_sweep
  all_goals first
    | exact Or.inl rfl
    | exact Or.inr ⟨_, _, rfl, h⟩

theorem counted_mono {s s1 : St σ} {r : Res σ} (h : s1.loops = s.loops) (hc : Counted s1 r) : Counted s r := by
  unfold Counted at *
  rw [h] at hc
  exact hc

theorem arr_byte (op : Byte) (h : (decodeOp op).opens = true) :
    (decodeOp op = .arrFixed ∧ op = 0x34) ∨ (decodeOp op = .arrPre .p1 ∧ op = 0x35) ∨
    (decodeOp op = .arrPre .p2 ∧ op = 0x36) ∨ (decodeOp op = .arrPre .p4 ∧ op = 0x37) ∨
    (decodeOp op = .arrEof ∧ op = 0x3A) ∨ (decodeOp op = .arrDynamic ∧ op = 0x3B) := by
  have key : ∀ n : Fin 256, (decodeOp (BitVec.ofFin n)).opens = true →
      (decodeOp (BitVec.ofFin n) = .arrFixed ∧ (BitVec.ofFin n : Byte) = 0x34) ∨
      (decodeOp (BitVec.ofFin n) = .arrPre .p1 ∧ (BitVec.ofFin n : Byte) = 0x35) ∨
      (decodeOp (BitVec.ofFin n) = .arrPre .p2 ∧ (BitVec.ofFin n : Byte) = 0x36) ∨
      (decodeOp (BitVec.ofFin n) = .arrPre .p4 ∧ (BitVec.ofFin n : Byte) = 0x37) ∨
      (decodeOp (BitVec.ofFin n) = .arrEof ∧ (BitVec.ofFin n : Byte) = 0x3A) ∨
      (decodeOp (BitVec.ofFin n) = .arrDynamic ∧ (BitVec.ofFin n : Byte) = 0x3B) := by decide +kernel
  exact key op.toFin h

theorem truncB_small (n : Nat) (w : Word) (h : n ≤ 2) : (truncB n w).toNat ≠ 0xFFFFFFFF := by
  rw [toNat_truncB]
  have h1 : w.toNat % 2 ^ (8 * n) < 2 ^ (8 * n) := Nat.mod_lt _ (Nat.pow_pos (by omega))
  have h2 : 2 ^ (8 * n) ≤ 2 ^ 16 := Nat.pow_le_pow_right (by omega) (by omega)
  omega

theorem ans {E : Env σ} {n : Nat} {op : Byte}
    (hh : ∀ h key v, (truncB n (E.host.scalar h key op v).2.1).toNat ≠ 0xFFFFFFFF) {h h' : σ} {key : Nat}
    {v w : Word} {b : Bool} (he : E.host.scalar h key op v = (b, w, h')) (hn : n ≤ 4) :
    (truncB n w).toNat < 0xFFFFFFFF := by
  have := hh h key v
  rw [he] at this
  have h1 := truncB_lt32 n w hn
  have h2 : (truncB n w).toNat ≠ 0xFFFFFFFF := this
  omega

theorem handleArrPre_counted (E : Env σ) (p : Pre) (op : Byte) (s : St σ)
    (hh : ∀ h key v, (truncB p.size (E.host.scalar h key op v).2.1).toNat ≠ 0xFFFFFFFF) :
    Counted s (handleArrPre E p op s) := by
  unfold handleArrPre
  refine post_fet ?_
  dsimp only
  split
  · refine post_callScalar (fun h w he => ?_) (fun _ _ _ => trivial)
    split
    · trivial
    refine post_wrAt (fun b _ _ => ?_) (fun _ => trivial)
    refine counted_mono ?_ (enterArray_counted ?_)
    · rfl
    · exact ans hh he p.size_le
  · split
    · trivial
    refine post_rdAt (fun bs _ => ?_) (fun _ => trivial)
    refine post_callScalar (fun h w he => ?_) (fun _ _ _ => trivial)
    refine counted_mono ?_ (enterArray_counted ?_)
    · rfl
    · exact ans hh he p.size_le

theorem handleArrFixed_counted (E : Env σ) (op : Byte) (s : St σ)
    (hh : ∀ h key v, (truncB 4 (E.host.scalar h key op v).2.1).toNat ≠ 0xFFFFFFFF) :
    Counted s (handleArrFixed E op s) := by
  unfold handleArrFixed
  refine post_fet (post_fet ?_)
  refine post_callScalar (fun h w he => ?_) (fun _ _ _ => trivial)
  refine counted_mono ?_ (enterArray_counted ?_)
  · rfl
  · exact ans hh he (by omega)

theorem handleArrDynamic_counted (E : Env σ) (op : Byte) (s : St σ)
    (hh : ∀ h key v, (truncB 4 (E.host.scalar h key op v).2.1).toNat ≠ 0xFFFFFFFF) :
    Counted s (handleArrDynamic E op s) := by
  unfold handleArrDynamic
  refine post_fet (post_fet ?_)
  refine post_callScalar (fun h w he => ?_) (fun _ _ _ => trivial)
  dsimp only
  split
  · trivial
  refine post_callScalar (fun h' w' he => ?_) (fun _ _ _ => trivial)
  refine counted_mono ?_ (enterArray_counted ?_)
  · rfl
  · exact ans hh he (by omega)

theorem execOp_counted (E : Env σ) (op : Byte) (s : St σ) (h0 : decodeOp op ≠ .arrEnd) (h1 : decodeOp op ≠ .arrEof)
    (hh : CountsOk E.host) : Counted s (execOp E op s) := by
  cases ho : (decodeOp op).opens with
  | false =>
    have := execOp_loops E op s ho h0
    unfold SameLoops at this
    unfold Counted
    cases hr : execOp E op s with
    | run s' => rw [hr] at this; exact Or.inl this
    | stop e s' => trivial
    | ub u => trivial
  | true =>
    rcases arr_byte op ho with ⟨hd, hb⟩ | ⟨hd, hb⟩ | ⟨hd, hb⟩ | ⟨hd, hb⟩ | ⟨hd, hb⟩ | ⟨hd, hb⟩ <;>
      simp only [execOp, hd]
    · exact handleArrFixed_counted _ _ _ fun h key v => hh h key op v (.inl hb)
    · exact handleArrPre_counted _ _ _ _ fun h key v => truncB_small _ _ (by decide)
    · exact handleArrPre_counted _ _ _ _ fun h key v => truncB_small _ _ (by decide)
    · exact handleArrPre_counted _ _ _ _ fun h key v => hh h key op v (.inr (.inl hb))
    · exact absurd hd h1
    · exact handleArrDynamic_counted _ _ _ fun h key v => hh h key op v (.inr (.inr hb))

end Cnd
