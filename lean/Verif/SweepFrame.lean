import Verif.VMLemmas
/-
  Sweep over all opcodes: which bytes of the packet an instruction can change (used for C03, C04).
-/

set_option linter.unusedVariables false

namespace Cnd
variable {σ : Type}

/-- A host that does not write through the packet pointers it is handed. -/
def Quiet (H : Host σ) : Prop := ∀ h key op be buf p, (H.bytesAt h key op be buf p).2.1 = buf

/-- Bytes outside the consumed region keep their values; decoding changes nothing. -/
structure Frm (E : Env σ) (cw : Bool) (s s' : St σ) : Prop where
  out : ∀ i, i < s.cursor ∨ 8 * s'.cursor + s'.bit ≤ 8 * i → s'.buf[i]? = s.buf[i]?
  dec : E.enc = false → cw = false → s'.buf = s.buf

def FrmRes (E : Env σ) (cw : Bool) (s : St σ) : Res σ → Prop :=
  Post (Frm E cw s) (fun _ => Frm E cw s) (fun _ => True)

theorem store_out {buf : List Byte} {p : Nat} {bs b : List Byte} (h : store buf p bs = some b) (i : Nat)
    (hi : i < p ∨ p + bs.length ≤ i) : b[i]? = buf[i]? := by
  obtain ⟨h1, rfl⟩ := store_eq_some.1 h
  rcases hi with hi | hi
  · exact getElem?_splice_lt h1 hi
  · exact getElem?_splice_ge h1 hi

theorem byte_of_bits (be : Bool) (a b : List Byte) (i : Nat)
    (h : ∀ k, k < 8 → bitAt be a (8 * i + k) = bitAt be b (8 * i + k)) : a[i]? = b[i]? := by
  have h' : ∀ k, k < 8 → (a[i]?).map (fun x => streamBit be x k) = (b[i]?).map (fun x => streamBit be x k) := by
    intro k hk
    rw [← bitAt_eq_streamBit be a i k hk, ← bitAt_eq_streamBit be b i k hk]
    exact h k hk
  cases ha : a[i]? with
  | none => have := h' 0 (by omega); cases hb : b[i]? <;> simp_all
  | some x =>
    cases hb : b[i]? with
    | none => have := h' 0 (by omega); simp_all
    | some y =>
      have hxy : x = y := by
        apply BitVec.eq_of_getLsbD_eq
        intro k hk
        have e := h' (if be then 7 - k else k) (by split <;> omega)
        simp only [ha, hb, Option.map_some, Option.some.injEq, streamBit] at e
        cases be
        · simpa using e
        · have e7 : 7 - (7 - k) = k := by omega
          simpa [e7] using e
      rw [hxy]

theorem writeBits_out {be : Bool} {val : Word} {count : Nat} {buf : List Byte} {cur bit : Nat}
    (hb : bit < 8) {b' : List Byte} {c' o' : Nat}
    (h : writeBits buf be cur bit val count = some (b', c', o')) (i : Nat)
    (hi : i < cur ∨ 8 * c' + o' ≤ 8 * i) : b'[i]? = buf[i]? := by
  obtain ⟨_, ho, hp, hbits⟩ := writeBits_spec _ _ _ _ _ _ hb h
  apply byte_of_bits be
  intro k hk
  rw [hbits, if_neg]
  omega

theorem hostBuf_quiet {H : Host σ} (hq : Quiet H) {h : σ} {key : Nat} {op : Byte} {buf : List Byte}
    {be : Bool} {p : Nat} {r : Bool} {b : List Byte} {h' : σ} (e : H.bytesAt h key op be buf p = (r, b, h')) :
    b = buf := by
  have := hq h key op be buf p
  rw [e] at this; exact this

theorem hostBuf_self (b : List Byte) : hostBuf b b = b := by simp [hostBuf]

macro "frm_close" : tactic => `(tactic| (
  (try have hqb := hostBuf_quiet ‹Quiet _› ‹Host.bytesAt _ _ _ _ _ _ _ = _›)
  (try subst hqb)
  refine ⟨?_, ?_⟩ <;> (try dsimp only) <;> (try rw [hostBuf_self]) <;>
    first
      | (intros; rfl)
      | (intro he; simp_all; done)
      | (intro i hi; exact store_out ‹store _ _ _ = some _› i (by simp only [wrBytes_length, List.length_append, List.length_cons, List.length_nil]; omega))
      | (intro i hi; exact writeBits_out ‹_› ‹writeBits _ _ _ _ _ _ = some _› i (by omega))
      | (intro i hi; rw [store_out ‹store _ (_ + _) _ = some _› i (by simp only [wrBytes_length]; omega), store_out ‹store _ _ (wrBytes _ _ _) = some _› i (by simp only [wrBytes_length]; omega)])))

theorem handlePrim_frm (E : Env σ) (t : Ty) (op : Byte) (s : St σ) (hal : s.bit = 0) (hb : s.bit < 8) (hq : Quiet E.host) :
    FrmRes E false s (handlePrim E t op s) := by
  unfold FrmRes handlePrim
  try dsimp only
  vm_sweep
  all_goals frm_close

theorem handleFloat_frm (E : Env σ) (dbl : Bool) (op : Byte) (s : St σ) (hal : s.bit = 0) (hb : s.bit < 8) (hq : Quiet E.host) :
    FrmRes E false s (handleFloat E dbl op s) := by
  unfold FrmRes handleFloat
  try dsimp only
  vm_sweep
  all_goals frm_close

theorem handleBool_frm (E : Env σ) (op : Byte) (s : St σ) (hal : s.bit = 0) (hb : s.bit < 8) (hq : Quiet E.host) :
    FrmRes E false s (handleBool E op s) := by
  unfold FrmRes handleBool
  try dsimp only
  vm_sweep
  all_goals frm_close

theorem handleBitU_frm (E : Env σ) (op : Byte) (s : St σ) (hb : s.bit < 8) (hq : Quiet E.host) :
    FrmRes E false s (handleBitU E op s) := by
  unfold FrmRes handleBitU
  try dsimp only
  vm_sweep
  all_goals frm_close

theorem handleBitI_frm (E : Env σ) (op : Byte) (s : St σ) (hb : s.bit < 8) (hq : Quiet E.host) :
    FrmRes E false s (handleBitI E op s) := by
  unfold FrmRes handleBitI
  try dsimp only
  vm_sweep
  all_goals frm_close

theorem handleBitBool_frm (E : Env σ) (op : Byte) (s : St σ) (hb : s.bit < 8) (hq : Quiet E.host) :
    FrmRes E false s (handleBitBool E op s) := by
  unfold FrmRes handleBitBool
  try dsimp only
  vm_sweep
  all_goals frm_close

theorem handlePad_frm (E : Env σ) (s : St σ) (hb : s.bit < 8) (hq : Quiet E.host) :
    FrmRes E false s (handlePad E s) := by
  unfold FrmRes handlePad
  try dsimp only
  vm_sweep
  all_goals frm_close

theorem handleFill_frm (E : Env σ) (s : St σ) (hb : s.bit < 8) (hq : Quiet E.host) :
    FrmRes E false s (handleFill E s) := by
  unfold FrmRes handleFill
  try dsimp only
  vm_sweep
  all_goals frm_close

theorem handleStrNull_frm (E : Env σ) (op : Byte) (s : St σ) (hal : s.bit = 0) (hb : s.bit < 8) (hq : Quiet E.host) :
    FrmRes E false s (handleStrNull E op s) := by
  unfold FrmRes handleStrNull
  try dsimp only
  vm_sweep
  all_goals frm_close

theorem handleStrPre_frm (E : Env σ) (p : Pre) (op : Byte) (s : St σ) (hal : s.bit = 0) (hb : s.bit < 8) (hq : Quiet E.host) :
    FrmRes E false s (handleStrPre E p op s) := by
  unfold FrmRes handleStrPre
  try dsimp only
  vm_sweep
  all_goals frm_close

theorem handleArrFixed_frm (E : Env σ) (op : Byte) (s : St σ) (hal : s.bit = 0) (hb : s.bit < 8) (hq : Quiet E.host) :
    FrmRes E false s (handleArrFixed E op s) := by
  unfold FrmRes handleArrFixed
  try dsimp only
  vm_sweep
  all_goals frm_close

theorem handleArrPre_frm (E : Env σ) (p : Pre) (op : Byte) (s : St σ) (hal : s.bit = 0) (hb : s.bit < 8) (hq : Quiet E.host) :
    FrmRes E false s (handleArrPre E p op s) := by
  unfold FrmRes handleArrPre
  try dsimp only
  vm_sweep
  all_goals frm_close

theorem handleArrEnd_frm (E : Env σ) (s : St σ) (hal : s.bit = 0) (hb : s.bit < 8) (hq : Quiet E.host) :
    FrmRes E false s (handleArrEnd E s) := by
  unfold FrmRes handleArrEnd
  try dsimp only
  vm_sweep
  all_goals frm_close

theorem handleRaw_frm (E : Env σ) (op : Byte) (s : St σ) (hal : s.bit = 0) (hb : s.bit < 8) (hq : Quiet E.host) :
    FrmRes E false s (handleRaw E op s) := by
  unfold FrmRes handleRaw
  try dsimp only
  vm_sweep
  all_goals frm_close

theorem handleArrEof_frm (E : Env σ) (s : St σ) (hal : s.bit = 0) (hb : s.bit < 8) (hq : Quiet E.host) :
    FrmRes E false s (handleArrEof E s) := by
  unfold FrmRes handleArrEof
  try dsimp only
  vm_sweep
  all_goals frm_close

theorem handleArrDynamic_frm (E : Env σ) (op : Byte) (s : St σ) (hal : s.bit = 0) (hb : s.bit < 8) (hq : Quiet E.host) :
    FrmRes E false s (handleArrDynamic E op s) := by
  unfold FrmRes handleArrDynamic
  try dsimp only
  vm_sweep
  all_goals frm_close

theorem handleConstCheck_frm (E : Env σ) (s : St σ) (hal : s.bit = 0) (hb : s.bit < 8) (hq : Quiet E.host) :
    FrmRes E false s (handleConstCheck E s) := by
  unfold FrmRes handleConstCheck
  try dsimp only
  vm_sweep
  all_goals frm_close

theorem handleConstWrite_frm (E : Env σ) (s : St σ) (hal : s.bit = 0) (hb : s.bit < 8) (hq : Quiet E.host) :
    FrmRes E true s (handleConstWrite E s) := by
  unfold FrmRes handleConstWrite
  try dsimp only
  vm_sweep
  all_goals frm_close

theorem handleRange_frm (E : Env σ) (s : St σ) (hb : s.bit < 8) (hq : Quiet E.host) :
    FrmRes E false s (handleRange E s) := by
  unfold FrmRes handleRange
  try dsimp only
  vm_sweep
  all_goals frm_close

theorem handleCrc_frm (E : Env σ) (w32 : Bool) (s : St σ) (hal : s.bit = 0) (hb : s.bit < 8) (hq : Quiet E.host) :
    FrmRes E false s (handleCrc E w32 s) := by
  unfold FrmRes handleCrc
  try dsimp only
  vm_sweep
  all_goals frm_close

theorem handleEnum_frm (E : Env σ) (s : St σ) (hal : s.bit = 0) (hb : s.bit < 8) (hq : Quiet E.host) :
    FrmRes E false s (handleEnum E s) := by
  unfold FrmRes handleEnum
  try dsimp only
  vm_sweep
  all_goals frm_close

theorem handleJump_frm (E : Env σ) (s : St σ) (hb : s.bit < 8) (hq : Quiet E.host) :
    FrmRes E false s (handleJump E s) := by
  unfold FrmRes handleJump
  try dsimp only
  vm_sweep
  all_goals frm_close

theorem handleJumpIfNot_frm (E : Env σ) (s : St σ) (hb : s.bit < 8) (hq : Quiet E.host) :
    FrmRes E false s (handleJumpIfNot E s) := by
  unfold FrmRes handleJumpIfNot
  try dsimp only
  vm_sweep
  all_goals frm_close

theorem handleSwitch_frm (E : Env σ) (s : St σ) (hb : s.bit < 8) (hq : Quiet E.host) :
    FrmRes E false s (handleSwitch E s) := by
  unfold FrmRes handleSwitch
  try dsimp only
  vm_sweep
  all_goals frm_close

theorem handleSwitchTable_frm (E : Env σ) (s : St σ) (hb : s.bit < 8) (hq : Quiet E.host) :
    FrmRes E false s (handleSwitchTable E s) := by
  unfold FrmRes handleSwitchTable
  try dsimp only
  vm_sweep
  all_goals frm_close

theorem handleLoadCtx_frm (E : Env σ) (op : Byte) (s : St σ) (hb : s.bit < 8) (hq : Quiet E.host) :
    FrmRes E false s (handleLoadCtx E op s) := by
  unfold FrmRes handleLoadCtx
  try dsimp only
  vm_sweep
  all_goals frm_close

theorem handleStoreCtx_frm (E : Env σ) (op : Byte) (s : St σ) (hb : s.bit < 8) (hq : Quiet E.host) :
    FrmRes E false s (handleStoreCtx E op s) := by
  unfold FrmRes handleStoreCtx
  try dsimp only
  vm_sweep
  all_goals frm_close

theorem handleEmit_frm (E : Env σ) (s : St σ) (hb : s.bit < 8) (hq : Quiet E.host) :
    FrmRes E false s (handleEmit E s) := by
  unfold FrmRes handleEmit
  try dsimp only
  vm_sweep
  all_goals frm_close

theorem execOp_frm (E : Env σ) (op : Byte) (s : St σ) (hal : aligns op = true → s.bit = 0)
    (hb : s.bit < 8) (hq : Quiet E.host) :
    FrmRes E (decide (decodeOp op = .constWrite)) s (execOp E op s) := by
  have hA : decodeOp op ≠ .other → (decodeOp op).aligned = true → s.bit = 0 := fun h h' =>
    hal (by rw [aligns_decodeOp op h, h'])
  unfold execOp
  cases h : decodeOp op <;> simp only [h] at hA ⊢ <;>
    simp only [Op.aligned, reduceCtorEq, ne_eq, not_false_eq_true, forall_const, not_true_eq_false,
      false_imp_iff, Bool.false_eq_true, decide_false, decide_true] at hA ⊢
  case io => exact handlePrim_frm _ _ _ _ hA hb hq
  case ioF32 => exact handleFloat_frm _ _ _ _ hA hb hq
  case ioF64 => exact handleFloat_frm _ _ _ _ hA hb hq
  case ioBool => exact handleBool_frm _ _ _ hA hb hq
  case bitU => exact handleBitU_frm _ _ _ hb hq
  case bitI => exact handleBitI_frm _ _ _ hb hq
  case bitBool => exact handleBitBool_frm _ _ _ hb hq
  case alignPad => exact handlePad_frm _ _ hb hq
  case alignFill => exact handleFill_frm _ _ hb hq
  case strNull => exact handleStrNull_frm _ _ _ hA hb hq
  case strPre => exact handleStrPre_frm _ _ _ _ hA hb hq
  case arrFixed => exact handleArrFixed_frm _ _ _ hA hb hq
  case arrPre => exact handleArrPre_frm _ _ _ _ hA hb hq
  case arrEnd => exact handleArrEnd_frm _ _ hA hb hq
  case rawBytes => exact handleRaw_frm _ _ _ hA hb hq
  case arrEof => exact handleArrEof_frm _ _ hA hb hq
  case arrDynamic => exact handleArrDynamic_frm _ _ _ hA hb hq
  case constCheck => exact handleConstCheck_frm _ _ hA hb hq
  case constWrite => exact handleConstWrite_frm _ _ hA hb hq
  case rangeCheck => exact handleRange_frm _ _ hb hq
  case crc16 => exact handleCrc_frm _ _ _ hA hb hq
  case crc32 => exact handleCrc_frm _ _ _ hA hb hq
  case enumCheck => exact handleEnum_frm _ _ hA hb hq
  case jumpIfNot => exact handleJumpIfNot_frm _ _ hb hq
  case switch => exact handleSwitch_frm _ _ hb hq
  case jump => exact handleJump_frm _ _ hb hq
  case switchTable => exact handleSwitchTable_frm _ _ hb hq
  case loadCtx => exact handleLoadCtx_frm _ _ _ hb hq
  case emit => exact handleEmit_frm _ _ hb hq
  case storeCtx => exact handleStoreCtx_frm _ _ _ hb hq
  all_goals
    unfold FrmRes
    try dsimp only
    vm_sweep
    all_goals frm_close

end Cnd
