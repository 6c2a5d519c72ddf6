import Verif.SweepCall
import Verif.SweepErr
/-
  What becomes of an error returned by the callback (C81): a sweep over all instructions.
-/
set_option linter.unusedVariables false

namespace Cnd
variable {σ : Type}

/-- `Hard`: a call has been refused that must end the run. `Last`: the last call was refused. Hard refusals are those of calls with a
variable or without data, and of calls with a pointer into the packet other than for raw bytes. -/
structure HostErr (enc : Bool) (H : Host σ) (Hard Last : σ → Prop) : Prop where
  notify : ∀ {h key op b h'}, ¬ Hard h → H.notify h key op = (b, h') → (b = true → ¬ Hard h') ∧ (b = false → Last h')
  scalar : ∀ {h key op v b w h'}, ¬ Hard h → H.scalar h key op v = (b, w, h') → (b = true → ¬ Hard h') ∧ (b = false → Last h')
  str : ∀ {h key op b w h'}, enc = true → strPrefix op ≠ none → ¬ Hard h → H.str h key op = (b, w, h') → ¬ Hard h' ∧ (b = false → Last h')
  bytes : ∀ {h key op be buf p b w h'}, ¬ Hard h → H.bytesAt h key op be buf p = (b, w, h') →
    (b = true ∨ op = 0x39 → ¬ Hard h') ∧ (b = false → Last h')

/-- After an instruction: no hard refusal if the run goes on; otherwise it stops with CND_ERR_CALLBACK, and it stops with that only if the last
call was refused. -/
abbrev ErrOk (Hard Last : σ → Prop) : Res σ → Prop :=
  Post (fun s' => ¬ Hard s'.host) (fun e s' => (Hard s'.host → e = .callback) ∧ (e = .callback → Last s'.host)) (fun _ => True)

section
variable {Hard Last : σ → Prop} {E : Env σ} {s : St σ}

theorem err_notify (hR : HostErr E.enc E.host Hard Last) (hh : ¬ Hard s.host) {key : Nat} {op : Byte} {k : St σ → Res σ}
    (h1 : ∀ h, ¬ Hard h → ErrOk Hard Last (k { s with host := h })) : ErrOk Hard Last (callNotify E s key op k) :=
  post_callNotify (fun h e => h1 h ((hR.notify hh e).1 rfl)) fun h e => ⟨fun _ => rfl, fun _ => (hR.notify hh e).2 rfl⟩

theorem err_scalar (hR : HostErr E.enc E.host Hard Last) (hh : ¬ Hard s.host) {key : Nat} {op : Byte} {n : Nat} {v : Word} {k : St σ → Word → Res σ}
    (h1 : ∀ h w, ¬ Hard h → ErrOk Hard Last (k { s with host := h } w)) : ErrOk Hard Last (callScalar E s key op n v k) :=
  post_callScalar (fun h w e => h1 h _ ((hR.scalar hh e).1 rfl)) fun h w e => ⟨fun _ => rfl, fun _ => (hR.scalar hh e).2 rfl⟩

theorem err_str (hR : HostErr E.enc E.host Hard Last) (hh : ¬ Hard s.host) {key : Nat} {op : Byte} {k : St σ → List Byte → Res σ} (he : E.enc = true) (ho : strPrefix op ≠ none)
    (h1 : ∀ h w, ¬ Hard h → ErrOk Hard Last (k { s with host := h } w)) : ErrOk Hard Last (callStr E s key op k) :=
  post_callStr (fun h w e => h1 h _ (hR.str he ho hh e).1) (fun h w e _ => (hR.str he ho hh e).1) fun h w e _ => ⟨fun _ => rfl, fun _ => (hR.str he ho hh e).2 rfl⟩

theorem err_bytes (hR : HostErr E.enc E.host Hard Last) (hh : ¬ Hard s.host) {key : Nat} {op : Byte} {p : Nat} {k : St σ → Res σ}
    (h1 : ∀ h b, ¬ Hard h → ErrOk Hard Last (k { s with host := h, buf := b })) : ErrOk Hard Last (callAt E s key op p k fun s => .stop .callback s) :=
  post_callAt (fun h b e => h1 h _ ((hR.bytes hh e).1 (.inl rfl))) fun h b e => ⟨fun _ => rfl, fun _ => (hR.bytes hh e).2 rfl⟩

theorem err_stop {e : Err} (he : e ≠ .callback) (hh : ¬ Hard s.host) : ErrOk Hard Last (.stop e s) := ⟨fun h => absurd h hh, fun h => absurd h he⟩

theorem err_exit {e : Err} (he : e ≠ .callback) (hh : ¬ Hard s.host) : (Hard s.host → e = .callback) ∧ (e = .callback → Last s.host) :=
  ⟨fun h => absurd h hh, fun h => absurd h he⟩

theorem err_array (hR : HostErr E.enc E.host Hard Last) (hh : ¬ Hard s.host) {n : Nat} : ErrOk Hard Last (enterArray E s n) := by
  have hp : ∀ s : St σ, ¬ Hard s.host → ErrOk Hard Last (pushLoop s n) := fun s hh =>
    post_pushLoop (fun _ => hh) fun _ => err_exit (by decide) hh
  exact post_enterArray (fun _ => hh) (fun h b key _ _ _ e => (hR.bytes hh e).1 (.inl rfl)) (fun h b key _ e => hp _ ((hR.bytes hh e).1 (.inr rfl)))
    fun _ => hp s hh

macro "err_sweep" h:ident : tactic => `(tactic|
  repeat' (first
    | assumption
    | (apply err_exit (by decide); assumption)
    | with_reducible apply err_scalar $h
    | with_reducible apply err_notify $h
    | with_reducible apply err_str $h
    | with_reducible apply err_bytes $h
    | with_reducible apply err_array $h
    | intro _ | vm_rule | split | with_reducible trivial))

theorem handlePrim_cberr (hR : HostErr E.enc E.host Hard Last) (t : Ty) (op : Byte) (s : St σ) (hh : ¬ Hard s.host) : ErrOk Hard Last (handlePrim E t op s) := by
  unfold handlePrim
  try dsimp only
  err_sweep hR

theorem handleFloat_cberr (hR : HostErr E.enc E.host Hard Last) (dbl : Bool) (op : Byte) (s : St σ) (hh : ¬ Hard s.host) : ErrOk Hard Last (handleFloat E dbl op s) := by
  unfold handleFloat
  try dsimp only
  err_sweep hR

theorem handleBool_cberr (hR : HostErr E.enc E.host Hard Last) (op : Byte) (s : St σ) (hh : ¬ Hard s.host) : ErrOk Hard Last (handleBool E op s) := by
  unfold handleBool
  try dsimp only
  err_sweep hR

theorem handleBitU_cberr (hR : HostErr E.enc E.host Hard Last) (op : Byte) (s : St σ) (hh : ¬ Hard s.host) : ErrOk Hard Last (handleBitU E op s) := by
  unfold handleBitU
  try dsimp only
  err_sweep hR

theorem handleBitI_cberr (hR : HostErr E.enc E.host Hard Last) (op : Byte) (s : St σ) (hh : ¬ Hard s.host) : ErrOk Hard Last (handleBitI E op s) := by
  unfold handleBitI
  try dsimp only
  err_sweep hR

theorem handleBitBool_cberr (hR : HostErr E.enc E.host Hard Last) (op : Byte) (s : St σ) (hh : ¬ Hard s.host) : ErrOk Hard Last (handleBitBool E op s) := by
  unfold handleBitBool
  try dsimp only
  err_sweep hR

theorem handlePad_cberr (hR : HostErr E.enc E.host Hard Last) (s : St σ) (hh : ¬ Hard s.host) : ErrOk Hard Last (handlePad E s) := by
  unfold handlePad
  try dsimp only
  err_sweep hR

theorem handleFill_cberr (hR : HostErr E.enc E.host Hard Last) (s : St σ) (hh : ¬ Hard s.host) : ErrOk Hard Last (handleFill E s) := by
  unfold handleFill
  try dsimp only
  err_sweep hR

theorem handleStrNull_cberr (hR : HostErr E.enc E.host Hard Last) (op : Byte) (ho : strPrefix op ≠ none) (s : St σ) (hh : ¬ Hard s.host) : ErrOk Hard Last (handleStrNull E op s) := by
  unfold handleStrNull
  try dsimp only
  err_sweep hR

theorem handleStrPre_cberr (hR : HostErr E.enc E.host Hard Last) (p : Pre) (op : Byte) (ho : strPrefix op ≠ none) (s : St σ) (hh : ¬ Hard s.host) : ErrOk Hard Last (handleStrPre E p op s) := by
  unfold handleStrPre
  try dsimp only
  err_sweep hR

theorem handleRaw_cberr (hR : HostErr E.enc E.host Hard Last) (op : Byte) (s : St σ) (hh : ¬ Hard s.host) : ErrOk Hard Last (handleRaw E op s) := by
  unfold handleRaw
  try dsimp only
  err_sweep hR

theorem handleArrPre_cberr (hR : HostErr E.enc E.host Hard Last) (p : Pre) (op : Byte) (s : St σ) (hh : ¬ Hard s.host) : ErrOk Hard Last (handleArrPre E p op s) := by
  unfold handleArrPre
  try dsimp only
  err_sweep hR

theorem handleArrFixed_cberr (hR : HostErr E.enc E.host Hard Last) (op : Byte) (s : St σ) (hh : ¬ Hard s.host) : ErrOk Hard Last (handleArrFixed E op s) := by
  unfold handleArrFixed
  try dsimp only
  err_sweep hR

theorem handleArrEof_cberr (hR : HostErr E.enc E.host Hard Last) (s : St σ) (hh : ¬ Hard s.host) : ErrOk Hard Last (handleArrEof E s) := by
  unfold handleArrEof
  try dsimp only
  err_sweep hR

theorem handleArrDynamic_cberr (hR : HostErr E.enc E.host Hard Last) (op : Byte) (s : St σ) (hh : ¬ Hard s.host) : ErrOk Hard Last (handleArrDynamic E op s) := by
  unfold handleArrDynamic
  try dsimp only
  err_sweep hR

theorem handleArrEnd_cberr (hR : HostErr E.enc E.host Hard Last) (s : St σ) (hh : ¬ Hard s.host) : ErrOk Hard Last (handleArrEnd E s) := by
  unfold handleArrEnd
  try dsimp only
  err_sweep hR

theorem handleConstCheck_cberr (hR : HostErr E.enc E.host Hard Last) (s : St σ) (hh : ¬ Hard s.host) : ErrOk Hard Last (handleConstCheck E s) := by
  unfold handleConstCheck
  try dsimp only
  err_sweep hR

theorem handleConstWrite_cberr (hR : HostErr E.enc E.host Hard Last) (s : St σ) (hh : ¬ Hard s.host) : ErrOk Hard Last (handleConstWrite E s) := by
  unfold handleConstWrite
  try dsimp only
  err_sweep hR

theorem handleRange_cberr (hR : HostErr E.enc E.host Hard Last) (s : St σ) (hh : ¬ Hard s.host) : ErrOk Hard Last (handleRange E s) := by
  unfold handleRange
  try dsimp only
  err_sweep hR

theorem handleCrc_cberr (hR : HostErr E.enc E.host Hard Last) (w32 : Bool) (s : St σ) (hh : ¬ Hard s.host) : ErrOk Hard Last (handleCrc E w32 s) := by
  unfold handleCrc
  try dsimp only
  err_sweep hR

theorem handleEnum_cberr (hR : HostErr E.enc E.host Hard Last) (s : St σ) (hh : ¬ Hard s.host) : ErrOk Hard Last (handleEnum E s) := by
  unfold handleEnum
  try dsimp only
  err_sweep hR

theorem handleJump_cberr (hR : HostErr E.enc E.host Hard Last) (s : St σ) (hh : ¬ Hard s.host) : ErrOk Hard Last (handleJump E s) := by
  unfold handleJump
  try dsimp only
  err_sweep hR

theorem handleJumpIfNot_cberr (hR : HostErr E.enc E.host Hard Last) (s : St σ) (hh : ¬ Hard s.host) : ErrOk Hard Last (handleJumpIfNot E s) := by
  unfold handleJumpIfNot
  try dsimp only
  err_sweep hR

theorem handleSwitch_cberr (hR : HostErr E.enc E.host Hard Last) (s : St σ) (hh : ¬ Hard s.host) : ErrOk Hard Last (handleSwitch E s) := by
  unfold handleSwitch
  try dsimp only
  err_sweep hR

theorem handleSwitchTable_cberr (hR : HostErr E.enc E.host Hard Last) (s : St σ) (hh : ¬ Hard s.host) : ErrOk Hard Last (handleSwitchTable E s) := by
  unfold handleSwitchTable
  try dsimp only
  err_sweep hR

theorem handleLoadCtx_cberr (hR : HostErr E.enc E.host Hard Last) (op : Byte) (s : St σ) (hh : ¬ Hard s.host) : ErrOk Hard Last (handleLoadCtx E op s) := by
  unfold handleLoadCtx
  try dsimp only
  err_sweep hR

theorem handleStoreCtx_cberr (hR : HostErr E.enc E.host Hard Last) (op : Byte) (s : St σ) (hh : ¬ Hard s.host) : ErrOk Hard Last (handleStoreCtx E op s) := by
  unfold handleStoreCtx
  try dsimp only
  err_sweep hR

theorem handleEmit_cberr (hR : HostErr E.enc E.host Hard Last) (s : St σ) (hh : ¬ Hard s.host) : ErrOk Hard Last (handleEmit E s) := by
  unfold handleEmit
  try dsimp only
  err_sweep hR

theorem execOp_cberr (hR : HostErr E.enc E.host Hard Last) (op : Byte) (s : St σ) (hh : ¬ Hard s.host) : ErrOk Hard Last (execOp E op s) := by
  have ho := ownOp_mem op
  unfold execOp
  cases h : decodeOp op <;> dsimp only <;> rw [h] at ho
  case io => exact handlePrim_cberr hR _ _ _ hh
  case ioF32 => exact handleFloat_cberr hR _ _ _ hh
  case ioF64 => exact handleFloat_cberr hR _ _ _ hh
  case ioBool => exact handleBool_cberr hR _ _ hh
  case bitU => exact handleBitU_cberr hR _ _ hh
  case bitI => exact handleBitI_cberr hR _ _ hh
  case bitBool => exact handleBitBool_cberr hR _ _ hh
  case alignPad => exact handlePad_cberr hR _ hh
  case alignFill => exact handleFill_cberr hR _ hh
  case strNull => exact handleStrNull_cberr hR _ (by rw [List.mem_singleton.1 ho]; decide) _ hh
  case strPre => exact handleStrPre_cberr hR _ _ (by rw [List.mem_singleton.1 ho, strPrefix_strOp]; simp) _ hh
  case rawBytes => exact handleRaw_cberr hR _ _ hh
  case arrPre => exact handleArrPre_cberr hR _ _ _ hh
  case arrFixed => exact handleArrFixed_cberr hR _ _ hh
  case arrEof => exact handleArrEof_cberr hR _ hh
  case arrDynamic => exact handleArrDynamic_cberr hR _ _ hh
  case arrEnd => exact handleArrEnd_cberr hR _ hh
  case constCheck => exact handleConstCheck_cberr hR _ hh
  case constWrite => exact handleConstWrite_cberr hR _ hh
  case rangeCheck => exact handleRange_cberr hR _ hh
  case crc16 => exact handleCrc_cberr hR _ _ hh
  case crc32 => exact handleCrc_cberr hR _ _ hh
  case enumCheck => exact handleEnum_cberr hR _ hh
  case jump => exact handleJump_cberr hR _ hh
  case jumpIfNot => exact handleJumpIfNot_cberr hR _ hh
  case switch => exact handleSwitch_cberr hR _ hh
  case switchTable => exact handleSwitchTable_cberr hR _ hh
  case loadCtx => exact handleLoadCtx_cberr hR _ _ hh
  case storeCtx => exact handleStoreCtx_cberr hR _ _ hh
  case emit => exact handleEmit_cberr hR _ hh
  case ibin o => exact post_binary (fun a b r _ => post_aluDone (fun v _ => post_push (fun _ => hh) fun _ => err_exit (by decide) hh)
    (fun e he => err_exit (by rw [(ibinEval_err he).1]; decide) hh) fun _ _ => trivial) (fun _ => err_exit (by decide) hh) fun _ _ => err_exit (by decide) hh
  case fbin o => exact post_binary (fun a b r _ => post_aluDone (fun v _ => post_push (fun _ => hh) fun _ => err_exit (by decide) hh)
    (fun e he => err_exit (by rw [(fbinEval_err he).1]; decide) hh) fun _ _ => trivial) (fun _ => err_exit (by decide) hh) fun _ _ => err_exit (by decide) hh
  case un o => exact post_unary (fun a r _ => post_aluDone (fun v _ => post_push (fun _ => hh) fun _ => err_exit (by decide) hh)
    (fun e he => err_exit (by rw [(unEval_err he).1]; decide) hh) fun _ _ => trivial) fun _ => err_exit (by decide) hh
  all_goals
    try dsimp only
    err_sweep hR

theorem exec_cberr (hR : HostErr E.enc E.host Hard Last) (n : Nat) (s : St σ) (hh : ¬ Hard s.host) : ErrOk Hard Last (exec E n s) := by
  induction n generalizing s with
  | zero => exact hh
  | succ n ih =>
    rw [exec_succ]
    have hstep : ErrOk Hard Last (step E s) := by
      cases hop : E.prog[s.ip]? with
      | none =>
        have : step E s = .stop .ok s := by unfold step; rw [hop]
        rw [this]
        exact err_exit (by decide) hh
      | some op =>
        have hs : step E s = execOp E op (alignSt op { s with ip := s.ip + 1 }) := by unfold step; rw [hop]
        rw [hs]
        refine execOp_cberr hR op _ ?_
        unfold alignSt
        split <;> exact hh
    cases hr : step E s with
    | run s' => rw [hr] at hstep; exact ih s' hstep
    | stop e s' => rw [hr] at hstep; exact hstep
    | ub u => trivial

end
end Cnd
