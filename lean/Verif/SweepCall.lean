import Verif.SweepHost
import Verif.Run
import Verif.GoBind
import Verif.Schema
/-
  What the VM promises to callbacks about what it hands over (C78): a sweep over all instructions.
-/

set_option linter.unusedVariables false

namespace Cnd
variable {σ : Type}

/-- Opcodes of calls without data: vm_exec.c 711, 718, 1212. -/
def NoteOp (op : Byte) : Prop := op = 0x03 ∨ op = 0x04 ∨ op = 0x38

/-- Promise about a pointer into the packet: raw bytes begin inside it or at its end; a string is only shown when decoding, a NUL-terminated one
begins inside, one with a length before it lies inside together with its length. -/
def PtrOk (enc : Bool) (op : Byte) (be : Bool) (buf : List Byte) (p : Nat) : Prop :=
  op = 0x39 ∧ p ≤ buf.length ∨ enc = false ∧ (op = 0x30 ∧ p < buf.length ∨
    ∃ n, strPrefix op = some (n + 1) ∧ n + 1 ≤ p ∧ p + (rdWord be ((buf.drop (p - (n + 1))).take (n + 1))).toNat ≤ buf.length)

/-- A reflexive and transitive relation that every host call with what is promised respects, on packets of `N` bytes. -/
structure HostKeep (enc : Bool) (N : Nat) (H : Host σ) (R : σ → σ → Prop) : Prop where
  refl : ∀ h, R h h
  trans : ∀ {a b c}, R a b → R b c → R a c
  notify : ∀ {h key op b h'}, NoteOp op → H.notify h key op = (b, h') → R h h'
  scalar : ∀ {h key op v b w h'}, goCell op ≠ 0 → H.scalar h key op v = (b, w, h') → R h h'
  str : ∀ {h key op b w h'}, enc = true → strPrefix op ≠ none → H.str h key op = (b, w, h') → R h h'
  bytes : ∀ {h key op be buf p b w h'}, PtrOk enc op be buf p → buf.length = N → H.bytesAt h key op be buf p = (b, w, h') → R h h'

section
variable {N : Nat} {R : σ → σ → Prop} {E : Env σ}

macro "keep_scalar" h:ident : tactic => `(tactic| (
  refine ($h).scalar ?_ (by assumption)
  first | assumption | decide))

macro "keep_close" h:ident : tactic => `(tactic| (
  first
  | exact ($h).refl _
  | keep_scalar $h
  | (refine ($h).trans (($h).scalar ?_ (by assumption)) ?_
     · first | assumption | decide
     first
     | exact ($h).refl _
     | keep_scalar $h)))

theorem handlePrim_keep (hR : HostKeep E.enc N E.host R) (t : Ty) (op : Byte) (hop : goCell op ≠ 0) (s : St σ) : Grown R s (handlePrim E t op s) := by
  unfold Grown handlePrim
  try dsimp only
  vm_sweep
  all_goals keep_close hR

theorem handleFloat_keep (hR : HostKeep E.enc N E.host R) (dbl : Bool) (op : Byte) (hop : goCell op ≠ 0) (s : St σ) : Grown R s (handleFloat E dbl op s) := by
  unfold Grown handleFloat
  try dsimp only
  vm_sweep
  all_goals keep_close hR

theorem handleBool_keep (hR : HostKeep E.enc N E.host R) (op : Byte) (hop : goCell op ≠ 0) (s : St σ) : Grown R s (handleBool E op s) := by
  unfold Grown handleBool
  try dsimp only
  vm_sweep
  all_goals keep_close hR

theorem handleBitU_keep (hR : HostKeep E.enc N E.host R) (op : Byte) (hop : goCell op ≠ 0) (s : St σ) : Grown R s (handleBitU E op s) := by
  unfold Grown handleBitU
  try dsimp only
  vm_sweep
  all_goals keep_close hR

theorem handleBitI_keep (hR : HostKeep E.enc N E.host R) (op : Byte) (hop : goCell op ≠ 0) (s : St σ) : Grown R s (handleBitI E op s) := by
  unfold Grown handleBitI
  try dsimp only
  vm_sweep
  all_goals keep_close hR

theorem handleBitBool_keep (hR : HostKeep E.enc N E.host R) (op : Byte) (hop : goCell op ≠ 0) (s : St σ) : Grown R s (handleBitBool E op s) := by
  unfold Grown handleBitBool
  try dsimp only
  vm_sweep
  all_goals keep_close hR

theorem handlePad_keep (hR : HostKeep E.enc N E.host R) (s : St σ) : Grown R s (handlePad E s) := by
  unfold Grown handlePad
  try dsimp only
  vm_sweep
  all_goals keep_close hR

theorem handleFill_keep (hR : HostKeep E.enc N E.host R) (s : St σ) : Grown R s (handleFill E s) := by
  unfold Grown handleFill
  try dsimp only
  vm_sweep
  all_goals keep_close hR

theorem callAt_keep (hR : HostKeep E.enc N E.host R) {a : σ} {s : St σ} {key : Nat} {op : Byte} {p : Nat} {k bad : St σ → Res σ} (h : R a s.host)
    (hp : PtrOk E.enc op s.be s.buf p) (hN : s.buf.length = N)
    (h1 : ∀ s' : St σ, R a s'.host → Post (fun s' => R a s'.host) (fun _ s' => R a s'.host) (fun _ => True) (k s'))
    (h2 : ∀ s' : St σ, R a s'.host → Post (fun s' => R a s'.host) (fun _ s' => R a s'.host) (fun _ => True) (bad s')) :
    Post (fun s' => R a s'.host) (fun _ s' => R a s'.host) (fun _ => True) (callAt E s key op p k bad) := by
  unfold callAt
  have hb := hR.bytes (h := s.host) (key := key) (op := op) (be := s.be) (buf := s.buf) (p := p) hp hN rfl
  dsimp only
  split
  · exact h1 _ (hR.trans h hb)
  · exact h2 _ (hR.trans h hb)

theorem handleStrNull_keep (hR : HostKeep E.enc N E.host R) (s : St σ) (hN : s.buf.length = N) : Grown R s (handleStrNull E 0x30 s) := by
  unfold Grown handleStrNull fet
  dsimp only
  split
  · rename_i henc
    vm_sweep
    all_goals exact hR.str (op := 0x30) henc (by decide) (by assumption)
  rename_i henc
  split
  · split
    · exact hR.refl _
    · trivial
  split
  · exact hR.refl _
  rename_i h
  exact callAt_keep hR (hR.refl _) (.inr ⟨by simpa using henc, .inl ⟨rfl, by dsimp only at h ⊢; omega⟩⟩) hN (fun s' h => h) (fun s' h => h)

theorem strPrefix_strOp (p : Pre) : strPrefix p.strOp = some (p.size - 1 + 1) := by cases p <;> rfl

theorem handleStrPre_keep (hR : HostKeep E.enc N E.host R) (p : Pre) (s : St σ) (hN : s.buf.length = N) : Grown R s (handleStrPre E p p.strOp s) := by
  unfold Grown handleStrPre fet
  dsimp only
  split
  · rename_i henc
    vm_sweep
    all_goals exact hR.str (op := p.strOp) henc (by rw [strPrefix_strOp]; simp) (by assumption)
  rename_i henc
  split
  · exact hR.refl _
  unfold rdAt
  split
  · trivial
  rename_i bs hb
  dsimp only
  split
  · exact hR.refl _
  rename_i hlen
  obtain ⟨_, rfl⟩ := slice_eq_some.1 hb
  have hsz : p.size - 1 + 1 = p.size := by cases p <;> rfl
  refine callAt_keep hR (hR.refl _) (.inr ⟨by simpa using henc, .inr ⟨p.size - 1, strPrefix_strOp p, ?_, ?_⟩⟩) hN (fun s' h => h) (fun s' h => h)
  · omega
  · dsimp only
    dsimp only at hlen
    rw [hsz, Nat.add_sub_cancel]
    omega

theorem handleRaw_keep (hR : HostKeep E.enc N E.host R) (s : St σ) (hN : s.buf.length = N) : Grown R s (handleRaw E 0x39 s) := by
  unfold Grown handleRaw fet
  dsimp only
  split
  · exact hR.refl _
  rename_i h
  exact callAt_keep hR (hR.refl _) (.inl ⟨rfl, by dsimp only at h ⊢; omega⟩) hN (fun s' h => h) (fun s' h => h)

theorem enterArray_keep (hR : HostKeep E.enc N E.host R) {a : σ} {s : St σ} (h : R a s.host) (hN : s.buf.length = N) (n : Nat) :
    Post (fun s' => R a s'.host) (fun _ s' => R a s'.host) (fun _ => True) (enterArray E s n) := by
  unfold enterArray pushLoop callAt
  split
  · exact h
  · split
    · split
      · rename_i hc
        simp only [Bool.and_eq_true, decide_eq_true_eq] at hc
        have hb := hR.bytes (h := s.host) (key := (leWord ((E.prog.drop (s.ip + 1)).take 2)).toNat) (op := 0x39) (be := s.be) (buf := s.buf)
          (p := s.cursor) (.inl ⟨rfl, by omega⟩) hN rfl
        dsimp only
        split
        · exact hR.trans h hb
        · split <;> exact hR.trans h hb
      · split <;> exact h
    · split <;> exact h

theorem handleArrPre_keep (hR : HostKeep E.enc N E.host R) (p : Pre) (op : Byte) (hop : goCell op ≠ 0) (s : St σ) (hN : s.buf.length = N) : Grown R s (handleArrPre E p op s) := by
  unfold Grown handleArrPre
  try dsimp only
  repeat' (first | intro _ | (with_reducible apply enterArray_keep hR) | vm_rule | split | with_reducible trivial)
  all_goals first
    | keep_close hR
    | exact hN
    | (rename_i hl; exact hl.trans hN)

theorem handleArrFixed_keep (hR : HostKeep E.enc N E.host R) (op : Byte) (hop : goCell op ≠ 0) (s : St σ) (hN : s.buf.length = N) : Grown R s (handleArrFixed E op s) := by
  unfold Grown handleArrFixed
  try dsimp only
  repeat' (first | intro _ | (with_reducible apply enterArray_keep hR) | vm_rule | split | with_reducible trivial)
  all_goals first
    | keep_close hR
    | exact hN
    | (rename_i hl; exact hl.trans hN)

theorem handleArrEof_keep (hR : HostKeep E.enc N E.host R) (s : St σ) : Grown R s (handleArrEof E s) := by
  unfold Grown handleArrEof
  try dsimp only
  vm_sweep
  all_goals keep_close hR

theorem handleArrDynamic_keep (hR : HostKeep E.enc N E.host R) (op : Byte) (hop : goCell op ≠ 0) (s : St σ) (hN : s.buf.length = N) : Grown R s (handleArrDynamic E op s) := by
  unfold Grown handleArrDynamic
  try dsimp only
  repeat' (first | intro _ | (with_reducible apply enterArray_keep hR) | vm_rule | split | with_reducible trivial)
  all_goals first
    | keep_close hR
    | exact hN
    | (rename_i hl; exact hl.trans hN)

theorem handleArrEnd_keep (hR : HostKeep E.enc N E.host R) (s : St σ) : Grown R s (handleArrEnd E s) := by
  unfold Grown handleArrEnd
  try dsimp only
  vm_sweep
  all_goals first
    | exact hR.refl _
    | exact hR.notify (.inr (.inr rfl)) (by assumption)

theorem handleConstCheck_keep (hR : HostKeep E.enc N E.host R) (s : St σ) : Grown R s (handleConstCheck E s) := by
  unfold Grown handleConstCheck fet
  dsimp only
  split
  · exact hR.refl _
  rename_i t ht
  have hop : goCell ((fetch E.prog (fetch E.prog s.ip 2).2 1).1.setWidth 8) ≠ 0 := by
    have h1 := fetch_lt E.prog (fetch E.prog s.ip 2).2 1 (by omega)
    generalize (fetch E.prog (fetch E.prog s.ip 2).2 1).1 = tag at ht h1
    have key : ∀ b : Byte, (tyTag (b.setWidth 64)).isSome = true → goCell b ≠ 0 := by decide +kernel
    refine key _ ?_
    rw [show ((tag.setWidth 8).setWidth 64) = tag from by apply BitVec.eq_of_toNat_eq; simp only [BitVec.toNat_setWidth]; omega, ht]
    rfl
  vm_sweep
  all_goals keep_close hR

theorem handleConstWrite_keep (hR : HostKeep E.enc N E.host R) (s : St σ) : Grown R s (handleConstWrite E s) := by
  unfold Grown handleConstWrite
  try dsimp only
  vm_sweep
  all_goals keep_close hR

theorem handleRange_keep (hR : HostKeep E.enc N E.host R) (s : St σ) : Grown R s (handleRange E s) := by
  unfold Grown handleRange
  try dsimp only
  vm_sweep
  all_goals keep_close hR

theorem handleCrc_keep (hR : HostKeep E.enc N E.host R) (w32 : Bool) (s : St σ) : Grown R s (handleCrc E w32 s) := by
  unfold Grown handleCrc
  try dsimp only
  vm_sweep
  all_goals keep_close hR

theorem handleEnum_keep (hR : HostKeep E.enc N E.host R) (s : St σ) : Grown R s (handleEnum E s) := by
  unfold Grown handleEnum
  try dsimp only
  vm_sweep
  all_goals keep_close hR

theorem handleJump_keep (hR : HostKeep E.enc N E.host R) (s : St σ) : Grown R s (handleJump E s) := by
  unfold Grown handleJump
  try dsimp only
  vm_sweep
  all_goals keep_close hR

theorem handleJumpIfNot_keep (hR : HostKeep E.enc N E.host R) (s : St σ) : Grown R s (handleJumpIfNot E s) := by
  unfold Grown handleJumpIfNot
  try dsimp only
  vm_sweep
  all_goals keep_close hR

theorem handleSwitch_keep (hR : HostKeep E.enc N E.host R) (s : St σ) : Grown R s (handleSwitch E s) := by
  unfold Grown handleSwitch
  try dsimp only
  vm_sweep
  all_goals keep_close hR

theorem handleSwitchTable_keep (hR : HostKeep E.enc N E.host R) (s : St σ) : Grown R s (handleSwitchTable E s) := by
  unfold Grown handleSwitchTable
  try dsimp only
  vm_sweep
  all_goals keep_close hR

theorem handleLoadCtx_keep (hR : HostKeep E.enc N E.host R) (op : Byte) (hop : goCell op ≠ 0) (s : St σ) : Grown R s (handleLoadCtx E op s) := by
  unfold Grown handleLoadCtx
  try dsimp only
  vm_sweep
  all_goals keep_close hR

theorem handleStoreCtx_keep (hR : HostKeep E.enc N E.host R) (op : Byte) (hop : goCell op ≠ 0) (s : St σ) : Grown R s (handleStoreCtx E op s) := by
  unfold Grown handleStoreCtx
  try dsimp only
  vm_sweep
  all_goals keep_close hR

theorem handleEmit_keep (hR : HostKeep E.enc N E.host R) (s : St σ) : Grown R s (handleEmit E s) := by
  unfold Grown handleEmit
  try dsimp only
  vm_sweep
  all_goals keep_close hR

/-- The opcode of an instruction that passes its own opcode on. -/
def Op.cellOp : Op → Bool
  | .io _ | .ioF32 | .ioF64 | .ioBool | .bitU | .bitI | .bitBool | .arrPre _ | .arrFixed | .arrDynamic | .loadCtx | .storeCtx => true
  | _ => false

theorem cellOp_cell (op : Byte) (h : (decodeOp op).cellOp = true) : goCell op ≠ 0 := by
  have : ∀ op : Byte, (decodeOp op).cellOp = true → goCell op ≠ 0 := by decide +kernel
  exact this op h

/-- Opcodes of the instructions that pass their own opcode on with a string or without data. -/
def Op.ownOp : Op → List Byte
  | .strNull => [0x30] | .strPre p => [p.strOp] | .rawBytes => [0x39] | .enterStruct => [0x03] | .exitStruct => [0x04]
  | _ => (List.range 256).map (BitVec.ofNat 8)

theorem ownOp_mem (op : Byte) : op ∈ (decodeOp op).ownOp := by
  have : ∀ op : Byte, op ∈ (decodeOp op).ownOp := by decide +kernel
  exact this op

theorem execOp_keep (hR : HostKeep E.enc N E.host R) (op : Byte) (s : St σ) (hN : s.buf.length = N) : Grown R s (execOp E op s) := by
  have hc := cellOp_cell op
  have ho := ownOp_mem op
  unfold execOp
  cases h : decodeOp op <;> dsimp only <;> rw [h] at hc ho
  case io => exact handlePrim_keep hR _ _ (hc rfl) _
  case ioF32 => exact handleFloat_keep hR _ _ (hc rfl) _
  case ioF64 => exact handleFloat_keep hR _ _ (hc rfl) _
  case ioBool => exact handleBool_keep hR _ (hc rfl) _
  case bitU => exact handleBitU_keep hR _ (hc rfl) _
  case bitI => exact handleBitI_keep hR _ (hc rfl) _
  case bitBool => exact handleBitBool_keep hR _ (hc rfl) _
  case alignPad => exact handlePad_keep hR _
  case alignFill => exact handleFill_keep hR _
  case strNull => rw [List.mem_singleton.1 ho]; exact handleStrNull_keep hR _ hN
  case strPre => rw [List.mem_singleton.1 ho]; exact handleStrPre_keep hR _ _ hN
  case rawBytes => rw [List.mem_singleton.1 ho]; exact handleRaw_keep hR _ hN
  case arrPre => exact handleArrPre_keep hR _ _ (hc rfl) _ hN
  case arrFixed => exact handleArrFixed_keep hR _ (hc rfl) _ hN
  case arrEof => exact handleArrEof_keep hR _
  case arrDynamic => exact handleArrDynamic_keep hR _ (hc rfl) _ hN
  case arrEnd => exact handleArrEnd_keep hR _
  case constCheck => exact handleConstCheck_keep hR _
  case constWrite => exact handleConstWrite_keep hR _
  case rangeCheck => exact handleRange_keep hR _
  case crc16 => exact handleCrc_keep hR _ _
  case crc32 => exact handleCrc_keep hR _ _
  case enumCheck => exact handleEnum_keep hR _
  case jump => exact handleJump_keep hR _
  case jumpIfNot => exact handleJumpIfNot_keep hR _
  case switch => exact handleSwitch_keep hR _
  case switchTable => exact handleSwitchTable_keep hR _
  case loadCtx => exact handleLoadCtx_keep hR _ (hc rfl) _
  case storeCtx => exact handleStoreCtx_keep hR _ (hc rfl) _
  case emit => exact handleEmit_keep hR _
  case enterStruct =>
    rw [List.mem_singleton.1 ho]
    unfold Grown
    vm_sweep
    all_goals exact hR.notify (.inl rfl) (by assumption)
  case exitStruct =>
    rw [List.mem_singleton.1 ho]
    unfold Grown
    vm_sweep
    all_goals exact hR.notify (.inr (.inl rfl)) (by assumption)
  all_goals
    unfold Grown
    try dsimp only
    vm_sweep
    all_goals exact hR.refl _

theorem exec_keep (hR : HostKeep E.enc N E.host R) (n : Nat) (s : St σ) (hi : Inv s) (hN : s.buf.length = N) :
    Grown R s (exec E n s) := by
  induction n generalizing s with
  | zero => exact hR.refl _
  | succ n ih =>
    rw [exec_succ]
    have hstep : Grown R s (step E s) := by
      cases hop : E.prog[s.ip]? with
      | none =>
        have : step E s = .stop .ok s := by unfold step; rw [hop]
        rw [this]
        exact hR.refl _
      | some op =>
        have hs : step E s = execOp E op (alignSt op { s with ip := s.ip + 1 }) := by unfold step; rw [hop]
        have hg := execOp_keep hR op (alignSt op { s with ip := s.ip + 1 }) (by unfold alignSt; split <;> exact hN)
        have hhost : (alignSt op { s with ip := s.ip + 1 }).host = s.host := by unfold alignSt; split <;> rfl
        unfold Grown at hg ⊢
        rw [hhost, ← hs] at hg
        exact hg
    cases hr : step E s with
    | run s' =>
      rw [hr] at hstep
      have h2 := ih s' (step_inv hi hr) (by
        cases hop : E.prog[s.ip]? with
        | none =>
          have : step E s = .stop .ok s := by unfold step; rw [hop]
          rw [this] at hr; cases hr
        | some op =>
          have hm := step_mono hi hop
          rw [hr] at hm
          have h3 : s'.buf.length = (pre op s).buf.length := hm.len
          rw [h3, (pre_fields op s).1, hN])
      show Grown R s (exec E n s')
      cases he : exec E n s' with
      | run t => rw [he] at h2; exact hR.trans hstep h2
      | stop e t => rw [he] at h2; exact hR.trans hstep h2
      | ub u => trivial
    | stop e s' => rw [hr] at hstep; exact hstep
    | ub u => trivial

end

end Cnd
