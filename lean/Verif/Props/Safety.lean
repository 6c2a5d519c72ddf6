import Verif.Run
import Verif.Demo
/-
  Memory-safety style properties of whole runs: C03-C08, C31, C53.
-/

namespace Cnd
variable {σ : Type}

/-- Bit position in the packet: 8 * byte cursor + bit offset. -/
abbrev St.pos (s : St σ) : Nat := 8 * s.cursor + s.bit

/-! ### C03: encoding only writes inside the region it consumes -/

/-- C03. One step of a run, whatever the program and mode: the packet keeps its length, and no byte
before the cursor at the start of the step, nor at or after the position reached (rounded up to a
whole byte), changes. -/
theorem C03_step_frame (E : Env σ) (hq : Quiet E.host) (s : St σ) (hi : Inv s) (s' : St σ)
    (hs : step E s = .run s' ∨ ∃ e, step E s = .stop e s') :
    s'.buf.length = s.buf.length ∧
    ∀ i, i < s.cursor ∨ s'.pos ≤ 8 * i → s'.buf[i]? = s.buf[i]? := by
  cases hop : E.prog[s.ip]? with
  | none =>
    rw [step_end hop] at hs
    rcases hs with hs | ⟨e, hs⟩
    · cases hs
    · injection hs with _ h2; subst h2; exact ⟨rfl, fun _ _ => rfl⟩
  | some op =>
    have hm := step_mono hi hop
    have hp := hi.pre op
    have hpos := pre_pos op s hi.bit
    have hf := execOp_frm E op (pre op s) hpos.2.2.2.2.1 hp.bit hq
    have e0 : execOp E op (pre op s) = step E s := (step_eq hop).symm
    rw [e0] at hf
    have hfld := pre_fields op s
    have key : Mono (slackOf op (pre op s)) (decodeOp op).bulk (pre op s) s' ∧
        Frm E (decide (decodeOp op = .constWrite)) (pre op s) s' := by
      rcases hs with hs | ⟨e, hs⟩ <;> rw [hs] at hm hf <;> exact ⟨hm, hf⟩
    refine ⟨by rw [key.1.len, hfld.1], fun i hi' => ?_⟩
    rw [key.2.out i ?_, hfld.1]
    rcases hi' with h | h
    · left; omega
    · right; exact h

/-- C03 for every point of every run from cnd_init. -/
theorem C03_run_frame (E : Env σ) (hq : Quiet E.host) (old : St σ) (buf : List Byte) (user : σ)
    (s s' : St σ) (hr : Reach E (initSt old buf user) s)
    (hs : step E s = .run s' ∨ ∃ e, step E s = .stop e s') :
    s'.buf.length = buf.length ∧
    ∀ i, i < s.cursor ∨ s'.pos ≤ 8 * i → s'.buf[i]? = s.buf[i]? := by
  have hi := reach_inv (init_inv old buf user) hr
  have hlen : s.buf.length = buf.length := by
    have : Inv s ∧ s.buf.length = buf.length := by
      refine hr.inv (I := fun s => Inv s ∧ s.buf.length = buf.length) ?_ ⟨init_inv old buf user, rfl⟩
      intro a b ha hab
      exact ⟨step_inv ha.1 hab, by rw [(C03_step_frame E hq a ha.1 b (.inl hab)).1, ha.2]⟩
    exact this.2
  have := C03_step_frame E hq s hi s' hs
  exact ⟨by rw [this.1, hlen], this.2⟩

-- non-vacuity: a quiet host, and a program that writes one 16-bit field into the middle of a packet
example : Quiet (Demo.env [0x11, 0, 0] true).host := fun _ _ _ _ _ _ => rfl
example : Demo.obs (step (Demo.env [0x11, 0, 0] true) (Demo.start [9, 9, 9] { inp := [0x1234] })) =
    .running [0x34, 0x12, 9] 2 0 { log := [(0, 0x11, 0x1234)] } := by decide +kernel

/-! ### C04: decoding does not modify the packet -/

/-- C04 as stated is false: OP_CONST_WRITE stores its constant in decode mode too
(vm_exec.c 732-751). -/
theorem C04_false : ∃ (E : Env Demo.Tape) (s s' : St Demo.Tape), Quiet E.host ∧ E.enc = false ∧
    Inv s ∧ step E s = .run s' ∧ s'.buf ≠ s.buf := by
  refine ⟨Demo.env [0x41, 0x10, 0xAA] false, Demo.start [0x55] {}, _, ?_, rfl, init_inv _ _ _, rfl, ?_⟩
  · intro h key op be buf p
    simp only [Demo.env, Demo.taker, Bool.false_eq_true, if_false]
    split <;> rfl
  · decide +kernel

/-- C04, all programs whose run does not execute OP_CONST_WRITE (the compiler never emits it):
the packet is never changed while decoding. Missing: the excluded instruction, see `C04_false`. -/
theorem C04_decode_readonly_partial (E : Env σ) (hq : Quiet E.host) (hdec : E.enc = false)
    (old : St σ) (buf : List Byte) (user : σ)
    (hcw : ∀ s, Reach E (initSt old buf user) s → curOp E s ≠ some .constWrite) :
    (∀ s, Reach E (initSt old buf user) s → s.buf = buf) ∧
    (∀ n e s', exec E n (initSt old buf user) = .stop e s' → s'.buf = buf) := by
  have one : ∀ s s' : St σ, Inv s → curOp E s ≠ some .constWrite →
      (step E s = .run s' ∨ ∃ e, step E s = .stop e s') → s'.buf = s.buf := by
    intro s s' hi hc hs
    cases hop : E.prog[s.ip]? with
    | none =>
      rw [step_end hop] at hs
      rcases hs with hs | ⟨e, hs⟩
      · cases hs
      · injection hs with _ h2; rw [h2]
    | some op =>
      have hp := hi.pre op
      have hf := execOp_frm E op (pre op s) (pre_pos op s hi.bit).2.2.2.2.1 hp.bit hq
      have e0 : execOp E op (pre op s) = step E s := (step_eq hop).symm
      rw [e0] at hf
      have hne : decodeOp op ≠ .constWrite := by
        intro h; apply hc; simp [curOp, hop, h]
      have key : Frm E (decide (decodeOp op = .constWrite)) (pre op s) s' := by
        rcases hs with hs | ⟨e, hs⟩ <;> rw [hs] at hf <;> exact hf
      rw [key.dec hdec (by simp [hne]), (pre_fields op s).1]
  have all : ∀ n s, exec E n (initSt old buf user) = .run s → Inv s ∧ s.buf = buf := by
    intro n
    induction n with
    | zero =>
      intro s h; simp [exec_zero] at h; subst h; exact ⟨init_inv old buf user, rfl⟩
    | succ n ih =>
      intro s h
      rw [exec_add] at h
      cases hn : exec E n (initSt old buf user) with
      | run a =>
        rw [hn] at h
        simp only [exec_succ, exec_zero] at h
        have ha := ih a hn
        cases hs : step E a with
        | run b =>
          rw [hs] at h
          simp only [Res.run.injEq] at h
          subst h
          exact ⟨step_inv ha.1 hs, by rw [one a b ha.1 (hcw a ⟨n, hn⟩) (.inl hs), ha.2]⟩
        | stop e b => rw [hs] at h; cases h
        | ub u => rw [hs] at h; cases h
      | stop e b => rw [hn] at h; cases h
      | ub u => rw [hn] at h; cases h
  refine ⟨fun s hr => ?_, fun n e s' h => ?_⟩
  · obtain ⟨n, hn⟩ := hr; exact (all n s hn).2
  · obtain ⟨s0, hr, hs⟩ := exec_stop_from h
    obtain ⟨n0, hn0⟩ := hr
    have h0 := all n0 s0 hn0
    rw [one s0 s' h0.1 (hcw s0 ⟨n0, hn0⟩) (.inr ⟨e, hs⟩), h0.2]

example : ∀ n, n < 3 → ∀ s, exec (Demo.env [0x02, 0x11, 7, 0] false) n (Demo.start [1, 2] {}) = .run s →
    curOp (Demo.env [0x02, 0x11, 7, 0] false) s ≠ some .constWrite := by
  intro n hn s h
  have : n = 0 ∨ n = 1 ∨ n = 2 := by omega
  rcases this with rfl | rfl | rfl <;> (injection h with h; subst h; decide +kernel)

/-! ### C05, C06: no out-of-bounds packet access -/

/-- The three situations in which the VM leaves the packet (see `C05_false`, `C06_false_*`):
an enum check whose field would start before the packet, an EMIT in the middle of a byte, and (decoding)
a padding instruction with fewer bits left than it skips. -/
def Hazard (E : Env σ) (s : St σ) : Prop :=
  (curOp E s = some .enumCheck ∧ ∃ op, E.prog[s.ip]? = some op ∧ EnumUnder E (pre op s)) ∨
  (curOp E s = some .emit ∧ s.bit ≠ 0) ∨
  (curOp E s = some .alignPad ∧ E.enc = false ∧
    8 * s.buf.length < s.pos + (fetch E.prog (s.ip + 1) 1).1.toNat)

theorem step_fit {E : Env σ} {s s' : St σ} (hi : Inv s) (hz : ¬ Hazard E s)
    (hf : s.pos ≤ 8 * s.buf.length) (hs : step E s = .run s') : s'.pos ≤ 8 * s'.buf.length := by
  cases hop : E.prog[s.ip]? with
  | none => rw [step_end hop] at hs; cases hs
  | some op =>
    have hm := step_mono hi hop
    have hfit := pre_fit op s hf
    have hfld := pre_fields op s
    rw [hs] at hm
    have hlen : s'.buf.length = s.buf.length := by rw [hm.len, hfld.1]
    have hup := hm.up
    by_cases hpad : decodeOp op = .alignPad
    · have hnp : aligns op = false := by
        rw [aligns_decodeOp op (by rw [hpad]; decide), hpad]; rfl
      have hsame := (pre_pos op s hi.bit).2.2.2.2.2 hnp
      have e1 : step E s = handlePad E (pre op s) := by
        rw [step_eq hop]; unfold execOp; rw [hpad]; rfl
      rw [e1] at hs
      unfold handlePad fet at hs
      simp only at hs
      split at hs
      · unfold putBits at hs
        split at hs
        · cases hs
        · rename_i b c o hw
          injection hs with hs
          subst hs
          have := writeBits_spec _ _ _ _ _ _ (by rw [hsame.2]; exact hi.bit) hw
          have h3 := this.2.2.1
          simp only [room, St.pos] at *
          rw [hfld.1] at h3
          simp only [hsame.1, hsame.2] at h3
          omega
      · rename_i henc
        injection hs with hs
        subst hs
        have hne : ¬ (8 * s.buf.length < s.pos + (fetch E.prog (s.ip + 1) 1).1.toNat) := by
          intro h; apply hz; right; right
          exact ⟨by simp [curOp, hop, hpad], by simpa using henc, h⟩
        simp only [St.pos, hfld.2.1, hfld.1, hsame.1, hsame.2] at *
        omega
    · by_cases hem : decodeOp op = .emit
      · have hnp : aligns op = false := by
          rw [aligns_decodeOp op (by rw [hem]; decide), hem]; rfl
        have hsame := (pre_pos op s hi.bit).2.2.2.2.2 hnp
        have hb0 : s.bit = 0 := by
          by_cases h : s.bit = 0
          · exact h
          · exact absurd (.inr (.inl ⟨by simp [curOp, hop, hem], h⟩)) hz
        simp only [slackOf, hpad, hem, hsame.2, hb0, if_true, if_false, reduceCtorEq] at hup
        rw [hfld.1] at hup
        simp only [St.pos]
        omega
      · simp only [slackOf, hpad, hem, if_false] at hup
        rw [hfld.1] at hup
        simp only [St.pos]
        omega

/-- Runs that avoid the three hazards never access the packet outside its bounds, and their
position never passes the end of the packet (both modes, any program, host and packet). -/
theorem no_data_oob (E : Env σ) (old : St σ) (buf : List Byte) (user : σ)
    (hz : ∀ s, Reach E (initSt old buf user) s → ¬ Hazard E s) :
    (∀ n, exec E n (initSt old buf user) ≠ .ub .dataOOB) ∧
    (∀ s, Reach E (initSt old buf user) s → s.pos ≤ 8 * s.buf.length) := by
  have hT0 : TransIn E (initSt old buf user) := by
    constructor <;> intro h <;> simp [initSt] at h
  have stepT : ∀ a b : St σ, TransIn E a → step E a = .run b → TransIn E b := by
    intro a b ha hab
    cases hop : E.prog[a.ip]? with
    | none => rw [step_end hop] at hab; cases hab
    | some op =>
      have hf := pre_fields op a
      have hpre : TransIn E (pre op a) := by
        unfold TransIn at *
        simp only [hf]
        exact ha
      have := execOp_ub E op (pre op a) hpre
      have e0 : execOp E op (pre op a) = step E a := (step_eq hop).symm
      rw [e0, hab] at this
      exact this
  have all : ∀ n s, exec E n (initSt old buf user) = .run s →
      Inv s ∧ TransIn E s ∧ s.pos ≤ 8 * s.buf.length := by
    intro n
    induction n with
    | zero =>
      intro s h; simp [exec_zero] at h; subst h
      exact ⟨init_inv old buf user, hT0, by simp [St.pos, initSt]⟩
    | succ n ih =>
      intro s h
      rw [exec_add] at h
      cases hn : exec E n (initSt old buf user) with
      | run a =>
        rw [hn] at h
        simp only [exec_succ, exec_zero] at h
        have ha := ih a hn
        cases hs : step E a with
        | run b =>
          rw [hs] at h
          simp only [Res.run.injEq] at h
          subst h
          exact ⟨step_inv ha.1 hs, stepT a b ha.2.1 hs, step_fit ha.1 (hz a ⟨n, hn⟩) ha.2.2 hs⟩
        | stop e b => rw [hs] at h; cases h
        | ub u => rw [hs] at h; cases h
      | stop e b => rw [hn] at h; cases h
      | ub u => rw [hn] at h; cases h
  refine ⟨fun n h => ?_, fun s hr => ?_⟩
  · obtain ⟨s0, hr, hs⟩ := exec_ub_from h
    obtain ⟨n0, hn0⟩ := hr
    have h0 := all n0 s0 hn0
    cases hop : E.prog[s0.ip]? with
    | none => rw [step_end hop] at hs; cases hs
    | some op =>
      have hf := pre_fields op s0
      have hpre : TransIn E (pre op s0) := by
        have := h0.2.1
        unfold TransIn at *
        simp only [hf]
        exact this
      have hu := execOp_ub E op (pre op s0) hpre
      have e0 : execOp E op (pre op s0) = step E s0 := (step_eq hop).symm
      rw [e0, hs] at hu
      have := hu.1 (by rw [hf.1]; exact pre_cursor_le op s0 h0.2.2) rfl
      exact hz s0 ⟨n0, hn0⟩ (.inl ⟨by simp [curOp, hop, this.1], op, hop, this.2⟩)
  · obtain ⟨n, hn⟩ := hr; exact (all n s hn).2.2

/-- C05 is false: while encoding, OP_ENUM_CHECK on a field that was not written reads before the
buffer (vm_exec.c 791-833) ... -/
theorem C05_false_enum : ∃ (E : Env Demo.Tape) (buf : List Byte), E.enc = true ∧
    exec E 1 (Demo.start buf {}) = .ub .dataOOB :=
  ⟨Demo.env [0x4B, 0x10, 0, 0] true, [1, 2, 3], rfl, Demo.ub_of_obs (by decide +kernel)⟩

/-- ... and OP_EMIT, which is missing from the alignment table (vm_exec.c 511-536), leaves the bit offset
behind, so that the next aligned instruction steps past the end and a checksum reads one byte too far:
bit field of 3 bits, PUSH_IMM, EMIT u8, CRC_16 into a one-byte packet. -/
theorem C05_false_emit : ∃ (E : Env Demo.Tape) (buf : List Byte) (t : Demo.Tape), E.enc = true ∧
    exec E 4 (Demo.start buf t) = .ub .dataOOB :=
  ⟨Demo.env [0x20, 0, 0, 3, 0x61, 5, 0, 0, 0, 0, 0, 0, 0, 0x65, 0x10, 0x44, 0x21, 0x10, 0, 0, 0, 0, 0] true,
    [0], { inp := [1] }, rfl, Demo.ub_of_obs (by decide +kernel)⟩

/-- C05, runs that execute neither an under-running enum check nor an EMIT in the middle of a byte:
no access of the packet outside its bounds while encoding, for every program, host and buffer.
Missing: the two excluded situations, in which the claim is false. -/
theorem C05_encode_in_bounds_partial (E : Env σ) (henc : E.enc = true) (old : St σ) (buf : List Byte)
    (user : σ)
    (henum : ∀ s, Reach E (initSt old buf user) s → curOp E s = some .enumCheck →
      ∀ op, E.prog[s.ip]? = some op → ¬ EnumUnder E (pre op s))
    (hemit : ∀ s, Reach E (initSt old buf user) s → curOp E s = some .emit → s.bit = 0) (n : Nat) :
    exec E n (initSt old buf user) ≠ .ub .dataOOB := by
  refine (no_data_oob E old buf user ?_).1 n
  rintro s hr (⟨h1, op, h2, h3⟩ | ⟨h1, h2⟩ | ⟨_, h2, _⟩)
  · exact henum s hr h1 op h2 h3
  · exact h2 (hemit s hr h1)
  · rw [henc] at h2; cases h2

/-- C06 is false (1): padding skips past the end of a short packet without a check
(vm_exec.c 1040-1050) and the checksum then reads behind the buffer. -/
theorem C06_false_pad_crc : ∃ (E : Env Demo.Tape) (buf : List Byte), E.enc = false ∧
    exec E 2 (Demo.start buf {}) = .ub .dataOOB :=
  ⟨Demo.env [0x23, 16, 0x44, 0x21, 0x10, 0, 0, 0, 0, 0] false, [7], rfl,
    Demo.ub_of_obs (by decide +kernel)⟩

/-- C06 is false (2): the same with a NUL-terminated string (the remaining length wraps around,
vm_exec.c 1083). -/
theorem C06_false_pad_str : ∃ (E : Env Demo.Tape) (buf : List Byte), E.enc = false ∧
    exec E 2 (Demo.start buf {}) = .ub .dataOOB :=
  ⟨Demo.env [0x23, 16, 0x30, 0, 0, 5, 0] false, [7], rfl, Demo.ub_of_obs (by decide +kernel)⟩

/-- C06 is false (3): an optional enum field missing from an empty packet: the field is skipped,
the enum check reads before the buffer. This is what the compiler emits for `@optional` enums. -/
theorem C06_false_optional_enum : ∃ (E : Env Demo.Tape), E.enc = false ∧
    exec E 3 (Demo.start [] {}) = .ub .dataOOB :=
  ⟨Demo.env [0x4A, 0x10, 0, 0, 0x4B, 0x10, 1, 0, 5] false, rfl, Demo.ub_of_obs (by decide +kernel)⟩

/-- C06, runs that avoid the hazards: no access outside the packet while decoding, for every
program, host and (hostile) packet. Missing: the excluded situations, in which the claim is false. -/
theorem C06_decode_in_bounds_partial (E : Env σ) (old : St σ) (buf : List Byte) (user : σ)
    (hz : ∀ s, Reach E (initSt old buf user) s → ¬ Hazard E s) (n : Nat) :
    exec E n (initSt old buf user) ≠ .ub .dataOOB :=
  (no_data_oob E old buf user hz).1 n

/-- Programs that contain none of the three opcode bytes 0x4B (ENUM_CHECK), 0x65 (EMIT), 0x23
(ALIGN_PAD) anywhere are safe on every packet with every host, in both modes. -/
theorem C06_no_hazard_opcodes (E : Env σ) (old : St σ) (buf : List Byte) (user : σ)
    (h : ∀ b ∈ E.prog, b ≠ 0x4B ∧ b ≠ 0x65 ∧ b ≠ 0x23) (n : Nat) :
    exec E n (initSt old buf user) ≠ .ub .dataOOB := by
  refine (no_data_oob E old buf user ?_).1 n
  have H : ∀ b : Byte, (decodeOp b = .enumCheck → b = 0x4B) ∧ (decodeOp b = .emit → b = 0x65) ∧
      (decodeOp b = .alignPad → b = 0x23) := by decide +kernel
  have mem : ∀ (s : St σ) (o : Op), curOp E s = some o → ∃ b ∈ E.prog, decodeOp b = o := by
    intro s o ho
    unfold curOp at ho
    cases hb : E.prog[s.ip]? with
    | none => simp [hb] at ho
    | some b => exact ⟨b, List.mem_of_getElem? hb, by simpa [hb] using ho⟩
  rintro s _ (⟨h1, _⟩ | ⟨h1, _⟩ | ⟨h1, _⟩) <;> obtain ⟨b, hb, hd⟩ := mem s _ h1
  · exact (h b hb).1 ((H b).1 hd)
  · exact (h b hb).2.1 ((H b).2.1 hd)
  · exact (h b hb).2.2 ((H b).2.2 hd)

example : (∀ b ∈ ([0x02, 0x31, 0, 0, 0x44, 0x21, 0x10, 0, 0, 0, 0, 0] : List Byte),
    b ≠ 0x4B ∧ b ≠ 0x65 ∧ b ≠ 0x23) := by decide

/-! ### C07: stacks never overflow -/

/-- C07. At every point of every run, and in the final context, both stacks fit their 8-slot arrays. -/
theorem C07_stacks_bounded (E : Env σ) (old : St σ) (buf : List Byte) (user : σ) (n : Nat) (s : St σ)
    (h : exec E n (initSt old buf user) = .run s ∨ ∃ e, exec E n (initSt old buf user) = .stop e s) :
    s.stack.length ≤ 8 ∧ s.loops.length ≤ 8 := by
  rcases h with h | ⟨e, h⟩
  · have := reach_inv (init_inv old buf user) ⟨n, h⟩
    exact ⟨this.stk, this.lps⟩
  · obtain ⟨s0, hr, hs⟩ := exec_stop_from h
    have hi := reach_inv (init_inv old buf user) hr
    cases hop : E.prog[s0.ip]? with
    | none =>
      rw [step_end hop] at hs
      injection hs with _ h2; subst h2; exact ⟨hi.stk, hi.lps⟩
    | some op =>
      have := step_mono hi hop
      rw [hs] at this
      exact ⟨this.stk, this.lps⟩

/-- C07, error part: an instruction that would need a ninth expression slot stops with the
stack-overflow code and writes nothing. -/
theorem C07_push_full (s : St σ) (v : Word) (h : s.stack.length = 8) :
    push s v = .stop .stackOverflow s := by
  unfold push maxDepth; rw [if_pos (by omega)]

/-- C07, error part: a ninth nested array stops with an error code. -/
theorem C07_loop_full (s : St σ) (count : Nat) (h : s.loops.length = 8) :
    pushLoop s count = .stop .oob s := by
  unfold pushLoop maxDepth; rw [if_pos (by omega)]

-- nine pushes: the ninth is refused, eight values remain
example : (match exec (Demo.env ((List.replicate 9 [0x61, 1, 0, 0, 0, 0, 0, 0, 0]).flatten) true) 20
    (Demo.start [] {}) with
    | .stop e s => some (e, s.stack.length)
    | _ => none) = some (.stackOverflow, 8) := by decide +kernel

/-! ### C08: the position only moves forward -/

/-- C08. Every step keeps the bit offset in 0..7, never moves backwards, never passes the packet's
end by more than 255 bits (beyond where it already was), and moves by at most 262 bits unless
the instruction is a string, array or raw-bytes instruction. -/
theorem C08_forward (E : Env σ) (old : St σ) (buf : List Byte) (user : σ) (s s' : St σ)
    (hr : Reach E (initSt old buf user) s)
    (hs : step E s = .run s' ∨ ∃ e, step E s = .stop e s') :
    s.bit < 8 ∧ s'.bit < 8 ∧ s.pos ≤ s'.pos ∧
    s'.pos ≤ max s.pos (8 * s.buf.length) + 255 ∧
    (∀ o, curOp E s = some o → o.bulk = false → s'.pos ≤ s.pos + 262) := by
  have hi := reach_inv (init_inv old buf user) hr
  cases hop : E.prog[s.ip]? with
  | none =>
    rw [step_end hop] at hs
    rcases hs with hs | ⟨e, hs⟩
    · cases hs
    · injection hs with _ h2; subst h2
      exact ⟨hi.bit, hi.bit, Nat.le_refl _, by omega, fun o ho => by simp [curOp, hop] at ho⟩
  | some op =>
    have hm := step_mono hi hop
    have hp := pre_pos op s hi.bit
    have hfld := pre_fields op s
    have key : Mono (slackOf op (pre op s)) (decodeOp op).bulk (pre op s) s' := by
      rcases hs with hs | ⟨e, hs⟩ <;> rw [hs] at hm <;> exact hm
    have h1 := key.pos
    have h2 := key.up
    have h3 := key.small
    rw [hfld.1] at h2
    have hsl : 8 * (pre op s).cursor + (pre op s).bit + slackOf op (pre op s) ≤
        8 * s.cursor + s.bit + 255 ∧ slackOf op (pre op s) ≤ 255 := by
      by_cases hal : aligns op = true
      · have : slackOf op (pre op s) = 0 := by
          unfold slackOf
          rw [if_neg, if_neg]
          · intro h
            rw [aligns_decodeOp op (by rw [h]; decide), h] at hal; simp [Op.aligned] at hal
          · intro h
            rw [aligns_decodeOp op (by rw [h]; decide), h] at hal; simp [Op.aligned] at hal
        omega
      · have := hp.2.2.2.2.2 (by simpa using hal)
        have hsl : slackOf op (pre op s) ≤ 255 := by
          unfold slackOf; split
          · omega
          · split <;> omega
        omega
    refine ⟨hi.bit, key.bit, ?_, ?_, ?_⟩
    · simp only [St.pos]; omega
    · simp only [St.pos]; omega
    · intro o ho hbulk
      simp [curOp, hop] at ho
      have := h3 (by rw [ho]; exact hbulk)
      simp only [St.pos]; omega

example : Demo.obs (exec (Demo.env [0x20, 0, 0, 5, 0x10, 1, 0] true) 2
    (Demo.start [0, 0] { inp := [0x1F, 0x77] })) =
    .running [0x1F, 0x77] 2 0 { log := [(0, 0x20, 0x1F), (1, 0x10, 0x77)] } := by decide +kernel

/-! ### C31: control transfers stay inside the program -/

/-- C31 is false: OP_SWITCH_TABLE computes the slot address modulo 2^64 (vm_exec.c 1315-1321), so a
table that claims 2^64 entries lets the host's discriminator select a slot outside the program. -/
theorem C31_false_switch_table : ∃ (E : Env Demo.Tape) (t : Demo.Tape),
    exec E 1 (Demo.start [] t) = .ub .codeOOB :=
  ⟨Demo.env ([0x53, 0, 0, 0, 0, 0, 0] ++ List.replicate 8 0 ++ List.replicate 8 0xFF ++
      List.replicate 5 0) true,
    { inp := [0x3FFFFFFFFFFFFFF9] }, Demo.ub_of_obs (by decide +kernel)⟩

/-- C31 (jumps). A jump, conditional jump or switch that continues does so at an offset inside the
program (its length included), and does not touch packet position or loop stack. -/
theorem C31_jump_target (E : Env σ) (s s' : St σ) (o : Op) (ho : curOp E s = some o)
    (hj : o.jumps = true) (hs : step E s = .run s') : s'.ip ≤ E.prog.length ∧ s'.loops = s.loops := by
  cases hop : E.prog[s.ip]? with
  | none => simp [curOp, hop] at ho
  | some op =>
    simp [curOp, hop] at ho
    have hlt := (List.getElem?_eq_some_iff.1 hop).1
    have hf := pre_fields op s
    have := execOp_jmp E op (pre op s) (by rw [ho]; exact hj) (by rw [hf.2.1]; omega)
    have e0 : execOp E op (pre op s) = step E s := (step_eq hop).symm
    rw [e0, hs] at this
    exact ⟨this.le, by rw [this.lps, hf.2.2.2.1]⟩

/-- C31 (reads), all runs in which no jump table claims more entries than fit the 64-bit address
computation: no byte outside the program is ever read. The compiler emits tables of at most 256
entries. Missing: larger tables, for which the claim is false (`C31_false_switch_table`). -/
theorem C31_code_in_bounds_partial (E : Env σ) (old : St σ) (buf : List Byte) (user : σ)
    (ht : ∀ s, Reach E (initSt old buf user) s → curOp E s = some .switchTable →
      ∀ op, E.prog[s.ip]? = some op → ¬ TableWrap E (pre op s)) (n : Nat) :
    exec E n (initSt old buf user) ≠ .ub .codeOOB := by
  intro h
  obtain ⟨s0, hr, hs⟩ := exec_ub_from h
  have hT : TransIn E s0 := by
    refine hr.inv (I := TransIn E) ?_ ?_
    · intro a b ha hab
      cases hop : E.prog[a.ip]? with
      | none => rw [step_end hop] at hab; cases hab
      | some op =>
        have hf := pre_fields op a
        have hpre : TransIn E (pre op a) := by
          unfold TransIn at *
          simp only [hf]
          exact ha
        have := execOp_ub E op (pre op a) hpre
        have e0 : execOp E op (pre op a) = step E a := (step_eq hop).symm
        rw [e0, hab] at this
        exact this
    · constructor <;> intro h <;> simp [initSt] at h
  cases hop : E.prog[s0.ip]? with
  | none => rw [step_end hop] at hs; cases hs
  | some op =>
    have hf := pre_fields op s0
    have hpre : TransIn E (pre op s0) := by
      unfold TransIn at *
      simp only [hf]
      exact hT
    have hu := execOp_ub E op (pre op s0) hpre
    have e0 : execOp E op (pre op s0) = step E s0 := (step_eq hop).symm
    rw [e0, hs] at hu
    have := hu.2 rfl
    exact ht s0 hr (by simp [curOp, hop, this.1]) op hop this.2

-- non-vacuity: a table of two entries does not wrap
example : ¬ TableWrap (Demo.env ([0x53, 0, 0, 0, 0, 0, 0] ++ [1, 0, 0, 0, 0, 0, 0, 0] ++
    [2, 0, 0, 0, 0, 0, 0, 0] ++ List.replicate 12 0) true)
    (pre 0x53 (Demo.start [] { inp := [1] })) := by
  unfold TableWrap; decide +kernel

/-! ### C53: error codes and their reasons -/

/-- Numeric code of an error, concordia.h 150-160. -/
def Err.code : Err → Nat
  | .ok => 0 | .oob => 1 | .invalidOp => 2 | .validation => 3 | .callback => 4
  | .stackOverflow => 5 | .stackUnderflow => 6 | .crcMismatch => 7 | .arithmetic => 8

/-- C53. A run that ends with an error does so for the documented reason (`Reason`): CRC error only
from a checksum instruction while decoding, stack errors only from expression/array instructions on a
full or empty stack, callback error only if the host's last answer was an error, and so on; code 0 only
at the end of the program. -/
theorem C53_error_reasons (E : Env σ) (old : St σ) (buf : List Byte) (user : σ) (n : Nat) (e : Err)
    (s' : St σ) (h : exec E n (initSt old buf user) = .stop e s') :
    e.code ≤ 8 ∧
    ∃ s, Reach E (initSt old buf user) s ∧ step E s = .stop e s' ∧
      ((e = .ok ∧ E.prog.length ≤ s.ip ∧ s' = s) ∨
       ∃ op, E.prog[s.ip]? = some op ∧ Reason E (decodeOp op) (pre op s) s'.host e ∧
         (e = .oob → (decodeOp op).mayOob = true)) := by
  refine ⟨by cases e <;> decide, ?_⟩
  obtain ⟨s0, hr, hs⟩ := exec_stop_from h
  refine ⟨s0, hr, hs, ?_⟩
  have hi := reach_inv (init_inv old buf user) hr
  cases hop : E.prog[s0.ip]? with
  | none =>
    rw [step_end hop] at hs
    injection hs with h1 h2
    exact .inl ⟨h1.symm, List.getElem?_eq_none_iff.1 hop, h2.symm⟩
  | some op =>
    have hp := hi.pre op
    have := execOp_err E op (pre op s0) hp.stk hp.lps
    have e0 : execOp E op (pre op s0) = step E s0 := (step_eq hop).symm
    rw [e0, hs] at this
    exact .inr ⟨op, rfl, this.1, this.2⟩

-- non-vacuity: a wrong checksum is reported with code 7
example : (match exec (Demo.env [0x10, 0, 0, 0x44, 0x21, 0x10, 0xFF, 0xFF, 0, 0, 0] false) 5
    (Demo.start [1, 2, 3] {}) with
    | .stop e _ => some e.code
    | _ => none) = some 7 := by decide +kernel

/-- How many entries of the expression stack an instruction takes, concordia.h 45-145. -/
def Op.pops : Op → Nat
  | .jumpIfNot | .pop | .dup | .emit | .storeCtx | .un _ => 1
  | .ibin _ | .fbin _ => 2
  | _ => 0

/-- C53, the other direction: an instruction that finds fewer entries on the stack than it takes reports a stack underflow, and nothing else. -/
theorem C53_underflow (E : Env σ) (op : Byte) (s : St σ) (h : s.stack.length < (decodeOp op).pops) : ∃ s', execOp E op s = .stop .stackUnderflow s' := by
  unfold execOp
  cases hd : decodeOp op <;> rw [hd] at h <;> (try exact absurd h (Nat.not_lt_zero _))
  case ibin o =>
    match hs : s.stack, h with
    | [], _ => exact ⟨s, by simp only [binary, hs]⟩
    | [a], _ => exact ⟨{ s with stack := [] }, by simp only [binary, hs]⟩
    | _ :: _ :: _, h => simp [Op.pops] at h; omega
  case fbin o =>
    match hs : s.stack, h with
    | [], _ => exact ⟨s, by simp only [binary, hs]⟩
    | [a], _ => exact ⟨{ s with stack := [] }, by simp only [binary, hs]⟩
    | _ :: _ :: _, h => simp [Op.pops] at h; omega
  all_goals
    have hs : s.stack = [] := List.length_eq_zero_iff.1 (Nat.lt_one_iff.1 h)
    first
      | (refine ⟨s, ?_⟩; simp only [unary, hs]; done)
      | (refine ⟨{ s with ip := (fetch E.prog s.ip 4).2 }, ?_⟩; simp only [handleJumpIfNot, fet, hs]; done)
      | (refine ⟨{ s with ip := (fetch E.prog s.ip 2).2 }, ?_⟩; simp only [handleStoreCtx, fet, hs]; done)
      | (refine ⟨{ s with ip := (fetch E.prog s.ip 1).2 }, ?_⟩; simp only [handleEmit, fet, hs]; done)

/-- C53, the other direction: pushing onto a full stack (8 entries) is reported as a stack overflow. -/
theorem C53_overflow (E : Env σ) (op : Byte) (s : St σ) (h : s.stack.length = 8) (ho : decodeOp op = .pushImm ∨ decodeOp op = .dup) :
    ∃ s', execOp E op s = .stop .stackOverflow s' := by
  unfold execOp
  rcases ho with e | e <;> rw [e]
  · refine ⟨{ s with ip := (fetch E.prog s.ip 8).2 }, ?_⟩
    simp only [fet, push, h, maxDepth]
    rfl
  · match hs : s.stack, h with
    | v :: r, h =>
      refine ⟨s, ?_⟩
      simp only [hs, push, h, maxDepth]
      rfl

example : (decodeOp 0x50).pops = 1 ∧ (Demo.start [] {}).stack.length < 1 := by decide

end Cnd
