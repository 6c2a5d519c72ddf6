import Verif.Walk
import Verif.Sch
/-
  What single instructions of a packet description do with an arbitrary host on an arbitrary packet (for C66): they stop, or
  go on to the next instruction; nothing is undefined. One lemma per instruction over the handlers of VM.lean.
-/

set_option linter.unusedVariables false

namespace Cnd
variable {σ : Type}

/-- The run from `s` ends with a result, or comes to a state with `Q`; it meets nothing undefined and does not go on for ever. -/
inductive Ends (E : Env σ) (Q : St σ → Prop) : St σ → Prop
  | here {s : St σ} (h : Q s) : Ends E Q s
  | stop {s s' : St σ} {e : Err} (h : step E s = .stop e s') : Ends E Q s
  | next {s s' : St σ} (h : step E s = .run s') (h' : Ends E Q s') : Ends E Q s

theorem Ends.bind {E : Env σ} {Q R : St σ → Prop} {s : St σ} (h : Ends E Q s) (hR : ∀ s', Q s' → Ends E R s') :
    Ends E R s := by
  induction h with
  | here h => exact hR _ h
  | stop h => exact .stop h
  | next h _ ih => exact .next h ih

theorem Ends.mono {E : Env σ} {Q R : St σ → Prop} {s : St σ} (h : Ends E Q s) (hR : ∀ s', Q s' → R s') : Ends E R s :=
  h.bind fun s' hq => .here (hR s' hq)

theorem Ends.of_post {E : Env σ} {P Q : St σ → Prop} {s : St σ} (h : Post P (fun _ _ => True) (fun _ => False) (step E s))
    (hQ : ∀ s', P s' → Ends E Q s') : Ends E Q s := by
  cases hs : step E s with
  | run s' => rw [hs] at h; exact .next hs (hQ s' h)
  | stop e s' => exact .stop hs
  | ub u => rw [hs] at h; exact h.elim

theorem Ends.exec {E : Env σ} {Q : St σ → Prop} {s : St σ} (h : Ends E Q s) (hend : ∀ s', Q s' → E.prog[s'.ip]? = none) :
    ∃ n e s', exec E n s = .stop e s' := by
  induction h with
  | here h => exact ⟨1, .ok, _, exec_stop_succ (step_end (hend _ h)) 0⟩
  | stop h => exact ⟨1, _, _, exec_stop_succ h 0⟩
  | next h _ ih =>
    obtain ⟨n, e, s', hn⟩ := ih
    exact ⟨n + 1, e, s', by rw [exec_run_succ h, hn]⟩

/-- `k` operand bytes read, loop stack and packet length as before. -/
structure Went (k : Nat) (s s' : St σ) : Prop where
  ip : s'.ip = s.ip + k
  loops : s'.loops = s.loops
  len : s'.buf.length = s.buf.length

/-- A byte-aligned field of `n` bytes that lies in the packet was processed, or it was optional and missing. -/
structure Took (k n : Nat) (s s' : St σ) : Prop extends Went k s s' where
  bit : s'.bit = 0
  trans : s'.trans = .none
  opt : s'.opt = false
  pos : s.opt = true ∧ s'.cursor = s.cursor ∨ s'.cursor = s.cursor + n ∧ s'.cursor ≤ s.buf.length

/-- Nothing but the instruction pointer, the host and the byte order changed. -/
structure Idle (k : Nat) (s s' : St σ) : Prop extends Went k s s' where
  bit : s'.bit = s.bit
  cursor : s'.cursor = s.cursor
  trans : s'.trans = s.trans
  opt : s'.opt = s.opt

abbrev Safe (P : St σ → Prop) (r : Res σ) : Prop := Post P (fun _ _ => True) (fun _ => False) r

/-- Closes side goals about fields of states. -/
macro "sc" : tactic => `(tactic| first
  | rfl
  | assumption
  | omega
  | (dsimp only; omega)
  | (dsimp only at *; omega)
  | (simp only [hostBuf_length]; done))

macro "safe_close" : tactic => `(tactic| first
  | assumption
  | omega
  | (dsimp only at *; omega)
  | (refine ⟨⟨?_, ?_, ?_⟩, ?_, ?_, ?_, ?_⟩ <;> (try dsimp only at *) <;> first
      | assumption
      | rfl
      | omega
      | (simp only [hostBuf_length]; omega)
      | (left; exact ⟨by assumption, rfl⟩)
      | (right; exact ⟨rfl, by omega⟩)
      | (right; exact ⟨by omega, by omega⟩)))

theorem handlePrim_safe (E : Env σ) (t : Ty) (op : Byte) (s : St σ) (h : s.ip + 2 ≤ E.prog.length) (hb : s.bit = 0)
    (ht : s.trans = .none) : Safe (Took 2 t.size s) (handlePrim E t op s) := by
  unfold handlePrim
  apply post_fetX h
  simp only [ht]
  len_sweep
  all_goals safe_close

theorem handleFloat_safe (E : Env σ) (d : Bool) (op : Byte) (s : St σ) (h : s.ip + 2 ≤ E.prog.length) (hb : s.bit = 0)
    (ht : s.trans = .none) : Safe (Took 2 (if d then 8 else 4) s) (handleFloat E d op s) := by
  unfold handleFloat
  apply post_fetX h
  simp only [ht]
  generalize (if d then 8 else 4) = n
  len_sweep
  all_goals safe_close

theorem handleBool_safe (E : Env σ) (op : Byte) (s : St σ) (h : s.ip + 2 ≤ E.prog.length) (hb : s.bit = 0)
    (ht : s.trans = .none) : Safe (Took 2 1 s) (handleBool E op s) := by
  unfold handleBool
  apply post_fetX h
  len_sweep
  all_goals safe_close

/-- Bits were processed as far as the packet goes; `n` is the number asked for. -/
structure Bitted (k n : Nat) (s s' : St σ) : Prop extends Went k s s' where
  bit : s'.bit < 8
  trans : s'.trans = s.trans
  opt : s'.opt = s.opt
  pos : 8 * s'.cursor + s'.bit = 8 * s.cursor + s.bit + room s.buf.length (8 * s.cursor + s.bit) n

theorem readBits_defined (be : Bool) (count : Nat) (buf : List Byte) (cur bit : Nat) (hb : bit < 8) (hc : count ≤ 64) :
    readBits buf be cur bit count ≠ none := by
  unfold readBits
  simp only
  split
  · simp
  · cases be with
    | false => exact readLoop_le_defined buf count 0 cur bit 0 (by omega)
    | true =>
      obtain ⟨v, c, o, e, -⟩ := readLoop_be buf count 0 cur bit 0 hb
      rw [e]; simp

macro "bit_close" hb:ident hn:ident : tactic => `(tactic| first
  | (rename_i h; exact absurd h (writeBits_defined _ _ _ _ _ _ $hn))
  | (rename_i h; exact absurd h (readBits_defined _ _ _ _ _ $hb $hn))
  | (rename_i h; have := h $hb; exact ⟨⟨by sc, rfl, this.1⟩, this.2.1, rfl, rfl, this.2.2⟩)
  | (rename_i h _ _ _; have := h $hb; exact ⟨⟨by sc, rfl, rfl⟩, this.1, rfl, rfl, this.2⟩)
  | (rename_i h; have := h $hb; exact ⟨⟨by sc, rfl, rfl⟩, this.1, rfl, rfl, this.2⟩))

theorem handleBitU_safe (E : Env σ) (op : Byte) (s : St σ) (h : s.ip + 3 ≤ E.prog.length) (hb : s.bit < 8)
    (hn : (fetch E.prog (s.ip + 2) 1).1.toNat ≤ 64) :
    Safe (Bitted 3 (fetch E.prog (s.ip + 2) 1).1.toNat s) (handleBitU E op s) := by
  unfold handleBitU
  len_sweep
  all_goals bit_close hb hn

theorem handleBitI_safe (E : Env σ) (op : Byte) (s : St σ) (h : s.ip + 3 ≤ E.prog.length) (hb : s.bit < 8)
    (h0 : 0 < (fetch E.prog (s.ip + 2) 1).1.toNat) (hn : (fetch E.prog (s.ip + 2) 1).1.toNat ≤ 64) :
    Safe (Bitted 3 (fetch E.prog (s.ip + 2) 1).1.toNat s) (handleBitI E op s) := by
  unfold handleBitI
  len_sweep
  all_goals first
    | bit_close hb hn
    | (rename_i h; unfold signExtendBits at h; split at h; cases h; split at h; (dsimp only at *; omega); cases h)
    | (rename_i h _ _ _ _ _ _; have := h hb; exact ⟨⟨by sc, rfl, rfl⟩, this.1, rfl, rfl, this.2⟩)

theorem handleBitBool_safe (E : Env σ) (op : Byte) (s : St σ) (h : s.ip + 2 ≤ E.prog.length) (hb : s.bit < 8) :
    Safe (Bitted 2 1 s) (handleBitBool E op s) := by
  have hn : 1 ≤ 64 := by omega
  unfold handleBitBool
  len_sweep
  all_goals bit_close hb hn

theorem handlePad_safe_enc (E : Env σ) (henc : E.enc = true) (s : St σ) (h : s.ip + 1 ≤ E.prog.length) (hb : s.bit < 8)
    (hn : (fetch E.prog s.ip 1).1.toNat ≤ 64) : Safe (Bitted 1 (fetch E.prog s.ip 1).1.toNat s) (handlePad E s) := by
  unfold handlePad
  simp only [henc, if_true]
  len_sweep
  all_goals bit_close hb hn

/-- Padding when decoding: the position moves on without a look at the end of the packet. -/
structure Skipped (k n : Nat) (s s' : St σ) : Prop extends Went k s s' where
  bit : s'.bit < 8
  trans : s'.trans = s.trans
  opt : s'.opt = s.opt
  pos : 8 * s'.cursor + s'.bit = 8 * s.cursor + s.bit + n

theorem handlePad_safe_dec (E : Env σ) (henc : E.enc = false) (s : St σ) (h : s.ip + 1 ≤ E.prog.length) :
    Safe (Skipped 1 (fetch E.prog s.ip 1).1.toNat s) (handlePad E s) := by
  unfold handlePad
  simp only [henc, Bool.false_eq_true, if_false]
  len_sweep
  exact ⟨⟨rfl, rfl, rfl⟩, by sc, rfl, rfl, by sc⟩

theorem handleFill_safe (E : Env σ) (s : St σ) (h : s.ip + 1 ≤ E.prog.length) (hb : s.bit < 8) :
    Safe (Bitted 1 (if s.bit = 0 then 0 else 8 - s.bit) s) (handleFill E s) := by
  unfold handleFill
  apply post_fetX h
  dsimp only
  by_cases h0 : s.bit > 0
  · rw [if_pos h0, if_neg (by omega)]
    have hn : 8 - s.bit ≤ 64 := by omega
    len_sweep
    all_goals bit_close hb hn
  · rw [if_neg h0, if_pos (by omega)]
    exact ⟨⟨rfl, rfl, rfl⟩, hb, rfl, rfl, by dsimp only; simp [room]⟩

/-! ### Strings -/

theorem handleStrNull_safe (E : Env σ) (op : Byte) (s : St σ) (h : s.ip + 4 ≤ E.prog.length) (hb : s.bit = 0)
    (ht : s.trans = .none) (hc : E.enc = false → s.cursor ≤ s.buf.length) :
    Safe (fun s' => ∃ n, 0 < n ∧ Took 4 n s s') (handleStrNull E op s) := by
  unfold handleStrNull
  apply post_fetX (by omega)
  apply post_fetX (by dsimp only; omega)
  dsimp only
  by_cases henc : E.enc = true
  · simp only [henc, if_true]
    len_sweep
    · simp only [List.length_append, List.length_singleton] at *
      exact ⟨_, Nat.succ_pos _, ⟨by sc, rfl, by sc⟩, hb, ht, rfl, .inr ⟨by sc, by sc⟩⟩
    · simp only [List.length_append, List.length_singleton] at *
      omega
    · exact ⟨1, by omega, ⟨by sc, rfl, rfl⟩, hb, ht, rfl, .inl ⟨by assumption, rfl⟩⟩
  · have hc := hc (by simpa using henc)
    simp only [henc, if_false, Bool.false_eq_true]
    rw [if_neg (by omega)]
    len_sweep
    exact ⟨_ + 1, Nat.succ_pos _, ⟨by sc, rfl, by sc⟩, hb, ht, rfl, .inr ⟨Nat.add_assoc .., by sc⟩⟩

theorem handleStrPre_safe (E : Env σ) (p : Pre) (op : Byte) (s : St σ) (h : s.ip + 2 ≤ E.prog.length) (hb : s.bit = 0)
    (ht : s.trans = .none) : Safe (fun s' => ∃ n, 0 < n ∧ Took 2 n s s') (handleStrPre E p op s) := by
  have hp : 0 < p.size := by cases p <;> decide
  unfold handleStrPre
  apply post_fetX h
  dsimp only
  len_sweep
  all_goals try simp only [hostBuf_length] at *
  all_goals try dsimp only at *
  all_goals first
    | omega
    | exact ⟨1, by omega, ⟨by sc, rfl, rfl⟩, hb, ht, rfl, .inl ⟨by assumption, rfl⟩⟩
    | exact ⟨_, Nat.add_pos_left hp _, ⟨by sc, rfl, by sc⟩, hb, ht, rfl, .inr ⟨by dsimp only; rw [Nat.add_assoc], by sc⟩⟩

/-! ### Checks -/

theorem handleConstCheck_safe (E : Env σ) (s : St σ) (t : Ty) (ht : tyTag (fetch E.prog (s.ip + 2) 1).1 = some t)
    (h : s.ip + (3 + t.size) ≤ E.prog.length) :
    Safe (fun s' => Went (3 + t.size) s s' ∧ s'.bit = s.bit ∧ s'.trans = s.trans ∧ s'.opt = s.opt ∧
      s'.cursor = s.cursor + t.size ∧ s'.cursor ≤ s.buf.length) (handleConstCheck E s) := by
  unfold handleConstCheck
  apply post_fetX (by omega)
  apply post_fetX (by dsimp only; omega)
  simp only [ht]
  len_sweep
  all_goals try dsimp only at *
  all_goals first
    | omega
    | exact ⟨⟨by sc, rfl, by sc⟩, rfl, rfl, rfl, rfl, by sc⟩

theorem handleRange_safe (E : Env σ) (s : St σ) (t : Ty) (ht : tyTag (fetch E.prog s.ip 1).1 = some t)
    (h : s.ip + (1 + 2 * t.size) ≤ E.prog.length) (hc : s.cursor ≤ s.buf.length) :
    Safe (Idle (1 + 2 * t.size) s) (handleRange E s) := by
  unfold handleRange
  apply post_fetX (by omega)
  simp only [ht]
  len_sweep
  all_goals try dsimp only at *
  all_goals first
    | omega
    | exact ⟨⟨by sc, rfl, rfl⟩, rfl, rfl, rfl, rfl⟩

theorem handleEnum_safe (E : Env σ) (s : St σ) (t : Ty) (ht : tyTag (fetch E.prog s.ip 1).1 = some t)
    (h : s.ip + (3 + (fetch E.prog (s.ip + 1) 2).1.toNat * t.size) ≤ E.prog.length) (hc : s.cursor ≤ s.buf.length)
    (hc0 : t.size ≤ s.cursor) : Safe (Idle (3 + (fetch E.prog (s.ip + 1) 2).1.toNat * t.size) s) (handleEnum E s) := by
  unfold handleEnum
  apply post_fetX (by omega)
  apply post_fetX (by dsimp only; omega)
  simp only [ht]
  len_sweep
  all_goals try dsimp only at *
  all_goals first
    | omega
    | (rename_i he
       have := enumScan_len (by omega) he
       exact ⟨⟨by sc, rfl, rfl⟩, rfl, rfl, rfl, rfl⟩)

theorem handleCrc_safe (E : Env σ) (w : Bool) (s : St σ) (h : s.ip + (if w then 13 else 7) ≤ E.prog.length)
    (hc : s.cursor ≤ s.buf.length) :
    Safe (fun s' => Went (if w then 13 else 7) s s' ∧ s'.bit = s.bit ∧ s'.trans = s.trans ∧ s'.opt = s.opt ∧
      s.cursor < s'.cursor ∧ s'.cursor ≤ s.buf.length) (handleCrc E w s) := by
  unfold handleCrc
  cases w
  all_goals
    simp only [Bool.false_eq_true, if_false, if_true] at h ⊢
    len_sweep
    all_goals try dsimp only at *
    all_goals first
      | omega
      | (rename_i hs; have := slice_eq_none.1 hs; omega)
      | exact ⟨⟨by sc, rfl, by sc⟩, rfl, rfl, rfl, by sc, by sc⟩

/-! ### Transforms -/

/-- A field under a pending integer transform, whose result does not overflow. -/
theorem handlePrim_safe_trans (E : Env σ) (t : Ty) (op : Byte) (s : St σ) (h : s.ip + 2 ≤ E.prog.length) (hb : s.bit = 0)
    (ht : s.trans = .add ∨ s.trans = .sub ∨ s.trans = .mul ∨ s.trans = .div) (ho : s.opt = false)
    (hr : E.enc = true → ∀ w, intToRaw s.trans s.iVal w ≠ none)
    (he : E.enc = false → ∀ bs, bs.length = t.size → intToEng s.trans s.iVal (t.toI64 (rdWord s.be bs)) ≠ none) :
    Safe (Took 2 t.size s) (handlePrim E t op s) := by
  unfold handlePrim
  apply post_fetX h
  dsimp only
  have hlen : ∀ {p bs}, slice s.buf p t.size = some bs → bs.length = t.size := by
    intro p bs hs
    exact slice_length hs
  rcases ht with ht | ht | ht | ht <;> simp only [ht] at hr he ⊢
  all_goals
    by_cases henc : E.enc = true
    · simp only [henc, if_true]
      len_sweep
      all_goals first
        | (rename_i hx; exact absurd hx (hr henc _))
        | (rename_i hx _ _ _; exact absurd (ho.symm.trans hx) (by decide))
        | safe_close
    · simp only [henc, if_false, Bool.false_eq_true]
      len_sweep
      all_goals first
        | (rename_i hs _ hx; exact absurd hx (he (by simpa using henc) _ (hlen hs)))
        | (rename_i hx _ _ _; exact absurd (ho.symm.trans hx) (by decide))
        | safe_close

theorem handlePrim_safe_curve (E : Env σ) (henc : E.enc = false) (t : Ty) (op : Byte) (s : St σ) (h : s.ip + 2 ≤ E.prog.length)
    (hb : s.bit = 0) (ht : s.trans = .scale ∨ s.trans = .poly ∨ s.trans = .spline) (htab : TabOK E s) (ho : s.opt = false) :
    Safe (Took 2 t.size s) (handlePrim E t op s) := by
  unfold TabOK at htab
  unfold handlePrim
  apply post_fetX h
  rcases ht with ht | ht | ht <;> simp only [ht] at htab <;> simp only [ht, henc, Bool.false_eq_true, if_false]
  all_goals
    len_sweep
    all_goals first
      | (rename_i hx _ _ _; exact absurd (ho.symm.trans hx) (by decide))
      | (rename_i hx; simp at htab; omega)
      | safe_close

theorem handleFloat_safe_scale (E : Env σ) (d : Bool) (op : Byte) (s : St σ) (h : s.ip + 2 ≤ E.prog.length) (hb : s.bit = 0)
    (ht : s.trans = .scale) (ho : s.opt = false) : Safe (Took 2 (floatSize d) s) (handleFloat E d op s) := by
  unfold handleFloat floatSize
  apply post_fetX h
  simp only [ht]
  generalize (if d then 8 else 4) = n
  len_sweep
  all_goals first
    | (rename_i hx _ _ _; exact absurd (ho.symm.trans hx) (by decide))
    | safe_close

theorem post_ite {P : St σ → Prop} {Q : Err → St σ → Prop} {U : UB → Prop} {c : Prop} [Decidable c] {a b : Res σ}
    (ha : Post P Q U a) (hb : Post P Q U b) : Post P Q U (if c then a else b) := by
  split
  · exact ha
  · exact hb

theorem handleEmit_safe (E : Env σ) (s : St σ) (h : s.ip + 1 ≤ E.prog.length) :
    Safe (fun s' => Went 1 s s' ∧ s'.bit = s.bit ∧ s'.trans = s.trans ∧ s'.opt = s.opt ∧
      s.cursor < s'.cursor ∧ s'.cursor ≤ s.buf.length) (handleEmit E s) := by
  have hn : ∀ {tag : Word} {n : Nat}, emitSize tag = some n → 0 < n := by
    intro tag n hn
    unfold emitSize at hn
    split at hn <;> first | (injection hn; omega) | cases hn
  unfold handleEmit
  apply post_fetX h
  dsimp only
  split
  · trivial
  split
  · trivial
  rename_i n hsz
  have hn0 := hn hsz
  split
  · trivial
  rename_i hroom
  have fin : ∀ (stk : List Word) (b : List Byte), b.length = s.buf.length →
      (fun s' : St σ => Went 1 s s' ∧ s'.bit = s.bit ∧ s'.trans = s.trans ∧ s'.opt = s.opt ∧
        s.cursor < s'.cursor ∧ s'.cursor ≤ s.buf.length)
      { s with ip := s.ip + 1, stack := stk, buf := b, cursor := s.cursor + n } :=
    fun _ b hb => ⟨⟨rfl, rfl, hb⟩, rfl, rfl, rfl, by sc, by sc⟩
  split
  · apply post_wrAt
    · intro b _ hb
      exact fin _ b hb
    · intro h; dsimp only at *; omega
  · apply post_rdAt
    · intro bs _
      exact post_ite trivial (fin _ s.buf rfl)
    · intro h; dsimp only at *; omega

end Cnd
