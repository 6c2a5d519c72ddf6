import Verif.VM
import Verif.BitsLemmas
/-
  Helper lemmas about the VM: a postcondition calculus over the result of an instruction, used by the
  sweeps over all opcodes.
-/

namespace Cnd

variable {σ : Type}

/-- Postcondition of a result: `P` if running, `Q` if stopped, `U` if undefined. -/
def Post (P : St σ → Prop) (Q : Err → St σ → Prop) (U : UB → Prop) : Res σ → Prop
  | .run s => P s
  | .stop e s => Q e s
  | .ub u => U u

section
variable {P : St σ → Prop} {Q : Err → St σ → Prop} {U : UB → Prop} {E : Env σ} {s : St σ}

theorem post_run (h : P s) : Post P Q U (.run s) := h
theorem post_stop {e : Err} (h : Q e s) : Post P Q U (.stop e s) := h
theorem post_ub {u : UB} (h : U u) : Post P Q U (.ub u) := h

theorem post_fet {n : Nat} {k : Word → St σ → Res σ}
    (h : Post P Q U (k (fetch E.prog s.ip n).1 { s with ip := (fetch E.prog s.ip n).2 })) :
    Post P Q U (fet E s n k) := h

theorem post_callNotify {key : Nat} {op : Byte} {k : St σ → Res σ}
    (h1 : ∀ h, E.host.notify s.host key op = (true, h) → Post P Q U (k { s with host := h }))
    (h2 : ∀ h, E.host.notify s.host key op = (false, h) → Q .callback { s with host := h }) :
    Post P Q U (callNotify E s key op k) := by
  unfold callNotify
  cases h : E.host.notify s.host key op with
  | mk r h' =>
    cases r with
    | true => simpa using h1 _ h
    | false => simpa [Post] using h2 _ h

theorem post_callScalar {key : Nat} {op : Byte} {n : Nat} {v : Word} {k : St σ → Word → Res σ}
    (h1 : ∀ h w, E.host.scalar s.host key op v = (true, w, h) →
      Post P Q U (k { s with host := h } (truncB n w)))
    (h2 : ∀ h w, E.host.scalar s.host key op v = (false, w, h) → Q .callback { s with host := h }) :
    Post P Q U (callScalar E s key op n v k) := by
  unfold callScalar
  cases h : E.host.scalar s.host key op v with
  | mk r wh =>
    obtain ⟨w, h'⟩ := wh
    cases r with
    | true => simpa using h1 _ _ h
    | false => simpa [Post] using h2 _ _ h

theorem post_callStr {key : Nat} {op : Byte} {k : St σ → List Byte → Res σ}
    (h1 : ∀ h str, E.host.str s.host key op = (true, str, h) →
      Post P Q U (k { s with host := h } (cstr str)))
    (h2 : ∀ h str, E.host.str s.host key op = (false, str, h) → s.opt = true →
      P { s with host := h, opt := false })
    (h3 : ∀ h str, E.host.str s.host key op = (false, str, h) → s.opt = false →
      Q .callback { s with host := h }) :
    Post P Q U (callStr E s key op k) := by
  unfold callStr
  cases h : E.host.str s.host key op with
  | mk r wh =>
    obtain ⟨w, h'⟩ := wh
    cases r with
    | true => simpa using h1 _ _ h
    | false =>
      cases ho : s.opt with
      | true => simpa [Post] using h2 _ _ h ho
      | false => simpa [Post, ho] using h3 _ _ h ho

theorem hostBuf_length (old new : List Byte) : (hostBuf old new).length = old.length := by
  unfold hostBuf; split <;> simp_all

theorem post_callAt {key : Nat} {op : Byte} {p : Nat} {k bad : St σ → Res σ}
    (h1 : ∀ h b, E.host.bytesAt s.host key op s.be s.buf p = (true, b, h) →
      Post P Q U (k { s with host := h, buf := hostBuf s.buf b }))
    (h2 : ∀ h b, E.host.bytesAt s.host key op s.be s.buf p = (false, b, h) →
      Post P Q U (bad { s with host := h, buf := hostBuf s.buf b })) :
    Post P Q U (callAt E s key op p k bad) := by
  unfold callAt
  cases h : E.host.bytesAt s.host key op s.be s.buf p with
  | mk r wh =>
    obtain ⟨w, h'⟩ := wh
    cases r with
    | true => simpa using h1 _ _ h
    | false => simpa using h2 _ _ h

theorem post_rdAt {p n : Nat} {k : Word → Res σ}
    (h1 : ∀ bs, slice s.buf p n = some bs → Post P Q U (k (rdWord s.be bs)))
    (h2 : s.buf.length < p + n → U .dataOOB) : Post P Q U (rdAt s p n k) := by
  unfold rdAt
  split
  · rename_i h; exact h2 (slice_eq_none.1 h)
  · rename_i bs h; exact h1 bs h

theorem post_wrAt {p n : Nat} {w : Word} {k : St σ → Res σ}
    (h1 : ∀ b, store s.buf p (wrBytes s.be n w) = some b → b.length = s.buf.length →
      Post P Q U (k { s with buf := b }))
    (h2 : s.buf.length < p + n → U .dataOOB) : Post P Q U (wrAt s p n w k) := by
  unfold wrAt
  split
  · rename_i h
    have := store_eq_none.1 h
    exact h2 (by simpa using this)
  · rename_i b h; exact h1 b h (store_length h)

theorem post_wrRaw {p : Nat} {bs : List Byte} {k : St σ → Res σ}
    (h1 : ∀ b, store s.buf p bs = some b → b.length = s.buf.length → Post P Q U (k { s with buf := b }))
    (h2 : s.buf.length < p + bs.length → U .dataOOB) : Post P Q U (wrRaw s p bs k) := by
  unfold wrRaw
  split
  · rename_i h; exact h2 (store_eq_none.1 h)
  · rename_i b h; exact h1 b h (store_length h)

theorem post_putBits {v : Word} {n : Nat} {k : St σ → Res σ}
    (h1 : ∀ b c o, writeBits s.buf s.be s.cursor s.bit v n = some (b, c, o) →
      (s.bit < 8 → b.length = s.buf.length ∧ o < 8 ∧
        8 * c + o = 8 * s.cursor + s.bit + room s.buf.length (8 * s.cursor + s.bit) n) →
      Post P Q U (k { s with buf := b, cursor := c, bit := o }))
    (h2 : writeBits s.buf s.be s.cursor s.bit v n = none → U .shift) :
    Post P Q U (putBits s v n k) := by
  unfold putBits
  split
  · rename_i h; exact h2 h
  · rename_i b c o h
    refine h1 b c o h fun hb => ?_
    have := writeBits_spec _ _ _ _ _ _ hb h
    exact ⟨this.1, this.2.1, this.2.2.1⟩

theorem post_getBits {n : Nat} {k : Word → St σ → Res σ}
    (h1 : ∀ v c o, readBits s.buf s.be s.cursor s.bit n = some (v, c, o) →
      (s.bit < 8 → o < 8 ∧
        8 * c + o = 8 * s.cursor + s.bit + room s.buf.length (8 * s.cursor + s.bit) n) →
      Post P Q U (k v { s with cursor := c, bit := o }))
    (h2 : readBits s.buf s.be s.cursor s.bit n = none → U .shift) :
    Post P Q U (getBits s n k) := by
  unfold getBits
  split
  · rename_i h; exact h2 h
  · rename_i v c o h
    exact h1 v c o h fun hb => readBits_pos _ _ _ _ _ hb h

theorem post_goto {base : Nat} {off : Word}
    (h1 : ∀ t, branch E.prog.length base off = some t → P { s with ip := t })
    (h2 : branch E.prog.length base off = none → Q .oob s) : Post P Q U (goto E s base off) := by
  unfold goto
  split
  · rename_i h; exact h2 h
  · rename_i t h; exact h1 t h

theorem post_push {v : Word}
    (h1 : s.stack.length < maxDepth → P { s with stack := v :: s.stack })
    (h2 : maxDepth ≤ s.stack.length → Q .stackOverflow s) : Post P Q U (push s v) := by
  unfold push
  split
  · rename_i h; exact h2 h
  · rename_i h; exact h1 (by omega)

theorem post_aluDone {a : Alu} (h1 : ∀ v, a = .val v → Post P Q U (push s v))
    (h2 : ∀ e, a = .err e → Q e s) (h3 : ∀ u, a = .ub u → U u) : Post P Q U (aluDone s a) := by
  cases a with
  | val v => exact h1 v rfl
  | err e => exact h2 e rfl
  | ub u => exact h3 u rfl

theorem post_binary {f : Word → Word → Alu}
    (h1 : ∀ a b rest, s.stack = b :: a :: rest → Post P Q U (aluDone { s with stack := rest } (f a b)))
    (h2 : s.stack = [] → Q .stackUnderflow s)
    (h3 : ∀ b, s.stack = [b] → Q .stackUnderflow { s with stack := [] }) :
    Post P Q U (binary s f) := by
  unfold binary
  split
  · rename_i h; exact h2 h
  · rename_i b h; exact h3 b h
  · rename_i b a rest h; exact h1 a b rest h

theorem post_unary {f : Word → Alu}
    (h1 : ∀ a rest, s.stack = a :: rest → Post P Q U (aluDone { s with stack := rest } (f a)))
    (h2 : s.stack = [] → Q .stackUnderflow s) : Post P Q U (unary s f) := by
  unfold unary
  split
  · rename_i h; exact h2 h
  · rename_i a rest h; exact h1 a rest h

theorem post_pushLoop {count : Nat}
    (h1 : s.loops.length < maxDepth → P { s with loops := ⟨s.ip, count⟩ :: s.loops })
    (h2 : maxDepth ≤ s.loops.length → Q .oob s) : Post P Q U (pushLoop s count) := by
  unfold pushLoop
  split
  · rename_i h; exact h2 h
  · rename_i h; exact h1 (by omega)

/-- Rule for array entry: skipped, handed over in bulk, or looped (also after a declined bulk call). -/
theorem post_enterArray {count : Nat}
    (h0 : count = 0 → P { s with ip := skipBody E.prog s.ip })
    (h1 : ∀ h b key, 0 < count → s.cursor + count ≤ s.buf.length →
      s.ip + 3 < E.prog.length →
      E.host.bytesAt s.host key 0x39 s.be s.buf s.cursor = (true, b, h) →
      P { s with host := h, buf := hostBuf s.buf b, cursor := s.cursor + count, ip := s.ip + 4 })
    (h2 : ∀ h b key, 0 < count →
      E.host.bytesAt s.host key 0x39 s.be s.buf s.cursor = (false, b, h) →
      Post P Q U (pushLoop { s with host := h, buf := hostBuf s.buf b } count))
    (h3 : 0 < count → Post P Q U (pushLoop s count)) : Post P Q U (enterArray E s count) := by
  unfold enterArray
  split
  · rename_i h; exact h0 h
  · rename_i hc
    have hpos : 0 < count := by omega
    split
    · rename_i nextOp afterOp hn ha
      have hlt := (List.getElem?_eq_some_iff.1 ha).1
      split
      · rename_i hcond
        simp only [Bool.and_eq_true, decide_eq_true_eq] at hcond
        apply post_callAt
        · intro h b hh
          exact h1 h b _ hpos hcond.2 hlt hh
        · intro h b hh
          exact h2 h b _ hpos hh
      · exact h3 hpos
    · exact h3 hpos

end

/-- Apply the rule for the outermost combinator. -/
macro "vm_rule" : tactic => `(tactic| first
  | with_reducible apply post_fet
  | with_reducible apply post_callScalar
  | with_reducible apply post_callNotify
  | with_reducible apply post_callStr
  | with_reducible apply post_callAt
  | with_reducible apply post_rdAt
  | with_reducible apply post_wrAt
  | with_reducible apply post_wrRaw
  | with_reducible apply post_putBits
  | with_reducible apply post_getBits
  | with_reducible apply post_goto
  | with_reducible apply post_enterArray
  | with_reducible apply post_pushLoop
  | with_reducible apply post_binary
  | with_reducible apply post_unary
  | with_reducible apply post_aluDone
  | with_reducible apply post_push
  | with_reducible apply post_run
  | with_reducible apply post_stop
  | with_reducible apply post_ub)

/-- Reduce a postcondition of an instruction to conditions on its exits. -/
macro "vm_sweep" : tactic => `(tactic|
  repeat' (first | intro _ | vm_rule | split | with_reducible trivial))

theorem fetch_ip (prog : List Byte) (ip n : Nat) :
    (fetch prog ip n).2 = ip ∨ ((fetch prog ip n).2 = ip + n ∧ ip + n ≤ prog.length) := by
  unfold fetch; split <;> simp_all

theorem fetch_ip_ge (prog : List Byte) (ip n : Nat) : ip ≤ (fetch prog ip n).2 := by
  rcases fetch_ip prog ip n with h | h <;> omega

theorem fetch_ip_le (prog : List Byte) (ip n : Nat) (h : ip ≤ prog.length) :
    (fetch prog ip n).2 ≤ prog.length := by
  rcases fetch_ip prog ip n with h | h <;> omega

theorem fetch_lt (prog : List Byte) (ip n : Nat) (hn : n ≤ 8) :
    (fetch prog ip n).1.toNat < 256 ^ n := by
  unfold fetch
  split
  · simp only
    rw [toNat_leWord _ (by simp; omega)]
    have h := leNat_lt ((prog.drop ip).take n)
    refine Nat.lt_of_lt_of_le h (Nat.pow_le_pow_right (by omega) (by simp; omega))
  · simp only [BitVec.ofNat_eq_ofNat, BitVec.toNat_ofNat, Nat.zero_mod]
    exact Nat.pow_pos (by omega)

theorem takeWhile_window (buf : List Byte) (c m : Nat) (p : Byte → Bool) :
    (((buf.drop c).take m).takeWhile p).length ≤ buf.length - c := by
  have h1 := (List.takeWhile_sublist p (l := (buf.drop c).take m)).length_le
  simp at h1; omega

/-- Which instructions are preceded by the alignment step. -/
def Op.aligned : Op → Bool
  | .io _ | .ioF32 | .ioF64 | .ioBool => true
  | .strNull | .strPre _ | .arrFixed | .arrPre _ | .arrEnd | .rawBytes | .arrEof | .arrDynamic => true
  | .constCheck | .constWrite | .crc16 | .crc32 | .enumCheck | .transPoly | .transSpline => true
  | _ => false

theorem aligns_decodeOp (b : Byte) (h : decodeOp b ≠ .other) : aligns b = (decodeOp b).aligned := by
  have H : ∀ b : Byte, decodeOp b ≠ .other → aligns b = (decodeOp b).aligned := by decide +kernel
  exact H b h

theorem alignSt_bit (op : Byte) (s : St σ) (h : aligns op = true) : (alignSt op s).bit = 0 := by
  unfold alignSt
  split
  · rfl
  · rename_i hn
    simp [h] at hn
    exact hn

end Cnd
