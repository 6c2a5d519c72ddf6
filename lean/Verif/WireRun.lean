import Verif.SchemaRun
import Verif.Wire
/-
  What the encoder has written, against the wire format (used for C52, C61, C79).
-/

namespace Cnd

/-- The encoder stands at place `p` of a record whose events are `tot`. -/
structure Here (p : P) (tot : List Ev) (s : St Tape) : Prop where
  bit : s.bit < 8
  pos : 8 * s.cursor + s.bit = p.pos
  be : s.be = p.be
  trans : s.trans = .none
  host : ∃ rest, s.host = ⟨p.evs, rest⟩ ∧ tot = p.evs ++ rest

/-- The encoder has gone from `s` to `s1`, place `q`, over `n` bytes of code. -/
structure Did (E : Env Tape) (K : View) (tot : List Ev) (s s1 : St Tape) (q : P) (n : Nat) : Prop where
  run : RunS E (fun k => K k = true) s s1
  here : Here q tot s1
  ip : s1.ip = s.ip + n
  loops : s1.loops = s.loops
  stack : s1.stack = s.stack
  len : s1.buf.length = s.buf.length

theorem Here.fieldPos {p : P} {tot : List Ev} {s : St Tape} (h : Here p tot s) : 8 * s.fieldPos = up8 p.pos := by
  have := h.bit
  have := h.pos
  unfold St.fieldPos up8
  split <;> omega

theorem Here.byte {p : P} {tot : List Ev} {s : St Tape} (h : Here p tot s) : s.fieldPos = p.byte := by
  have := h.fieldPos
  unfold up8 at this
  unfold P.byte
  omega

/-- What the encoder has written from `s`, place `p`, to `s1`, place `q`, is on the wire as `W` says; and if it was there before, nothing
has changed. -/
structure Wrote (W : List Byte → P → P → Prop) (s s1 : St Tape) (p q : P) : Prop where
  wire : ∀ D, Agree s1 D → q.pos ≤ 8 * D.length → W D p q
  keep : W s.buf p q → s1.buf = s.buf

theorem Wrote.mono {W W' : List Byte → P → P → Prop} {s s1 : St Tape} {p q : P} (h : Wrote W s s1 p q)
    (h1 : ∀ D, W D p q → W' D p q) (h2 : W' s.buf p q → W s.buf p q) : Wrote W' s s1 p q :=
  ⟨fun D a b => h1 D (h.wire D a b), fun w => h.keep (h2 w)⟩

/-- Nothing written. -/
theorem Wrote.none {W : List Byte → P → P → Prop} {s s1 : St Tape} {p q : P} (hb : s1.buf = s.buf) (h : ∀ D, W D p q) : Wrote W s s1 p q :=
  ⟨fun D _ _ => h D, fun _ => hb⟩

/-! ### Agreement, backwards over a run -/

theorem RunS.agree_back {σ : Type} {E : Env σ} {K : Nat → Prop} (hq : Quiet E.host) {s s1 : St σ} (h : RunS E K s s1) (hi : Inv s) {D : List Byte}
    (hA : Agree s1 D) : Agree s D := by
  induction h with
  | refl => exact hA
  | @step s s1 s2 op hop hF hst hr ih =>
    have i1 := ih (step_inv hi hst) hA
    apply Cnd.agree_back hq hi hop _ _ _ _ hst i1
    all_goals
      intro h
      unfold Side at hF
      simp only [h] at hF
    · exact hF.1
    · rw [(pre_fields op s).2.2.1] at hF; exact hF
    · rw [(pre_fields op s).2.2.1] at hF; exact hF

/-! ### Bytes -/

theorem bytesAt_agree {s1 : St Tape} {D b0 bs : List Byte} {p : Nat} (hA : Agree s1 D) (hst : store b0 p bs = some s1.buf)
    (hp : p + bs.length ≤ s1.cursor) : BytesAt D p bs := by
  intro i hi
  obtain ⟨h1, h2⟩ := store_eq_some.1 hst
  rw [agree_byte hA (by omega), h2]
  exact getElem?_splice_mid h1 hi

theorem bytesAt_append {D : List Byte} {p : Nat} {a b : List Byte} (h1 : BytesAt D p a) (h2 : BytesAt D (p + a.length) b) :
    BytesAt D p (a ++ b) := by
  intro i hi
  rw [List.length_append] at hi
  rcases Nat.lt_or_ge i a.length with h | h
  · rw [List.getElem?_append_left h]; exact h1 i h
  · rw [List.getElem?_append_right h, ← h2 (i - a.length) (by omega)]
    congr 1
    omega

theorem fieldAt_bytesAt {be : Bool} {D : List Byte} {p n : Nat} {w : Word} :
    FieldAt be D p n w.toNat ↔ BytesAt D p (wrBytes be n w) := by
  constructor
  · intro h i hi
    rw [wrBytes_length] at hi
    have e1 := h (if be then n - 1 - i else i) (by split <;> omega)
    have e2 := wrBytes_getElem? be n w (if be then n - 1 - i else i) (by split <;> omega)
    have : (if be then n - 1 - (if be then n - 1 - i else i) else (if be then n - 1 - i else i)) = i := by
      cases be <;> simp; omega
    rw [this] at e1 e2
    rw [e1, e2]
  · intro h i hi
    have e2 := wrBytes_getElem? be n w i hi
    rw [← e2]
    exact h _ (by rw [wrBytes_length]; split <;> omega)

theorem store_same {buf b bs : List Byte} {p : Nat} (hst : store buf p bs = some b) (h : BytesAt buf p bs) : b = buf := by
  obtain ⟨h1, rfl⟩ := store_eq_some.1 hst
  apply List.ext_getElem?
  intro i
  rcases Nat.lt_or_ge i p with hi | hi
  · exact getElem?_splice_lt h1 hi
  rcases Nat.lt_or_ge i (p + bs.length) with hj | hj
  · obtain ⟨k, rfl⟩ : ∃ k, i = p + k := ⟨i - p, by omega⟩
    rw [getElem?_splice_mid h1 (by omega), h k (by omega)]
  · exact getElem?_splice_ge h1 hj

section
variable {tot : List Ev} {p q : P} {s s1 : St Tape} {W : List Byte → P → P → Prop}

/-- One string of bytes at the next byte. -/
theorem wrote_bytes {bs : List Byte} (h : Here p tot s) (hst : store s.buf s.fieldPos bs = some s1.buf)
    (hc : s.fieldPos + bs.length ≤ s1.cursor) (h1 : ∀ D, BytesAt D p.byte bs → W D p q)
    (h2 : W s.buf p q → BytesAt s.buf p.byte bs) : Wrote W s s1 p q := by
  rw [h.byte] at hst hc
  exact ⟨fun D hA _ => h1 D (bytesAt_agree hA hst hc), fun w => store_same hst (h2 w)⟩

/-- One number at the next byte. -/
theorem wrote_num {n : Nat} {w : Word} (h : Here p tot s) (hst : store s.buf s.fieldPos (wrBytes p.be n w) = some s1.buf)
    (hc : s.fieldPos + n ≤ s1.cursor) (h1 : ∀ D, FieldAt p.be D p.byte n w.toNat → W D p q)
    (h2 : W s.buf p q → FieldAt p.be s.buf p.byte n w.toNat) : Wrote W s s1 p q :=
  wrote_bytes h hst (by rw [wrBytes_length]; exact hc) (fun D hb => h1 D (fieldAt_bytesAt.2 hb)) (fun w => fieldAt_bytesAt.1 (h2 w))

theorem buf_of_bits (be : Bool) {a b : List Byte} (h : ∀ k, bitAt be a k = bitAt be b k) : a = b :=
  List.ext_getElem? fun i => byte_of_bits be a b i fun k _ => h _

/-- One bit field. -/
theorem wrote_bits {n : Nat} {v : Word} (h : Here p tot s)
    (hw : writeBits s.buf s.be s.cursor s.bit v n = some (s1.buf, s1.cursor, s1.bit)) (hbe : s1.be = s.be)
    (hroom : p.pos + n ≤ 8 * s.buf.length)
    (h1 : ∀ D, BitsIn p.be D p.pos n v → W D p q) (h2 : W s.buf p q → BitsIn p.be s.buf p.pos n v) : Wrote W s s1 p q := by
  obtain ⟨e1, e2, e3, e4⟩ := writeBits_spec s.be v n s.buf s.cursor s.bit h.bit hw
  have hp := h.pos
  have hr : room s.buf.length (8 * s.cursor + s.bit) n = n := by simp only [room]; omega
  rw [hr, hp] at e3 e4
  rw [h.be] at e4
  constructor
  · intro D hA _
    refine h1 D fun i hi => ?_
    have := hA (p.pos + i) (by omega)
    rw [hbe, h.be] at this
    rw [this, e4, if_pos ⟨by omega, by omega⟩, show p.pos + i - p.pos = i by omega]
    rfl
  · intro w
    have hb := h2 w
    refine buf_of_bits p.be fun k => ?_
    rw [e4]
    split
    · rename_i hk
      have := hb (k - p.pos) (by omega)
      rw [show p.pos + (k - p.pos) = k by omega] at this
      rw [this]
      rfl
    · rfl

/-- One part after the other. -/
theorem wrote_seq {W1 W2 : List Byte → P → P → Prop} {m : P} {s2 : St Tape} (w1 : Wrote W1 s s1 p m) (w2 : Wrote W2 s1 s2 m q)
    (hback : ∀ D, Agree s2 D → Agree s1 D) (hpos : m.pos ≤ q.pos) (hdet : ∀ m', W1 s.buf p m' → W2 s.buf m' q → m' = m) :
    Wrote (fun D p q => ∃ m, W1 D p m ∧ W2 D m q) s s2 p q := by
  constructor
  · intro D hA hD
    exact ⟨m, w1.wire D (hback D hA) (by omega), w2.wire D hA hD⟩
  · rintro ⟨m', h1, h2⟩
    have e := hdet m' h1 h2
    subst e
    have e1 := w1.keep h1
    rw [← e1] at h2
    exact (w2.keep h2).trans e1

theorem Here.inv (h : Here p tot s) (hk : s.stack = []) (hl : s.loops.length ≤ 8) : Inv s := ⟨h.bit, by simp [hk], hl⟩

end

end Cnd
