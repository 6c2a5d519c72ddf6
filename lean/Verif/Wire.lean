import Verif.Schema
/-
  The wire format of packet descriptions (C79): which bytes of a packet hold which part of a record. A specification, no model of code.
-/

namespace Cnd

/-- The first byte that begins at a place or after it. -/
def P.byte (p : P) : Nat := (p.pos + 7) / 8

/-- The low `n` bits of `v` are in `D` from bit `pos` on: most significant first if big-endian (bits of a byte counted from the
top), least significant first if little-endian (counted from the bottom). -/
def BitsIn (be : Bool) (D : List Byte) (pos n : Nat) (v : Word) : Prop :=
  ∀ i, i < n → bitAt be D (pos + i) = some (v.toNat.testBit (if be then n - 1 - i else i))

/-- The checksum of `data` by the parameters of `c` (polynomial division; the initial value as the code takes it, see C25). -/
def CrcPar.check (c : CrcPar) (data : List Byte) : Nat :=
  textbookCrc (8 * c.size) c.poly.toNat c.start c.xorout.toNat (c.flags.getLsbD 0) (c.flags.getLsbD 1) data

/-- `Wire K D f p q`: a record that fits `f` (as in `Rec`) is in the packet `D` from place `p` to place `q`. Numbers are at the next
byte boundary in the byte order of the place, strings are their bytes after their length or before a NUL, bit fields
are at the next bit, padding is zero, filling is all zero or all one, a checksum is that of all bytes before it. -/
def Wire (K : View) (D : List Byte) : Fld → P → P → Prop
  | .empty, p, q => q = p
  | .seq a b, p, q => ∃ m, Wire K D a p m ∧ Wire K D b m q
  | .scalar op k0 k1, p, q => ∃ n v, scalarWidth op.toNat = some n ∧ ScalarVal op n v ∧ K (keyNum k0 k1) = false ∧
      FieldAt p.be D p.byte n v.toNat ∧ q = p.bytes n [.num (keyNum k0 k1) op v]
  | .range t k0 k1 lo hi, p, q => ∃ v : Word, v.toNat < 2 ^ (8 * t.size) ∧
      lo.toNat < 2 ^ (8 * t.size) ∧ hi.toNat < 2 ^ (8 * t.size) ∧
      t.val lo.toNat ≤ t.val v.toNat ∧ t.val v.toNat ≤ t.val hi.toNat ∧ K (keyNum k0 k1) = false ∧
      FieldAt p.be D p.byte t.size v.toNat ∧ q = p.bytes t.size [.num (keyNum k0 k1) t.tag v]
  | .enum t k0 k1 vals, p, q => ∃ v : Word, v ∈ vals ∧ (∀ x ∈ vals, x.toNat < 2 ^ (8 * t.size)) ∧
      vals.length < 2 ^ 16 ∧ K (keyNum k0 k1) = false ∧
      FieldAt p.be D p.byte t.size v.toNat ∧ q = p.bytes t.size [.num (keyNum k0 k1) t.tag v]
  | .const t k0 k1 c, p, q => c.toNat < 2 ^ (8 * t.size) ∧ K (keyNum k0 k1) = true ∧
      FieldAt p.be D p.byte t.size c.toNat ∧ q = p.bytes t.size []
  | .strNull k0 k1 m0 m1, p, q => ∃ bs, NulFree bs ∧ bs.length ≤ keyNum m0 m1 ∧
      BytesAt D p.byte (bs ++ [0]) ∧ q = p.bytes (bs.length + 1) [.str (keyNum k0 k1) 0x30 bs]
  | .strPre r k0 k1, p, q => ∃ bs, NulFree bs ∧ bs.length < 2 ^ (8 * r.size) ∧
      FieldAt p.be D p.byte r.size bs.length ∧ BytesAt D (p.byte + r.size) bs ∧
      q = p.bytes (r.size + bs.length) [.str (keyNum k0 k1) r.strOp bs]
  | .bitU k0 k1 n, p, q => ∃ v : Word, n.toNat ≤ 64 ∧ v.toNat < 2 ^ n.toNat ∧ K (keyNum k0 k1) = false ∧
      BitsIn p.be D p.pos n.toNat v ∧ q = p.bits n.toNat [.num (keyNum k0 k1) 0x20 v]
  | .bitI k0 k1 n, p, q => ∃ v : Word, 0 < n.toNat ∧ n.toNat ≤ 64 ∧
      -(2 ^ (n.toNat - 1) : Int) ≤ v.toInt ∧ v.toInt < 2 ^ (n.toNat - 1) ∧ K (keyNum k0 k1) = false ∧
      BitsIn p.be D p.pos n.toNat v ∧ q = p.bits n.toNat [.num (keyNum k0 k1) 0x21 v]
  | .bitBool k0 k1, p, q => ∃ v : Word, v.toNat ≤ 1 ∧ K (keyNum k0 k1) = false ∧
      BitsIn p.be D p.pos 1 v ∧ q = p.bits 1 [.num (keyNum k0 k1) 0x22 v]
  | .pad n, p, q => n.toNat ≤ 64 ∧ BitsIn p.be D p.pos n.toNat 0 ∧ q = p.bits n.toNat []
  | .fill b, p, q => (∀ i, p.pos ≤ i → i < 8 * p.byte → bitAt p.be D i = some (decide (b ≠ 0))) ∧ q = p.bytes 0 []
  | .setLE, p, q => (p.pos % 8 = 0 ∨ p.be = false) ∧ q = ⟨p.pos, false, p.evs⟩
  | .setBE, p, q => (p.pos % 8 = 0 ∨ p.be = true) ∧ q = ⟨p.pos, true, p.evs⟩
  | .nop, p, q | .enterBit, p, q | .version _, p, q | .name _ _, p, q => q = p
  | .exitBit, p, q => p.pos % 8 = 0 ∧ q = p
  | .struct k0 k1 f, p, q => ∃ m, Wire K D f (p.bits 0 [.note (keyNum k0 k1) 0x03]) m ∧ q = m.bits 0 [.note 0 0x04]
  | .arrFixed k0 k1 n f, p, q => n.toNat < 0xFFFFFFFF ∧ K (keyNum k0 k1) = false ∧
      ArrBody (Wire K D f) f.code n.toNat (p.bytes 0 [.num (keyNum k0 k1) 0x34 n]) q
  | .arrPre r k0 k1 f, p, q => ∃ n : Word, n.toNat < 2 ^ (8 * r.size) ∧ n.toNat < 0xFFFFFFFF ∧
      K (keyNum k0 k1) = false ∧ FieldAt p.be D p.byte r.size n.toNat ∧
      ArrBody (Wire K D f) f.code n.toNat (p.bytes r.size [.num (keyNum k0 k1) r.arrOp n]) q
  | .arrDyn k0 k1 r0 r1 f, p, q => ∃ n : Word, K.look (keyNum r0 r1) p.evs = some n ∧ n.toNat < 0xFFFFFFFF ∧
      K (keyNum k0 k1) = false ∧ K (keyNum r0 r1) = false ∧
      ArrBody (Wire K D f) f.code n.toNat (p.bytes 0 [.num (keyNum k0 k1) 0x3B n]) q
  | .crc c, p, q => c.ok ∧ FieldAt p.be D p.byte c.size (c.check (D.take p.byte)) ∧ q = p.bytes c.size []

/-! ### A record on the wire is a record -/

theorem reps_mono {R R' : P → P → Prop} (h : ∀ p q, R p q → R' p q) : ∀ n p q, Reps R n p q → Reps R' n p q
  | 0, _, _, e => e
  | n + 1, _, _, ⟨m, h1, h2⟩ => ⟨m, h _ _ h1, reps_mono h n _ _ h2⟩

theorem arrBody_mono {R R' : P → P → Prop} (h : ∀ p q, R p q → R' p q) {code : List Byte} {n : Nat} {p q : P}
    (hb : ArrBody R code n p q) : ArrBody R' code n p q := by
  unfold ArrBody at hb ⊢
  split
  · rename_i h0; rw [if_pos h0] at hb; exact hb
  · rename_i h0
    rw [if_neg h0] at hb
    obtain ⟨m, h1, h2⟩ := hb
    exact ⟨m, reps_mono h n _ _ h1, h2⟩

theorem wire_rec (K : View) (D : List Byte) (f : Fld) : ∀ p q, Wire K D f p q → Rec K f p q := by
  induction f with
  | seq a b iha ihb => rintro p q ⟨m, h1, h2⟩; exact ⟨m, iha _ _ h1, ihb _ _ h2⟩
  | scalar => rintro p q ⟨n, v, h1, h2, h3, _, h4⟩; exact ⟨n, v, h1, h2, h3, h4⟩
  | range => rintro p q ⟨v, h1, h2, h3, h4, h5, h6, _, h7⟩; exact ⟨v, h1, h2, h3, h4, h5, h6, h7⟩
  | enum => rintro p q ⟨v, h1, h2, h3, h4, _, h5⟩; exact ⟨v, h1, h2, h3, h4, h5⟩
  | const => rintro p q ⟨h1, h2, _, h3⟩; exact ⟨h1, h2, h3⟩
  | strNull => rintro p q ⟨v, h1, h2, _, h3⟩; exact ⟨v, h1, h2, h3⟩
  | strPre => rintro p q ⟨v, h1, h2, _, _, h3⟩; exact ⟨v, h1, h2, h3⟩
  | bitU => rintro p q ⟨v, h1, h2, h3, _, h4⟩; exact ⟨v, h1, h2, h3, h4⟩
  | bitI => rintro p q ⟨v, h1, h2, h3, h4, h5, _, h6⟩; exact ⟨v, h1, h2, h3, h4, h5, h6⟩
  | bitBool => rintro p q ⟨v, h1, h2, _, h3⟩; exact ⟨v, h1, h2, h3⟩
  | pad => rintro p q ⟨h1, _, h2⟩; exact ⟨h1, h2⟩
  | fill => rintro p q ⟨_, h⟩; exact h
  | struct k0 k1 f ih => rintro p q ⟨m, h1, h2⟩; exact ⟨m, ih _ _ h1, h2⟩
  | arrFixed k0 k1 n f ih => rintro p q ⟨h1, h2, h3⟩; exact ⟨h1, h2, arrBody_mono ih h3⟩
  | arrPre r k0 k1 f ih => rintro p q ⟨n, h1, h2, h3, _, h4⟩; exact ⟨n, h1, h2, h3, arrBody_mono ih h4⟩
  | arrDyn k0 k1 r0 r1 f ih => rintro p q ⟨n, h1, h2, h3, h4, h5⟩; exact ⟨n, h1, h2, h3, h4, arrBody_mono ih h5⟩
  | crc => rintro p q ⟨h1, _, h2⟩; exact ⟨h1, h2⟩
  | empty | setLE | setBE | nop | enterBit | exitBit | version | name => exact fun _ _ h => h

/-! ### The events say where a record ends -/

/-- Two records that begin at one place, and whose events begin `tot`, are the same. -/
def Det (R : P → P → Prop) : Prop :=
  ∀ (tot : List Ev) (p q q' : P), R p q → R p q' → (∃ r, tot = q.evs ++ r) → (∃ r, tot = q'.evs ++ r) → q = q'

theorem ev_same {tot l r r' : List Ev} {e e' : Ev} (h : tot = (l ++ [e]) ++ r) (h' : tot = (l ++ [e']) ++ r') : e = e' := by
  rw [h, List.append_assoc, List.append_assoc] at h'
  have := List.append_cancel_left h'
  simp only [List.singleton_append, List.cons.injEq] at this
  exact this.1

/-- Places only move forward, events are only added. -/
def Fwd (R : P → P → Prop) : Prop := ∀ p q, R p q → p.pos ≤ q.pos ∧ ∃ es, q.evs = p.evs ++ es

theorem up8_ge (n : Nat) : n ≤ up8 n := by unfold up8; omega

theorem fwd_bytes (p : P) (n : Nat) (es : List Ev) :
    p.pos ≤ (p.bytes n es).pos ∧ ∃ es', (p.bytes n es).evs = p.evs ++ es' :=
  ⟨by have := up8_ge p.pos; simp only [P.bytes]; omega, es, rfl⟩

theorem fwd_bits (p : P) (n : Nat) (es : List Ev) :
    p.pos ≤ (p.bits n es).pos ∧ ∃ es', (p.bits n es).evs = p.evs ++ es' :=
  ⟨by simp only [P.bits]; omega, es, rfl⟩

theorem fwd_trans {a b c : P} (h1 : a.pos ≤ b.pos ∧ ∃ es, b.evs = a.evs ++ es)
    (h2 : b.pos ≤ c.pos ∧ ∃ es, c.evs = b.evs ++ es) : a.pos ≤ c.pos ∧ ∃ es, c.evs = a.evs ++ es := by
  obtain ⟨h1, e1, x1⟩ := h1
  obtain ⟨h2, e2, x2⟩ := h2
  exact ⟨by omega, e1 ++ e2, by rw [x2, x1, List.append_assoc]⟩

theorem fwd_refl (p : P) : p.pos ≤ p.pos ∧ ∃ es, p.evs = p.evs ++ es := ⟨Nat.le_refl _, [], by simp⟩

theorem fwd_reps {R : P → P → Prop} (hR : Fwd R) (n : Nat) : Fwd (Reps R n) := by
  induction n with
  | zero => rintro p q rfl; exact fwd_refl _
  | succ n ih =>
    rintro p q ⟨m, h1, h2⟩
    exact fwd_trans (hR _ _ h1) (fwd_trans (fwd_bytes _ _ _) (ih _ _ h2))

theorem fwd_arr {R : P → P → Prop} (hR : Fwd R) (code : List Byte) (n : Nat) : Fwd (ArrBody R code n) := by
  intro p q h
  unfold ArrBody at h
  split at h
  · obtain ⟨_, rfl⟩ := h; exact fwd_refl _
  · obtain ⟨m, h1, rfl⟩ := h
    exact fwd_trans (fwd_reps hR n _ _ h1) (fwd_bytes _ _ _)

/-- The events so far begin the whole record's. -/
theorem starts_of_fwd {p q : P} {tot : List Ev} (h : p.pos ≤ q.pos ∧ ∃ es, q.evs = p.evs ++ es) (ht : ∃ r, tot = q.evs ++ r) :
    ∃ r, tot = p.evs ++ r := by
  obtain ⟨_, es, hes⟩ := h
  obtain ⟨r, hr⟩ := ht
  exact ⟨es ++ r, by rw [hr, hes, List.append_assoc]⟩

theorem rec_fwd {K : View} (f : Fld) : Fwd (Rec K f) := by
  induction f with
  | empty => rintro p q rfl; exact fwd_refl _
  | seq a b iha ihb => rintro p q ⟨m, h1, h2⟩; exact fwd_trans (iha _ _ h1) (ihb _ _ h2)
  | scalar => rintro p q ⟨_, _, _, _, _, rfl⟩; exact fwd_bytes _ _ _
  | range => rintro p q ⟨_, _, _, _, _, _, _, rfl⟩; exact fwd_bytes _ _ _
  | enum => rintro p q ⟨_, _, _, _, _, rfl⟩; exact fwd_bytes _ _ _
  | const => rintro p q ⟨_, _, rfl⟩; exact fwd_bytes _ _ _
  | strNull => rintro p q ⟨_, _, _, rfl⟩; exact fwd_bytes _ _ _
  | strPre => rintro p q ⟨_, _, _, rfl⟩; exact fwd_bytes _ _ _
  | bitU => rintro p q ⟨_, _, _, _, rfl⟩; exact fwd_bits _ _ _
  | bitI => rintro p q ⟨_, _, _, _, _, _, rfl⟩; exact fwd_bits _ _ _
  | bitBool => rintro p q ⟨_, _, _, rfl⟩; exact fwd_bits _ _ _
  | pad => rintro p q ⟨_, rfl⟩; exact fwd_bits _ _ _
  | fill => rintro p q rfl; exact fwd_bytes _ _ _
  | setLE => rintro p q ⟨_, rfl⟩; exact ⟨Nat.le_refl _, [], by simp⟩
  | setBE => rintro p q ⟨_, rfl⟩; exact ⟨Nat.le_refl _, [], by simp⟩
  | nop => rintro p q rfl; exact fwd_refl _
  | enterBit => rintro p q rfl; exact fwd_refl _
  | exitBit => rintro p q ⟨_, rfl⟩; exact fwd_refl _
  | version => rintro p q rfl; exact fwd_refl _
  | name => rintro p q rfl; exact fwd_refl _
  | struct k0 k1 f ih =>
    rintro p q ⟨m, h1, rfl⟩
    exact fwd_trans (fwd_bits _ _ _) (fwd_trans (ih _ _ h1) (fwd_bits _ _ _))
  | arrFixed k0 k1 n f ih =>
    rintro p q ⟨_, _, h⟩
    exact fwd_trans (fwd_bytes _ _ _) (fwd_arr ih _ _ _ _ h)
  | arrPre r k0 k1 f ih =>
    rintro p q ⟨_, _, _, _, h⟩
    exact fwd_trans (fwd_bytes _ _ _) (fwd_arr ih _ _ _ _ h)
  | arrDyn k0 k1 r0 r1 f ih =>
    rintro p q ⟨_, _, _, _, _, h⟩
    exact fwd_trans (fwd_bytes _ _ _) (fwd_arr ih _ _ _ _ h)
  | crc => rintro p q ⟨_, rfl⟩; exact fwd_bytes _ _ _

theorem det_reps {R : P → P → Prop} (hF : Fwd R) (hR : Det R) (n : Nat) : Det (Reps R n) := by
  induction n with
  | zero => rintro tot p q q' rfl rfl _ _; rfl
  | succ n ih =>
    rintro tot p q q' ⟨m, h1, h2⟩ ⟨m', h1', h2'⟩ ht ht'
    have e := hR tot p m m' h1 h1' (starts_of_fwd (fwd_trans (fwd_bytes m 0 []) (fwd_reps hF n _ _ h2)) ht)
      (starts_of_fwd (fwd_trans (fwd_bytes m' 0 []) (fwd_reps hF n _ _ h2')) ht')
    subst e
    exact ih tot _ q q' h2 h2' ht ht'

theorem det_arr {R : P → P → Prop} (hF : Fwd R) (hR : Det R) (code : List Byte) (n : Nat) : Det (ArrBody R code n) := by
  intro tot p q q' h h' ht ht'
  unfold ArrBody at h h'
  split at h
  · rename_i h0
    rw [if_pos h0] at h'
    rw [h.2, h'.2]
  · rename_i h0
    rw [if_neg h0] at h'
    obtain ⟨m, h1, rfl⟩ := h
    obtain ⟨m', h1', rfl⟩ := h'
    have e := det_reps hF hR n tot p m m' h1 h1' (starts_of_fwd (fwd_bytes m 0 _) ht) (starts_of_fwd (fwd_bytes m' 0 _) ht')
    rw [e]

/-- An event whose content is fixed by the following ones. -/
theorem num_same {tot : List Ev} {p : P} {n n' k : Nat} {op : Byte} {v v' : Word}
    (ht : ∃ r, tot = (p.bytes n [.num k op v]).evs ++ r) (ht' : ∃ r, tot = (p.bytes n' [.num k op v']).evs ++ r) : v = v' := by
  obtain ⟨r, h⟩ := ht
  obtain ⟨r', h'⟩ := ht'
  have := ev_same (l := p.evs) h h'
  simpa using this

theorem rec_det (K : View) (f : Fld) : Det (Rec K f) := by
  induction f with
  | empty => rintro tot p q q' rfl rfl _ _; rfl
  | seq a b iha ihb =>
    rintro tot p q q' ⟨m, h1, h2⟩ ⟨m', h1', h2'⟩ ht ht'
    have e := iha tot p m m' h1 h1' (starts_of_fwd (rec_fwd b _ _ h2) ht) (starts_of_fwd (rec_fwd b _ _ h2') ht')
    subst e
    exact ihb tot m q q' h2 h2' ht ht'
  | scalar op k0 k1 =>
    rintro tot p q q' ⟨n, v, h1, _, _, rfl⟩ ⟨n', v', h1', _, _, rfl⟩ ht ht'
    rw [h1] at h1'
    injection h1' with h1'
    subst h1'
    rw [num_same ht ht']
  | range t k0 k1 lo hi =>
    rintro tot p q q' ⟨v, _, _, _, _, _, _, rfl⟩ ⟨v', _, _, _, _, _, _, rfl⟩ ht ht'
    rw [num_same ht ht']
  | enum t k0 k1 vals =>
    rintro tot p q q' ⟨v, _, _, _, _, rfl⟩ ⟨v', _, _, _, _, rfl⟩ ht ht'
    rw [num_same ht ht']
  | const => rintro tot p q q' ⟨_, _, rfl⟩ ⟨_, _, rfl⟩ _ _; rfl
  | strNull k0 k1 m0 m1 =>
    rintro tot p q q' ⟨v, _, _, rfl⟩ ⟨v', _, _, rfl⟩ ⟨r, h⟩ ⟨r', h'⟩
    have := ev_same (l := p.evs) h h'
    simp only [Ev.str.injEq, true_and] at this
    rw [this]
  | strPre t k0 k1 =>
    rintro tot p q q' ⟨v, _, _, rfl⟩ ⟨v', _, _, rfl⟩ ⟨r, h⟩ ⟨r', h'⟩
    have := ev_same (l := p.evs) h h'
    simp only [Ev.str.injEq, true_and] at this
    rw [this]
  | bitU k0 k1 n =>
    rintro tot p q q' ⟨v, _, _, _, rfl⟩ ⟨v', _, _, _, rfl⟩ ht ht'
    rw [num_same (n := 0) (n' := 0) ht ht']
  | bitI k0 k1 n =>
    rintro tot p q q' ⟨v, _, _, _, _, _, rfl⟩ ⟨v', _, _, _, _, _, rfl⟩ ht ht'
    rw [num_same (n := 0) (n' := 0) ht ht']
  | bitBool k0 k1 =>
    rintro tot p q q' ⟨v, _, _, rfl⟩ ⟨v', _, _, rfl⟩ ht ht'
    rw [num_same (n := 0) (n' := 0) ht ht']
  | pad => rintro tot p q q' ⟨_, rfl⟩ ⟨_, rfl⟩ _ _; rfl
  | fill => rintro tot p q q' rfl rfl _ _; rfl
  | setLE => rintro tot p q q' ⟨_, rfl⟩ ⟨_, rfl⟩ _ _; rfl
  | setBE => rintro tot p q q' ⟨_, rfl⟩ ⟨_, rfl⟩ _ _; rfl
  | nop => rintro tot p q q' rfl rfl _ _; rfl
  | enterBit => rintro tot p q q' rfl rfl _ _; rfl
  | exitBit => rintro tot p q q' ⟨_, rfl⟩ ⟨_, rfl⟩ _ _; rfl
  | version => rintro tot p q q' rfl rfl _ _; rfl
  | name => rintro tot p q q' rfl rfl _ _; rfl
  | struct k0 k1 f ih =>
    rintro tot p q q' ⟨m, h1, rfl⟩ ⟨m', h1', rfl⟩ ht ht'
    rw [ih tot _ m m' h1 h1' (starts_of_fwd (fwd_bits m 0 _) ht) (starts_of_fwd (fwd_bits m' 0 _) ht')]
  | arrFixed k0 k1 n f ih =>
    rintro tot p q q' ⟨_, _, h⟩ ⟨_, _, h'⟩ ht ht'
    exact det_arr (rec_fwd f) ih _ _ tot _ q q' h h' ht ht'
  | arrPre t k0 k1 f ih =>
    rintro tot p q q' ⟨n, _, _, _, h⟩ ⟨n', _, _, _, h'⟩ ht ht'
    have e := num_same (starts_of_fwd (fwd_arr (rec_fwd f) _ _ _ _ h) ht) (starts_of_fwd (fwd_arr (rec_fwd f) _ _ _ _ h') ht')
    subst e
    exact det_arr (rec_fwd f) ih _ _ tot _ q q' h h' ht ht'
  | arrDyn k0 k1 r0 r1 f ih =>
    rintro tot p q q' ⟨n, h1, _, _, _, h⟩ ⟨n', h1', _, _, _, h'⟩ ht ht'
    rw [h1] at h1'
    injection h1' with e
    subst e
    exact det_arr (rec_fwd f) ih _ _ tot _ q q' h h' ht ht'
  | crc => rintro tot p q q' ⟨_, rfl⟩ ⟨_, rfl⟩ _ _; rfl

end Cnd
