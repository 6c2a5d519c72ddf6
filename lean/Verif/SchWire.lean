import Verif.Sch
import Verif.Wire
/-
  The wire format of packet descriptions with control flow, transforms and computed fields (C79). A specification, no model of code.
-/

namespace Cnd

mutual

/-- `SWire F K D f p q`: a record that fits `f` (as in `SRec`) is in the packet `D` from place `p` to place `q`. -/
def SWire (F : FloatOps) (K : View) (D : List Byte) : Sch → P → P → Prop
  | .fld f, p, q => Wire K D f p q
  | .seq a b, p, q => ∃ m, SWire F K D a p m ∧ SWire F K D b m q
  | .struct k0 k1 f, p, q => ∃ m, SWire F K D f (p.bits 0 [.note (keyNum k0 k1) 0x03]) m ∧ q = m.bits 0 [.note 0 0x04]
  | .arrFixed k0 k1 n f, p, q => n.toNat < 0xFFFFFFFF ∧ K (keyNum k0 k1) = false ∧
      ArrBody (SWire F K D f) f.code n.toNat (p.bytes 0 [.num (keyNum k0 k1) 0x34 n]) q
  | .arrPre r k0 k1 f, p, q => ∃ n : Word, n.toNat < 2 ^ (8 * r.size) ∧ n.toNat < 0xFFFFFFFF ∧
      K (keyNum k0 k1) = false ∧ FieldAt p.be D p.byte r.size n.toNat ∧
      ArrBody (SWire F K D f) f.code n.toNat (p.bytes r.size [.num (keyNum k0 k1) r.arrOp n]) q
  | .arrDyn k0 k1 r0 r1 f, p, q => ∃ n : Word, K.look (keyNum r0 r1) p.evs = some n ∧ n.toNat < 0xFFFFFFFF ∧
      K (keyNum k0 k1) = false ∧ K (keyNum r0 r1) = false ∧
      ArrBody (SWire F K D f) f.code n.toNat (p.bytes 0 [.num (keyNum k0 k1) 0x3B n]) q
  | .opt, p, q => q = p
  -- the host's value is `e`, in the packet is `r` in two's complement
  | .trans x c big t k0 k1, p, q => ∃ e r : Int, x.rel c.toInt e r ∧ t.holds r ∧ r < 2 ^ 63 ∧
      -(2 ^ 63 : Int) ≤ e ∧ e < 2 ^ 63 ∧ K (keyNum k0 k1) = false ∧ (big = true → p.pos % 8 = 0 ∨ p.be = true) ∧
      FieldAt (p.be || big) D p.byte t.size (t.wire r) ∧
      q = (⟨p.pos, p.be || big, p.evs⟩ : P).bytes t.size [.num (keyNum k0 k1) 0x17 (BitVec.ofInt 64 e)]
  -- the host's value is the double `w`, in the packet is `v`
  | .curve c big n k0 k1, p, q => ∃ w v : Word, n.ofDbl F (c.down F w) = some v ∧
      c.up F (n.dbl F (truncB n.size v)) = w ∧ c.suits n = true ∧ K (keyNum k0 k1) = false ∧
      (big = true → p.pos % 8 = 0 ∨ p.be = true) ∧
      FieldAt (p.be || big) D p.byte n.size v.toNat ∧
      q = (⟨p.pos, p.be || big, p.evs⟩ : P).bytes n.size [.num (keyNum k0 k1) 0x19 w]
  | .calc e big tag k0 k1, p, q => ∃ n m : Nat, intWidth tag = some n ∧ e.sees K p.evs ∧
      e.value (valuesIn K p.evs) = .val m ∧ m < 2 ^ (8 * n) ∧ p.pos % 8 = 0 ∧ K (keyNum k0 k1) = false ∧
      FieldAt (p.be || big) D p.byte n m ∧
      q = (⟨p.pos, p.be || big, p.evs⟩ : P).bytes n [.num (keyNum k0 k1) 0x78 (BitVec.ofNat 64 m)]
  | .ite c a b, p, q => ∃ n : Nat, c.sees K p.evs ∧ c.value (valuesIn K p.evs) = .val n ∧
      if n ≠ 0 then SWire F K D a p q else SWire F K D b p q
  | .switch k0 k1 cs, p, q => ∃ v : Word, K.look (keyNum k0 k1) p.evs = some v ∧ K (keyNum k0 k1) = false ∧
      cs.labels.length < 2 ^ 16 ∧
      if some v ∈ cs.labels then CaseWire F K D cs (some v) p q
      else if none ∈ cs.labels then CaseWire F K D cs none p q else q = p

/-- The record is there in the form of the first case with this label. -/
def CaseWire (F : FloatOps) (K : View) (D : List Byte) : Cases → Option Word → P → P → Prop
  | .nil, _, _, _ => False
  | .cons l f rest, l', p, q => if l = l' then SWire F K D f p q else CaseWire F K D rest l' p q

end

/-! ### A record on the wire is a record -/

mutual

theorem swire_srec (F : FloatOps) (K : View) (D : List Byte) : (f : Sch) → ∀ p q, SWire F K D f p q → SRec F K f p q
  | .fld f => by intro p q h; unfold SWire at h; unfold SRec; exact wire_rec K D f p q h
  | .seq a b => by rintro p q ⟨m, h1, h2⟩; exact ⟨m, swire_srec F K D a _ _ h1, swire_srec F K D b _ _ h2⟩
  | .struct k0 k1 f => by rintro p q ⟨m, h1, h2⟩; exact ⟨m, swire_srec F K D f _ _ h1, h2⟩
  | .arrFixed k0 k1 n f => by rintro p q ⟨h1, h2, h3⟩; exact ⟨h1, h2, arrBody_mono (swire_srec F K D f) h3⟩
  | .arrPre r k0 k1 f => by
    rintro p q ⟨n, h1, h2, h3, _, h4⟩; exact ⟨n, h1, h2, h3, arrBody_mono (swire_srec F K D f) h4⟩
  | .arrDyn k0 k1 r0 r1 f => by
    rintro p q ⟨n, h1, h2, h3, h4, h5⟩; exact ⟨n, h1, h2, h3, h4, arrBody_mono (swire_srec F K D f) h5⟩
  | .opt => by intro p q h; exact h
  | .trans x c big t k0 k1 => by
    rintro p q ⟨e, r, h1, h2, h3, h4, h5, h6, h7, _, h8⟩; exact ⟨e, r, h1, h2, h3, h4, h5, h6, h7, h8⟩
  | .curve c big n k0 k1 => by
    rintro p q ⟨w, v, h1, h2, h3, h4, h5, _, h6⟩; exact ⟨w, v, h1, h2, h3, h4, h5, h6⟩
  | .calc e big tag k0 k1 => by
    rintro p q ⟨n, m, h1, h2, h3, h4, h5, h6, _, h7⟩; exact ⟨n, m, h1, h2, h3, h4, h5, h6, h7⟩
  | .ite c a b => by
    rintro p q ⟨n, h1, h2, h3⟩
    refine ⟨n, h1, h2, ?_⟩
    split
    · rename_i hn; rw [if_pos hn] at h3; exact swire_srec F K D a _ _ h3
    · rename_i hn; rw [if_neg hn] at h3; exact swire_srec F K D b _ _ h3
  | .switch k0 k1 cs => by
    rintro p q ⟨v, h1, h2, h3, h4⟩
    refine ⟨v, h1, h2, h3, ?_⟩
    split
    · rename_i hv; rw [if_pos hv] at h4; exact cwire_case F K D cs _ _ _ h4
    · rename_i hv
      rw [if_neg hv] at h4
      split
      · rename_i h0; rw [if_pos h0] at h4; exact cwire_case F K D cs _ _ _ h4
      · rename_i h0; rw [if_neg h0] at h4; exact h4

theorem cwire_case (F : FloatOps) (K : View) (D : List Byte) : (cs : Cases) → ∀ l p q, CaseWire F K D cs l p q → CaseRec F K cs l p q
  | .nil => fun _ _ _ h => h
  | .cons l f rest => by
    intro l' p q h
    unfold CaseWire at h
    unfold CaseRec
    split
    · rename_i hl; rw [if_pos hl] at h; exact swire_srec F K D f _ _ h
    · rename_i hl; rw [if_neg hl] at h; exact cwire_case F K D rest _ _ _ h

end

/-! ### Places only move forward -/

theorem fwd_false : Fwd (fun _ _ => False) := fun _ _ h => h.elim

mutual

theorem srec_fwd (F : FloatOps) (K : View) : (f : Sch) → Fwd (SRec F K f)
  | .fld f => rec_fwd f
  | .seq a b => by
    rintro p q ⟨m, h1, h2⟩
    exact fwd_trans (srec_fwd F K a _ _ h1) (srec_fwd F K b _ _ h2)
  | .struct k0 k1 f => by
    rintro p q ⟨m, h1, rfl⟩
    exact fwd_trans (fwd_bits _ _ _) (fwd_trans (srec_fwd F K f _ _ h1) (fwd_bits _ _ _))
  | .arrFixed k0 k1 n f => by
    rintro p q ⟨_, _, h⟩
    exact fwd_trans (fwd_bytes _ _ _) (fwd_arr (srec_fwd F K f) _ _ _ _ h)
  | .arrPre r k0 k1 f => by
    rintro p q ⟨_, _, _, _, h⟩
    exact fwd_trans (fwd_bytes _ _ _) (fwd_arr (srec_fwd F K f) _ _ _ _ h)
  | .arrDyn k0 k1 r0 r1 f => by
    rintro p q ⟨_, _, _, _, _, h⟩
    exact fwd_trans (fwd_bytes _ _ _) (fwd_arr (srec_fwd F K f) _ _ _ _ h)
  | .opt => by rintro p q rfl; exact fwd_refl _
  | .trans x c big t k0 k1 => by
    rintro p q ⟨_, _, _, _, _, _, _, _, _, rfl⟩
    exact fwd_bytes ⟨p.pos, p.be || big, p.evs⟩ _ _
  | .curve c big n k0 k1 => by
    rintro p q ⟨_, _, _, _, _, _, _, rfl⟩
    exact fwd_bytes ⟨p.pos, p.be || big, p.evs⟩ _ _
  | .calc e big tag k0 k1 => by
    rintro p q ⟨_, _, _, _, _, _, _, _, rfl⟩
    exact fwd_bytes _ _ _
  | .ite c a b => by
    rintro p q ⟨n, _, _, h⟩
    split at h
    · exact srec_fwd F K a _ _ h
    · exact srec_fwd F K b _ _ h
  | .switch k0 k1 cs => by
    rintro p q ⟨v, _, _, _, h⟩
    split at h
    · exact case_fwd F K cs _ _ _ h
    · split at h
      · exact case_fwd F K cs _ _ _ h
      · rw [h]; exact fwd_refl _

theorem case_fwd (F : FloatOps) (K : View) : (cs : Cases) → (l : Option Word) → Fwd (CaseRec F K cs l)
  | .nil, _ => fun _ _ h => h.elim
  | .cons l f rest, l' => by
    intro p q h
    unfold CaseRec at h
    split at h
    · exact srec_fwd F K f _ _ h
    · exact case_fwd F K rest l' _ _ h

end

/-! ### The events say where a record ends -/

mutual

theorem srec_det (F : FloatOps) (K : View) : (f : Sch) → Det (SRec F K f)
  | .fld f => by intro tot p q q' h h'; unfold SRec at h h'; exact rec_det K f tot p q q' h h'
  | .seq a b => by
    rintro tot p q q' ⟨m, h1, h2⟩ ⟨m', h1', h2'⟩ ht ht'
    have e := srec_det F K a tot p m m' h1 h1' (starts_of_fwd (srec_fwd F K b _ _ h2) ht) (starts_of_fwd (srec_fwd F K b _ _ h2') ht')
    subst e
    exact srec_det F K b tot m q q' h2 h2' ht ht'
  | .struct k0 k1 f => by
    rintro tot p q q' ⟨m, h1, rfl⟩ ⟨m', h1', rfl⟩ ht ht'
    rw [srec_det F K f tot _ m m' h1 h1' (starts_of_fwd (fwd_bits m 0 _) ht) (starts_of_fwd (fwd_bits m' 0 _) ht')]
  | .arrFixed k0 k1 n f => by
    rintro tot p q q' ⟨_, _, h⟩ ⟨_, _, h'⟩ ht ht'
    exact det_arr (srec_fwd F K f) (srec_det F K f) _ _ tot _ q q' h h' ht ht'
  | .arrPre t k0 k1 f => by
    rintro tot p q q' ⟨n, _, _, _, h⟩ ⟨n', _, _, _, h'⟩ ht ht'
    have e := num_same (starts_of_fwd (fwd_arr (srec_fwd F K f) _ _ _ _ h) ht) (starts_of_fwd (fwd_arr (srec_fwd F K f) _ _ _ _ h') ht')
    subst e
    exact det_arr (srec_fwd F K f) (srec_det F K f) _ _ tot _ q q' h h' ht ht'
  | .arrDyn k0 k1 r0 r1 f => by
    rintro tot p q q' ⟨n, h1, _, _, _, h⟩ ⟨n', h1', _, _, _, h'⟩ ht ht'
    rw [h1] at h1'
    injection h1' with e
    subst e
    exact det_arr (srec_fwd F K f) (srec_det F K f) _ _ tot _ q q' h h' ht ht'
  | .opt => by rintro tot p q q' rfl rfl _ _; rfl
  | .trans x c big t k0 k1 => by
    rintro tot p q q' ⟨e, _, _, _, _, _, _, _, _, rfl⟩ ⟨e', _, _, _, _, _, _, _, _, rfl⟩ ht ht'
    rw [num_same ht ht']
  | .curve c big n k0 k1 => by
    rintro tot p q q' ⟨e, _, _, _, _, _, _, rfl⟩ ⟨e', _, _, _, _, _, _, rfl⟩ ht ht'
    rw [num_same ht ht']
  | .calc e big tag k0 k1 => by
    rintro tot p q q' ⟨n, m, h1, _, h2, _, _, _, rfl⟩ ⟨n', m', h1', _, h2', _, _, _, rfl⟩ ht ht'
    rw [h1] at h1'
    rw [h2] at h2'
    injection h1' with e1
    injection h2' with e2
    rw [e1, e2]
  | .ite c a b => by
    rintro tot p q q' ⟨n, _, h2, h3⟩ ⟨n', _, h2', h3'⟩ ht ht'
    rw [h2] at h2'
    injection h2' with e
    subst e
    split at h3
    · rename_i hn; rw [if_pos hn] at h3'; exact srec_det F K a tot p q q' h3 h3' ht ht'
    · rename_i hn; rw [if_neg hn] at h3'; exact srec_det F K b tot p q q' h3 h3' ht ht'
  | .switch k0 k1 cs => by
    rintro tot p q q' ⟨v, h1, _, _, h3⟩ ⟨v', h1', _, _, h3'⟩ ht ht'
    rw [h1] at h1'
    injection h1' with e
    subst e
    split at h3
    · rename_i hv; rw [if_pos hv] at h3'; exact case_det F K cs _ tot p q q' h3 h3' ht ht'
    · rename_i hv
      rw [if_neg hv] at h3'
      split at h3
      · rename_i h0; rw [if_pos h0] at h3'; exact case_det F K cs _ tot p q q' h3 h3' ht ht'
      · rename_i h0; rw [if_neg h0] at h3'; rw [h3, h3']

theorem case_det (F : FloatOps) (K : View) : (cs : Cases) → (l : Option Word) → Det (CaseRec F K cs l)
  | .nil, _ => fun _ _ _ _ h => h.elim
  | .cons l f rest, l' => by
    intro tot p q q' h h' ht ht'
    unfold CaseRec at h h'
    split at h
    · rename_i hl; rw [if_pos hl] at h'; exact srec_det F K f tot p q q' h h' ht ht'
    · rename_i hl; rw [if_neg hl] at h'; exact case_det F K rest l' tot p q q' h h' ht ht'

end

end Cnd
