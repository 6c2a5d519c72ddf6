import Verif.Tame
/-
  Packet descriptions whose decoder accepts nothing but records (the condition of C68), and the events a record can have.
  Nothing here models code; the rules are those of the records of Schema.lean and Sch.lean.
-/

namespace Cnd

/-- What is known at a point of a description, whatever the packet: the position within the byte, the byte order, and whether
an `@optional` may still be waiting for its field. -/
structure Pin where
  pos : Option Nat
  be : Option Bool
  opt : Bool
  deriving DecidableEq, Repr

def Pin.join (a b : Pin) : Pin :=
  ⟨if a.pos = b.pos then a.pos else none, if a.be = b.be then a.be else none, a.opt || b.opt⟩

def Pin.le (a b : Pin) : Bool :=
  (b.pos.isNone || decide (b.pos = a.pos)) && (b.be.isNone || decide (b.be = a.be)) && (!a.opt || b.opt)

/-- At a byte boundary. -/
def Pin.aligned (a : Pin) : Pin := ⟨some 0, a.be, a.opt⟩

/-- After `n` bits. -/
def Pin.bits (a : Pin) (n : Nat) : Pin := ⟨a.pos.map fun m => (m + n) % 8, a.be, a.opt⟩

/-- The byte order may become `b` here. -/
def Pin.turns (a : Pin) (b : Bool) : Bool := decide (a.pos = some 0 ∨ a.be = some b)

/-- After a change to big-endian, if there is one. -/
def Pin.big (a : Pin) (big : Bool) : Option Bool := if big then some true else a.be

/-- The check of an array: what holds before every element and after the last. -/
def arrStrict (check : Pin → Option Pin) (code : List Byte) (a : Pin) : Option Pin :=
  (check a).bind fun r =>
  let w := a.join r.aligned
  (check w).bind fun q => if q.aligned.le w && nestedFrom code 0 then some w else none

/-- Numbers that fit a field of type `t`. -/
def Ty.room (t : Ty) (w : Word) : Bool := decide (w.toNat < 2 ^ (8 * t.size))

/-- What is known after a description, `none` if its decoder may accept something that is not a record: `K` are the keys of
constants, `L` limits the length of NUL-terminated strings by key. -/
def Fld.strict (K : Nat → Bool) (L : Nat → Nat) : Fld → Pin → Option Pin
  | .empty, a => some a
  | .seq f g, a => (f.strict K L a).bind fun r => g.strict K L r
  | .scalar op k0 k1, a =>
    if (scalarWidth op.toNat).isSome && !K (keyNum k0 k1) then some ⟨some 0, a.be, false⟩ else none
  | .range t k0 k1 lo hi, a =>
    if !a.opt && !K (keyNum k0 k1) && t.room lo && t.room hi then some ⟨some 0, a.be, false⟩ else none
  | .enum t k0 k1 vals, a =>
    if !a.opt && !K (keyNum k0 k1) && vals.all t.room && decide (vals.length < 2 ^ 16) then some ⟨some 0, a.be, false⟩ else none
  | .const t k0 k1 c, a => if K (keyNum k0 k1) && t.room c then some a.aligned else none
  | .strNull k0 k1 m0 m1, a => if L (keyNum k0 k1) ≤ keyNum m0 m1 then some ⟨some 0, a.be, false⟩ else none
  | .strPre _ _ _, a => some ⟨some 0, a.be, false⟩
  | .bitU k0 k1 n, a => if decide (n.toNat ≤ 64) && !K (keyNum k0 k1) then some (a.bits n.toNat) else none
  | .bitI k0 k1 n, a => if decide (0 < n.toNat ∧ n.toNat ≤ 64) && !K (keyNum k0 k1) then some (a.bits n.toNat) else none
  | .bitBool k0 k1, a => if !K (keyNum k0 k1) then some (a.bits 1) else none
  | .pad n, a => if n.toNat ≤ 64 then some (a.bits n.toNat) else none
  | .fill _, a => some a.aligned
  | .setLE, a => if a.turns false then some ⟨a.pos, some false, a.opt⟩ else none
  | .setBE, a => if a.turns true then some ⟨a.pos, some true, a.opt⟩ else none
  | .nop, a | .enterBit, a | .version _, a | .name _ _, a => some a
  | .exitBit, a => if a.pos = some 0 then some a else none
  | .struct _ _ f, a => f.strict K L a
  | .arrFixed k0 k1 n f, a =>
    if decide (n.toNat < 0xFFFFFFFF) && !K (keyNum k0 k1) then arrStrict (fun a => f.strict K L a) f.code a.aligned else none
  | .arrPre _ k0 k1 f, a => if !K (keyNum k0 k1) then arrStrict (fun a => f.strict K L a) f.code a.aligned else none
  | .arrDyn k0 k1 r0 r1 f, a =>
    if !K (keyNum k0 k1) && !K (keyNum r0 r1) then arrStrict (fun a => f.strict K L a) f.code a.aligned else none
  | .crc c, a =>
    if decide (c.poly.toNat < 2 ^ (8 * c.size) ∧ c.init.toNat < 2 ^ (8 * c.size) ∧ c.xorout.toNat < 2 ^ (8 * c.size)) then
      some a.aligned
    else none

/-- Expressions that fit the stack and read no constants. -/
def IExpr.strict (K : Nat → Bool) (e : IExpr) : Bool := decide (e.depth ≤ 8) && e.keys.all fun k => !K k

mutual

def Sch.strict (K : Nat → Bool) (L : Nat → Nat) : Sch → Pin → Option Pin
  | .fld f, a => f.strict K L a
  | .seq f g, a => (f.strict K L a).bind fun r => g.strict K L r
  | .struct _ _ f, a => f.strict K L a
  | .arrFixed k0 k1 n f, a =>
    if decide (n.toNat < 0xFFFFFFFF) && !K (keyNum k0 k1) then arrStrict (fun a => f.strict K L a) f.code a.aligned else none
  | .arrPre _ k0 k1 f, a => if !K (keyNum k0 k1) then arrStrict (fun a => f.strict K L a) f.code a.aligned else none
  | .arrDyn k0 k1 r0 r1 f, a =>
    if !K (keyNum k0 k1) && !K (keyNum r0 r1) then arrStrict (fun a => f.strict K L a) f.code a.aligned else none
  | .opt, a => some ⟨a.pos, a.be, true⟩
  -- a product with zero has lost everything, a division by zero is none
  | .trans x c big t k0 k1, a =>
    if !a.opt && !K (keyNum k0 k1) && decide (t ≠ .u64 ∧ (x = .mul ∨ x = .div → c ≠ 0)) && (!big || a.turns true) then
      some ⟨some 0, a.big big, false⟩
    else none
  -- rounding
  | .curve .., _ => none
  | .calc e big tag k0 k1, a =>
    if e.strict K && !K (keyNum k0 k1) && (intWidth tag).isSome && decide (a.pos = some 0) then some ⟨some 0, a.big big, a.opt⟩ else none
  | .ite c f g, a =>
    if c.strict K then (f.strict K L a).bind fun r => (g.strict K L a).map fun q => r.join q else none
  | .switch k0 k1 cs, a =>
    if !K (keyNum k0 k1) && decide (cs.labels.length < 2 ^ 16) then cs.strict K L a else none

/-- All cases, each from `a`, and none of them. -/
def Cases.strict (K : Nat → Bool) (L : Nat → Nat) : Cases → Pin → Option Pin
  | .nil, a => some a
  | .cons _ f rest, a => (f.strict K L a).bind fun r => (rest.strict K L a).map fun q => r.join q

end

/-- At the start: a byte boundary, little-endian, nothing waiting. -/
def Pin.start : Pin := ⟨some 0, some false, false⟩

/-- The check of a whole packet description. -/
def Sch.exact (K : Nat → Bool) (L : Nat → Nat) (f : Sch) : Bool := (f.strict K L .start).isSome

/-- The values records can have: a count of 0xFFFFFFFF means "to the end of the packet" (C18), strings have no NUL, and
NUL-terminated ones are not longer than the limit. -/
def Ev.fine (L : Nat → Nat) : Ev → Bool
  | .num _ op w => !(op == 0x34 || op == 0x35 || op == 0x36 || op == 0x37 || op == 0x3B) || w != 0xFFFFFFFF
  | .str k op bs => bs.all (· ≠ 0) && (op != 0x30 || decide (bs.length ≤ L k))
  | .note _ _ => true

end Cnd
