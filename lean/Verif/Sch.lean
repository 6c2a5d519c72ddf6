/-
  Packet descriptions with control flow, transforms and computed fields, and the records that fit them: the specification for
  C61. `code` is the byte code of a description, `SRec` says which records fit it and where they end. Nothing here models
  code; numbers in comments are opcodes of /repo/include/concordia.h.
-/
import Verif.Schema
import Verif.Source
import Verif.Props.Expr
import Verif.Props.Trans

namespace Cnd

/-- The type of a number field: an integer, or a float (`dbl` says which). -/
inductive Num
  | int (t : Ty)
  | flt (dbl : Bool)
  deriving DecidableEq, Repr

/-- The opcode of a number field. -/
def Num.tag : Num → Byte
  | .int t => t.tag
  | .flt true => 0x19
  | .flt false => 0x18

def Num.size : Num → Nat
  | .int t => t.size
  | .flt true => 8
  | .flt false => 4

/-- The number in an integer field as a double. -/
def asDouble (F : FloatOps) (t : Ty) (raw : Word) : Word := if t = .u64 then F.ofU64 raw else F.ofI64 (t.toI64 raw)

/-- The number in a field as a double. -/
def Num.dbl (F : FloatOps) : Num → Word → Word
  | .int t, raw => asDouble F t raw
  | .flt true, raw => raw
  | .flt false, raw => F.ofF32 (raw.setWidth 32)

/-- A double as a number in a field, if it has a place there. -/
def Num.ofDbl (F : FloatOps) : Num → Word → Option Word
  | .int t, d => F.toTy t d
  | .flt true, d => some d
  | .flt false, d => some ((F.toF32 d).setWidth 64)

/-- How the number in a field is related to the number the host sees: `@scale` and `@offset`, `@poly` (coefficients, the constant one
first), `@spline` (x0, y0, x1, y1, ...). -/
inductive Curve
  | scale (factor offset : Word)
  | poly (cs : List Word)
  | spline (ps : List Word)
  deriving DecidableEq, Repr

def Curve.code : Curve → List Byte
  | .scale a b => [0x43] ++ leBytes 8 a ++ leBytes 8 b
  | .poly cs => [0x4C, BitVec.ofNat 8 cs.length] ++ cs.flatMap (leBytes 8)
  | .spline ps => [0x4D, BitVec.ofNat 8 (ps.length / 2)] ++ ps.flatMap (leBytes 8)

/-- c0 + x * (c1 + x * (c2 + ...)). -/
def polyAt (F : FloatOps) (x : Word) : List Word → Word
  | [] => 0
  | [c] => c
  | c :: cs => F.add (F.mul (polyAt F x cs) x) c

/-- From the number in the field to the host's. -/
def Curve.up (F : FloatOps) : Curve → Word → Word
  | .scale a b, x => F.add (F.mul x a) b
  | .poly cs, x => polyAt F x cs
  | .spline ps, x => splineEval F x ps

/-- From the host's number to the one in the field: for polynomials twenty rounds of Newton's method from 0, see `polySolve`. -/
def Curve.down (F : FloatOps) : Curve → Word → Word
  | .scale a b, y => F.div (F.sub y b) a
  | .poly cs, y => polySolve F cs y 20 0
  | .spline ps, y => splineSolve F y ps

/-- Polynomials and splines are for integer fields, and their size is stored in one byte. -/
def Curve.suits : Curve → Num → Bool
  | .scale _ _, _ => true
  | .poly cs, .int _ => cs.length < 256
  | .spline ps, .int _ => ps.length % 2 = 0 ∧ ps.length < 512
  | _, .flt _ => false

mutual

/-- A packet description. -/
inductive Sch
  /-- a part without control flow (`Fld`) -/
  | fld (f : Fld)
  | seq (a b : Sch)
  | struct (k0 k1 : Byte) (f : Sch)
  | arrFixed (k0 k1 : Byte) (count : Word) (f : Sch)
  | arrPre (p : Pre) (k0 k1 : Byte) (f : Sch)
  | arrDyn (k0 k1 r0 r1 : Byte) (f : Sch)
  /-- `@optional` -/
  | opt
  /-- an integer transform, perhaps a change to big-endian, an integer field -/
  | trans (x : ITrans) (c : Word) (big : Bool) (t : Ty) (k0 k1 : Byte)
  /-- a scaling, polynomial or spline, perhaps a change to big-endian, a number field -/
  | curve (c : Curve) (big : Bool) (n : Num) (k0 k1 : Byte)
  /-- a computed field: expression, perhaps a change to big-endian, stored for the host, put into the packet -/
  | calc (e : IExpr) (big : Bool) (tag k0 k1 : Byte)
  | ite (c : IExpr) (thn els : Sch)
  | switch (k0 k1 : Byte) (cases : Cases)

/-- The cases of a switch; the label is none for the default. -/
inductive Cases
  | nil
  | cons (label : Option Word) (f : Sch) (rest : Cases)

end

mutual

def Sch.code : Sch → List Byte
  | .fld f => f.code
  | .seq a b => a.code ++ b.code
  | .struct k0 k1 f => [0x03, k0, k1] ++ (f.code ++ [0x04])
  | .arrFixed k0 k1 n f => ([0x34, k0, k1] ++ leBytes 4 n) ++ (f.code ++ [0x38])
  | .arrPre p k0 k1 f => [p.arrOp, k0, k1] ++ (f.code ++ [0x38])
  | .arrDyn k0 k1 r0 r1 f => [0x3B, k0, k1, r0, r1] ++ (f.code ++ [0x38])
  | .opt => [0x4A]
  | .trans x c big t k0 k1 => ([x.op] ++ leBytes 8 c) ++ ((if big then [0x02] else []) ++ [t.tag, k0, k1])
  | .curve c big n k0 k1 => c.code ++ ((if big then [0x02] else []) ++ [n.tag, k0, k1])
  | .calc e big tag k0 k1 => e.code ++ ((if big then [0x02] else []) ++ ([0x64] ++ ([0x78, k0, k1] ++ [0x65, tag])))
  | .ite c a b => iteCode c.code a.code b.code
  | .switch k0 k1 cs => switchCode (keyNum k0 k1) cs.codes

def Cases.codes : Cases → List (Option Word × List Byte)
  | .nil => []
  | .cons l f rest => (l, f.code) :: rest.codes

end

mutual

/-- Nesting depth of arrays. -/
def Sch.depth : Sch → Nat
  | .fld f => f.depth
  | .seq a b => max a.depth b.depth
  | .struct _ _ f => f.depth
  | .arrFixed _ _ _ f | .arrPre _ _ _ f | .arrDyn _ _ _ _ f => f.depth + 1
  | .ite _ a b => max a.depth b.depth
  | .switch _ _ cs => cs.depth
  | .opt | .trans .. | .curve .. | .calc .. => 0

def Cases.depth : Cases → Nat
  | .nil => 0
  | .cons _ f rest => max f.depth rest.depth

end

/-- Keys of the fields an expression reads. -/
def IExpr.keys : IExpr → List Nat
  | .lit _ => []
  | .fld k0 k1 => [keyNum k0 k1]
  | .un _ e => e.keys
  | .bin _ l r => l.keys ++ r.keys

/-- The fields an expression reads are part of the record so far, and it is not too deep for the stack. -/
def IExpr.sees (K : View) (evs : List Ev) (e : IExpr) : Prop :=
  e.depth ≤ 8 ∧ ∀ k ∈ e.keys, K k = false ∧ K.look k evs ≠ none

/-- Field values of the record so far. -/
def valuesIn (K : View) (evs : List Ev) (k : Nat) : Word := (K.look k evs).getD 0

def Cases.labels : Cases → List (Option Word)
  | .nil => []
  | .cons l _ rest => l :: rest.labels

mutual

/-- `SRec F K f p q`: a record that fits `f`, laid out from place `p` to place `q`. -/
def SRec (F : FloatOps) (K : View) : Sch → P → P → Prop
  | .fld f, p, q => Rec K f p q
  | .seq a b, p, q => ∃ m, SRec F K a p m ∧ SRec F K b m q
  | .struct k0 k1 f, p, q => ∃ m, SRec F K f (p.bits 0 [.note (keyNum k0 k1) 0x03]) m ∧ q = m.bits 0 [.note 0 0x04]
  | .arrFixed k0 k1 n f, p, q => n.toNat < 0xFFFFFFFF ∧ K (keyNum k0 k1) = false ∧
      ArrBody (SRec F K f) f.code n.toNat (p.bytes 0 [.num (keyNum k0 k1) 0x34 n]) q
  | .arrPre r k0 k1 f, p, q => ∃ n : Word, n.toNat < 2 ^ (8 * r.size) ∧ n.toNat < 0xFFFFFFFF ∧
      K (keyNum k0 k1) = false ∧
      ArrBody (SRec F K f) f.code n.toNat (p.bytes r.size [.num (keyNum k0 k1) r.arrOp n]) q
  | .arrDyn k0 k1 r0 r1 f, p, q => ∃ n : Word, K.look (keyNum r0 r1) p.evs = some n ∧ n.toNat < 0xFFFFFFFF ∧
      K (keyNum k0 k1) = false ∧ K (keyNum r0 r1) = false ∧
      ArrBody (SRec F K f) f.code n.toNat (p.bytes 0 [.num (keyNum k0 k1) 0x3B n]) q
  | .opt, p, q => q = p
  -- the host's value is `e`, in the packet is `r`
  | .trans x c big t k0 k1, p, q => ∃ e r : Int, x.rel c.toInt e r ∧ t.holds r ∧ r < 2 ^ 63 ∧
      -(2 ^ 63 : Int) ≤ e ∧ e < 2 ^ 63 ∧ K (keyNum k0 k1) = false ∧ (big = true → p.pos % 8 = 0 ∨ p.be = true) ∧
      q = (⟨p.pos, p.be || big, p.evs⟩ : P).bytes t.size [.num (keyNum k0 k1) 0x17 (BitVec.ofInt 64 e)]
  -- the host's value is the double `w`, in the packet is `v`; only values that survive the way there and back
  | .curve c big n k0 k1, p, q => ∃ w v : Word, n.ofDbl F (c.down F w) = some v ∧
      c.up F (n.dbl F (truncB n.size v)) = w ∧ c.suits n = true ∧ K (keyNum k0 k1) = false ∧
      (big = true → p.pos % 8 = 0 ∨ p.be = true) ∧
      q = (⟨p.pos, p.be || big, p.evs⟩ : P).bytes n.size [.num (keyNum k0 k1) 0x19 w]
  -- the value must fit the field as an unsigned number (C44), and the field is not aligned
  | .calc e big tag k0 k1, p, q => ∃ n m : Nat, intWidth tag = some n ∧ e.sees K p.evs ∧
      e.value (valuesIn K p.evs) = .val m ∧ m < 2 ^ (8 * n) ∧ p.pos % 8 = 0 ∧ K (keyNum k0 k1) = false ∧
      q = (⟨p.pos, p.be || big, p.evs⟩ : P).bytes n [.num (keyNum k0 k1) 0x78 (BitVec.ofNat 64 m)]
  | .ite c a b, p, q => ∃ n : Nat, c.sees K p.evs ∧ c.value (valuesIn K p.evs) = .val n ∧
      if n ≠ 0 then SRec F K a p q else SRec F K b p q
  -- the case with the value of the key, else the default, else nothing
  | .switch k0 k1 cs, p, q => ∃ v : Word, K.look (keyNum k0 k1) p.evs = some v ∧ K (keyNum k0 k1) = false ∧
      cs.labels.length < 2 ^ 16 ∧
      if some v ∈ cs.labels then CaseRec F K cs (some v) p q
      else if none ∈ cs.labels then CaseRec F K cs none p q else q = p

/-- The record fits the first case with this label. -/
def CaseRec (F : FloatOps) (K : View) : Cases → Option Word → P → P → Prop
  | .nil, _, _, _ => False
  | .cons l f rest, l', p, q => if l = l' then SRec F K f p q else CaseRec F K rest l' p q

end

end Cnd
