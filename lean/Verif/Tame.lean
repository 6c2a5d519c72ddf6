import Verif.Sch
/-
  Packet descriptions whose programs cannot be led astray by a host or a packet: the condition of C66. Nothing here models
  code; the rules are those the instructions of /repo/src/vm/vm_exec.c need (see VM.lean).
-/

namespace Cnd

/-- What is known at a point of a program, whatever the packet and the host. -/
structure Know where
  /-- an `@optional` may still be waiting for its field -/
  opt : Bool
  /-- the position may be behind the end of the packet -/
  behind : Bool
  /-- the position may be inside a byte -/
  mid : Bool
  deriving DecidableEq, Repr

def Know.join (a b : Know) : Know := ⟨a.opt || b.opt, a.behind || b.behind, a.mid || b.mid⟩

def Know.le (a b : Know) : Bool := (!a.opt || b.opt) && (!a.behind || b.behind) && (!a.mid || b.mid)

/-- The position has been moved to a byte boundary. -/
def Know.aligned (a : Know) : Know := ⟨a.opt, a.behind, false⟩

/-- Expressions without operations that C leaves undefined for some operands: no negation, and shifts only by a number
below 64. -/
def IExpr.tame : IExpr → Bool
  | .lit _ | .fld _ _ => true
  | .un .neg _ => false
  | .un _ e => e.tame
  | .bin .shl l (.lit w) | .bin .shr l (.lit w) => l.tame && decide (w.toNat < 64)
  | .bin .shl _ _ | .bin .shr _ _ => false
  | .bin _ l r => l.tame && r.tame

/-- Integer transforms that do not overflow, whatever the host (encoding) or the packet (decoding) says. -/
def ITrans.tame (enc : Bool) (t : Ty) (x : ITrans) (c : Word) : Bool :=
  match enc, x with
  | true, .mul | false, .div => decide (c ≠ -1)
  | true, .div | false, .mul => decide (c = 0 ∨ c = 1) || !enc && decide (t.size ≤ 4 ∧ c.toInt.natAbs ≤ 2 ^ 30)
  | _, .add | _, .sub => decide (c = 0) || !enc && decide (t.size ≤ 4 ∧ c.toInt.natAbs ≤ 2 ^ 30)

/-- A double out of the range of an integer field is converted when encoding. -/
def Curve.tame (enc : Bool) (c : Curve) (n : Num) : Bool :=
  c.suits n && (!enc || match n with
    | .int _ => false
    | .flt _ => true)

/-- Array-opening bytes and 0x38 are properly nested, `d` arrays being open. -/
def nestedFrom : List Byte → Nat → Bool
  | [], d => d == 0
  | b :: bs, d =>
    if isArrOp b then nestedFrom bs (d + 1)
    else if b == 0x38 then d != 0 && nestedFrom bs (d - 1)
    else nestedFrom bs d

/-- Code whose first byte says u8 or i8 and whose fourth byte (or the byte behind it) is 0x38 is just that field: arrays of
single bytes may be handed over in one piece (vm_exec.c 331-355). -/
def bulkFits (code : List Byte) : Bool :=
  code.length == 3 || !(code.head? == some 0x10 || code.head? == some 0x14) || (decide (4 ≤ code.length) && code[3]? != some 0x38)

/-- The check of an array: what holds before every element and after the last. A count of 0xFFFFFFFF means "to the end of
the packet" (vm_exec.c 1190-1216); if the count can have this value, every element must move on. -/
def arrCheck (check : Know → Option (Know × Bool)) (code : List Byte) (big : Bool) (a : Know) : Option Know :=
  (check a).bind fun r =>
  let w := a.join r.1.aligned
  (check w).bind fun q =>
  if q.1.aligned.le w && nestedFrom code 0 && bulkFits code && (q.2 || !big) then some w else none

/-- What is known after a description, and whether it moves the position (unless the packet is at its end); `none` if the
description may lead to undefined behaviour or an endless loop. -/
def Fld.check (enc : Bool) : Fld → Know → Option (Know × Bool)
  | .empty, a => some (a, false)
  | .seq f g, a => (f.check enc a).bind fun r => (g.check enc r.1).map fun q => (q.1, r.2 || q.2)
  | .scalar op _ _, a =>
    if (scalarWidth op.toNat).isSome then some (⟨false, a.behind && a.opt, false⟩, !a.opt) else none
  | .range _ _ _ _ _, a => if a.behind && a.opt then none else some (⟨false, false, false⟩, !a.opt)
  | .enum _ _ _ vals, a => if a.opt || decide (2 ^ 16 ≤ vals.length) then none else some (⟨false, false, false⟩, true)
  | .const _ _ _ _, a => some (⟨a.opt, false, false⟩, true)
  | .strNull _ _ _ _, a => if !enc && a.behind then none else some (⟨false, a.behind && a.opt, false⟩, !a.opt)
  | .strPre _ _ _, a => some (⟨false, a.behind && a.opt, false⟩, !a.opt)
  | .bitU _ _ n, a => if n.toNat ≤ 64 then some (⟨a.opt, a.behind, true⟩, decide (0 < n.toNat)) else none
  | .bitI _ _ n, a => if 0 < n.toNat ∧ n.toNat ≤ 64 then some (⟨a.opt, a.behind, true⟩, true) else none
  | .bitBool _ _, a => some (⟨a.opt, a.behind, true⟩, true)
  | .pad n, a =>
    if enc then (if n.toNat ≤ 64 then some (⟨a.opt, a.behind, true⟩, decide (0 < n.toNat)) else none)
    else some (⟨a.opt, true, true⟩, decide (0 < n.toNat))
  | .fill _, a => some (⟨a.opt, a.behind, a.mid && a.behind⟩, false)
  | .exitBit, a => some (a.aligned, false)
  | .setLE, a | .setBE, a | .nop, a | .enterBit, a | .version _, a | .name _ _, a => some (a, false)
  | .struct _ _ f, a => f.check enc a
  | .arrFixed _ _ _ f, a => (arrCheck (fun a => f.check enc a) f.code true a.aligned).map fun w => (w, false)
  | .arrPre p _ _ f, a =>
    (arrCheck (fun a => f.check enc a) f.code (decide (p = .p4)) ⟨a.opt, false, false⟩).map fun w => (w, true)
  | .arrDyn _ _ _ _ f, a => (arrCheck (fun a => f.check enc a) f.code true a.aligned).map fun w => (w, false)
  | .crc _, a => if a.behind then none else some (⟨a.opt, false, false⟩, true)

mutual

def Sch.check (enc : Bool) : Sch → Know → Option (Know × Bool)
  | .fld f, a => f.check enc a
  | .seq f g, a => (f.check enc a).bind fun r => (g.check enc r.1).map fun q => (q.1, r.2 || q.2)
  | .struct _ _ f, a => f.check enc a
  | .arrFixed _ _ _ f, a => (arrCheck (fun a => f.check enc a) f.code true a.aligned).map fun w => (w, false)
  | .arrPre p _ _ f, a =>
    (arrCheck (fun a => f.check enc a) f.code (decide (p = .p4)) ⟨a.opt, false, false⟩).map fun w => (w, true)
  | .arrDyn _ _ _ _ f, a => (arrCheck (fun a => f.check enc a) f.code true a.aligned).map fun w => (w, false)
  | .opt, a => some (⟨true, a.behind, a.mid⟩, false)
  | .trans x c _ t _ _, a => if a.opt || !x.tame enc t c then none else some (⟨false, false, false⟩, true)
  | .curve c _ n _ _, a => if a.opt || !c.tame enc n then none else some (⟨false, false, false⟩, true)
  | .calc e _ _ _ _, a => if e.tame then some (⟨a.opt, a.mid, a.mid⟩, true) else none
  | .ite c f g, a =>
    if c.tame then (f.check enc a).bind fun r => (g.check enc a).map fun q => (r.1.join q.1, r.2 && q.2) else none
  | .switch _ _ cs, a =>
    if cs.labels.length < 2 ^ 16 then (cs.check enc a).map fun r => (r.1, r.2 && cs.labels.contains none) else none

/-- All cases, each from `a`. -/
def Cases.check (enc : Bool) : Cases → Know → Option (Know × Bool)
  | .nil, a => some (a, true)
  | .cons _ f rest, a => (f.check enc a).bind fun r => (rest.check enc a).map fun q => (r.1.join q.1, r.2 && q.2)

end

/-- Nothing is waiting, the position is in the packet at a byte boundary. -/
def Know.start : Know := ⟨false, false, false⟩

/-- The check of a whole packet description. -/
def Sch.tame (enc : Bool) (f : Sch) : Bool := (f.check enc .start).isSome

end Cnd
