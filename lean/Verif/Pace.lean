import Verif.Tame
/-
  Packet descriptions whose arrays read at least one byte of the packet for every element: the condition of C92. Nothing here
  models code.
-/

namespace Cnd

/-- The check of an array, `o` saying whether an `@optional` may be waiting: every element must take something from the packet.
The two conditions on the code are those of `arrCheck`. -/
def paceArr (pace : Bool → Option (Bool × Bool)) (code : List Byte) (o : Bool) : Option Bool :=
  (pace o).bind fun r =>
  (pace (o || r.1)).bind fun q =>
  if (!q.1 || (o || r.1)) && q.2 && nestedFrom code 0 && bulkFits code then some (o || r.1) else none

/-- Whether an `@optional` may be waiting afterwards, and whether at least one byte of the packet is taken for certain. Bit
fields and padding do not count, they can be had for nothing at the end of the packet. -/
def Fld.pace : Fld → Bool → Option (Bool × Bool)
  | .empty, o => some (o, false)
  | .seq f g, o => (f.pace o).bind fun r => (g.pace r.1).map fun q => (q.1, r.2 || q.2)
  | .scalar op _ _, o => if (scalarWidth op.toNat).isSome then some (false, !o) else none
  | .range _ _ _ _ _, o => some (false, !o)
  | .enum _ _ _ vals, o => if vals.length < 2 ^ 16 then some (false, !o) else none
  | .const _ _ _ _, o | .crc _, o => some (o, true)
  | .strNull _ _ _ _, o | .strPre _ _ _, o => some (false, !o)
  | .bitU _ _ _, o | .bitI _ _ _, o | .bitBool _ _, o | .pad _, o | .fill _, o | .exitBit, o | .setLE, o | .setBE, o | .nop, o
  | .enterBit, o | .version _, o | .name _ _, o => some (o, false)
  | .struct _ _ f, o => f.pace o
  | .arrFixed _ _ _ f, o | .arrDyn _ _ _ _ f, o => (paceArr (fun o => f.pace o) f.code o).map fun w => (w, false)
  | .arrPre _ _ _ f, o => (paceArr (fun o => f.pace o) f.code o).map fun w => (w, true)

mutual

def Sch.pace : Sch → Bool → Option (Bool × Bool)
  | .fld f, o => f.pace o
  | .seq f g, o => (f.pace o).bind fun r => (g.pace r.1).map fun q => (q.1, r.2 || q.2)
  | .struct _ _ f, o => f.pace o
  | .arrFixed _ _ _ f, o | .arrDyn _ _ _ _ f, o => (paceArr (fun o => f.pace o) f.code o).map fun w => (w, false)
  | .arrPre _ _ _ f, o => (paceArr (fun o => f.pace o) f.code o).map fun w => (w, true)
  | .opt, _ => some (true, false)
  | .trans _ _ _ _ _ _, o => some (false, !o)
  | .curve c _ n _ _, o => if c.suits n then some (false, !o) else none
  | .calc _ _ _ _ _, o => some (o, false)
  | .ite _ f g, o => (f.pace o).bind fun r => (g.pace o).map fun q => (r.1 || q.1, r.2 && q.2)
  | .switch _ _ cs, o =>
    if cs.labels.length < 2 ^ 16 then (cs.pace o).map fun r => (r.1, r.2 && cs.labels.contains none) else none

/-- All cases, each from `o`; if none applies, nothing happens. -/
def Cases.pace : Cases → Bool → Option (Bool × Bool)
  | .nil, o => some (o, true)
  | .cons _ f rest, o => (f.pace o).bind fun r => (rest.pace o).map fun q => (r.1 || q.1, r.2 && q.2)

end

/-- The check of a whole packet description. -/
def Sch.swift (f : Sch) : Bool := (f.pace false).isSome

end Cnd
