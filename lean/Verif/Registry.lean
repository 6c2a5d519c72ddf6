/-
  The compiler's registries of structs and enums in memory, /repo/src/compiler/cnd_utils.c 336-432 and their use in cnd_parser.c, on the
  memory of Verif/Memory.lean. Elsewhere in the model they are lists.

  A member of a C structure takes one cell, and numbers are stored like addresses. The address 0 is NULL.
-/
import Verif.Memory

namespace Cnd.Mem

/-- `free` of a pointer that may be NULL. -/
def freeOpt (H : Heap) (p : Nat) : Option Heap := if p = 0 then some H else free H p

/-- `realloc` of a pointer that may be NULL. -/
def reallocOpt (H : Heap) (p n : Nat) : Option (Heap × Nat) := if p = 0 then some (malloc H n) else realloc H p n

/-- `malloc(len + 1)`, `memcpy` and the final NUL, cnd_utils.c 364-366, 412-414, cnd_parser.c 1398-1400; `strdup`; sb_build of what was collected. -/
def dupStr (H : Heap) (bs : List Byte) : Option (Heap × Nat) :=
  let r := malloc H (bs.length + 1)
  (poke r.1 r.2 0 (bs.map .byte)).bind fun H =>
  (poke H r.2 bs.length [.byte 0]).map fun H => (H, r.2)

/-- `x ? strdup(x) : NULL`. -/
def dupOpt (H : Heap) : Option (List Byte) → Option (Heap × Nat)
  | none => some (H, 0)
  | some bs => dupStr H bs

/-- StructRegistry and EnumRegistry, cnd_internal.h 171-175, 201-205; also the values of an EnumDef. -/
structure Reg where
  defs : Nat
  count : Nat
  cap : Nat
  deriving DecidableEq, Repr

/-- Element `k` of an array of structures of `w` members. -/
def getRec (H : Heap) (p w k : Nat) : Option (List Nat) := (peek H p (w * k) w).bind asPtrs

def setRec (H : Heap) (p w k : Nat) (ws : List Nat) : Option Heap := poke H p (w * k) (ws.map .ptr)

/-- `if (count >= capacity)` of reg_add, enum_reg_add and parse_enum: cnd_utils.c 359-362, 407-410, cnd_parser.c 1394-1397. -/
def regRoom (H : Heap) (w : Nat) (r : Reg) : Option (Heap × Reg) :=
  if r.cap ≤ r.count then
    (reallocOpt H r.defs (w * if r.cap = 0 then 8 else r.cap * 2)).map fun x =>
      (x.1, { r with defs := x.2, cap := if r.cap = 0 then 8 else r.cap * 2 })
  else some (H, r)

/-- StructDef, cnd_internal.h 163-169. -/
structure SDef where
  name : Nat
  code : Buf
  line : Nat
  file : Nat
  doc : Nat
  deriving DecidableEq, Repr

def SDef.words (d : SDef) : List Nat := [d.name, d.code.data, d.code.size, d.code.cap, d.line, d.file, d.doc]

def SDef.of : List Nat → Option SDef
  | [n, p, s, c, l, f, d] => some ⟨n, ⟨p, s, c⟩, l, f, d⟩
  | _ => none

/-- EnumDef, cnd_internal.h 190-199. -/
structure EDef where
  name : Nat
  type : Nat
  vals : Reg
  line : Nat
  file : Nat
  doc : Nat
  deriving DecidableEq, Repr

def EDef.words (d : EDef) : List Nat := [d.name, d.type, d.vals.defs, d.vals.count, d.vals.cap, d.line, d.file, d.doc]

def EDef.of : List Nat → Option EDef
  | [n, t, p, s, c, l, f, d] => some ⟨n, t, ⟨p, s, c⟩, l, f, d⟩
  | _ => none

def getS (H : Heap) (p k : Nat) : Option SDef := (getRec H p 7 k).bind SDef.of

def getE (H : Heap) (p k : Nat) : Option EDef := (getRec H p 8 k).bind EDef.of

/-- reg_init, enum_reg_init, cnd_utils.c 338-342, 381-385. -/
def regInit (H : Heap) (w : Nat) : Heap × Reg :=
  let r := malloc H (w * 8)
  (r.1, ⟨r.2, 0, 8⟩)

/-- reg_add, cnd_utils.c 358-372; the members of the new element are written together. The number of the element stands for its address. -/
def regAdd (H : Heap) (r : Reg) (name : List Byte) (line : Nat) (file doc : Option (List Byte)) : Option (Heap × Reg) :=
  (regRoom H 7 r).bind fun g =>
  (dupStr g.1 name).bind fun n =>
  (dupOpt n.1 file).bind fun f =>
  (dupOpt f.1 doc).bind fun d =>
  let b := bufInit d.1
  (setRec b.1 g.2.defs 7 g.2.count (SDef.words ⟨n.2, b.2, line, f.2, d.2⟩)).map fun H => (H, { g.2 with count := g.2.count + 1 })

/-- enum_reg_add, cnd_utils.c 406-423. -/
def enumAdd (H : Heap) (r : Reg) (name : List Byte) (line : Nat) (file doc : Option (List Byte)) : Option (Heap × Reg) :=
  (regRoom H 8 r).bind fun g =>
  (dupStr g.1 name).bind fun n =>
  (dupOpt n.1 file).bind fun f =>
  (dupOpt f.1 doc).bind fun d =>
  (setRec d.1 g.2.defs 8 g.2.count (EDef.words ⟨n.2, 0x12, ⟨0, 0, 0⟩, line, f.2, d.2⟩)).map fun H => (H, { g.2 with count := g.2.count + 1 })

/-- reg_find and enum_reg_find, cnd_utils.c 374-381, 425-432, over the `n` elements from number `k`; the name is the first member. -/
def recFind (H : Heap) (p w : Nat) (name : List Byte) : Nat → Nat → Option (Option Nat)
  | 0, _ => some none
  | n + 1, k =>
    (getRec H p w k).bind fun ws => (ws.head?).bind fun q => ((H.blk q).bind cstr).bind fun s =>
    if s = name then some (some k) else recFind H p w name n (k + 1)

/-- The rest of the loop body of parse_enum, cnd_parser.c 1386-1405, on the definition `d`: whether the value was there already (read by
1387-1391), and the definition with the new value. -/
def enumValue (H : Heap) (d : EDef) (name : List Byte) (v : Nat) (doc : Option (List Byte)) : Option (Heap × EDef × Bool) :=
  let rec seen : Nat → Nat → Option Bool
    | 0, _ => some false
    | n + 1, k => (getRec H d.vals.defs 3 k).bind fun ws => (ws[1]?).bind fun x => (seen n (k + 1)).map fun b => x == v || b
  (seen d.vals.count 0).bind fun old =>
  (regRoom H 3 d.vals).bind fun g =>
  (dupStr g.1 name).bind fun n =>
  (dupOpt n.1 doc).bind fun c =>
  (setRec c.1 g.2.defs 3 g.2.count [n.2, v, c.2]).map fun H => (H, { d with vals := { g.2 with count := g.2.count + 1 } }, old)

/-- The loop of reg_free, cnd_utils.c 345-351; cndc.c 340-348 frees the same in another order. -/
def freeS (H : Heap) (p : Nat) : Nat → Nat → Option Heap
  | 0, _ => some H
  | n + 1, k =>
    (getS H p k).bind fun d =>
    (free H d.name).bind fun H => (freeOpt H d.file).bind fun H => (freeOpt H d.doc).bind fun H => (free H d.code.data).bind fun H =>
    freeS H p n (k + 1)

/-- cnd_utils.c 394-397. -/
def freeV (H : Heap) (p : Nat) : Nat → Nat → Option Heap
  | 0, _ => some H
  | n + 1, k =>
    (getRec H p 3 k).bind fun ws => (ws[0]?).bind fun nm => (ws[2]?).bind fun dc =>
    (free H nm).bind fun H => (freeOpt H dc).bind fun H => freeV H p n (k + 1)

/-- The loop of enum_reg_free, cnd_utils.c 390-399; cndc.c 350-362 is the same. -/
def freeE (H : Heap) (p : Nat) : Nat → Nat → Option Heap
  | 0, _ => some H
  | n + 1, k =>
    (getE H p k).bind fun d =>
    (free H d.name).bind fun H => (freeOpt H d.file).bind fun H => (freeOpt H d.doc).bind fun H =>
    (freeV H d.vals.defs d.vals.count 0).bind fun H => (freeOpt H d.vals.defs).bind fun H =>
    freeE H p n (k + 1)

/-! ### The registries and the code of the packet in use -/

/-- Where the parser puts code: `p->target` is the code of the packet or of the struct added last (cnd_parser.c 1437), through the pointer
that reg_add returned. -/
inductive Tgt
  | out | cur
  deriving DecidableEq, Repr

inductive ROp
  | struct (name : List Byte) (line : Nat) (file doc : Option (List Byte))
  | enum (name : List Byte) (line : Nat) (file doc : Option (List Byte))
  | push (t : Tgt) (b : Byte)
  | append (t : Tgt) (bs : List Byte)
  | patch (t : Tgt) (off : Nat) (bs : List Byte)
  | inline (t : Tgt) (j off n : Nat)
  | type (v : Nat)
  | value (name : List Byte) (v : Nat) (doc : Option (List Byte))
  | find (name : List Byte)
  | efind (name : List Byte)

/-- Both registries, the packet's code, and the pointers returned last by reg_add and enum_reg_add: array and number. -/
structure RSt where
  H : Heap
  s : Reg
  e : Reg
  out : Buf
  scur : Option (Nat × Nat)
  ecur : Option (Nat × Nat)

/-- cndc.c 278-282 without the string tables. -/
def rstart : RSt :=
  let o := bufInit ⟨1, fun _ => none⟩
  let s := regInit o.1 7
  let e := regInit s.1 8
  ⟨e.1, s.2, e.2, o.2, none, none⟩

/-- A call on `p->target`. The members of the definition that do not belong to its buffer are written back as they were. -/
def onTarget (st : RSt) (t : Tgt) (f : Heap → Buf → Option (Heap × Buf)) : Option RSt :=
  match t with
  | .out => (f st.H st.out).map fun r => { st with H := r.1, out := r.2 }
  | .cur =>
    st.scur.bind fun c => (getS st.H c.1 c.2).bind fun d => (f st.H d.code).bind fun r =>
    (setRec r.1 c.1 7 c.2 (SDef.words { d with code := r.2 })).map fun H => { st with H := H }

/-- One call, with what it returns. -/
def rstep (st : RSt) : ROp → Option (RSt × Option Nat)
  | .struct name line file doc =>
    (regAdd st.H st.s name line file doc).map fun r => ({ st with H := r.1, s := r.2, scur := some (r.2.defs, r.2.count - 1) }, none)
  | .enum name line file doc =>
    (enumAdd st.H st.e name line file doc).map fun r => ({ st with H := r.1, e := r.2, ecur := some (r.2.defs, r.2.count - 1) }, none)
  | .push t b => (onTarget st t fun H c => bufPush H c b).map fun r => (r, none)
  | .append t bs => (onTarget st t fun H c => bufAppend H c bs).map fun r => (r, none)
  | .patch t off bs => (onTarget st t fun H c => bufPatch H c off bs).map fun r => (r, none)
  | .inline t j off n => (onTarget st t fun H c => (getS H st.s.defs j).bind fun d => bufCopy H c d.code.data off n).map fun r => (r, none)
  | .type v =>
    st.ecur.bind fun c => (getE st.H c.1 c.2).bind fun d => (setRec st.H c.1 8 c.2 (EDef.words { d with type := v })).map fun H => ({ st with H := H }, none)
  | .value name v doc =>
    st.ecur.bind fun c => (getE st.H c.1 c.2).bind fun d => (enumValue st.H d name v doc).bind fun r =>
    (setRec r.1 c.1 8 c.2 r.2.1.words).map fun H => ({ st with H := H }, some (if r.2.2 then 1 else 0))
  | .find name => (recFind st.H st.s.defs 7 name st.s.count 0).map fun k => (st, k)
  | .efind name => (recFind st.H st.e.defs 8 name st.e.count 0).map fun k => (st, k)

def rrun (st : RSt) : List ROp → Option (RSt × List (Option Nat))
  | [] => some (st, [])
  | op :: ops => (rstep st op).bind fun r => (rrun r.1 ops).map fun t => (t.1, r.2 :: t.2)

/-- reg_free, enum_reg_free and buf_free, cnd_utils.c 344-356, 387-404, 241-243. -/
def rfree (st : RSt) : Option Heap :=
  (freeS st.H st.s.defs st.s.count 0).bind fun H => (free H st.s.defs).bind fun H =>
  (freeE H st.e.defs st.e.count 0).bind fun H => (free H st.e.defs).bind fun H => free H st.out.data

end Cnd.Mem
