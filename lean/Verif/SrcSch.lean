/-
  From source programs to packet descriptions: the specification for C62.

  `progSch` gives the packet description (`Sch`) that a program of `Source.lean` stands for, with the string table that gives the
  keys their names. It is none for programs without a description: fractions and `self` in expressions, integer transforms of float
  fields, arrays up to the end of the packet, fixed fields with a range, and structs with a switch whose table the compiler would rename as
  if it were code. Nothing in this file models code of its own; where the compiler's dealings with a struct body or the
  string table matter (`under`, `rekey`) the definitions say what they do to a description, and Props/EndToEnd.lean proves
  that the models of that code do the same to its byte code.
-/
import Verif.Sch
import Verif.OptStr

namespace Cnd

/-- The two bytes of a key. -/
def keyLo (n : Nat) : Byte := BitVec.ofNat 8 n
def keyHi (n : Nat) : Byte := BitVec.ofNat 8 (n / 256)

/-- Several parts one after the other. -/
def Sch.all : List Sch → Sch
  | [] => .fld .empty
  | x :: xs => .seq x (Sch.all xs)

/-- The integer type with this opcode. -/
def tyOf (op : Byte) : Option Ty :=
  [Ty.u8, .u16, .u32, .u64, .i8, .i16, .i32, .i64].find? fun t => t.tag = op

/-! ### Struct bodies under a prefix -/

/-- A key for the prefixed name. -/
def underKey (pre : List Byte) (tab : List (List Byte)) (k0 k1 : Byte) : Option ((Byte × Byte) × List (List Byte)) := do
  let name ← prefixedName pre tab (keyNum k0 k1)
  let r := strtabAdd tab name
  some ((keyLo r.2, keyHi r.2), r.1)

def IExpr.under (pre : List Byte) : IExpr → List (List Byte) → Option (IExpr × List (List Byte))
  | .lit w, tab => some (.lit w, tab)
  | .fld k0 k1, tab => do
    let r ← underKey pre tab k0 k1
    some (.fld r.1.1 r.1.2, r.2)
  | .un o e, tab => do
    let r ← e.under pre tab
    some (.un o r.1, r.2)
  | .bin o a b, tab => do
    let r ← a.under pre tab
    let q ← b.under pre r.2
    some (.bin o r.1 q.1, q.2)

/-- A part renamed, the string table, and whether renaming goes on behind it. -/
def Fld.under (pre : List Byte) (f : Fld) (tab : List (List Byte)) : Option (Fld × List (List Byte) × Bool) :=
  match f with
  | .empty => some (f, tab, true)
  | .scalar op k0 k1 => do
    req (0x10 ≤ op.toNat ∧ op.toNat ≤ 0x1A)
    let r ← underKey pre tab k0 k1
    some (.scalar op r.1.1 r.1.2, r.2, true)
  -- the name is changed, but not behind the check
  | .range t k0 k1 lo hi => do
    let r ← underKey pre tab k0 k1
    some (.range t r.1.1 r.1.2 lo hi, r.2, false)
  | .enum t k0 k1 vals => do
    let r ← underKey pre tab k0 k1
    some (.enum t r.1.1 r.1.2 vals, r.2, false)
  | .const .. | .crc _ => some (f, tab, false)
  | .strNull k0 k1 m0 m1 => do
    let r ← underKey pre tab k0 k1
    some (.strNull r.1.1 r.1.2 m0 m1, r.2, true)
  | .strPre p k0 k1 => do
    let r ← underKey pre tab k0 k1
    some (.strPre p r.1.1 r.1.2, r.2, true)
  | .bitU k0 k1 n => do
    let r ← underKey pre tab k0 k1
    some (.bitU r.1.1 r.1.2 n, r.2, true)
  | .bitI k0 k1 n => do
    let r ← underKey pre tab k0 k1
    some (.bitI r.1.1 r.1.2 n, r.2, true)
  | .bitBool k0 k1 => do
    let r ← underKey pre tab k0 k1
    some (.bitBool r.1.1 r.1.2, r.2, true)
  | .pad _ | .fill _ | .setLE | .setBE | .nop | .enterBit | .exitBit => some (f, tab, true)
  | _ => none

mutual

def Sch.under (pre : List Byte) : Sch → List (List Byte) → Option (Sch × List (List Byte) × Bool)
  | .fld f, tab => do
    let r ← f.under pre tab
    some (.fld r.1, r.2)
  | .seq a b, tab => do
    let r ← a.under pre tab
    if r.2.2 then do
      let q ← b.under pre r.2.1
      some (.seq r.1 q.1, q.2)
    else some (.seq r.1 b, r.2)
  | .struct k0 k1 f, tab => do
    let k ← underKey pre tab k0 k1
    let r ← f.under pre k.2
    some (.struct k.1.1 k.1.2 r.1, r.2)
  | .arrFixed k0 k1 n f, tab => do
    let k ← underKey pre tab k0 k1
    let r ← f.under pre k.2
    some (.arrFixed k.1.1 k.1.2 n r.1, r.2)
  | .arrPre p k0 k1 f, tab => do
    let k ← underKey pre tab k0 k1
    let r ← f.under pre k.2
    some (.arrPre p k.1.1 k.1.2 r.1, r.2)
  -- the field with the count keeps its name
  | .arrDyn k0 k1 r0 r1 f, tab => do
    let k ← underKey pre tab k0 k1
    let r ← f.under pre k.2
    some (.arrDyn k.1.1 k.1.2 r0 r1 r.1, r.2)
  | .opt, tab => some (.opt, tab, false)
  | .trans x c big t k0 k1, tab => some (.trans x c big t k0 k1, tab, false)
  | .curve c big n k0 k1, tab => some (.curve c big n k0 k1, tab, false)
  | .calc e big tag k0 k1, tab => do
    let r ← e.under pre tab
    let k ← underKey pre r.2 k0 k1
    some (.calc r.1 big tag k.1.1 k.1.2, k.2, true)
  | .ite c a b, tab => do
    let e ← c.under pre tab
    let r ← a.under pre e.2
    if r.2.2 then do
      let q ← b.under pre r.2.1
      some (.ite e.1 r.1 q.1, q.2)
    else some (.ite e.1 r.1 b, r.2)
  -- renaming does not touch jump tables, and must have stopped at the other table
  | .switch k0 k1 cs, tab =>
    if (tableOf (armsAt 0 cs.codes) (armsSize cs.codes)).1 = 0x53 then some (.switch k0 k1 cs, tab, false)
    else do
      let k ← underKey pre tab k0 k1
      let r ← cs.under pre k.2
      req (r.2.2 = false)
      some (.switch k.1.1 k.1.2 r.1, r.2)

def Cases.under (pre : List Byte) : Cases → List (List Byte) → Option (Cases × List (List Byte) × Bool)
  | .nil, tab => some (.nil, tab, true)
  | .cons l f rest, tab => do
    let r ← f.under pre tab
    if r.2.2 then do
      let q ← rest.under pre r.2.1
      some (.cons l r.1 q.1, q.2)
    else some (.cons l r.1 rest, r.2)

end

/-! ### Fields -/

structure SCtx where
  dbl : List Byte → Word
  fl : FloatOps
  structs : List (List Byte × Sch)
  enums : List EnumD
  self : Option (List Byte)
  inBit : Bool

def SCtx.ctx (C : SCtx) : Ctx := ⟨C.dbl, C.fl, C.structs.map fun x => (x.1, x.2.code), C.enums, C.self, C.inBit⟩

def exprSch (e : ETree) (tab : List (List Byte)) : Option (IExpr × List (List Byte)) := do
  req (e.Respects ∧ e.LeavesOk)
  e.toInt tab

/-- A decorator: parts in front of the field, the expression of a computed field, attributes, state. -/
def Deco.sch (C : SCtx) (x : Deco) (a : Dec) (g : Gen) : Option (List Sch × Option IExpr × Dec × Gen) :=
  match x with
  | .expr e => do
    let r ← exprSch e g.tab
    some ([], some r.1, { a with expr := true }, { g with tab := r.2 })
  | x => do
    let r ← x.gen C.ctx a g
    let parts : List Sch := match x with
      | .optional => [.opt]
      | .fill none => [.fld (.fill 0)]
      | .fill (some n) => [.fld (.fill ((parseU32 n).setWidth 8))]
      | .pad n => [.fld (.pad ((parseU32 n).setWidth 8))]
      | _ => []
    some (parts, none, r.2)

/-- Decorators; nothing may come between an expression and its field. -/
def decosSch (C : SCtx) : List Deco → Dec → Gen → Option (List Sch × Option IExpr × Dec × Gen)
  | [], a, g => some ([], none, a, g)
  | x :: xs, a, g => do
    let r ← x.sch C a g
    let q ← decosSch C xs r.2.2.1 r.2.2.2
    match r.2.1 with
    | none => some (r.1 ++ q.1, q.2)
    | some e => do
      req (q.1.isEmpty = true ∧ q.2.1.isNone = true)
      some (r.1, some e, q.2.2)

/-- The bounds of a range of an integer type. -/
def intBounds (t : NTy) (lo hi : Tok) : Option (Word × Word) :=
  match t.kind with
  | .unsigned =>
    if t.size < 8 then do
      req ((parseU32 lo.text).toNat ≤ (parseU32 hi.text).toNat)
      some (BitVec.ofNat 64 (parseU32 lo.text).toNat, BitVec.ofNat 64 (parseU32 hi.text).toNat)
    else do
      let a ← parseI64 lo.text
      let b ← parseI64 hi.text
      req (a.toNat ≤ b.toNat)
      some (a, b)
  | .signed => do
    let a ← parseI64 lo.text
    let b ← parseI64 hi.text
    req (a.toInt ≤ b.toInt)
    some (a, b)
  | _ => none

/-- A bit field of `w` bits. The byte behind the key of a boolean bit field, meant as its width, is an instruction of its own. -/
def bitSch (t : NTy) (key w : Nat) : Option Sch :=
  match t.kind with
  | .unsigned => some (.fld (.bitU (keyLo key) (keyHi key) (BitVec.ofNat 8 w)))
  | .signed => some (.fld (.bitI (keyLo key) (keyHi key) (BitVec.ofNat 8 w)))
  | .bool => if w = 1 then some (.seq (.fld (.bitBool (keyLo key) (keyHi key))) (.fld .setLE)) else none
  | .float => none

/-- A number field without transform and expression. -/
def numberSch (C : SCtx) (d : FieldD) (a : Dec) (key : Nat) (t : NTy) (g : Gen) : Option (Sch × Gen) :=
  match bitsOf C.ctx d t with
  | some w => do
    req (0 < w ∧ w < 256 ∧ a.range = none ∧ a.crc = false ∧ a.expr = false)
    let f ← bitSch t key w
    some (f, if C.inBit then { g with bits := g.bits + w } else g)
  | none =>
    if a.crc then
      if a.crcWidth = 16 ∧ t.op = 0x11 then
        some (.fld (.crc ⟨false, BitVec.ofNat 64 (a.crcPoly.toNat % 65536), BitVec.ofNat 64 (a.crcInit.toNat % 65536),
          BitVec.ofNat 64 (a.crcXor.toNat % 65536), a.crcFlags⟩), g)
      else if a.crcWidth = 32 ∧ t.op = 0x12 then
        some (.fld (.crc ⟨true, BitVec.ofNat 64 a.crcPoly.toNat, BitVec.ofNat 64 a.crcInit.toNat,
          BitVec.ofNat 64 a.crcXor.toNat, a.crcFlags⟩), g)
      else none
    else if a.expr then none
    else
      match a.range with
      | none => some (.fld (.scalar t.op (keyLo key) (keyHi key)), g)
      | some (lo, hi) => do
        let ty ← tyOf t.op
        req (ty.size = t.size)
        let b ← intBounds t lo hi
        some (.fld (.range ty (keyLo key) (keyHi key) (truncB ty.size b.1) (truncB ty.size b.2)), g)

/-- The value of a field without transform and expression. -/
def valueSch (C : SCtx) (d : FieldD) (a : Dec) (key : Nat) (g : Gen) : Option (Sch × Gen) :=
  match a.const with
  | some v => do
    let t ← numTypes.lookup d.type
    req (t.isInt ∧ t.fits v ∧ a.range = none)
    let ty ← tyOf t.op
    req (ty.size = t.size)
    some (.fld (.const ty (keyLo key) (keyHi key) (truncB ty.size v)), g)
  | none => do
    req (C.self ≠ some d.type)
    if d.type = word "string" then do
      req ((C.structs.lookup d.type).isNone ∧ (enumNamed C.ctx d.type).isNone ∧ a.trans = .none ∧ a.range = none ∧ a.crc = false ∧
        d.width = none)
      match (if d.arrayPre a then .lim none none else d.mods) with
      | .pre ty => do
        let p ← preTypes.lookup ty
        let r ← [Pre.p1, .p2, .p4].find? fun r => r.strOp = p.2
        some (.fld (.strPre r (keyLo key) (keyHi key)), g)
      | .lim u m => do
        req (d.dims = .none ∨ u.isSome)
        let max : Nat := match m with
          | some n => (parseU32 n).toNat
          | none => 255
        some (.fld (.strNull (keyLo key) (keyHi key) (keyLo max) (keyHi max)), g)
    else
      match C.structs.lookup d.type with
      | some f => do
        req (a.trans = .none ∧ a.range = none ∧ a.crc = false ∧ d.width = none)
        let r ← f.under (d.name.take 255) g.tab
        some (.struct (keyLo key) (keyHi key) r.1, { g with tab := r.2.1 })
      | none =>
        match enumNamed C.ctx d.type with
        | some e => do
          req (a.trans = .none ∧ a.crc = false ∧ d.width = none ∧ a.range = none)
          let t ← intOf e.type
          let ty ← tyOf t.op
          req (ty.size = t.size)
          some (.fld (.enum ty (keyLo key) (keyHi key) (e.values.map fun v => truncB ty.size v.2)), g)
        | none => do
          let t ← numTypes.lookup d.type
          numberSch C d a key t g

/-- A field, perhaps an array. -/
def elemSch (d : FieldD) (a : Dec) (key : Nat) (f : Sch) : Option Sch :=
  match d.dims with
  | .none => some f
  | _ =>
    match (if d.arrayPre a then d.mods else .lim none none) with
    | .pre ty => do
      let p ← preTypes.lookup ty
      let r ← [Pre.p1, .p2, .p4].find? fun r => r.arrOp = p.1
      some (.arrPre r (keyLo key) (keyHi key) f)
    | .lim _ _ =>
      if a.eof then none
      else match a.ref with
        | some r => some (.arrDyn (keyLo key) (keyHi key) (keyLo r) (keyHi r) f)
        | none =>
          match a.count with
          | some n => some (.arrFixed (keyLo key) (keyHi key) (BitVec.ofNat 64 n.toNat) f)
          | none => none

/-- The number type with this opcode. -/
def numOf (op : Byte) : Option Num :=
  if op = 0x18 then some (.flt false) else if op = 0x19 then some (.flt true) else (tyOf op).map .int

/-- A number field with a transform. -/
def transSch (a : Dec) (key : Nat) (n : Num) : Option Sch :=
  match a.trans, n with
  | .scale, n => some (.curve (.scale a.scale a.offset) a.be n (keyLo key) (keyHi key))
  | .poly, n => some (.curve (.poly a.poly) a.be n (keyLo key) (keyHi key))
  | .spline, n => some (.curve (.spline a.spline) a.be n (keyLo key) (keyHi key))
  | .mul, .int ty => some (.trans .mul a.ival a.be ty (keyLo key) (keyHi key))
  | .div, .int ty => some (.trans .div a.ival a.be ty (keyLo key) (keyHi key))
  | .add, .int ty => some (.trans .add a.ival a.be ty (keyLo key) (keyHi key))
  | .sub, .int ty => some (.trans .sub a.ival a.be ty (keyLo key) (keyHi key))
  | _, _ => none

/-- A plain number field: no array, no constant, no bit field, no CRC, no range, and its name is that of a number type only. -/
def plainNumber (C : SCtx) (d : FieldD) (a : Dec) : Option NTy := do
  req (d.dims = .none ∧ a.const = none ∧ C.self ≠ some d.type ∧ d.type ≠ word "string" ∧ (C.structs.lookup d.type).isNone ∧
    (enumNamed C.ctx d.type).isNone)
  let t ← numTypes.lookup d.type
  req (bitsOf C.ctx d t = none ∧ a.crc = false ∧ a.range = none)
  some t

/-- A field behind its decorators; `e` is its expression if it is computed. -/
def FieldD.bodySch (C : SCtx) (d : FieldD) (e : Option IExpr) (a : Dec) (g : Gen) : Option (List Sch × Gen) := do
  req (d.name ∉ g.fields)
  let i := strtabAdd g.tab d.name
  req (d.modsOk (d.attrs a))
  let g' : Gen := { g with tab := i.1, fields := g.fields ++ [d.name] }
  let le : List Sch := if a.be then [.fld .setLE] else []
  match e with
  | some e => do
    req (a.trans = .none ∧ a.expr = true)
    let t ← plainNumber C d a
    some (.calc e a.be t.op (keyLo i.2) (keyHi i.2) :: le, g')
  | none => do
    req (a.expr = false)
    if a.trans = .none then do
      let v ← valueSch C d (d.attrs a) i.2 g'
      let f ← elemSch d (d.attrs a) i.2 v.1
      some ((if a.be then [.fld .setBE] else []) ++ f :: le, v.2)
    else do
      let t ← plainNumber C d a
      let n ← numOf t.op
      let f ← transSch a i.2 n
      some (f :: le, g')

def FieldD.sch (C : SCtx) (d : FieldD) (g : Gen) : Option (Sch × Gen) := do
  let r ← decosSch C d.decs {} g
  let q ← d.bodySch C r.2.1 r.2.2.1 r.2.2.2
  some (Sch.all (r.1 ++ q.1), q.2)

/-! ### Statements -/

/-- Padding. -/
def loneSch (C : SCtx) (decs : List Deco) (g : Gen) : Option (Sch × Gen) := do
  let r ← decosSch C decs {} g
  req (r.2.2.1.alone = true ∧ r.2.1.isNone = true)
  some (Sch.all r.1, r.2.2.2)

mutual

def Body.sch (C : SCtx) : Body → Gen → Option (Sch × Gen)
  | .done, g => some (.fld .empty, g)
  | .tail decs, g => loneSch C decs g
  | .doc _ rest, g => rest.sch C g
  | .stmt s rest, g => do
    let r ← s.sch C g
    let q ← rest.sch C r.2
    some (.seq r.1 q.1, q.2)

def Stmt.sch (C : SCtx) : Stmt → Gen → Option (Sch × Gen)
  | .field d, g => d.sch C g
  | .lone decs, g => loneSch C decs g
  | .ite c thn els, g => do
    let e ← exprSch c g.tab
    let t ← thn.sch C { g with tab := e.2 }
    let f ← els.sch C t.2
    some (.ite e.1 t.1 f.1, f.2)
  | .switch key arms, g => do
    let i := strtabAdd g.tab key
    let r ← arms.sch C [] { g with tab := i.1 }
    some (.switch (keyLo i.2) (keyHi i.2) r.1, r.2)

def Els.sch (C : SCtx) : Els → Gen → Option (Sch × Gen)
  | .none, g => some (.fld .empty, g)
  | .block b, g => b.sch C g
  | .elif c thn els, g => do
    let e ← exprSch c g.tab
    let t ← thn.sch C { g with tab := e.2 }
    let f ← els.sch C t.2
    some (.ite e.1 t.1 f.1, f.2)

def Arms.sch (C : SCtx) : Arms → List (Option Word) → Gen → Option (Cases × Gen)
  | .done, _, g => some (.nil, g)
  | .block l b rest, seen, g => do
    let v ← l.value C.ctx
    req (v ∉ seen)
    let r ← b.sch C g
    let q ← rest.sch C (seen ++ [v]) r.2
    some (.cons v r.1 q.1, q.2)
  | .stmt l s rest, seen, g => do
    let v ← l.value C.ctx
    req (v ∉ seen)
    let r ← s.sch C g
    let q ← rest.sch C (seen ++ [v]) r.2
    some (.cons v r.1 q.1, q.2)

end

/-! ### Files -/

structure STop where
  tab : List (List Byte) := []
  structs : List (List Byte × Sch) := []
  enums : List EnumD := []
  code : List Sch := []
  unaligned : Bool := false
  packets : Nat := 0

def STop.top (t : STop) : Top :=
  { tab := t.tab, structs := t.structs.map fun x => (x.1, x.2.code), enums := t.enums, code := (Sch.all t.code).code,
    unaligned := t.unaligned, packets := t.packets }

def STop.ctx (dbl : List Byte → Word) (fl : FloatOps) (t : STop) (self : Option (List Byte)) (inBit : Bool) : SCtx :=
  ⟨dbl, fl, t.structs, t.enums, self, inBit⟩

def TopDec.sch (x : TopDec) (t : STop) : STop :=
  match x with
  | .version n => { t with code := t.code ++ [.fld (.version ((parseU32 n).setWidth 8))] }
  | .bigEndian => { t with code := t.code ++ [.fld .setBE] }
  | .littleEndian _ => { t with code := t.code ++ [.fld .setLE] }
  | .unaligned => { t with unaligned := true }

def Decl.sch (dbl : List Byte → Word) (fl : FloatOps) (x : Decl) (t : STop) : Option STop :=
  match x with
  | .enum name ty vs => do
    req (t.top.free name)
    let op ← enumTy ty
    let l ← enumGen [] 0 vs
    some { t with enums := t.enums ++ [⟨name, op, l⟩] }
  | .struct name b => do
    req (t.top.free name)
    let r ← b.sch (t.ctx dbl fl (some name) t.unaligned) ⟨t.tab, [], 0⟩
    req (t.unaligned = true → r.2.bits % 8 = 0)
    let f := if t.unaligned then Sch.all [.fld .enterBit, .fld .setBE, r.1, .fld .exitBit] else r.1
    some { t with tab := r.2.tab, structs := t.structs ++ [(name, f)], unaligned := false }
  | .packet name b => do
    req (t.top.free name ∧ t.packets = 0)
    let r ← b.sch (t.ctx dbl fl none false) ⟨t.tab, [], 0⟩
    let i := strtabAdd r.2.tab name
    some { t with tab := i.1, code := t.code ++ [.fld (.name (keyLo i.2) (keyHi i.2)), r.1], packets := 1 }
  | .packetOf name s => do
    req (t.top.free name ∧ t.packets = 0)
    let f ← t.structs.lookup s
    let i := strtabAdd t.tab name
    some { t with tab := i.1, code := t.code ++ [.fld (.name (keyLo i.2) (keyHi i.2)), f], packets := 1 }
  | .empty => some t

def progSchFrom (dbl : List Byte → Word) (fl : FloatOps) : List Item → STop → Option STop
  | [], t => some t
  | .doc _ :: xs, t => progSchFrom dbl fl xs t
  | .decl decs d :: xs, t => do
    let t ← d.sch dbl fl (decs.foldl (fun t x => x.sch t) t)
    progSchFrom dbl fl xs t

/-- The string table and the packet description of a program. -/
def progSch (dbl : List Byte → Word) (fl : FloatOps) (prog : List Item) : Option (List (List Byte) × Sch) := do
  let t ← progSchFrom dbl fl prog {}
  req (t.packets = 1)
  some (t.tab, Sch.all t.code)

/-! ### Other keys -/

/-- A key under a new numbering. -/
def reLo (φ : Nat → Nat) (k0 k1 : Byte) : Byte := keyLo (φ (keyNum k0 k1))
def reHi (φ : Nat → Nat) (k0 k1 : Byte) : Byte := keyHi (φ (keyNum k0 k1))

def IExpr.mapKeys (φ : Nat → Nat) : IExpr → IExpr
  | .lit w => .lit w
  | .fld k0 k1 => .fld (reLo φ k0 k1) (reHi φ k0 k1)
  | .un o e => .un o (e.mapKeys φ)
  | .bin o a b => .bin o (a.mapKeys φ) (b.mapKeys φ)

def Fld.mapKeys (φ : Nat → Nat) : Fld → Fld
  | .seq a b => .seq (a.mapKeys φ) (b.mapKeys φ)
  | .scalar op k0 k1 => .scalar op (reLo φ k0 k1) (reHi φ k0 k1)
  | .range t k0 k1 lo hi => .range t (reLo φ k0 k1) (reHi φ k0 k1) lo hi
  | .enum t k0 k1 vals => .enum t (reLo φ k0 k1) (reHi φ k0 k1) vals
  | .const t k0 k1 c => .const t (reLo φ k0 k1) (reHi φ k0 k1) c
  | .strNull k0 k1 m0 m1 => .strNull (reLo φ k0 k1) (reHi φ k0 k1) m0 m1
  | .strPre p k0 k1 => .strPre p (reLo φ k0 k1) (reHi φ k0 k1)
  | .bitU k0 k1 n => .bitU (reLo φ k0 k1) (reHi φ k0 k1) n
  | .bitI k0 k1 n => .bitI (reLo φ k0 k1) (reHi φ k0 k1) n
  | .bitBool k0 k1 => .bitBool (reLo φ k0 k1) (reHi φ k0 k1)
  | .name k0 k1 => .name (reLo φ k0 k1) (reHi φ k0 k1)
  | .struct k0 k1 f => .struct (reLo φ k0 k1) (reHi φ k0 k1) (f.mapKeys φ)
  | .arrFixed k0 k1 n f => .arrFixed (reLo φ k0 k1) (reHi φ k0 k1) n (f.mapKeys φ)
  | .arrPre p k0 k1 f => .arrPre p (reLo φ k0 k1) (reHi φ k0 k1) (f.mapKeys φ)
  | .arrDyn k0 k1 r0 r1 f => .arrDyn (reLo φ k0 k1) (reHi φ k0 k1) (reLo φ r0 r1) (reHi φ r0 r1) (f.mapKeys φ)
  | f => f

mutual

def Sch.mapKeys (φ : Nat → Nat) : Sch → Sch
  | .fld f => .fld (f.mapKeys φ)
  | .seq a b => .seq (a.mapKeys φ) (b.mapKeys φ)
  | .struct k0 k1 f => .struct (reLo φ k0 k1) (reHi φ k0 k1) (f.mapKeys φ)
  | .arrFixed k0 k1 n f => .arrFixed (reLo φ k0 k1) (reHi φ k0 k1) n (f.mapKeys φ)
  | .arrPre p k0 k1 f => .arrPre p (reLo φ k0 k1) (reHi φ k0 k1) (f.mapKeys φ)
  | .arrDyn k0 k1 r0 r1 f => .arrDyn (reLo φ k0 k1) (reHi φ k0 k1) (reLo φ r0 r1) (reHi φ r0 r1) (f.mapKeys φ)
  | .opt => .opt
  | .trans x c big t k0 k1 => .trans x c big t (reLo φ k0 k1) (reHi φ k0 k1)
  | .curve c big n k0 k1 => .curve c big n (reLo φ k0 k1) (reHi φ k0 k1)
  | .calc e big tag k0 k1 => .calc (e.mapKeys φ) big tag (reLo φ k0 k1) (reHi φ k0 k1)
  | .ite c a b => .ite (c.mapKeys φ) (a.mapKeys φ) (b.mapKeys φ)
  | .switch k0 k1 cs => .switch (reLo φ k0 k1) (reHi φ k0 k1) (cs.mapKeys φ)

def Cases.mapKeys (φ : Nat → Nat) : Cases → Cases
  | .nil => .nil
  | .cons l f rest => .cons l (f.mapKeys φ) (rest.mapKeys φ)

end

/-- The keys of a description. -/
def Fld.keys : Fld → List Nat
  | .seq a b => a.keys ++ b.keys
  | .scalar _ k0 k1 | .range _ k0 k1 _ _ | .enum _ k0 k1 _ | .const _ k0 k1 _ | .strNull k0 k1 _ _ | .strPre _ k0 k1
  | .bitU k0 k1 _ | .bitI k0 k1 _ | .bitBool k0 k1 | .name k0 k1 => [keyNum k0 k1]
  | .struct k0 k1 f | .arrFixed k0 k1 _ f | .arrPre _ k0 k1 f => keyNum k0 k1 :: f.keys
  | .arrDyn k0 k1 r0 r1 f => keyNum k0 k1 :: keyNum r0 r1 :: f.keys
  | _ => []

mutual

def Sch.keys : Sch → List Nat
  | .fld f => f.keys
  | .seq a b => a.keys ++ b.keys
  | .struct k0 k1 f | .arrFixed k0 k1 _ f | .arrPre _ k0 k1 f => keyNum k0 k1 :: f.keys
  | .arrDyn k0 k1 r0 r1 f => keyNum k0 k1 :: keyNum r0 r1 :: f.keys
  | .opt => []
  | .trans _ _ _ _ k0 k1 | .curve _ _ _ k0 k1 => [keyNum k0 k1]
  | .calc e _ _ k0 k1 => e.keys ++ [keyNum k0 k1]
  | .ite c a b => c.keys ++ (a.keys ++ b.keys)
  | .switch k0 k1 cs => keyNum k0 k1 :: cs.keys

def Cases.keys : Cases → List Nat
  | .nil => []
  | .cons _ f rest => f.keys ++ rest.keys

end

/-! ### Dead-string elimination -/

/-- Where an id goes. -/
def moved (map : List Nat) (k : Nat) : Nat := map[k]?.getD k

/-- Bytes that dead-string elimination, taking them for code, passes over without a change, not looking further. -/
def calm (map : List Nat) : Nat → List Byte → Bool
  | 0, l => l.isEmpty
  | _ + 1, [] => true
  | fuel + 1, op :: l =>
    if optKeyed op then
      match l with
      | k0 :: k1 :: l => op ≠ 0x3B ∧ (reLo (moved map) k0 k1, reHi (moved map) k0 k1) = (k0, k1) ∧ 4 ≤ l.length ∧
          optSkip true op l ≤ l.length ∧ calm map fuel (l.drop (optSkip true op l))
      | _ => false
    else
      op ≠ 0x4C ∧ op ≠ 0x4D ∧ (4 ≤ l.length ∨ op.toNat ∉ [0x39, 0x41, 0x61, 0x42, 0x4B]) ∧
        optSkip true op l ≤ l.length ∧ calm map fuel (l.drop (optSkip true op l))

def quiet (map : List Nat) (l : List Byte) : Bool := calm map l.length l

def IExpr.inStep (map : List Nat) : IExpr → Bool
  -- literals are taken for code
  | .lit w => quiet map (0x61 :: leBytes 8 w)
  | .fld _ _ => true
  | .un _ e => e.inStep map
  | .bin _ a b => a.inStep map ∧ b.inStep map

def Curve.inStep (map : List Nat) : Curve → Bool
  | .scale _ _ => true
  -- the coefficients are taken for code when the keys are rewritten, though not when they are counted
  | .poly cs => cs.length < 256 ∧ quiet map (BitVec.ofNat 8 cs.length :: cs.flatMap (leBytes 8))
  | .spline ps => ps.length % 2 = 0 ∧ ps.length < 512 ∧ quiet map (BitVec.ofNat 8 (ps.length / 2) :: ps.flatMap (leBytes 8))

def Fld.inStep : Fld → Bool
  | .scalar op _ _ => 0x10 ≤ op.toNat ∧ op.toNat ≤ 0x1A
  | .enum _ _ _ vals => vals.length < 65536
  | .seq .. | .bitBool .. | .struct .. | .arrFixed .. | .arrPre .. | .arrDyn .. => false
  | _ => true

/-- A boolean bit field and the byte behind it are one instruction to dead-string elimination. -/
def Sch.isBit : Sch → Sch → Bool
  | .fld (.bitBool _ _), .fld .setLE => true
  | _, _ => false

mutual

/-- Dead-string elimination takes exactly the keys for keys: not so behind computed fields, and for some literals and tables.
`marks` are the ids it has met in the program. -/
def Sch.inStep (marks map : List Nat) : Sch → Bool
  | .fld f => f.inStep
  | .seq a b => Sch.isBit a b ∨ (a.inStep marks map ∧ b.inStep marks map)
  | .struct _ _ f | .arrFixed _ _ _ f | .arrPre _ _ _ f | .arrDyn _ _ _ _ f => f.inStep marks map
  | .opt | .trans .. => true
  | .curve c _ _ _ _ => c.inStep map
  | .calc .. => false
  | .ite c a b => c.inStep map ∧ a.inStep marks map ∧ b.inStep marks map
  | .switch k0 k1 cs =>
    let t := tableOf (armsAt 0 cs.codes) (armsSize cs.codes)
    cs.inStep marks map ∧ quiet map t.2 ∧
    -- jump tables are not known to it
    (t.1 = 0x53 → quiet map (0x53 :: k0 :: k1 :: u32le (armsSize cs.codes)) ∧ keyNum k0 k1 ∈ marks ∧ moved map (keyNum k0 k1) = keyNum k0 k1)

def Cases.inStep (marks map : List Nat) : Cases → Bool
  | .nil => true
  | .cons _ f rest => f.inStep marks map ∧ rest.inStep marks map

end

/-- String table and description behind dead-string elimination. -/
def optSch (tab : List (List Byte)) (f : Sch) : Option (List (List Byte) × Sch) :=
  if tab.length = 0 then some (tab, f)
  else do
    let marks := optMarks f.code.length f.code
    let t := optTable marks 0 [] tab
    if f.inStep marks t.2 then some (t.1, f.mapKeys (moved t.2))
    else
      -- nothing to eliminate
      req (tab.Nodup ∧ tab.length ≤ 65536 ∧ ∀ i, i < tab.length → i ∈ marks)
      some (tab, f)

end Cnd
