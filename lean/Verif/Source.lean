/-
  Source programs of the schema language and the byte code they stand for: the specification for C59.

  A program is given as a syntax tree; `toks` are its tokens, `gen` is its meaning: the byte code, put together
  bottom-up without patching, and the string table. `gen` is none for programs that are refused, that have no sensible meaning,
  or that the specification leaves out (see DESIGN.md). Nothing in this file models code; numbers in comments are opcodes of
  /repo/include/concordia.h.
-/
import Verif.Parse
import Verif.Props.Precedence

namespace Cnd

/-- A word written in ASCII. -/
def word (s : String) : List Byte := s.toList.map fun c => BitVec.ofNat 8 c.toNat

/-- A requirement. -/
def req (c : Prop) [Decidable c] : Option Unit := if c then some () else none

/-! ### Tokens -/

/-- A token, without a line number. -/
def tk (ty : TT) (text : List Byte) : Tok := ⟨ty, text, 0⟩
def tId (w : List Byte) : Tok := tk .identifier w
def tNum (w : List Byte) : Tok := tk .number w
def tDoc (w : List Byte) : Tok := tk .doc w
def tAt : Tok := tk .at (word "@")
def tLp : Tok := tk .lparen (word "(")
def tRp : Tok := tk .rparen (word ")")
def tLb : Tok := tk .lbrace (word "{")
def tRb : Tok := tk .rbrace (word "}")
def tLk : Tok := tk .lbracket (word "[")
def tRk : Tok := tk .rbracket (word "]")
def tSemi : Tok := tk .semicolon (word ";")
def tColon : Tok := tk .colon (word ":")
def tComma : Tok := tk .comma (word ",")
def tEq : Tok := tk .equals (word "=")
def tDot : Tok := tk .dot (word ".")
def tIf : Tok := tk .kwIf (word "if")
def tElse : Tok := tk .kwElse (word "else")
def tSwitch : Tok := tk .kwSwitch (word "switch")
def tCase : Tok := tk .kwCase (word "case")
def tDefault : Tok := tk .kwDefault (word "default")
def tStruct : Tok := tk .kwStruct (word "struct")
def tPacket : Tok := tk .kwPacket (word "packet")
def tEnum : Tok := tk .kwEnum (word "enum")

/-- Tokens `sep`-arated by commas. -/
def commas : List (List Tok) → List Tok
  | [] => []
  | [x] => x
  | x :: y :: xs => x ++ tComma :: commas (y :: xs)

/-! ### Types -/

inductive NKind
  | unsigned | signed | float | bool
  deriving DecidableEq, Repr

/-- A number type: how values are read, bytes, opcode. -/
structure NTy where
  kind : NKind
  size : Nat
  op : Byte
  deriving DecidableEq, Repr

/-- The names of the number types. -/
def numTypes : List (List Byte × NTy) :=
  [(word "uint8", ⟨.unsigned, 1, 0x10⟩), (word "byte", ⟨.unsigned, 1, 0x10⟩), (word "u8", ⟨.unsigned, 1, 0x10⟩),
   (word "uint16", ⟨.unsigned, 2, 0x11⟩), (word "u16", ⟨.unsigned, 2, 0x11⟩),
   (word "uint32", ⟨.unsigned, 4, 0x12⟩), (word "u32", ⟨.unsigned, 4, 0x12⟩),
   (word "uint64", ⟨.unsigned, 8, 0x13⟩), (word "u64", ⟨.unsigned, 8, 0x13⟩),
   (word "int8", ⟨.signed, 1, 0x14⟩), (word "i8", ⟨.signed, 1, 0x14⟩),
   (word "int16", ⟨.signed, 2, 0x15⟩), (word "i16", ⟨.signed, 2, 0x15⟩),
   (word "int32", ⟨.signed, 4, 0x16⟩), (word "i32", ⟨.signed, 4, 0x16⟩),
   (word "int64", ⟨.signed, 8, 0x17⟩), (word "i64", ⟨.signed, 8, 0x17⟩),
   (word "float", ⟨.float, 4, 0x18⟩), (word "f32", ⟨.float, 4, 0x18⟩),
   (word "double", ⟨.float, 8, 0x19⟩), (word "f64", ⟨.float, 8, 0x19⟩), (word "bool", ⟨.bool, 1, 0x1A⟩)]

def NTy.isInt (t : NTy) : Bool := t.kind = .unsigned ∨ t.kind = .signed

/-- Whether a constant is a value of an integer type. -/
def NTy.fits (t : NTy) (v : Word) : Bool :=
  match t.kind with
  | .unsigned => v.toNat < 2 ^ (8 * t.size)
  | .signed => -(2 : Int) ^ (8 * t.size - 1) ≤ v.toInt ∧ v.toInt < (2 : Int) ^ (8 * t.size - 1)
  | _ => false

/-- The types of length prefixes: opcode for arrays (ARR_PRE_*), opcode for strings (STR_PRE_*). -/
def preTypes : List (List Byte × Byte × Byte) :=
  [(word "uint8", 0x35, 0x31), (word "u8", 0x35, 0x31), (word "uint16", 0x36, 0x32), (word "u16", 0x36, 0x32),
   (word "uint32", 0x37, 0x33), (word "u32", 0x37, 0x33)]

/-! ### What a statement depends on, and what it changes -/

structure Ctx where
  dbl : List Byte → Word
  fl : FloatOps
  structs : List (List Byte × List Byte)
  enums : List EnumD
  self : Option (List Byte)
  inBit : Bool

/-- String table, names of the fields seen so far, and bits since the last byte boundary (of an unaligned struct). -/
structure Gen where
  tab : List (List Byte)
  fields : List (List Byte)
  bits : Nat
  deriving DecidableEq, Repr

/-! ### Decorators -/

inductive Deco
  | be (long : Bool) | le (long : Bool) | optional | eof | refin | refout
  | fill (v : Option (List Byte))
  | count (long : Bool) (n : List Byte)
  | countOf (long : Bool) (field : List Byte)
  | const (long : Bool) (n : List Byte)
  | pad (n : List Byte)
  | range (lo hi : List Byte)
  | crc (n : List Byte) | crcPoly (n : List Byte) | crcInit (n : List Byte) | crcXor (n : List Byte)
  | scale (x : List Byte) | offset (x : List Byte)
  | mul (n : List Byte) | div (n : List Byte) | add (n : List Byte) | sub (n : List Byte)
  | poly (c : List Byte) (cs : List (List Byte))
  | spline (p : List Byte × List Byte) (ps : List (List Byte × List Byte))
  | expr (e : ETree)

/-- `@name(args)` -/
def called (name : List Byte) (args : List Tok) : List Tok := tAt :: tId name :: tLp :: (args ++ [tRp])

def Deco.toks : Deco → List Tok
  | .be long => [tAt, tId (if long then word "big_endian" else word "be")]
  | .le long => [tAt, tId (if long then word "little_endian" else word "le")]
  | .optional => [tAt, tId (word "optional")]
  | .eof => [tAt, tId (word "eof")]
  | .refin => [tAt, tId (word "crc_refin")]
  | .refout => [tAt, tId (word "crc_refout")]
  | .fill none => [tAt, tId (word "fill")]
  | .fill (some v) => called (word "fill") [tNum v]
  | .count long n => called (if long then word "count" else word "len") [tNum n]
  | .countOf long n => called (if long then word "count" else word "len") [tId n]
  | .const long n => called (if long then word "const" else word "match") [tNum n]
  | .pad n => called (word "pad") [tNum n]
  | .range lo hi => called (word "range") [tNum lo, tComma, tNum hi]
  | .crc n => called (word "crc") [tNum n]
  | .crcPoly n => called (word "crc_poly") [tNum n]
  | .crcInit n => called (word "crc_init") [tNum n]
  | .crcXor n => called (word "crc_xor") [tNum n]
  | .scale n => called (word "scale") [tNum n]
  | .offset n => called (word "offset") [tNum n]
  | .mul n => called (word "mul") [tNum n]
  | .div n => called (word "div") [tNum n]
  | .add n => called (word "add") [tNum n]
  | .sub n => called (word "sub") [tNum n]
  | .poly c cs => called (word "poly") (commas ((c :: cs).map fun n => [tNum n]))
  | .spline p ps => called (word "spline") (commas ((p :: ps).map fun q => [tNum q.1, tComma, tNum q.2]))
  | .expr e => called (word "expr") e.flat

instance ETree.decRespects : (t : ETree) → Decidable t.Respects
  | .leaf _ _ => isTrue trivial
  | .node l op r =>
    have := l.decRespects
    have := r.decRespects
    inferInstanceAs (Decidable (0 < opLevel op.type ∧ opLevel op.type ≤ l.root ∧ opLevel op.type < r.root ∧ l.Respects ∧ r.Respects))
  | .call _ _ a _ => a.decRespects
  | .call2 _ _ a _ b _ =>
    have := a.decRespects
    have := b.decRespects
    inferInstanceAs (Decidable (a.Respects ∧ b.Respects))
  | .paren _ _ a _ => a.decRespects
  | .unary _ _ a =>
    have := a.decRespects
    inferInstanceAs (Decidable (a.root = 12 ∧ a.Respects))

instance (first : Tok) (subs : List (Tok × Tok)) : Decidable (LeafOk first subs) := by unfold LeafOk; infer_instance

instance (f lp rp : Tok) : Decidable (CallOk f lp rp) := by unfold CallOk; infer_instance

instance (f lp comma rp : Tok) : Decidable (CallOk2 f lp comma rp) := by unfold CallOk2; infer_instance

instance ETree.decLeavesOk : (t : ETree) → Decidable t.LeavesOk
  | .leaf first subs => inferInstanceAs (Decidable (LeafOk first subs))
  | .node l _ r =>
    have := l.decLeavesOk
    have := r.decLeavesOk
    inferInstanceAs (Decidable (l.LeavesOk ∧ r.LeavesOk))
  | .call f lp a rp =>
    have := a.decLeavesOk
    inferInstanceAs (Decidable (CallOk f lp rp ∧ a.LeavesOk))
  | .call2 f lp a comma b rp =>
    have := a.decLeavesOk
    have := b.decLeavesOk
    inferInstanceAs (Decidable (CallOk2 f lp comma rp ∧ a.LeavesOk ∧ b.LeavesOk))
  | .paren _ _ _ _ => isFalse id
  | .unary _ _ _ => isFalse id

/-- The code of an expression, and the string table with its names. -/
def exprGen (C : Ctx) (e : ETree) (tab : List (List Byte)) : Option (List Byte × List (List Byte)) := do
  req (e.Respects ∧ e.LeavesOk)
  some (e.code C.dbl tab)

/-- What a decorator does: code emitted in front of the field, the field's attributes, the state. -/
def Deco.gen (C : Ctx) (x : Deco) (a : Dec) (g : Gen) : Option (List Byte × Dec × Gen) :=
  match x with
  | .be _ => some ([], { a with be := true }, g)
  | .le _ => some ([], { a with be := false }, g)
  | .optional => some ([0x4A], a, g)
  | .eof => some ([], { a with eof := true }, g)
  | .refin => some ([], { a with crcFlags := a.crcFlags ||| 1 }, g)
  | .refout => some ([], { a with crcFlags := a.crcFlags ||| 2 }, g)
  | .fill v => do
    let b : Byte := match v with
      | none => 0
      | some n => (parseU32 n).setWidth 8
    req (b = 0 ∨ b = 1)
    some ([0x24, b], { a with alone := true }, if C.inBit then { g with bits := 0 } else g)
  | .count _ n => some ([], { a with count := some (parseU32 n) }, g)
  | .countOf _ n =>
    let r := strtabAdd g.tab n
    some ([], { a with ref := some r.2 }, { g with tab := r.1 })
  | .const _ n => do
    let v ← parseI64 n
    some ([], { a with const := some v }, g)
  | .pad n => some ([0x23, (parseU32 n).setWidth 8], { a with alone := true },
      if C.inBit then { g with bits := g.bits + (parseU32 n).toNat } else g)
  | .range lo hi => some ([], { a with range := some (tNum lo, tNum hi) }, g)
  | .crc n =>
    if parseU32 n = 16 then
      some ([], { a with crc := true, crcWidth := 16, crcPoly := 0x1021, crcInit := 0xFFFF, crcXor := 0, crcFlags := 0 }, g)
    else if parseU32 n = 32 then
      some ([], { a with crc := true, crcWidth := 32, crcPoly := 0x04C11DB7, crcInit := 0xFFFFFFFF, crcXor := 0xFFFFFFFF,
                         crcFlags := 3 }, g)
    else none
  | .crcPoly n => some ([], { a with crcPoly := parseU32 n }, g)
  | .crcInit n => some ([], { a with crcInit := parseU32 n }, g)
  | .crcXor n => some ([], { a with crcXor := parseU32 n }, g)
  | .scale x => some ([], { a with trans := .scale, scale := C.dbl x }, g)
  | .offset x => some ([], { a with trans := .scale, offset := C.dbl x,
                                    scale := if a.trans = .scale then a.scale else 0x3FF0000000000000 }, g)
  | .mul n => do
    let v ← parseI64 n
    some ([], { a with trans := .mul, ival := v }, g)
  | .div n => do
    let v ← parseI64 n
    some ([], { a with trans := .div, ival := v }, g)
  | .add n => do
    let v ← parseI64 n
    some ([], { a with trans := .add, ival := v }, g)
  | .sub n => do
    let v ← parseI64 n
    some ([], { a with trans := .sub, ival := v }, g)
  | .poly c cs => do
    let l := a.poly ++ (c :: cs).map C.dbl
    req (l.length ≤ 16)
    some ([], { a with trans := .poly, poly := l }, g)
  | .spline p ps => do
    let l := a.spline ++ (p :: ps).flatMap fun q => [C.dbl q.1, C.dbl q.2]
    req (l.length ≤ 32)
    some ([], { a with trans := .spline, spline := l }, g)
  | .expr e => do
    let r ← exprGen C e g.tab
    some (r.1, { a with expr := true }, { g with tab := r.2 })

def decosGen (C : Ctx) : List Deco → Dec → Gen → Option (List Byte × Dec × Gen)
  | [], a, g => some ([], a, g)
  | x :: xs, a, g => do
    let r ← x.gen C a g
    let q ← decosGen C xs r.2.1 r.2.2
    some (r.1 ++ q.1, q.2)

/-! ### Fields -/

/-- Brackets behind the name. -/
inductive Dims
  | none | empty | fixed (n : List Byte)
  deriving DecidableEq, Repr

inductive Mods
  | pre (ty : List Byte)
  | lim (until_ : Option (List Byte)) (max : Option (List Byte))
  deriving DecidableEq, Repr

structure FieldD where
  decs : List Deco
  type : List Byte
  name : List Byte
  width : Option (List Byte)
  dims : Dims
  mods : Mods

def Dims.toks : Dims → List Tok
  | .none => []
  | .empty => [tLk, tRk]
  | .fixed n => [tLk, tNum n, tRk]

def Mods.toks : Mods → List Tok
  | .pre ty => [tId (word "prefix"), tId ty]
  | .lim u m =>
    (match u with
      | some n => [tId (word "until"), tNum n]
      | none => []) ++
    (match m with
      | some n => [tId (word "max"), tNum n]
      | none => [])

def FieldD.toks (d : FieldD) : List Tok :=
  d.decs.flatMap Deco.toks ++ tId d.type :: tId d.name ::
    ((match d.width with
      | some n => [tColon, tNum n]
      | none => []) ++ d.dims.toks ++ d.mods.toks ++ [tSemi])

/-- The transform in front of a field. -/
def transPart (a : Dec) : List Byte :=
  match a.trans with
  | .none => []
  | .scale => [0x43] ++ leBytes 8 a.scale ++ leBytes 8 a.offset
  | .mul => [0x47] ++ leBytes 8 a.ival
  | .div => [0x48] ++ leBytes 8 a.ival
  | .add => [0x45] ++ leBytes 8 a.ival
  | .sub => [0x46] ++ leBytes 8 a.ival
  | .poly => [0x4C, BitVec.ofNat 8 a.poly.length] ++ a.poly.flatMap (leBytes 8)
  | .spline => [0x4D, BitVec.ofNat 8 (a.spline.length / 2)] ++ a.spline.flatMap (leBytes 8)

/-- The check of a range, behind the field. -/
def rangeGen (C : Ctx) (t : NTy) (r : Option (Tok × Tok)) : Option (List Byte) :=
  match r with
  | none => some []
  | some (lo, hi) =>
    match t.kind with
    | .unsigned =>
      if t.size < 8 then do
        let a := parseU32 lo.text
        let b := parseU32 hi.text
        req (a.toNat ≤ b.toNat)
        some ([0x42, t.op] ++ leBytes t.size (BitVec.ofNat 64 a.toNat) ++ leBytes t.size (BitVec.ofNat 64 b.toNat))
      else do
        let a ← parseI64 lo.text
        let b ← parseI64 hi.text
        req (a.toNat ≤ b.toNat)
        some ([0x42, t.op] ++ leBytes t.size a ++ leBytes t.size b)
    | .signed => do
      let a ← parseI64 lo.text
      let b ← parseI64 hi.text
      req (a.toInt ≤ b.toInt)
      some ([0x42, t.op] ++ leBytes t.size a ++ leBytes t.size b)
    | .float => do
      let a := C.dbl lo.text
      let b := C.dbl hi.text
      req (C.fl.lt b a = false)
      if t.size = 4 then
        some ([0x42, t.op] ++ leBytes 4 ((C.fl.toF32 a).setWidth 64) ++ leBytes 4 ((C.fl.toF32 b).setWidth 64))
      else some ([0x42, t.op] ++ leBytes 8 a ++ leBytes 8 b)
    | .bool => none

/-- An array whose length is stored in front of it. -/
def FieldD.arrayPre (d : FieldD) (a : Dec) : Bool :=
  d.dims = .empty ∧ a.count = none ∧ a.ref = none

/-- The start of an array. -/
def arrayHead (d : FieldD) (a : Dec) (key : Nat) : Option (List Byte) :=
  match d.dims with
  | .none => some []
  | _ =>
    match (if d.arrayPre a then d.mods else .lim none none) with
    | .pre ty => do
      let p ← preTypes.lookup ty
      some (p.1 :: u16le key)
    | .lim _ _ =>
      if a.eof then some (0x3A :: u16le key)
      else match a.ref with
        | some r => some (0x3B :: (u16le key ++ u16le r))
        | none =>
          match a.count with
          | some n => some (0x34 :: (u16le key ++ u32le n.toNat))
          | none => none

/-- A string: with its length in front, or ended by a zero byte. -/
def stringCode (d : FieldD) (a : Dec) (key : Nat) : Option (List Byte) :=
  match (if d.arrayPre a then .lim none none else d.mods) with
  | .pre ty => do
    let p ← preTypes.lookup ty
    some (p.2 :: u16le key)
  | .lim u m => do
    req (d.dims = .none ∨ u.isSome)
    let max : BitVec 32 := match m with
      | some n => parseU32 n
      | none => 255
    some (0x30 :: (u16le key ++ u16le max.toNat))

/-- The width of a bit field, if the field is one. -/
def bitsOf (C : Ctx) (d : FieldD) (t : NTy) : Option Nat :=
  match d.width with
  | some n => some (parseU32 n).toNat
  | none => if C.inBit then some (if t.kind = .bool then 1 else 8 * t.size) else none

/-- The instruction for a bit field. -/
def NTy.bitOp (t : NTy) : Option Byte :=
  match t.kind with
  | .unsigned => some 0x20
  | .signed => some 0x21
  | .bool => some 0x22
  | .float => none

/-- A field of a number type. -/
def numberCode (C : Ctx) (d : FieldD) (a : Dec) (key : Nat) (t : NTy) (g : Gen) : Option (List Byte × Gen) :=
  match bitsOf C d t with
  | some w => do
    req (0 < w ∧ w < 256 ∧ a.range = none ∧ a.crc = false ∧ a.expr = false)
    let op ← t.bitOp
    some (op :: (u16le key ++ [BitVec.ofNat 8 w]), if C.inBit then { g with bits := g.bits + w } else g)
  | none =>
    if a.crc then
      if a.crcWidth = 16 ∧ t.op = 0x11 then
        some ([0x44] ++ u16le a.crcPoly.toNat ++ u16le a.crcInit.toNat ++ u16le a.crcXor.toNat ++ [a.crcFlags], g)
      else if a.crcWidth = 32 ∧ t.op = 0x12 then
        some ([0x49] ++ u32le a.crcPoly.toNat ++ u32le a.crcInit.toNat ++ u32le a.crcXor.toNat ++ [a.crcFlags], g)
      else none
    else if a.expr then some ([0x64, 0x78] ++ u16le key ++ [0x65, t.op], g)
    else do
      let r ← rangeGen C t a.range
      some ([t.op] ++ u16le key ++ r, g)

/-- The enum with this name, and its underlying type. -/
def enumNamed (C : Ctx) (name : List Byte) : Option EnumD := C.enums.find? fun e => e.name = name

/-- The integer type with this opcode. -/
def intOf (op : Byte) : Option NTy := (numTypes.map (·.2)).find? fun t => t.op = op ∧ t.isInt

/-- The value of a field. -/
def valueCode (C : Ctx) (d : FieldD) (a : Dec) (key : Nat) (g : Gen) : Option (List Byte × Gen) :=
  match a.const with
  | some v => do
    let t ← numTypes.lookup d.type
    req (t.isInt ∧ t.fits v)
    let r ← rangeGen C t a.range
    some ([0x40] ++ u16le key ++ [t.op] ++ leBytes t.size v ++ r, g)
  | none => do
    req (C.self ≠ some d.type)
    if d.type = word "string" then do
      req (C.structs.lookup d.type = none ∧ (enumNamed C d.type).isNone ∧ a.trans = .none ∧ a.range = none ∧ a.crc = false ∧
        d.width = none)
      let c ← stringCode d a key
      some (c, g)
    else
      match C.structs.lookup d.type with
      | some code => do
        req (a.trans = .none ∧ a.range = none ∧ a.crc = false ∧ d.width = none)
        let r ← inlineCode (d.name.take 255) code.length g.tab code
        some ([0x03] ++ u16le key ++ r.1 ++ [0x04], { g with tab := r.2 })
      | none =>
        match enumNamed C d.type with
        | some e => do
          req (a.trans = .none ∧ a.crc = false ∧ d.width = none)
          let t ← intOf e.type
          let r ← rangeGen C t a.range
          some ([t.op] ++ u16le key ++ [0x4B, t.op] ++ u16le e.values.length ++ e.values.flatMap (fun v => leBytes t.size v.2) ++ r, g)
        | none => do
          let t ← numTypes.lookup d.type
          numberCode C d a key t g

/-- Limits are for strings, prefixes for strings and for arrays without another length. -/
def FieldD.modsOk (d : FieldD) (a : Dec) : Bool :=
  match d.mods with
  | .pre ty => (preTypes.lookup ty).isSome ∧ (d.arrayPre a ∨ d.type = word "string")
  | .lim none none => true
  | .lim _ _ => d.type = word "string"

/-- The attributes of a field, with the number in brackets. -/
def FieldD.attrs (d : FieldD) (a : Dec) : Dec :=
  match d.dims with
  | .fixed n => { a with count := some (parseU32 n) }
  | _ => a

/-- A field behind its decorators. -/
def FieldD.body (C : Ctx) (d : FieldD) (a : Dec) (g : Gen) : Option (List Byte × Gen) := do
  req (d.name ∉ g.fields)
  let i := strtabAdd g.tab d.name
  req (d.modsOk (d.attrs a))
  let head ← arrayHead d (d.attrs a) i.2
  let v ← valueCode C d (d.attrs a) i.2 { g with tab := i.1, fields := g.fields ++ [d.name] }
  some (transPart a ++ (if a.be then [0x02] else []) ++ head ++ v.1 ++ (if d.dims = .none then [] else [0x38]) ++
    (if a.be then [0x01] else []), v.2)

def FieldD.gen (C : Ctx) (d : FieldD) (g : Gen) : Option (List Byte × Gen) := do
  let r ← decosGen C d.decs {} g
  let q ← d.body C r.2.1 r.2.2
  some (r.1 ++ q.1, q.2)

/-! ### Statements -/

inductive Label
  | num (n : List Byte)
  | enum (e v : List Byte)
  | default
  deriving DecidableEq, Repr

mutual

inductive Body
  | done
  /-- padding at the end, without semicolon -/
  | tail (decs : List Deco)
  | doc (text : List Byte) (rest : Body)
  | stmt (s : Stmt) (rest : Body)

inductive Stmt
  | field (d : FieldD)
  /-- padding -/
  | lone (decs : List Deco)
  | ite (c : ETree) (thn : Body) (els : Els)
  | switch (key : List Byte) (arms : Arms)

inductive Els
  | none
  | block (b : Body)
  | elif (c : ETree) (thn : Body) (els : Els)

inductive Arms
  | done
  | block (l : Label) (b : Body) (rest : Arms)
  | stmt (l : Label) (s : Stmt) (rest : Arms)

end

def Label.toks : Label → List Tok
  | .num n => [tCase, tNum n, tColon]
  | .enum e v => [tCase, tId e, tDot, tId v, tColon]
  | .default => [tDefault, tColon]

mutual

def Body.toks : Body → List Tok
  | .done => []
  | .tail decs => decs.flatMap Deco.toks
  | .doc t rest => tDoc t :: rest.toks
  | .stmt s rest => s.toks ++ rest.toks

def Stmt.toks : Stmt → List Tok
  | .field d => d.toks
  | .lone decs => decs.flatMap Deco.toks ++ [tSemi]
  | .ite c thn els => tIf :: tLp :: (c.flat ++ tRp :: tLb :: (thn.toks ++ tRb :: els.toks))
  | .switch key arms => tSwitch :: tLp :: tId key :: tRp :: tLb :: (arms.toks ++ [tRb])

def Els.toks : Els → List Tok
  | .none => []
  | .block b => tElse :: tLb :: (b.toks ++ [tRb])
  | .elif c thn els => tElse :: tIf :: tLp :: (c.flat ++ tRp :: tLb :: (thn.toks ++ tRb :: els.toks))

def Arms.toks : Arms → List Tok
  | .done => []
  | .block l b rest => l.toks ++ tLb :: (b.toks ++ tRb :: rest.toks)
  | .stmt l s rest => l.toks ++ s.toks ++ rest.toks

end

/-- The value of a case label; none for the default. -/
def Label.value (C : Ctx) : Label → Option (Option Word)
  | .num n => (parseI64 n).map some
  | .enum e v => do
    let d ← enumNamed C e
    let w ← d.values.lookup v
    some (some w)
  | .default => some none

/-- `if`: jump over the first branch if the condition is zero, at its end jump over the second. -/
def iteCode (c thn els : List Byte) : List Byte :=
  c ++ [0x50] ++ u32le (thn.length + 5) ++ thn ++ [0x52] ++ u32le els.length ++ els

/-- Bytes of the cases: each ends with a jump (5 bytes). -/
def armsSize (l : List (Option Word × List Byte)) : Nat := (l.map fun x => x.2.length + 5).sum

/-- The cases, each ended by a jump behind the table of `t` bytes. -/
def armsCode (t : Nat) : List (Option Word × List Byte) → List Byte
  | [] => []
  | x :: xs => x.2 ++ [0x52] ++ u32le (armsSize xs + t) ++ armsCode t xs

/-- Where the cases begin. -/
def armsAt (n : Nat) : List (Option Word × List Byte) → List (Option Word × Nat)
  | [] => []
  | x :: xs => (x.1, n) :: armsAt (n + x.2.length + 5) xs

/-- The values with their offsets. -/
def caseAt (l : List (Option Word × Nat)) : List (Word × Nat) :=
  l.filterMap fun x => x.1.map fun v => (v, x.2)

/-- The table of a switch whose cases take `size` bytes: instruction and table. With more than three cases within a range of 256
values it has an entry for every value of the range, else one for every case. Values are unsigned here. -/
def tableOf (l : List (Option Word × Nat)) (size : Nat) : Byte × List Byte :=
  let cases := caseAt l
  let vs := cases.map fun c => c.1.toNat
  let lo := vs.foldl Nat.min (2 ^ 64)
  let hi := vs.foldl Nat.max 0
  if cases.length > 3 ∧ hi - lo < 256 then
    let dflt := (l.lookup none).getD (size + 20 + 4 * (hi - lo + 1))
    (0x53, leBytes 8 (BitVec.ofNat 64 lo) ++ leBytes 8 (BitVec.ofNat 64 hi) ++ u32le dflt ++
      (List.range (hi - lo + 1)).flatMap fun i => u32le ((l.lookup (some (BitVec.ofNat 64 (lo + i)))).getD dflt))
  else
    let dflt := (l.lookup none).getD (size + 6 + 12 * cases.length)
    (0x51, u16le cases.length ++ u32le dflt ++ cases.flatMap fun c => leBytes 8 c.1 ++ u32le c.2)

/-- `switch`: instruction, key, distance to the table, cases, table. -/
def switchCode (key : Nat) (l : List (Option Word × List Byte)) : List Byte :=
  let t := tableOf (armsAt 0 l) (armsSize l)
  [t.1] ++ u16le key ++ u32le (armsSize l) ++ armsCode t.2.length l ++ t.2

mutual

def Body.gen (C : Ctx) : Body → Gen → Option (List Byte × Gen)
  | .done, g => some ([], g)
  | .tail decs, g => do
    let r ← decosGen C decs {} g
    req (r.2.1.alone = true)
    some (r.1, r.2.2)
  | .doc _ rest, g => rest.gen C g
  | .stmt s rest, g => do
    let r ← s.gen C g
    let q ← rest.gen C r.2
    some (r.1 ++ q.1, q.2)

def Stmt.gen (C : Ctx) : Stmt → Gen → Option (List Byte × Gen)
  | .field d, g => d.gen C g
  | .lone decs, g => do
    let r ← decosGen C decs {} g
    req (r.2.1.alone = true)
    some (r.1, r.2.2)
  | .ite c thn els, g => do
    let e ← exprGen C c g.tab
    let t ← thn.gen C { g with tab := e.2 }
    let f ← els.gen C t.2
    some (iteCode e.1 t.1 f.1, f.2)
  | .switch key arms, g => do
    let i := strtabAdd g.tab key
    let r ← arms.gen C [] { g with tab := i.1 }
    some (switchCode i.2 r.1, r.2)

def Els.gen (C : Ctx) : Els → Gen → Option (List Byte × Gen)
  | .none, g => some ([], g)
  | .block b, g => b.gen C g
  | .elif c thn els, g => do
    let e ← exprGen C c g.tab
    let t ← thn.gen C { g with tab := e.2 }
    let f ← els.gen C t.2
    some (iteCode e.1 t.1 f.1, f.2)

/-- The cases of a switch, with distinct labels; `seen` are those before. -/
def Arms.gen (C : Ctx) : Arms → List (Option Word) → Gen → Option (List (Option Word × List Byte) × Gen)
  | .done, _, g => some ([], g)
  | .block l b rest, seen, g => do
    let v ← l.value C
    req (v ∉ seen)
    let r ← b.gen C g
    let q ← rest.gen C (seen ++ [v]) r.2
    some ((v, r.1) :: q.1, q.2)
  | .stmt l s rest, seen, g => do
    let v ← l.value C
    req (v ∉ seen)
    let r ← s.gen C g
    let q ← rest.gen C (seen ++ [v]) r.2
    some ((v, r.1) :: q.1, q.2)

end

/-! ### Files -/

inductive TopDec
  | version (n : List Byte) | bigEndian | littleEndian (long : Bool) | unaligned

def TopDec.toks : TopDec → List Tok
  | .version n => called (word "version") [tNum n]
  | .bigEndian => [tAt, tId (word "big_endian")]
  | .littleEndian long => [tAt, tId (if long then word "little_endian" else word "le")]
  | .unaligned => [tAt, tId (word "unaligned_bytes")]

/-- A value of an enum; whether a comma follows. -/
structure EnumV where
  name : List Byte
  value : Option (List Byte)
  comma : Bool

def EnumV.toks (v : EnumV) : List Tok :=
  tId v.name :: ((match v.value with
    | some n => [tEq, tNum n]
    | none => []) ++ (if v.comma then [tComma] else []))

inductive Decl
  | enum (name : List Byte) (type : Option (List Byte)) (values : List EnumV)
  | struct (name : List Byte) (body : Body)
  | packet (name : List Byte) (body : Body)
  | packetOf (name struct : List Byte)
  | empty

inductive Item
  | doc (text : List Byte)
  | decl (decs : List TopDec) (d : Decl)

def Decl.toks : Decl → List Tok
  | .enum name ty vs => tEnum :: tId name :: ((match ty with
      | some t => [tColon, tId t]
      | none => []) ++ tLb :: (vs.flatMap EnumV.toks ++ [tRb]))
  | .struct name b => tStruct :: tId name :: tLb :: (b.toks ++ [tRb])
  | .packet name b => tPacket :: tId name :: tLb :: (b.toks ++ [tRb])
  | .packetOf name s => [tPacket, tId name, tEq, tId s, tSemi]
  | .empty => [tSemi]

def Item.toks : Item → List Tok
  | .doc t => [tDoc t]
  | .decl decs d => decs.flatMap TopDec.toks ++ d.toks

/-- The state between declarations. -/
structure Top where
  tab : List (List Byte) := []
  structs : List (List Byte × List Byte) := []
  enums : List EnumD := []
  code : List Byte := []
  unaligned : Bool := false
  packets : Nat := 0
  deriving DecidableEq, Repr

def TopDec.gen (x : TopDec) (t : Top) : Top :=
  match x with
  | .version n => { t with code := t.code ++ [0x05, (parseU32 n).setWidth 8] }
  | .bigEndian => { t with code := t.code ++ [0x02] }
  | .littleEndian _ => { t with code := t.code ++ [0x01] }
  | .unaligned => { t with unaligned := true }

/-- Whether a name is free for a struct, an enum or a packet. -/
def Top.free (t : Top) (name : List Byte) : Bool :=
  name ∉ t.structs.map (·.1) ∧ name ∉ t.enums.map (·.name)

/-- The number of a value. -/
def EnumV.number (x : EnumV) (next : Word) : Option Word :=
  match x.value with
  | some n => parseI64 n
  | none => some next

/-- The values of an enum: those without a number count on. The largest 64-bit value is left out. -/
def enumGen (vals : List (List Byte × Word)) (next : Word) : List EnumV → Option (List (List Byte × Word))
  | [] => some vals
  | x :: xs => do
    let v ← x.number next
    req (x.name ∉ vals.map (·.1) ∧ v ∉ vals.map (·.2) ∧ v.toInt ≠ 2 ^ 63 - 1)
    enumGen (vals ++ [(x.name, v)]) (v + 1) xs

/-- The underlying type of an enum. -/
def enumTy (ty : Option (List Byte)) : Option Byte :=
  match ty with
  | none => some 0x12
  | some w => do
    let t ← numTypes.lookup w
    req (t.isInt ∧ w ≠ word "byte")
    some t.op

def Top.ctx (dbl : List Byte → Word) (fl : FloatOps) (t : Top) (self : Option (List Byte)) (inBit : Bool) : Ctx :=
  ⟨dbl, fl, t.structs, t.enums, self, inBit⟩

def Decl.gen (dbl : List Byte → Word) (fl : FloatOps) (x : Decl) (t : Top) : Option Top :=
  match x with
  | .enum name ty vs => do
    req (t.free name)
    let op ← enumTy ty
    let l ← enumGen [] 0 vs
    some { t with enums := t.enums ++ [⟨name, op, l⟩] }
  | .struct name b => do
    req (t.free name)
    let r ← b.gen (t.ctx dbl fl (some name) t.unaligned) ⟨t.tab, [], 0⟩
    req (t.unaligned = true → r.2.bits % 8 = 0)
    let code := if t.unaligned then [0x25, 0x02] ++ r.1 ++ [0x26] else r.1
    some { t with tab := r.2.tab, structs := t.structs ++ [(name, code)], unaligned := false }
  | .packet name b => do
    req (t.free name ∧ t.packets = 0)
    let r ← b.gen (t.ctx dbl fl none false) ⟨t.tab, [], 0⟩
    let i := strtabAdd r.2.tab name
    some { t with tab := i.1, code := t.code ++ ([0x07] ++ u16le i.2 ++ r.1), packets := 1 }
  | .packetOf name s => do
    req (t.free name ∧ t.packets = 0)
    let code ← t.structs.lookup s
    let i := strtabAdd t.tab name
    some { t with tab := i.1, code := t.code ++ ([0x07] ++ u16le i.2 ++ code), packets := 1 }
  | .empty => some t

def progGen (dbl : List Byte → Word) (fl : FloatOps) : List Item → Top → Option Top
  | [], t => some t
  | .doc _ :: xs, t => progGen dbl fl xs t
  | .decl decs d :: xs, t => do
    let t ← d.gen dbl fl (decs.foldl (fun t x => x.gen t) t)
    progGen dbl fl xs t

/-- The string table and the byte code of a program: exactly one packet. -/
def progCode (dbl : List Byte → Word) (fl : FloatOps) (prog : List Item) : Option (List (List Byte) × List Byte) := do
  let t ← progGen dbl fl prog {}
  req (t.packets = 1)
  some (t.tab, t.code)

end Cnd
