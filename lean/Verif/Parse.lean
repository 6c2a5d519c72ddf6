/-
  The statement parser and code generator of the compiler.

  Models /repo/src/compiler/cnd_parser.c lines 282-347 (emit_range_check), 470-504 (parse_if), 506-728 (parse_switch),
  730-1295 (parse_field), 1297-1318 (parse_block), 1320-1415 (parse_enum), 1417-1488 (parse_struct), 1490-1538
  (parse_packet), 1622-1685 (parse_top_level) and the driver of /repo/src/compiler/cndc.c 258-321 (cnd_compile_file), with the
  registries of /repo/src/compiler/cnd_utils.c 342-432.

  As in ExprParse.lean the lexer is the list of tokens to come. Left out: documentation comments are skipped but not
  stored, messages are counted but have no text, verbose output, file names; `@import` is the outcome `imports`.
  `current_bit_count` is an `int`; it is kept modulo 2^32.
-/
import Verif.ExprParse
import Verif.OptStr
import Verif.SwitchGen
import Verif.Image

namespace Cnd

/-! ### Words of the language -/

def s_big_endian : List Byte := [0x62, 0x69, 0x67, 0x5F, 0x65, 0x6E, 0x64, 0x69, 0x61, 0x6E]
def s_be : List Byte := [0x62, 0x65]
def s_little_endian : List Byte := [0x6C, 0x69, 0x74, 0x74, 0x6C, 0x65, 0x5F, 0x65, 0x6E, 0x64, 0x69, 0x61, 0x6E]
def s_le : List Byte := [0x6C, 0x65]
def s_fill : List Byte := [0x66, 0x69, 0x6C, 0x6C]
def s_crc_refin : List Byte := [0x63, 0x72, 0x63, 0x5F, 0x72, 0x65, 0x66, 0x69, 0x6E]
def s_crc_refout : List Byte := [0x63, 0x72, 0x63, 0x5F, 0x72, 0x65, 0x66, 0x6F, 0x75, 0x74]
def s_optional : List Byte := [0x6F, 0x70, 0x74, 0x69, 0x6F, 0x6E, 0x61, 0x6C]
def s_eof : List Byte := [0x65, 0x6F, 0x66]
def s_count : List Byte := [0x63, 0x6F, 0x75, 0x6E, 0x74]
def s_len : List Byte := [0x6C, 0x65, 0x6E]
def s_const : List Byte := [0x63, 0x6F, 0x6E, 0x73, 0x74]
def s_match : List Byte := [0x6D, 0x61, 0x74, 0x63, 0x68]
def s_pad : List Byte := [0x70, 0x61, 0x64]
def s_range : List Byte := [0x72, 0x61, 0x6E, 0x67, 0x65]
def s_crc : List Byte := [0x63, 0x72, 0x63]
def s_crc_poly : List Byte := [0x63, 0x72, 0x63, 0x5F, 0x70, 0x6F, 0x6C, 0x79]
def s_crc_init : List Byte := [0x63, 0x72, 0x63, 0x5F, 0x69, 0x6E, 0x69, 0x74]
def s_crc_xor : List Byte := [0x63, 0x72, 0x63, 0x5F, 0x78, 0x6F, 0x72]
def s_scale : List Byte := [0x73, 0x63, 0x61, 0x6C, 0x65]
def s_offset : List Byte := [0x6F, 0x66, 0x66, 0x73, 0x65, 0x74]
def s_mul : List Byte := [0x6D, 0x75, 0x6C]
def s_div : List Byte := [0x64, 0x69, 0x76]
def s_add : List Byte := [0x61, 0x64, 0x64]
def s_sub : List Byte := [0x73, 0x75, 0x62]
def s_poly : List Byte := [0x70, 0x6F, 0x6C, 0x79]
def s_spline : List Byte := [0x73, 0x70, 0x6C, 0x69, 0x6E, 0x65]
def s_expr : List Byte := [0x65, 0x78, 0x70, 0x72]
def s_prefix : List Byte := [0x70, 0x72, 0x65, 0x66, 0x69, 0x78]
def s_string : List Byte := [0x73, 0x74, 0x72, 0x69, 0x6E, 0x67]
def s_until : List Byte := [0x75, 0x6E, 0x74, 0x69, 0x6C]
def s_max : List Byte := [0x6D, 0x61, 0x78]
def s_version : List Byte := [0x76, 0x65, 0x72, 0x73, 0x69, 0x6F, 0x6E]
def s_import : List Byte := [0x69, 0x6D, 0x70, 0x6F, 0x72, 0x74]
def s_unaligned_bytes : List Byte := [0x75, 0x6E, 0x61, 0x6C, 0x69, 0x67, 0x6E, 0x65, 0x64, 0x5F, 0x62, 0x79, 0x74, 0x65, 0x73]
def s_uint8 : List Byte := [0x75, 0x69, 0x6E, 0x74, 0x38]
def s_byte : List Byte := [0x62, 0x79, 0x74, 0x65]
def s_u8 : List Byte := [0x75, 0x38]
def s_uint16 : List Byte := [0x75, 0x69, 0x6E, 0x74, 0x31, 0x36]
def s_u16 : List Byte := [0x75, 0x31, 0x36]
def s_uint32 : List Byte := [0x75, 0x69, 0x6E, 0x74, 0x33, 0x32]
def s_u32 : List Byte := [0x75, 0x33, 0x32]
def s_uint64 : List Byte := [0x75, 0x69, 0x6E, 0x74, 0x36, 0x34]
def s_u64 : List Byte := [0x75, 0x36, 0x34]
def s_int8 : List Byte := [0x69, 0x6E, 0x74, 0x38]
def s_i8 : List Byte := [0x69, 0x38]
def s_int16 : List Byte := [0x69, 0x6E, 0x74, 0x31, 0x36]
def s_i16 : List Byte := [0x69, 0x31, 0x36]
def s_int32 : List Byte := [0x69, 0x6E, 0x74, 0x33, 0x32]
def s_i32 : List Byte := [0x69, 0x33, 0x32]
def s_int64 : List Byte := [0x69, 0x6E, 0x74, 0x36, 0x34]
def s_i64 : List Byte := [0x69, 0x36, 0x34]
def s_float : List Byte := [0x66, 0x6C, 0x6F, 0x61, 0x74]
def s_f32 : List Byte := [0x66, 0x33, 0x32]
def s_double : List Byte := [0x64, 0x6F, 0x75, 0x62, 0x6C, 0x65]
def s_f64 : List Byte := [0x66, 0x36, 0x34]
def s_bool : List Byte := [0x62, 0x6F, 0x6F, 0x6C]

/-- match_keyword, cnd_parser.c 270-275. -/
def Tok.isWord (t : Tok) (w : List Byte) : Bool := t.type = .identifier ∧ t.text = w

/-- A chain of match_keyword tests. -/
def Tok.find {α : Type} (t : Tok) (l : List (List Byte × α)) : Option α :=
  if t.type = .identifier then l.lookup t.text else none

/-- Unsigned integer types, cnd_parser.c 1098-1104, 1232-1235, 1251-1254. -/
def unsignedTypes : List (List Byte × Byte) :=
  [(s_uint8, 0x10), (s_byte, 0x10), (s_u8, 0x10), (s_uint16, 0x11), (s_u16, 0x11), (s_uint32, 0x12), (s_u32, 0x12),
   (s_uint64, 0x13), (s_u64, 0x13)]

/-- Signed integer types. -/
def signedTypes : List (List Byte × Byte) :=
  [(s_int8, 0x14), (s_i8, 0x14), (s_int16, 0x15), (s_i16, 0x15), (s_int32, 0x16), (s_i32, 0x16), (s_int64, 0x17), (s_i64, 0x17)]

/-- All types of plain fields, cnd_parser.c 1251-1261. -/
def plainTypes : List (List Byte × Byte) :=
  unsignedTypes ++ signedTypes ++ [(s_float, 0x18), (s_f32, 0x18), (s_double, 0x19), (s_f64, 0x19), (s_bool, 0x1A)]

/-- Underlying types of enums, cnd_parser.c 1345-1352 (`byte` is not among them). -/
def enumTypes : List (List Byte × Byte) :=
  [(s_uint8, 0x10), (s_u8, 0x10), (s_int8, 0x14), (s_i8, 0x14), (s_uint16, 0x11), (s_u16, 0x11), (s_int16, 0x15), (s_i16, 0x15),
   (s_uint32, 0x12), (s_u32, 0x12), (s_int32, 0x16), (s_i32, 0x16), (s_uint64, 0x13), (s_u64, 0x13), (s_int64, 0x17), (s_i64, 0x17)]

/-- Bytes of a value of an integer type (the chains of `if (type_op == …)`). -/
def intSize (op : Byte) : Nat :=
  match op.toNat with
  | 0x10 | 0x14 => 1
  | 0x11 | 0x15 => 2
  | 0x12 | 0x16 => 4
  | 0x13 | 0x17 => 8
  | _ => 0

/-! ### The state -/

/-- EnumDef, cnd_internal.h: name, underlying type and values. -/
structure EnumD where
  name : List Byte
  type : Byte
  values : List (List Byte × Word)
  deriving DecidableEq, Repr

/-- Parser, cnd_internal.h. `out` is the buffer p->target points to. -/
structure CSt extends PSt where
  fields : List (List Byte)
  structs : List (List Byte × List Byte)
  enums : List EnumD
  self : Option (List Byte)
  inBit : Bool
  bitCount : BitVec 32
  bitValid : Bool
  pending : Bool
  packets : Nat
  deriving DecidableEq, Repr

/-- Outcome of a statement: the new state; undefined behaviour; an `@import`; `stuck` if the model's recursion bound is too
small. -/
inductive CRes (α : Type)
  | ok (a : α)
  | ub
  | imports
  | stuck
  deriving DecidableEq, Repr

def CRes.bind {α β : Type} (r : CRes α) (f : α → CRes β) : CRes β :=
  match r with
  | .ok a => f a
  | .ub => .ub
  | .imports => .imports
  | .stuck => .stuck

namespace CSt

def adv (s : CSt) : CSt := { s with toPSt := s.toPSt.advance }
def err (s : CSt) : CSt := { s with toPSt := s.toPSt.error }
def eat (s : CSt) (ty : TT) : CSt := { s with toPSt := s.toPSt.consume ty }
def put (s : CSt) (bs : List Byte) : CSt := { s with toPSt := s.toPSt.emit bs }
/-- p->had_error -/
def bad (s : CSt) : Bool := s.errs ≠ 0
/-- `if (c) parser_error(p, …)` -/
def errIf (s : CSt) (c : Bool) : CSt := if c then s.err else s

/-- strtab_add on p->strtab: the id. -/
def intern (s : CSt) (name : List Byte) : CSt × Nat :=
  let r := strtabAdd s.tab name
  ({ s with tab := r.1 }, r.2)

/-- buf_write_u32_at, cnd_utils.c 285-291. -/
def patch (s : CSt) (off : Nat) (bs : List Byte) : CSt :=
  { s with out := if off + bs.length > s.out.length then s.out else splice s.out off bs }

/-- reg_find, cnd_utils.c 379-386. -/
def findStruct (s : CSt) (name : List Byte) : Option (List Byte) := s.structs.lookup name

/-- enum_reg_find, cnd_utils.c 425-432. -/
def findEnum (s : CSt) (name : List Byte) : Option EnumD := s.enums.find? (fun e => e.name = name)

end CSt

/-- What the parser is given besides the source: the conversion of literals to double and the arithmetic on doubles. -/
structure PEnv where
  dbl : List Byte → Word
  fl : FloatOps

def u16le (n : Nat) : List Byte := leBytes 2 (BitVec.ofNat 64 n)
def u32le (n : Nat) : List Byte := leBytes 4 (BitVec.ofNat 64 n)

/-- parse_expression. -/
def CSt.expr (P : PEnv) (fuel : Nat) (s : CSt) : CRes CSt :=
  match parseExpr P.dbl fuel s.toPSt with
  | .ok _ p => .ok { s with toPSt := p }
  | .ub => .ub
  | .stuck => .stuck

/-! ### Range checks -/

/-- The bounds of a range check, cnd_parser.c 284-345: the two values as they are emitted, and whether min > max. The types that
are none of those listed (bool) are emitted without bounds. -/
def rangeBounds (P : PEnv) (op : Byte) (lo hi : List Byte) : Option (List Byte × List Byte × Bool) :=
  match op.toNat with
  | 0x10 | 0x11 | 0x12 =>
    let a := parseU32 lo
    let b := parseU32 hi
    some (leBytes (intSize op) (a.setWidth 64), leBytes (intSize op) (b.setWidth 64), b.ult a)
  | 0x14 | 0x15 | 0x16 | 0x17 =>
    match parseI64 lo, parseI64 hi with
    | some a, some b => some (leBytes (intSize op) a, leBytes (intSize op) b, b.slt a)
    | _, _ => none
  | 0x13 =>
    match parseI64 lo, parseI64 hi with
    | some a, some b => some (leBytes 8 a, leBytes 8 b, b.ult a)
    | _, _ => none
  | 0x18 =>
    let a := P.dbl lo
    let b := P.dbl hi
    some (leBytes 4 ((P.fl.toF32 a).setWidth 64), leBytes 4 ((P.fl.toF32 b).setWidth 64), P.fl.lt b a)
  | 0x19 =>
    let a := P.dbl lo
    let b := P.dbl hi
    some (leBytes 8 a, leBytes 8 b, P.fl.lt b a)
  | _ => some ([], [], false)

/-- emit_range_check, cnd_parser.c 282-347. -/
def emitRange (P : PEnv) (op : Byte) (lo hi : Tok) (s : CSt) : CRes CSt :=
  match rangeBounds P op lo.text hi.text with
  | none => .ub
  | some (a, b, swapped) => if swapped then .ok s.err else .ok (s.put ([0x42, op] ++ a ++ b))

/-- `if (has_range) emit_range_check(…)`. -/
def rangePart (P : PEnv) (op : Byte) (range : Option (Tok × Tok)) (s : CSt) : CRes CSt :=
  match range with
  | none => .ok s
  | some (lo, hi) => emitRange P op lo hi s

/-! ### Decorators -/

/-- The decorator state of parse_field, cnd_parser.c 753-789. -/
structure Dec where
  count : Option (BitVec 32) := none
  const : Option Word := none
  be : Bool := false
  alone : Bool := false
  range : Option (Tok × Tok) := none
  trans : Trans := .none
  scale : Word := 0x3FF0000000000000
  offset : Word := 0
  ival : Word := 0
  poly : List Word := []
  spline : List Word := []
  crc : Bool := false
  crcWidth : BitVec 32 := 0
  crcPoly : BitVec 32 := 0
  crcInit : BitVec 32 := 0
  crcXor : BitVec 32 := 0
  crcFlags : Byte := 0
  expr : Bool := false
  eof : Bool := false
  ref : Option Nat := none
  deriving DecidableEq, Repr

/-- The loop over the coefficients of `@poly`, cnd_parser.c 896-914. -/
def polyLoop (P : PEnv) : Nat → List Word → CSt → CRes (List Word × CSt)
  | 0, _, _ => .stuck
  | f + 1, cs, s =>
    let num := s.cur
    let r : List Word × CSt :=
      if num.type = .number then
        let s := s.adv
        if cs.length < 16 then (cs ++ [P.dbl num.text], s) else (cs, s.err)
      else (cs, s.eat .number)
    if r.2.cur.type = .comma then polyLoop P f r.1 r.2.adv else .ok r

/-- The loop over the points of `@spline`, cnd_parser.c 917-939. -/
def splineLoop (P : PEnv) : Nat → List Word → CSt → CRes (List Word × CSt)
  | 0, _, _ => .stuck
  | f + 1, ps, s =>
    let num := s.cur
    let r : List Word × CSt :=
      if num.type = .number then
        let s := s.adv
        if ps.length < 32 then
          let s := s.eat .comma
          let y := s.cur
          (ps ++ [P.dbl num.text, P.dbl y.text], s.eat .number)
        else (ps, s.err)
      else (ps, s.eat .number)
    if r.2.cur.type = .comma then splineLoop P f r.1 r.2.adv else .ok r

/-- `while (p->current.type != TOK_RPAREN && p->current.type != TOK_EOF) advance(p);`, cnd_parser.c 945 and 1652. -/
def skipToParen : Nat → CSt → CRes CSt
  | 0, _ => .stuck
  | f + 1, s => if s.cur.type = .rparen ∨ s.cur.type = .eof then .ok s else skipToParen f s.adv

/-- `Token num = p->current; consume(p, TOK_NUMBER, …);`: the token's text and the new state (the variants that test the type
first do the same). -/
def CSt.number (s : CSt) : List Byte × CSt := (s.cur.text, s.eat .number)

/-- An integer transform, cnd_parser.c 882-893. -/
def decInt (t : Trans) (d : Dec) (s : CSt) : CRes (Dec × CSt) :=
  match parseI64 s.number.1 with
  | none => .ub
  | some v => .ok ({ d with trans := t, ival := v }, s.number.2)

/-- The decorators with arguments, cnd_parser.c 831-946, between the parentheses. -/
def decArgs (P : PEnv) (fuel : Nat) (t : Tok) (d : Dec) (s : CSt) : CRes (Dec × CSt) :=
  if t.isWord s_count ∨ t.isWord s_len then
    if s.cur.type = .identifier then
      let r := s.adv.intern s.cur.text
      .ok ({ d with ref := some r.2 }, r.1)
    else if s.cur.type = .number then .ok ({ d with count := some (parseU32 s.cur.text) }, s.adv)
    else .ok (d, s.err)
  else if t.isWord s_const ∨ t.isWord s_match then
    match parseI64 s.number.1 with
    | none => .ub
    | some v => .ok ({ d with const := some v }, s.number.2)
  else if t.isWord s_pad then
    let n := parseU32 s.number.1
    let s := s.number.2.put [0x23, n.setWidth 8]
    .ok ({ d with alone := true }, if s.inBit ∧ s.bitValid then { s with bitCount := s.bitCount + n } else s)
  else if t.isWord s_range then
    let lo := s.cur
    let s := (s.eat .number).eat .comma
    let hi := s.cur
    .ok ({ d with range := some (lo, hi) }, s.eat .number)
  else if t.isWord s_crc then
    let w := parseU32 s.number.1
    let d := { d with crc := true, crcWidth := w }
    let d := if w = 16 then { d with crcPoly := 0x1021, crcInit := 0xFFFF, crcXor := 0, crcFlags := 0 }
      else if w = 32 then { d with crcPoly := 0x04C11DB7, crcInit := 0xFFFFFFFF, crcXor := 0xFFFFFFFF, crcFlags := 3 }
      else d
    .ok (d, s.number.2)
  else if t.isWord s_crc_poly then .ok ({ d with crcPoly := parseU32 s.number.1 }, s.number.2)
  else if t.isWord s_crc_init then .ok ({ d with crcInit := parseU32 s.number.1 }, s.number.2)
  else if t.isWord s_crc_xor then .ok ({ d with crcXor := parseU32 s.number.1 }, s.number.2)
  else if t.isWord s_scale then .ok ({ d with trans := .scale, scale := P.dbl s.number.1 }, s.number.2)
  else if t.isWord s_offset then
    let d := if d.trans ≠ .scale then { d with trans := .scale, scale := 0x3FF0000000000000 } else d
    .ok ({ d with offset := P.dbl s.number.1 }, s.number.2)
  else if t.isWord s_mul then decInt .mul d s
  else if t.isWord s_div then decInt .div d s
  else if t.isWord s_add then decInt .add d s
  else if t.isWord s_sub then decInt .sub d s
  else if t.isWord s_poly then (polyLoop P fuel d.poly s).bind fun r => .ok ({ d with trans := .poly, poly := r.1 }, r.2)
  else if t.isWord s_spline then
    (splineLoop P fuel d.spline s).bind fun r => .ok ({ d with trans := .spline, spline := r.1 }, r.2)
  else if t.isWord s_expr then (s.expr P fuel).bind fun s => .ok ({ d with expr := true }, s)
  else (skipToParen fuel s.err).bind fun s => .ok (d, s)

/-- `@fill`, cnd_parser.c 804-823. -/
def decFill (s : CSt) : CSt :=
  let r : Byte × CSt :=
    if s.cur.type = .lparen then
      let s := s.adv
      let v : Byte := (parseU32 s.number.1).setWidth 8
      (v, (s.number.2.errIf (v.toNat > 1)).eat .rparen)
    else (0, s)
  let s := r.2.put [0x24, r.1]
  if s.inBit ∧ s.bitValid then { s with bitCount := 0 } else s

/-- One decorator, cnd_parser.c 796-948; `@` has been read. -/
def decOne (P : PEnv) (fuel : Nat) (d : Dec) (s : CSt) : CRes (Dec × CSt) :=
  let t := s.cur
  let s := s.eat .identifier
  if t.isWord s_big_endian ∨ t.isWord s_be then .ok ({ d with be := true }, s)
  else if t.isWord s_little_endian ∨ t.isWord s_le then .ok ({ d with be := false }, s)
  else if t.isWord s_fill then .ok ({ d with alone := true }, decFill s)
  else if t.isWord s_crc_refin then .ok ({ d with crcFlags := d.crcFlags ||| 1 }, s)
  else if t.isWord s_crc_refout then .ok ({ d with crcFlags := d.crcFlags ||| 2 }, s)
  else if t.isWord s_optional then .ok (d, s.put [0x4A])
  else if t.isWord s_eof then .ok ({ d with eof := true }, s)
  else (decArgs P fuel t d (s.eat .lparen)).bind fun r => .ok (r.1, r.2.eat .rparen)

/-- The loop over decorators, cnd_parser.c 795-949. -/
def decLoopS (P : PEnv) : Nat → Dec → CSt → CRes (Dec × CSt)
  | 0, _, _ => .stuck
  | f + 1, d, s =>
    if s.cur.type = .at then (decOne P f d s.adv).bind fun r => decLoopS P f r.1 r.2 else .ok (d, s)

/-! ### Fields -/

/-- The transform instruction, cnd_parser.c 961-988. -/
def transEmit (d : Dec) : List Byte :=
  match d.trans with
  | .none => []
  | .scale => 0x43 :: (leBytes 8 d.scale ++ leBytes 8 d.offset)
  | .mul => 0x47 :: leBytes 8 d.ival
  | .div => 0x48 :: leBytes 8 d.ival
  | .add => 0x45 :: leBytes 8 d.ival
  | .sub => 0x46 :: leBytes 8 d.ival
  | .poly => 0x4C :: BitVec.ofNat 8 d.poly.length :: (d.poly.map (leBytes 8)).flatten
  | .spline => 0x4D :: BitVec.ofNat 8 (d.spline.length / 2) :: (d.spline.map (leBytes 8)).flatten

/-- The shape of a field behind its name, cnd_parser.c 1012-1067. -/
structure Shape where
  width : Byte := 0
  arr : Bool := false
  var : Bool := false
  arrPre : Option Byte := none
  strPre : Option Byte := none
  maxLen : BitVec 16 := 255
  until_ : Bool := false
  deriving DecidableEq, Repr

/-- Prefix types of arrays and of strings, cnd_parser.c 1050-1060: offset of the opcode. -/
def prefixTypes : List (List Byte × Byte) :=
  [(s_uint8, 0), (s_u8, 0), (s_uint16, 1), (s_u16, 1), (s_uint32, 2), (s_u32, 2)]

/-- Bit width, cnd_parser.c 1012-1016. -/
def shapeWidth (s : CSt) : Byte × CSt :=
  if s.cur.type = .colon then
    let s := s.adv.eat .number
    ((parseU32 s.prev.text).setWidth 8, s)
  else (0, s)

/-- Brackets, cnd_parser.c 1025-1033: whether there are any, whether they are empty, the count between them. -/
def shapeArr (s : CSt) : Bool × Bool × Option (BitVec 32) × CSt :=
  if s.cur.type = .lbracket then
    let s := s.adv
    if s.cur.type = .rbracket then (true, true, none, s.adv)
    else (true, false, some (parseU32 s.number.1), s.number.2.eat .rbracket)
  else (false, false, none, s)

/-- `prefix`, `until` and `max`, cnd_parser.c 1048-1067. -/
def shapeMods (ty : Tok) (d : Dec) (h : Shape) (s : CSt) : Shape × CSt :=
  if s.cur.isWord s_prefix then
    let s := s.adv
    let pt := s.cur
    let s := s.eat .identifier
    if h.var ∧ d.count = none ∧ d.ref = none then
      match pt.find prefixTypes with
      | some k => ({ h with arrPre := some (0x35 + k) }, s)
      | none => (h, s.err)
    else if ty.isWord s_string then
      match pt.find prefixTypes with
      | some k => ({ h with strPre := some (0x31 + k) }, s)
      | none => (h, s.err)
    else (h, s.err)
  else if ty.isWord s_string then
    let r : Shape × CSt := if s.cur.isWord s_until then ({ h with until_ := true }, s.adv.eat .number) else (h, s)
    if r.2.cur.isWord s_max then
      let s := r.2.adv
      ({ r.1 with maxLen := (parseU32 s.number.1).setWidth 16 }, s.number.2)
    else r
  else (h, s)

/-- The instruction that opens an array, cnd_parser.c 1077-1088. -/
def arrCode (d : Dec) (h : Shape) (key : Nat) : List Byte :=
  match h.arrPre with
  | some op => op :: u16le key
  | none =>
    if d.eof ∧ h.arr then 0x3A :: u16le key
    else match d.ref, d.count with
      | some r, c => if h.arr then 0x3B :: (u16le key ++ u16le r) else
          match c with
          | some n => if h.arr then 0x34 :: (u16le key ++ leBytes 4 (n.setWidth 64)) else []
          | none => []
      | none, some n => if h.arr then 0x34 :: (u16le key ++ leBytes 4 (n.setWidth 64)) else []
      | none, none => []

/-- Whether a constant is outside its type's range, cnd_parser.c 1114-1134. For a type that is not an integer type `width` is 0
and the bounds are those of 64 bits. -/
def constBad (op : Option Byte) (v : Word) : Bool :=
  match op with
  | none => false
  | some op =>
    match op.toNat with
    | 0x10 => v.toNat > 255
    | 0x11 => v.toNat > 65535
    | 0x12 => v.toNat > 4294967295
    | 0x14 => decide (v.toInt < -128 ∨ v.toInt > 127)
    | 0x15 => decide (v.toInt < -32768 ∨ v.toInt > 32767)
    | 0x16 => decide (v.toInt < -2147483648 ∨ v.toInt > 2147483647)
    | _ => false

/-- A constant field, cnd_parser.c 1094-1146. -/
def fieldConst (P : PEnv) (ty : Tok) (d : Dec) (key : Nat) (v : Word) (s : CSt) : CRes CSt :=
  let found := ty.find (unsignedTypes ++ signedTypes)
  let op := found.getD 0x11
  let s := s.errIf found.isNone
  let s := s.errIf (constBad found v)
  rangePart P op d.range (s.put (0x40 :: (u16le key ++ op :: leBytes (intSize op) v)))

/-- A struct field, cnd_parser.c 1151-1178. `none` is the outcome of inlineCode for names of 512 bytes and more. The boolean tells
whether parse_field returns at once. -/
def fieldStruct (code : List Byte) (ty name : Tok) (d : Dec) (h : Shape) (key : Nat) (s : CSt) : CRes (Bool × CSt) :=
  if s.self = some ty.text then .ok (true, s.err)
  else
    let s := s.errIf (d.trans ≠ .none)
    let s := s.errIf d.range.isSome
    let s := s.errIf d.crc
    let s := s.errIf (h.width ≠ 0)
    let s := s.put (0x03 :: u16le key)
    match inlineCode (name.text.take 255) code.length s.tab code with
    | none => .ub
    | some (bs, tab) => .ok (false, ({ s with tab := tab }.put bs).put [0x04])

/-- An enum field, cnd_parser.c 1179-1200. -/
def fieldEnum (P : PEnv) (e : EnumD) (d : Dec) (h : Shape) (key : Nat) (s : CSt) : CRes CSt :=
  let s := s.errIf (d.trans ≠ .none)
  let s := s.errIf d.crc
  let s := s.errIf (h.width ≠ 0)
  let s := s.put (e.type :: u16le key)
  let s := s.put ([0x4B, e.type] ++ u16le e.values.length ++ (e.values.map fun v => leBytes (intSize e.type) v.2).flatten)
  rangePart P e.type d.range s

/-- A string field, cnd_parser.c 1202-1214. -/
def fieldString (d : Dec) (h : Shape) (key : Nat) (s : CSt) : CSt :=
  let s := s.errIf (d.trans ≠ .none)
  let s := s.errIf d.range.isSome
  let s := s.errIf d.crc
  let s := s.errIf (h.width ≠ 0)
  match h.strPre with
  | some _ => s
  | none => (s.errIf (h.arr ∧ ¬ h.until_)).put (0x30 :: (u16le key ++ leBytes 2 (h.maxLen.setWidth 64)))

/-- The width of a field in bit mode without a width of its own, cnd_parser.c 1218-1228. -/
def bitWidths (ty : Tok) : Byte :=
  match ty.find (unsignedTypes ++ signedTypes) with
  | some op => BitVec.ofNat 8 (8 * intSize op)
  | none => if ty.isWord s_bool then 1 else 0

/-- The opcode of a bit field, cnd_parser.c 1231-1246. -/
def bitOp (ty : Tok) : Option Byte :=
  if (ty.find unsignedTypes).isSome then some 0x20
  else if (ty.find signedTypes).isSome then some 0x21
  else if ty.isWord s_bool then some 0x22
  else none

/-- A checksum, cnd_parser.c 1264-1279. -/
def crcEmit (d : Dec) : List Byte :=
  if d.crcWidth = 16 then
    0x44 :: (leBytes 2 (d.crcPoly.setWidth 64) ++ leBytes 2 (d.crcInit.setWidth 64) ++ leBytes 2 (d.crcXor.setWidth 64) ++ [d.crcFlags])
  else if d.crcWidth = 32 then
    0x49 :: (leBytes 4 (d.crcPoly.setWidth 64) ++ leBytes 4 (d.crcInit.setWidth 64) ++ leBytes 4 (d.crcXor.setWidth 64) ++ [d.crcFlags])
  else []

/-- A field of a built-in type, cnd_parser.c 1215-1288. The boolean tells whether parse_field returns at once. -/
def fieldPlain (P : PEnv) (ty : Tok) (d : Dec) (h : Shape) (key : Nat) (s : CSt) : CRes (Bool × CSt) :=
  let width := if s.inBit ∧ h.width = 0 then bitWidths ty else h.width
  if width ≠ 0 then
    match bitOp ty with
    | none => .ok (true, s.err)
    | some op =>
      let s := s.put (op :: (u16le key ++ [width]))
      .ok (false, if s.inBit ∧ s.bitValid then { s with bitCount := s.bitCount + width.setWidth 32 } else s)
  else if s.inBit then .ok (true, s.err)
  else match ty.find plainTypes with
    | none => .ok (true, s.err)
    | some op =>
      if d.crc then
        let s := s.errIf (d.crcWidth = 16 ∧ op ≠ 0x11)
        let s := s.errIf (d.crcWidth = 32 ∧ op ≠ 0x12)
        .ok (false, s.put (crcEmit d))
      else if d.expr then .ok (false, s.put (0x64 :: 0x78 :: (u16le key ++ [0x65, op])))
      else (rangePart P op d.range (s.put (op :: u16le key))).bind fun s => .ok (false, s)

/-- The value part of a field, cnd_parser.c 1094-1289. -/
def fieldValue (P : PEnv) (ty name : Tok) (d : Dec) (h : Shape) (key : Nat) (s : CSt) : CRes (Bool × CSt) :=
  match d.const with
  | some v => (fieldConst P ty d key v s).bind fun s => .ok (false, s)
  | none =>
    match s.findStruct ty.text with
    | some code => fieldStruct code ty name d h key s
    | none =>
      match s.findEnum ty.text with
      | some e => (fieldEnum P e d h key s).bind fun s => .ok (false, s)
      | none =>
        if ty.isWord s_string then .ok (false, fieldString d h key s)
        else fieldPlain P ty d h key s

/-- parse_field behind the whole declaration but for its semicolon, cnd_parser.c 1069-1295. -/
def fieldEmit (P : PEnv) (ty name : Tok) (d : Dec) (h : Shape) (key : Nat) (s : CSt) : CRes CSt :=
  let s := s.errIf (h.arr ∧ ty.isWord s_string ∧ h.strPre = none ∧ ¬ h.until_ ∧ d.count = none ∧ d.ref = none)
  let s := if d.be then s.put [0x02] else s
  let s := s.put (arrCode d h key)
  let s := match h.strPre with
    | some op => s.put (op :: u16le key)
    | none => s
  (fieldValue P ty name d h key s).bind fun r =>
    if r.1 then .ok r.2
    else
      let s := if h.arr then r.2.put [0x38] else r.2
      let s := s.eat .semicolon
      .ok (if d.be then s.put [0x01] else s)

/-- parse_field behind type and name, cnd_parser.c 995-1295. -/
def fieldRest (P : PEnv) (ty name : Tok) (d : Dec) (s : CSt) : CRes CSt :=
  let fields := (strtabAdd s.fields name.text).1
  let s := { s.errIf (fields.length = s.fields.length) with fields := fields }
  let r := s.intern name.text
  let w := shapeWidth r.1
  let a := shapeArr w.2
  let d := match a.2.2.1 with
    | some n => { d with count := some n }
    | none => d
  let m := shapeMods ty d { width := w.1, arr := a.1, var := a.2.1 } a.2.2.2
  fieldEmit P ty name d m.1 r.2 m.2

/-- parse_field behind the decorators, cnd_parser.c 951-1295. -/
def fieldDecl (P : PEnv) (d : Dec) (s : CSt) : CRes CSt :=
  if d.alone ∧ (s.cur.type = .semicolon ∨ s.cur.type = .rbrace) then
    .ok (if s.cur.type = .semicolon then s.adv else s)
  else
    let s := s.put (transEmit d)
    let ty := s.cur
    let s := s.eat .identifier
    let name := s.cur
    if name.type = .kwSelf then .ok s.err
    else fieldRest P ty name d (s.eat .identifier)

/-- Skipping documentation comments, cnd_parser.c 735-737 (and those of parse_block, parse_enum, parse_top_level). -/
def skipDocs : Nat → CSt → CRes CSt
  | 0, _ => .stuck
  | f + 1, s => if s.cur.type = .doc then skipDocs f s.adv else .ok s

/-! ### Statements -/

/-- The local variables of parse_switch: cases with their offsets, jumps to fix up, default offset. -/
structure Sw where
  cases : List (Word × Nat) := []
  fix : List Nat := []
  dflt : Option Nat := none
  deriving DecidableEq, Repr

/-- A case label, cnd_parser.c 542-577; `none` is undefined behaviour. -/
def caseLabel (s : CSt) : Option (Word × CSt) :=
  if s.cur.type = .number then (parseI64 s.cur.text).map fun v => (v, s.adv)
  else if s.cur.type = .identifier then
    let en := s.cur.text
    let s := s.adv
    if s.cur.type = .dot then
      let s := s.adv
      let vn := s.cur.text
      let s := s.eat .identifier
      match s.findEnum en with
      | none => some (0, s.err)
      | some e =>
        match e.values.lookup vn with
        | some v => some (v, s)
        | none => some (0, s.err)
    else some (0, s.err)
  else some (0, s)

/-- The table, cnd_parser.c 634-708: the opcode, the table's bytes and its length. -/
def tableEmit (w : Sw) (start codeStart : Nat) : Byte × List Byte :=
  let offs : List (Word × Word) := w.cases.map fun c => (c.1, BitVec.ofNat 64 (c.2 % 2 ^ 32))
  if useJumpTable offs then
    match offs with
    | [] => (0x51, [])
    | c :: cs =>
      let mn := minCase c.1 cs
      let mx := maxCase c.1 cs
      let range := (mx - mn).toNat
      let dflt : Word := BitVec.ofNat 64 ((w.dflt.getD (start + (20 + (range + 1) * 4) - codeStart)) % 2 ^ 32)
      (0x53, leBytes 8 mn ++ leBytes 8 mx ++ leBytes 4 dflt ++ ((tableOffsets offs dflt mn range).map (leBytes 4)).flatten)
  else
    let dflt : Word := BitVec.ofNat 64 ((w.dflt.getD (start + (6 + offs.length * 12) - codeStart)) % 2 ^ 32)
    (0x51, u16le offs.length ++ leBytes 4 dflt ++ (offs.map fun c => leBytes 8 c.1 ++ leBytes 4 c.2).flatten)

/-- The end of parse_switch, cnd_parser.c 629-726, from the closing brace on; `loc` is where the instruction is. -/
def switchEnd (w : Sw) (loc : Nat) (s : CSt) : CSt :=
  let s := s.eat .rbrace
  let start := s.out.length
  let t := tableEmit w start (loc + 7)
  let s := if t.1 = 0x53 then s.patch loc [0x53] else s
  let s := s.put t.2
  let s := w.fix.foldl (fun s j => s.patch (j + 1) (u32le (start + t.2.length - (j + 5)))) s
  s.patch (loc + 3) (u32le (start - (loc + 7)))

mutual

/-- parse_if, cnd_parser.c 470-504; `if` has been read. -/
def parseIf (P : PEnv) : Nat → CSt → CRes CSt
  | 0, _ => .stuck
  | f + 1, s =>
    ((s.eat .lparen).expr P f).bind fun s =>
    let s := s.eat .rparen
    let jf := s.out.length
    (parseBlock P f (s.put [0x50, 0, 0, 0, 0])).bind fun s =>
    let je := s.out.length
    let s := s.put [0x52, 0, 0, 0, 0]
    let s := s.patch (jf + 1) (u32le (s.out.length - (jf + 5)))
    (if s.cur.type = .kwElse then
      let s := s.adv
      if s.cur.type = .kwIf then parseIf P f s.adv else parseBlock P f s
    else .ok s).bind fun s =>
    .ok (s.patch (je + 1) (u32le (s.out.length - (je + 5))))

/-- parse_switch, cnd_parser.c 511-728; `switch` has been read. -/
def parseSwitch (P : PEnv) : Nat → CSt → CRes CSt
  | 0, _ => .stuck
  | f + 1, s =>
    let s := s.eat .lparen
    let r := (s.eat .identifier).intern s.cur.text
    let s := (r.1.eat .rparen).eat .lbrace
    let loc := s.out.length
    (switchLoop P f (loc + 7) {} (s.put (0x51 :: (u16le r.2 ++ [0, 0, 0, 0])))).bind fun q =>
    .ok (switchEnd q.1 loc q.2)

/-- The loop over the cases, cnd_parser.c 538-628. -/
def switchLoop (P : PEnv) : Nat → Nat → Sw → CSt → CRes (Sw × CSt)
  | 0, _, _, _ => .stuck
  | f + 1, base, w, s =>
    if s.cur.type = .rbrace ∨ s.cur.type = .eof ∨ s.bad then .ok (w, s)
    else if s.cur.type = .kwCase then
      match caseLabel s.adv with
      | none => .ub
      | some (v, s) =>
        let s := s.eat .colon
        let s := (w.cases.filter (fun c => c.1 = v)).foldl (fun s _ => s.err) s
        let w := { w with cases := w.cases ++ [(v, s.out.length - base)] }
        (caseBody P f s).bind fun s =>
        switchLoop P f base { w with fix := w.fix ++ [s.out.length] } (s.put [0x52, 0, 0, 0, 0])
    else if s.cur.type = .kwDefault then
      let s := s.adv.eat .colon
      let w := { w with dflt := some (s.out.length - base) }
      (caseBody P f s).bind fun s =>
      switchLoop P f base { w with fix := w.fix ++ [s.out.length] } (s.put [0x52, 0, 0, 0, 0])
    else switchLoop P f base w s.err.adv

/-- A case's body, cnd_parser.c 596-601 and 615-620. -/
def caseBody (P : PEnv) : Nat → CSt → CRes CSt
  | 0, _ => .stuck
  | f + 1, s => if s.cur.type = .lbrace then parseBlock P f s else parseField P f s

/-- parse_field, cnd_parser.c 730-1295. -/
def parseField (P : PEnv) : Nat → CSt → CRes CSt
  | 0, _ => .stuck
  | f + 1, s =>
    if s.bad then .ok s
    else (skipDocs f s).bind fun s =>
      if s.cur.type = .kwSwitch then parseSwitch P f s.adv
      else if s.cur.type = .kwIf then parseIf P f s.adv
      else (decLoopS P f {} s).bind fun r => fieldDecl P r.1 r.2

/-- parse_block, cnd_parser.c 1297-1318. -/
def parseBlock (P : PEnv) : Nat → CSt → CRes CSt
  | 0, _ => .stuck
  | f + 1, s => (blockLoop P f (s.eat .lbrace)).bind fun s => .ok (s.eat .rbrace)

/-- The loop of parse_block, cnd_parser.c 1302-1315. -/
def blockLoop (P : PEnv) : Nat → CSt → CRes CSt
  | 0, _ => .stuck
  | f + 1, s =>
    if s.cur.type = .rbrace ∨ s.cur.type = .eof ∨ s.bad then .ok s
    else if s.cur.type = .doc then blockLoop P f s.adv
    else (parseField P f s).bind (blockLoop P f)

end

/-! ### Declarations -/

/-- The loop over enum values, cnd_parser.c 1361-1409: the values collected so far, their names, and the next value
(`none` once `val + 1` has overflowed: undefined behaviour). -/
def enumLoop : Nat → List (List Byte × Word) → List (List Byte) → Word → CSt → CRes (List (List Byte × Word) × CSt)
  | 0, _, _, _, _ => .stuck
  | f + 1, vals, names, next, s =>
    if s.cur.type = .rbrace ∨ s.cur.type = .eof ∨ s.bad then .ok (vals, s)
    else if s.cur.type = .doc then enumLoop f vals names next s.adv
    else
      let name := s.cur.text
      let s := s.eat .identifier
      let names' := (strtabAdd names name).1
      let s := s.errIf (names'.length = names.length)
      let r : Option (Word × CSt) :=
        if s.cur.type = .equals then
          let s := s.adv
          (parseI64 s.number.1).map fun v => (v, s.number.2)
        else some (next, s)
      match r with
      | none => .ub
      | some (v, s) =>
        let s := (vals.filter (fun c => c.2 = v)).foldl (fun s _ => s.err) s
        if v = 0x7FFFFFFFFFFFFFFF then .ub
        else
          enumLoop f (vals ++ [(name, v)]) names' (v + 1) (if s.cur.type = .comma then s.adv else s)

/-- parse_enum, cnd_parser.c 1320-1415; `enum` has been read. -/
def parseEnum (fuel : Nat) (s : CSt) : CRes CSt :=
  let name := s.cur.text
  let s := s.eat .identifier
  let s := s.errIf (s.findEnum name).isSome
  let s := s.errIf (s.findStruct name).isSome
  let r : Byte × CSt :=
    if s.cur.type = .colon then
      let s := s.adv
      let t := s.cur
      let s := s.eat .identifier
      match t.find enumTypes with
      | some op => (op, s)
      | none => (0x12, s.err)
    else (0x12, s)
  (enumLoop fuel [] [] 0 (r.2.eat .lbrace)).bind fun q =>
  let s := q.2.eat .rbrace
  .ok { s with enums := s.enums ++ [⟨name, r.1, q.1⟩] }

/-- Storing the finished code of the struct added last. -/
def setLast (l : List (List Byte × List Byte)) (code : List Byte) : List (List Byte × List Byte) :=
  match l with
  | [] => []
  | [x] => [(x.1, code)]
  | x :: xs => x :: setLast xs code

/-- parse_struct, cnd_parser.c 1417-1488; `struct` has been read. While the body is parsed, `out` is the struct's buffer. The
registry entry exists from the start; its code is filled in at the end (it cannot be used before, the test for recursive
definitions comes first). -/
def parseStruct (P : PEnv) (fuel : Nat) (s : CSt) : CRes CSt :=
  let name := s.cur.text
  let s := s.eat .identifier
  let s := s.errIf (s.findStruct name).isSome
  let s := s.errIf (s.findEnum name).isSome
  let outer := s
  let s := { s with structs := s.structs ++ [(name, [])], fields := [], self := some name, out := [] }
  let s := if s.pending then
      { s.put [0x25, 0x02] with inBit := true, pending := false, bitCount := 0, bitValid := true }
    else s
  (parseBlock P fuel s).bind fun s =>
  let s := if s.inBit ∧ ¬ outer.inBit then (s.errIf (s.bitValid ∧ s.bitCount.toNat % 8 ≠ 0)).put [0x26] else s
  .ok { s with structs := setLast s.structs s.out, out := outer.out, self := outer.self, inBit := outer.inBit,
               bitCount := outer.bitCount, bitValid := outer.bitValid, fields := [] }

/-- parse_packet, cnd_parser.c 1490-1538; `packet` has been read. -/
def parsePacket (P : PEnv) (fuel : Nat) (s : CSt) : CRes CSt :=
  let name := s.cur.text
  let s := s.eat .identifier
  let s := s.errIf (s.findStruct name).isSome
  let s := s.errIf (s.findEnum name).isSome
  let loc := s.out.length
  let s := s.put [0x07, 0xFF, 0xFF]
  (if s.cur.type = .equals then
    let s := s.adv
    let sn := s.cur.text
    let s := (s.eat .identifier).eat .semicolon
    match s.findStruct sn with
    | none => .ok s.err
    | some code => .ok (s.put code)
  else (parseBlock P fuel { s with fields := [] }).bind fun s => .ok { s with fields := [] }).bind fun s =>
  let r := s.intern name
  .ok (r.1.patch (loc + 1) (u16le r.2))

/-- One top-level decorator, cnd_parser.c 1634-1656; `@` has been read. -/
def topDec (fuel : Nat) (s : CSt) : CRes CSt :=
  let t := s.cur
  let s := s.eat .identifier
  if t.isWord s_version then
    let s := s.eat .lparen
    .ok ((s.number.2.put [0x05, (parseU32 s.number.1).setWidth 8]).eat .rparen)
  else if t.isWord s_import then .imports
  else if t.isWord s_big_endian then .ok (s.put [0x02])
  else if t.isWord s_little_endian ∨ t.isWord s_le then .ok (s.put [0x01])
  else if t.isWord s_unaligned_bytes then .ok { s with pending := true }
  else if s.cur.type = .lparen then (skipToParen fuel (s.eat .lparen)).bind fun s => .ok (s.eat .rparen)
  else .ok s

/-- The loop over top-level decorators, cnd_parser.c 1634-1657. -/
def topDecs : Nat → CSt → CRes CSt
  | 0, _ => .stuck
  | f + 1, s => if s.cur.type = .at then (topDec f s.adv).bind (topDecs f) else .ok s

/-- The loop of parse_top_level, cnd_parser.c 1626-1678. -/
def topLoop (P : PEnv) : Nat → CSt → CRes CSt
  | 0, _ => .stuck
  | f + 1, s =>
    if s.cur.type = .eof ∨ s.bad then .ok s
    else if s.cur.type = .doc then topLoop P f s.adv
    else (topDecs f s).bind fun s =>
      (match s.cur.type with
      | .kwStruct => parseStruct P f s.adv
      | .kwEnum => parseEnum f s.adv
      | .kwPacket =>
        let s := s.errIf (s.packets > 0)
        parsePacket P f { s.adv with packets := s.packets + 1 }
      | .semicolon => .ok s.adv
      | .eof => .ok s
      | _ => .ok s.err).bind (topLoop P f)

/-- parse_top_level, cnd_parser.c 1622-1685, for the main file. -/
def parseTop (P : PEnv) (fuel : Nat) (s : CSt) : CRes CSt :=
  (topLoop P fuel s).bind fun s => .ok (s.errIf (s.packets = 0))

/-- The parser before the first advance, cndc.c 275-292. -/
def parseStart (toks : List Tok) : CSt :=
  { prev := eofTok, cur := eofTok, toks := toks, out := [], tab := [], log := [], fields := [], structs := [], enums := [],
    self := none, inBit := false, bitCount := 0, bitValid := false, pending := false, packets := 0 }

/-- What the compiler gives: an image, messages, or an outcome outside the model. -/
inductive Compiled
  | image (bs : List Byte)
  | refused
  | ub
  | imports
  | stuck
  deriving DecidableEq, Repr

/-- cnd_compile_file, cndc.c 258-321, on the tokens of the source. -/
def compileToks (P : PEnv) (fuel : Nat) (toks : List Tok) : Compiled :=
  match parseTop P fuel (parseStart toks).adv with
  | .ok s =>
    if s.bad then .refused
    else
      let r := optimizeStrings s.tab s.out
      .image (writeImage r.1 r.2)
  | .ub => .ub
  | .imports => .imports
  | .stuck => .stuck

/-- A token without its line number, which is only used in messages. -/
def Tok.bare (t : Tok) : Tok := { t with line := 0 }

/-- cnd_compile_file on a source text, which is read up to its terminating NUL. -/
def compile (P : PEnv) (fuel : Nat) (src : List Byte) : Compiled :=
  match lexAll (src.length + 1) (src ++ [0]) 1 with
  | none => .ub
  | some toks => compileToks P fuel (toks.map Tok.bare)

end Cnd
