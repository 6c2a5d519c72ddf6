import Verif.Source
/-
  The generator of the constants for other languages, /repo/src/tools/gen_bindings.c: reads concordia.h line by line and prints the
  opcodes and enumerators it finds as Go, Python or TypeScript.

  `none` is undefined behaviour (a buffer or table overrun, an `int` that overflows). Simplified: `isspace`, `isalnum`, `toupper` and
  `tolower` are those of the C locale, bytes from 0x80 are none of them.
-/

namespace Cnd

/-- A table entry, gen_bindings.c 86-89: name and value as texts. -/
abbrev GConst := List Byte × List Byte

/-- The tables, gen_bindings.c 91-104, and `last_val`, 145. -/
structure GTab where
  ops : List GConst
  errs : List GConst
  modes : List GConst
  trans : List GConst
  others : List GConst
  last : Int
  deriving DecidableEq, Repr

def GTab.start : GTab := ⟨[], [], [], [], [], -1⟩

def gSpace (b : Byte) : Bool := b.toNat = 0x20 ∨ (9 ≤ b.toNat ∧ b.toNat ≤ 13)
def gDigit (b : Byte) : Bool := 0x30 ≤ b.toNat ∧ b.toNat ≤ 0x39
def gUpper (b : Byte) : Bool := 0x41 ≤ b.toNat ∧ b.toNat ≤ 0x5A
def gLower (b : Byte) : Bool := 0x61 ≤ b.toNat ∧ b.toNat ≤ 0x7A
def gAlnum (b : Byte) : Bool := gDigit b || gUpper b || gLower b
def gToUpper (b : Byte) : Byte := if gLower b then b - 0x20 else b
def gToLower (b : Byte) : Byte := if gUpper b then b + 0x20 else b

/-- KEEP_UPPER, gen_bindings.c 10-16. -/
def keepUpper : List (List Byte) := [word "OOB", word "CRC", word "ID", word "VM"]

/-- What one part between underscores becomes, gen_bindings.c 38-57, 65-82. -/
def flushPart (buf : List Byte) : List Byte :=
  if keepUpper.contains buf then buf
  else
    match buf with
    | [] => []
    | a :: r => gToUpper a :: r.map gToLower

/-- The loop of to_pascal_case, gen_bindings.c 35-83: `buffer` and `output` hold 256 bytes each. -/
def pascalLoop : List Byte → List Byte → List Byte → Option (List Byte)
  | [], buf, out =>
    if buf.length ≥ 256 ∨ (out ++ flushPart buf).length ≥ 256 then none else some (out ++ flushPart buf)
  | c :: r, buf, out =>
    if c = 0x5F then
      if buf.length ≥ 256 then none else pascalLoop r [] (out ++ flushPart buf)
    else if buf.length ≥ 256 then none
    else pascalLoop r (buf ++ [c]) out

/-- to_pascal_case, gen_bindings.c 19-84. -/
def toPascal (input strip add : List Byte) : Option (List Byte) :=
  pascalLoop (if strip.isPrefixOf input then input.drop strip.length else input) [] add

/-- Up to `//`, gen_bindings.c 112-115. -/
def cutComment : List Byte → List Byte
  | [] => []
  | a :: r => if a = 0x2F ∧ r.head? = some 0x2F then [] else a :: cutComment r

/-- A text behind a word, if it begins with it. -/
def afterWord (w l : List Byte) : Option (List Byte) := if w.isPrefixOf l then some (l.drop w.length) else none

/-- What `%s` takes: white space is skipped, then everything up to white space. -/
def scanWord (l : List Byte) : List Byte × List Byte :=
  ((l.dropWhile gSpace).takeWhile (fun b => !gSpace b), (l.dropWhile gSpace).dropWhile (fun b => !gSpace b))

/-- sscanf(line, "#define OP_%s %s", name, value), gen_bindings.c 118; `none` if it does not give two. The two texts are empty if
nothing was left for them. -/
def scanDefine (l : List Byte) : Option (List Byte × List Byte) := do
  let r ← afterWord (word "#define") l
  let r ← afterWord (word "OP_") (r.dropWhile gSpace)
  some ((scanWord r).1, (scanWord (scanWord r).2).1)

/-- The digits of a number in a base. -/
def gVal (base : Nat) (dig : Byte → Option Nat) : List Byte → Nat → Nat
  | [], acc => acc
  | c :: r, acc =>
    match dig c with
    | some d => gVal base dig r (acc * base + d)
    | none => acc

def gDigVal (base : Nat) (c : Byte) : Option Nat :=
  let d := if gDigit c then some (c.toNat - 0x30) else if gUpper c then some (c.toNat - 0x41 + 10) else if gLower c then some (c.toNat - 0x61 + 10) else none
  d.filter (· < base)

/-- strtol(s, NULL, 0) for a text of letters, digits and `-`, cut to what fits a `long`. -/
def strtol0 (s : List Byte) : Int :=
  let neg : Bool := s.head? = some 0x2D
  let t := if neg then s.tail else s
  let n : Nat :=
    if t.head? = some 0x30 ∧ (t.tail.head? = some 0x78 ∨ t.tail.head? = some 0x58) ∧ (t.tail.tail.head?.bind (gDigVal 16)).isSome then gVal 16 (gDigVal 16) t.tail.tail 0
    else if t.head? = some 0x30 then gVal 8 (gDigVal 8) t 0
    else gVal 10 (gDigVal 10) t 0
  if neg then max (-(n : Int)) (-(2 ^ 63)) else min n (2 ^ 63 - 1)

/-- A conversion to `int`. -/
def toInt32 (x : Int) : Int := (x + 2 ^ 31) % 2 ^ 32 - 2 ^ 31

/-- The decimal digits of a number, last first. -/
def decRev (n : Nat) : List Byte :=
  if n < 10 then [BitVec.ofNat 8 (0x30 + n)] else BitVec.ofNat 8 (0x30 + n % 10) :: decRev (n / 10)

/-- `%d`. -/
def fmtD (x : Int) : List Byte := if x < 0 then 0x2D :: (decRev x.natAbs).reverse else (decRev x.natAbs).reverse

/-- A new entry; the tables have 256. -/
def putEntry (t : List GConst) (n v : List Byte) : Option (List GConst) := if t.length ≥ 256 then none else some (t ++ [(n, v)])

/-- The end of process_line: which table, gen_bindings.c 171-192. -/
def enterName (g : GTab) (name value : List Byte) : Option GTab :=
  if (word "CND_ERR_").isPrefixOf name then do
    let n ← toPascal name (word "CND_ERR_") (word "Err")
    let t ← putEntry g.errs n value
    some { g with errs := t }
  else if (word "CND_MODE_").isPrefixOf name then do
    let n ← toPascal name (word "CND_MODE_") (word "Mode")
    let t ← putEntry g.modes n value
    some { g with modes := t }
  else if (word "CND_TRANS_").isPrefixOf name then do
    let n ← toPascal name (word "CND_TRANS_") (word "Trans")
    let t ← putEntry g.trans n value
    some { g with trans := t }
  else if (word "CND_LE").isPrefixOf name ∨ (word "CND_BE").isPrefixOf name then do
    let n ← toPascal name (word "CND_") []
    let t ← putEntry g.others n value
    some { g with others := t }
  else some g

/-- The value of an enumerator and the new `last_val`, gen_bindings.c 134, 152-169. `p` is the line from the name on. -/
def memberValue (last : Int) (p : List Byte) : Option (List Byte × Int) :=
  if p.contains 0x3D then
    let v := (((p.dropWhile (· ≠ 0x3D)).tail).dropWhile gSpace).takeWhile (fun b => gAlnum b || b = 0x2D)
    if v.length ≥ 256 then none else some (v, toInt32 (strtol0 v))
  else if last = 2 ^ 31 - 1 then none
  else some (fmtD (last + 1), last + 1)

/-- process_line, gen_bindings.c 106-194. -/
def processLine (g : GTab) (line : List Byte) : Option GTab :=
  let l := cutComment line
  match scanDefine l with
  | some (name, value) =>
    if name.length ≥ 256 ∨ value.length ≥ 256 then none
    else if name ≠ [] ∧ value ≠ [] then do
      let n ← toPascal (word "OP_" ++ name) (word "OP_") (word "Op")
      let t ← putEntry g.ops n value
      some { g with ops := t }
    else some g
  | none =>
    let p := l.dropWhile gSpace
    if (word "CND_").isPrefixOf p then
      let name := p.takeWhile (fun b => gAlnum b || b = 0x5F)
      if name.length ≥ 256 then none
      else do
        let v ← memberValue g.last p
        enterName { g with last := v.2 } name v.1
    else some g

/-- fgets, at most `n` bytes and not beyond the end of the line. -/
def getLine : Nat → List Byte → List Byte × List Byte
  | 0, l => ([], l)
  | _, [] => ([], [])
  | n + 1, b :: r => if b = 0x0A then ([b], r) else (b :: (getLine n r).1, (getLine n r).2)

/-- The loop of main, gen_bindings.c 332-335: pieces of up to 1023 bytes, each a C string. -/
def processFile : Nat → GTab → List Byte → Option GTab
  | 0, g, _ => some g
  | fuel + 1, g, l =>
    if l = [] then some g
    else do
      let g' ← processLine g ((getLine 1023 l).1.takeWhile (· ≠ 0))
      processFile fuel g' (getLine 1023 l).2

/-- The tables for a header. -/
def genTables (text : List Byte) : Option GTab := processFile text.length GTab.start text

def nl : List Byte := [0x0A]

/-- A group of constants with what is printed before and behind it and how each is printed. -/
def printGroup (t : List GConst) (before behind : List Byte) (entry : GConst → List Byte) : List Byte :=
  if t = [] then [] else before ++ t.flatMap entry ++ behind

/-- generate_go, gen_bindings.c 196-244. -/
def generateGo (g : GTab) : List Byte :=
  word "// Code generated by gen_bindings.c; DO NOT EDIT." ++ nl ++ word "package concordia" ++ nl ++ nl ++
  word "type Error int" ++ nl ++ word "type Mode int" ++ nl ++ word "type Trans int" ++ nl ++ word "type OpCode uint8" ++ nl ++ nl ++
  printGroup g.errs (word "const (" ++ nl) (word ")" ++ nl ++ nl) (fun c => [0x09] ++ c.1 ++ word " Error = " ++ c.2 ++ nl) ++
  printGroup g.modes (word "const (" ++ nl) (word ")" ++ nl ++ nl) (fun c => [0x09] ++ c.1 ++ word " Mode = " ++ c.2 ++ nl) ++
  printGroup g.trans (word "const (" ++ nl) (word ")" ++ nl ++ nl) (fun c => [0x09] ++ c.1 ++ word " Trans = " ++ c.2 ++ nl) ++
  printGroup g.ops (word "const (" ++ nl) (word ")" ++ nl ++ nl) (fun c => [0x09] ++ c.1 ++ word " OpCode = " ++ c.2 ++ nl) ++
  printGroup g.others (word "const (" ++ nl) (word ")" ++ nl) (fun c => [0x09] ++ c.1 ++ word " = " ++ c.2 ++ nl)

/-- generate_python, gen_bindings.c 246-281. -/
def generatePy (g : GTab) : List Byte :=
  word "# Code generated by gen_bindings.c; DO NOT EDIT." ++ nl ++ word "from enum import IntEnum" ++ nl ++ nl ++
  printGroup g.errs (word "class Error(IntEnum):" ++ nl) nl (fun c => word "    " ++ c.1 ++ word " = " ++ c.2 ++ nl) ++
  printGroup g.modes (word "class Mode(IntEnum):" ++ nl) nl (fun c => word "    " ++ c.1 ++ word " = " ++ c.2 ++ nl) ++
  printGroup g.trans (word "class Trans(IntEnum):" ++ nl) nl (fun c => word "    " ++ c.1 ++ word " = " ++ c.2 ++ nl) ++
  printGroup g.ops (word "class OpCode(IntEnum):" ++ nl) nl (fun c => word "    " ++ c.1 ++ word " = " ++ c.2 ++ nl)

/-- generate_ts, gen_bindings.c 283-317. -/
def generateTs (g : GTab) : List Byte :=
  word "// Code generated by gen_bindings.c; DO NOT EDIT." ++ nl ++ nl ++
  printGroup g.errs (word "export enum Error {" ++ nl) (word "}" ++ nl ++ nl) (fun c => word "    " ++ c.1 ++ word " = " ++ c.2 ++ word "," ++ nl) ++
  printGroup g.modes (word "export enum Mode {" ++ nl) (word "}" ++ nl ++ nl) (fun c => word "    " ++ c.1 ++ word " = " ++ c.2 ++ word "," ++ nl) ++
  printGroup g.trans (word "export enum Trans {" ++ nl) (word "}" ++ nl ++ nl) (fun c => word "    " ++ c.1 ++ word " = " ++ c.2 ++ word "," ++ nl) ++
  printGroup g.ops (word "export enum OpCode {" ++ nl) (word "}" ++ nl ++ nl) (fun c => word "    " ++ c.1 ++ word " = " ++ c.2 ++ word "," ++ nl)

end Cnd
