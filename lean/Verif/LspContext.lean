/-
  What the language server offers for completion, and in which context: handle_completion, /repo/src/cli/cmd_lsp.c 491-768.
-/
import Verif.LspCursor
import Verif.Source

namespace Cnd

/-! ### The scan for the context -/

/-- The variables that follow one kind of group (cmd_lsp.c 545-549 for decorators, 553-555 for structs and packets): the name of the group the
scan is in, the depth of brackets, and the depth at which that group began. The C counters are of type int; here they do not wrap. -/
structure Grp where
  name : Option (List Byte) := none
  depth : Int := 0
  start : Int := -1
  deriving DecidableEq, Repr

/-- One token, cmd_lsp.c 565-582 (`o`, `c` are the parentheses, `heads` is the at sign) and 585-608 (braces; struct and packet). The two pieces of
code differ only in the types of tokens. `prev` and `prev2` are the two tokens before. -/
def grpStep (o c : TT) (heads : List TT) (prev prev2 t : TT × List Byte) (g : Grp) : Grp :=
  if t.1 = o then
    if prev.1 = .identifier ∧ prev2.1 ∈ heads then ⟨some prev.2, g.depth + 1, g.depth + 1⟩
    else { g with depth := g.depth + 1 }
  else if t.1 = c then
    if g.name.isSome ∧ g.depth = g.start then ⟨none, g.depth - 1, -1⟩
    else { g with depth := g.depth - 1 }
  else g

/-- The state of the scan, cmd_lsp.c 527-555. -/
structure Scan where
  prev : TT × List Byte := (.eof, [])
  prev2 : TT × List Byte := (.eof, [])
  deco : Grp := {}
  block : Grp := {}
  deriving DecidableEq, Repr

/-- The body of the loop, cmd_lsp.c 564-611. -/
def scanTok (s : Scan) (t : TT × List Byte) : Scan :=
  { prev := t, prev2 := s.prev,
    deco := grpStep .lparen .rparen [.at] s.prev s.prev2 t s.deco,
    block := grpStep .lbrace .rbrace [.kwStruct, .kwPacket] s.prev s.prev2 t s.block }

/-- The offset of the cursor, cmd_lsp.c 530-538: `character` bytes behind the beginning of the line. The protocol counts characters of UTF-16; the
server counts bytes. -/
def lineStart : List Byte → Nat → Nat
  | _, 0 => 0
  | [], _ + 1 => 0
  | c :: cs, l + 1 => if c = 0 then 0 else 1 + lineStart cs (if c = 0x0A then l else l + 1)

def cursorOff (src : List Byte) (line character : Nat) : Nat := lineStart src line + character

/-- The loop, cmd_lsp.c 557-612: up to the first token that does not begin before the cursor. `src` is the source with its NUL, `cur` and `line` are the
lexer's; `fuel` bounds the number of tokens. -/
def scanLoop (src : List Byte) (off : Nat) : Nat → List Byte → Nat → Scan → Scan
  | 0, _, _, s => s
  | fuel + 1, cur, line, s =>
    match lexNext cur line with
    | .tok t rest line' =>
      if t.type = .eof then s
      else if off ≤ src.length - (tokStart (cur.length + 1) cur).length then s
      else scanLoop src off fuel rest line' (scanTok s (t.type, t.text))
    | _ => s

def scanTo (src : List Byte) (line character : Nat) : Scan :=
  scanLoop src (cursorOff src line character) (src.length + 1) src 1 {}

/-! ### The list -/

/-- Math functions and type conversions, cmd_lsp.c 650 and 660. -/
def offeredFunctions : List (List Byte) :=
  [word "sin", word "cos", word "tan", word "sqrt", word "log", word "abs", word "pow", word "int", word "float"]

/-- cmd_lsp.c 711 -/
def offeredKeywords : List (List Byte) :=
  [word "struct", word "packet", word "enum", word "import", word "true", word "false", word "prefix", word "string", word "const", word "range",
   word "if", word "else", word "switch", word "case", word "default"]

/-- BUILTIN_DECORATORS, cmd_lsp.c 23-56, with the at sign of 728. -/
def offeredDecorators : List (List Byte) :=
  [word "@version", word "@import", word "@big_endian", word "@be", word "@little_endian", word "@le", word "@unaligned_bytes", word "@fill",
   word "@crc_refin", word "@crc_refout", word "@optional", word "@count", word "@len", word "@const", word "@match", word "@pad", word "@range",
   word "@crc", word "@crc_poly", word "@crc_init", word "@crc_xor", word "@scale", word "@offset", word "@mul", word "@div", word "@add",
   word "@sub", word "@poly", word "@spline", word "@expr", word "@eof"]

/-- The registries and the string table after the source has been parsed (cmd_lsp.c 508-522): code of structs, enums, names. -/
structure Registry where
  structs : List (List Byte × List Byte)
  enums : List EnumD
  names : List (List Byte)

/-- enum_reg_find, cnd_utils.c 425-432. -/
def enumFind (enums : List EnumD) (name : List Byte) : Option EnumD := enums.find? fun e => e.name = name

/-- The enum whose members are offered, cmd_lsp.c 615-627. -/
def memberOf (R : Registry) (s : Scan) : Option EnumD :=
  if s.prev.1 = .dot ∧ s.prev2.1 = .identifier then enumFind R.enums s.prev2.2 else none

/-- The labels of the items, in order, cmd_lsp.c 629-755. -/
def labelsFor (R : Registry) (s : Scan) : List (List Byte) :=
  match memberOf R s with
  | some e => e.values.map (·.1)
  | none =>
    let inExpr := s.deco.name = some (word "expr")
    let inCount := s.deco.name = some (word "count") ∨ s.deco.name = some (word "len")
    if inExpr ∨ inCount then
      (if inExpr then offeredFunctions else []) ++
      (match s.block.name with
        | none => []
        | some n =>
          match R.structs.lookup n with
          | none => []
          | some code => (offerKeys R.names.length code).map fun k => R.names.getD k [])
    else offeredKeywords ++ offeredDecorators ++ R.structs.map (·.1) ++ R.enums.map (·.name)

def completionLabels (R : Registry) (src : List Byte) (line character : Nat) : List (List Byte) := labelsFor R (scanTo src line character)

end Cnd
