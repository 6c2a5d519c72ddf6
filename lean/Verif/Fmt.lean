/-
  The source formatter: /repo/src/compiler/cnd_fmt.c.

  The source is the list of bytes from the current pointer on, including the terminating NUL and whatever memory
  follows. The string builder (cnd_utils.c 498-540) is an output list; memory exhaustion is not modelled.
-/
import Verif.Lexer

namespace Cnd

/-- FmtTokenType, cnd_fmt.c 10-28; FMT_IDENTIFIER and FMT_NUMBER are also used for everything else. -/
inductive FT
  | identifier | number | string | lbrace | rbrace | lbracket | rbracket | lparen | rparen | semicolon | colon
  | comma | at | comment | newline | whitespace
  deriving DecidableEq, Repr

/-- Outcome of fmt_next: end of the source, a token with the new `current`, or a read outside the source. -/
inductive FNext
  | eof
  | tok (ty : FT) (text rest : List Byte)
  | oob
  deriving DecidableEq, Repr

/-- `while (p(*current)) current++;` and the token from `start`. -/
def fmtSpan (ty : FT) (p : Byte → Bool) (start cur : List Byte) : FNext :=
  match skipWhile p cur with
  | none => .oob
  | some r => .tok ty (between start r) r

/-- The characters of a number, cnd_fmt.c 112. -/
def fmtNumChar (c : Byte) : Bool :=
  isDig c ∨ c = 0x78 ∨ c = 0x58 ∨ c = 0x2E ∨ (0x61 ≤ c.toNat ∧ c.toNat ≤ 0x66) ∨ (0x41 ≤ c.toNat ∧ c.toNat ≤ 0x46)

/-- Single characters, cnd_fmt.c 83-94. -/
def fmtSingle (c : Byte) : Option FT :=
  match c.toNat with
  | 0x7B => some .lbrace
  | 0x7D => some .rbrace
  | 0x5B => some .lbracket
  | 0x5D => some .rbracket
  | 0x28 => some .lparen
  | 0x29 => some .rparen
  | 0x3B => some .semicolon
  | 0x3A => some .colon
  | 0x2C => some .comma
  | 0x40 => some .at
  | _ => none

/-- A string, cnd_fmt.c 95-101. -/
def fmtString (start cur : List Byte) : FNext :=
  match skipWhile (fun d => d ≠ 0x22 ∧ d ≠ 0) cur with
  | none | some [] => .oob
  | some (d :: r) => if d = 0x22 then .tok .string (between start r) r else .tok .string (between start (d :: r)) (d :: r)

/-- fmt_next behind the tests of the first character that need the second one, cnd_fmt.c 82-120. -/
def fmtRest (c : Byte) (start cur : List Byte) : FNext :=
  match fmtSingle c with
  | some ty => .tok ty [c] cur
  | none =>
    if c = 0x22 then fmtString start cur
    else if isAlpha c then fmtSpan .identifier (fun d => isAlpha d || isDig d) start cur
    else if isDig c then fmtSpan .number fmtNumChar start cur
    else if c = 0x2D then
      match cur with
      | [] => .oob
      | d :: _ => if isDig d then fmtSpan .number fmtNumChar start cur else .tok .identifier [c] cur
    else .tok .identifier [c] cur

/-- fmt_next, cnd_fmt.c 46-121. -/
def fmtNext : List Byte → FNext
  | [] => .oob
  | c :: cur =>
    if c = 0 then .eof
    else if c = 0x0A then .tok .newline [c] cur
    else if c = 0x20 ∨ c = 0x09 ∨ c = 0x0D then
      fmtSpan .whitespace (fun d => d = 0x20 ∨ d = 0x09 ∨ d = 0x0D) (c :: cur) cur
    else if c = 0x2F then
      match cur with
      | [] => .oob
      | d :: _ =>
        if d = 0x2F then fmtSpan .comment (fun d => d ≠ 0 ∧ d ≠ 0x0A) (c :: cur) cur else fmtRest c (c :: cur) cur
    else fmtRest c (c :: cur) cur

/-- The local variables of cnd_format_source, cnd_fmt.c 136-146: `started` is `prev.type != FMT_EOF` (prev never is a
newline, since it is set only behind the output of a token). -/
structure FSt where
  indent : Nat
  newlinePending : Nat
  spacePending : Bool
  onNewLine : Bool
  started : Bool
  out : List Byte
  deriving DecidableEq, Repr

/-- sb_indent, cnd_fmt.c 125-127. -/
def indentText (n : Nat) : List Byte := (List.replicate n [0x20, 0x20, 0x20, 0x20]).flatten

/-- The white space in front of a token, cnd_fmt.c 166-196. -/
def fmtBefore (ty : FT) (s : FSt) : FSt :=
  let s := if ty = .rbrace then { s with indent := s.indent - 1, newlinePending := 1 } else s
  let s := if s.newlinePending > 0 then
      { s with out := if s.onNewLine then s.out else if s.newlinePending > 1 then s.out ++ [0x0A, 0x0A] else s.out ++ [0x0A],
               onNewLine := true, newlinePending := 0, spacePending := false }
    else s
  let s := if s.onNewLine then { s with out := s.out ++ indentText s.indent, onNewLine := false }
    else if s.spacePending then { s with out := s.out ++ [0x20], spacePending := false } else s
  if ty = .lbrace then { s with out := s.out ++ [0x20] } else s

/-- The variables behind a token, cnd_fmt.c 200-209. -/
def fmtAfter (ty : FT) (s : FSt) : FSt :=
  let s := if ty = .lbrace then { s with indent := s.indent + 1, newlinePending := 1 }
    else if ty = .rbrace ∨ ty = .semicolon ∨ ty = .comment then { s with newlinePending := 1 }
    else if ty = .comma then { s with spacePending := true } else s
  { s with started := true }

/-- One round of the loop of cnd_format_source, cnd_fmt.c 152-210. -/
def fmtToken (ty : FT) (text : List Byte) (s : FSt) : FSt :=
  match ty with
  | .whitespace => if s.started then { s with spacePending := true } else s
  | .newline => if s.newlinePending < 2 then { s with newlinePending := s.newlinePending + 1 } else s
  | ty =>
    let s := fmtBefore ty s
    fmtAfter ty { s with out := s.out ++ text }

/-- The loop, with at most `fuel` tokens; `none` for a read outside the source (or too little fuel). -/
def fmtLoop : Nat → List Byte → FSt → Option (List Byte)
  | 0, _, _ => none
  | fuel + 1, cur, s =>
    match fmtNext cur with
    | .eof => some (s.out ++ [0x0A])
    | .tok ty text rest => fmtLoop fuel rest (fmtToken ty text s)
    | .oob => none

def fmtStart : FSt := ⟨0, 0, false, true, false, []⟩

/-- cnd_format_source, cnd_fmt.c 129-215. -/
def fmtSource (src : List Byte) : Option (List Byte) := fmtLoop (src.length + 1) src fmtStart

end Cnd
