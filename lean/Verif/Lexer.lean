/-
  The lexer of the compiler.

  Models /repo/src/compiler/cnd_lexer.c lines 10-188 (check_keyword, lexer_next) and the token types and
  character classes of /repo/src/compiler/cnd_internal.h lines 31-84 and 102-104.

  The source is a C string in memory: a list of bytes that contains a NUL. The pointer `lexer->current` is
  the list of bytes from there on; reading beyond the list is the outcome `oob`.
-/
import Verif.Bytes

namespace Cnd

/-- TokenType, cnd_internal.h 31-84. -/
inductive TT
  | eof | identifier | number | string
  | kwStruct | kwPacket | kwEnum | kwSwitch | kwCase | kwDefault | kwIf | kwElse | kwTrue | kwFalse | kwSelf
  | lbrace | rbrace | lbracket | rbracket | lparen | rparen | semicolon | colon | comma | at | equals | dot
  | bang | amp | pipe | caret | tilde | eqEq | bangEq | gt | lt | gtEq | ltEq | ampAmp | pipePipe
  | lshift | rshift | plus | minus | star | slash | percent
  | doc | error
  deriving DecidableEq, Repr

/-- Token, cnd_internal.h 86-91: `text` is the `length` bytes at `start`. -/
structure Tok where
  type : TT
  text : List Byte
  line : Nat
  deriving DecidableEq, Repr

/-- Outcome of lexer_next: a token with the new `current` and `line`; a read outside the source; `stuck` is
used only if the model's loop bound were too small. -/
inductive Lexed
  | tok (t : Tok) (rest : List Byte) (line : Nat)
  | oob
  | stuck
  deriving DecidableEq, Repr

/-- is_alpha_c, cnd_internal.h 102. -/
def isAlpha (c : Byte) : Bool :=
  (0x61 ≤ c.toNat ∧ c.toNat ≤ 0x7A) ∨ (0x41 ≤ c.toNat ∧ c.toNat ≤ 0x5A) ∨ c = 0x5F

/-- is_digit_c, cnd_internal.h 103. -/
def isDig (c : Byte) : Bool := 0x30 ≤ c.toNat ∧ c.toNat ≤ 0x39

/-- is_hex_c, cnd_internal.h 104. -/
def isHex (c : Byte) : Bool :=
  isDig c ∨ (0x61 ≤ c.toNat ∧ c.toNat ≤ 0x66) ∨ (0x41 ≤ c.toNat ∧ c.toNat ≤ 0x46)

/-- `while (p(*current)) current++;`; `none` is a read outside the source. -/
def skipWhile (p : Byte → Bool) : List Byte → Option (List Byte)
  | [] => none
  | c :: cs => if p c then skipWhile p cs else some (c :: cs)

/-- The bytes from pointer `start` up to pointer `cur`. -/
def between (start cur : List Byte) : List Byte := start.take (start.length - cur.length)

/-- check_keyword, cnd_lexer.c 10-36. -/
def checkKeyword (s : List Byte) : TT :=
  if s = [0x69, 0x66] then .kwIf
  else if s = [0x65, 0x6E, 0x75, 0x6D] then .kwEnum
  else if s = [0x63, 0x61, 0x73, 0x65] then .kwCase
  else if s = [0x65, 0x6C, 0x73, 0x65] then .kwElse
  else if s = [0x74, 0x72, 0x75, 0x65] then .kwTrue
  else if s = [0x73, 0x65, 0x6C, 0x66] then .kwSelf
  else if s = [0x66, 0x61, 0x6C, 0x73, 0x65] then .kwFalse
  else if s = [0x73, 0x74, 0x72, 0x75, 0x63, 0x74] then .kwStruct
  else if s = [0x70, 0x61, 0x63, 0x6B, 0x65, 0x74] then .kwPacket
  else if s = [0x73, 0x77, 0x69, 0x74, 0x63, 0x68] then .kwSwitch
  else if s = [0x64, 0x65, 0x66, 0x61, 0x75, 0x6C, 0x74] then .kwDefault
  else .identifier

/-- The characters that are a token by themselves, cnd_lexer.c 84-136. -/
def single (c : Byte) : Option TT :=
  match c.toNat with
  | 0x7B => some .lbrace | 0x7D => some .rbrace | 0x5B => some .lbracket | 0x5D => some .rbracket
  | 0x28 => some .lparen | 0x29 => some .rparen | 0x3B => some .semicolon | 0x3A => some .colon
  | 0x2C => some .comma | 0x40 => some .at | 0x5E => some .caret | 0x7E => some .tilde
  | 0x2E => some .dot | 0x2B => some .plus | 0x2A => some .star | 0x2F => some .slash | 0x25 => some .percent
  | _ => none

/-- The characters that may start a token of two characters, cnd_lexer.c 96-125: the token by itself, and the
two-character tokens by their second character, in the order of the tests. -/
def double (c : Byte) : Option (TT × List (Byte × TT)) :=
  match c.toNat with
  | 0x3D => some (.equals, [(0x3D, .eqEq)])
  | 0x21 => some (.bang, [(0x3D, .bangEq)])
  | 0x26 => some (.amp, [(0x26, .ampAmp)])
  | 0x7C => some (.pipe, [(0x7C, .pipePipe)])
  | 0x3E => some (.gt, [(0x3D, .gtEq), (0x3E, .rshift)])
  | 0x3C => some (.lt, [(0x3D, .ltEq), (0x3C, .lshift)])
  | _ => none

/-- String literals, cnd_lexer.c 137-145; `cs` is behind the opening quote. -/
def lexString (cs : List Byte) (line : Nat) : Lexed :=
  match skipWhile (fun c => c != 0x22 && c != 0) cs with
  | none => .oob
  | some [] => .oob
  | some (d :: rest) =>
    .tok ⟨.string, between cs (d :: rest), line⟩ (if d = 0x22 then rest else d :: rest) line

/-- Identifiers and keywords, cnd_lexer.c 148-156; `cs` is behind the first character. -/
def lexWord (c : Byte) (cs : List Byte) (line : Nat) : Lexed :=
  match skipWhile (fun c => isAlpha c || isDig c) cs with
  | none => .oob
  | some rest => .tok ⟨checkKeyword (between (c :: cs) rest), between (c :: cs) rest, line⟩ rest line

/-- The test for a hexadecimal prefix, cnd_lexer.c 164-170: the pointer behind the prefix if there is one. The
inner `none` is a read outside the source. -/
def hexPrefix (c : Byte) (cs : List Byte) : Option (Option (List Byte)) :=
  if c = 0x30 then
    match cs with
    | [] => none
    | d :: ds => if d = 0x78 ∨ d = 0x58 then some (some ds) else some none
  else if c = 0x2D then
    match cs with
    | [] => none
    | d :: ds =>
      if d = 0x30 then
        match ds with
        | [] => none
        | e :: es => if e = 0x78 ∨ e = 0x58 then some (some es) else some none
      else some none
  else some none

/-- The decimal part and the fraction, cnd_lexer.c 176-182. -/
def lexDecimal (cs : List Byte) : Option (List Byte) :=
  match skipWhile isDig cs with
  | none => none
  | some [] => none
  | some (d :: rest) =>
    if d = 0x2E then
      match rest with
      | [] => none
      | e :: es => if isDig e then skipWhile isDig (e :: es) else some (d :: rest)
    else some (d :: rest)

/-- Numbers, cnd_lexer.c 159-187; `cs` is behind the first character. -/
def lexNumber (c : Byte) (cs : List Byte) (line : Nat) : Lexed :=
  match hexPrefix c cs with
  | none => .oob
  | some hx =>
    match (match hx with
      | some body => skipWhile isHex body
      | none => lexDecimal cs) with
    | none => .oob
    | some rest => .tok ⟨.number, between (c :: cs) rest, line⟩ rest line

/-- The part of lexer_next behind white space and comments, cnd_lexer.c 76-192; `c` is the character read
and `cs` the pointer behind it. -/
def lexToken (c : Byte) (cs : List Byte) (line : Nat) : Lexed :=
  match single c with
  | some t => .tok ⟨t, [c], line⟩ cs line
  | none =>
    match double c with
    | some (t1, seconds) =>
      match cs with
      | [] => .oob
      | d :: ds =>
        match seconds.lookup d with
        | some t2 => .tok ⟨t2, [c, d], line⟩ ds line
        | none => .tok ⟨t1, [c], line⟩ (d :: ds) line
    | none =>
      if c = 0x22 then lexString cs line
      else if c = 0x2D then
        match cs with
        | [] => .oob
        | d :: _ => if isDig d then lexNumber c cs line else .tok ⟨.minus, [c], line⟩ cs line
      else if isAlpha c then lexWord c cs line
      else if isDig c then lexNumber c cs line
      else .tok ⟨.error, [c], line⟩ cs line

/-- The loop inside a block comment, cnd_lexer.c 67-74: the pointer behind it and the line. -/
def blockSkip : List Byte → Nat → Option (List Byte × Nat)
  | [], _ => none
  | c :: cs, line =>
    if c = 0 then some (c :: cs, line)
    else
      let line := if c = 0x0A then line + 1 else line
      if c = 0x2A then
        match cs with
        | [] => none
        | d :: ds => if d = 0x2F then some (ds, line) else blockSkip (d :: ds) line
      else blockSkip cs line

/-- What starts at a character that is neither NUL nor white space. -/
inductive Start
  | doc (body : List Byte)
  | lineComment (body : List Byte)
  | blockComment (body : List Byte)
  | token
  | oob

/-- The comment tests, cnd_lexer.c 45, 60 and 64; the pointer is behind the comment's opening. -/
def startOf (c : Byte) (cs : List Byte) : Start :=
  if c = 0x2F then
    match cs with
    | [] => .oob
    | d :: ds =>
      if d = 0x2F then
        match ds with
        | [] => .oob
        | e :: es => if e = 0x2F then .doc es else .lineComment (e :: es)
      else if d = 0x2A then .blockComment ds
      else .token
  else .token

/-- lexer_next, cnd_lexer.c 38-193, with at most `fuel` rounds of its loop. -/
def lexLoop : Nat → List Byte → Nat → Lexed
  | 0, _, _ => .stuck
  | _ + 1, [], _ => .oob
  | fuel + 1, c :: cs, line =>
    if c = 0 then .tok ⟨.eof, [], line⟩ (c :: cs) line
    else if c = 0x20 ∨ c = 0x0D ∨ c = 0x09 then lexLoop fuel cs line
    else if c = 0x0A then lexLoop fuel cs (line + 1)
    else
      match startOf c cs with
      | .oob => .oob
      | .doc body =>
        match skipWhile (fun c => c != 0 && c != 0x0A && c != 0x0D) body with
        | none => .oob
        | some rest => .tok ⟨.doc, between body rest, line⟩ rest line
      | .lineComment body =>
        match skipWhile (fun c => c != 0 && c != 0x0A) body with
        | none => .oob
        | some rest => lexLoop fuel rest line
      | .blockComment body =>
        match blockSkip body line with
        | none => .oob
        | some (rest, line) => lexLoop fuel rest line
      | .token => lexToken c cs line

/-- lexer_next. -/
def lexNext (cur : List Byte) (line : Nat) : Lexed := lexLoop (cur.length + 1) cur line

/-- All tokens up to the end of the source, with at most `fuel` calls of lexer_next; `none` if one of them does
not return a token or there are more. -/
def lexAll : Nat → List Byte → Nat → Option (List Tok)
  | 0, _, _ => none
  | fuel + 1, cur, line =>
    match lexNext cur line with
    | .tok t rest line' =>
      if t.type = .eof then some [t] else (lexAll fuel rest line').map (t :: ·)
    | _ => none

end Cnd
