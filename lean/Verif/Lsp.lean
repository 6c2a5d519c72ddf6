/-
  The language server: /repo/src/cli/cmd_lsp.c.

  Modelled are the framing of messages (64-97), the document store (107-141), file URIs (362-402 and 1033-1047), formatting
  (773-804), and the text of hovers (1100-1121). The JSON text of messages is cJSON's (a dependency outside the repository): a message is
  the text handed to or received from it.
-/
import Verif.Fmt
import Verif.Lexer

namespace Cnd

/-- The C string in a buffer: the bytes before the first NUL. -/
def cText (l : List Byte) : List Byte := l.takeWhile (· != 0)

/-! ### Messages -/

/-- fgets with room for `n` characters (and the NUL): what is read and what is left. -/
def fgetsC : Nat → List Byte → List Byte × List Byte
  | 0, s => ([], s)
  | _ + 1, [] => ([], [])
  | n + 1, c :: s => if c = 0x0A then ([c], s) else (c :: (fgetsC n s).1, (fgetsC n s).2)

/-- isspace in the C locale. -/
def isSpaceC (c : Byte) : Bool := c = 0x20 ∨ (0x09 ≤ c.toNat ∧ c.toNat ≤ 0x0D)

/-- The digits at the head of a string, as a number after `a`. -/
def atoiDigits : List Byte → Nat → Nat
  | [], a => a
  | c :: cs, a => if isDig c then atoiDigits cs (10 * a + (c.toNat - 0x30)) else a

/-- atoi; `none` if the number does not fit an int (undefined behaviour, C11 7.22.1). -/
def atoiC (s : List Byte) : Option Int :=
  match s.dropWhile isSpaceC with
  | [] => some 0
  | c :: cs =>
    let v : Int := if c = 0x2D then -(atoiDigits cs 0 : Int) else if c = 0x2B then atoiDigits cs 0 else atoiDigits (c :: cs) 0
    if -(2 ^ 31) ≤ v ∧ v < 2 ^ 31 then some v else none

/-- "Content-Length: ". -/
def lenName : List Byte := [0x43, 0x6F, 0x6E, 0x74, 0x65, 0x6E, 0x74, 0x2D, 0x4C, 0x65, 0x6E, 0x67, 0x74, 0x68, 0x3A, 0x20]

inductive Head
  | done (len : Int) (rest : List Byte)
  | close
  | ub
  | stuck
  deriving DecidableEq, Repr

/-- The loop over header lines, cmd_lsp.c 73-87; `len` is `content_len` before it becomes a size_t. `fuel` bounds the rounds (the
length of the input suffices). -/
def readHead : Nat → Int → List Byte → Head
  | 0, _, _ => .stuck
  | fuel + 1, len, s =>
    if s = [] then .close
    else
      let line := cText (fgetsC 1023 s).1
      let rest := (fgetsC 1023 s).2
      if line.take 16 = lenName then
        match atoiC (line.drop 16) with
        | none => .ub
        | some v => readHead fuel v rest
      else if line = [0x0D, 0x0A] ∨ line = [0x0A] then .done len rest
      else readHead fuel len rest

inductive MsgRead
  | msg (text rest : List Byte)
  | close
  | ub
  deriving DecidableEq, Repr

/-- read_json, cmd_lsp.c 70-97, up to the call of cJSON_Parse. A length of -1 becomes the largest size_t, `malloc(content_len + 1)` is
`malloc(0)`, and `fread` may write without limit; other negative lengths are larger than any object, and `malloc` fails. -/
def readJson (s : List Byte) : MsgRead :=
  match readHead (s.length + 1) 0 s with
  | .done len rest =>
    if len = 0 then .close
    else if len = -1 then .ub
    else if len < 0 then .close
    else .msg (cText (rest.take len.toNat)) (rest.drop len.toNat)
  | .close => .close
  | _ => .ub

/-- The loop of cmd_lsp, 1126-1176, as far as it reads: the messages up to the end; `none` is undefined behaviour. The loop also
ends when a message is not JSON. `fuel` bounds the number of messages. -/
def readMsgs : Nat → List Byte → Option (List (List Byte))
  | 0, _ => some []
  | fuel + 1, s =>
    match readJson s with
    | .msg t rest => (readMsgs fuel rest).map (t :: ·)
    | .close => some []
    | .ub => none

/-- Decimal digits (`%zu`). -/
def decText : Nat → Nat → List Byte
  | 0, _ => []
  | fuel + 1, n => (if n < 10 then [] else decText fuel (n / 10)) ++ [BitVec.ofNat 8 (0x30 + n % 10)]

/-- send_json, cmd_lsp.c 60-68: the bytes written for a text. -/
def sendJson (text : List Byte) : List Byte :=
  lenName ++ decText 20 text.length ++ [0x0D, 0x0A, 0x0D, 0x0A] ++ text

/-! ### File URIs -/

/-- isxdigit and isalpha may only be called with values of unsigned char (C11 7.4); a plain char from 0x80 on is negative. -/
def isCtype (c : Byte) : Bool := c.toNat < 0x80

/-- The value of a hexadecimal digit, cmd_lsp.c 368-373. -/
def pctVal (a : Byte) : Nat :=
  let a := if 0x61 ≤ a.toNat then a.toNat - 32 else a.toNat
  if 0x41 ≤ a then a - 55 else a - 48

/-- url_decode, cmd_lsp.c 362-381, on a string (without its NUL): the bytes written before the final NUL; `none` is undefined
behaviour. -/
def urlDecode : List Byte → Option (List Byte)
  | [] => some []
  | c :: s =>
    if c = 0x25 then
      match s with
      | a :: b :: r =>
        if isCtype a then
          if isHex a then
            if isCtype b then
              if isHex b then (urlDecode r).map (BitVec.ofNat 8 (16 * pctVal a + pctVal b) :: ·)
              else (urlDecode (a :: b :: r)).map (c :: ·)
            else none
          else (urlDecode (a :: b :: r)).map (c :: ·)
        else none
      | s => (urlDecode s).map (c :: ·)
    else (urlDecode s).map (c :: ·)

/-- "file://". -/
def fileScheme : List Byte := [0x66, 0x69, 0x6C, 0x65, 0x3A, 0x2F, 0x2F]

/-- isalpha in the C locale. -/
def isAlphaC (c : Byte) : Bool := (0x61 ≤ c.toNat ∧ c.toNat ≤ 0x7A) ∨ (0x41 ≤ c.toNat ∧ c.toNat ≤ 0x5A)

/-- The slash before a drive letter, cmd_lsp.c 393-399; `none` is undefined behaviour. -/
def dropSlash (p : List Byte) : Option (List Byte) :=
  match p with
  | x :: c :: r =>
    if x = 0x2F then
      if isCtype c then if isAlphaC c ∧ r.head? = some 0x3A then some (c :: r) else some p
      else none
    else some p
  | _ => some p

/-- file_uri_to_path, cmd_lsp.c 383-402; `none` is undefined behaviour. -/
def uriPath (uri : List Byte) : Option (List Byte) :=
  (urlDecode (if uri.take 7 = fileScheme then uri.drop 7 else uri)).bind fun d => dropSlash (cText d)

/-- The URI of a definition's file, cmd_lsp.c 1033-1047; `none` is undefined behaviour (`def_file[1]` of an empty string). -/
def pathUri (path : List Byte) : Option (List Byte) :=
  match path with
  | [] => none
  | _ :: r => some (((if r.head? = some 0x3A then fileScheme ++ [0x2F] ++ path else fileScheme ++ path).take 1023).map
      fun c => if c = 0x5C then 0x2F else c)

/-! ### Documents -/

/-- doc_update, cmd_lsp.c 117-131. -/
def docUpdate (uri text : List Byte) : List (List Byte × List Byte) → List (List Byte × List Byte)
  | [] => [(uri, text)]
  | d :: ds => if d.1 = uri then (d.1, text) :: ds else d :: docUpdate uri text ds

/-- doc_get, cmd_lsp.c 133-140. -/
def docGet (uri : List Byte) : List (List Byte × List Byte) → Option (List Byte)
  | [] => none
  | d :: ds => if d.1 = uri then some d.2 else docGet uri ds

/-- The notifications about documents, cmd_lsp.c 940-984 and the dispatch 1153-1158: `didClose` is not in it. -/
inductive Note
  | didOpen (uri text : List Byte)
  | didChange (uri : List Byte) (texts : List (List Byte))
  | didSave (uri : List Byte)
  | didClose (uri : List Byte)
  deriving DecidableEq, Repr

/-- What a notification does to the store: of several changes, the last counts (956-966). -/
def docStep (ds : List (List Byte × List Byte)) : Note → List (List Byte × List Byte)
  | .didOpen uri text => docUpdate uri text ds
  | .didChange uri texts =>
    match texts.getLast? with
    | some text => docUpdate uri text ds
    | none => ds
  | .didSave _ => ds
  | .didClose _ => ds

/-- handle_formatting, cmd_lsp.c 773-804: the text of the edit it asks for, `none` for an answer of null. The file is read from
the disk (`disk` gives the contents of readable files); the store is not asked. The outer `none` is undefined behaviour. -/
def formatting (disk : List Byte → Option (List Byte)) (uri : List Byte) : Option (Option (List Byte)) :=
  match uriPath uri with
  | none => none
  | some path =>
    match disk path with
    | none => some none
    | some text => (fmtSource (text ++ [0])).map some

/-- The line at which the range of the edit ends, cmd_lsp.c 791. -/
def editLines : Nat := 999999

/-! ### Hover -/

/-- `offset += snprintf(msg + offset, sizeof(msg) - offset, ...)`, cmd_lsp.c 1107-1115, where the text printed is `piece`: the string in
`msg` and the offset. `none` is undefined behaviour: a pointer behind `msg`, with a size that has wrapped around. -/
def putHover (piece : List Byte) (s : List Byte × Nat) : Option (List Byte × Nat) :=
  if 4096 < s.2 then none
  else some (if s.2 = 4096 then s.1 else s.1 ++ piece.take (4095 - s.2), s.2 + piece.length)

/-- The text of a hover, cmd_lsp.c 1104-1115: the line about the definition, the documentation and the details of an
enumeration, if there are any. -/
def hoverText (about : List Byte) (docs details : Option (List Byte)) : Option (List Byte) :=
  ((putHover about ([], 0)).bind fun s =>
    (match docs with | some d => putHover (0x0A :: 0x0A :: d) s | none => some s).bind fun s =>
    match details with | some d => putHover (0x0A :: 0x0A :: d) s | none => some s).map (·.1)

end Cnd
