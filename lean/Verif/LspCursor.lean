/-
  What is under the cursor, and the fields offered for completion: /repo/src/cli/cmd_lsp.c 244-284 and 404-489, 662-703.
-/
import Verif.Lsp

namespace Cnd

/-! ### The token under the cursor -/

/-- The pointer `token.start` of the token that lexer_next (cnd_lexer.c 38-193) returns: the first character behind white space and
comments; behind the slashes of a documentation comment, and behind the quotation mark of a string. -/
def tokStart : Nat → List Byte → List Byte
  | 0, cur => cur
  | _ + 1, [] => []
  | fuel + 1, c :: cs =>
    if c = 0 then c :: cs
    else if c = 0x20 ∨ c = 0x0D ∨ c = 0x09 then tokStart fuel cs
    else if c = 0x0A then tokStart fuel cs
    else
      match startOf c cs with
      | .oob => []
      | .doc body => body
      | .lineComment body =>
        match skipWhile (fun c => c != 0 && c != 0x0A) body with
        | none => []
        | some rest => tokStart fuel rest
      | .blockComment body =>
        match blockSkip body 0 with
        | none => []
        | some (rest, _) => tokStart fuel rest
      | .token => if c = 0x22 then cs else c :: cs

/-- The column of an offset, cmd_lsp.c 268-270: the bytes since the last newline before it. -/
def columnAt (src : List Byte) (off : Nat) : Nat := ((src.take off).reverse.takeWhile (· != 0x0A)).length

/-- The loop of analyze_source, cmd_lsp.c 248-284: the token under the cursor, and whether the token before it is an at sign. `src` is the
source with its NUL, `cur` and `line` are the lexer's; `fuel` bounds the number of tokens. -/
def findTok (src : List Byte) (row col : Nat) : Nat → List Byte → Nat → TT → Option (Tok × Bool)
  | 0, _, _, _ => none
  | fuel + 1, cur, line, prev =>
    match lexNext cur line with
    | .tok t rest line' =>
      if t.type = .eof then none
      else
        let start := columnAt src (src.length - (tokStart (cur.length + 1) cur).length)
        if t.line - 1 = row ∧ start ≤ col ∧ col ≤ start + t.text.length then some (t, decide (prev = .at))
        else if row < t.line - 1 then none
        else findTok src row col fuel rest line' t.type
    | _ => none

/-- The symbol a request for a definition or a hover at a position is about, cmd_lsp.c 286-341: only identifiers are looked up. -/
def symbolAt (src : List Byte) (row col : Nat) : Option (List Byte × Bool) :=
  match findTok src row col (src.length + 1) src 1 .eof with
  | some (t, deco) => if t.type = .identifier then some (t.text, deco) else none
  | none => none

/-! ### The fields of a structure -/

/-- read_u8, cmd_lsp.c 405-408: value and new pointer. The list is the memory from the pointer to `end`; a pointer behind `end` behaves
like `end`. -/
def lspU8 (l : List Byte) : Nat × List Byte :=
  match l with
  | [] => (0, [])
  | b :: r => (b.toNat, r)

/-- read_u16, cmd_lsp.c 410-415: the pointer stays if there are fewer than two bytes. -/
def lspU16 (l : List Byte) : Nat × List Byte :=
  match l with
  | a :: b :: r => (a.toNat + 256 * b.toNat, r)
  | l => (0, l)

/-- Sizes by type byte, cmd_lsp.c 445-448, 455-458 and 478-481. -/
def lspSize (t : Nat) : Nat :=
  match t with
  | 0x10 | 0x14 => 1
  | 0x11 | 0x15 => 2
  | 0x12 | 0x16 => 4
  | 0x13 | 0x17 => 8
  | _ => 0

/-- skip_instruction, cmd_lsp.c 417-489. -/
def skipIns (op : Nat) (l : List Byte) : List Byte :=
  match op with
  | 0x05 => l.drop 1
  | 0x07 => l.drop 2
  | 0x10 | 0x11 | 0x12 | 0x13 | 0x14 | 0x15 | 0x16 | 0x17 | 0x18 | 0x19 | 0x1A | 0x03 => l.drop 2
  | 0x30 => l.drop 4
  | 0x31 | 0x32 | 0x33 | 0x35 | 0x36 | 0x37 => l.drop 2
  | 0x20 | 0x21 => l.drop 3
  | 0x22 => l.drop 2
  | 0x34 => l.drop 6
  | 0x39 => l.drop 6
  | 0x41 =>
    let t := lspU8 l
    if t.1 = 0x10 then t.2.drop 1 else if t.1 = 0x11 then t.2.drop 2 else if t.1 = 0x12 then t.2.drop 4
    else if t.1 = 0x13 then t.2.drop 8 else t.2
  | 0x40 => let t := lspU8 (l.drop 2); t.2.drop (lspSize t.1)
  | 0x42 =>
    let t := lspU8 l
    if t.1 = 0x18 then t.2.drop 8 else if t.1 = 0x19 then t.2.drop 16 else t.2.drop (2 * lspSize t.1)
  | 0x43 => l.drop 16
  | 0x45 | 0x46 | 0x47 | 0x48 => l.drop 8
  | 0x4C => let n := lspU8 l; n.2.drop (n.1 * 8)
  | 0x4D => let n := lspU8 l; n.2.drop (n.1 * 16)
  | 0x44 => l.drop 7
  | 0x49 => l.drop 13
  | 0x4B => let t := lspU8 l; let n := lspU16 t.2; n.2.drop (n.1 * lspSize t.1)
  | 0x51 => l.drop 6
  | 0x52 | 0x50 => l.drop 4
  | 0x60 | 0x78 => l.drop 2
  | 0x61 => l.drop 8
  | 0x23 | 0x24 => l.drop 1
  | _ => l

/-- The opcodes whose key is offered, cmd_lsp.c 669-675. -/
def offered (op : Nat) : Bool :=
  (0x10 ≤ op && op ≤ 0x1A) || op == 0x20 || op == 0x21 || op == 0x22 || (0x30 ≤ op && op ≤ 0x37) || op == 0x03 || op == 0x60 || op == 0x78

/-- The bytes behind the key, cmd_lsp.c 692-694. -/
def behindKey (op : Nat) : Nat :=
  if op = 0x20 ∨ op = 0x21 then 1 else if op = 0x30 then 2 else if op = 0x34 then 4 else 0

/-- The loop over the bytecode of a structure, cmd_lsp.c 665-699: the keys offered; `count` is the number of names. `fuel` bounds the
number of instructions (the length suffices). -/
def offerLoop (count : Nat) : Nat → List Byte → List Nat
  | 0, _ => []
  | _ + 1, [] => []
  | fuel + 1, op :: l =>
    if offered op.toNat then
      let k := lspU16 l
      (if k.1 < count ∧ op.toNat ≠ 0x03 then [k.1] else []) ++ offerLoop count fuel (k.2.drop (behindKey op.toNat))
    else offerLoop count fuel (skipIns op.toNat l)

def offerKeys (count : Nat) (code : List Byte) : List Nat := offerLoop count code.length code

end Cnd
