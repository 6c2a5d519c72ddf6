/-
  The diagnostics that the language server publishes: parser_error, /repo/src/compiler/cnd_parser.c 189-213, and publish_diagnostics,
  /repo/src/cli/cmd_lsp.c 881-934.
-/
import Verif.LspCursor
import Verif.Parse

namespace Cnd

/-! ### The table of messages -/

/-- Parser.errors, error_count and error_cap, cnd_parser.h. `kept` are the entries that have been written, in order; of an entry only line and column are
modelled, not the text of the message. -/
structure ErrTab where
  cap : Nat := 0
  count : Nat := 0
  kept : List (Nat × Nat) := []

/-- parser_error, cnd_parser.c 190-213. The allocation is taken to succeed. -/
def ErrTab.note (t : ErrTab) (e : Nat × Nat) : ErrTab :=
  let count := t.count + 1
  let cap :=
    if count > t.cap then
      let big := if t.cap = 0 then 8 else t.cap * 2
      let big := if big > 1024 then 1024 else big
      if count ≤ big then big else t.cap
    else t.cap
  { cap := cap, count := count, kept := if count ≤ cap then t.kept ++ [e] else t.kept }

/-- The loop over the table, cmd_lsp.c 908-929: lines and columns counted from zero. `none` if an entry is read that has not been written. -/
def ErrTab.publish (t : ErrTab) : Option (List (Nat × Nat)) :=
  (List.range (if t.count ≤ t.cap then t.count else t.cap)).mapM fun i => t.kept[i]?.map fun e => (e.1 - 1, e.2 - 1)

/-! ### Positions -/

/-- The column that parser_error computes, cnd_parser.c 194-198: from the beginning of the source, or behind the last newline or carriage return,
counted from one. -/
def columnIn (src : List Byte) (off : Nat) : Nat := ((src.take off).reverse.takeWhile fun c => c != 0x0A && c != 0x0D).length + 1

/-- Offset and line of all tokens, the end of the source included (Token.start and Token.line of what lexer_next returns). `src` is the source with its
NUL, `cur` and `line` are the lexer's; `fuel` bounds the number of tokens. -/
def places (src : List Byte) : Nat → List Byte → Nat → List (Nat × Nat)
  | 0, _, _ => []
  | fuel + 1, cur, line =>
    match lexNext cur line with
    | .tok t rest line' =>
      (src.length - (tokStart (cur.length + 1) cur).length, t.line) :: (if t.type = .eof then [] else places src fuel rest line')
    | _ => []

/-- Line and column of a message that is given when `n` tokens are behind the current one. At the end of the source lexer_next returns the same token
again and again. -/
def placeOf (src : List Byte) (ps : List (Nat × Nat)) (n : Nat) : Nat × Nat :=
  let p := ps.getD (ps.length - 1 - n) (0, 0)
  (p.2, columnIn src p.1)

/-! ### Diagnostics -/

/-- What the server sends. -/
inductive Shown
  | list (ds : List (Nat × Nat))
  | ub
  | imports
  | stuck
  deriving DecidableEq, Repr

/-- publish_diagnostics, cmd_lsp.c 881-934: the beginnings of the ranges, in order (a range is one column wide). Documents with imports are not covered. -/
def diagnostics (P : PEnv) (fuel : Nat) (src : List Byte) : Shown :=
  match lexAll (src.length + 1) (src ++ [0]) 1 with
  | none => .ub
  | some toks =>
    match parseTop P fuel (parseStart (toks.map Tok.bare)).adv with
    | .ok s =>
      let ps := places (src ++ [0]) (src.length + 1) (src ++ [0]) 1
      match (s.log.reverse.foldl (fun t n => t.note (placeOf (src ++ [0]) ps n)) ({} : ErrTab)).publish with
      | some ds => .list ds
      | none => .ub
    | .ub => .ub
    | .imports => .imports
    | .stuck => .stuck

end Cnd
