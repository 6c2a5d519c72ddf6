/-
  Programs of several files: `@import`, cnd_parser.c 1531-1685, and cnd_compile_file, cndc.c 258-321, with the files it reads.
-/
import Verif.Parse

namespace Cnd

/-- What the compiler sees of the file system: cnd_canonicalize_path (cnd_utils.c 3-29: realpath, or the path itself where that
fails) and the bytes of the files that can be opened. Both are the system's and stay arbitrary. -/
structure Files where
  canon : List Byte → List Byte
  read : List Byte → Option (List Byte)

/-- The part of a path up to and with its last `/` or `\`; the whole path is taken apart from behind. -/
def dirPart (base : List Byte) : List Byte := (base.reverse.dropWhile fun c => c ≠ 0x2F ∧ c ≠ 0x5C).reverse

/-- resolve_path, cnd_parser.c 1532-1550. -/
def resolvePath (base rel : List Byte) : List Byte := dirPart base ++ rel

/-- The parser with the table `imports` (paths of the files read or tried) and `current_path`. -/
structure ISt where
  c : CSt
  imports : List (List Byte)
  path : List Byte
  deriving DecidableEq, Repr

/-- The tokens of a file, as in `compile`; the line numbers are only used in messages. -/
def fileToks (src : List Byte) : Option (List Tok) :=
  (lexAll (src.length + 1) (src ++ [0]) 1).map fun ts => ts.map Tok.bare

/-- parse_import up to line 1557: the path in parentheses. -/
def importHead (s : CSt) : List Byte × CSt :=
  let s := s.eat .lparen
  (s.cur.text, (s.eat .string).eat .rparen)

/-- After the imported file, cnd_parser.c 1607-1610: tokens and path are those of the importing file again, everything else is
what the imported file left. -/
def resume (old : ISt) (new : ISt) : ISt :=
  { c := { new.c with prev := old.c.prev, cur := old.c.cur, toks := old.c.toks }, imports := new.imports, path := old.path }

mutual

/-- parse_import, cnd_parser.c 1552-1615; `@import` has been read. -/
def parseImport (P : PEnv) (fs : Files) : Nat → ISt → CRes ISt
  | 0, _ => .stuck
  | f + 1, s =>
    let h := importHead s.c
    let s := { s with c := h.2 }
    if h.1.length ≥ 256 then .ok { s with c := s.c.err }
    else
      let full := fs.canon (resolvePath s.path h.1)
      if full ∈ s.imports then .ok s
      else
        let s := { s with imports := s.imports ++ [full] }
        match fs.read full with
        | none => .ok { s with c := s.c.err }
        | some src =>
          match fileToks src with
          | none => .ub
          | some toks =>
            (topLoopI P fs f { s with c := { s.c with toks := toks }.adv, path := full }).bind fun t => .ok (resume s t)

/-- One top-level decorator, cnd_parser.c 1634-1656; `@` has been read. All but `@import` is as in a single file. -/
def topDecI (P : PEnv) (fs : Files) : Nat → ISt → CRes ISt
  | 0, _ => .stuck
  | f + 1, s =>
    if s.c.cur.isWord s_import then parseImport P fs f { s with c := s.c.eat .identifier }
    else (topDec f s.c).bind fun c => .ok { s with c := c }

/-- The loop over top-level decorators, cnd_parser.c 1634-1657. -/
def topDecsI (P : PEnv) (fs : Files) : Nat → ISt → CRes ISt
  | 0, _ => .stuck
  | f + 1, s => if s.c.cur.type = .at then (topDecI P fs f { s with c := s.c.adv }).bind (topDecsI P fs f) else .ok s

/-- The loop of parse_top_level, cnd_parser.c 1626-1678, of the main file and of imported ones. -/
def topLoopI (P : PEnv) (fs : Files) : Nat → ISt → CRes ISt
  | 0, _ => .stuck
  | f + 1, s =>
    if s.c.cur.type = .eof ∨ s.c.bad then .ok s
    else if s.c.cur.type = .doc then topLoopI P fs f { s with c := s.c.adv }
    else (topDecsI P fs f s).bind fun s =>
      (match s.c.cur.type with
      | .kwStruct => parseStruct P f s.c.adv
      | .kwEnum => parseEnum f s.c.adv
      | .kwPacket =>
        let c := s.c.errIf (s.c.packets > 0)
        parsePacket P f { c.adv with packets := c.packets + 1 }
      | .semicolon => .ok s.c.adv
      | .eof => .ok s.c
      | _ => .ok s.c.err).bind fun c => topLoopI P fs f { s with c := c }

end

/-- parse_top_level for the main file. A packet has to be there only at its end (import_depth = 0). `imports` is what the table
of imports holds before: cnd_compile_file enters the main file (cndc.c 288-289), the language server enters nothing
(cmd_lsp.c 881-895). -/
def parseFiles (P : PEnv) (fs : Files) (fuel : Nat) (imports : List (List Byte)) (path : List Byte) (toks : List Tok) : CRes CSt :=
  (topLoopI P fs fuel ⟨(parseStart toks).adv, imports, path⟩).bind fun s => .ok (s.c.errIf (s.c.packets = 0))

/-- What cnd_compile_file makes of the parser's final state. -/
def finish : CRes CSt → Compiled
  | .ok s =>
    if s.bad then .refused
    else
      let r := optimizeStrings s.tab s.out
      .image (writeImage r.1 r.2)
  | .ub => .ub
  | .imports => .imports
  | .stuck => .stuck

/-- cnd_compile_file, cndc.c 258-321, on a path. A main file that cannot be opened is refused. -/
def compileFile (P : PEnv) (fs : Files) (fuel : Nat) (path : List Byte) : Compiled :=
  let full := fs.canon path
  match fs.read full with
  | none => .refused
  | some src =>
    match fileToks src with
    | none => .ub
    | some toks => finish (parseFiles P fs fuel [full] full toks)

/-- The parser of the language server on a document, cmd_lsp.c 881-934, publishing diagnostics: the text is the editor's, the path is that of the
document and is not entered into the table of imports. -/
def diagnoseFile (P : PEnv) (fs : Files) (fuel : Nat) (path src : List Byte) : Compiled :=
  match fileToks src with
  | none => .ub
  | some toks => finish (parseFiles P fs fuel [] path toks)

end Cnd
