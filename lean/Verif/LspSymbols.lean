/-
  What the language server knows about declarations: the registries of structs and enums with the places and the documentation of their entries
  (reg_add and enum_reg_add, /repo/src/compiler/cnd_utils.c 358-377 and 406-423; parse_top_level, cnd_parser.c 1617-1685), and the answers made from
  them: analyze_source, handle_document_symbol, handle_definition and handle_hover, /repo/src/cli/cmd_lsp.c 216-358, 807-879, 1003-1128.
-/
import Verif.Import
import Verif.Lsp
import Verif.LspCursor

namespace Cnd

/-! ### The registries -/

/-- The two registries. -/
inductive Sort95
  | struct
  | enum
  deriving DecidableEq, Repr

/-- StructDef and EnumDef, cnd_internal.h, as far as the server uses them. Lines count from one. The two registries are one list here, in the order of the
declarations. -/
structure Found where
  sort : Sort95
  name : List Byte
  file : List Byte
  line : Nat
  doc : Option (List Byte)
  deriving DecidableEq, Repr

/-- Another documentation comment, cnd_parser.c 1624-1625: a newline comes before it if there is any text yet. -/
def docMore (buf text : List Byte) : List Byte := (if buf.length > 0 then buf ++ [0x0A] else buf) ++ text

/-- `doc_str`, cnd_parser.c 1659. -/
def docStr (buf : List Byte) : Option (List Byte) := if buf.length > 0 then some buf else none

/-- Token.line of the token that has `behind` tokens behind it in its file. (The parser's tokens are kept without lines, see `fileToks`.) -/
def lineOf (full : List Tok) (behind : Nat) : Nat := (full.getD (full.length - 1 - behind) eofTok).line

/-- The parser with the registries. -/
structure SSt where
  i : ISt
  reg : List Found

/-- The call of reg_add in parse_struct (cnd_parser.c 1418-1428) or of enum_reg_add in parse_enum (1320-1331), before anything of the declaration but its
keyword has been read: `c` has the name as its current token. -/
def register (full : List Tok) (buf : List Byte) (sort : Sort95) (c : CSt) (s : SSt) : SSt :=
  { s with reg := s.reg ++ [⟨sort, c.cur.text, s.i.path, lineOf full c.toks.length, docStr buf⟩] }

mutual

/-- parse_import, cnd_parser.c 1552-1615: as `parseImport`. -/
def parseImportS (P : PEnv) (fs : Files) : Nat → SSt → CRes SSt
  | 0, _ => .stuck
  | f + 1, s =>
    let h := importHead s.i.c
    let i := { s.i with c := h.2 }
    if h.1.length ≥ 256 then .ok { s with i := { i with c := i.c.err } }
    else
      let full := fs.canon (resolvePath i.path h.1)
      if full ∈ i.imports then .ok { s with i := i }
      else
        let i := { i with imports := i.imports ++ [full] }
        match fs.read full with
        | none => .ok { s with i := { i with c := i.c.err } }
        | some src =>
          match lexAll (src.length + 1) (src ++ [0]) 1 with
          | none => .ub
          | some toks =>
            (topLoopS P fs f toks [] { s with i := { i with c := { i.c with toks := toks.map Tok.bare }.adv, path := full } }).bind fun t =>
              .ok { i := resume i t.i, reg := t.reg }

/-- One top-level decorator, cnd_parser.c 1634-1656. -/
def topDecS (P : PEnv) (fs : Files) : Nat → SSt → CRes SSt
  | 0, _ => .stuck
  | f + 1, s =>
    if s.i.c.cur.isWord s_import then parseImportS P fs f { s with i := { s.i with c := s.i.c.eat .identifier } }
    else (topDec f s.i.c).bind fun c => .ok { s with i := { s.i with c := c } }

/-- The loop over top-level decorators, cnd_parser.c 1634-1657. -/
def topDecsS (P : PEnv) (fs : Files) : Nat → SSt → CRes SSt
  | 0, _ => .stuck
  | f + 1, s =>
    if s.i.c.cur.type = .at then (topDecS P fs f { s with i := { s.i with c := s.i.c.adv } }).bind (topDecsS P fs f) else .ok s

/-- The loop of parse_top_level, cnd_parser.c 1622-1678, with the buffer `buf` of documentation comments, which is emptied by every declaration, by a
semicolon and by an error. `full` are the file's tokens with their lines. -/
def topLoopS (P : PEnv) (fs : Files) : Nat → List Tok → List Byte → SSt → CRes SSt
  | 0, _, _, _ => .stuck
  | f + 1, full, buf, s =>
    if s.i.c.cur.type = .eof ∨ s.i.c.bad then .ok s
    else if s.i.c.cur.type = .doc then topLoopS P fs f full (docMore buf s.i.c.cur.text) { s with i := { s.i with c := s.i.c.adv } }
    else (topDecsS P fs f s).bind fun s =>
      match s.i.c.cur.type with
      | .kwStruct =>
        let s := register full buf .struct s.i.c.adv s
        (parseStruct P f s.i.c.adv).bind fun c => topLoopS P fs f full [] { s with i := { s.i with c := c } }
      | .kwEnum =>
        let s := register full buf .enum s.i.c.adv s
        (parseEnum f s.i.c.adv).bind fun c => topLoopS P fs f full [] { s with i := { s.i with c := c } }
      | .kwPacket =>
        let c := s.i.c.errIf (s.i.c.packets > 0)
        (parsePacket P f { c.adv with packets := c.packets + 1 }).bind fun c => topLoopS P fs f full [] { s with i := { s.i with c := c } }
      | .semicolon => topLoopS P fs f full [] { s with i := { s.i with c := s.i.c.adv } }
      | .eof => topLoopS P fs f full buf s
      | _ => topLoopS P fs f full [] { s with i := { s.i with c := s.i.c.err } }

end

/-- What a request comes to, for the answers of the server. -/
inductive Known95 (α : Type)
  | known (a : α)
  | ub
  | stuck
  deriving DecidableEq, Repr

def Known95.bind {α β : Type} (r : Known95 α) (f : α → Known95 β) : Known95 β :=
  match r with
  | .known a => f a
  | .ub => .ub
  | .stuck => .stuck

/-- The registries after parse_top_level on a document, cmd_lsp.c 225-243 and 820-829, and the parser's state, from which the values of enums are taken.
Errors of the document are not looked at. -/
def knownOf (P : PEnv) (fs : Files) (fuel : Nat) (path src : List Byte) : Known95 (List Found × CSt) :=
  match lexAll (src.length + 1) (src ++ [0]) 1 with
  | none => .ub
  | some toks =>
    match topLoopS P fs fuel toks [] ⟨⟨(parseStart (toks.map Tok.bare)).adv, [], path⟩, []⟩ with
    | .ok s => .known (s.reg, s.i.c)
    | .stuck => .stuck
    | _ => .ub

/-! ### Document symbols -/

/-- An element of the answer: its kind (23 a struct, 10 an enum), name, URI and line. -/
structure Symbol where
  kind : Nat
  name : List Byte
  uri : List Byte
  line : Nat
  deriving DecidableEq, Repr

/-- The kinds of the protocol, cmd_lsp.c 837 and 855. -/
def Sort95.kind : Sort95 → Nat
  | .struct => 23
  | .enum => 10

/-- handle_document_symbol, cmd_lsp.c 807-879: `none` is null. The text is that of the file on disk. -/
def documentSymbols (P : PEnv) (fs : Files) (fuel : Nat) (uri : List Byte) : Known95 (Option (List Symbol)) :=
  match uriPath uri with
  | none => .ub
  | some path =>
    match fs.read path with
    | none => .known none
    | some src => (knownOf P fs fuel path (cText src)).bind fun k =>
      let show1 (e : Found) : Symbol := ⟨e.sort.kind, e.name, uri, e.line - 1⟩
      .known (some ((k.1.filter (·.sort = .struct)).map show1 ++ (k.1.filter (·.sort = .enum)).map show1))

/-! ### Definitions -/

/-- The names of BUILTIN_DECORATORS, cmd_lsp.c 23-56, in the order of the table. -/
def builtinNames : List (List Byte) :=
  [s_version, s_import, s_big_endian, s_be, s_little_endian, s_le, s_unaligned_bytes, s_fill, s_crc_refin, s_crc_refout, s_optional, s_count, s_len,
   s_const, s_match, s_pad, s_range, s_crc, s_crc_poly, s_crc_init, s_crc_xor, s_scale, s_offset, s_mul, s_div, s_add, s_sub, s_poly, s_spline, s_expr,
   s_eof]

/-- AnalysisResult, cmd_lsp.c 200-213: nothing, a decorator of the table, or an entry of the registries. -/
inductive Meant
  | nothing
  | builtin (name : List Byte)
  | entry (e : Found)
  deriving DecidableEq, Repr

/-- The lookup in analyze_source, cmd_lsp.c 286-341, for the symbol under the cursor: decorators first, then structs, then enums. -/
def meantBy (reg : List Found) : Option (List Byte × Bool) → Meant
  | none => .nothing
  | some (w, deco) =>
    if deco ∧ w ∈ builtinNames then .builtin w
    else
      match reg.find? (fun e => e.sort = .struct ∧ e.name = w) with
      | some e => .entry e
      | none =>
        match reg.find? (fun e => e.sort = .enum ∧ e.name = w) with
        | some e => .entry e
        | none => .nothing

/-- The text of a document, cmd_lsp.c 1012-1013: the editor's, or that of the file. -/
def textOf (docs : List (List Byte × List Byte)) (fs : Files) (uri path : List Byte) : Option (List Byte) :=
  match docGet uri docs with
  | some t => some t
  | none => (fs.read path).map cText

/-- analyze_source, cmd_lsp.c 216-358, for a position of a document with the given URI; `none` if it cannot be read. -/
def analyze (P : PEnv) (fs : Files) (fuel : Nat) (docs : List (List Byte × List Byte)) (uri : List Byte) (row col : Nat) :
    Known95 (Option (Meant × CSt)) :=
  match uriPath uri with
  | none => .ub
  | some path =>
    match textOf docs fs uri path with
    | none => .known none
    | some src => (knownOf P fs fuel path src).bind fun k => .known (some (meantBy k.1 (symbolAt (src ++ [0]) row col), k.2))

/-- "built-in", cmd_lsp.c 296. -/
def builtinFile : List Byte := [0x62, 0x75, 0x69, 0x6C, 0x74, 0x2D, 0x69, 0x6E]

/-- handle_definition, cmd_lsp.c 1003-1072: URI and line, `none` for null. -/
def definition (P : PEnv) (fs : Files) (fuel : Nat) (docs : List (List Byte × List Byte)) (uri : List Byte) (row col : Nat) :
    Known95 (Option (List Byte × Nat)) :=
  (analyze P fs fuel docs uri row col).bind fun r =>
    match r with
    | none => .known none
    | some (.nothing, _) => .known none
    | some (.builtin _, _) => match pathUri builtinFile with | some u => .known (some (u, 0)) | none => .ub
    | some (.entry e, _) => match pathUri e.file with | some u => .known (some (u, e.line - 1)) | none => .ub

/-! ### Hovering -/

/-- get_type_name, cmd_lsp.c 183-198, for the types an enum can have. -/
def typeName (op : Byte) : List Byte :=
  match op.toNat with
  | 0x10 => s_u8
  | 0x11 => s_u16
  | 0x12 => s_u32
  | 0x13 => s_u64
  | 0x14 => s_i8
  | 0x15 => s_i16
  | 0x16 => s_i32
  | 0x17 => s_i64
  | _ => [0x75, 0x6E, 0x6B, 0x6E, 0x6F, 0x77, 0x6E]

/-- `%" PRId64 "`. -/
def signText (v : Word) : List Byte :=
  if v.toInt < 0 then 0x2D :: decText 20 v.toInt.natAbs else decText 20 v.toInt.natAbs

/-- "Type: `", "`\n\nMembers:\n", "- `", "` = `" and "`\n". -/
def s_type95 : List Byte := [0x54, 0x79, 0x70, 0x65, 0x3A, 0x20, 0x60]
def s_members95 : List Byte := [0x60, 0x0A, 0x0A, 0x4D, 0x65, 0x6D, 0x62, 0x65, 0x72, 0x73, 0x3A, 0x0A]
def s_item95 : List Byte := [0x2D, 0x20, 0x60]
def s_is95 : List Byte := [0x60, 0x20, 0x3D, 0x20, 0x60]
def s_end95 : List Byte := [0x60, 0x0A]

/-- The details of an enum, cmd_lsp.c 327-340: every line is cut at 255 bytes. -/
def enumDetails (e : EnumD) : List Byte :=
  (s_type95 ++ typeName e.type ++ s_members95).take 255 ++
    (e.values.map fun v => (s_item95 ++ v.1 ++ s_is95 ++ signText v.2 ++ s_end95).take 255).flatten

/-- "**", "**\n\nDefined in ", " on line " and ".". -/
def s_stars95 : List Byte := [0x2A, 0x2A]
def s_defined95 : List Byte := [0x2A, 0x2A, 0x0A, 0x0A, 0x44, 0x65, 0x66, 0x69, 0x6E, 0x65, 0x64, 0x20, 0x69, 0x6E, 0x20]
def s_online95 : List Byte := [0x20, 0x6F, 0x6E, 0x20, 0x6C, 0x69, 0x6E, 0x65, 0x20]
def s_dot95 : List Byte := [0x2E]

/-- The first line of a hover, cmd_lsp.c 1107. -/
def aboutText (name file : List Byte) (line : Nat) : List Byte :=
  s_stars95 ++ name ++ s_defined95 ++ file ++ s_online95 ++ decText 20 line ++ s_dot95

/-- The details: those of the enum found first with the name, nothing for a struct. -/
def detailsOf (e : Found) (c : CSt) : Option (List Byte) :=
  match e.sort with
  | .struct => none
  | .enum => (c.findEnum e.name).map enumDetails

/-- handle_hover, cmd_lsp.c 1074-1128: the text, `none` for null. `builtinDoc` are the two other columns of BUILTIN_DECORATORS, which stay arbitrary. -/
def hover (P : PEnv) (fs : Files) (builtinDoc : List Byte → List Byte × List Byte) (fuel : Nat) (docs : List (List Byte × List Byte)) (uri : List Byte)
    (row col : Nat) : Known95 (Option (List Byte)) :=
  (analyze P fs fuel docs uri row col).bind fun r =>
    match r with
    | none => .known none
    | some (.nothing, _) => .known none
    | some (.builtin w, _) =>
      match hoverText (aboutText w builtinFile 1) (some (builtinDoc w).1) (some (builtinDoc w).2) with
      | some t => .known (some t)
      | none => .ub
    | some (.entry e, c) =>
      match hoverText (aboutText e.name e.file e.line) e.doc (detailsOf e c) with
      | some t => .known (some t)
      | none => .ub

end Cnd
