import Verif.LspSymbols
import Verif.Source
/-
  Sessions of the language server: the main loop and the handlers of /repo/src/cli/cmd_lsp.c.

  The text of JSON is cJSON's (a dependency outside the repository): a message is the value that `cJSON_Parse` gives or `cJSON_PrintUnformatted` gets.
-/

namespace Cnd

/-! ### JSON values -/

/-- cJSON: a number is known by its `valueint`, a string by its `valuestring`. -/
inductive Js
  | null
  | bool (b : Bool)
  | num (v : Int)
  | str (s : List Byte)
  | arr (l : List Js)
  | obj (l : List (List Byte × Js))

/-- tolower in the C locale, as cJSON compares names. -/
def low96 (b : Byte) : Byte := if 0x41 ≤ b.toNat ∧ b.toNat ≤ 0x5A then b + 0x20 else b

/-- cJSON_GetObjectItem: the first item of that name, without regard to case; NULL for everything that is no object, and for NULL. -/
def jsAt (j : Option Js) (name : List Byte) : Option Js :=
  match j with
  | some (.obj l) => (l.find? fun x => x.1.map low96 = name.map low96).map (·.2)
  | _ => none

/-- `valuestring`: NULL unless the value is a string. -/
def Js.text : Js → Option (List Byte)
  | .str s => some s
  | _ => none

/-- `valueint`. -/
def Js.int : Js → Int
  | .num v => v
  | .bool b => if b then 1 else 0
  | _ => 0

/-- The children, which cJSON_GetArraySize counts and cJSON_GetArrayItem gives, of objects as of arrays. -/
def Js.kids : Js → List Js
  | .arr l => l
  | .obj l => l.map (·.2)
  | _ => []

/-! ### Answers -/

/-- send_response, cmd_lsp.c 98-105. -/
def respond (id : Option Js) (result : Js) : Js :=
  .obj ((word "jsonrpc", .str (word "2.0")) :: (match id with | some i => [(word "id", i)] | none => []) ++ [(word "result", result)])

/-- A range, as all handlers build it (for instance cmd_lsp.c 787-792). -/
def jsRange (l1 c1 l2 c2 : Nat) : Js :=
  .obj [(word "start", .obj [(word "line", .num l1), (word "character", .num c1)]), (word "end", .obj [(word "line", .num l2), (word "character", .num c2)])]

/-- handle_initialize, cmd_lsp.c 983-1001. -/
def capabilities : Js :=
  .obj [(word "capabilities", .obj [(word "definitionProvider", .bool true), (word "hoverProvider", .bool true),
    (word "documentSymbolProvider", .bool true), (word "documentFormattingProvider", .bool true),
    (word "completionProvider", .obj [(word "resolveProvider", .bool false), (word "triggerCharacters", .str (word "."))]),
    (word "textDocumentSync", .num 1)])]

/-- The result of handle_definition, cmd_lsp.c 1027-1062. -/
def jsLocation (r : Option (List Byte × Nat)) : Js :=
  match r with
  | some (uri, line) => .obj [(word "uri", .str uri), (word "range", jsRange line 0 line 0)]
  | none => .null

/-- The result of handle_hover, cmd_lsp.c 1096-1120. -/
def jsHover (r : Option (List Byte)) : Js :=
  match r with
  | some t => .obj [(word "contents", .obj [(word "kind", .str (word "markdown")), (word "value", .str t)])]
  | none => .null

/-- The result of handle_completion, cmd_lsp.c 629-632 and 755-756. -/
def jsItems (r : Option (List Js)) : Js :=
  match r with
  | some l => .obj [(word "isIncomplete", .bool false), (word "items", .arr l)]
  | none => .null

/-- The result of handle_formatting, cmd_lsp.c 784-797. -/
def jsEdits (r : Option (List Byte)) : Js :=
  match r with
  | some t => .arr [.obj [(word "range", jsRange 0 0 editLines 0), (word "newText", .str t)]]
  | none => .null

/-- The result of handle_document_symbol, cmd_lsp.c 831-867. -/
def jsSymbols (r : Option (List Symbol)) : Js :=
  match r with
  | some l => .arr (l.map fun s => .obj [(word "name", .str s.name), (word "kind", .num s.kind),
      (word "location", .obj [(word "uri", .str s.uri), (word "range", jsRange s.line 0 s.line 0)])])
  | none => .null

/-- The notification of publish_diagnostics, cmd_lsp.c 896-930. -/
def jsReport (uri : List Byte) (ds : List Js) : Js :=
  .obj [(word "jsonrpc", .str (word "2.0")), (word "method", .str (word "textDocument/publishDiagnostics")),
    (word "params", .obj [(word "uri", .str uri), (word "diagnostics", .arr ds)])]

/-! ### The handlers -/

/-- What is not modelled here: `items` are the items of a completion (their labels are those of `Verif/LspContext.lean`) for what the parser knows, the text
and the position; `report` are the diagnostics of a document (see `Verif/LspDiag.lean`) with a path, among files. -/
structure Server where
  P : PEnv
  builtinDoc : List Byte → List Byte × List Byte
  fuel : Nat
  items : List Found × CSt → List Byte → Int → Int → List Js
  report : Files → List Byte → List Byte → Known95 (List Js)

abbrev Docs96 := List (List Byte × List Byte)

/-- What handling a message comes to: the store and what is sent, or the end. -/
inductive Turn
  | go (docs : Docs96) (sent : List Js)
  | exit
  | ub
  | stuck

/-- The item "uri" of "textDocument", in every handler. -/
def uriItem (params : Option Js) : Option Js := jsAt (jsAt params (word "textDocument")) (word "uri")

/-- URI and position of a request, cmd_lsp.c 492-498, 1004-1010 and 1076-1082; `none` if one of the pointers used is NULL. -/
def askedAt (params : Option Js) : Option (List Byte × Int × Int) :=
  match (uriItem params).bind Js.text, jsAt (jsAt params (word "position")) (word "line"), jsAt (jsAt params (word "position")) (word "character") with
  | some uri, some l, some c => some (uri, l.int, c.int)
  | _, _, _ => none

/-- A line or column as the lookup of a token uses it: a negative one meets no token, like one behind the end (of a document below 4 GiB). -/
def rowOf (v : Int) : Nat := if v < 0 then 2 ^ 32 else v.toNat

/-- A response with what an analysis comes to. -/
def reply {α : Type} (docs : Docs96) (id : Option Js) (js : α → Js) (r : Known95 α) : Turn :=
  match r with
  | .known a => .go docs [respond id (js a)]
  | .ub => .ub
  | .stuck => .stuck

/-- handle_completion, cmd_lsp.c 491-769. -/
def completionItems (S : Server) (fs : Files) (docs : Docs96) (uri : List Byte) (l c : Int) : Known95 (Option (List Js)) :=
  match uriPath uri with
  | none => .ub
  | some path =>
    match textOf docs fs uri path with
    | none => .known none
    | some src => (knownOf S.P fs S.fuel path src).bind fun k => .known (some (S.items k src l c))

/-- `formatting` as an analysis. -/
def formatted (fs : Files) (uri : List Byte) : Known95 (Option (List Byte)) :=
  match formatting (fun p => (fs.read p).map cText) uri with
  | some r => .known r
  | none => .ub

/-- publish_diagnostics, cmd_lsp.c 881-934, called with a text. -/
def publish (S : Server) (fs : Files) (docs : Docs96) (uri text : List Byte) : Turn :=
  match uriPath uri with
  | none => .ub
  | some path =>
    match S.report fs path text with
    | .known ds => .go docs [jsReport uri ds]
    | .ub => .ub
    | .stuck => .stuck

/-- handle_didOpen, cmd_lsp.c 940-949. -/
def didOpen (S : Server) (fs : Files) (docs : Docs96) (params : Option Js) : Turn :=
  match (uriItem params).bind Js.text, (jsAt (jsAt params (word "textDocument")) (word "text")).bind Js.text with
  | some uri, some text => publish S fs (docUpdate uri text docs) uri text
  | _, _ => .go docs []

/-- handle_didChange, cmd_lsp.c 951-965. The URI is used without a look at its type. -/
def didChange (S : Server) (fs : Files) (docs : Docs96) (params : Option Js) : Turn :=
  match uriItem params, (jsAt params (word "contentChanges")).bind fun ch => ch.kids.getLast? with
  | some u, some last =>
    match (jsAt (some last) (word "text")).bind Js.text with
    | some text =>
      match u.text with
      | some uri => publish S fs (docUpdate uri text docs) uri text
      | none => .ub
    | none => .go docs []
  | _, _ => .go docs []

/-- handle_didSave, cmd_lsp.c 967-981: the file is read; the store is not changed. -/
def didSave (S : Server) (fs : Files) (docs : Docs96) (params : Option Js) : Turn :=
  match (uriItem params).bind Js.text with
  | some uri =>
    match uriPath uri with
    | none => .ub
    | some path =>
      match (fs.read path).map cText with
      | some text => publish S fs docs uri text
      | none => .go docs []
  | none => .go docs []

/-- One round of the loop of cmd_lsp, cmd_lsp.c 1139-1172, for a message. -/
def lspStep (S : Server) (fs : Files) (docs : Docs96) (req : Js) : Turn :=
  let id := jsAt (some req) (word "id")
  let params := jsAt (some req) (word "params")
  match (jsAt (some req) (word "method")).bind Js.text with
  | none => .go docs []
  | some m =>
    if m = word "initialize" then .go docs [respond id capabilities]
    else if m = word "textDocument/definition" then
      match askedAt params with
      | some (uri, l, c) => reply docs id jsLocation (definition S.P fs S.fuel docs uri (rowOf l) (rowOf c))
      | none => .ub
    else if m = word "textDocument/hover" then
      match askedAt params with
      | some (uri, l, c) => reply docs id jsHover (hover S.P fs S.builtinDoc S.fuel docs uri (rowOf l) (rowOf c))
      | none => .ub
    else if m = word "textDocument/completion" then
      match askedAt params with
      | some (uri, l, c) => reply docs id jsItems (completionItems S fs docs uri l c)
      | none => .ub
    else if m = word "textDocument/formatting" then
      match (uriItem params).bind Js.text with
      | some uri => reply docs id jsEdits (formatted fs uri)
      | none => .ub
    else if m = word "textDocument/documentSymbol" then
      match (uriItem params).bind Js.text with
      | some uri => reply docs id jsSymbols (documentSymbols S.P fs S.fuel uri)
      | none => .ub
    else if m = word "textDocument/didOpen" then didOpen S fs docs params
    else if m = word "textDocument/didChange" then didChange S fs docs params
    else if m = word "textDocument/didSave" then didSave S fs docs params
    else if m = word "shutdown" then .go docs [respond id .null]
    else if m = word "exit" then .exit
    else .go docs []

/-! ### The loop -/

/-- How the server ends: it returns 0, or something else happens. -/
inductive Halt96
  | ended
  | ub
  | stuck
  deriving DecidableEq, Repr

/-- The loop of cmd_lsp, cmd_lsp.c 1134-1175, over messages, each with the files there are when it is handled; `none` is a text that is not JSON, at which
the loop ends as at the end of the input. What is sent and how it ends. -/
def lspRun (S : Server) : List (Files × Option Js) → Docs96 → List Js × Halt96
  | [], _ => ([], .ended)
  | (_, none) :: _, _ => ([], .ended)
  | (fs, some req) :: rest, docs =>
    match lspStep S fs docs req with
    | .go docs out => (out ++ (lspRun S rest docs).1, (lspRun S rest docs).2)
    | .exit => ([], .ended)
    | .ub => ([], .ub)
    | .stuck => ([], .stuck)

/-- cmd_lsp, cmd_lsp.c 1127-1176, from the bytes of stdin to those of stdout. `parse` and `print` are cJSON_Parse and cJSON_PrintUnformatted; `world n` are
the files when message `n` is handled. `fuel` bounds the number of messages. -/
def cmdLsp (S : Server) (parse : List Byte → Option Js) (print : Js → List Byte) (world : Nat → Files) : Nat → Nat → List Byte → Docs96 → List Byte × Halt96
  | 0, _, _, _ => ([], .stuck)
  | fuel + 1, n, input, docs =>
    match readJson input with
    | .close => ([], .ended)
    | .ub => ([], .ub)
    | .msg text rest =>
      match parse text with
      | none => ([], .ended)
      | some req =>
        match lspStep S (world n) docs req with
        | .go docs out =>
          let r := cmdLsp S parse print world fuel (n + 1) rest docs
          ((out.map fun j => sendJson (print j)).flatten ++ r.1, r.2)
        | .exit => ([], .ended)
        | .ub => ([], .ub)
        | .stuck => ([], .stuck)

end Cnd
