import Verif.LspSession
import Verif.Props.Outline
/-
  C96: sessions of the language server.
-/

namespace Cnd

/-! ### What a client says -/

/-- The messages of the protocol that matter: `request` and `notify` stand for all other methods. -/
inductive Told
  | greet (id : Js)
  | definition (id : Js) (uri : List Byte) (line character : Nat)
  | hover (id : Js) (uri : List Byte) (line character : Nat)
  | completion (id : Js) (uri : List Byte) (line character : Nat)
  | formatting (id : Js) (uri : List Byte)
  | symbols (id : Js) (uri : List Byte)
  | shutdown (id : Js)
  | note (n : Note)
  | exit
  | request (id : Js) (method : List Byte)
  | notify (method : List Byte)

/-- The members of an object have a value under a name; no member before it has the name in other letters. -/
def Has (l : List (List Byte × Js)) (name : List Byte) (v : Js) : Prop :=
  ∃ a b, l = a ++ (name, v) :: b ∧ ∀ x ∈ a, x.1.map low96 ≠ name.map low96

/-- No member has the name. -/
def Lacks (l : List (List Byte × Js)) (name : List Byte) : Prop := ∀ x ∈ l, x.1.map low96 ≠ name.map low96

/-- An object that has a value under a name. -/
def Within96 (j : Js) (name : List Byte) (v : Js) : Prop := ∃ l, j = .obj l ∧ Has l name v

/-- The parameters name a document. -/
def OfDocument (params : Js) (uri : List Byte) : Prop := ∃ d, Within96 params (word "textDocument") d ∧ Within96 d (word "uri") (.str uri)

/-- And a position. -/
def OfPosition (params : Js) (line character : Nat) : Prop :=
  ∃ p, Within96 params (word "position") p ∧ Within96 p (word "line") (.num line) ∧ Within96 p (word "character") (.num character)

/-- A request with an id and parameters that satisfy `Q`. -/
def Calls (j : Js) (method : List Byte) (id : Js) (Q : Js → Prop) : Prop :=
  Within96 j (word "id") id ∧ Within96 j (word "method") (.str method) ∧ ∃ p, Within96 j (word "params") p ∧ Q p

/-- A notification with parameters that satisfy `Q`. -/
def Notes (j : Js) (method : List Byte) (Q : Js → Prop) : Prop :=
  (∃ l, j = .obj l ∧ Lacks l (word "id")) ∧ Within96 j (word "method") (.str method) ∧ ∃ p, Within96 j (word "params") p ∧ Q p

/-- A list of changes with these texts. -/
def Texts : List Js → List (List Byte) → Prop
  | [], [] => True
  | c :: cs, t :: ts => Within96 c (word "text") (.str t) ∧ Texts cs ts
  | _, _ => False

/-- The methods the server knows. -/
def served : List (List Byte) :=
  [word "initialize", word "textDocument/definition", word "textDocument/hover", word "textDocument/completion", word "textDocument/formatting",
   word "textDocument/documentSymbol", word "textDocument/didOpen", word "textDocument/didChange", word "textDocument/didSave", word "shutdown",
   word "exit"]

/-- A value is the message of the protocol, whatever other members it has and in whatever order they are. -/
def Says : Told → Js → Prop
  | .greet id, j => Within96 j (word "id") id ∧ Within96 j (word "method") (.str (word "initialize"))
  | .definition id uri l c, j => Calls j (word "textDocument/definition") id fun p => OfDocument p uri ∧ OfPosition p l c
  | .hover id uri l c, j => Calls j (word "textDocument/hover") id fun p => OfDocument p uri ∧ OfPosition p l c
  | .completion id uri l c, j => Calls j (word "textDocument/completion") id fun p => OfDocument p uri ∧ OfPosition p l c
  | .formatting id uri, j => Calls j (word "textDocument/formatting") id fun p => OfDocument p uri
  | .symbols id uri, j => Calls j (word "textDocument/documentSymbol") id fun p => OfDocument p uri
  | .shutdown id, j => Within96 j (word "id") id ∧ Within96 j (word "method") (.str (word "shutdown"))
  | .note (.didOpen uri text), j => Notes j (word "textDocument/didOpen") fun p =>
      ∃ d, Within96 p (word "textDocument") d ∧ Within96 d (word "uri") (.str uri) ∧ Within96 d (word "text") (.str text)
  | .note (.didChange uri texts), j => Notes j (word "textDocument/didChange") fun p =>
      OfDocument p uri ∧ ∃ cs, Within96 p (word "contentChanges") (.arr cs) ∧ Texts cs texts
  | .note (.didSave uri), j => Notes j (word "textDocument/didSave") fun p => OfDocument p uri
  | .note (.didClose uri), j => Notes j (word "textDocument/didClose") fun p => OfDocument p uri
  | .exit, j => Within96 j (word "method") (.str (word "exit"))
  | .request id m, j => Within96 j (word "id") id ∧ Within96 j (word "method") (.str m) ∧ m ∉ served
  | .notify m, j => (∃ l, j = .obj l ∧ Lacks l (word "id")) ∧ Within96 j (word "method") (.str m) ∧ m ∉ served

/-! ### What it may expect -/

/-- A response. -/
def IsReply (id : Js) (j : Js) : Prop :=
  ∃ r, j = .obj [(word "jsonrpc", .str (word "2.0")), (word "id", id), (word "result", r)]

/-- A report about a document, with the diagnostics of a text. -/
def Reports (S : Server) (fs : Files) (uri text : List Byte) (out : List Js) : Prop :=
  ∃ path ds, uriPath uri = some path ∧ S.report fs path text = .known ds ∧
    out = [.obj [(word "jsonrpc", .str (word "2.0")), (word "method", .str (word "textDocument/publishDiagnostics")),
      (word "params", .obj [(word "uri", .str uri), (word "diagnostics", .arr ds)])]]

/-- What is sent for one message: a request of a known method is answered once, with its id; a text told and a file saved are reported on once; nothing else
is sent. -/
def Due (S : Server) (fs : Files) : Told → List Js → Prop
  | .greet id, out => ∃ j, out = [j] ∧ IsReply id j
  | .definition id _ _ _, out => ∃ j, out = [j] ∧ IsReply id j
  | .hover id _ _ _, out => ∃ j, out = [j] ∧ IsReply id j
  | .completion id _ _ _, out => ∃ j, out = [j] ∧ IsReply id j
  | .formatting id _, out => ∃ j, out = [j] ∧ IsReply id j
  | .symbols id _, out => ∃ j, out = [j] ∧ IsReply id j
  | .shutdown id, out => ∃ j, out = [j] ∧ IsReply id j
  | .note (.didOpen uri text), out => Reports S fs uri text out
  | .note (.didChange uri texts), out => (texts = [] ∧ out = []) ∨ ∃ text, texts.getLast? = some text ∧ Reports S fs uri text out
  | .note (.didSave uri), out => (∃ path, uriPath uri = some path ∧ fs.read path = none ∧ out = []) ∨
      ∃ path text, uriPath uri = some path ∧ fs.read path = some text ∧ Reports S fs uri (cText text) out
  | .note (.didClose _), out => out = []
  | .exit, out => out = []
  | .request _ _, out => out = []
  | .notify _, out => out = []

/-- What is sent in a session, up to its exit. -/
def Dues (S : Server) : List Told → List Files → List Js → Prop
  | .exit :: _, _, out => out = []
  | m :: ms, fs :: w, out => ∃ a b, out = a ++ b ∧ Due S fs m a ∧ Dues S ms w b
  | _, _, out => out = []

/-- The notifications among the messages. -/
def notesIn : List Told → List Note
  | [] => []
  | .note n :: ms => n :: notesIn ms
  | _ :: ms => notesIn ms

/-- A sequence of messages, each with the files there are. -/
def SaysAll : List Told → List (Files × Option Js) → Prop
  | [], [] => True
  | m :: ms, (_, some j) :: js => Says m j ∧ SaysAll ms js
  | _, _ => False

/-! ### Reading a message -/

theorem has_find {l : List (List Byte × Js)} {name : List Byte} {v : Js} (h : Has l name v) :
    (l.find? fun x => x.1.map low96 = name.map low96) = some (name, v) := by
  obtain ⟨a, b, rfl, ha⟩ := h
  induction a with
  | nil => simp
  | cons x a ih =>
    rw [List.cons_append, List.find?_cons_of_neg]
    · exact ih fun y hy => ha y (List.mem_cons_of_mem _ hy)
    · simpa using ha x List.mem_cons_self

theorem at_within {j : Js} {name : List Byte} {v : Js} (h : Within96 j name v) : jsAt (some j) name = some v := by
  obtain ⟨l, rfl, h⟩ := h
  unfold jsAt
  dsimp only
  rw [has_find h]
  rfl

theorem uri_of {p : Js} {uri : List Byte} (h : OfDocument p uri) : uriItem (some p) = some (.str uri) := by
  obtain ⟨d, h1, h2⟩ := h
  unfold uriItem
  rw [at_within h1, at_within h2]

theorem asked_of {p : Js} {uri : List Byte} {l c : Nat} (h : OfDocument p uri) (hp : OfPosition p l c) : askedAt (some p) = some (uri, (l : Int), (c : Int)) := by
  obtain ⟨q, h1, h2, h3⟩ := hp
  unfold askedAt
  rw [uri_of h, at_within h1, at_within h2, at_within h3]
  rfl

theorem rowOf_nat (n : Nat) : rowOf (n : Int) = n := by
  unfold rowOf
  rw [if_neg (by omega)]
  omega

theorem last_text {cs : List Js} {ts : List (List Byte)} (h : Texts cs ts) :
    (cs.getLast? = none ∧ ts = []) ∨ ∃ c t, cs.getLast? = some c ∧ ts.getLast? = some t ∧ Within96 c (word "text") (.str t) := by
  induction cs generalizing ts with
  | nil =>
    cases ts with
    | nil => exact .inl ⟨rfl, rfl⟩
    | cons t ts => exact h.elim
  | cons c cs ih =>
    cases ts with
    | nil => exact h.elim
    | cons t ts =>
      right
      rcases ih h.2 with ⟨h1, h2⟩ | ⟨c', t', h1, h2, h3⟩
      · subst h2
        refine ⟨c, t, ?_, rfl, h.1⟩
        rw [List.getLast?_eq_none_iff.mp h1]
        rfl
      · refine ⟨c', t', ?_, ?_, h3⟩
        · rw [List.getLast?_cons, h1]; rfl
        · rw [List.getLast?_cons, h2]; rfl

/-! ### One message -/

/-- The turn for each message. -/
def turn (S : Server) (fs : Files) (docs : Docs96) : Told → Turn
  | .greet id => .go docs [respond (some id) capabilities]
  | .definition id uri l c => reply docs (some id) jsLocation (definition S.P fs S.fuel docs uri l c)
  | .hover id uri l c => reply docs (some id) jsHover (hover S.P fs S.builtinDoc S.fuel docs uri l c)
  | .completion id uri l c => reply docs (some id) jsItems (completionItems S fs docs uri l c)
  | .formatting id uri => reply docs (some id) jsEdits (formatted fs uri)
  | .symbols id uri => reply docs (some id) jsSymbols (documentSymbols S.P fs S.fuel uri)
  | .shutdown id => .go docs [respond (some id) .null]
  | .note (.didOpen uri text) => publish S fs (docUpdate uri text docs) uri text
  | .note (.didChange uri texts) =>
    match texts.getLast? with
    | some text => publish S fs (docUpdate uri text docs) uri text
    | none => .go docs []
  | .note (.didSave uri) =>
    match uriPath uri with
    | none => .ub
    | some path =>
      match (fs.read path).map cText with
      | some text => publish S fs docs uri text
      | none => .go docs []
  | .note (.didClose _) => .go docs []
  | .exit => .exit
  | .request _ _ => .go docs []
  | .notify _ => .go docs []

theorem step_turn (S : Server) (fs : Files) (docs : Docs96) {m : Told} {j : Js} (h : Says m j) : lspStep S fs docs j = turn S fs docs m := by
  unfold lspStep
  dsimp only
  cases m with
  | greet id =>
    rw [at_within h.1, at_within h.2]
    rfl
  | definition id uri l c =>
    obtain ⟨h1, h2, p, h3, h4, h5⟩ := h
    rw [at_within h1, at_within h2, at_within h3, asked_of h4 h5]
    simp only [Option.bind_some, Js.text, rowOf_nat]
    rw [if_neg (by decide), if_pos trivial]
    rfl
  | hover id uri l c =>
    obtain ⟨h1, h2, p, h3, h4, h5⟩ := h
    rw [at_within h1, at_within h2, at_within h3, asked_of h4 h5]
    simp only [Option.bind_some, Js.text, rowOf_nat]
    rw [if_neg (by decide), if_neg (by decide), if_pos trivial]
    rfl
  | completion id uri l c =>
    obtain ⟨h1, h2, p, h3, h4, h5⟩ := h
    rw [at_within h1, at_within h2, at_within h3, asked_of h4 h5]
    simp only [Option.bind_some, Js.text]
    rw [if_neg (by decide), if_neg (by decide), if_neg (by decide), if_pos trivial]
    rfl
  | formatting id uri =>
    obtain ⟨h1, h2, p, h3, h4⟩ := h
    rw [at_within h1, at_within h2, at_within h3, uri_of h4]
    simp only [Option.bind_some, Js.text]
    rw [if_neg (by decide), if_neg (by decide), if_neg (by decide), if_neg (by decide), if_pos trivial]
    rfl
  | symbols id uri =>
    obtain ⟨h1, h2, p, h3, h4⟩ := h
    rw [at_within h1, at_within h2, at_within h3, uri_of h4]
    simp only [Option.bind_some, Js.text]
    rw [if_neg (by decide), if_neg (by decide), if_neg (by decide), if_neg (by decide), if_neg (by decide), if_pos trivial]
    rfl
  | shutdown id =>
    rw [at_within h.1, at_within h.2]
    simp only [Option.bind_some, Js.text]
    rw [if_neg (by decide), if_neg (by decide), if_neg (by decide), if_neg (by decide), if_neg (by decide), if_neg (by decide), if_neg (by decide),
      if_neg (by decide), if_neg (by decide), if_pos trivial]
    rfl
  | note n =>
    cases n with
    | didOpen uri text =>
      obtain ⟨-, h2, p, h3, d, h4, h5, h6⟩ := h
      rw [at_within h2, at_within h3]
      simp only [Option.bind_some, Js.text]
      rw [if_neg (by decide), if_neg (by decide), if_neg (by decide), if_neg (by decide), if_neg (by decide), if_neg (by decide), if_pos trivial]
      unfold didOpen
      rw [uri_of ⟨d, h4, h5⟩, at_within h4, at_within h6]
      rfl
    | didChange uri texts =>
      obtain ⟨-, h2, p, h3, h4, cs, h5, h6⟩ := h
      rw [at_within h2, at_within h3]
      simp only [Option.bind_some, Js.text]
      rw [if_neg (by decide), if_neg (by decide), if_neg (by decide), if_neg (by decide), if_neg (by decide), if_neg (by decide), if_neg (by decide),
        if_pos trivial]
      unfold didChange turn
      rw [uri_of h4, at_within h5]
      simp only [Option.bind_some, Js.kids]
      rcases last_text h6 with ⟨g1, g2⟩ | ⟨c, t, g1, g2, g3⟩
      · rw [g1, g2]; rfl
      · rw [g1, g2]
        dsimp only
        rw [at_within g3]
        rfl
    | didSave uri =>
      obtain ⟨-, h2, p, h3, h4⟩ := h
      rw [at_within h2, at_within h3]
      simp only [Option.bind_some, Js.text]
      rw [if_neg (by decide), if_neg (by decide), if_neg (by decide), if_neg (by decide), if_neg (by decide), if_neg (by decide), if_neg (by decide),
        if_neg (by decide), if_pos trivial]
      unfold didSave turn
      rw [uri_of h4]
      rfl
    | didClose uri =>
      obtain ⟨-, h2, p, h3, h4⟩ := h
      rw [at_within h2, at_within h3]
      rfl
  | exit =>
    rw [at_within h]
    simp only [Option.bind_some, Js.text]
    rw [if_neg (by decide), if_neg (by decide), if_neg (by decide), if_neg (by decide), if_neg (by decide), if_neg (by decide), if_neg (by decide),
      if_neg (by decide), if_neg (by decide), if_neg (by decide), if_pos trivial]
    rfl
  | request id m =>
    obtain ⟨h1, h2, h3⟩ := h
    rw [at_within h1, at_within h2]
    simp only [served, List.mem_cons, not_or] at h3
    simp only [Option.bind_some, Js.text, h3, if_false]
    rfl
  | notify m =>
    obtain ⟨h1, h2, h3⟩ := h
    rw [at_within h2]
    simp only [served, List.mem_cons, not_or] at h3
    simp only [Option.bind_some, Js.text, h3, if_false]
    rfl

theorem reply_go {α : Type} {docs docs' : Docs96} {id : Js} {js : α → Js} {r : Known95 α} {out : List Js} (h : reply docs (some id) js r = .go docs' out) :
    docs' = docs ∧ ∃ a, r = .known a ∧ out = [respond (some id) (js a)] := by
  unfold reply at h
  cases r with
  | known a => cases h; exact ⟨rfl, a, rfl, rfl⟩
  | ub => cases h
  | stuck => cases h

theorem publish_go {S : Server} {fs : Files} {docs docs' : Docs96} {uri text : List Byte} {out : List Js} (h : publish S fs docs uri text = .go docs' out) :
    docs' = docs ∧ ∃ path ds, uriPath uri = some path ∧ S.report fs path text = .known ds ∧ out = [jsReport uri ds] := by
  unfold publish at h
  cases hu : uriPath uri with
  | none => rw [hu] at h; cases h
  | some path =>
    rw [hu] at h
    dsimp only at h
    cases hr : S.report fs path text with
    | known ds => rw [hr] at h; cases h; exact ⟨rfl, path, ds, rfl, hr, rfl⟩
    | ub => rw [hr] at h; cases h
    | stuck => rw [hr] at h; cases h

/-- What a turn sends is due, and the store is that of C71. -/
theorem turn_go {S : Server} {fs : Files} {docs docs' : Docs96} {m : Told} {out : List Js} (h : turn S fs docs m = .go docs' out) :
    Due S fs m out ∧ docs' = (notesIn [m]).foldl docStep docs := by
  have rep : ∀ {α : Type} {id : Js} {js : α → Js} {r : Known95 α}, reply docs (some id) js r = .go docs' out → (∃ j, out = [j] ∧ IsReply id j) ∧ docs' = docs := by
    intro α id js r h
    obtain ⟨rfl, a, -, rfl⟩ := reply_go h
    exact ⟨⟨_, rfl, _, rfl⟩, rfl⟩
  have pub : ∀ {ds : Docs96} {uri text : List Byte}, publish S fs ds uri text = .go docs' out → Reports S fs uri text out ∧ docs' = ds := by
    intro ds uri text h
    obtain ⟨rfl, path, l, h1, h2, rfl⟩ := publish_go h
    exact ⟨⟨path, l, h1, h2, rfl⟩, rfl⟩
  cases m with
  | greet id => cases h; exact ⟨⟨_, rfl, _, rfl⟩, rfl⟩
  | definition id uri l c => exact rep h
  | hover id uri l c => exact rep h
  | completion id uri l c => exact rep h
  | formatting id uri => exact rep h
  | symbols id uri => exact rep h
  | shutdown id => cases h; exact ⟨⟨_, rfl, _, rfl⟩, rfl⟩
  | note n =>
    cases n with
    | didOpen uri text => exact pub h
    | didChange uri texts =>
      dsimp only [turn] at h
      unfold Due notesIn notesIn
      simp only [List.foldl_cons, List.foldl_nil, docStep]
      cases hl : texts.getLast? with
      | none =>
        rw [hl] at h
        cases h
        exact ⟨.inl ⟨List.getLast?_eq_none_iff.mp hl, rfl⟩, rfl⟩
      | some t =>
        rw [hl] at h
        exact ⟨.inr ⟨t, rfl, (pub h).1⟩, (pub h).2⟩
    | didSave uri =>
      dsimp only [turn] at h
      cases hu : uriPath uri with
      | none => rw [hu] at h; cases h
      | some path =>
        rw [hu] at h
        dsimp only at h
        cases hr : fs.read path with
        | none => rw [hr] at h; cases h; exact ⟨.inl ⟨path, hu, hr, rfl⟩, rfl⟩
        | some t => rw [hr] at h; exact ⟨.inr ⟨path, t, hu, hr, (pub h).1⟩, (pub h).2⟩
    | didClose uri => cases h; exact ⟨rfl, rfl⟩
  | exit => cases h
  | request id m => cases h; exact ⟨rfl, rfl⟩
  | notify m => cases h; exact ⟨rfl, rfl⟩

/-! ### Sessions -/

theorem notesIn_cons (m : Told) (ms : List Told) : notesIn (m :: ms) = notesIn [m] ++ notesIn ms := by
  cases m <;> rfl

/-- **C96**: whatever the messages of a session are and whatever happens to the files in between: if it ends regularly, every request of a known method has
been answered exactly once, with its id, every text and saved file has been reported on once, in the order of the messages, and nothing else has been sent. -/
theorem C96_dues (S : Server) (ms : List Told) (js : List (Files × Option Js)) (h : SaysAll ms js) (docs : Docs96) (sent : List Js)
    (hr : lspRun S js docs = (sent, .ended)) : Dues S ms (js.map Prod.fst) sent := by
  induction ms generalizing js docs sent with
  | nil =>
    cases js with
    | nil => cases hr; rfl
    | cons x js => exact h.elim
  | cons m ms ih =>
    cases js with
    | nil => exact h.elim
    | cons x js =>
      obtain ⟨fs, y⟩ := x
      cases y with
      | none => exact h.elim
      | some j =>
        unfold lspRun at hr
        rw [step_turn S fs docs h.1] at hr
        cases ht : turn S fs docs m with
        | go docs' out =>
          rw [ht] at hr
          dsimp only at hr
          obtain ⟨hd, -⟩ := turn_go ht
          have hr' := ih js h.2 docs' (lspRun S js docs').1 (by rw [← (Prod.mk.inj hr).2])
          rw [← (Prod.mk.inj hr).1]
          cases m with
          | exit => cases ht
          | _ => exact ⟨out, _, rfl, hd, hr'⟩
        | exit =>
          rw [ht] at hr
          cases hr
          cases m with
          | exit => rfl
          | note n =>
            exfalso
            cases n <;> simp only [turn] at ht <;> (try unfold publish at ht) <;> (repeat' split at ht) <;> cases ht
          | _ => exfalso; simp only [turn, reply] at ht <;> (repeat' split at ht) <;> cases ht
        | ub => rw [ht] at hr; cases hr
        | stuck => rw [ht] at hr; cases hr

/-- The files and the store suffice for what a message asks: the analyses are defined. -/
def Able (S : Server) (fs : Files) (docs : Docs96) : Told → Prop
  | .definition _ uri l c => ∃ a, definition S.P fs S.fuel docs uri l c = .known a
  | .hover _ uri l c => ∃ a, hover S.P fs S.builtinDoc S.fuel docs uri l c = .known a
  | .completion _ uri l c => ∃ a, completionItems S fs docs uri l c = .known a
  | .formatting _ uri => ∃ a, formatted fs uri = .known a
  | .symbols _ uri => ∃ a, documentSymbols S.P fs S.fuel uri = .known a
  | .note (.didOpen uri text) => ∃ path ds, uriPath uri = some path ∧ S.report fs path text = .known ds
  | .note (.didChange uri texts) => ∀ text, texts.getLast? = some text → ∃ path ds, uriPath uri = some path ∧ S.report fs path text = .known ds
  | .note (.didSave uri) => ∃ path, uriPath uri = some path ∧ ∀ text, fs.read path = some text → ∃ ds, S.report fs path (cText text) = .known ds
  | _ => True

/-- They do for a session. -/
def AbleAll (S : Server) : List Told → List (Files × Option Js) → Docs96 → Prop
  | m :: ms, (fs, _) :: js, docs => Able S fs docs m ∧ AbleAll S ms js ((notesIn [m]).foldl docStep docs)
  | _, _, _ => True

theorem able_turn {S : Server} {fs : Files} {docs : Docs96} {m : Told} (h : Able S fs docs m) (hm : m ≠ .exit) :
    ∃ out, turn S fs docs m = .go ((notesIn [m]).foldl docStep docs) out := by
  have key : ∀ {docs' out}, turn S fs docs m = .go docs' out → ∃ out, turn S fs docs m = .go ((notesIn [m]).foldl docStep docs) out := by
    intro docs' out e
    rw [← (turn_go e).2]
    exact ⟨out, e⟩
  cases m with
  | greet id => exact key rfl
  | definition id uri l c => obtain ⟨a, ha⟩ := h; exact key (by dsimp only [turn]; rw [ha]; rfl)
  | hover id uri l c => obtain ⟨a, ha⟩ := h; exact key (by dsimp only [turn]; rw [ha]; rfl)
  | completion id uri l c => obtain ⟨a, ha⟩ := h; exact key (by dsimp only [turn]; rw [ha]; rfl)
  | formatting id uri => obtain ⟨a, ha⟩ := h; exact key (by dsimp only [turn]; rw [ha]; rfl)
  | symbols id uri => obtain ⟨a, ha⟩ := h; exact key (by dsimp only [turn]; rw [ha]; rfl)
  | shutdown id => exact key rfl
  | note n =>
    cases n with
    | didOpen uri text =>
      obtain ⟨path, ds, h1, h2⟩ := h
      exact key (by dsimp only [turn]; unfold publish; rw [h1]; dsimp only; rw [h2])
    | didChange uri texts =>
      cases ht : texts.getLast? with
      | none => exact key (by dsimp only [turn]; rw [ht])
      | some text =>
        obtain ⟨path, ds, h1, h2⟩ := h text ht
        exact key (by dsimp only [turn]; rw [ht]; unfold publish; dsimp only; rw [h1]; dsimp only; rw [h2])
    | didSave uri =>
      obtain ⟨path, h1, h2⟩ := h
      cases hr : fs.read path with
      | none => exact key (by dsimp only [turn]; rw [h1]; dsimp only; rw [hr]; rfl)
      | some text =>
        obtain ⟨ds, h3⟩ := h2 text hr
        exact key (by dsimp only [turn]; rw [h1]; dsimp only; rw [hr]; unfold publish; simp only [Option.map_some]; rw [h1]; dsimp only; rw [h3])
    | didClose uri => exact key rfl
  | exit => exact absurd rfl hm
  | request id m => exact key rfl
  | notify m => exact key rfl

/-- **C96, partial**: messages of the protocol never bring the server down as long as the analyses they ask for are defined. -/
theorem C96_safe_partial (S : Server) (ms : List Told) (js : List (Files × Option Js)) (h : SaysAll ms js) (docs : Docs96) (ha : AbleAll S ms js docs) :
    (lspRun S js docs).2 = .ended := by
  induction ms generalizing js docs with
  | nil =>
    cases js with
    | nil => rfl
    | cons x js => exact h.elim
  | cons m ms ih =>
    cases js with
    | nil => exact h.elim
    | cons x js =>
      obtain ⟨fs, y⟩ := x
      cases y with
      | none => exact h.elim
      | some j =>
        unfold lspRun
        rw [step_turn S fs docs h.1]
        by_cases hm : m = .exit
        · subst hm; rfl
        · obtain ⟨out, ho⟩ := able_turn ha.1 hm
          rw [ho]
          exact ih js h.2 _ ha.2

/-- A session that goes on. -/
theorem run_append (S : Server) (ms : List Told) (js more : List (Files × Option Js)) (h : SaysAll ms js) (hx : .exit ∉ ms) (docs : Docs96) (sent : List Js)
    (hr : lspRun S js docs = (sent, .ended)) :
    lspRun S (js ++ more) docs =
      (sent ++ (lspRun S more ((notesIn ms).foldl docStep docs)).1, (lspRun S more ((notesIn ms).foldl docStep docs)).2) := by
  induction ms generalizing js docs sent with
  | nil =>
    cases js with
    | nil => cases hr; rfl
    | cons x js => exact h.elim
  | cons m ms ih =>
    cases js with
    | nil => exact h.elim
    | cons x js =>
      obtain ⟨fs, y⟩ := x
      cases y with
      | none => exact h.elim
      | some j =>
        rw [List.cons_append, lspRun]
        unfold lspRun at hr
        rw [step_turn S fs docs h.1] at hr ⊢
        cases ht : turn S fs docs m with
        | go docs' out =>
          rw [ht] at hr
          dsimp only at hr ⊢
          obtain ⟨-, hd⟩ := turn_go ht
          have := ih js h.2 (fun e => hx (List.mem_cons_of_mem _ e)) docs' (lspRun S js docs').1 (by rw [← (Prod.mk.inj hr).2])
          rw [this, ← (Prod.mk.inj hr).1, notesIn_cons, List.foldl_append, ← hd]
          dsimp only
          rw [List.append_assoc]
        | exit =>
          exfalso
          cases m with
          | exit => exact hx List.mem_cons_self
          | note n => cases n <;> simp only [turn] at ht <;> (try unfold publish at ht) <;> (repeat' split at ht) <;> cases ht
          | _ => simp only [turn, reply] at ht <;> (repeat' split at ht) <;> cases ht
        | ub => rw [ht] at hr; cases hr
        | stuck => rw [ht] at hr; cases hr

/-- What the next request is answered with. -/
theorem run_reply {α : Type} {S : Server} {ms : List Told} {js : List (Files × Option Js)} (h : SaysAll ms js) (hx : .exit ∉ ms) {sent : List Js}
    (hr : lspRun S js [] = (sent, .ended)) {m : Told} {j : Js} {fs : Files} (hj : Says m j) (more : List (Files × Option Js)) {id : Js} {f : α → Js} {a : α}
    (hm : turn S fs ((notesIn ms).foldl docStep []) m = reply ((notesIn ms).foldl docStep []) (some id) f (.known a)) :
    ∃ rest, (lspRun S (js ++ (fs, some j) :: more) []).1 =
      sent ++ .obj [(word "jsonrpc", .str (word "2.0")), (word "id", id), (word "result", f a)] :: rest := by
  rw [run_append S ms js _ h hx [] sent hr]
  generalize (notesIn ms).foldl docStep [] = docs at *
  refine ⟨(lspRun S more docs).1, ?_⟩
  rw [lspRun, step_turn S fs docs hj, hm]
  rfl

/-- The text of a document, when the client has told it and not closed the document. -/
theorem text_told {ms : List Told} {uri path src : List Byte} (fs : Files) (hc : .didClose uri ∉ notesIn ms) (ht : clientText uri (notesIn ms) = some src) :
    textOf ((notesIn ms).foldl docStep []) fs uri path = some src := by
  unfold textOf
  rw [C71_store_partial uri _ hc, ht]

/-- **C96, partial**: after any session, a request for the definition of what the document of that moment declares is answered with its place: the
document of that moment is the text told last. -/
theorem C96_definition_partial (S : Server) (ms : List Told) (js : List (Files × Option Js)) (h : SaysAll ms js) (hx : .exit ∉ ms) (sent : List Js)
    (hr : lspRun S js [] = (sent, .ended)) (id : Js) (uri path src bs : List Byte) (row col : Nat) (j : Js) (fs : Files) (more : List (Files × Option Js))
    (hj : Says (.definition id uri row col) j) (hu : uriPath uri = some path) (hc : .didClose uri ∉ notesIn ms)
    (ht : clientText uri (notesIn ms) = some src) (hi : diagnoseFile S.P fs S.fuel path src = .image bs) (toks : List Tok)
    (hl : lexAll (src.length + 1) (src ++ [0]) 1 = some toks) (e : Found) (he : e ∈ declared95 path toks) (deco : Bool)
    (hw : symbolAt (src ++ [0]) row col = some (e.name, deco)) (hb : ¬ (deco = true ∧ e.name ∈ builtinNames)) (u : List Byte) (hp : pathUri path = some u) :
    ∃ rest, (lspRun S (js ++ (fs, some j) :: more) []).1 = sent ++
      .obj [(word "jsonrpc", .str (word "2.0")), (word "id", id), (word "result", .obj [(word "uri", .str u), (word "range",
        .obj [(word "start", .obj [(word "line", .num (e.line - 1 : Nat)), (word "character", .num 0)]),
          (word "end", .obj [(word "line", .num (e.line - 1 : Nat)), (word "character", .num 0)])])])] :: rest := by
  refine run_reply (f := jsLocation) (a := some (u, e.line - 1)) h hx hr hj more ?_
  dsimp only [turn]
  rw [(C95_definition_partial S.P fs S.fuel _ uri path src bs toks row col e.name deco hu (text_told fs hc ht) hi hl hw hb).1 e he rfl u hp]

/-- **C96, partial**: and hovering over a struct shows what is written about it in that text. -/
theorem C96_hover_partial (S : Server) (ms : List Told) (js : List (Files × Option Js)) (h : SaysAll ms js) (hx : .exit ∉ ms) (sent : List Js)
    (hr : lspRun S js [] = (sent, .ended)) (id : Js) (uri path src bs : List Byte) (row col : Nat) (j : Js) (fs : Files) (more : List (Files × Option Js))
    (hj : Says (.hover id uri row col) j) (hu : uriPath uri = some path) (hc : .didClose uri ∉ notesIn ms)
    (ht : clientText uri (notesIn ms) = some src) (hi : diagnoseFile S.P fs S.fuel path src = .image bs) (toks : List Tok)
    (hl : lexAll (src.length + 1) (src ++ [0]) 1 = some toks) (e : Found) (he : e ∈ declared95 path toks) (hs : e.sort = .struct) (deco : Bool)
    (hw : symbolAt (src ++ [0]) row col = some (e.name, deco)) (hb : ¬ (deco = true ∧ e.name ∈ builtinNames))
    (hlen : (hoverFull (aboutText e.name path e.line) e.doc none).length ≤ 4095) :
    ∃ rest, (lspRun S (js ++ (fs, some j) :: more) []).1 = sent ++
      .obj [(word "jsonrpc", .str (word "2.0")), (word "id", id), (word "result", .obj [(word "contents", .obj [(word "kind", .str (word "markdown")),
        (word "value", .str (hoverFull (aboutText e.name path e.line) e.doc none))])])] :: rest := by
  refine run_reply (f := jsHover) (a := some (hoverFull (aboutText e.name path e.line) e.doc none)) h hx hr hj more ?_
  dsimp only [turn]
  rw [C95_hover_partial S.P fs S.builtinDoc S.fuel _ uri path src bs toks row col deco e hu (text_told fs hc ht) hi hl he hs hw hb hlen]

/-! ### Bytes -/

/-- The messages with the files of their moments. -/
def numbered (world : Nat → Files) : Nat → List (Option Js) → List (Files × Option Js)
  | _, [] => []
  | n, x :: xs => (world n, x) :: numbered world (n + 1) xs

/-- **C96**: from the bytes of any stream of framed messages, the server writes the framed messages of the session, and ends as the session does. -/
theorem C96_bytes (S : Server) (parse : List Byte → Option Js) (print : Js → List Byte) (world : Nat → Files) (bodies : List (List Byte)) (s : List Byte)
    (h : MsgStream bodies s) (fuel n : Nat) (hf : bodies.length < fuel) (docs : Docs96) :
    cmdLsp S parse print world fuel n s docs = (((lspRun S (numbered world n (bodies.map parse)) docs).1.map fun j => sendJson (print j)).flatten,
      (lspRun S (numbered world n (bodies.map parse)) docs).2) := by
  induction bodies generalizing s fuel n docs with
  | nil =>
    cases fuel with
    | zero => omega
    | succ fuel =>
      rw [show s = [] from h]
      rfl
  | cons b bs ih =>
    obtain ⟨x, y, h1, h2, h3, h4, h5, rfl⟩ := h
    cases fuel with
    | zero => omega
    | succ fuel =>
      rw [cmdLsp, C69_message h1 h2 h3 h4]
      dsimp only
      rw [List.map_cons, numbered]
      cases hp : parse b with
      | none => rfl
      | some req =>
        dsimp only
        rw [lspRun]
        cases hs : lspStep S (world n) docs req with
        | go docs' out =>
          dsimp only
          rw [ih y h5 fuel (n + 1) (by simpa using hf) docs', List.map_append, List.flatten_append]
        | exit => rfl
        | ub => rfl
        | stuck => rfl

theorem stream_sent (print : Js → List Byte) (l : List Js) (h : ∀ j ∈ l, print j ≠ [] ∧ NoNul (print j) ∧ (print j).length < 2 ^ 31) :
    MsgStream (l.map print) (l.map fun j => sendJson (print j)).flatten := by
  induction l with
  | nil => rfl
  | cons j l ih =>
    obtain ⟨h1, h2, h3⟩ := h j List.mem_cons_self
    exact ⟨sendJson (print j), _, C69_sent _ (Nat.lt_trans h3 (by decide)), h1, h2, h3, ih fun x hx => h x (List.mem_cons_of_mem _ hx), rfl⟩

/-- **C96**: and a client that reads by the same rules receives what the session sends. -/
theorem C96_received (S : Server) (parse : List Byte → Option Js) (print : Js → List Byte) (world : Nat → Files) (bodies : List (List Byte)) (s : List Byte)
    (h : MsgStream bodies s) (fuel n : Nat) (hf : bodies.length < fuel) (docs : Docs96) (hpp : ∀ j, parse (print j) = some j)
    (hp : ∀ j, print j ≠ [] ∧ NoNul (print j) ∧ (print j).length < 2 ^ 31) (k : Nat)
    (hk : (lspRun S (numbered world n (bodies.map parse)) docs).1.length < k) :
    (readMsgs k (cmdLsp S parse print world fuel n s docs).1).map (List.map parse) =
      some ((lspRun S (numbered world n (bodies.map parse)) docs).1.map some) := by
  rw [C96_bytes S parse print world bodies s h fuel n hf docs]
  rw [C69_stream _ _ (stream_sent print _ fun j _ => hp j) k (by simpa using hk)]
  rw [Option.map_some, List.map_map]
  congr 2
  exact funext hpp

/-! ### An example -/

/-- A server for the examples. -/
def demoServer : Server := ⟨demoP, fun _ => ([], []), 400, fun _ _ _ _ => [], fun _ _ _ => .known []⟩

/-- Opening a document. -/
def openMsg (uri text : List Byte) : Js :=
  .obj [(word "jsonrpc", .str (word "2.0")), (word "method", .str (word "textDocument/didOpen")), (word "params", .obj [(word "textDocument",
    .obj [(word "uri", .str uri), (word "languageId", .str (word "cnd")), (word "version", .num 1), (word "text", .str text)])])]

/-- A request about a position. -/
def askMsg (id : Nat) (method uri : List Byte) (line character : Nat) : Js :=
  .obj [(word "jsonrpc", .str (word "2.0")), (word "id", .num id), (word "method", .str method), (word "params", .obj [
    (word "textDocument", .obj [(word "uri", .str uri)]),
    (word "position", .obj [(word "line", .num line), (word "character", .num character)])])]

theorem other_names {l : List (List Byte × Js)} {name : List Byte} (h : (l.all fun x => x.1.map low96 != name.map low96) = true) :
    ∀ x ∈ l, x.1.map low96 ≠ name.map low96 := by
  intro x hx e
  have := List.all_eq_true.mp h x hx
  rw [e] at this
  simp at this

theorem openMsg_says (uri text : List Byte) : Says (.note (.didOpen uri text)) (openMsg uri text) :=
  ⟨⟨_, rfl, other_names rfl⟩, ⟨_, rfl, [_], _, rfl, other_names rfl⟩, _, ⟨_, rfl, [_, _], [], rfl, other_names rfl⟩, _,
    ⟨_, rfl, [], [], rfl, other_names rfl⟩, ⟨_, rfl, [], _, rfl, other_names rfl⟩, ⟨_, rfl, [_, _, _], [], rfl, other_names rfl⟩⟩

theorem askMsg_calls (id : Nat) (method uri : List Byte) (line character : Nat) :
    Calls (askMsg id method uri line character) method (.num id) fun p => OfDocument p uri ∧ OfPosition p line character :=
  ⟨⟨_, rfl, [_], _, rfl, other_names rfl⟩, ⟨_, rfl, [_, _], _, rfl, other_names rfl⟩, _, ⟨_, rfl, [_, _, _], [], rfl, other_names rfl⟩,
    ⟨_, ⟨_, rfl, [], _, rfl, other_names rfl⟩, ⟨_, rfl, [], _, rfl, other_names rfl⟩⟩,
    ⟨_, ⟨_, rfl, [_], [], rfl, other_names rfl⟩, ⟨_, rfl, [], _, rfl, other_names rfl⟩, ⟨_, rfl, [_], [], rfl, other_names rfl⟩⟩⟩

theorem open_run (fs : Files) (uri text path : List Byte) (hu : uriPath uri = some path) (rest : List (Files × Option Js)) (docs : Docs96) :
    lspRun demoServer ((fs, some (openMsg uri text)) :: rest) docs =
      (jsReport uri [] :: (lspRun demoServer rest (docUpdate uri text docs)).1, (lspRun demoServer rest (docUpdate uri text docs)).2) := by
  rw [lspRun, step_turn _ _ _ (openMsg_says uri text)]
  dsimp only [turn]
  unfold publish
  rw [hu]
  rfl

/-- A document is opened, then where `Point` is declared is asked for. The file is not there: only the text told counts. -/
example : ∃ rest, (lspRun demoServer ([(dirOf [], some (openMsg uri95 src95))] ++
      [(dirOf [], some (askMsg 7 (word "textDocument/definition") uri95 9 4))]) []).1 = [jsReport uri95 []] ++
      .obj [(word "jsonrpc", .str (word "2.0")), (word "id", .num 7), (word "result", .obj [(word "uri", .str uri95), (word "range",
        .obj [(word "start", .obj [(word "line", .num 2), (word "character", .num 0)]),
          (word "end", .obj [(word "line", .num 2), (word "character", .num 0)])])])] :: rest := by
  have hr : lspRun demoServer [(dirOf [], some (openMsg uri95 src95))] [] = ([jsReport uri95 []], .ended) := by
    rw [open_run _ _ _ path95 (by decide +kernel)]
    rfl
  obtain ⟨bs, h⟩ := isImage_spec (r := diagnoseFile demoP (dirOf []) 400 path95 src95) (by decide +kernel)
  exact C96_definition_partial demoServer [.note (.didOpen uri95 src95)] [(dirOf [], some (openMsg uri95 src95))] ⟨openMsg_says _ _, trivial⟩ (by simp) _ hr (.num 7) uri95 path95 src95 bs 9 4 _
    (dirOf []) [] (askMsg_calls 7 _ uri95 9 4) (by decide +kernel) (by simp [notesIn]) (by decide +kernel) h toks95 ex95_lex
    ⟨.struct, word "Point", path95, 3, some (word " A point.\n In the plane.")⟩ (by rw [ex95_declared]; simp) false (by decide +kernel) (by simp) uri95
    (by decide +kernel)

/-- The session has what is due: a report and a reply. -/
example : Dues demoServer [.note (.didOpen uri95 src95), .greet (.num 1), .exit] [dirOf [], dirOf [], dirOf []]
    (lspRun demoServer [(dirOf [], some (openMsg uri95 src95)), (dirOf [], some (.obj [(word "id", .num 1), (word "method", .str (word "initialize"))])),
      (dirOf [], some (.obj [(word "method", .str (word "exit"))]))] []).1 := by
  have hg : Says (.greet (.num 1)) (.obj [(word "id", .num 1), (word "method", .str (word "initialize"))]) :=
    ⟨⟨_, rfl, [], _, rfl, other_names rfl⟩, ⟨_, rfl, [_], _, rfl, other_names rfl⟩⟩
  have he : Says .exit (.obj [(word "method", .str (word "exit"))]) := ⟨_, rfl, [], _, rfl, other_names rfl⟩
  refine C96_dues demoServer [.note (.didOpen uri95 src95), .greet (.num 1), .exit] [(dirOf [], some (openMsg uri95 src95)), (dirOf [], some _),
    (dirOf [], some _)] ⟨openMsg_says _ _, hg, he, trivial⟩ [] _ ?_
  rw [open_run _ _ _ path95 (by decide +kernel), lspRun, step_turn _ _ _ hg]
  dsimp only [turn]
  rw [lspRun, step_turn _ _ _ he]
  rfl

/-! ### Where it fails -/

/-- The full claim about requests: each is answered, if only by an error. -/
def AllAnswered : Prop := ∀ (S : Server) (ms : List Told) (js : List (Files × Option Js)) (sent : List Js), SaysAll ms js → lspRun S js [] = (sent, .ended) →
  ∀ id m, .request id m ∈ ms → ∃ j ∈ sent, Within96 j (word "id") id

/-- **C96 fails**: a request of a method the server does not know is never answered. -/
theorem C96_false_unknown : ¬ AllAnswered := by
  intro h
  obtain ⟨j, hj, -⟩ := h demoServer [.request (.num 1) (word "textDocument/references")]
    [(dirOf [], some (askMsg 1 (word "textDocument/references") uri95 0 0))] []
    ⟨⟨(askMsg_calls 1 _ uri95 0 0).1, (askMsg_calls 1 _ uri95 0 0).2.1, by decide +kernel⟩, trivial⟩ rfl _ _ List.mem_cons_self
  cases hj

/-- The full claim about messages: none brings the server down. -/
def Survives : Prop := ∀ (S : Server) (fs : Files) (docs : Docs96) (j : Js), lspStep S fs docs j ≠ .ub

/-- **C96 fails**: a request without parameters makes the server use a null pointer. -/
theorem C96_false_params : ¬ Survives := fun h =>
  h demoServer (dirOf []) [] (.obj [(word "id", .num 1), (word "method", .str (word "textDocument/hover"))]) rfl

/-- **C96 fails**: so does a change of a document whose URI is no string. -/
theorem C96_false_uri : lspStep demoServer (dirOf []) [] (.obj [(word "method", .str (word "textDocument/didChange")), (word "params", .obj [
    (word "textDocument", .obj [(word "uri", .null)]), (word "contentChanges", .arr [.obj [(word "text", .str [])]])])]) = .ub := rfl

/-- **C96 fails**: a text that is not JSON ends the session, and what follows is not answered. -/
theorem C96_false_garbage : ∃ (S : Server) (fs : Files) (j : Js), Says (.greet (.num 1)) j ∧ (lspRun S [(fs, some j)] []).1.length = 1 ∧
    lspRun S [(fs, none), (fs, some j)] [] = ([], .ended) :=
  ⟨demoServer, dirOf [], .obj [(word "id", .num 1), (word "method", .str (word "initialize"))],
    ⟨⟨_, rfl, [], _, rfl, other_names rfl⟩, ⟨_, rfl, [_], _, rfl, other_names rfl⟩⟩, rfl, rfl⟩

/-- **C96 fails**: requests are answered before the server is initialized and after it has been shut down. -/
theorem C96_false_order : ∃ (S : Server) (fs : Files) (j k : Js), Says (.shutdown (.num 1)) j ∧ Says (.symbols (.num 2) uri95) k ∧
    (lspRun S [(fs, some j), (fs, some k)] []).1 = [respond (some (.num 1)) .null, respond (some (.num 2)) .null] := by
  have hj : Says (.shutdown (.num 1)) (.obj [(word "id", .num 1), (word "method", .str (word "shutdown"))]) :=
    ⟨⟨_, rfl, [], _, rfl, other_names rfl⟩, ⟨_, rfl, [_], _, rfl, other_names rfl⟩⟩
  have hk : Says (.symbols (.num 2) uri95) (askMsg 2 (word "textDocument/documentSymbol") uri95 0 0) := by
    obtain ⟨h1, h2, p, h3, h4, -⟩ := askMsg_calls 2 (word "textDocument/documentSymbol") uri95 0 0
    exact ⟨h1, h2, p, h3, h4⟩
  refine ⟨demoServer, dirOf [], _, _, hj, hk, ?_⟩
  have hd : documentSymbols demoP (dirOf []) 400 uri95 = .known none := by decide +kernel
  rw [lspRun, step_turn _ _ _ hj]
  dsimp only [turn]
  rw [lspRun, step_turn _ _ _ hk]
  dsimp only [turn, demoServer]
  rw [hd]
  rfl

/-- **C96 fails**: the characters that trigger a completion are not a list, as the protocol has it, but a string. -/
theorem C96_false_trigger :
    jsAt (jsAt (jsAt (some capabilities) (word "capabilities")) (word "completionProvider")) (word "triggerCharacters") = some (.str (word ".")) := rfl

/-- **C96 fails**: of an imported document the file counts, not the text told: the answer is line 1, though `A` is declared in line 3 of the text. -/
theorem C96_false_imported : ∃ (fs : Files) (docs : Docs96) (uri uriA text textA : List Byte) (toks : List Tok), docGet uri docs = some text ∧
    docGet uriA docs = some textA ∧ uriPath uriA = some (word "/p/a.cnd") ∧ lexAll (textA.length + 1) (textA ++ [0]) 1 = some toks ∧
    (declared95 (word "/p/a.cnd") toks).map (fun e => (e.name, e.line)) = [(word "A", 3)] ∧ symbolAt (text ++ [0]) 1 11 = some (word "A", false) ∧
    definition demoP fs 200 docs uri 1 11 = .known (some (uriA, 0)) :=
  ⟨dirOf [(word "/p/a.cnd", word "struct A { u8 n; }")],
    [(uri95, word "@import(\"a.cnd\")\npacket P { A x; }"), (word "file:///p/a.cnd", word "\n\nstruct A { u8 n; }")], uri95, word "file:///p/a.cnd",
    word "@import(\"a.cnd\")\npacket P { A x; }", word "\n\nstruct A { u8 n; }", (lexAll 40 (word "\n\nstruct A { u8 n; }" ++ [0]) 1).getD [],
    by decide +kernel, by decide +kernel, by decide +kernel, by decide +kernel, by decide +kernel, by decide +kernel, by decide +kernel⟩

end Cnd
