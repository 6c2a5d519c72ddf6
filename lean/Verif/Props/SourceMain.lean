/-
  C59: the compiler translates every program of the specification to the code the specification says.
-/
import Verif.Props.SourceTop
import Verif.Props.ParseTerm
import Verif.Props.LexUnique

namespace Cnd

/-! ### Programs with a meaning have no error tokens -/

theorem subs_noerr (subs : List (Tok × Tok)) (h : ∀ p ∈ subs, p.1.type = .dot ∧ p.2.type = .identifier) : NoErr (subToks subs) := by
  intro t ht
  obtain ⟨q, hq, ht⟩ := List.mem_flatMap.1 ht
  have := h q hq
  rcases List.mem_cons.1 ht with rfl | ht
  · simp [this.1]
  · rw [List.mem_singleton.1 ht]; simp [this.2]

theorem expr_noerr (e : ETree) (h1 : e.Respects) (h2 : e.LeavesOk) : NoErr e.flat := by
  induction e with
  | leaf first subs =>
    simp only [ETree.LeavesOk, LeafOk] at h2
    rw [ETree.flat, NoErr_cons]
    rcases h2 with ⟨rfl, h, _⟩ | ⟨rfl, h | h | h⟩ | ⟨h, _, hs, _⟩
    · exact ⟨by simp [h], by simp [subToks]⟩
    · exact ⟨by simp [h], by simp [subToks]⟩
    · exact ⟨by simp [h], by simp [subToks]⟩
    · exact ⟨by simp [h], by simp [subToks]⟩
    · exact ⟨by simp [h], subs_noerr _ hs⟩
  | node l op r ihl ihr =>
    simp only [ETree.Respects] at h1
    simp only [ETree.LeavesOk] at h2
    rw [ETree.flat, NoErr_append, NoErr_cons]
    refine ⟨ihl h1.2.2.2.1 h2.1, ?_, ihr h1.2.2.2.2 h2.2⟩
    intro q
    rw [q] at h1
    exact absurd h1.1 (by decide)
  | call f lp a rp ih =>
    obtain ⟨⟨g1, _, g2, g3⟩, g4⟩ := h2
    rw [ETree.flat, NoErr_cons, NoErr_cons, NoErr_append]
    exact ⟨by simp [g1], by simp [g2], ih h1 g4, by simp [g3]⟩
  | call2 f lp a c b rp iha ihb =>
    obtain ⟨⟨g1, _, g2, gc, g3⟩, g4, g5⟩ := h2
    rw [ETree.flat, NoErr_cons, NoErr_cons, NoErr_append, NoErr_cons, NoErr_append]
    exact ⟨by simp [g1], by simp [g2], iha h1.1 g4, by simp [gc], ihb h1.2 g5, by simp [g3]⟩
  | paren => exact h2.elim
  | unary => exact h2.elim

theorem exprGen_noerr {C : Ctx} {e : ETree} {tab : List (List Byte)} {r} (h : exprGen C e tab = some r) : NoErr e.flat := by
  simp only [exprGen, req_bind] at h
  exact expr_noerr e h.1.1 h.1.2

theorem nums_noerr (l : List (List Byte)) : NoErr (commas (l.map fun n => [tNum n])) := by
  induction l with
  | nil => exact NoErr_nil
  | cons x xs ih =>
    cases xs with
    | nil => simp [commas]
    | cons y ys => simpa [commas] using ih

theorem pairs_noerr (l : List (List Byte × List Byte)) : NoErr (commas (l.map fun q => [tNum q.1, tComma, tNum q.2])) := by
  induction l with
  | nil => exact NoErr_nil
  | cons x xs ih =>
    cases xs with
    | nil => simp [commas]
    | cons y ys => simpa [commas] using ih

theorem called_noerr (n : List Byte) (l : List Tok) (h : NoErr l) : NoErr (called n l) := by simp [called, h]

theorem deco_noerr {C : Ctx} {x : Deco} {a : Dec} {g : Gen} {r} (h : x.gen C a g = some r) : NoErr x.toks := by
  cases x with
  | expr e =>
    simp only [Deco.gen, bind_some] at h
    obtain ⟨q, hq, _⟩ := h
    exact called_noerr _ _ (exprGen_noerr hq)
  | poly c cs => exact called_noerr _ _ (nums_noerr _)
  | spline c cs => exact called_noerr _ _ (pairs_noerr _)
  | fill v => cases v <;> simp [Deco.toks, called]
  | _ => simp [Deco.toks, called]

theorem decos_noerr {C : Ctx} {xs : List Deco} {a : Dec} {g : Gen} {r} (h : decosGen C xs a g = some r) : NoErr (xs.flatMap Deco.toks) := by
  induction xs generalizing a g r with
  | nil => exact NoErr_nil
  | cons x xs ih =>
    simp only [decosGen, bind_some] at h
    obtain ⟨q, hq, w, hw, _⟩ := h
    rw [List.flatMap_cons, NoErr_append]
    exact ⟨deco_noerr hq, ih hw⟩

theorem field_noerr {C : Ctx} {d : FieldD} {g : Gen} {r} (h : d.gen C g = some r) : NoErr d.toks := by
  simp only [FieldD.gen, bind_some] at h
  obtain ⟨q, hq, _⟩ := h
  simp only [FieldD.toks, NoErr_append, NoErr_cons]
  refine ⟨decos_noerr hq, by simp, by simp, ⟨⟨?_, ?_⟩, ?_⟩, by simp⟩
  · cases d.width <;> simp
  · cases d.dims <;> simp [Dims.toks]
  · cases d.mods with
    | pre t => simp [Mods.toks]
    | lim u m => cases u <;> cases m <;> simp [Mods.toks]

theorem label_noerr (l : Label) : NoErr l.toks := by cases l <;> simp [Label.toks]

mutual

theorem body_noerr {C : Ctx} : ∀ (b : Body) {g : Gen} {r}, b.gen C g = some r → NoErr b.toks
  | .done, _, _, _ => by simp [Body.toks]
  | .tail decs, g, r, h => by
    simp only [Body.gen, bind_some] at h
    obtain ⟨q, hq, _⟩ := h
    rw [Body.toks]
    exact decos_noerr hq
  | .doc t rest, g, r, h => by
    rw [Body.gen] at h
    rw [Body.toks, NoErr_cons]
    exact ⟨by simp, body_noerr rest h⟩
  | .stmt s rest, g, r, h => by
    simp only [Body.gen, bind_some] at h
    obtain ⟨q, hq, w, hw, _⟩ := h
    rw [Body.toks, NoErr_append]
    exact ⟨stmt_noerr s hq, body_noerr rest hw⟩

theorem stmt_noerr {C : Ctx} : ∀ (s : Stmt) {g : Gen} {r}, s.gen C g = some r → NoErr s.toks
  | .field d, g, r, h => by
    rw [Stmt.gen] at h
    rw [Stmt.toks]
    exact field_noerr h
  | .lone decs, g, r, h => by
    simp only [Stmt.gen, bind_some] at h
    obtain ⟨q, hq, _⟩ := h
    rw [Stmt.toks, NoErr_append]
    exact ⟨decos_noerr hq, by simp⟩
  | .ite c thn els, g, r, h => by
    simp only [Stmt.gen, bind_some] at h
    obtain ⟨q, hq, w, hw, v, hv, _⟩ := h
    simp only [Stmt.toks, NoErr_append, NoErr_cons]
    exact ⟨by simp, by simp, exprGen_noerr hq, by simp, by simp, body_noerr thn hw, by simp, els_noerr els hv⟩
  | .switch key arms, g, r, h => by
    simp only [Stmt.gen, bind_some] at h
    obtain ⟨q, hq, _⟩ := h
    simp only [Stmt.toks, NoErr_append, NoErr_cons]
    exact ⟨by simp, by simp, by simp, by simp, by simp, arms_noerr arms hq, by simp⟩

theorem els_noerr {C : Ctx} : ∀ (s : Els) {g : Gen} {r}, s.gen C g = some r → NoErr s.toks
  | .none, _, _, _ => by simp [Els.toks]
  | .block b, g, r, h => by
    rw [Els.gen] at h
    simp only [Els.toks, NoErr_append, NoErr_cons]
    exact ⟨by simp, by simp, body_noerr b h, by simp⟩
  | .elif c thn els, g, r, h => by
    simp only [Els.gen, bind_some] at h
    obtain ⟨q, hq, w, hw, v, hv, _⟩ := h
    simp only [Els.toks, NoErr_append, NoErr_cons]
    exact ⟨by simp, by simp, by simp, exprGen_noerr hq, by simp, by simp, body_noerr thn hw, by simp, els_noerr els hv⟩

theorem arms_noerr {C : Ctx} : ∀ (s : Arms) {seen} {g : Gen} {r}, s.gen C seen g = some r → NoErr s.toks
  | .done, _, _, _, _ => by simp [Arms.toks]
  | .block l b rest, seen, g, r, h => by
    simp only [Arms.gen, bind_some] at h
    obtain ⟨v, _, _, _, q, hq, w, hw, _⟩ := h
    simp only [Arms.toks, NoErr_append, NoErr_cons]
    exact ⟨label_noerr l, by simp, body_noerr b hq, by simp, arms_noerr rest hw⟩
  | .stmt l s rest, seen, g, r, h => by
    simp only [Arms.gen, bind_some] at h
    obtain ⟨v, _, _, _, q, hq, w, hw, _⟩ := h
    simp only [Arms.toks, NoErr_append]
    exact ⟨⟨label_noerr l, stmt_noerr s hq⟩, arms_noerr rest hw⟩

end

theorem enumVs_noerr (vs : List EnumV) : NoErr (vs.flatMap EnumV.toks) := by
  induction vs with
  | nil => simp
  | cons x xs ih =>
    rw [List.flatMap_cons, NoErr_append]
    refine ⟨?_, ih⟩
    simp only [EnumV.toks, NoErr_append, NoErr_cons]
    refine ⟨by simp, ?_, ?_⟩
    · cases x.value <;> simp
    · cases x.comma <;> simp

theorem decl_noerr {dbl : List Byte → Word} {fl : FloatOps} {d : Decl} {t t' : Top} (h : d.gen dbl fl t = some t') : NoErr d.toks := by
  cases d with
  | enum name ty vs =>
    simp only [Decl.toks, NoErr_append, NoErr_cons]
    refine ⟨by simp, by simp, ?_, by simp, enumVs_noerr vs, by simp⟩
    cases ty <;> simp
  | struct name b =>
    simp only [Decl.gen, bind_some] at h
    obtain ⟨_, _, q, hq, _⟩ := h
    simp only [Decl.toks, NoErr_append, NoErr_cons]
    exact ⟨by simp, by simp, by simp, body_noerr b hq, by simp⟩
  | packet name b =>
    simp only [Decl.gen, bind_some] at h
    obtain ⟨_, _, q, hq, _⟩ := h
    simp only [Decl.toks, NoErr_append, NoErr_cons]
    exact ⟨by simp, by simp, by simp, body_noerr b hq, by simp⟩
  | packetOf name s => simp [Decl.toks]
  | empty => simp [Decl.toks]

theorem topDecs_noerr (l : List TopDec) : NoErr (l.flatMap TopDec.toks) := by
  induction l with
  | nil => simp
  | cons x xs ih =>
    rw [List.flatMap_cons, NoErr_append]
    exact ⟨by cases x <;> simp [TopDec.toks, called], ih⟩

theorem prog_noerr {dbl : List Byte → Word} {fl : FloatOps} {prog : List Item} {t t' : Top} (h : progGen dbl fl prog t = some t') :
    NoErr (prog.flatMap Item.toks) := by
  induction prog generalizing t with
  | nil => simp
  | cons x xs ih =>
    rw [List.flatMap_cons, NoErr_append]
    cases x with
    | doc w => exact ⟨by simp [Item.toks], ih h⟩
    | decl decs d =>
      simp only [progGen, bind_some] at h
      obtain ⟨t1, h1, h2⟩ := h
      exact ⟨by rw [Item.toks, NoErr_append]; exact ⟨topDecs_noerr decs, decl_noerr h1⟩, ih h2⟩

/-! ### The compiler -/

/-- C59 on tokens: with a sufficient bound of the nesting, a program of the specification gives the image of its string table and
its code, from which dead strings are dropped (C47). -/
theorem C59_tokens (P : PEnv) (prog : List Item) (tab : List (List Byte)) (code : List Byte)
    (h : progCode P.dbl P.fl prog = some (tab, code)) :
    ∃ f, compileToks P f (prog.flatMap Item.toks ++ [eofTok]) =
      .image (writeImage (optimizeStrings tab code).1 (optimizeStrings tab code).2) := by
  simp only [progCode, bind_some, req_eq, exists_const, Option.some.injEq, Prod.mk.injEq] at h
  obtain ⟨t, h1, hp, rfl, rfl⟩ := h
  have hn := prog_noerr h1
  obtain ⟨p', n, q⟩ := prog_step P.dbl P.fl prog {} t eofTok h1 hn
  refine ⟨n, ?_⟩
  have hn' : NoErr (prog.flatMap Item.toks ++ [eofTok]) := by
    rw [NoErr_append]
    exact ⟨hn, by simp [eofTok]⟩
  have e0 : parseStart (prog.flatMap Item.toks ++ [eofTok]) = topSt P.dbl P.fl {} eofTok (eofTok :: (prog.flatMap Item.toks ++ [eofTok])) := by
    rw [topSt_eq]
    rfl
  have e : (parseStart (prog.flatMap Item.toks ++ [eofTok])).adv = topSt P.dbl P.fl {} eofTok (prog.flatMap Item.toks ++ [eofTok]) := by
    rw [e0, topSt_adv hn']
  unfold compileToks parseTop
  have q1 : topLoop P n (topSt P.dbl P.fl {} eofTok (prog.flatMap Item.toks ++ [eofTok])) = .ok (topSt P.dbl P.fl t p' [eofTok]) :=
    q n (Nat.le_refl _)
  rw [e, q1]
  simp only [CRes.bind]
  have hp' : (topSt P.dbl P.fl t p' [eofTok]).packets = 1 := hp
  rw [hp']
  show (if (topSt P.dbl P.fl t p' [eofTok]).bad = true then _ else _) = _
  rw [topSt_bad]
  rfl

/-- As C59_source, in terms of the lexer of the model. -/
theorem source_lex (P : PEnv) (prog : List Item) (tab : List (List Byte)) (code : List Byte)
    (h : progCode P.dbl P.fl prog = some (tab, code)) (src : List Byte) (toks : List Tok)
    (hl : lexAll (src.length + 1) (src ++ [0]) 1 = some toks) (ht : toks.map Tok.bare = prog.flatMap Item.toks ++ [eofTok])
    (f : Nat) (hf : 16 * src.length + 18 ≤ f) :
    compile P f src = .image (writeImage (optimizeStrings tab code).1 (optimizeStrings tab code).2) := by
  obtain ⟨n, e⟩ := C59_tokens P prog tab code h
  have hn : compile P n src = .image (writeImage (optimizeStrings tab code).1 (optimizeStrings tab code).2) := by
    unfold compile
    rw [hl]
    simp only [ht, e]
  rw [← hn]
  exact C58_one P src f n (C58_ends P src f hf) (by rw [hn]; simp)

/-- **C59.** Whatever the text of a program of the specification looks like (white space, comments, line breaks), the compiler
translates it to the image of the string table and the code that the specification gives for it: no message, no other outcome. -/
theorem C59_source (P : PEnv) (prog : List Item) (tab : List (List Byte)) (code : List Byte)
    (h : progCode P.dbl P.fl prog = some (tab, code)) (src : List Byte) (toks : List Tok)
    (hl : Lexes (upToNul src) 1 toks) (ht : toks.map Tok.bare = prog.flatMap Item.toks ++ [eofTok])
    (f : Nat) (hf : 16 * src.length + 18 ≤ f) :
    compile P f src = .image (writeImage (optimizeStrings tab code).1 (optimizeStrings tab code).2) := by
  obtain ⟨toks', h1, h2⟩ := lexAll_total src
  rw [C49_unique hl h1] at ht
  exact source_lex P prog tab code h src toks' h2 ht f hf

theorem upToNul_self {s : List Byte} (h : NoNul s) : upToNul s = s := by
  induction s with
  | nil => rfl
  | cons c cs ih =>
    rw [upToNul, if_neg (h c (by simp)), ih (fun b hb => h b (by simp [hb]))]

theorem bare_eq (l l' : List Tok) (h : l.map (fun t => (t.type, t.text)) = l'.map (fun t => (t.type, t.text))) (h0 : ∀ t ∈ l', t.line = 0) :
    l.map Tok.bare = l' := by
  induction l generalizing l' with
  | nil => cases l' with
    | nil => rfl
    | cons => cases h
  | cons x xs ih =>
    cases l' with
    | nil => cases h
    | cons y ys =>
      simp only [List.map_cons, List.cons.injEq, Prod.mk.injEq] at h
      rw [List.map_cons, ih ys h.2 (fun t ht => h0 t (by simp [ht]))]
      congr 1
      have := h0 y (by simp)
      obtain ⟨a, b, c⟩ := y
      simp_all [Tok.bare]

/-- **C59.** Every program of the specification whose names and numbers are spelt as such is a source text, and is translated
as the specification says. -/
theorem C59_written (P : PEnv) (prog : List Item) (tab : List (List Byte)) (code : List Byte)
    (h : progCode P.dbl P.fl prog = some (tab, code)) (hs : ∀ t ∈ prog.flatMap Item.toks, Spelt t.type t.text ∧ t.line = 0)
    (f : Nat) (hf : 16 * (written (prog.flatMap Item.toks)).length + 18 ≤ f) :
    compile P f (written (prog.flatMap Item.toks)) =
      .image (writeImage (optimizeStrings tab code).1 (optimizeStrings tab code).2) := by
  obtain ⟨toks, h1, h2⟩ := written_lexes (prog.flatMap Item.toks) (fun t ht => (hs t ht).1) [] (fun s => .nil s) 1
  have hn := written_noNul (prog.flatMap Item.toks) (fun t ht => (hs t ht).1)
  refine C59_source P prog tab code h _ toks ?_ ?_ f hf
  · rw [upToNul_self hn]
    exact h1
  · refine bare_eq _ _ ?_ ?_
    · rw [h2, List.map_append]
      rfl
    · intro t ht
      rcases List.mem_append.1 ht with q | q
      · exact (hs t q).2
      · rw [List.mem_singleton.1 q]
        rfl

/-! ### An example -/

def fieldOf (decs : List Deco) (ty name : String) (width : Option String := none) (dims : Dims := .none) (mods : Mods := .lim none none) : Stmt :=
  .field ⟨decs, word ty, word name, width.map word, dims, mods⟩

def bodyOf (l : List Stmt) : Body := l.foldr .stmt .done

def leafId (s : String) : ETree := .leaf (tId (word s)) []
def leafNum (s : String) : ETree := .leaf (tNum (word s)) []

def exSrc59 : List Byte := word "@version(2) // protocol
enum Kind : u8 { A = 1, B, C = 7 }
struct Point { @be i16 x; @mul(3) u8 y; }
@unaligned_bytes struct Bits { u8 a : 3; u8 b : 5; }
/// the packet
packet P {
  Kind k;
  Bits f;
  Point pts[2];
  /* one of two */
  if (k == 2 && pts.x < 9) { @range(1, 9) u16 y; } else { @const(5) u8 z; }
  switch (k) {
    case Kind.A: { u8 a; }
    case 9: string s max 10;
    default: { u32 d[] prefix u16; }
  }
}"

def exProg59 : List Item :=
  [.decl [.version (word "2")] (.enum (word "Kind") (some (word "u8"))
     [⟨word "A", some (word "1"), true⟩, ⟨word "B", none, true⟩, ⟨word "C", some (word "7"), false⟩]),
   .decl [] (.struct (word "Point") (bodyOf [fieldOf [.be false] "i16" "x", fieldOf [.mul (word "3")] "u8" "y"])),
   .decl [.unaligned] (.struct (word "Bits") (bodyOf [fieldOf [] "u8" "a" "3", fieldOf [] "u8" "b" "5"])),
   .doc (word " the packet"),
   .decl [] (.packet (word "P") (bodyOf
     [fieldOf [] "Kind" "k", fieldOf [] "Bits" "f", fieldOf [] "Point" "pts" none (.fixed (word "2")),
      .ite (.node (.node (leafId "k") (tk .eqEq (word "==")) (leafNum "2")) (tk .ampAmp (word "&&"))
          (.node (.leaf (tId (word "pts")) [(tDot, tId (word "x"))]) (tk .lt (word "<")) (leafNum "9")))
        (bodyOf [fieldOf [.range (word "1") (word "9")] "u16" "y"])
        (.block (bodyOf [fieldOf [.const true (word "5")] "u8" "z"])),
      .switch (word "k")
        (.block (.enum (word "Kind") (word "A")) (bodyOf [fieldOf [] "u8" "a"])
          (.stmt (.num (word "9")) (fieldOf [] "string" "s" none .none (.lim none (some (word "10"))))
            (.block .default (bodyOf [fieldOf [] "u32" "d" none .empty (.pre (word "u16"))]) .done)))]))]

/-- The text has the tokens of the program, comments aside. -/
theorem ex59_lex : (lexAll (exSrc59.length + 1) (exSrc59 ++ [0]) 1).map (fun l => l.map Tok.bare) =
    some (exProg59.flatMap Item.toks ++ [eofTok]) := by
  decide +kernel

def exTab59 : List (List Byte) :=
  ["x", "y", "a", "b", "k", "f", "f.a", "f.b", "pts", "pts.x", "z", "s", "d", "P"].map word

def exCode59 : List Byte :=
  [0x05, 2, 0x07, 13, 0,
   0x10, 4, 0, 0x4B, 0x10, 3, 0, 1, 2, 7,
   0x03, 5, 0, 0x25, 0x02, 0x20, 6, 0, 3, 0x20, 7, 0, 5, 0x26, 0x04,
   0x34, 8, 0, 2, 0, 0, 0, 0x03, 8, 0, 0x02, 0x15, 9, 0, 0x01, 0x47, 3, 0, 0, 0, 0, 0, 0, 0, 0x10, 1, 0, 0x04, 0x38,
   0x60, 4, 0, 0x61, 2, 0, 0, 0, 0, 0, 0, 0, 0x69, 0x60, 9, 0, 0x61, 9, 0, 0, 0, 0, 0, 0, 0, 0x6C, 0x6F,
   0x50, 14, 0, 0, 0, 0x11, 1, 0, 0x42, 0x11, 1, 0, 9, 0, 0x52, 5, 0, 0, 0, 0x40, 10, 0, 0x10, 5,
   0x51, 4, 0, 30, 0, 0, 0,
   0x10, 2, 0, 0x52, 52, 0, 0, 0,
   0x30, 11, 0, 10, 0, 0x52, 42, 0, 0, 0,
   0x36, 12, 0, 0x12, 12, 0, 0x38, 0x52, 30, 0, 0, 0,
   2, 0, 18, 0, 0, 0, 1, 0, 0, 0, 0, 0, 0, 0, 0, 0, 0, 0, 9, 0, 0, 0, 0, 0, 0, 0, 8, 0, 0, 0]

/-- Its meaning. -/
theorem ex59_code : progCode demoP.dbl demoP.fl exProg59 = some (exTab59, exCode59) := by
  decide +kernel

/-- The example meets the hypotheses of the theorem: the compiler gives the image of that code, whatever the bound. -/
example (f : Nat) (hf : 16 * exSrc59.length + 18 ≤ f) :
    compile demoP f exSrc59 = .image (writeImage (optimizeStrings exTab59 exCode59).1 (optimizeStrings exTab59 exCode59).2) := by
  obtain ⟨toks, h1, h2⟩ := lexAll_total exSrc59
  have e := ex59_lex
  rw [h2, Option.map_some, Option.some.injEq] at e
  exact C59_source demoP exProg59 _ _ ex59_code exSrc59 toks h1 e f hf

/-- All its tokens are spelt as such, so that the text written from them is translated too. -/
example (f : Nat) (hf : 16 * (written (exProg59.flatMap Item.toks)).length + 18 ≤ f) :
    compile demoP f (written (exProg59.flatMap Item.toks)) =
      .image (writeImage (optimizeStrings exTab59 exCode59).1 (optimizeStrings exTab59 exCode59).2) := by
  refine C59_written demoP exProg59 _ _ ex59_code ?_ f hf
  have h : ∀ t ∈ exProg59.flatMap Item.toks, speltB t = true ∧ t.line = 0 := by decide +kernel
  exact fun t ht => ⟨speltB_spelt (h t ht).1, (h t ht).2⟩

end Cnd
