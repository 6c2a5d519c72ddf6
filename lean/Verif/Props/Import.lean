/-
  C76: a program of several files means the program with every `@import` replaced by the file, each file once.
-/
import Verif.Import
import Verif.Props.SourceMain

namespace Cnd

/-! ### Specification -/

/-- A part of a file: a documentation comment, one decorator, one import, one declaration. -/
inductive Piece
  | doc (text : List Byte)
  | dec (x : TopDec)
  | imp (path : List Byte)
  | decl (d : Decl)

def Piece.toks : Piece → List Tok
  | .doc t => [tDoc t]
  | .dec x => x.toks
  | .imp p => called (word "import") [tk .string p]
  | .decl d => d.toks

/-- The text of a file consists of these pieces, with whatever white space and comments. -/
def Reads (src : List Byte) (ps : List Piece) : Prop :=
  ∃ toks, Lexes (upToNul src) 1 toks ∧ toks.map Tok.bare = ps.flatMap Piece.toks ++ [eofTok]

/-- Documentation comments stand in front of decorators and imports, not between them and what follows (`after`: a decorator
or an import has just been read). -/
def DocsFirst : Bool → List Piece → Prop
  | _, [] => True
  | after, .doc _ :: ps => after = false ∧ DocsFirst false ps
  | _, .dec _ :: ps => DocsFirst true ps
  | _, .imp _ :: ps => DocsFirst true ps
  | _, .decl _ :: ps => DocsFirst false ps

/-- In the file `cur`, the path `rel` names the file `full`: `rel` is taken from the directory of `cur`. -/
def Refers (fs : Files) (cur rel full : List Byte) : Prop :=
  ∃ dir name, cur = dir ++ name ∧ (∀ c ∈ name, c ≠ 0x2F ∧ c ≠ 0x5C) ∧
    (dir = [] ∨ ∃ d c, dir = d ++ [c] ∧ (c = 0x2F ∨ c = 0x5C)) ∧ full = fs.canon (dir ++ rel)

/-- The pieces of a file, with its imports replaced, are the items `items`. `seen` are the files begun before, `seen'` those
begun at the end: a file already begun is not read a second time. -/
inductive Expand (fs : Files) : (cur : List Byte) → (seen : List (List Byte)) → List Piece → List Item → List (List Byte) → Prop
  | nil (cur seen) : Expand fs cur seen [] [] seen
  | doc {cur seen t ps items seen'} (h : Expand fs cur seen ps items seen') :
      Expand fs cur seen (.doc t :: ps) (.doc t :: items) seen'
  | dec {cur seen x ps items seen'} (h : Expand fs cur seen ps items seen') :
      Expand fs cur seen (.dec x :: ps) (.decl [x] .empty :: items) seen'
  | decl {cur seen d ps items seen'} (h : Expand fs cur seen ps items seen') :
      Expand fs cur seen (.decl d :: ps) (.decl [] d :: items) seen'
  | again {cur seen rel full ps items seen'} (hl : rel.length < 256) (hr : Refers fs cur rel full) (hs : full ∈ seen)
      (h : Expand fs cur seen ps items seen') : Expand fs cur seen (.imp rel :: ps) items seen'
  | file {cur seen rel full src qs inner mid ps items seen'} (hl : rel.length < 256) (hr : Refers fs cur rel full)
      (hs : full ∉ seen) (hf : fs.read full = some src) (ht : Reads src qs) (hq : DocsFirst false qs)
      (hi : Expand fs full (seen ++ [full]) qs inner mid) (h : Expand fs cur mid ps items seen') :
      Expand fs cur seen (.imp rel :: ps) (inner ++ items) seen'

/-! ### Paths -/

theorem dropWhile_split {α : Type} (p : α → Bool) (l : List α) : ∃ a b, l = a ++ b ∧ l.dropWhile p = b ∧ (∀ x ∈ a, p x = true) ∧
    (b = [] ∨ ∃ x r, b = x :: r ∧ p x = false) := by
  induction l with
  | nil => exact ⟨[], [], rfl, rfl, by simp, .inl rfl⟩
  | cons y ys ih =>
    by_cases h : p y = true
    · obtain ⟨a, b, h1, h2, h3, h4⟩ := ih
      refine ⟨y :: a, b, by rw [h1]; rfl, by rw [List.dropWhile_cons, if_pos h, h2], ?_, h4⟩
      intro x hx
      rcases List.mem_cons.1 hx with rfl | hx
      · exact h
      · exact h3 x hx
    · exact ⟨[], y :: ys, rfl, by rw [List.dropWhile_cons, if_neg h], by simp, .inr ⟨y, ys, rfl, by simpa using h⟩⟩

theorem dirPart_split (base : List Byte) : ∃ name, base = dirPart base ++ name ∧ (∀ c ∈ name, c ≠ 0x2F ∧ c ≠ 0x5C) ∧
    (dirPart base = [] ∨ ∃ d c, dirPart base = d ++ [c] ∧ (c = 0x2F ∨ c = 0x5C)) := by
  obtain ⟨a, b, h1, h2, h3, h4⟩ := dropWhile_split (fun c : Byte => decide (c ≠ 0x2F ∧ c ≠ 0x5C)) base.reverse
  have hd : dirPart base = b.reverse := by unfold dirPart; rw [← h2]
  refine ⟨a.reverse, ?_, ?_, ?_⟩
  · rw [hd, ← List.reverse_append, ← h1, List.reverse_reverse]
  · intro c hc
    have := h3 c (List.mem_reverse.1 hc)
    simpa using this
  · rw [hd]
    rcases h4 with rfl | ⟨x, r, rfl, hx⟩
    · exact .inl rfl
    · refine .inr ⟨r.reverse, x, by simp, ?_⟩
      simp only [decide_eq_false_iff_not, Decidable.not_and_iff_or_not, Decidable.not_not, ne_eq] at hx
      exact hx

/-- Where a path is cut off behind its last slash is determined. -/
theorem cut_unique {a b x y : List Byte} (h : a ++ x = b ++ y) (hx : ∀ c ∈ x, c ≠ 0x2F ∧ c ≠ 0x5C) (hy : ∀ c ∈ y, c ≠ 0x2F ∧ c ≠ 0x5C)
    (ha : a = [] ∨ ∃ d c, a = d ++ [c] ∧ (c = (0x2F : Byte) ∨ c = 0x5C)) (hb : b = [] ∨ ∃ d c, b = d ++ [c] ∧ (c = (0x2F : Byte) ∨ c = 0x5C)) : a = b := by
  rcases List.append_eq_append_iff.1 h with ⟨w, h1, h2⟩ | ⟨w, h1, h2⟩
  · rcases List.eq_nil_or_concat w with rfl | ⟨w, c, rfl⟩
    · simpa using h1.symm
    · exfalso
      rcases hb with rfl | ⟨d, e, rfl, he⟩
      · simp at h1
      · have : e = c := by
          rw [List.concat_eq_append, ← List.append_assoc] at h1
          have := congrArg List.getLast? h1
          simpa using this
        subst this
        have := hx e (by rw [h2]; simp)
        rcases he with he | he
        · exact this.1 he
        · exact this.2 he
  · rcases List.eq_nil_or_concat w with rfl | ⟨w, c, rfl⟩
    · simpa using h1
    · exfalso
      rcases ha with rfl | ⟨d, e, rfl, he⟩
      · simp at h1
      · have : e = c := by
          rw [List.concat_eq_append, ← List.append_assoc] at h1
          have := congrArg List.getLast? h1
          simpa using this
        subst this
        have := hy e (by rw [h2]; simp)
        rcases he with he | he
        · exact this.1 he
        · exact this.2 he

theorem refers_iff {fs : Files} {cur rel full : List Byte} : Refers fs cur rel full ↔ full = fs.canon (resolvePath cur rel) := by
  obtain ⟨name, h1, h2, h3⟩ := dirPart_split cur
  constructor
  · rintro ⟨dir, name', e1, e2, e3, rfl⟩
    have : dir = dirPart cur := cut_unique (e1.symm.trans h1) e2 h2 e3 h3
    rw [this]
    rfl
  · rintro rfl
    exact ⟨dirPart cur, name, h1, h2, h3, rfl⟩

/-! ### The parser on the pieces -/

/-- The parser of several files between declarations. -/
def iSt (P : PEnv) (t : Top) (p : Tok) (ts : List Tok) (seen : List (List Byte)) (cur : List Byte) : ISt :=
  ⟨topSt P.dbl P.fl t p ts, seen, cur⟩

/-- The part of topLoopI behind the decorators. -/
def topRest (P : PEnv) (fs : Files) (f : Nat) (s : ISt) : CRes ISt :=
  (match s.c.cur.type with
  | .kwStruct => parseStruct P f s.c.adv
  | .kwEnum => parseEnum f s.c.adv
  | .kwPacket =>
    let c := s.c.errIf (s.c.packets > 0)
    parsePacket P f { c.adv with packets := c.packets + 1 }
  | .semicolon => .ok s.c.adv
  | .eof => .ok s.c
  | _ => .ok s.c.err).bind fun c => topLoopI P fs f { s with c := c }

theorem topLoopI_go {P : PEnv} {fs : Files} {s : ISt} (h1 : s.c.cur.type ≠ .eof) (h2 : s.c.bad = false) (h3 : s.c.cur.type ≠ .doc) (f : Nat) :
    topLoopI P fs (f + 1) s = (topDecsI P fs f s).bind (topRest P fs f) := by
  conv => lhs; unfold topLoopI
  rw [if_neg (by
    rintro (h | h)
    · exact h1 h
    · rw [h2] at h; cases h), if_neg h3]
  rfl

/-- With enough fuel for both parts the outcome is `a`. -/
def Gets2 {α : Type} (r : Nat → Nat → CRes α) (a : α) : Prop := ∃ n, ∀ F ≥ n, ∀ G ≥ n, r F G = .ok a

theorem progGen_append {dbl : List Byte → Word} {fl : FloatOps} (a b : List Item) (t t' : Top) (h : progGen dbl fl (a ++ b) t = some t') :
    ∃ t1, progGen dbl fl a t = some t1 ∧ progGen dbl fl b t1 = some t' := by
  induction a generalizing t with
  | nil => exact ⟨t, rfl, h⟩
  | cons y ys ih =>
    cases y with
    | doc => exact ih t h
    | decl ds d =>
      simp only [List.cons_append, progGen, bind_some] at h
      obtain ⟨t1, h1, h2⟩ := h
      obtain ⟨t2, h3, h4⟩ := ih t1 h2
      exact ⟨t2, by simp only [progGen, bind_some]; exact ⟨t1, h1, h3⟩, h4⟩

theorem pieces_noerr {P : PEnv} {fs : Files} {cur seen ps items seen'} (h : Expand fs cur seen ps items seen') {t t' : Top}
    (hg : progGen P.dbl P.fl items t = some t') : NoErr (ps.flatMap Piece.toks) := by
  induction h generalizing t t' with
  | nil => simp
  | doc h ih =>
    rw [List.flatMap_cons, NoErr_append]
    exact ⟨by simp [Piece.toks], ih hg⟩
  | dec h ih =>
    rename_i x _ _ _
    rw [List.flatMap_cons, NoErr_append]
    simp only [progGen, bind_some] at hg
    obtain ⟨t1, _, h2⟩ := hg
    exact ⟨by cases x <;> simp [Piece.toks, TopDec.toks, called], ih h2⟩
  | decl h ih =>
    rw [List.flatMap_cons, NoErr_append]
    simp only [progGen, bind_some] at hg
    obtain ⟨t1, h1, h2⟩ := hg
    exact ⟨decl_noerr h1, ih h2⟩
  | again _ _ _ h ih =>
    rw [List.flatMap_cons, NoErr_append]
    exact ⟨by simp [Piece.toks, called], ih hg⟩
  | file _ _ _ _ _ _ _ h _ ih =>
    rw [List.flatMap_cons, NoErr_append]
    obtain ⟨t1, _, h1⟩ := progGen_append _ _ _ _ hg
    exact ⟨by simp [Piece.toks, called], ih h1⟩

/-- The file's text gives the parser its tokens. -/
theorem reads_toks {src : List Byte} {ps : List Piece} (h : Reads src ps) : fileToks src = some (ps.flatMap Piece.toks ++ [eofTok]) := by
  obtain ⟨toks, h1, h2⟩ := h
  obtain ⟨toks', h3, h4⟩ := lexAll_total src
  rw [C49_unique h1 h3] at h2
  unfold fileToks
  rw [h4, ← h2]
  rfl

/-- The tokens of an import, up to the closing parenthesis. -/
theorem importHead_step (P : PEnv) (t : Top) (p : Tok) (rel : List Byte) (ks : List Tok) (hne : NoErr ks) :
    importHead (topSt P.dbl P.fl t p (tLp :: tk .string rel :: tRp :: ks)) = (rel, topSt P.dbl P.fl t tRp ks) := by
  unfold importHead
  rw [topSt_eat .lparen rfl (by simpa using hne)]
  dsimp only
  rw [topSt_eat .string rfl (by simpa using hne), topSt_eat .rparen rfl hne]
  rfl

theorem topDecsI_imp (P : PEnv) (fs : Files) (t : Top) (p : Tok) (rel : List Byte) (ks : List Tok) (seen cur) (hne : NoErr ks) (F : Nat) :
    topDecsI P fs (F + 3) (iSt P t p (Piece.toks (.imp rel) ++ ks) seen cur) =
      (parseImport P fs (F + 1) (iSt P t (tId (word "import")) (tLp :: tk .string rel :: tRp :: ks) seen cur)).bind (topDecsI P fs (F + 2)) := by
  conv => lhs; unfold topDecsI
  rw [if_pos (by rfl)]
  simp only [Piece.toks, called, List.cons_append, List.nil_append, iSt]
  rw [topSt_adv (by simpa using hne)]
  conv => lhs; unfold topDecI
  rw [if_pos (by rfl), topSt_eat .identifier rfl (by simpa using hne)]

theorem topDecsI_dec (P : PEnv) (fs : Files) (x : TopDec) (t : Top) (p : Tok) (ks : List Tok) (seen cur) (hne : NoErr ks) :
    ∃ p', ∀ F, topDecsI P fs (F + 2) (iSt P t p (x.toks ++ ks) seen cur) = topDecsI P fs (F + 1) (iSt P (x.gen t) p' ks seen cur) := by
  obtain ⟨p', q⟩ := topDec_step P.dbl P.fl x t tAt ks hne
  refine ⟨p', fun F => ?_⟩
  have hx : x.toks = tAt :: x.toks.tail := by cases x <;> rfl
  have hn : NoErr (x.toks.tail ++ ks) := by
    rw [NoErr_append]
    refine ⟨?_, hne⟩
    cases x <;> simp [TopDec.toks, called]
  have hw : (topSt P.dbl P.fl t tAt (x.toks.tail ++ ks)).cur.isWord s_import = false := by
    cases x with
    | littleEndian l => cases l <;> rfl
    | _ => rfl
  conv => lhs; unfold topDecsI
  rw [hx, if_pos (by rfl)]
  simp only [List.cons_append, iSt]
  rw [topSt_adv hn]
  conv => lhs; unfold topDecI
  rw [if_neg (by rw [hw]; simp), q F]
  rfl

theorem topDecsI_stop (P : PEnv) (fs : Files) {s : ISt} (h : s.c.cur.type ≠ .at) (F : Nat) : topDecsI P fs (F + 1) s = .ok s := by
  unfold topDecsI
  exact if_neg h

/-- The imported file begins. -/
theorem enter_step (P : PEnv) (t : Top) (p : Tok) (ks ts : List Tok) (hne : NoErr ts) :
    ({ topSt P.dbl P.fl t p ks with toks := ts } : CSt).adv = topSt P.dbl P.fl t (ks.headD eofTok) ts := by
  rw [← topSt_adv (p := p) hne]
  rfl

theorem resume_step (P : PEnv) (t t' : Top) (p p' : Tok) (ks ts : List Tok) (seen seen' cur cur') :
    resume (iSt P t p ks seen cur) (iSt P t' p' ts seen' cur') = iSt P t' p ks seen' cur := by
  unfold resume iSt
  simp only [topSt_eq]

/-- The pieces do not begin with a documentation comment. -/
def NotDoc : List Piece → Prop
  | .doc _ :: _ => False
  | _ => True

theorem tidy_notDoc {ps : List Piece} (h : DocsFirst true ps) : NotDoc ps ∧ DocsFirst false ps := by
  cases ps with
  | nil => exact ⟨trivial, trivial⟩
  | cons x xs => cases x with
    | doc => exact absurd h.1 (by simp)
    | _ => exact ⟨trivial, h⟩

/-- The parser does on the pieces of a file, in front of a declaration or behind a decorator, what it would do on the items. -/
theorem expand_step (P : PEnv) (fs : Files) {cur seen ps items seen'} (h : Expand fs cur seen ps items seen') : ∀ (t t' : Top) (p : Tok),
    DocsFirst false ps → progGen P.dbl P.fl items t = some t' →
    (∃ p', Gets (fun F => topLoopI P fs F (iSt P t p (ps.flatMap Piece.toks ++ [eofTok]) seen cur)) (iSt P t' p' [eofTok] seen' cur)) ∧
    (NotDoc ps → ∃ p', Gets2 (fun F G => (topDecsI P fs F (iSt P t p (ps.flatMap Piece.toks ++ [eofTok]) seen cur)).bind (topRest P fs G))
      (iSt P t' p' [eofTok] seen' cur)) := by
  -- in front of a declaration, from what is done behind a decorator
  have lift : ∀ {cur seen ps seen'} {t t' : Top} {p : Tok} {a : Tok} {ts : List Tok},
      ps.flatMap Piece.toks ++ [eofTok] = a :: ts → a.type ≠ .eof → a.type ≠ .doc → NotDoc ps →
      (NotDoc ps → ∃ p', Gets2 (fun F G => (topDecsI P fs F (iSt P t p (ps.flatMap Piece.toks ++ [eofTok]) seen cur)).bind (topRest P fs G))
        (iSt P t' p' [eofTok] seen' cur)) →
      ∃ p', Gets (fun F => topLoopI P fs F (iSt P t p (ps.flatMap Piece.toks ++ [eofTok]) seen cur)) (iSt P t' p' [eofTok] seen' cur) := by
    intro cur seen ps seen' t t' p a ts e h1 h2 hd hB
    obtain ⟨p', n, q⟩ := hB hd
    refine ⟨p', n + 1, fun F hF => ?_⟩
    obtain ⟨F, rfl⟩ : ∃ F', F = F' + 1 := ⟨F - 1, by omega⟩
    show topLoopI P fs (F + 1) _ = _
    rw [topLoopI_go (by rw [e]; exact h1) rfl (by rw [e]; exact h2)]
    exact q F (by omega) F (by omega)
  induction h with
  | nil cur seen =>
    intro t t' p _ hg
    simp only [progGen, Option.some.injEq] at hg
    subst hg
    refine ⟨⟨p, (Gets.const _).succ fun F => ?_⟩, fun _ => ⟨p, 1, fun F hF G hG => ?_⟩⟩
    · unfold topLoopI
      exact if_pos (.inl rfl)
    · obtain ⟨F, rfl⟩ : ∃ F', F = F' + 1 := ⟨F - 1, by omega⟩
      obtain ⟨G, rfl⟩ : ∃ G', G = G' + 1 := ⟨G - 1, by omega⟩
      show CRes.bind (topDecsI P fs (F + 1) _) _ = _
      rw [topDecsI_stop P fs (by show TT.eof ≠ .at; decide)]
      show topRest P fs (G + 1) (iSt P t p [eofTok] seen cur) = _
      rw [show topRest P fs (G + 1) (iSt P t p [eofTok] seen cur) = topLoopI P fs (G + 1) (iSt P t p [eofTok] seen cur) from rfl]
      unfold topLoopI
      exact if_pos (.inl rfl)
  | @doc cur seen w ps items seen' h ih =>
    intro t t' p ht hg
    have hn := pieces_noerr h (P := P) hg
    obtain ⟨⟨p', q⟩, _⟩ := ih t t' (tDoc w) ht.2 hg
    refine ⟨⟨p', q.succ fun F => ?_⟩, fun hd => hd.elim⟩
    conv => lhs; unfold topLoopI
    simp only [List.flatMap_cons, Piece.toks, List.cons_append, List.nil_append, iSt]
    rw [if_neg (by simp), if_pos (by simp), topSt_adv (by rw [NoErr_append]; exact ⟨hn, by simp [eofTok]⟩)]
  | @dec cur seen x ps items seen' h ih =>
    intro t t' p ht hg
    simp only [progGen, bind_some, List.foldl_cons, List.foldl_nil, Decl.gen, Option.some.injEq, exists_eq_left'] at hg
    have hn : NoErr (ps.flatMap Piece.toks ++ [eofTok]) := by
      rw [NoErr_append]; exact ⟨pieces_noerr h (P := P) hg, by simp [eofTok]⟩
    obtain ⟨hd, ht'⟩ := tidy_notDoc ht
    obtain ⟨p1, q1⟩ := topDecsI_dec P fs x t p (ps.flatMap Piece.toks ++ [eofTok]) seen cur hn
    have hB : NotDoc (.dec x :: ps) → ∃ p', Gets2 (fun F G => (topDecsI P fs F (iSt P t p ((Piece.dec x :: ps).flatMap Piece.toks ++ [eofTok]) seen cur)).bind
        (topRest P fs G)) (iSt P t' p' [eofTok] seen' cur) := by
      intro _
      obtain ⟨p', n, q⟩ := (ih (x.gen t) t' p1 ht' hg).2 hd
      refine ⟨p', n + 2, fun F hF G hG => ?_⟩
      obtain ⟨F, rfl⟩ : ∃ F', F = F' + 2 := ⟨F - 2, by omega⟩
      simp only [List.flatMap_cons, Piece.toks, List.append_assoc]
      rw [q1]
      exact q (F + 1) (by omega) G (by omega)
    refine ⟨?_, hB⟩
    exact lift (a := tAt) (ts := x.toks.tail ++ (ps.flatMap Piece.toks ++ [eofTok]))
      (by cases x <;> simp [Piece.toks, TopDec.toks, called]) (by decide) (by decide) trivial hB
  | @decl cur seen d ps items seen' h ih =>
    intro t t' p ht hg
    simp only [progGen, bind_some, List.foldl_nil] at hg
    obtain ⟨t1, h1, h2⟩ := hg
    have hn : NoErr (ps.flatMap Piece.toks ++ [eofTok]) := by
      rw [NoErr_append]; exact ⟨pieces_noerr h (P := P) h2, by simp [eofTok]⟩
    obtain ⟨a, ts, hd, ha⟩ := decl_head d
    obtain ⟨p1, n1, q1⟩ := decl_step P.dbl P.fl d t t1 p (ps.flatMap Piece.toks ++ [eofTok]) h1 (by rw [NoErr_append]; exact ⟨decl_noerr h1, hn⟩)
    obtain ⟨⟨p2, n2, q2⟩, _⟩ := ih t1 t' p1 ht h2
    have e : (Piece.decl d :: ps).flatMap Piece.toks ++ [eofTok] = d.toks ++ (ps.flatMap Piece.toks ++ [eofTok]) := by simp [Piece.toks]
    have hB : NotDoc (.decl d :: ps) → ∃ p', Gets2 (fun F G => (topDecsI P fs F (iSt P t p ((Piece.decl d :: ps).flatMap Piece.toks ++ [eofTok]) seen cur)).bind
        (topRest P fs G)) (iSt P t' p' [eofTok] seen' cur) := by
      intro _
      refine ⟨p2, max n1 n2 + 1, fun F hF G hG => ?_⟩
      obtain ⟨F, rfl⟩ : ∃ F', F = F' + 1 := ⟨F - 1, by omega⟩
      rw [e]
      show CRes.bind (topDecsI P fs (F + 1) _) _ = _
      rw [topDecsI_stop P fs (by
        rw [hd]
        intro hh
        rw [show a.type = .at from hh] at ha
        revert ha
        decide)]
      show topRest P fs G _ = _
      exact (congrArg (fun r : CRes CSt => r.bind fun c => topLoopI P fs G ⟨c, seen, cur⟩) (q1 G (by omega))).trans (q2 G (by omega))
    refine ⟨?_, hB⟩
    refine lift (a := a) (ts := ts ++ (ps.flatMap Piece.toks ++ [eofTok])) (by rw [e, hd]; rfl) ?_ ?_ trivial hB
    · intro hh; rw [hh] at ha; revert ha; decide
    · intro hh; rw [hh] at ha; revert ha; decide
  | @again cur seen rel full ps items seen' hl hr hs h ih =>
    intro t t' p ht hg
    have hn : NoErr (ps.flatMap Piece.toks ++ [eofTok]) := by
      rw [NoErr_append]; exact ⟨pieces_noerr h (P := P) hg, by simp [eofTok]⟩
    obtain ⟨hd, ht'⟩ := tidy_notDoc ht
    have hB : NotDoc (.imp rel :: ps) → ∃ p', Gets2 (fun F G => (topDecsI P fs F (iSt P t p ((Piece.imp rel :: ps).flatMap Piece.toks ++ [eofTok]) seen cur)).bind
        (topRest P fs G)) (iSt P t' p' [eofTok] seen' cur) := by
      intro _
      obtain ⟨p', n, q⟩ := (ih t t' tRp ht' hg).2 hd
      refine ⟨p', n + 3, fun F hF G hG => ?_⟩
      obtain ⟨F, rfl⟩ : ∃ F', F = F' + 3 := ⟨F - 3, by omega⟩
      simp only [List.flatMap_cons, List.append_assoc]
      rw [topDecsI_imp P fs t p rel _ seen cur hn]
      conv => lhs; unfold parseImport
      simp only [iSt, importHead_step P t _ rel _ hn]
      rw [if_neg (by omega), ← refers_iff.1 hr, if_pos hs]
      exact q (F + 2) (by omega) G (by omega)
    refine ⟨?_, hB⟩
    exact lift (a := tAt) (ts := (Piece.toks (.imp rel)).tail ++ (ps.flatMap Piece.toks ++ [eofTok])) (by simp [Piece.toks, called]) (by decide) (by decide) trivial hB
  | @file cur seen rel full src qs inner mid ps items seen' hl hr hs hf htx hq hi h ihi ih =>
    intro t t' p ht hg
    obtain ⟨t1, hg1, hg2⟩ := progGen_append _ _ _ _ hg
    have hn : NoErr (ps.flatMap Piece.toks ++ [eofTok]) := by
      rw [NoErr_append]; exact ⟨pieces_noerr h (P := P) hg2, by simp [eofTok]⟩
    have hnq : NoErr (qs.flatMap Piece.toks ++ [eofTok]) := by
      rw [NoErr_append]; exact ⟨pieces_noerr hi (P := P) hg1, by simp [eofTok]⟩
    obtain ⟨hd, ht'⟩ := tidy_notDoc ht
    have hB : NotDoc (.imp rel :: ps) → ∃ p', Gets2 (fun F G => (topDecsI P fs F (iSt P t p ((Piece.imp rel :: ps).flatMap Piece.toks ++ [eofTok]) seen cur)).bind
        (topRest P fs G)) (iSt P t' p' [eofTok] seen' cur) := by
      intro _
      obtain ⟨p', n, q⟩ := (ih t1 t' tRp ht' hg2).2 hd
      obtain ⟨⟨p1, n1, q1⟩, _⟩ := ihi t t1 ((ps.flatMap Piece.toks ++ [eofTok]).headD eofTok) hq hg1
      refine ⟨p', max n n1 + 3, fun F hF G hG => ?_⟩
      obtain ⟨F, rfl⟩ : ∃ F', F = F' + 3 := ⟨F - 3, by omega⟩
      simp only [List.flatMap_cons, List.append_assoc]
      rw [topDecsI_imp P fs t p rel _ seen cur hn]
      conv => lhs; unfold parseImport
      simp only [iSt, importHead_step P t _ rel _ hn]
      rw [if_neg (by omega), ← refers_iff.1 hr, if_neg hs]
      simp only [hf, reads_toks htx]
      rw [enter_step P t tRp _ _ hnq]
      have h1 := q1 F (by omega)
      simp only [iSt] at h1
      rw [h1]
      have h2 := resume_step P t t1 tRp p1 (ps.flatMap Piece.toks ++ [eofTok]) [eofTok] (seen ++ [full]) mid cur full
      simp only [iSt] at h2
      simp only [CRes.bind, h2]
      exact q (F + 2) (by omega) G (by omega)
    refine ⟨?_, hB⟩
    exact lift (a := tAt) (ts := (Piece.toks (.imp rel)).tail ++ (ps.flatMap Piece.toks ++ [eofTok])) (by simp [Piece.toks, called]) (by decide) (by decide) trivial hB

/-! ### C76 -/

theorem finish_topSt (P : PEnv) (t : Top) (p : Tok) (ts : List Tok) (h : t.packets = 1) :
    finish (.ok ((topSt P.dbl P.fl t p ts).errIf ((topSt P.dbl P.fl t p ts).packets = 0))) =
      .image (writeImage (optimizeStrings t.tab t.code).1 (optimizeStrings t.tab t.code).2) := by
  have hp : (topSt P.dbl P.fl t p ts).packets = 1 := h
  rw [hp]
  rfl

theorem parseFiles_expand (P : PEnv) (fs : Files) {cur seen ps items seen'} (h : Expand fs cur seen ps items seen') (ht : DocsFirst false ps)
    {tab code} (hg : progCode P.dbl P.fl items = some (tab, code)) :
    ∃ n, ∀ f ≥ n, finish (parseFiles P fs f seen cur (ps.flatMap Piece.toks ++ [eofTok])) =
      .image (writeImage (optimizeStrings tab code).1 (optimizeStrings tab code).2) := by
  simp only [progCode, bind_some, req_eq, exists_const, Option.some.injEq, Prod.mk.injEq] at hg
  obtain ⟨t, h1, hp, rfl, rfl⟩ := hg
  have hn : NoErr (ps.flatMap Piece.toks ++ [eofTok]) := by
    rw [NoErr_append]; exact ⟨pieces_noerr h (P := P) h1, by simp [eofTok]⟩
  obtain ⟨⟨p', n, q⟩, _⟩ := expand_step P fs h {} t eofTok ht h1
  refine ⟨n, fun f hf => ?_⟩
  have e0 : parseStart (ps.flatMap Piece.toks ++ [eofTok]) = topSt P.dbl P.fl {} eofTok (eofTok :: (ps.flatMap Piece.toks ++ [eofTok])) := by
    rw [topSt_eq]
    rfl
  unfold parseFiles
  rw [e0, topSt_adv hn]
  have := q f hf
  simp only [iSt] at this
  rw [this]
  exact finish_topSt P t p' [eofTok] hp

/-- **C76.** A program of several files is translated to the image of the program with every import replaced by the imported
file's pieces, each file being taken once, where it is first imported; the main file counts as begun. -/
theorem C76_files (P : PEnv) (fs : Files) (path full src : List Byte) (ps : List Piece) (items : List Item) (seen' tab : List (List Byte))
    (code : List Byte) (hc : fs.canon path = full) (hf : fs.read full = some src) (hr : Reads src ps) (ht : DocsFirst false ps)
    (he : Expand fs full [full] ps items seen') (hg : progCode P.dbl P.fl items = some (tab, code)) :
    ∃ n, ∀ f ≥ n, compileFile P fs f path = .image (writeImage (optimizeStrings tab code).1 (optimizeStrings tab code).2) := by
  obtain ⟨n, q⟩ := parseFiles_expand P fs he ht hg
  refine ⟨n, fun f h => ?_⟩
  unfold compileFile
  simp only [hc, hf, reads_toks hr]
  exact q f h

/-- **C76.** The same image is that of one file with all the declarations written out. -/
theorem C76_one_file (P : PEnv) (fs : Files) (path full src : List Byte) (ps : List Piece) (items : List Item) (seen' tab : List (List Byte))
    (code : List Byte) (hc : fs.canon path = full) (hf : fs.read full = some src) (hr : Reads src ps) (ht : DocsFirst false ps)
    (he : Expand fs full [full] ps items seen') (hg : progCode P.dbl P.fl items = some (tab, code))
    (one : List Byte) (toks : List Tok) (hl : Lexes (upToNul one) 1 toks) (h1 : toks.map Tok.bare = items.flatMap Item.toks ++ [eofTok]) :
    ∃ n, ∀ f ≥ n, compileFile P fs f path = compile P f one := by
  obtain ⟨n, q⟩ := C76_files P fs path full src ps items seen' tab code hc hf hr ht he hg
  refine ⟨max n (16 * one.length + 18), fun f h => ?_⟩
  rw [q f (by omega), C59_source P items tab code hg one toks hl h1 f (by omega)]

/-- Decorators in front of an empty declaration are as good as in front of the next one. -/
theorem C76_attach (dbl : List Byte → Word) (fl : FloatOps) (ds es : List TopDec) (d : Decl) (rest : List Item) (t : Top) :
    progGen dbl fl (.decl ds .empty :: .decl es d :: rest) t = progGen dbl fl (.decl (ds ++ es) d :: rest) t := by
  simp [progGen, Decl.gen]

end Cnd
