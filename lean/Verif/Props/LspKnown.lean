import Verif.Props.LspSymbols
import Verif.Props.Import
/-
  C95: what the registries hold behind a file.
-/

namespace Cnd

/-! ### Documentation comments -/

/-- The buffer behind comments. -/
def bufOf (docs : List (List Byte)) : List Byte := docs.foldl docMore []

theorem fold_more (docs : List (List Byte)) (buf : List Byte) (h : buf ≠ []) :
    docs.foldl docMore buf = buf ++ (docs.map (0x0A :: ·)).flatten := by
  induction docs generalizing buf with
  | nil => simp
  | cons d ds ih =>
    have hp : buf.length > 0 := List.length_pos_iff.mpr h
    have e : docMore buf d = buf ++ 0x0A :: d := by
      unfold docMore
      rw [if_pos hp, List.append_assoc]
      rfl
    show ds.foldl docMore (docMore buf d) = _
    rw [e, ih _ (by simp)]
    simp

theorem docStr_docs (docs : List (List Byte)) : docStr (bufOf docs) = docText docs := by
  unfold docText bufOf
  induction docs with
  | nil => rfl
  | cons d ds ih =>
    by_cases hd : d = []
    · subst hd
      exact ih
    · have e : docMore [] d = d := rfl
      rw [List.dropWhile_cons_of_neg (by simpa using hd)]
      show docStr (ds.foldl docMore (docMore [] d)) = _
      rw [e, fold_more _ _ hd]
      unfold docStr
      rw [if_pos (by rw [List.length_append]; have := List.length_pos_iff.mpr hd; omega)]

theorem bufOf_more (docs : List (List Byte)) (t : List Byte) : bufOf (docs ++ [t]) = docMore (bufOf docs) t := by
  unfold bufOf
  rw [List.foldl_append]
  rfl

/-! ### Tokens of a file -/

theorem scan_bare (q : Reader) (toks : List Tok) : scan q (toks.map Tok.bare) = scan q toks := by
  induction toks generalizing q with
  | nil => rfl
  | cons t ts ih =>
    have h1 : declAt q t.bare (ts.map Tok.bare).length = declAt q t ts.length := by
      rw [List.length_map]; rfl
    have h2 : readTok q t.bare = readTok q t := rfl
    show declAt q t.bare (ts.map Tok.bare).length ++ scan (readTok q t.bare) (ts.map Tok.bare) = _
    rw [h1, h2, ih]
    rfl

theorem lexAll_ends (f : Nat) (cur : List Byte) (line : Nat) (toks : List Tok) (h : lexAll f cur line = some toks) :
    toks ≠ [] ∧ Ends95 (toks.map Tok.bare) := by
  induction f generalizing cur line toks with
  | zero => exact absurd h (by simp [lexAll])
  | succ f ih =>
    unfold lexAll at h
    split at h
    · split at h
      · cases h
        exact ⟨by simp, fun _ => rfl, trivial⟩
      · rename_i he
        obtain ⟨ts, h1, rfl⟩ := Option.map_eq_some_iff.mp h
        exact ⟨by simp, fun e => absurd e he, (ih _ _ _ h1).2⟩
    · exact absurd h (by simp)

theorem scan_at_eof (q : Reader) (t : Tok) (ts : List Tok) (ht : t.type = .eof) (hE : Ends95 (t :: ts)) : scan q (t :: ts) = [] := by
  rw [hE.1 ht]
  unfold scan declAt
  split
  · rw [if_neg (by rw [ht]; decide)]
    rfl
  · rfl

/-! ### What is known -/

/-- The tokens of a file that can be read. -/
def fileText (fs : Files) (p : List Byte) (toks : List Tok) : Prop := ∃ src, fs.read p = some src ∧ lexAll (src.length + 1) (src ++ [0]) 1 = some toks

/-- The path of an import decorator that begins here. -/
def importHere : List Tok → List (List Byte)
  | a :: b :: c :: d :: e :: _ =>
    if a.type = .at ∧ b.type = .identifier ∧ b.text = s_import ∧ c.type = .lparen ∧ d.type = .string ∧ e.type = .rparen then [d.text] else []
  | _ => []

/-- The paths of the import decorators of a file. -/
def importsIn : List Tok → List (List Byte)
  | [] => []
  | t :: ts => importHere (t :: ts) ++ importsIn ts

/-- The files that a file with the given path and tokens imports, directly or through others. -/
inductive Reached (fs : Files) : List Byte → List Tok → List Byte → Prop
  | direct {cur toks rel p} (h : rel ∈ importsIn toks) (hr : Refers fs cur rel p) : Reached fs cur toks p
  | further {cur toks rel q toks' p} (h : rel ∈ importsIn toks) (hr : Refers fs cur rel q) (ht : fileText fs q toks') (hp : Reached fs q toks' p) :
      Reached fs cur toks p

/-- From `s` to `t` in a file with tokens `full` the entries `own` have been added, and those of files imported in between. -/
structure Grown95 (fs : Files) (full : List Tok) (s t : SSt) (own : List Found) : Prop where
  path : t.i.path = s.i.path
  reached : ∀ p ∈ t.i.imports, p ∉ s.i.imports → Reached fs s.i.path full p
  imports : ∀ p, p ∈ s.i.imports → p ∈ t.i.imports
  reg : ∃ new, t.reg = s.reg ++ new ∧ own.Sublist new ∧
    (∀ e ∈ new, e ∈ own ∨ (e.file ∈ t.i.imports ∧ e.file ∉ s.i.imports ∧ ∃ toks, fileText fs e.file toks ∧ e ∈ declared95 e.file toks)) ∧
    ∀ p ∈ t.i.imports, p ∉ s.i.imports → ∃ toks, fileText fs p toks ∧ (declared95 p toks).Sublist new

theorem Grown95.refl (fs : Files) (full : List Tok) (s : SSt) : Grown95 fs full s s [] :=
  ⟨rfl, fun p h h' => absurd h h', fun _ h => h, [], by simp, .slnil, fun _ h => absurd h (by simp), fun p h h' => absurd h h'⟩

theorem Grown95.trans {fs : Files} {full : List Tok} {s t u : SSt} {o1 o2 : List Found} (h : Grown95 fs full s t o1) (g : Grown95 fs full t u o2) :
    Grown95 fs full s u (o1 ++ o2) := by
  obtain ⟨n1, e1, b1, c1, d1⟩ := h.reg
  obtain ⟨n2, e2, b2, c2, d2⟩ := g.reg
  refine ⟨g.path.trans h.path, fun p hp hn => ?_, fun p hp => g.imports p (h.imports p hp), n1 ++ n2, by rw [e2, e1, List.append_assoc], b1.append b2, ?_, ?_⟩
  · by_cases ht : p ∈ t.i.imports
    · exact h.reached p ht hn
    · have := g.reached p hp ht
      rw [h.path] at this
      exact this
  · intro e he
    rcases List.mem_append.mp he with he | he
    · rcases c1 e he with hc | ⟨x, y, z⟩
      · exact .inl (List.mem_append_left _ hc)
      · exact .inr ⟨g.imports _ x, y, z⟩
    · rcases c2 e he with hc | ⟨x, y, z⟩
      · exact .inl (List.mem_append_right _ hc)
      · exact .inr ⟨x, fun hy => y (h.imports _ hy), z⟩
  · intro p hp hn
    by_cases ht : p ∈ t.i.imports
    · obtain ⟨toks, a, b⟩ := d1 p ht hn
      exact ⟨toks, a, b.trans (List.sublist_append_left _ _)⟩
    · obtain ⟨toks, a, b⟩ := d2 p hp ht
      exact ⟨toks, a, b.trans (List.sublist_append_right _ _)⟩

/-- Nothing but the parser's state is different. -/
theorem grown_same {fs : Files} {full : List Tok} {s t : SSt} (h0 : t.i.path = s.i.path) (h1 : t.reg = s.reg) (h2 : t.i.imports = s.i.imports) :
    Grown95 fs full s t [] :=
  ⟨h0, fun p h h' => absurd h (by rw [h2]; exact h'), fun _ h => by rw [h2]; exact h, [], by rw [h1]; simp, .slnil, fun _ h => absurd h (by simp),
    fun p h h' => absurd h (by rw [h2]; exact h')⟩

theorem grown_left {fs : Files} {full : List Tok} {s s' t : SSt} {own : List Found} (h : Grown95 fs full s t own) (h0 : s.i.path = s'.i.path)
    (h1 : s.reg = s'.reg) (h2 : s.i.imports = s'.i.imports) : Grown95 fs full s' t own := by
  simpa using (grown_same (fs := fs) (full := full) h0 h1 h2).trans h

/-- The names of the registries are those of the parser's, and no two are the same. -/
structure Names (s : SSt) : Prop where
  structs : (s.reg.filter (·.sort = .struct)).map Found.name = s.i.c.structs.map (·.1)
  enums : (s.reg.filter (·.sort = .enum)).map Found.name = s.i.c.enums.map EnumD.name
  distinct : s.i.c.toPSt.errs = 0 → (s.reg.map Found.name).Nodup

theorem names_same {s t : SSt} (h : Names s) (h1 : t.reg = s.reg) (h2 : t.i.c.structs = s.i.c.structs) (h3 : t.i.c.enums = s.i.c.enums)
    (h4 : t.i.c.toPSt.errs = 0 → s.i.c.toPSt.errs = 0) : Names t :=
  ⟨by rw [h1, h2]; exact h.structs, by rw [h1, h3]; exact h.enums, fun e => by rw [h1]; exact h.distinct (h4 e)⟩

theorem seen_back {X Y : Reader → Prop} {a b : PSt} (h : Seen95 X Y a b) (e : b.errs = 0) : a.errs = 0 := by
  by_cases hb : a.errs = 0
  · exact hb
  · exact absurd e (h.1 hb)

theorem no_name {s : SSt} (h : Names s) (n : List Byte) (h1 : s.i.c.findStruct n = none) (h2 : s.i.c.findEnum n = none) : n ∉ s.reg.map Found.name := by
  intro hn
  obtain ⟨e, he, rfl⟩ := List.mem_map.mp hn
  cases hs : e.sort with
  | struct =>
    have : e.name ∈ s.i.c.structs.map (·.1) := by
      rw [← h.structs]
      exact List.mem_map_of_mem (List.mem_filter.mpr ⟨he, by simp [hs]⟩)
    obtain ⟨p, hp, hpe⟩ := List.mem_map.mp this
    exact absurd hpe.symm (by simpa using List.lookup_eq_none_iff.mp h1 p hp)
  | enum =>
    have : e.name ∈ s.i.c.enums.map EnumD.name := by
      rw [← h.enums]
      exact List.mem_map_of_mem (List.mem_filter.mpr ⟨he, by simp [hs]⟩)
    obtain ⟨p, hp, hpe⟩ := List.mem_map.mp this
    exact absurd hpe (by simpa using List.find?_eq_none.mp h2 p hp)

/-! ### The loop over a file -/

/-- Where a declaration can begin, with the comments `d` before. -/
def TopAt (d : List (List Byte)) (q : Reader) : Prop := q.docs = d ∧ (q.mode = .ready ∨ q.mode = .word ∨ q.mode = .deco)

theorem topAt_body {d : List (List Byte)} {q : Reader} (h : TopAt d q) : InBody q := by
  rcases h.2 with e | e | e
  · exact .inl e
  · exact .inr (.inl e)
  · exact .inr (.inr (.inl e))

theorem rel_word {X : Reader → Prop} {a s : CSt} {d : List (List Byte)} (h : Rel X (· = ⟨.at, d⟩) a s) : Rel X (· = ⟨.word, d⟩) a (s.eat .identifier) := by
  refine rel_eat .identifier h fun q t ht hq => ?_
  subst hq
  exact ⟨fun _ => rfl, if_pos ht⟩
theorem rel_open {X : Reader → Prop} {a s : CSt} {d : List (List Byte)} (h : Rel X (· = ⟨.word, d⟩) a s) : Rel X (· = ⟨.skip, d⟩) a (s.eat .lparen) := by
  refine rel_eat .lparen h fun q t ht hq => ?_
  subst hq
  exact ⟨fun _ => rfl, if_pos ht⟩
theorem rel_in {X : Reader → Prop} {a s : CSt} {d : List (List Byte)} {ty : TT} (h : Rel X (· = ⟨.skip, d⟩) a s) (h1 : ty ≠ .rparen) :
    Rel X (· = ⟨.skip, d⟩) a (s.eat ty) := by
  refine rel_eat ty h fun q t ht hq => ?_
  subst hq
  exact ⟨fun _ => rfl, if_neg (by rw [ht]; exact h1)⟩
theorem rel_shut {X : Reader → Prop} {a s : CSt} {d : List (List Byte)} (h : Rel X (· = ⟨.skip, d⟩) a s) : Rel X (TopAt d) a (s.eat .rparen) := by
  refine rel_eat .rparen h fun q t ht hq => ?_
  subst hq
  refine ⟨fun _ => rfl, ?_⟩
  have : readTok ⟨.skip, d⟩ t = ⟨.deco, d⟩ := if_pos ht
  rw [this]
  exact ⟨rfl, .inr (.inr rfl)⟩

theorem topDec_rel (d : List (List Byte)) (f : Nat) (s : CSt) : (topDec f s).Gives (Rel (· = ⟨.at, d⟩) (TopAt d) s) := by
  unfold topDec
  have h1 := rel_word (Rel.refl (· = ⟨.at, d⟩) s)
  have h2 : Rel (· = ⟨.at, d⟩) (TopAt d) s (s.eat .identifier) := h1.weaken (fun _ h => h) fun q h => by rw [h]; exact ⟨rfl, .inr (.inl rfl)⟩
  have h3 := rel_open h1
  refine Gives_ite (.ok (rel_shut (rel_put (rel_in h3 (by decide))))) ?_
  refine Gives_ite Gives_imports ?_
  refine Gives_ite (.ok (rel_put h2)) ?_
  refine Gives_ite (.ok (rel_put h2)) ?_
  refine Gives_ite (.ok (rel_same h2 rfl rfl rfl rfl rfl)) ?_
  refine Gives_ite ?_ (.ok h2)
  exact (skipToParen_rel d f _).bind fun a ha => .ok (rel_shut (h3.trans ha))

theorem importHead_rel (d : List (List Byte)) (s : CSt) : Rel (· = ⟨.word, d⟩) (TopAt d) s (importHead s).2 :=
  rel_shut (rel_in (rel_open (Rel.refl _ _)) (by decide))

/-- A part of a file without declarations, with what it imports. -/
structure Step (fs : Files) (X Y : Reader → Prop) (s t : SSt) : Prop where
  seen : Seen95 X Y s.i.c.toPSt t.i.c.toPSt
  path : t.i.path = s.i.path
  names : Names s → Names t
  grown : t.i.c.toPSt.errs = 0 → ∀ full : List Tok, Ends95 s.i.c.toPSt.rest → Tail95 (full.map Tok.bare) s.i.c.toPSt.rest → Grown95 fs full s t []

theorem Step.trans {fs : Files} {X Y Z : Reader → Prop} {s t u : SSt} (h : Step fs X Y s t) (g : Step fs Y Z t u) : Step fs X Z s u :=
  ⟨h.seen.trans g.seen, g.path.trans h.path, fun n => g.names (h.names n), fun e full hE hT =>
    have e1 := seen_back g.seen e
    have k := (h.seen.2 e1 hE).1
    (h.grown e1 full hE hT).trans (g.grown e full k.1 (hT.trans k.2))⟩

theorem step_of {fs : Files} {X Y : Reader → Prop} {s : SSt} {c : CSt} (h : Rel X Y s.i.c c) : Step fs X Y s { s with i := { s.i with c := c } } :=
  ⟨h.seen, rfl, fun n => names_same n rfl h.structs h.enums fun e => seen_back h.seen e, fun _ _ _ _ => grown_same rfl rfl rfl⟩

/-- An entry for a declaration. -/
def foundOf (file : List Byte) (full : List Tok) (d : Decl95) : Found := ⟨d.sort, d.name, file, lineOf full d.behind, docText d.docs⟩

/-- What the loop does with a file. -/
def LoopOk (P : PEnv) (fs : Files) (f : Nat) : Prop := ∀ (full : List Tok) (d : List (List Byte)) (s : SSt),
  (topLoopS P fs f full (bufOf d) s).Gives fun t =>
    (s.i.c.toPSt.errs ≠ 0 → t.i.c.toPSt.errs ≠ 0) ∧ t.i.path = s.i.path ∧ (Names s → Names t) ∧
    (t.i.c.toPSt.errs = 0 → Ends95 s.i.c.toPSt.rest → Tail95 (full.map Tok.bare) s.i.c.toPSt.rest →
      Grown95 fs full s t ((scan ⟨.ready, d⟩ s.i.c.toPSt.rest).map (foundOf s.i.path full)))

/-! ### Imports in a text -/

theorem here_bare (toks : List Tok) : importHere (toks.map Tok.bare) = importHere toks := by
  match toks with
  | [] => rfl
  | [_] => rfl
  | [_, _] => rfl
  | [_, _, _] => rfl
  | [_, _, _, _] => rfl
  | _ :: _ :: _ :: _ :: _ :: _ => rfl

theorem imports_bare (toks : List Tok) : importsIn (toks.map Tok.bare) = importsIn toks := by
  induction toks with
  | nil => rfl
  | cons t ts ih =>
    show importHere ((t :: ts).map Tok.bare) ++ importsIn (ts.map Tok.bare) = _
    rw [here_bare, ih]
    rfl

theorem imports_tail (pre l : List Tok) (rel : List Byte) (h : rel ∈ importsIn l) : rel ∈ importsIn (pre ++ l) := by
  induction pre with
  | nil => exact h
  | cons t ts ih => exact List.mem_append_right _ ih

/-- The next token behind one that was expected. -/
theorem consume_next (a : PSt) (ty : TT) (e : (a.consume ty).errs = 0) :
    a.cur.type = ty ∧ a.errs = 0 ∧ (a.rest = a.cur :: (a.consume ty).rest ∨ (a.rest = [a.cur] ∧ (a.consume ty).cur.type = .eof)) := by
  have h0 : a.errs = 0 := by
    by_cases hb : a.errs = 0
    · exact hb
    · unfold PSt.consume at e
      split at e
      · exact absurd e (advance_errs a hb)
      · exact absurd e (by simp [PSt.error])
  unfold PSt.consume at e ⊢
  split at e
  · rename_i hc
    rw [if_pos hc]
    refine ⟨hc, h0, ?_⟩
    have hl : (pull a.toks a.log).2.2 = [] := List.length_eq_zero_iff.mp e
    obtain ⟨-, h3⟩ := pull_clean _ _ hl
    rcases h3 with ⟨u, v, w⟩ | ⟨x, r, u, v, w⟩
    · refine .inr ⟨by show a.cur :: a.toks = _; rw [u], ?_⟩
      show (pull a.toks a.log).1.type = .eof
      rw [v]
      rfl
    · refine .inl ?_
      show a.cur :: a.toks = a.cur :: (pull a.toks a.log).1 :: (pull a.toks a.log).2.1
      rw [v, w, u]
  · exact absurd e (by simp [PSt.error])

/-- What stands in the file if an import has been read. -/
theorem import_text (c : CSt) (a : Tok) (ha : a.type = .at) (hw : c.cur.isWord s_import) (e : (importHead (c.eat .identifier)).2.toPSt.errs = 0)
    (full : List Tok) (hT : Tail95 (full.map Tok.bare) (a :: c.toPSt.rest)) : (importHead (c.eat .identifier)).1 ∈ importsIn full := by
  have hw' := hw
  simp only [Tok.isWord, decide_eq_true_eq] at hw'
  have e4 : (((((c.toPSt.consume .identifier).consume .lparen).consume .string).consume .rparen)).errs = 0 := e
  obtain ⟨t4, e3, n4⟩ := consume_next _ _ e4
  obtain ⟨t3, e2, n3⟩ := consume_next _ _ e3
  obtain ⟨t2, e1, n2⟩ := consume_next _ _ e2
  obtain ⟨t1, -, n1⟩ := consume_next _ _ e1
  have htext : (importHead (c.eat .identifier)).1 = ((c.toPSt.consume .identifier).consume .lparen).cur.text := rfl
  rw [htext]
  rcases n1 with n1 | ⟨-, x⟩
  · rcases n2 with n2 | ⟨-, x⟩
    · rcases n3 with n3 | ⟨-, x⟩
      · have hr : ∃ post, a :: c.toPSt.rest = a :: c.toPSt.cur :: (c.toPSt.consume .identifier).cur :: ((c.toPSt.consume .identifier).consume .lparen).cur ::
            (((c.toPSt.consume .identifier).consume .lparen).consume .string).cur :: post := by
          rw [n1, n2, n3]
          rcases n4 with n4 | ⟨n4, -⟩
          · exact ⟨_, by rw [n4]⟩
          · exact ⟨[], by rw [n4]⟩
        obtain ⟨post, hr⟩ := hr
        rw [hr] at hT
        rcases hT with ⟨pre, hp⟩ | hT
        · rw [← imports_bare, ← hp]
          refine imports_tail pre _ _ (List.mem_append_left _ ?_)
          unfold importHere
          dsimp only
          rw [if_pos ⟨ha, t1, hw'.2, t2, t3, t4⟩]
          simp
        · exact absurd hT.length_le (by simp)
      · rw [x] at t4; cases t4
    · rw [x] at t3; cases t3
  · rw [x] at t2; cases t2

theorem import_step {P : PEnv} {fs : Files} {f : Nat} (h : LoopOk P fs f) (d : List (List Byte)) (s : SSt) :
    (parseImportS P fs (f + 1) s).Gives fun t => Seen95 (· = ⟨.word, d⟩) (TopAt d) s.i.c.toPSt t.i.c.toPSt ∧ t.i.path = s.i.path ∧ (Names s → Names t) ∧
      (t.i.c.toPSt.errs = 0 → (importHead s.i.c).2.toPSt.errs = 0 ∧ ∀ full : List Tok, (importHead s.i.c).1 ∈ importsIn full → Grown95 fs full s t []) := by
  unfold parseImportS
  dsimp only
  have h1 := importHead_rel d s.i.c
  have st1 : Step fs (· = ⟨.word, d⟩) (TopAt d) s { s with i := { s.i with c := (importHead s.i.c).2 } } := step_of h1
  have he : ∀ c : CSt, c.err.toPSt.errs ≠ 0 := fun c => by show c.toPSt.error.errs ≠ 0; simp [PSt.error]
  have h2 := rel_errS h1
  refine Gives_ite (.ok ⟨h2.seen, rfl, fun n => names_same n rfl h2.structs h2.enums fun e => seen_back h2.seen e, fun e => absurd e (he _)⟩) ?_
  split
  · exact .ok ⟨st1.seen, rfl, st1.names, fun e => ⟨e, fun _ _ => grown_same rfl rfl rfl⟩⟩
  · rename_i hnot
    split
    · exact .ok ⟨h2.seen, rfl, fun n => names_same n rfl h2.structs h2.enums fun e => seen_back h2.seen e, fun e => absurd e (he _)⟩
    · rename_i src hread
      split
      · exact Gives_ub
      · rename_i toks hlex
        obtain ⟨hne, hends⟩ := lexAll_ends _ _ _ _ hlex
        generalize hfull : fs.canon (resolvePath s.i.path (importHead s.i.c).1) = full at hnot hread ⊢
        clear st1 h2
        have hrel : ∀ full' : List Tok, (importHead s.i.c).1 ∈ importsIn full' → Reached fs s.i.path full' full :=
          fun full' hm => .direct hm (refers_iff.mpr hfull.symm)
        have hrel2 : ∀ (full' : List Tok) (p : List Byte), (importHead s.i.c).1 ∈ importsIn full' → Reached fs full toks p → Reached fs s.i.path full' p :=
          fun full' p hm hp => .further hm (refers_iff.mpr hfull.symm) ⟨src, hread, hlex⟩ hp
        generalize hc1 : (importHead s.i.c).2 = c1 at h1 ⊢
        refine (h toks [] _).bind fun t ht => .ok ?_
        obtain ⟨m, hp, hn, hg⟩ := ht
        have adv0 : c1.toPSt.errs ≠ 0 → ({ c1 with toks := toks.map Tok.bare } : CSt).adv.toPSt.errs ≠ 0 :=
          fun e => advance_errs ({ c1 with toks := toks.map Tok.bare } : CSt).toPSt e
        have m1 : c1.toPSt.errs ≠ 0 → t.i.c.toPSt.errs ≠ 0 := fun e => m (adv0 e)
        have back : t.i.c.toPSt.errs = 0 → c1.toPSt.errs = 0 := by
          intro e
          by_cases hb : c1.toPSt.errs = 0
          · exact hb
          · exact absurd e (m1 hb)
        refine ⟨⟨fun e => m1 (h1.seen.1 e), fun e hE => h1.seen.2 (back e) hE⟩, rfl, fun n => ?_, fun e => ?_⟩
        · have n1 := hn (names_same n rfl h1.structs h1.enums fun e => seen_back h1.seen (by
            by_cases hb : c1.toPSt.errs = 0
            · exact hb
            · exact absurd e (adv0 hb)))
          exact ⟨n1.structs, n1.enums, n1.distinct⟩
        · refine ⟨back e, fun full' hm => ?_⟩
          have e2 : ({ c1 with toks := toks.map Tok.bare }.adv).toPSt.errs = 0 := by
            by_cases hb : ({ c1 with toks := toks.map Tok.bare }.adv).toPSt.errs = 0
            · exact hb
            · exact absurd e (m hb)
          have hrest : ({ c1 with toks := toks.map Tok.bare }.adv).toPSt.rest = toks.map Tok.bare := by
            have hl : (pull (toks.map Tok.bare) c1.log).2.2 = [] := List.length_eq_zero_iff.mp e2
            obtain ⟨-, h3⟩ := pull_clean _ _ hl
            show (pull (toks.map Tok.bare) c1.log).1 :: (pull (toks.map Tok.bare) c1.log).2.1 = _
            rcases h3 with ⟨u, -, -⟩ | ⟨x, r, u, v, w⟩
            · exact absurd (List.map_eq_nil_iff.mp u) hne
            · rw [v, w, u]
          have g := hg e (by rw [hrest]; exact hends) (by rw [hrest]; exact .refl _)
          rw [hrest, scan_bare] at g
          obtain ⟨new, r1, r2, r3, r4⟩ := g.reg
          have gi : ∀ p, p ∈ s.i.imports ++ [full] → p ∈ t.i.imports := g.imports
          have hft : fileText fs full toks := ⟨src, hread, hlex⟩
          have r2' : (declared95 full toks).Sublist new := r2
          refine ⟨rfl, fun p hp' hnp => ?_, fun p hp' => gi p (List.mem_append_left _ hp'), new, r1, List.nil_sublist _, fun e' he' => ?_, fun p hp' hnp => ?_⟩
          · by_cases hpf : p = full
            · rw [hpf]
              exact hrel full' hm
            · exact hrel2 full' p hm (g.reached p hp' (fun hm => by
                rcases List.mem_append.mp hm with hm | hm
                · exact hnp hm
                · exact hpf (by simpa using hm)))
          · rcases r3 e' he' with ho | ⟨x, y, z⟩
            · have hf : e'.file = full := by
                obtain ⟨dd, -, rfl⟩ := List.mem_map.mp ho
                rfl
              exact .inr ⟨gi _ (by rw [hf]; simp), by rw [hf]; exact hnot, toks, by rw [hf]; exact hft, by rw [hf]; exact ho⟩
            · exact .inr ⟨x, fun hy => y (List.mem_append_left _ hy), z⟩
          · by_cases hpf : p = full
            · rw [hpf]
              exact ⟨toks, hft, r2'⟩
            · exact r4 p hp' (fun hm => by
                rcases List.mem_append.mp hm with hm | hm
                · exact hnp hm
                · exact hpf (by simpa using hm))

/-- A decorator. -/
theorem topDecS_step {P : PEnv} {fs : Files} {f : Nat} (h : ∀ g, g < f → LoopOk P fs g) (d : List (List Byte)) (s : SSt) (hc : s.i.c.cur.type = .at) :
    (topDecS P fs f { s with i := { s.i with c := s.i.c.adv } }).Gives (Step fs (TopAt d) (TopAt d) s) := by
  have h1 : Rel (TopAt d) (· = ⟨.at, d⟩) s.i.c s.i.c.adv := by
    refine rel_adv (Rel.refl _ _) fun q hq => ⟨declAt_none (body_expr (topAt_body hq)) _, ?_⟩
    unfold readTok readPlain
    rw [hc]
    obtain ⟨hd, hm⟩ := hq
    rcases hm with e | e | e <;> simp [e, hd]
  cases f with
  | zero => exact Gives_stuck
  | succ f =>
    unfold topDecS
    split
    · rename_i hw
      cases f with
      | zero => exact Gives_stuck
      | succ f =>
        refine (import_step (h f (by omega)) d _).mono fun t ht => ?_
        obtain ⟨k1, k2, k3, k4⟩ := ht
        have h2 : Rel (TopAt d) (· = ⟨.word, d⟩) s.i.c (s.i.c.adv.eat .identifier) := rel_word h1
        have st := step_of (fs := fs) (s := s) h2
        refine ⟨h2.seen.trans k1, k2, fun n => k3 (st.names n), fun e full hE hT => ?_⟩
        obtain ⟨e5, k5⟩ := k4 e
        have ea : s.i.c.adv.toPSt.errs = 0 := seen_back (rel_word (Rel.refl (· = ⟨.at, d⟩) s.i.c.adv)).seen (seen_back k1 e)
        refine grown_left (k5 full ?_) rfl rfl rfl
        have hr : Tail95 (full.map Tok.bare) (s.i.c.cur :: s.i.c.adv.toPSt.rest) := by
          have hl : (pull s.i.c.toks s.i.c.log).2.2 = [] := List.length_eq_zero_iff.mp ea
          obtain ⟨-, h3⟩ := pull_clean _ _ hl
          have er : s.i.c.adv.toPSt.rest = (pull s.i.c.toks s.i.c.log).1 :: (pull s.i.c.toks s.i.c.log).2.1 := rfl
          rcases h3 with ⟨u, v, w⟩ | ⟨x, r, u, v, w⟩
          · have : s.i.c.adv.cur = eofTok := v
            exact absurd (word_type hw) (by show s.i.c.adv.cur.type ≠ _; rw [this]; decide)
          · rw [er, v, w, ← u]
            exact hT
        exact import_text s.i.c.adv _ hc hw e5 full hr
    · exact (topDec_rel d f s.i.c.adv).bind fun c hc => .ok (step_of (h1.trans hc))

theorem topDecsS_step {P : PEnv} {fs : Files} {f : Nat} (h : ∀ g, g < f → LoopOk P fs g) (d : List (List Byte)) (s : SSt) :
    (topDecsS P fs f s).Gives (Step fs (TopAt d) (TopAt d) s) := by
  induction f generalizing s with
  | zero => exact Gives_stuck
  | succ f ih =>
    unfold topDecsS
    split
    · rename_i hc
      refine (topDecS_step (fun g hg => h g (by omega)) d s hc).bind fun t ht => ?_
      exact (ih (fun g hg => h g (by omega)) t).mono fun u hu => ht.trans hu
    · exact .ok (step_of (Rel.refl _ _))

/-- Behind a keyword. -/
theorem rel_keyword {d : List (List Byte)} {k : Sort95} {s : CSt} (hk : s.cur.type = match k with | .struct => .kwStruct | .enum => .kwEnum) :
    Rel (TopAt d) (· = ⟨.kw k, d⟩) s s.adv := by
  refine rel_adv (Rel.refl _ _) fun q hq => ⟨declAt_none (body_expr (topAt_body hq)) _, ?_⟩
  unfold readTok readPlain
  rw [hk]
  obtain ⟨hd, hm⟩ := hq
  cases k <;> (rcases hm with e | e | e <;> simp [e, hd])

/-- A declaration: it is entered, and nothing else. -/
theorem decl_grown {fs : Files} {k : Sort95} {d : List (List Byte)} {full : List Tok} {s : SSt} {c : CSt} {own : List Found} {t : SSt}
    (hc : Declares k s.i.c.adv c) (h : Grown95 fs full { register full (bufOf d) k s.i.c.adv s with i := { s.i with c := c } } t own) :
    Grown95 fs full s t (foundOf s.i.path full ⟨k, s.i.c.adv.cur.text, s.i.c.adv.toks.length, d⟩ :: own) := by
  have g : Grown95 fs full s { register full (bufOf d) k s.i.c.adv s with i := { s.i with c := c } } [foundOf s.i.path full ⟨k, s.i.c.adv.cur.text, s.i.c.adv.toks.length, d⟩] := by
    refine ⟨rfl, fun p hp hn => absurd hp hn, fun p hp => hp, [foundOf s.i.path full ⟨k, s.i.c.adv.cur.text, s.i.c.adv.toks.length, d⟩], ?_, List.Sublist.refl _, fun e he => .inl he, fun p hp hn => absurd hp hn⟩
    unfold register foundOf
    dsimp only
    rw [docStr_docs]
  exact g.trans h

theorem loop_ok (P : PEnv) (fs : Files) (f : Nat) : LoopOk P fs f := by
  induction f using Nat.strongRecOn with
  | ind f ih =>
    intro full d s
    cases f with
    | zero => exact Gives_stuck
    | succ f =>
      unfold topLoopS
      split
      · rename_i hstop
        refine .ok ⟨id, rfl, id, fun e hE _ => ?_⟩
        have hs : scan ⟨.ready, d⟩ s.i.c.toPSt.rest = [] := by
          rcases hstop with h | h
          · exact scan_at_eof _ _ _ h hE
          · exact absurd e (by simpa [CSt.bad] using h)
        rw [hs]
        exact Grown95.refl fs full s
      · split
        · rename_i hdoc
          rw [← bufOf_more]
          refine (ih f (by omega) full (d ++ [s.i.c.cur.text]) _).mono fun t ht => ?_
          obtain ⟨m, hp, hn, hg⟩ := ht
          have h1 : Rel (· = ⟨.ready, d⟩) (· = ⟨.ready, d ++ [s.i.c.cur.text]⟩) s.i.c s.i.c.adv := by
            refine rel_adv (Rel.refl _ _) fun q hq => ?_
            subst hq
            refine ⟨fun _ => rfl, ?_⟩
            unfold readTok readPlain
            rw [hdoc]
          have st := step_of (fs := fs) h1
          refine ⟨fun e => m (h1.seen.1 e), hp, fun n => hn (st.names n), fun e hE hT => ?_⟩
          have e1 : s.i.c.adv.toPSt.errs = 0 := by
            by_cases hb : s.i.c.adv.toPSt.errs = 0
            · exact hb
            · exact absurd e (m hb)
          obtain ⟨E1, s1⟩ := h1.seen.2 e1 hE
          obtain ⟨q', hq', e3⟩ := s1 _ rfl
          rw [e3, hq']
          exact grown_left (hg e E1.1 (hT.trans E1.2)) rfl rfl rfl
        · refine (topDecsS_step (P := P) (fs := fs) (f := f) (fun g hg => ih g (by omega)) d s).bind fun s1 st => ?_
          -- everything behind the decorators
          have fin : ∀ (dec : List Decl95) (d' : List (List Byte)) (u : SSt), (s1.i.c.toPSt.errs ≠ 0 → u.i.c.toPSt.errs ≠ 0) → u.i.path = s1.i.path →
              (Names s1 → Names u) →
              (u.i.c.toPSt.errs = 0 → Ends95 s1.i.c.toPSt.rest → (Ends95 u.i.c.toPSt.rest ∧ Tail95 s1.i.c.toPSt.rest u.i.c.toPSt.rest) ∧ (∀ q, TopAt d q →
                scan q s1.i.c.toPSt.rest = dec ++ scan ⟨.ready, d'⟩ u.i.c.toPSt.rest) ∧
                Grown95 fs full s1 u (dec.map (foundOf s1.i.path full))) →
              (topLoopS P fs f full (bufOf d') u).Gives fun t =>
                (s.i.c.toPSt.errs ≠ 0 → t.i.c.toPSt.errs ≠ 0) ∧ t.i.path = s.i.path ∧ (Names s → Names t) ∧
                (t.i.c.toPSt.errs = 0 → Ends95 s.i.c.toPSt.rest → Tail95 (full.map Tok.bare) s.i.c.toPSt.rest → Grown95 fs full s t ((scan ⟨.ready, d⟩ s.i.c.toPSt.rest).map (foundOf s.i.path full))) := by
            intro dec d' u h1 h2 h3 h4
            refine (ih f (by omega) full d' u).mono fun t ht => ?_
            obtain ⟨m, hp, hn, hg⟩ := ht
            refine ⟨fun e => m (h1 (st.seen.1 e)), hp.trans (h2.trans st.path), fun n => hn (h3 (st.names n)), fun e hE hT => ?_⟩
            have e1 : u.i.c.toPSt.errs = 0 := by
              by_cases hb : u.i.c.toPSt.errs = 0
              · exact hb
              · exact absurd e (m hb)
            have e2 : s1.i.c.toPSt.errs = 0 := by
              by_cases hb : s1.i.c.toPSt.errs = 0
              · exact hb
              · exact absurd e1 (h1 hb)
            obtain ⟨E1, k1⟩ := st.seen.2 e2 hE
            obtain ⟨q', hq', e3⟩ := k1 ⟨.ready, d⟩ ⟨rfl, .inl rfl⟩
            obtain ⟨E2, k2, g2⟩ := h4 e1 E1.1
            have g3 := hg e E2.1 ((hT.trans E1.2).trans E2.2)
            rw [h2, st.path] at g3
            rw [st.path] at g2
            rw [e3, k2 q' hq', List.map_append]
            have := (st.grown e2 full hE hT).trans (g2.trans g3)
            simpa using this
          have decl : ∀ (k : Sort95) (c : CSt), s1.i.c.cur.type = (match k with | .struct => .kwStruct | .enum => .kwEnum) → Declares k s1.i.c.adv c →
              (Names s1 → Names { register full (bufOf d) k s1.i.c.adv s1 with i := { s1.i with c := c } }) →
              (topLoopS P fs f full [] { register full (bufOf d) k s1.i.c.adv s1 with i := { s1.i with c := c } }).Gives fun t =>
                (s.i.c.toPSt.errs ≠ 0 → t.i.c.toPSt.errs ≠ 0) ∧ t.i.path = s.i.path ∧ (Names s → Names t) ∧
                (t.i.c.toPSt.errs = 0 → Ends95 s.i.c.toPSt.rest → Tail95 (full.map Tok.bare) s.i.c.toPSt.rest → Grown95 fs full s t ((scan ⟨.ready, d⟩ s.i.c.toPSt.rest).map (foundOf s.i.path full))) := by
            intro k c hk hc hn
            have hkw := rel_keyword (d := d) hk
            refine fin [⟨k, s1.i.c.adv.cur.text, s1.i.c.adv.toks.length, d⟩] [] _ (fun e => hc.mono (hkw.seen.1 e)) rfl hn fun e hE => ?_
            have e1 : s1.i.c.adv.toPSt.errs = 0 := by
              by_cases hb : s1.i.c.adv.toPSt.errs = 0
              · exact hb
              · exact absurd e (hc.mono hb)
            obtain ⟨E1, k1⟩ := hkw.seen.2 e1 hE
            obtain ⟨E2, k2⟩ := hc.scan e E1.1
            refine ⟨⟨E2.1, E1.2.trans E2.2⟩, fun q hq => ?_, decl_grown hc (Grown95.refl _ _ _)⟩
            obtain ⟨q', hq', e3⟩ := k1 q hq
            rw [e3, hq', k2 d]
            rfl
          have same : ∀ (c : CSt), Rel (TopAt d) Fresh95 s1.i.c c →
              (topLoopS P fs f full [] { s1 with i := { s1.i with c := c } }).Gives fun t =>
                (s.i.c.toPSt.errs ≠ 0 → t.i.c.toPSt.errs ≠ 0) ∧ t.i.path = s.i.path ∧ (Names s → Names t) ∧
                (t.i.c.toPSt.errs = 0 → Ends95 s.i.c.toPSt.rest → Tail95 (full.map Tok.bare) s.i.c.toPSt.rest → Grown95 fs full s t ((scan ⟨.ready, d⟩ s.i.c.toPSt.rest).map (foundOf s.i.path full))) := by
            intro c hc
            have st := step_of (fs := fs) hc
            refine fin [] [] _ hc.seen.1 rfl st.names fun e hE => ?_
            obtain ⟨E1, k1⟩ := hc.seen.2 e hE
            refine ⟨E1, fun q hq => ?_, grown_same rfl rfl rfl⟩
            obtain ⟨q', hq', e3⟩ := k1 q hq
            rw [e3, hq']
            rfl
          split
          · rename_i hk
            refine (parseStruct_rel P f s1.i.c.adv).bind fun c hc => decl .struct c hk hc.1 fun n => ?_
            obtain ⟨hd, he, hs⟩ := hc
            refine ⟨?_, ?_, fun e => ?_⟩
            · show ((s1.reg ++ [_]).filter _).map Found.name = c.structs.map (·.1)
              rw [hs, List.filter_append, List.map_append, n.structs]
              rfl
            · show ((s1.reg ++ [_]).filter _).map Found.name = c.enums.map EnumD.name
              rw [he, List.filter_append, List.map_append, n.enums]
              exact List.append_nil _
            · obtain ⟨f1, f2⟩ := hd.new e
              have e0 : s1.i.c.toPSt.errs = 0 := by
                by_cases hb : s1.i.c.toPSt.errs = 0
                · exact hb
                · exact absurd e (hd.mono (advance_errs _ hb))
              show ((s1.reg ++ [_]).map Found.name).Nodup
              rw [List.map_append, List.nodup_append]
              refine ⟨n.distinct e0, by simp, fun x hx y hy => ?_⟩
              intro hxy
              have hy' : y = s1.i.c.adv.cur.text := by simpa using hy
              exact no_name n _ f1 f2 (by rw [← hy', ← hxy]; exact hx)
          · rename_i hk
            refine (parseEnum_rel f s1.i.c.adv).bind fun c hc => decl .enum c hk hc.1 fun n => ?_
            obtain ⟨hd, hs, he⟩ := hc
            refine ⟨?_, ?_, fun e => ?_⟩
            · show ((s1.reg ++ [_]).filter _).map Found.name = c.structs.map (·.1)
              rw [hs, List.filter_append, List.map_append, n.structs]
              exact List.append_nil _
            · show ((s1.reg ++ [_]).filter _).map Found.name = c.enums.map EnumD.name
              rw [he, List.filter_append, List.map_append, n.enums]
              rfl
            · obtain ⟨f1, f2⟩ := hd.new e
              have e0 : s1.i.c.toPSt.errs = 0 := by
                by_cases hb : s1.i.c.toPSt.errs = 0
                · exact hb
                · exact absurd e (hd.mono (advance_errs _ hb))
              show ((s1.reg ++ [_]).map Found.name).Nodup
              rw [List.map_append, List.nodup_append]
              refine ⟨n.distinct e0, by simp, fun x hx y hy => ?_⟩
              intro hxy
              have hy' : y = s1.i.c.adv.cur.text := by simpa using hy
              exact no_name n _ f1 f2 (by rw [← hy', ← hxy]; exact hx)
          · rename_i hk
            dsimp only
            refine (parsePacket_rel P f _).bind fun c hc => same c (Rel.trans ?_ hc)
            have hcur : (s1.i.c.errIf (s1.i.c.packets > 0)).cur.type = .kwPacket := by
              unfold CSt.errIf
              split <;> exact hk
            have h1 : Rel (TopAt d) InBody s1.i.c (s1.i.c.errIf (s1.i.c.packets > 0)).adv :=
              relB_advT (rel_errIf ((Rel.refl (TopAt d) _).weaken (fun _ h => h) fun _ h => topAt_body h)) hcur rfl
            exact rel_same h1 rfl rfl rfl rfl rfl
          · rename_i hk
            refine same s1.i.c.adv (rel_adv (Rel.refl _ _) fun q hq => ⟨declAt_none (body_expr (topAt_body hq)) _, ?_⟩)
            unfold readTok readPlain Fresh95
            rw [hk]
            obtain ⟨hd, hm⟩ := hq
            rcases hm with e | e | e <;> simp [e]
          · rename_i hk
            refine fin [] d s1 id rfl id fun e hE => ⟨⟨hE, .refl _⟩, fun q hq => ?_, Grown95.refl _ _ _⟩
            rw [scan_at_eof q _ _ hk hE, scan_at_eof _ _ _ hk hE]
            rfl
          · exact same s1.i.c.err (rel_err (Rel.refl _ _))

/-! ### The parser with the registries is the parser -/

/-- An outcome without the registries. -/
def CRes.plain : CRes SSt → CRes ISt
  | .ok s => .ok s.i
  | .ub => .ub
  | .imports => .imports
  | .stuck => .stuck

theorem plain_bind {r : CRes SSt} {q : CRes ISt} {F : SSt → CRes SSt} {G : ISt → CRes ISt} (h : r.plain = q) (g : ∀ s, (F s).plain = G s.i) :
    (r.bind F).plain = q.bind G := by
  subst h
  cases r with
  | ok s => exact g s
  | ub => rfl
  | imports => rfl
  | stuck => rfl

theorem plain_bindC {r : CRes CSt} {F : CSt → CRes SSt} {G : CSt → CRes ISt} (g : ∀ c, (F c).plain = G c) : (r.bind F).plain = r.bind G := by
  cases r with
  | ok s => exact g s
  | ub => rfl
  | imports => rfl
  | stuck => rfl

structure Erased (P : PEnv) (fs : Files) (f : Nat) : Prop where
  imp : ∀ s, (parseImportS P fs f s).plain = parseImport P fs f s.i
  dec : ∀ s, (topDecS P fs f s).plain = topDecI P fs f s.i
  decs : ∀ s, (topDecsS P fs f s).plain = topDecsI P fs f s.i
  loop : ∀ full buf s, (topLoopS P fs f full buf s).plain = topLoopI P fs f s.i

theorem erased (P : PEnv) (fs : Files) (f : Nat) : Erased P fs f := by
  induction f with
  | zero => constructor <;> (intros; rfl)
  | succ f ih =>
    refine ⟨fun s => ?_, fun s => ?_, fun s => ?_, fun full buf s => ?_⟩
    · unfold parseImportS parseImport
      dsimp only
      split
      · rfl
      · split
        · rfl
        · cases hr : fs.read (fs.canon (resolvePath s.i.path (importHead s.i.c).1)) with
          | none => rfl
          | some src =>
            dsimp only
            unfold fileToks
            cases hl : lexAll (src.length + 1) (src ++ [0]) 1 with
            | none => rfl
            | some toks => exact plain_bind (ih.loop _ _ _) fun t => rfl
    · unfold topDecS topDecI
      split
      · exact ih.imp _
      · exact plain_bindC fun c => rfl
    · unfold topDecsS topDecsI
      split
      · exact plain_bind (ih.dec _) fun t => ih.decs t
      · rfl
    · unfold topLoopS topLoopI
      split
      · rfl
      · split
        · exact ih.loop _ _ _
        · refine plain_bind (ih.decs s) fun s => ?_
          dsimp only
          cases s.i.c.cur.type
          case kwStruct => exact plain_bindC fun c => ih.loop _ _ _
          case kwEnum => exact plain_bindC fun c => ih.loop _ _ _
          case kwPacket => exact plain_bindC fun c => ih.loop _ _ _
          all_goals exact ih.loop _ _ _

end Cnd
