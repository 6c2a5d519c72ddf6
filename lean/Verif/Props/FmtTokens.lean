/-
  C89: formatting a program does not change what it is compiled to.
-/
import Verif.Props.Fmt
import Verif.Props.LexUnique
import Verif.Props.ParseTerm
import Verif.Import
import Verif.Source

namespace Cnd

/-! ### Specification -/

/-- White space, line comments, and block comments without quotation marks and double slashes, in front of `s`. -/
inductive PlainTrivia : List Byte → List Byte → Prop
  | nil {s} : PlainTrivia [] s
  | ws {c t s} : Blank c → PlainTrivia t s → PlainTrivia (c :: t) s
  | line {body t s} : 0x0A ∉ body → ¬ NextIs (· = 0x2F) (body ++ (t ++ s)) → (t ++ s = [] ∨ NextIs (· = 0x0A) (t ++ s)) →
      PlainTrivia t s → PlainTrivia (0x2F :: 0x2F :: (body ++ t)) s
  | block {body t s} : (∀ a b, body ++ [0x2A] ≠ a ++ 0x2A :: 0x2F :: b) → 0x22 ∉ body → (∀ a b, body ≠ a ++ 0x2F :: 0x2F :: b) →
      ¬ NextIs (· = 0x2F) (t ++ s) → PlainTrivia t s → PlainTrivia (0x2F :: 0x2A :: (body ++ 0x2A :: 0x2F :: t)) s

/-- A text with these tokens whose block comments have no quotation marks and double slashes, whose strings are closed, and whose documentation comments end at
the end of the text or at a line feed, with or without a carriage return in front of it. -/
inductive PlainText : List Byte → List (TT × List Byte) → Prop
  | eof {t} : PlainTrivia t [] → PlainText t []
  | tok {t raw s ty text toks} : PlainTrivia t (raw ++ s) → IsTok raw s ty text →
      (ty = .string → raw = 0x22 :: (text ++ [0x22])) →
      (ty = .doc → s = [] ∨ NextIs (· = 0x0A) s ∨ ∃ u, s = 0x0D :: 0x0A :: u) →
      PlainText s toks → PlainText (t ++ (raw ++ s)) ((ty, text) :: toks)

/-! ### The same text with other white space -/

/-- The characters the formatter puts white space next to. -/
def Brk (c : Byte) : Prop := c = 0x7B ∨ c = 0x7D ∨ c = 0x3B ∨ c = 0x2C
instance (c : Byte) : Decidable (Brk c) := by unfold Brk; infer_instance

/-- What is in front of a piece of text: nothing, something behind which white space may be put, or something else. -/
inductive FMode
  | start | free | tight
  deriving DecidableEq

def FMode.after (c : Byte) : FMode := if Brk c then .free else .tight

/-- White space `g` may become white space `g'`. -/
def GapOk (m : FMode) (b : Prop) (g g' : List Byte) : Prop :=
  (∀ c ∈ g, Blank c) ∧ (∀ c ∈ g', Blank c) ∧ (m = .start ∨ ((g' = [] → g = []) ∧ (m = .free ∨ b ∨ (g = [] → g' = []))))

/-- The second text is the first one with other white space between the characters, strings and comments. -/
inductive Spaced : FMode → List Byte → List Byte → Prop
  | stop {m g g'} : (∀ c ∈ g, Blank c) → (∀ c ∈ g', Blank c) → Spaced m g g'
  | char {m g g' c s s'} : GapOk m (Brk c) g g' → ¬ Blank c → c ≠ 0x22 → ¬ (c = 0x2F ∧ NextIs (· = 0x2F) s) →
      Spaced (.after c) s s' → Spaced m (g ++ c :: s) (g' ++ c :: s')
  | str {m g g' body s s'} : GapOk m False g g' → 0x22 ∉ body → Spaced .tight s s' →
      Spaced m (g ++ 0x22 :: (body ++ 0x22 :: s)) (g' ++ 0x22 :: (body ++ 0x22 :: s'))
  | openStr {m g g' body s'} : GapOk m False g g' → 0x22 ∉ body → Spaced m (g ++ 0x22 :: body) (g' ++ 0x22 :: (body ++ s'))
  | comment {m g g' body s s'} : GapOk m False g g' → 0x0A ∉ body → (s = [] ∨ NextIs (· = 0x0A) s) → NextIs (· = 0x0A) s' →
      Spaced .free s s' → Spaced m (g ++ 0x2F :: 0x2F :: (body ++ s)) (g' ++ 0x2F :: 0x2F :: (body ++ s'))

/-! ### The formatter spaces its text -/

/-- Characters that go on a token of the formatter. -/
def PlainChar (c : Byte) : Prop := ¬ Blank c ∧ c ≠ 0x22 ∧ c ≠ 0x2F ∧ ¬ Brk c
instance (c : Byte) : Decidable (PlainChar c) := by unfold PlainChar; infer_instance

/-- Types of tokens behind or in front of which there is white space. -/
def FT.brk (ty : FT) : Prop := ty = .lbrace ∨ ty = .rbrace ∨ ty = .semicolon ∨ ty = .comma

/-- What fmt_next finds: text `raw`, followed by `r`. -/
inductive FmtTok : FT → List Byte → List Byte → Prop
  | white {ty c raw r} : ty = .whitespace ∨ ty = .newline → (∀ d ∈ c :: raw, Blank d) → FmtTok ty (c :: raw) r
  | str {body r} : 0x22 ∉ body → FmtTok .string (0x22 :: (body ++ [0x22])) r
  | openStr {body} : 0x22 ∉ body → FmtTok .string (0x22 :: body) []
  | comment {body r} : 0x0A ∉ body → (r = [] ∨ NextIs (· = 0x0A) r) → FmtTok .comment (0x2F :: 0x2F :: body) r
  | plain {ty c a r} : ty ≠ .whitespace → ty ≠ .newline → ty ≠ .string → ty ≠ .comment → ¬ Blank c → c ≠ 0x22 →
      ¬ (c = 0x2F ∧ NextIs (· = 0x2F) (a ++ r)) → (∀ d ∈ a, PlainChar d) → (Brk c → a = []) → (Brk c ↔ ty.brk) →
      FmtTok ty (c :: a) r

theorem identChar_plain (c : Byte) (h : (isAlpha c || isDig c) = true) : PlainChar c := by
  have key : ∀ m : Fin 256, (isAlpha (BitVec.ofFin m) || isDig (BitVec.ofFin m)) = true → PlainChar (BitVec.ofFin m) := by decide +kernel
  exact key c.toFin h

theorem numChar_plain (c : Byte) (h : fmtNumChar c = true) : PlainChar c := by
  have key : ∀ m : Fin 256, fmtNumChar (BitVec.ofFin m) = true → PlainChar (BitVec.ofFin m) := by decide +kernel
  exact key c.toFin h

theorem fmtSingle_plain (c : Byte) (ty : FT) (h : fmtSingle c = some ty) :
    ty ≠ .string ∧ ty ≠ .comment ∧ ¬ Blank c ∧ c ≠ 0x22 ∧ c ≠ 0x2F ∧ (Brk c ↔ ty.brk) := by
  have key : ∀ m : Fin 256, ∀ t ∈ (fmtSingle (BitVec.ofFin m)).toList, t ≠ .string ∧ t ≠ .comment ∧ ¬ Blank (BitVec.ofFin m) ∧
      BitVec.ofFin m ≠ 0x22#8 ∧ BitVec.ofFin m ≠ 0x2F#8 ∧
      (Brk (BitVec.ofFin m) ↔ (t = .lbrace ∨ t = .rbrace ∨ t = .semicolon ∨ t = .comma)) := by decide +kernel
  exact key c.toFin ty (by show ty ∈ (fmtSingle c).toList; rw [h]; simp)

theorem fmtSingle_none (c : Byte) (h : fmtSingle c = none) : ¬ Brk c := by
  have key : ∀ m : Fin 256, fmtSingle (BitVec.ofFin m) = none → ¬ Brk (BitVec.ofFin m) := by decide +kernel
  exact key c.toFin h

theorem not_brk_ident : ¬ FT.brk .identifier := by unfold FT.brk; simp
theorem not_brk_number : ¬ FT.brk .number := by unfold FT.brk; simp

theorem fmtRest_kind (c : Byte) (cs : List Byte) (hn : NoNul cs) (hb : ¬ Blank c) (hc : ¬ (c = 0x2F ∧ NextIs (· = 0x2F) cs)) :
    ∃ ty a r, cs = a ++ r ∧ FmtTok ty (c :: a) r ∧
      ∀ post, fmtRest c (c :: (cs ++ 0 :: post)) (cs ++ 0 :: post) = .tok ty (c :: a) (r ++ 0 :: post) := by
  unfold fmtRest
  cases hs : fmtSingle c with
  | some ty =>
    obtain ⟨h1, h2⟩ := fmtSingle_ink c ty hs
    obtain ⟨h3, h4, h5, h6, h7, h8⟩ := fmtSingle_plain c ty hs
    exact ⟨ty, [], cs, rfl, .plain h1 h2 h3 h4 h5 h6 hc (by simp) (fun _ => rfl) h8, fun _ => rfl⟩
  | none =>
    have hk := fmtSingle_none c hs
    dsimp only
    by_cases h1 : c = 0x22
    · simp only [if_pos h1]
      unfold fmtString
      obtain ⟨a, r, rfl, g1, g2, g3⟩ := skipWhile_all (fun d => d ≠ 0x22 ∧ d ≠ 0) (by decide) cs
      have ha : 0x22 ∉ a := fun h => by have := g1 _ h; simp at this
      simp only [g3]
      cases r with
      | nil =>
        refine ⟨.string, a, [], by simp, by rw [h1]; exact .openStr ha, fun post => ?_⟩
        dsimp only [List.nil_append]
        rw [if_neg (by decide), show c :: (a ++ [] ++ 0 :: post) = (c :: a) ++ (0 :: post) by simp, between_append]
      | cons d ds =>
        have hd : d = 0x22 := by
          have hd0 := hn d (by simp)
          apply Classical.byContradiction
          intro h
          exact g2 ⟨d, ds, rfl, by simp; exact ⟨h, hd0⟩⟩
        refine ⟨.string, a ++ [d], ds, by simp, by rw [h1, hd]; exact .str ha, fun post => ?_⟩
        dsimp only [List.cons_append]
        rw [if_pos hd, show c :: (a ++ d :: ds ++ 0 :: post) = (c :: (a ++ [d])) ++ (ds ++ 0 :: post) by simp, between_append]
    · simp only [if_neg h1]
      by_cases h2 : isAlpha c = true
      · simp only [if_pos h2]
        obtain ⟨a, r, e, g, -, h⟩ := fmtSpan_spec .identifier (fun d => isAlpha d || isDig d) (by decide) c cs
        exact ⟨_, a, r, e, .plain (by simp) (by simp) (by simp) (by simp) hb h1 (e ▸ hc) (fun d hd => identChar_plain d (g d hd))
          (fun h => absurd h hk) ⟨fun h => absurd h hk, fun h => absurd h not_brk_ident⟩, h⟩
      · simp only [if_neg h2]
        have num := fmtSpan_spec .number fmtNumChar (by decide) c cs
        have numT : ∀ a r, cs = a ++ r → (∀ d ∈ a, fmtNumChar d = true) → FmtTok .number (c :: a) r := fun a r e g =>
          .plain (by simp) (by simp) (by simp) (by simp) hb h1 (e ▸ hc) (fun d hd => numChar_plain d (g d hd))
          (fun h => absurd h hk) ⟨fun h => absurd h hk, fun h => absurd h not_brk_number⟩
        have one : FmtTok .identifier [c] cs := .plain (by simp) (by simp) (by simp) (by simp) hb h1 hc (by simp)
          (fun h => absurd h hk) ⟨fun h => absurd h hk, fun h => absurd h not_brk_ident⟩
        by_cases h3 : isDig c = true
        · simp only [if_pos h3]
          obtain ⟨a, r, e, g, -, h⟩ := num
          exact ⟨_, a, r, e, numT a r e g, h⟩
        · simp only [if_neg h3]
          by_cases h4 : c = 0x2D
          · simp only [if_pos h4]
            obtain ⟨a, r, e, g, -, h⟩ := num
            cases cs with
            | nil => exact ⟨.identifier, [], [], rfl, one, fun _ => rfl⟩
            | cons d ds =>
              by_cases h5 : isDig d = true
              · refine ⟨.number, a, r, e, numT a r e g, fun post => ?_⟩
                dsimp only [List.cons_append]
                rw [if_pos h5]
                exact h post
              · refine ⟨.identifier, [], d :: ds, rfl, one, fun post => ?_⟩
                dsimp only [List.cons_append]
                rw [if_neg h5]
          · simp only [if_neg h4]
            exact ⟨.identifier, [], cs, rfl, one, fun _ => rfl⟩

theorem fmtNext_kind (c : Byte) (cs : List Byte) (hn : NoNul (c :: cs)) :
    ∃ ty a r, cs = a ++ r ∧ FmtTok ty (c :: a) r ∧
      ∀ post, fmtNext (c :: cs ++ 0 :: post) = .tok ty (c :: a) (r ++ 0 :: post) := by
  have h0 := hn c (by simp)
  simp only [List.cons_append, fmtNext]
  simp only [if_neg h0]
  by_cases h1 : c = 0x0A
  · simp only [if_pos h1]
    refine ⟨.newline, [], cs, rfl, .white (.inr rfl) fun d hd => ?_, fun _ => rfl⟩
    simp at hd
    rw [hd, h1]
    exact .inr (.inr (.inr rfl))
  · simp only [if_neg h1]
    by_cases h2 : c = 0x20 ∨ c = 0x09 ∨ c = 0x0D
    · simp only [if_pos h2]
      obtain ⟨a, r, e, g, -, h⟩ := fmtSpan_spec .whitespace (fun d => d = 0x20 ∨ d = 0x09 ∨ d = 0x0D) (by decide) c cs
      refine ⟨_, a, r, e, .white (.inl rfl) fun d hd => ?_, h⟩
      rcases List.mem_cons.mp hd with rfl | hd
      · rcases h2 with h | h | h
        · exact .inl h
        · exact .inr (.inl h)
        · exact .inr (.inr (.inl h))
      · have := g d hd
        rw [decide_eq_true_eq] at this
        rcases this with h | h | h
        · exact .inl h
        · exact .inr (.inl h)
        · exact .inr (.inr (.inl h))
    · simp only [if_neg h2]
      have hb : ¬ Blank c := by
        rintro (h | h | h | h)
        · exact h2 (.inl h)
        · exact h2 (.inr (.inl h))
        · exact h2 (.inr (.inr h))
        · exact h1 h
      by_cases h3 : c = 0x2F
      · simp only [if_pos h3]
        obtain ⟨a', r', e', g1, g2, h'⟩ := fmtSpan_spec .comment (fun d => d ≠ 0 ∧ d ≠ 0x0A) (by decide) c cs
        cases cs with
        | nil =>
          obtain ⟨ty, a, r, e, k, h⟩ := fmtRest_kind c [] hn.tail hb (fun h => by obtain ⟨_, _, _, h, _⟩ := h; cases h)
          exact ⟨ty, a, r, e, k, fun post => h post⟩
        | cons d ds =>
          by_cases h4 : d = 0x2F
          · have hr : r' = [] ∨ NextIs (· = 0x0A) r' := by
              cases r' with
              | nil => exact .inl rfl
              | cons x xs =>
                refine .inr ⟨x, xs, rfl, ?_⟩
                apply Classical.byContradiction
                intro h
                have hx : x ≠ 0 := hn x (by rw [e']; simp)
                exact g2 ⟨x, xs, rfl, by simp; exact ⟨hx, h⟩⟩
            refine ⟨.comment, a', r', e', ?_, fun post => ?_⟩
            · cases a' with
              | nil =>
                rw [List.nil_append] at e'
                exact absurd ⟨d, ds, e'.symm, by rw [h4]; decide⟩ g2
              | cons x xs =>
                simp only [List.cons_append, List.cons.injEq] at e'
                rw [← e'.1, h4, h3]
                exact .comment (fun h => by have := g1 _ (List.mem_cons_of_mem _ h); simp at this) hr
            · dsimp only [List.cons_append]
              rw [if_pos h4]
              exact h' post
          · obtain ⟨ty, a, r, e, k, h⟩ := fmtRest_kind c (d :: ds) hn.tail hb
              (fun h => by obtain ⟨_, x, xs, h, h'⟩ := h; cases h; exact h4 h')
            refine ⟨ty, a, r, e, k, fun post => ?_⟩
            dsimp only [List.cons_append]
            rw [if_neg h4]
            exact h post
      · simp only [if_neg h3]
        obtain ⟨ty, a, r, e, k, h⟩ := fmtRest_kind c cs hn.tail hb (fun h => h3 h.1)
        exact ⟨ty, a, r, e, k, h⟩

/-- White space is waiting to be written. -/
def FSt.pend (s : FSt) : Prop := s.spacePending = true ∨ 0 < s.newlinePending

theorem fmtBefore_gap (ty : FT) (s : FSt) (h : s.onNewLine = true → s.spacePending = false) :
    ∃ g, (fmtBefore ty s).out = s.out ++ g ∧ (∀ c ∈ g, Blank c) ∧ (fmtBefore ty s).newlinePending = 0 ∧
      (fmtBefore ty s).spacePending = false ∧ (fmtBefore ty s).onNewLine = false ∧
      (s.onNewLine = false → s.pend → g ≠ []) ∧
      (s.onNewLine = false → ¬ s.pend → ¬ ty.brk → g = []) ∧
      (s.onNewLine = false → 0 < s.newlinePending → NextIs (· = 0x0A) g) := by
  obtain ⟨ind, np, sp, on, st, out⟩ := s
  have hi := indentText_blank
  have b1 : Blank 0x0A := .inr (.inr (.inr rfl))
  have b2 : Blank 0x20 := .inl rfl
  unfold FSt.pend FT.brk NextIs
  dsimp only at h ⊢
  refine ⟨(if 0 < (if ty = .rbrace then 1 else np) then
      (if on = true then [] else if 1 < (if ty = .rbrace then 1 else np) then [0x0A, 0x0A] else [0x0A]) ++
        indentText (if ty = .rbrace then ind - 1 else ind)
    else if on = true then indentText ind else if sp = true then [0x20] else []) ++ (if ty = .lbrace then [0x20] else []), ?_⟩
  by_cases t1 : ty = .rbrace
  · subst t1
    cases on <;> simp [fmtBefore, or_imp, forall_and]
    all_goals ((repeat' apply And.intro) <;> first | exact b1 | exact b2 | exact hi _)
  · by_cases t2 : ty = .lbrace
    · subst t2
      cases on <;> cases sp <;> rcases np with _ | _ | np <;> simp [fmtBefore, or_imp, forall_and] at h ⊢
      all_goals ((repeat' apply And.intro) <;> first | exact b1 | exact b2 | exact hi _)
    · cases on <;> cases sp <;> rcases np with _ | _ | np <;> simp [fmtBefore, t1, t2, or_imp, forall_and] at h ⊢
      all_goals ((repeat' apply And.intro) <;> first | exact b1 | exact b2 | exact hi _)

theorem fmtAfter_facts (ty : FT) (s : FSt) (h1 : s.newlinePending = 0) (h2 : s.spacePending = false) :
    (fmtAfter ty s).onNewLine = s.onNewLine ∧ (fmtAfter ty s).started = true ∧
      ((fmtAfter ty s).pend → ty.brk ∨ ty = .comment) ∧ (ty = .comment → 0 < (fmtAfter ty s).newlinePending) := by
  unfold FSt.pend FT.brk fmtAfter
  cases ty <;> simp [h1, h2]

/-- The variables of the formatter behind a text of which `g` is the white space at the end. -/
def FCons (m : FMode) (g : List Byte) (st : FSt) : Prop :=
  (st.onNewLine = true → m = .start ∧ st.started = false ∧ st.spacePending = false) ∧
  (st.onNewLine = false → st.started = true ∧ (g ≠ [] → st.pend) ∧ (m = .tight → st.pend → g ≠ []))

theorem gap_ok {m : FMode} {g g' : List Byte} {st : FSt} {ty : FT} {b : Prop} (hc : FCons m g st) (hg : ∀ c ∈ g, Blank c)
    (hg' : ∀ c ∈ g', Blank c) (k1 : st.onNewLine = false → st.pend → g' ≠ [])
    (k2 : st.onNewLine = false → ¬ st.pend → ¬ ty.brk → g' = []) (hb : ty.brk → b) : GapOk m b g g' := by
  refine ⟨hg, hg', ?_⟩
  cases ho : st.onNewLine with
  | true => exact .inl (hc.1 ho).1
  | false =>
    obtain ⟨h1, h2, h3⟩ := hc.2 ho
    by_cases hst : m = .start
    · exact .inl hst
    refine .inr ⟨fun e => ?_, ?_⟩
    · apply Classical.byContradiction
      intro h
      exact k1 ho (h2 h) e
    · by_cases hm : m = .free
      · exact .inl hm
      · by_cases hk : ty.brk
        · exact .inr (.inl (hb hk))
        · by_cases hp : st.pend
          · cases m with
            | free => exact absurd rfl hm
            | tight => exact .inr (.inr (fun e => absurd e (h3 rfl hp)))
            | start => exact absurd rfl hst
          · exact .inr (.inr (fun _ => k2 ho hp hk))

theorem spaced_chars (a : List Byte) (h : ∀ d ∈ a, PlainChar d) {s s' : List Byte} (hs : Spaced .tight s s') :
    Spaced .tight (a ++ s) (a ++ s') := by
  induction a with
  | nil => exact hs
  | cons c a ih =>
    obtain ⟨h1, h2, h3, h4⟩ := h c (by simp)
    have := ih (fun d hd => h d (by simp [hd]))
    refine Spaced.char (m := .tight) (g := []) (g' := []) ⟨by simp, by simp, .inr ⟨fun _ => rfl, .inr (.inr fun _ => rfl)⟩⟩ h1 h2
      (fun h => h3 h.1) ?_
    unfold FMode.after
    rw [if_neg h4]
    exact this

theorem fmtToken_ink (ty : FT) (text : List Byte) (st : FSt) (h1 : ty ≠ .whitespace) (h2 : ty ≠ .newline) :
    fmtToken ty text st = fmtAfter ty { fmtBefore ty st with out := (fmtBefore ty st).out ++ text } := by
  cases ty <;> first | rfl | contradiction

theorem fmtLoop_spaced (n : Nat) : ∀ (s g : List Byte) (m : FMode) (st : FSt), s.length ≤ n → NoNul s → (∀ c ∈ g, Blank c) →
    FCons m g st → ∃ o, Spaced m (g ++ s) o ∧ (0 < st.newlinePending → st.onNewLine = false → NextIs (· = 0x0A) o) ∧
      ∀ post f, s.length < f → fmtLoop f (s ++ 0 :: post) st = some (st.out ++ o) := by
  induction n with
  | zero =>
    intro s g m st hl hn hg hc
    have : s = [] := List.eq_nil_of_length_eq_zero (by omega)
    subst this
    refine ⟨[0x0A], .stop (by simpa using hg) (by intro c hc; simp at hc; exact .inr (.inr (.inr hc))), fun _ _ => ⟨_, _, rfl, rfl⟩, ?_⟩
    intro post f hf
    obtain ⟨f, rfl⟩ : ∃ k, f = k + 1 := ⟨f - 1, by omega⟩
    rfl
  | succ n ih =>
    intro s g m st hl hn hg hc
    cases s with
    | nil => exact ih [] g m st (by simp) hn hg hc
    | cons c cs =>
      obtain ⟨ty, a, r, e, hk, h⟩ := fmtNext_kind c cs hn
      have hn' : NoNul r := fun b hb => hn b (by rw [e]; simp; exact .inr (.inr hb))
      have hlen : cs.length = a.length + r.length := by rw [e, List.length_append]
      simp only [List.length_cons] at hl
      have loop : ∀ (st' : FSt) (o' : List Byte), (∀ post f, r.length < f → fmtLoop f (r ++ 0 :: post) st' = some (st'.out ++ o')) →
          fmtToken ty (c :: a) st = st' → ∀ o, st'.out ++ o' = st.out ++ o →
          ∀ post f, (c :: cs).length < f → fmtLoop f (c :: cs ++ 0 :: post) st = some (st.out ++ o) := by
        intro st' o' h1 h2 o h3 post f hf
        simp only [List.length_cons] at hf
        obtain ⟨f, rfl⟩ : ∃ k, f = k + 1 := ⟨f - 1, by omega⟩
        rw [fmtLoop, h]
        dsimp only
        rw [h2, h1 post f (by omega), h3]
      by_cases hw : ty = .whitespace ∨ ty = .newline
      · have hb : ∀ d ∈ c :: a, Blank d := by
          cases hk with
          | white _ h => exact h
          | str => simp at hw
          | openStr => simp at hw
          | comment => simp at hw
          | plain h1 h2 => rcases hw with h | h <;> contradiction
        have hc' : FCons m (g ++ c :: a) (fmtToken ty (c :: a) st) := by
          unfold FCons FSt.pend at hc ⊢
          rcases hw with rfl | rfl <;> unfold fmtToken <;> dsimp only
          · by_cases hst : st.started = true
            · rw [if_pos hst]
              dsimp only
              refine ⟨fun h => absurd (hc.1 h).2.1 (by simp [hst]), fun h => ⟨hst, fun _ => .inl rfl, fun _ _ => by simp⟩⟩
            · rw [if_neg hst]
              exact ⟨hc.1, fun h => absurd (hc.2 h).1 hst⟩
          · split
            · exact ⟨hc.1, fun h => ⟨(hc.2 h).1, fun _ => .inr (by simp), fun _ _ => by simp⟩⟩
            · exact ⟨hc.1, fun h => ⟨(hc.2 h).1, fun _ => .inr (by omega), fun _ _ => by simp⟩⟩
        have hout : (fmtToken ty (c :: a) st).out = st.out ∧ (fmtToken ty (c :: a) st).onNewLine = st.onNewLine ∧
            (0 < st.newlinePending → 0 < (fmtToken ty (c :: a) st).newlinePending) := by
          rcases hw with rfl | rfl <;> unfold fmtToken <;> dsimp only <;> split <;> simp
        obtain ⟨o, h1, h2, h3⟩ := ih r (g ++ c :: a) m (fmtToken ty (c :: a) st) (by omega) hn'
          (fun d hd => by rcases List.mem_append.1 hd with h | h; exact hg d h; exact hb d h) hc'
        refine ⟨o, ?_, fun k1 k2 => h2 (hout.2.2 k1) (by rw [hout.2.1]; exact k2), loop _ o h3 rfl o (by rw [hout.1])⟩
        rw [e]
        simpa using h1
      · have hw1 : ty ≠ .whitespace := fun h => hw (.inl h)
        have hw2 : ty ≠ .newline := fun h => hw (.inr h)
        obtain ⟨g', q1, q2, q3, q4, q5, q6, q7, q8⟩ := fmtBefore_gap ty st (fun h => (hc.1 h).2.2)
        have ht := fmtToken_ink ty (c :: a) st hw1 hw2
        obtain ⟨f1, f2, f3, f4⟩ := fmtAfter_facts ty { fmtBefore ty st with out := (fmtBefore ty st).out ++ c :: a } q3 q4
        rw [← ht] at f1 f2 f3 f4
        dsimp only at f1
        rw [q5] at f1
        have hout : (fmtToken ty (c :: a) st).out = st.out ++ (g' ++ c :: a) := by
          rw [ht, fmtAfter_out]
          dsimp only
          rw [q1, List.append_assoc]
        have mk : ∀ m', (m' = .tight → ¬ (ty.brk ∨ ty = .comment)) → FCons m' [] (fmtToken ty (c :: a) st) := fun m' hm =>
          ⟨fun h => absurd (f1.symm.trans h) (by simp), fun _ => ⟨f2, by simp, fun h1 h2 => absurd (f3 h2) (hm h1)⟩⟩
        have go : ∀ m', (m' = .tight → ¬ (ty.brk ∨ ty = .comment)) →
            ∃ o', Spaced m' r o' ∧ (ty = .comment → NextIs (· = 0x0A) o') ∧
              ∀ o, o = g' ++ (c :: a ++ o') → (0 < st.newlinePending → st.onNewLine = false → NextIs (· = 0x0A) o) ∧
              ∀ post f, (c :: cs).length < f → fmtLoop f (c :: cs ++ 0 :: post) st = some (st.out ++ o) := by
          intro m' hm
          obtain ⟨o', h1, h2, h3⟩ := ih r [] m' _ (by omega) hn' (by simp) (mk m' hm)
          refine ⟨o', h1, fun h => h2 (f4 h) f1, fun o ho => ⟨fun k1 k2 => ?_, loop _ o' h3 rfl o (by rw [hout, ho]; simp)⟩⟩
          obtain ⟨x, xs, e1, e2⟩ := q8 k2 k1
          rw [ho, e1]
          exact ⟨x, _, rfl, e2⟩
        rw [e]
        cases hk with
        | white h => exact absurd h hw
        | str hq =>
          obtain ⟨o', h1, -, h3⟩ := go .tight (by simp [FT.brk])
          have := Spaced.str (gap_ok hc hg q2 q6 q7 (by simp [FT.brk])) hq h1
          rw [e] at h3
          exact ⟨_, by simpa using this, h3 _ (by simp)⟩
        | openStr hq =>
          obtain ⟨o', h1, -, h3⟩ := go .tight (by simp [FT.brk])
          have := Spaced.openStr (s' := o') (gap_ok hc hg q2 q6 q7 (by simp [FT.brk])) hq
          rw [e] at h3
          exact ⟨_, by simpa using this, h3 _ (by simp)⟩
        | comment hq hr =>
          obtain ⟨o', h1, h2, h3⟩ := go .free (by simp)
          have := Spaced.comment (gap_ok hc hg q2 q6 q7 (by simp [FT.brk])) hq hr (h2 rfl) h1
          rw [e] at h3
          exact ⟨_, by simpa using this, h3 _ (by simp)⟩
        | plain _ _ t1 t2 t3 t4 t5 t6 t7 t8 =>
          by_cases hb : Brk c
          · have := t7 hb
            subst this
            obtain ⟨o', h1, h2, h3⟩ := go .free (by simp)
            have := Spaced.char (gap_ok hc hg q2 q6 q7 (t8.2)) t3 t4 t5 (by unfold FMode.after; rw [if_pos hb]; exact h1)
            rw [e] at h3
            exact ⟨_, by simpa using this, h3 _ (by simp)⟩
          · obtain ⟨o', h1, h2, h3⟩ := go .tight (fun _ h => h.elim (fun h => hb (t8.2 h)) t2)
            have := Spaced.char (gap_ok hc hg q2 q6 q7 (t8.2)) t3 t4 t5 (by unfold FMode.after; rw [if_neg hb]; exact spaced_chars a t6 h1)
            rw [e] at h3
            exact ⟨_, by simpa using this, h3 _ (by simp)⟩

/-! ### White space and the tokens of the compiler -/

theorem spaced_inv {m : FMode} {s o : List Byte} (h : Spaced m s o) : ((∀ c ∈ s, Blank c) ∧ ∀ c ∈ o, Blank c) ∨
    ∃ (b : Prop) (g g' : List Byte) (c : Byte) (x y : List Byte), s = g ++ c :: x ∧ o = g' ++ c :: y ∧ ¬ Blank c ∧
      GapOk m b g g' ∧ (b → Brk c) ∧ Spaced .start (c :: x) (c :: y) := by
  have e : ∀ b, GapOk .start b [] [] := fun b => ⟨by simp, by simp, .inl rfl⟩
  cases h with
  | stop h1 h2 => exact .inl ⟨h1, h2⟩
  | char h1 h2 h3 h4 h5 => exact .inr ⟨_, _, _, _, _, _, rfl, rfl, h2, h1, id, .char (g := []) (g' := []) (e _) h2 h3 h4 h5⟩
  | str h1 h2 h3 => exact .inr ⟨_, _, _, _, _, _, rfl, rfl, by decide, h1, False.elim, .str (g := []) (g' := []) (e _) h2 h3⟩
  | openStr h1 h2 => exact .inr ⟨_, _, _, _, _, _, rfl, rfl, by decide, h1, False.elim, .openStr (g := []) (g' := []) (e _) h2⟩
  | comment h1 h2 h3 h4 h5 =>
    exact .inr ⟨_, _, _, _, _, _, rfl, rfl, by decide, h1, False.elim, .comment (g := []) (g' := []) (e _) h2 h3 h4 h5⟩

theorem blank_cons {g x : List Byte} {c d : Byte} {y : List Byte} (hg : ∀ c ∈ g, Blank c) (hd : ¬ Blank d)
    (e : d :: y = g ++ c :: x) : g = [] ∧ c = d ∧ x = y := by
  cases g with
  | nil => simp at e; exact ⟨rfl, e.1.symm, e.2.symm⟩
  | cons a g =>
    simp only [List.cons_append, List.cons.injEq] at e
    exact absurd (e.1 ▸ hg a (by simp)) hd

theorem head_inv {c : Byte} {x y : List Byte} (h : Spaced .start (c :: x) (c :: y)) (hc : ¬ Blank c) :
    (c ≠ 0x22 ∧ ¬ (c = 0x2F ∧ NextIs (· = 0x2F) x) ∧ Spaced (.after c) x y) ∨
    (c = 0x22 ∧ ∃ body s s', x = body ++ 0x22 :: s ∧ y = body ++ 0x22 :: s' ∧ 0x22 ∉ body ∧ Spaced .tight s s') ∨
    (c = 0x22 ∧ 0x22 ∉ x) ∨
    (c = 0x2F ∧ ∃ body s s', x = 0x2F :: (body ++ s) ∧ y = 0x2F :: (body ++ s') ∧ 0x0A ∉ body ∧
      (s = [] ∨ NextIs (· = 0x0A) s) ∧ NextIs (· = 0x0A) s' ∧ Spaced .free s s') := by
  generalize hs : c :: x = s at h
  generalize ho : c :: y = o at h
  cases h with
  | stop h1 h2 => exact absurd (h1 c (by rw [← hs]; simp)) hc
  | char h1 h2 h3 h4 h5 =>
    obtain ⟨_, rfl, rfl⟩ := blank_cons h1.1 hc hs
    obtain ⟨_, _, rfl⟩ := blank_cons h1.2.1 hc ho
    exact .inl ⟨h3, h4, h5⟩
  | str h1 h2 h3 =>
    obtain ⟨_, rfl, rfl⟩ := blank_cons h1.1 hc hs
    obtain ⟨_, _, rfl⟩ := blank_cons h1.2.1 hc ho
    exact .inr (.inl ⟨rfl, _, _, _, rfl, rfl, h2, h3⟩)
  | openStr h1 h2 =>
    obtain ⟨_, rfl, rfl⟩ := blank_cons h1.1 hc hs
    exact .inr (.inr (.inl ⟨rfl, h2⟩))
  | comment h1 h2 h3 h4 h5 =>
    obtain ⟨_, rfl, rfl⟩ := blank_cons h1.1 hc hs
    obtain ⟨_, _, rfl⟩ := blank_cons h1.2.1 hc ho
    exact .inr (.inr (.inr ⟨rfl, _, _, _, rfl, rfl, h2, h3, h4, h5⟩))

theorem gapOk_add {m m' : FMode} {b : Prop} {g g' G G' : List Byte} (h : GapOk m b g g') (hG : ∀ c ∈ G, Blank c)
    (hG' : ∀ c ∈ G', Blank c) (hm : m' = .start ∨ (G ≠ [] ∧ G' ≠ [])) : GapOk m' b (G ++ g) (G' ++ g') := by
  refine ⟨fun c hc => (List.mem_append.1 hc).elim (hG c) (h.1 c), fun c hc => (List.mem_append.1 hc).elim (hG' c) (h.2.1 c), ?_⟩
  rcases hm with hm | ⟨h1, h2⟩
  · exact .inl hm
  · exact .inr ⟨fun e => absurd (List.append_eq_nil_iff.1 e).1 h2, .inr (.inr fun e => absurd (List.append_eq_nil_iff.1 e).1 h1)⟩

theorem spaced_add {m m' : FMode} {s o G G' : List Byte} (h : Spaced m s o) (hG : ∀ c ∈ G, Blank c) (hG' : ∀ c ∈ G', Blank c)
    (hm : m' = .start ∨ (G ≠ [] ∧ G' ≠ [])) : Spaced m' (G ++ s) (G' ++ o) := by
  cases h with
  | stop h1 h2 =>
    exact .stop (fun c hc => (List.mem_append.1 hc).elim (hG c) (h1 c)) (fun c hc => (List.mem_append.1 hc).elim (hG' c) (h2 c))
  | char h1 h2 h3 h4 h5 => rw [← List.append_assoc, ← List.append_assoc]; exact .char (gapOk_add h1 hG hG' hm) h2 h3 h4 h5
  | str h1 h2 h3 => rw [← List.append_assoc, ← List.append_assoc]; exact .str (gapOk_add h1 hG hG' hm) h2 h3
  | openStr h1 h2 => rw [← List.append_assoc, ← List.append_assoc]; exact .openStr (gapOk_add h1 hG hG' hm) h2
  | comment h1 h2 h3 h4 h5 => rw [← List.append_assoc, ← List.append_assoc]; exact .comment (gapOk_add h1 hG hG' hm) h2 h3 h4 h5

theorem blank_trivia {g : List Byte} (h : ∀ c ∈ g, Blank c) {t s : List Byte} (ht : Trivia t s) : Trivia (g ++ t) s := by
  induction g with
  | nil => exact ht
  | cons c g ih =>
    refine .ws ?_ (ih fun d hd => h d (by simp [hd]))
    rcases h c (by simp) with h | h | h | h <;> rw [h] <;> decide

/-- The next character of the new text is white space or that of the old one. -/
theorem spaced_next {m : FMode} (hm : m ≠ .start) {r r' : List Byte} (h : Spaced m r r') {p : Byte → Prop}
    (hp : ∀ c, Blank c → ¬ p c) (hn : NextIs p r') : NextIs p r := by
  obtain ⟨c, cs, rfl, hc⟩ := hn
  rcases spaced_inv h with ⟨_, k⟩ | ⟨b, g, g', d, x, y, e1, e2, k1, k2, k3, k4⟩
  · exact absurd hc (hp c (k c (by simp)))
  · obtain ⟨rfl, rfl, rfl⟩ := blank_cons k2.2.1 (fun hb => hp c hb hc) e2
    rcases k2.2.2 with h | ⟨h, _⟩
    · exact absurd h hm
    · rw [h rfl] at e1
      exact ⟨_, _, e1, hc⟩

/-- The rest of a block comment. -/
theorem spaced_block (n : Nat) : ∀ (body : List Byte), body.length ≤ n → (∀ a b, body ++ [0x2A] ≠ a ++ 0x2A :: 0x2F :: b) →
    0x22 ∉ body → (∀ a b, body ≠ a ++ 0x2F :: 0x2F :: b) → ∀ {m : FMode} {w y : List Byte}, ¬ NextIs (· = 0x2F) w →
    Spaced m (body ++ 0x2A :: 0x2F :: w) y →
    ∃ body' w', y = body' ++ 0x2A :: 0x2F :: w' ∧ (∀ a b, body' ++ [0x2A] ≠ a ++ 0x2A :: 0x2F :: b) ∧ Spaced .tight w w' := by
  have here : ∀ {m : FMode} {w y : List Byte} (g : List Byte), (∀ c ∈ g, Blank c) → ¬ NextIs (· = 0x2F) w →
      Spaced m (g ++ 0x2A :: 0x2F :: w) y →
      ∃ body' w', y = body' ++ 0x2A :: 0x2F :: w' ∧ (∀ a b, body' ++ [0x2A] ≠ a ++ 0x2A :: 0x2F :: b) ∧ Spaced .tight w w' := by
    intro m w y g hg hw hs
    rcases spaced_inv hs with ⟨k, _⟩ | ⟨b, g2, g', c, x, y1, e1, e2, k1, k2, k3, k4⟩
    · exact absurd (k 0x2A (by simp)) (by decide)
    · obtain ⟨rfl, e⟩ := munch (p := Blank) hg (fun ⟨a, as, h, hb⟩ => by cases h; exact absurd hb (by decide)) k2.1
        (fun ⟨a, as, h, hb⟩ => by cases h; exact k1 hb) e1
      injection e with ec ex
      subst ec ex
      rcases head_inv k4 k1 with ⟨_, _, h⟩ | ⟨h, _⟩ | ⟨h, _⟩ | ⟨h, _⟩
      · rcases spaced_inv h with ⟨k, _⟩ | ⟨b, g3, g4, d, x2, y2, f1, f2, l1, l2, l3, l4⟩
        · exact absurd (k 0x2F (by simp)) (by decide)
        · obtain ⟨rfl, rfl, rfl⟩ := blank_cons l2.1 (by decide) f1
          have h4 : g4 = [] := by
            rcases l2.2.2 with h | ⟨_, h | h | h⟩
            · exact absurd h (by decide)
            · exact absurd h (by decide)
            · exact absurd (l3 h) (by decide)
            · exact h rfl
          subst h4
          rcases head_inv l4 l1 with ⟨_, _, h⟩ | ⟨h, _⟩ | ⟨h, _⟩ | ⟨_, _, _, _, h, _⟩
          · refine ⟨g', y2, by rw [e2, f2]; rfl, fun a b e => ?_, h⟩
            have : (0x2F : Byte) ∈ g' ++ [0x2A] := by rw [e]; simp
            rcases List.mem_append.1 this with h | h
            · exact absurd (k2.2.1 _ h) (by decide)
            · simp at h
          · exact absurd h (by decide)
          · exact absurd h (by decide)
          · exact absurd ⟨_, _, h, rfl⟩ hw
      · exact absurd h (by decide)
      · exact absurd h (by decide)
      · exact absurd h (by decide)
  induction n with
  | zero =>
    intro body hl _ _ _ m w y hw hs
    have : body = [] := List.eq_nil_of_length_eq_zero (by omega)
    subst this
    exact here [] (by simp) hw hs
  | succ n ih =>
    intro body hl h1 h2 h3 m w y hw hs
    by_cases hb : ∀ c ∈ body, Blank c
    · exact here body hb hw hs
    · rcases spaced_inv hs with ⟨k, _⟩ | ⟨b, g, g', c, x, y1, e1, e2, k1, k2, k3, k4⟩
      · exact absurd (fun c hc => k c (by simp [hc])) hb
      · obtain ⟨x', rfl, rfl⟩ : ∃ x', body = g ++ c :: x' ∧ x = x' ++ 0x2A :: 0x2F :: w := by
          rcases List.append_eq_append_iff.1 e1 with ⟨z, q1, q2⟩ | ⟨z, q1, q2⟩
          · refine absurd (fun c hc => k2.1 c (by rw [q1]; simp [hc])) hb
          · cases z with
            | nil => simp at q1; exact absurd (fun c hc => k2.1 c (q1 ▸ hc)) hb
            | cons d z =>
              injection q2 with q2 q3
              exact ⟨z, by rw [q1, q2], q3⟩
        simp only [List.length_append, List.length_cons] at hl
        rcases head_inv k4 k1 with ⟨_, _, h⟩ | ⟨h, _⟩ | ⟨h, _⟩ | ⟨hc, _, _, _, h, _⟩
        · obtain ⟨b1, w', q1, q2, q3⟩ := ih x' (by omega) (fun a b e => h1 (g ++ c :: a) b (by simp; exact e)) (fun h => h2 (by simp; exact .inr (.inr h)))
            (fun a b e => h3 (g ++ c :: a) b (by simp [e])) hw h
          refine ⟨g' ++ c :: b1, w', by rw [e2, q1]; simp, fun a b e => ?_, q3⟩
          have e : g' ++ c :: (b1 ++ [0x2A]) = a ++ 0x2A :: 0x2F :: b := by simpa using e
          rcases List.append_eq_append_iff.1 e with ⟨z, r1, r2⟩ | ⟨z, r1, r2⟩
          · cases z with
            | nil =>
              simp only [List.nil_append, List.cons.injEq] at r2
              obtain ⟨rfl, r2⟩ := r2
              have hn : NextIs (· = 0x2F) y1 := by
                rw [q1]
                cases b1 with
                | nil => simp at r2
                | cons u b1 => simp only [List.cons_append, List.cons.injEq] at r2; exact ⟨u, _, rfl, r2.1⟩
              obtain ⟨u, us, r3, rfl⟩ := spaced_next (by decide) h (fun c hb hc => by rw [hc] at hb; exact absurd hb (by decide)) hn
              cases x' with
              | nil => simp at r3
              | cons v x' =>
                simp only [List.cons_append, List.cons.injEq] at r3
                obtain ⟨rfl, r3⟩ := r3
                exact h1 g (x' ++ [0x2A]) (by simp)
            | cons d z =>
              injection r2 with _ r2
              exact q2 z b r2
          · cases z with
            | nil =>
              simp only [List.nil_append, List.cons.injEq] at r2
              obtain ⟨rfl, r2⟩ := r2
              have hn : NextIs (· = 0x2F) y1 := by
                rw [q1]
                cases b1 with
                | nil => simp at r2
                | cons u b1 => simp only [List.cons_append, List.cons.injEq] at r2; exact ⟨u, _, rfl, r2.1.symm⟩
              obtain ⟨u, us, r3, rfl⟩ := spaced_next (by decide) h (fun c hb hc => by rw [hc] at hb; exact absurd hb (by decide)) hn
              cases x' with
              | nil => simp at r3
              | cons v x' =>
                simp only [List.cons_append, List.cons.injEq] at r3
                obtain ⟨rfl, r3⟩ := r3
                exact h1 g (x' ++ [0x2A]) (by simp)
            | cons d z =>
              injection r2 with r2 _
              exact absurd (k2.2.1 d (by rw [r1]; simp)) (by rw [← r2]; decide)
        · exact absurd (by simp [h]) h2
        · exact absurd (by simp [h]) h2
        · subst hc
          cases x' with
          | nil => simp at h
          | cons v x' =>
            simp only [List.cons_append, List.cons.injEq] at h
            exact absurd (by rw [h.1]) (h3 g x')

/-- White space and comments stay white space and comments. -/
theorem spaced_trivia {t u : List Byte} (h : PlainTrivia t u) (hu : ¬ NextIs Blank u) : ∀ {m : FMode} {o : List Byte}, Spaced m (t ++ u) o →
    ∃ t' o', o = t' ++ o' ∧ Trivia t' o' ∧ ((u = [] ∧ o' = []) ∨ ∃ c x y, u = c :: x ∧ o' = c :: y ∧ Spaced .start u o') := by
  induction h with
  | @nil u =>
    intro m o h
    rw [List.nil_append] at h
    rcases spaced_inv h with ⟨h1, h2⟩ | ⟨b, g, g', c, x, y, e1, e2, h1, h2, h3, h4⟩
    · cases u with
      | nil => exact ⟨o, [], by simp, by have := blank_trivia h2 (.nil []); simpa using this, .inl ⟨rfl, rfl⟩⟩
      | cons c x => exact absurd ⟨c, x, rfl, h1 c (by simp)⟩ hu
    · have hg : g = [] := by
        cases g with
        | nil => rfl
        | cons a g => exact absurd ⟨a, _, e1, h2.1 a (by simp)⟩ hu
      subst hg
      refine ⟨g', c :: y, e2, by have := blank_trivia h2.2.1 (.nil (c :: y)); simpa using this, .inr ⟨c, x, y, e1, rfl, ?_⟩⟩
      rw [e1]
      exact h4
  | @ws c t u hc _ ih =>
    intro m o h
    apply ih hu (m := .start)
    rcases spaced_inv h with ⟨h1, h2⟩ | ⟨b, g, g', d, x, y, e1, e2, h1, h2, h3, h4⟩
    · exact .stop (fun d hd => h1 d (by simp only [List.cons_append]; exact List.mem_cons_of_mem _ hd)) h2
    · cases g with
      | nil =>
        simp only [List.cons_append, List.nil_append, List.cons.injEq] at e1
        exact absurd (e1.1 ▸ hc) h1
      | cons a g =>
        simp only [List.cons_append, List.cons.injEq] at e1
        rw [e1.2, e2]
        exact spaced_add h4 (fun c hc => h2.1 c (by simp [hc])) h2.2.1 (.inl rfl)
  | @line body t u h1 h2 h3 _ ih =>
    intro m o h
    simp only [List.cons_append, List.append_assoc] at h
    rcases spaced_inv h with ⟨k1, _⟩ | ⟨b, g, g', d, x, y, e1, e2, k1, k2, k3, k4⟩
    · exact absurd (k1 0x2F (by simp)) (by decide)
    · obtain ⟨rfl, rfl, rfl⟩ := blank_cons k2.1 (by decide) e1
      rcases head_inv k4 k1 with ⟨_, h, _⟩ | ⟨h, _⟩ | ⟨h, _⟩ | ⟨_, body', s, s', f1, f2, f3, f4, f5, f6⟩
      · exact absurd ⟨rfl, _, _, rfl, rfl⟩ h
      · exact absurd h (by decide)
      · exact absurd h (by decide)
      · simp only [List.cons.injEq, true_and] at f1
        obtain ⟨rfl, rfl⟩ := munch (p := (· ≠ 0x0A)) (fun c hc => fun e => h1 (e ▸ hc)) (notNextIs_ne _ h3)
          (fun c hc => fun e => f3 (e ▸ hc)) (notNextIs_ne _ f4) f1
        obtain ⟨t', o', r1, r2, r3⟩ := ih hu f6
        refine ⟨g' ++ 0x2F :: 0x2F :: (body ++ t'), o', by rw [e2, f2, r1]; simp, blank_trivia k2.2.1 (.line h1 ?_ ?_ r2), r3⟩
        · rw [← r1]
          intro hx
          cases body with
          | nil =>
            obtain ⟨a, as, q1, q2⟩ := f5
            obtain ⟨b, bs, q3, q4⟩ := hx
            rw [List.nil_append, q1] at q3
            cases q3
            exact absurd (q2.symm.trans q4) (by decide)
          | cons a as =>
            obtain ⟨b, bs, q3, q4⟩ := hx
            simp only [List.cons_append, List.cons.injEq] at q3
            exact h2 ⟨a, _, rfl, q3.1 ▸ q4⟩
        · rw [← r1]
          exact .inr f5
  | @block body t u h1 h2 h3 hn _ ih =>
    intro m o h
    simp only [List.cons_append, List.append_assoc] at h
    rcases spaced_inv h with ⟨k1, _⟩ | ⟨b, g, g', d, x, y, e1, e2, k1, k2, k3, k4⟩
    · exact absurd (k1 0x2F (by simp)) (by decide)
    · obtain ⟨rfl, rfl, rfl⟩ := blank_cons k2.1 (by decide) e1
      rcases head_inv k4 k1 with ⟨_, _, h⟩ | ⟨h, _⟩ | ⟨h, _⟩ | ⟨_, _, _, _, h, _⟩
      · rcases spaced_inv h with ⟨k, _⟩ | ⟨b, g3, g4, d, x2, y2, f1, f2, l1, l2, l3, l4⟩
        · exact absurd (k 0x2A (by simp)) (by decide)
        · obtain ⟨rfl, rfl, rfl⟩ := blank_cons l2.1 (by decide) f1
          have h4 : g4 = [] := by
            rcases l2.2.2 with h | ⟨_, h | h | h⟩
            · exact absurd h (by decide)
            · exact absurd h (by decide)
            · exact absurd (l3 h) (by decide)
            · exact h rfl
          subst h4
          rcases head_inv l4 l1 with ⟨_, _, h⟩ | ⟨h, _⟩ | ⟨h, _⟩ | ⟨h, _⟩
          · obtain ⟨body', w', q1, q2, q3⟩ := spaced_block _ body (Nat.le_refl _) h1 h2 h3 hn h
            obtain ⟨t', o', r1, r2, r3⟩ := ih hu q3
            exact ⟨g' ++ 0x2F :: 0x2A :: (body' ++ 0x2A :: 0x2F :: t'), o', by rw [e2, f2, q1, r1]; simp,
              blank_trivia k2.2.1 (.block q2 r2), r3⟩
          · exact absurd h (by decide)
          · exact absurd h (by decide)
          · exact absurd h (by decide)
      · exact absurd h (by decide)
      · exact absurd h (by decide)
      · exact absurd h (by simp)

theorem spaced_chars_inv (a : List Byte) (h : ∀ d ∈ a, PlainChar d) : ∀ {r o : List Byte}, Spaced .tight (a ++ r) o →
    ∃ r', o = a ++ r' ∧ Spaced .tight r r' := by
  induction a with
  | nil => intro r o h; exact ⟨o, rfl, h⟩
  | cons c a ih =>
    intro r o hs
    obtain ⟨h1, h2, h3, h4⟩ := h c (by simp)
    rcases spaced_inv hs with ⟨k1, _⟩ | ⟨b, g, g', d, x, y, e1, e2, k1, k2, k3, k4⟩
    · exact absurd (k1 c (by simp)) h1
    · obtain ⟨rfl, rfl, rfl⟩ := blank_cons k2.1 h1 e1
      have hg : g' = [] := by
        rcases k2.2.2 with h | ⟨_, h | h | h⟩
        · cases h
        · cases h
        · exact absurd (k3 h) h4
        · exact h rfl
      subst hg
      rcases head_inv k4 k1 with ⟨_, _, h⟩ | ⟨h, _⟩ | ⟨h, _⟩ | ⟨h, _⟩
      · unfold FMode.after at h
        rw [if_neg h4] at h
        obtain ⟨r', h5, h6⟩ := ih (fun d hd => ‹∀ d ∈ _, PlainChar d› d (by simp [hd])) h
        exact ⟨r', by rw [e2, h5]; rfl, h6⟩
      · exact absurd h h2
      · exact absurd h h2
      · exact absurd h h3

theorem spaced_dot {r s' : List Byte} (h : Spaced .tight r (0x2E :: s')) : ∃ s, r = 0x2E :: s ∧ Spaced .tight s s' := by
  rcases spaced_inv h with ⟨_, k⟩ | ⟨b, g, g', d, x, y, e1, e2, k1, k2, k3, k4⟩
  · exact absurd (k 0x2E (by simp)) (by decide)
  · obtain ⟨rfl, rfl, rfl⟩ := blank_cons k2.2.1 (by decide) e2
    rcases k2.2.2 with h | ⟨h, _⟩
    · cases h
    · rw [h rfl] at e1
      refine ⟨x, e1, ?_⟩
      rcases head_inv k4 k1 with ⟨_, _, h⟩ | ⟨h, _⟩ | ⟨h, _⟩ | ⟨h, _⟩
      · exact h
      · exact absurd h (by decide)
      · exact absurd h (by decide)
      · exact absurd h (by decide)

theorem blank_not_word (c : Byte) (h : Blank c) : ¬ Letter c ∧ ¬ Digit c ∧ ¬ HexDigit c := by
  rw [← letter_iff, ← digit_iff, ← hexDigit_iff]
  rcases h with rfl | rfl | rfl | rfl <;> decide

theorem wordChar_plain (c : Byte) (h : Letter c ∨ Digit c) : PlainChar c := by
  refine identChar_plain c ?_
  rcases h with h | h
  · rw [(letter_iff c).2 h]; rfl
  · rw [(digit_iff c).2 h]; simp

theorem hexChar_plain (c : Byte) (h : HexDigit c) : PlainChar c := by
  have key : ∀ m : Fin 256, isHex (BitVec.ofFin m) = true → PlainChar (BitVec.ofFin m) := by decide +kernel
  exact key c.toFin ((hexDigit_iff c).2 h)

theorem num_plain {n r : List Byte} (h : NumLexeme n r) : ∀ d ∈ n, PlainChar d := by
  cases h with
  | hex hx hd _ =>
    intro d hm
    rcases List.mem_cons.1 hm with rfl | hm
    · decide
    rcases List.mem_cons.1 hm with rfl | hm
    · rcases hx with rfl | rfl <;> decide
    · exact hexChar_plain d (hd d hm)
  | int _ hd _ _ _ => exact fun d hm => wordChar_plain d (.inr (hd d hm))
  | frac _ hd _ hf _ =>
    intro d hm
    rcases List.mem_append.1 hm with hm | hm
    · exact wordChar_plain d (.inr (hd d hm))
    rcases List.mem_cons.1 hm with rfl | hm
    · decide
    · exact wordChar_plain d (.inr (hf d hm))

theorem num_spaced {n r r' : List Byte} (h : NumLexeme n r) (hs : Spaced .tight r r') : NumLexeme n r' := by
  have nx : ∀ {p : Byte → Prop}, (∀ c, Blank c → ¬ p c) → ¬ NextIs p r → ¬ NextIs p r' :=
    fun hp h h' => h (spaced_next (by simp) hs hp h')
  have dig : ∀ c, Blank c → ¬ Digit c := fun c h => (blank_not_word c h).2.1
  cases h with
  | hex hx hd hn => exact .hex hx hd (nx (fun c h => (blank_not_word c h).2.2) hn)
  | int h0 hd hn hf hz =>
    refine .int h0 hd (nx dig hn) (fun s' e hn' => ?_) (fun h => hz ⟨h.1, ?_⟩)
    · subst e
      obtain ⟨s, e, h⟩ := spaced_dot hs
      exact hf s e (spaced_next (by simp) h dig hn')
    · exact spaced_next (by simp) hs (fun c hb hc => by rcases hb with rfl | rfl | rfl | rfl <;> revert hc <;> decide) h.2
  | frac h0 hd hf0 hf hn => exact .frac h0 hd hf0 hf (nx dig hn)

theorem punct_chars : ∀ e ∈ punct, (∀ d ∈ e.1, ¬ Blank d) ∧ (∀ d ∈ e.1.tail, PlainChar d) ∧ e.1.headD 0 ≠ 0x22 ∧
    (e.1 = [0x2F] ∨ e.1.headD 0 ≠ 0x2F) ∧ (Brk (e.1.headD 0) → e.1.length = 1) := by decide +kernel

/-- A token stays a token. -/
theorem spaced_tok {raw r : List Byte} {ty : TT} {text : List Byte} (h : IsTok raw r ty text)
    (hstr : ty = .string → raw = 0x22 :: (text ++ [0x22]))
    (hdoc : ty = .doc → r = [] ∨ NextIs (· = 0x0A) r ∨ ∃ u, r = 0x0D :: 0x0A :: u)
    {c : Byte} {x y : List Byte} (e : raw ++ r = c :: x) (hs : Spaced .start (raw ++ r) (c :: y)) :
    ∃ m r', c :: y = raw ++ r' ∧ Spaced m r r' ∧ IsTok raw r' ty text := by
  have plain : ∀ (d : Byte) (a : List Byte), raw = d :: a → ¬ Blank d → d ≠ 0x22 → ¬ (d = 0x2F ∧ NextIs (· = 0x2F) (a ++ r)) →
      (∀ d ∈ a, PlainChar d) → (Brk d → a = []) → ∃ m r', c :: y = raw ++ r' ∧ (m = .free ∨ m = .tight) ∧
        (¬ Brk d → m = .tight) ∧ Spaced m r r' := by
    intro d a e1 h1 h2 h3 h4 h5
    subst e1
    simp only [List.cons_append, List.cons.injEq] at e
    obtain ⟨rfl, rfl⟩ := e
    rcases head_inv hs h1 with ⟨_, _, h⟩ | ⟨h, _⟩ | ⟨h, _⟩ | ⟨h, body, s, s', k, _⟩
    · by_cases hb : Brk d
      · have := h5 hb
        subst this
        unfold FMode.after at h
        rw [if_pos hb] at h
        exact ⟨.free, y, rfl, .inl rfl, fun h => absurd hb h, h⟩
      · unfold FMode.after at h
        rw [if_neg hb] at h
        obtain ⟨r', k1, k2⟩ := spaced_chars_inv a h4 h
        exact ⟨.tight, r', by rw [k1]; rfl, .inr rfl, fun _ => rfl, k2⟩
    · exact absurd h h2
    · exact absurd h h2
    · exact absurd ⟨h, _, _, k, rfl⟩ h3
  cases h with
  | op hp h1 h2 h3 =>
    obtain ⟨k1, k2, k3, k4, k5⟩ := punct_chars _ hp
    have k6 := (punct_head _ hp).1
    dsimp only at k1 k2 k3 k4 k5 k6
    cases raw with
    | nil => exact absurd rfl k6
    | cons d a =>
      simp only [List.headD_cons, List.tail_cons, List.length_cons] at k2 k3 k4 k5
      obtain ⟨m, r', q1, q2, q3, q4⟩ := plain d a rfl (k1 d (by simp)) k3 (fun h => by
        rcases k4 with k | k
        · simp only [List.cons.injEq] at k
          obtain ⟨b, bs, e1, e2⟩ := h.2
          rw [k.2, List.nil_append] at e1
          exact h2 (by rw [k.1, k.2]) ⟨b, bs, e1, .inl e2⟩
        · exact k h.1) k2 (fun h => List.eq_nil_of_length_eq_zero (by have := k5 h; omega))
      have hm : m ≠ .start := by rcases q2 with rfl | rfl <;> simp
      refine ⟨m, r', q1, q4, .op hp (fun b s' e ty' hm' => ?_) (fun e hn => h2 e ?_) (fun e hn => h3 e ?_)⟩
      · obtain ⟨b', s2, e', h'⟩ := spaced_next hm q4 (p := fun b => ∃ ty', (d :: a ++ [b], ty') ∈ punct)
          (fun b hb ⟨ty', h⟩ => (punct_chars _ h).1 b (by simp) hb) ⟨b, s', e, ty', hm'⟩
        obtain ⟨ty2, h'⟩ := h'
        exact h1 b' s2 e' ty2 h'
      · exact spaced_next hm q4 (fun b hb h => by rcases hb with rfl | rfl | rfl | rfl <;> revert h <;> decide) hn
      · exact spaced_next hm q4 (fun b hb => (blank_not_word b hb).2.1) hn
  | @word d cs _ _ h1 h2 h3 h4 =>
    obtain ⟨p1, p2, p3, p4⟩ := wordChar_plain d (.inl h1)
    obtain ⟨m, r', q1, q2, q3, q4⟩ := plain d cs rfl p1 p2 (fun h => p3 h.1) (fun b hb => wordChar_plain b (h2 b hb)) (fun h => absurd h p4)
    have := q3 p4
    subst this
    refine ⟨.tight, r', q1, q4, .word h1 h2 (fun hn => h3 (spaced_next (by simp) q4 (fun b hb h => ?_) hn)) h4⟩
    have := blank_not_word b hb
    exact h.elim this.1 this.2.1
  | num hn =>
    have hp := num_plain hn
    obtain ⟨d, a, rfl, hd⟩ := numLexeme_head hn
    obtain ⟨p1, p2, p3, p4⟩ := hp d (by simp)
    obtain ⟨m, r', q1, q2, q3, q4⟩ := plain d a rfl p1 p2 (fun h => p3 h.1) (fun b hb => hp b (by simp [hb])) (fun h => absurd h p4)
    have := q3 p4
    subst this
    exact ⟨.tight, r', q1, q4, .num (num_spaced hn q4)⟩
  | @negNum n _ hn =>
    obtain ⟨m, r', q1, q2, q3, q4⟩ := plain 0x2D n rfl (by decide) (by decide) (fun h => absurd h.1 (by decide)) (num_plain hn)
      (fun h => absurd h (by decide))
    have := q3 (by decide)
    subst this
    exact ⟨.tight, r', q1, q4, .negNum (num_spaced hn q4)⟩
  | str hq =>
    simp only [List.cons_append, List.append_assoc, List.cons.injEq, List.nil_append] at e hs
    obtain ⟨rfl, rfl⟩ := e
    rcases head_inv hs (by decide) with ⟨h, _⟩ | ⟨_, body, s, s', k1, k2, k3, k4⟩ | ⟨_, h⟩ | ⟨h, _⟩
    · exact absurd rfl h
    · obtain ⟨rfl, k6⟩ := munch (p := (· ≠ 0x22)) (fun c hc => fun e => hq (e ▸ hc)) (notQuote _)
        (fun c hc => fun e => k3 (e ▸ hc)) (notQuote _) k1
      injection k6 with _ k6
      subst k6
      exact ⟨.tight, s', by rw [k2]; simp, k4, .str hq⟩
    · exact absurd h (by simp)
    · exact absurd h (by decide)
  | openStr hq =>
    have := hstr rfl
    simp only [List.cons.injEq, true_and] at this
    have := congrArg List.length this
    simp at this
  | doc h1 h2 h3 =>
    simp only [List.cons_append, List.cons.injEq] at e hs
    obtain ⟨rfl, rfl⟩ := e
    rcases head_inv hs (by decide) with ⟨_, h, _⟩ | ⟨h, _⟩ | ⟨h, _⟩ | ⟨_, body, s, s', k1, k2, k3, k4, k5, k6⟩
    · exact absurd ⟨rfl, _, _, rfl, rfl⟩ h
    · exact absurd h (by decide)
    · exact absurd h (by decide)
    · simp only [List.cons.injEq, true_and] at k1
      have un : ∀ (t r2 : List Byte), 0x0A ∉ t → (r2 = [] ∨ NextIs (· = 0x0A) r2) → 0x2F :: (t ++ r2) = body ++ s → body = 0x2F :: t ∧ s = r2 := by
        intro t r2 ht hr he
        obtain ⟨q1, q2⟩ := munch (p := (· ≠ 0x0A)) (a := 0x2F :: t) (b := r2)
          (fun c hc => fun e => by rcases List.mem_cons.1 hc with h | h; rw [h] at e; exact absurd e (by decide); exact ht (e ▸ h))
          (notNextIs_ne _ hr) (fun c hc => fun e => k3 (e ▸ hc)) (notNextIs_ne _ k4) he
        exact ⟨q1.symm, q2.symm⟩
      have nl : ∀ {z : List Byte}, NextIs (· = 0x0A) z → NextIs (fun c => c = 0x0A ∨ c = 0x0D) z :=
        fun ⟨a, as, h, h'⟩ => ⟨a, as, h, .inl h'⟩
      rcases hdoc rfl with h | h | ⟨u, h⟩
      · obtain ⟨rfl, rfl⟩ := un _ _ h1 (.inl h) k1
        exact ⟨.free, s', by rw [k2]; simp, k6, .doc h1 h2 (.inr (nl k5))⟩
      · obtain ⟨rfl, rfl⟩ := un _ _ h1 (.inr h) k1
        exact ⟨.free, s', by rw [k2]; simp, k6, .doc h1 h2 (.inr (nl k5))⟩
      · subst h
        obtain ⟨rfl, rfl⟩ := un (text ++ [0x0D]) (0x0A :: u) (by simp; exact h1) (.inr ⟨_, _, rfl, rfl⟩) (by simpa using k1)
        refine ⟨.free, 0x0D :: s', by rw [k2]; simp, ?_, .doc h1 h2 (.inr ⟨_, _, rfl, .inr rfl⟩)⟩
        have hb : ∀ c ∈ [0x0D#8], Blank c := by intro c hc; simp at hc; rw [hc]; decide
        exact spaced_add (G := [0x0D]) (G' := [0x0D]) k6 hb hb (.inr ⟨by simp, by simp⟩)
  | error h1 h2 h3 h4 h5 =>
    rename_i d
    have hb : ¬ Blank d := by
      rintro (h | h | h | h) <;> rw [h] at h5 <;> exact h5 (by decide)
    obtain ⟨m, r', q1, q2, q3, q4⟩ := plain d [] rfl hb h3 (fun h => h4 .slash (by rw [h.1]; decide)) (by simp) (fun _ => rfl)
    exact ⟨m, r', q1, q4, .error h1 h2 h3 h4 h5⟩

theorem tok_head {raw r : List Byte} {ty : TT} {text : List Byte} (h : IsTok raw r ty text) :
    ¬ NextIs Blank (raw ++ r) ∧ raw ++ r ≠ [] := by
  refine ⟨fun ⟨c, cs, e, hb⟩ => ?_, fun e => (isTok_kind h).1 (List.append_eq_nil_iff.1 e).1⟩
  have hst := isTok_stop h
  refine hst.1 ⟨c, cs, e, ?_⟩
  rcases hb with rfl | rfl | rfl | rfl <;> decide

/-- Text spaced differently has the same tokens. -/
theorem spaced_lexes {s : List Byte} {toks : List (TT × List Byte)} (h : PlainText s toks) : ∀ {m : FMode} {o : List Byte},
    Spaced m s o → ∀ line, ∃ toks', Lexes o line toks' ∧ toks'.map (fun t => (t.type, t.text)) = toks ++ [(.eof, [])] := by
  induction h with
  | eof ht =>
    intro m o hs line
    obtain ⟨t', o', e, h1, h2 | ⟨c, x, y, h2, _⟩⟩ := spaced_trivia ht (fun ⟨_, _, h, _⟩ => by cases h) (by rw [List.append_nil]; exact hs)
    · rw [h2.2] at h1 e
      rw [List.append_nil] at e
      subst e
      exact ⟨_, .eof h1, rfl⟩
    · cases h2
  | tok ht hk h1 h2 _ ih =>
    intro m o hs line
    obtain ⟨k1, k2⟩ := tok_head hk
    obtain ⟨t', o', e, q1, q2 | ⟨c, x, y, q2, q3, q4⟩⟩ := spaced_trivia ht k1 hs
    · exact absurd q2.1 k2
    · subst q3
      obtain ⟨m', r', f1, f2, f3⟩ := spaced_tok hk h1 h2 q2 q4
      obtain ⟨toks', g1, g2⟩ := ih f2 (line + newlines t')
      rw [f1] at q1 e
      subst e
      exact ⟨_, .tok q1 f3 g1, by simp [g2]⟩

theorem plainTrivia_trivia {t u : List Byte} (h : PlainTrivia t u) : Trivia t u := by
  induction h with
  | nil => exact .nil _
  | ws hc _ ih => exact .ws (by rcases hc with rfl | rfl | rfl | rfl <;> decide) ih
  | line h1 h2 h3 _ ih => exact .line h1 h2 h3 ih
  | block h1 _ _ _ _ ih => exact .block h1 ih

theorem plain_lexes {s : List Byte} {toks : List (TT × List Byte)} (h : PlainText s toks) (line : Nat) :
    ∃ toks', Lexes s line toks' ∧ toks'.map (fun t => (t.type, t.text)) = toks ++ [(.eof, [])] := by
  induction h generalizing line with
  | eof ht => exact ⟨_, .eof (plainTrivia_trivia ht), rfl⟩
  | @tok t _ _ _ _ _ ht hk _ _ _ ih =>
    obtain ⟨toks', g1, g2⟩ := ih (line + newlines t)
    exact ⟨_, .tok (plainTrivia_trivia ht) hk g1, by simp [g2]⟩

theorem bare_of_pairs {a b : List Tok} (h : a.map (fun t => (t.type, t.text)) = b.map (fun t => (t.type, t.text))) :
    a.map Tok.bare = b.map Tok.bare := by
  have := congrArg (List.map fun p : TT × List Byte => (⟨p.1, p.2, 0⟩ : Tok)) h
  rw [List.map_map, List.map_map] at this
  exact this

/-- C89. The formatted text of a plain text has the same tokens: the same types, and the same spellings. -/
theorem C89_tokens (s : List Byte) (hs : NoNul s) (toks : List (TT × List Byte)) (h : PlainText s toks) :
    ∃ out, (∀ post, fmtSource (s ++ 0 :: post) = some out) ∧ NoNul out ∧ ∃ t1 t2, Lexes s 1 t1 ∧ Lexes out 1 t2 ∧
      t1.map (fun t => (t.type, t.text)) = toks ++ [(.eof, [])] ∧ t2.map (fun t => (t.type, t.text)) = toks ++ [(.eof, [])] := by
  obtain ⟨out, h1, -, h3⟩ := fmtLoop_spaced s.length s [] .start fmtStart (by omega) hs (by simp)
    ⟨fun _ => ⟨rfl, rfl, rfl⟩, fun h => by cases h⟩
  have h3' : ∀ post, fmtSource (s ++ 0 :: post) = some out := fun post => h3 post _ (by simp; omega)
  obtain ⟨out', k1, k2⟩ := C50_formatter s hs
  have e : out' = out := Option.some.inj ((k2 []).symm.trans (h3' []))
  subst e
  obtain ⟨t1, a1, a2⟩ := plain_lexes h 1
  obtain ⟨t2, b1, b2⟩ := spaced_lexes h h1 1
  refine ⟨out', h3', fun c hc e => ?_, t1, t2, a1, b1, a2, b2⟩
  subst e
  have : (0 : Byte) ∈ ink out' := by
    unfold ink
    rw [List.mem_filter]
    exact ⟨hc, by decide⟩
  rw [k1] at this
  exact hs 0 (List.mem_filter.1 this).1 rfl

/-- C89. The formatted program is compiled to what the program is compiled to, or rejected if it is rejected. -/
theorem C89_compile (s : List Byte) (hs : NoNul s) (toks : List (TT × List Byte)) (h : PlainText s toks) (out : List Byte)
    (ho : fmtSource (s ++ [0]) = some out) (P : PEnv) (f : Nat) : compile P f out = compile P f s := by
  obtain ⟨out', h1, h2, t1, t2, h3, h4, h5, h6⟩ := C89_tokens s hs toks h
  have e : out = out' := Option.some.inj (ho.symm.trans (h1 []))
  subst e
  unfold compile
  rw [(C49_iff s hs 1 [] t1).2 h3, (C49_iff out h2 1 [] t2).2 h4]
  dsimp only
  rw [bare_of_pairs (h5.trans h6.symm)]

/-! ### Which texts are plain -/

theorem trivia_line {t u : List Byte} (h : Trivia t u) (hb : ∀ a b, t ++ u ≠ a ++ 0x2F :: 0x2A :: b) : PlainTrivia t u := by
  induction h with
  | nil => exact .nil
  | @ws c t u hc _ ih =>
    refine .ws ?_ (ih fun a b e => hb (c :: a) b (by rw [List.cons_append, e]; rfl))
    simp at hc
    rcases hc with h | h | h | h
    · exact .inl h
    · exact .inr (.inr (.inl h))
    · exact .inr (.inl h)
    · exact .inr (.inr (.inr h))
  | @line body t u h1 h2 h3 _ ih =>
    exact .line h1 h2 h3 (ih fun a b e => hb (0x2F :: 0x2F :: (body ++ a)) b (by simp [e]))
  | block _ _ _ => exact absurd rfl (hb [] _)
  | @openBlock body _ => exact absurd (by simp) (hb [] body)

/-- C89. Every text without slash-star, in which carriage returns stand in front of line feeds only, is plain, except for
those that end inside a string. -/
theorem C89_plain {s : List Byte} {line : Nat} {ts : List Tok} (h : Lexes s line ts) (hb : ∀ a b, s ≠ a ++ 0x2F :: 0x2A :: b)
    (hr : ∀ a b, s = a ++ 0x0D :: b → NextIs (· = 0x0A) b) :
    (∃ toks, PlainText s toks) ∨ ∃ pre text us l l', s = pre ++ 0x22 :: text ∧ 0x22 ∉ text ∧ ts = us ++ [⟨.string, text, l⟩, ⟨.eof, [], l'⟩] := by
  induction h with
  | eof ht => exact .inl ⟨_, .eof (trivia_line ht (by simpa using hb))⟩
  | @tok t raw r line ty text ts ht hk hl ih =>
    by_cases ho : r = [] ∧ raw = 0x22 :: text ∧ 0x22 ∉ text ∧ ty = .string
    · obtain ⟨rfl, rfl, ho, rfl⟩ := ho
      have hl' := C49_unique hl (.eof (.nil []))
      exact .inr ⟨t, text, [], _, _, by simp, ho, by rw [hl']; rfl⟩
    · rcases ih (fun a b e => hb (t ++ (raw ++ a)) b (by rw [e]; simp)) (fun a b e => hr (t ++ (raw ++ a)) b (by rw [e]; simp))
        with ⟨toks, h⟩ | ⟨pre, text', us, l, l', h1, h2, h3⟩
      · refine .inl ⟨_, .tok (trivia_line ht hb) hk (fun e => ?_) (fun e => ?_) h⟩
        · subst e
          cases hk with
          | op hp =>
            have : ∀ e ∈ punct, e.2 ≠ .string := by decide +kernel
            exact absurd rfl (this _ hp)
          | word _ _ _ h =>
            rcases h with h | h
            · have : ∀ e ∈ keywords, e.2 ≠ .string := by decide +kernel
              exact absurd rfl (this _ h)
            · cases h.1
          | str h => rfl
          | openStr h => exact absurd ⟨rfl, rfl, h, rfl⟩ ho
        · subst e
          cases hk with
          | op hp =>
            have : ∀ e ∈ punct, e.2 ≠ .doc := by decide +kernel
            exact absurd rfl (this _ hp)
          | word _ _ _ h =>
            rcases h with h | h
            · have : ∀ e ∈ keywords, e.2 ≠ .doc := by decide +kernel
              exact absurd rfl (this _ h)
            · cases h.1
          | doc h1 h2 h3 =>
            rcases h3 with h | ⟨c, cs, rfl, rfl | rfl⟩
            · exact .inl h
            · exact .inr (.inl ⟨_, _, rfl, rfl⟩)
            · obtain ⟨d, ds, rfl, rfl⟩ := hr (t ++ 0x2F :: 0x2F :: 0x2F :: text) cs (by simp)
              exact .inr (.inr ⟨_, rfl⟩)
      · exact .inr ⟨t ++ (raw ++ pre), text', _ :: us, l, l', by rw [h1]; simp, h2, by rw [h3]; rfl⟩

/-! ### Programs of several files -/

/-- `b` is `a`, or what the formatter makes of it. -/
def Reformatted (a b : List Byte) : Prop :=
  b = a ∨ (NoNul a ∧ (∃ toks, PlainText a toks) ∧ fmtSource (a ++ [0]) = some b)

theorem reformatted_toks {a b : List Byte} (h : Reformatted a b) : fileToks b = fileToks a := by
  rcases h with rfl | ⟨hn, ⟨toks, hp⟩, ho⟩
  · rfl
  · obtain ⟨out', h1, h2, t1, t2, h3, h4, h5, h6⟩ := C89_tokens a hn toks hp
    have e : b = out' := Option.some.inj (ho.symm.trans (h1 []))
    subst e
    unfold fileToks
    rw [(C49_iff a hn 1 [] t1).2 h3, (C49_iff b h2 1 [] t2).2 h4]
    simp only [Option.map_some]
    rw [bare_of_pairs (h5.trans h6.symm)]

/-- The same directories, with some files formatted. -/
structure FilesFmt (fs fs' : Files) : Prop where
  canon : fs'.canon = fs.canon
  none : ∀ p, fs.read p = none → fs'.read p = none
  some : ∀ p a, fs.read p = some a → ∃ b, fs'.read p = some b ∧ Reformatted a b

theorem filesFmt_loop (P : PEnv) {fs fs' : Files} (h : FilesFmt fs fs') (f : Nat) :
    (∀ s, parseImport P fs' f s = parseImport P fs f s) ∧ (∀ s, topDecI P fs' f s = topDecI P fs f s) ∧
    (∀ s, topDecsI P fs' f s = topDecsI P fs f s) ∧ (∀ s, topLoopI P fs' f s = topLoopI P fs f s) := by
  induction f with
  | zero => exact ⟨fun _ => by simp [parseImport], fun _ => by simp [topDecI], fun _ => by simp [topDecsI], fun _ => by simp [topLoopI]⟩
  | succ f ih =>
    obtain ⟨i1, i2, i3, i4⟩ := ih
    have e3 : topDecsI P fs' f = topDecsI P fs f := funext i3
    have e4 : topLoopI P fs' f = topLoopI P fs f := funext i4
    refine ⟨fun s => ?_, fun s => ?_, fun s => ?_, fun s => ?_⟩
    · rw [parseImport, parseImport, h.canon]
      dsimp only
      generalize fs.canon _ = full
      cases hr : fs.read full with
      | none => rw [h.none _ hr]
      | some a =>
        obtain ⟨b, hb, hf⟩ := h.some _ _ hr
        rw [hb]
        dsimp only
        rw [reformatted_toks hf, e4]
    · rw [topDecI, topDecI]
      simp only [i1]
    · rw [topDecsI, topDecsI]
      simp only [i2, e3]
    · rw [topLoopI, topLoopI]
      simp only [i3, e4]

/-- C89. A program of several files is compiled to the same image when any of its files are formatted. -/
theorem C89_files (P : PEnv) (fs fs' : Files) (h : FilesFmt fs fs') (f : Nat) (path : List Byte) :
    compileFile P fs' f path = compileFile P fs f path := by
  unfold compileFile
  rw [h.canon]
  dsimp only
  cases hr : fs.read (fs.canon path) with
  | none => rw [h.none _ hr]
  | some a =>
    obtain ⟨b, hb, hf⟩ := h.some _ _ hr
    rw [hb]
    dsimp only
    rw [reformatted_toks hf]
    unfold parseFiles
    simp only [(filesFmt_loop P h f).2.2.2]

theorem filesFmt_one {a b : List Byte} (hab : Reformatted a b) {canon : List Byte → List Byte} {read : List Byte → Option (List Byte)}
    {p : List Byte} : FilesFmt ⟨canon, fun q => if q = p then some a else read q⟩ ⟨canon, fun q => if q = p then some b else read q⟩ := by
  refine ⟨rfl, fun q h => ?_, fun q a' h => ?_⟩
  · dsimp only at h ⊢
    by_cases hq : q = p
    · rw [if_pos hq] at h; cases h
    · rw [if_neg hq] at h ⊢; exact h
  · dsimp only at h ⊢
    by_cases hq : q = p
    · rw [if_pos hq] at h ⊢
      cases h
      exact ⟨b, rfl, hab⟩
    · rw [if_neg hq] at h ⊢
      exact ⟨a', h, .inl rfl⟩

/-! ### An example -/

/-- No slash-star, and a line feed behind every carriage return. -/
def noBlocks : List Byte → Bool
  | [] => true
  | [c] => c ≠ 0x0D
  | c :: d :: s => ¬ (c = 0x2F ∧ d = 0x2A) ∧ (c = 0x0D → d = 0x0A) ∧ noBlocks (d :: s)

theorem noBlocks_spec (s : List Byte) (h : noBlocks s = true) :
    (∀ a b, s ≠ a ++ 0x2F :: 0x2A :: b) ∧ ∀ a b, s = a ++ 0x0D :: b → NextIs (· = 0x0A) b := by
  induction s using noBlocks.induct with
  | case1 => exact ⟨fun a b e => (by cases a <;> cases e), fun a b e => (by cases a <;> cases e)⟩
  | case2 c =>
    refine ⟨fun a b e => ?_, fun a b e => ?_⟩
    · have := congrArg List.length e
      simp at this
      omega
    · cases a with
      | nil => cases e; simp [noBlocks] at h
      | cons x a => cases a <;> cases e
  | case3 c d s ih =>
    simp only [noBlocks, decide_eq_true_eq] at h
    obtain ⟨h1, h2, h3⟩ := h
    obtain ⟨i1, i2⟩ := ih h3
    refine ⟨fun a b e => ?_, fun a b e => ?_⟩
    · cases a with
      | nil => cases e; exact h1 ⟨rfl, rfl⟩
      | cons x a => injection e with _ e; exact i1 a b e
    · cases a with
      | nil => cases e; exact ⟨d, s, rfl, h2 rfl⟩
      | cons x a => injection e with _ e; exact i2 a b e

namespace FmtDemo

/-- A text with comments of both kinds, carriage returns and a string. -/
def src : List Byte := word "// one\r\n/// Two.\r\n@import(\"a;b.cnd\")packet P{u8 a; // three\r\n@range(-1,2.5)float b;\r\nu8 c[a-1];}"
def out : List Byte := word "// one\r\n\n/// Two.\r\n\n@import(\"a;b.cnd\")packet P {\n    u8 a;\n    // three\r\n\n    @range(-1, 2.5)float b;\n\n    u8 c[a-1];\n}\n"

/-- The formatter puts an empty line behind every comment and every semicolon at the end of a line, and a comment at the end of a
line goes to the next one. -/
theorem formatted : fmtSource (src ++ [0]) = some out := by decide +kernel

theorem plain : ∃ toks, PlainText src toks := by
  obtain ⟨toks, h1, h2⟩ := C49_lexer src (by unfold NoNul; decide +kernel) 1
  obtain ⟨k1, k2⟩ := noBlocks_spec src (by decide +kernel)
  rcases C89_plain h1 k1 k2 with h | ⟨pre, text, us, l, l', _, _, e⟩
  · exact h
  · have : (lexAll (src.length + 1) (src ++ [0]) 1).map (fun ts => (ts.reverse.drop 1).head?.map (·.type)) = some (some .rbrace) := by
      decide +kernel
    rw [h2 [], e] at this
    simp at this

example (P : PEnv) (f : Nat) : compile P f out = compile P f src := by
  obtain ⟨toks, h⟩ := plain
  exact C89_compile src (by unfold NoNul; decide +kernel) toks h out formatted P f

/-- A file that is formatted, among others that are not. -/
example (P : PEnv) (f : Nat) (read : List Byte → Option (List Byte)) (p path : List Byte) :
    compileFile P ⟨id, fun q => if q = p then some out else read q⟩ f path =
      compileFile P ⟨id, fun q => if q = p then some src else read q⟩ f path :=
  C89_files P _ _ (filesFmt_one (.inr ⟨by unfold NoNul; decide +kernel, plain, formatted⟩)) f path

/-- A text that ends inside a string gets a line feed into that string. -/
theorem C89_open_false : ∃ s o, NoNul s ∧ fmtSource (s ++ [0]) = some o ∧
    (lexAll 20 (s ++ [0]) 1).map (fun ts => ts.map fun t => (t.type, t.text)) = some [(.string, word "a"), (.eof, [])] ∧
    (lexAll 20 (o ++ [0]) 1).map (fun ts => ts.map fun t => (t.type, t.text)) = some [(.string, word "a\n"), (.eof, [])] :=
  ⟨word "\"a", _, by unfold NoNul; decide +kernel, rfl, by decide +kernel, by decide +kernel⟩

/-- The formatter does not know block comments: behind one with a single quotation mark it takes what is outside strings for strings
and the other way round. -/
theorem C89_blocks_false : ∃ s o, NoNul s ∧ fmtSource (s ++ [0]) = some o ∧
    (lexAll 60 (s ++ [0]) 1).map (fun ts => ts.map fun t => (t.type, t.text)) ≠
    (lexAll 60 (o ++ [0]) 1).map (fun ts => ts.map fun t => (t.type, t.text)) :=
  ⟨word "/*\"*/ @import(\"a,b\")", _, by unfold NoNul; decide +kernel, rfl, by decide +kernel⟩

end FmtDemo

end Cnd
