import Verif.LspSymbols
import Verif.Props.ParseTerm
/-
  C95: outline, definitions and documentation in the editor.
-/

namespace Cnd

/-! ### Specification: the declarations of a text

The declarations of a sequence of tokens are found by looking at the tokens only, from left to right: `struct` or `enum` with a name behind it, where a
declaration can stand: at the beginning, behind a semicolon or a closing brace, behind documentation comments and behind decorators. The documentation
of a declaration are the comments directly before it or before its decorators. A decorator is an at sign and a word, with everything up to the next
closing parenthesis if there is an opening one behind the word. -/

/-- Where the reader is: a declaration can begin; behind an at sign; behind the word of a decorator; in its parentheses; behind them; in something
else; behind a keyword. -/
inductive Mode
  | ready
  | at
  | word
  | skip
  | deco
  | busy
  | kw (k : Sort95)
  deriving DecidableEq, Repr

/-- The reader: where it is, and the comments before. -/
structure Reader where
  mode : Mode
  docs : List (List Byte)
  deriving DecidableEq, Repr

/-- A token where none is expected in particular; `free` tells whether a declaration can begin here. -/
def readPlain (free : Bool) (docs : List (List Byte)) (t : Tok) : Reader :=
  match t.type with
  | .doc => ⟨.ready, docs ++ [t.text]⟩
  | .at => ⟨.at, docs⟩
  | .kwStruct => if free then ⟨.kw .struct, docs⟩ else ⟨.busy, []⟩
  | .kwEnum => if free then ⟨.kw .enum, docs⟩ else ⟨.busy, []⟩
  | .semicolon => ⟨.ready, []⟩
  | .rbrace => ⟨.ready, []⟩
  | _ => ⟨.busy, []⟩

/-- The reader behind a token. -/
def readTok (q : Reader) (t : Tok) : Reader :=
  match q.mode with
  | .skip => if t.type = .rparen then ⟨.deco, q.docs⟩ else q
  | .at => if t.type = .identifier then ⟨.word, q.docs⟩ else readPlain false [] t
  | .word => if t.type = .lparen then ⟨.skip, q.docs⟩ else readPlain true q.docs t
  | .kw _ => readPlain false [] t
  | .busy => readPlain false [] t
  | .ready => readPlain true q.docs t
  | .deco => readPlain true q.docs t

/-- A declaration: its name, the number of tokens behind the name, and the comments before. -/
structure Decl95 where
  sort : Sort95
  name : List Byte
  behind : Nat
  docs : List (List Byte)
  deriving DecidableEq, Repr

/-- The declaration that a token completes. -/
def declAt (q : Reader) (t : Tok) (behind : Nat) : List Decl95 :=
  match q.mode with
  | .kw k => if t.type = .identifier then [⟨k, t.text, behind, q.docs⟩] else []
  | _ => []

/-- The declarations of a sequence of tokens, in order. -/
def scan (q : Reader) : List Tok → List Decl95
  | [] => []
  | t :: ts => declAt q t ts.length ++ scan (readTok q t) ts

/-- The text of documentation comments: their lines; empty lines at the beginning are left out. -/
def docText (docs : List (List Byte)) : Option (List Byte) :=
  match docs.dropWhile (· = []) with
  | [] => none
  | d :: ds => some (d ++ (ds.map (0x0A :: ·)).flatten)

/-- The declarations of a file. -/
def declared95 (file : List Byte) (toks : List Tok) : List Found :=
  (scan ⟨.ready, []⟩ toks).map fun d => ⟨d.sort, d.name, file, lineOf toks d.behind, docText d.docs⟩

/-! ### Reading over tokens -/

/-- The tokens in front of the parser. -/
abbrev PSt.rest (s : PSt) : List Tok := s.cur :: s.toks

/-- The end of the file is only at the end. -/
def Ends95 : List Tok → Prop
  | [] => True
  | t :: ts => (t.type = .eof → ts = []) ∧ Ends95 ts

/-- What is left of `l` is `m`; behind the last token come ends of the file. -/
def Tail95 (l m : List Tok) : Prop := m <:+ l ∨ m <:+ [eofTok]

theorem Tail95.refl (l : List Tok) : Tail95 l l := .inl (List.suffix_refl _)
theorem Tail95.trans {a b c : List Tok} (h : Tail95 a b) (g : Tail95 b c) : Tail95 a c := by
  rcases g with g | g
  · rcases h with h | h
    · exact .inl (g.trans h)
    · exact .inr (g.trans h)
  · exact .inr g

/-- From `a` to `b` the parser has read over tokens that declare nothing: a reader with `X` comes to be one with `Y`. If there are messages, nothing is
claimed. -/
def Seen95 (X Y : Reader → Prop) (a b : PSt) : Prop :=
  (a.errs ≠ 0 → b.errs ≠ 0) ∧ (b.errs = 0 → Ends95 a.rest → (Ends95 b.rest ∧ Tail95 a.rest b.rest) ∧ ∀ q, X q → ∃ q', Y q' ∧ scan q a.rest = scan q' b.rest)

theorem Seen95.refl (X : Reader → Prop) (a : PSt) : Seen95 X X a a := ⟨id, fun _ hE => ⟨⟨hE, .refl _⟩, fun q h => ⟨q, h, rfl⟩⟩⟩

theorem Seen95.trans {X Y Z : Reader → Prop} {a b c : PSt} (h : Seen95 X Y a b) (g : Seen95 Y Z b c) : Seen95 X Z a c := by
  refine ⟨fun e => g.1 (h.1 e), fun e hE => ?_⟩
  have hb : b.errs = 0 := by
    by_cases hb : b.errs = 0
    · exact hb
    · exact absurd e (g.1 hb)
  obtain ⟨⟨E1, T1⟩, s1⟩ := h.2 hb hE
  obtain ⟨⟨E2, T2⟩, s2⟩ := g.2 e E1
  refine ⟨⟨E2, T1.trans T2⟩, fun q hq => ?_⟩
  obtain ⟨q1, y1, e1⟩ := s1 q hq
  obtain ⟨q2, y2, e2⟩ := s2 q1 y1
  exact ⟨q2, y2, e1.trans e2⟩

theorem Seen95.weaken {X X' Y Y' : Reader → Prop} {a b : PSt} (h : Seen95 X Y a b) (hx : ∀ q, X' q → X q) (hy : ∀ q, Y q → Y' q) : Seen95 X' Y' a b :=
  ⟨h.1, fun e hE => ⟨(h.2 e hE).1, fun q hq => ((h.2 e hE).2 q (hx q hq)).imp fun _ ⟨u, v⟩ => ⟨hy _ u, v⟩⟩⟩

theorem seen_error (X Y : Reader → Prop) (a : PSt) : Seen95 X Y a a.error :=
  ⟨fun _ => by simp [PSt.error], fun e => absurd e (by simp [PSt.error])⟩

theorem seen_same {X Y : Reader → Prop} {a b c : PSt} (h : Seen95 X Y a b) (h1 : c.cur = b.cur) (h2 : c.toks = b.toks) (h3 : c.log = b.log) : Seen95 X Y a c := by
  have hr : c.rest = b.rest := by unfold PSt.rest; rw [h1, h2]
  have he : c.errs = b.errs := by unfold PSt.errs; rw [h3]
  unfold Seen95
  rw [hr, he]
  exact h

theorem pull_clean (ts : List Tok) (l : List Nat) (h : (pull ts l).2.2 = []) :
    l = [] ∧ ((ts = [] ∧ (pull ts l).1 = eofTok ∧ (pull ts l).2.1 = []) ∨ ∃ t r, ts = t :: r ∧ (pull ts l).1 = t ∧ (pull ts l).2.1 = r) := by
  induction ts generalizing l with
  | nil => exact ⟨h, .inl ⟨rfl, rfl, rfl⟩⟩
  | cons t ts ih =>
    by_cases ht : t.type = .error
    · have e : pull (t :: ts) l = pull ts (ts.length :: l) := by
        rw [pull, if_pos ht]
      rw [e] at h
      exact absurd (ih _ h).1 (by simp)
    · have e : pull (t :: ts) l = (t, ts, l) := by
        rw [pull, if_neg ht]
      rw [e] at h ⊢
      exact ⟨h, .inr ⟨t, ts, rfl, rfl, rfl⟩⟩

theorem pull_mono (ts : List Tok) (l : List Nat) (h : l ≠ []) : (pull ts l).2.2 ≠ [] := fun e => h (pull_clean ts l e).1

theorem scan_eof (q : Reader) : scan q [eofTok] = [] := by
  unfold scan declAt
  split <;> rfl

/-- Reading one token without a message. -/
theorem advance_clean (a : PSt) (e : a.advance.errs = 0) (hE : Ends95 a.rest) (q : Reader) :
    (Ends95 a.advance.rest ∧ Tail95 a.rest a.advance.rest) ∧ scan q a.rest = declAt q a.cur a.toks.length ++ scan (readTok q a.cur) a.advance.rest := by
  have hl : (pull a.toks a.log).2.2 = [] := by simpa [PSt.errs, PSt.advance] using e
  obtain ⟨-, h3⟩ := pull_clean _ _ hl
  have hr : a.advance.rest = (pull a.toks a.log).1 :: (pull a.toks a.log).2.1 := rfl
  rw [hr]
  rcases h3 with ⟨u, v, w⟩ | ⟨t, r, u, v, w⟩
  · rw [v, w]
    refine ⟨⟨⟨fun _ => rfl, trivial⟩, .inr (List.suffix_refl _)⟩, ?_⟩
    rw [scan_eof]
    show scan q (a.cur :: a.toks) = _
    rw [u]
    rfl
  · rw [v, w, ← u]
    exact ⟨⟨hE.2, .inl (List.suffix_cons _ _)⟩, rfl⟩

theorem advance_errs (a : PSt) (e : a.errs ≠ 0) : a.advance.errs ≠ 0 := by
  have := pull_mono a.toks a.log (by intro h; exact e (by simp [PSt.errs, h]))
  simpa [PSt.errs, PSt.advance] using this

/-- Reading one token. -/
theorem seen_advance {X Y : Reader → Prop} (a : PSt)
    (h : ∀ q, X q → (∀ n, declAt q a.cur n = []) ∧ Y (readTok q a.cur)) : Seen95 X Y a a.advance := by
  refine ⟨advance_errs a, fun e hE => ⟨(advance_clean a e hE ⟨.ready, []⟩).1, fun q hq => ?_⟩⟩
  obtain ⟨h1, h2⟩ := h q hq
  refine ⟨_, h2, ?_⟩
  rw [(advance_clean a e hE q).2, h1]
  rfl

theorem seen_consume {X Y : Reader → Prop} (a : PSt) (ty : TT)
    (h : ∀ q t, t.type = ty → X q → (∀ n, declAt q t n = []) ∧ Y (readTok q t)) : Seen95 X Y a (a.consume ty) := by
  unfold PSt.consume
  split
  · exact seen_advance a fun q hq => h q _ (by assumption) hq
  · exact seen_error _ _ _

/-! ### Expressions -/

/-- Everywhere but behind a keyword of a declaration. -/
def InExpr (q : Reader) : Prop := ∀ k, q.mode ≠ .kw k
/-- In something else, or in the parentheses of a decorator. -/
def Inside95 (q : Reader) : Prop := q.mode = .busy ∨ q.mode = .skip
/-- Neither behind a keyword nor within a decorator. -/
def InBody (q : Reader) : Prop := q.mode = .ready ∨ q.mode = .word ∨ q.mode = .deco ∨ q.mode = .busy

theorem declAt_none {q : Reader} (h : InExpr q) (t : Tok) (n : Nat) : declAt q t n = [] := by
  unfold declAt
  split
  · next k e => exact absurd e (h k)
  · rfl

theorem plain_busy (t : Tok) (docs : List (List Byte)) : InExpr (readPlain false docs t) := by
  intro k
  unfold readPlain
  split <;> simp

theorem plain_free (t : Tok) (free : Bool) (docs : List (List Byte)) (h1 : t.type ≠ .kwStruct) (h2 : t.type ≠ .kwEnum) : InExpr (readPlain free docs t) := by
  intro k
  unfold readPlain
  split <;> simp_all

theorem read_inExpr {q : Reader} (hq : InExpr q) (t : Tok) (h : Inside95 q ∨ (t.type ≠ .kwStruct ∧ t.type ≠ .kwEnum)) : InExpr (readTok q t) := by
  unfold readTok
  split
  · split
    · intro k; simp
    · exact hq
  · split
    · intro k; simp
    · exact plain_busy _ _
  · next e =>
    split
    · intro k; simp
    · rcases h with h | h
      · rcases h with h | h <;> simp [h] at e
      · exact plain_free _ _ _ h.1 h.2
  · next k e => exact absurd e (hq k)
  · exact plain_busy _ _
  · next e =>
    rcases h with h | h
    · rcases h with h | h <;> simp [h] at e
    · exact plain_free _ _ _ h.1 h.2
  · next e =>
    rcases h with h | h
    · rcases h with h | h <;> simp [h] at e
    · exact plain_free _ _ _ h.1 h.2

/-- Behind an operator or an opening parenthesis nothing is declared. -/
theorem read_inside {q : Reader} (hq : InExpr q) (t : Tok) (h : t.type = .lparen ∨ t.type = .minus ∨ t.type = .bang ∨ t.type = .tilde) :
    Inside95 (readTok q t) := by
  unfold readTok readPlain Inside95
  rcases h with h | h | h | h <;> rw [h] <;> split <;> simp_all [InExpr]

theorem seen_adv_expr (a : PSt) (h1 : a.cur.type ≠ .kwStruct) (h2 : a.cur.type ≠ .kwEnum) : Seen95 InExpr InExpr a a.advance :=
  seen_advance a fun q hq => ⟨declAt_none hq _, read_inExpr hq _ (.inr ⟨h1, h2⟩)⟩

theorem seen_eat_expr (a : PSt) (ty : TT) (h1 : ty ≠ .kwStruct) (h2 : ty ≠ .kwEnum) : Seen95 InExpr InExpr a (a.consume ty) :=
  seen_consume a ty fun q t ht hq => ⟨declAt_none hq _, read_inExpr hq _ (.inr ⟨by rw [ht]; exact h1, by rw [ht]; exact h2⟩)⟩

theorem inside_inExpr {q : Reader} (h : Inside95 q) : InExpr q := by
  intro k e
  rcases h with h | h <;> simp [h] at e

theorem seen_adv_any (a : PSt) : Seen95 Inside95 InExpr a a.advance :=
  seen_advance a fun q hq => ⟨declAt_none (inside_inExpr hq) _, read_inExpr (inside_inExpr hq) _ (.inl hq)⟩

/-- What an outcome that is a state says. -/
def PRes.Gives (p : PSt → Prop) (r : PRes) : Prop := ∀ t s, r = .ok t s → p s

theorem dotLoop_seen (f : Nat) (name : List Byte) (s : PSt) (o : Option (List Byte)) (s' : PSt) (h : dotLoop f name s = some (o, s')) :
    Seen95 InExpr InExpr s s' := by
  induction f generalizing name s with
  | zero => cases h
  | succ f ih =>
    unfold dotLoop at h
    split at h
    · next hd =>
      have h1 := seen_adv_expr s (by rw [hd]; decide) (by rw [hd]; decide)
      have h2 := h1.trans (seen_eat_expr s.advance .identifier (by decide) (by decide))
      dsimp only at h
      split at h
      · simp only [Option.some.injEq, Prod.mk.injEq] at h
        rw [← h.2]
        exact h2.trans (seen_error _ _ _)
      · exact h2.trans (ih _ _ h)
    · simp only [Option.some.injEq, Prod.mk.injEq] at h
      rw [← h.2]
      exact Seen95.refl _ _

theorem gives_then {p q : PSt → Prop} {r : PRes} {F : ETy → PSt → PRes} (h : r.Gives p) (g : ∀ t s, p s → (F t s).Gives q) : (r.then F).Gives q := by
  intro t s e
  cases r with
  | ok t' s' => exact g t' s' (h t' s' rfl) t s e
  | ub => cases e
  | stuck => cases e

theorem gives_ok {p : PSt → Prop} {t : ETy} {s : PSt} (h : p s) : (PRes.ok t s).Gives p := by
  intro t' s' e
  cases e
  exact h

theorem seen_emit {X Y : Reader → Prop} {a b : PSt} (h : Seen95 X Y a b) (bs : List Byte) : Seen95 X Y a (b.emit bs) := seen_same h rfl rfl rfl
theorem seen_load {X Y : Reader → Prop} {a b : PSt} (h : Seen95 X Y a b) (n : List Byte) : Seen95 X Y a (b.loadCtx n) := seen_same h rfl rfl rfl

/-- What a reader is behind the token of a prefix. -/
def Behind95 : Prefix → Reader → Prop
  | .grouping => Inside95
  | .unary => Inside95
  | _ => InExpr

theorem rule_kw {ty : TT} {pre : Prefix} {p : Nat} (h : ruleOf ty = some (pre, p)) (hp : pre ≠ .none ∨ 0 < p) : ty ≠ .kwStruct ∧ ty ≠ .kwEnum := by
  refine ⟨fun e => ?_, fun e => ?_⟩ <;> subst e <;> simp [ruleOf] at h <;> rcases hp with hp | hp <;> simp_all

theorem rule_inside {ty : TT} {pre : Prefix} {p : Nat} (h : ruleOf ty = some (pre, p)) (hp : pre = .grouping ∨ pre = .unary) :
    ty = .lparen ∨ ty = .minus ∨ ty = .bang ∨ ty = .tilde := by
  rcases hp with hp | hp <;> subst hp <;> cases ty <;> simp_all [ruleOf]

theorem expr_seen (dbl : List Byte → Word) (f : Nat) :
    (∀ prec s, 1 ≤ prec → (parsePrec dbl f prec s).Gives (Seen95 InExpr InExpr s)) ∧
    (∀ prec l s, 1 ≤ prec → (infixLoop dbl f prec l s).Gives (Seen95 InExpr InExpr s)) ∧
    (∀ pre s, (parsePrefix dbl f pre s).Gives (Seen95 (Behind95 pre) InExpr s)) := by
  induction f with
  | zero => exact ⟨fun _ _ _ t s h => (by cases h), fun _ _ _ _ t s h => (by cases h), fun _ _ t s h => (by cases h)⟩
  | succ f ih =>
    obtain ⟨ih1, ih2, ih3⟩ := ih
    have sub : ∀ {X : Reader → Prop} {a b : PSt} {prec : Nat}, 1 ≤ prec → Seen95 X InExpr a b → (parsePrec dbl f prec b).Gives (Seen95 X InExpr a) :=
      fun hp h t s e => h.trans (ih1 _ _ hp t s e)
    refine ⟨?_, ?_, ?_⟩
    · intro prec s hp
      unfold parsePrec
      dsimp only
      have hprev : s.advance.prev = s.cur := rfl
      split
      · intro t s h; cases h
      · next h =>
        apply gives_ok
        refine ⟨fun e => ?_, fun e => absurd e (by simp [PSt.error])⟩
        exact (seen_error InExpr InExpr s.advance).1 (advance_errs s e)
      · next pre p hr hn =>
        have hpre : pre ≠ .none := hr
        have hk := rule_kw hn (.inl hpre)
        rw [hprev] at hk
        have h1 : Seen95 InExpr (Behind95 pre) s s.advance := by
          apply seen_advance
          intro q hq
          refine ⟨declAt_none hq _, ?_⟩
          cases pre with
          | none => exact absurd rfl hpre
          | grouping => exact read_inside hq _ (rule_inside hn (.inl rfl))
          | unary => exact read_inside hq _ (rule_inside hn (.inr rfl))
          | primary => exact read_inExpr hq _ (.inr hk)
        exact gives_then (p := Seen95 InExpr InExpr s) (fun t u e => h1.trans (ih3 _ _ t u e)) fun t u hu =>
          fun t' u' e => hu.trans (ih2 _ _ _ hp t' u' e)
    · intro prec l s hp
      unfold infixLoop
      split
      · intro t s h; cases h
      · next pre p hr =>
        split
        · next hle =>
          have hk := rule_kw hr (.inr (by omega))
          refine gives_then (p := Seen95 InExpr InExpr s) (sub (by omega) (seen_adv_expr s hk.1 hk.2)) fun t u hu => ?_
          exact fun t' u' e => (seen_emit hu _).trans (ih2 _ _ _ hp t' u' e)
        · exact gives_ok (Seen95.refl _ _)
    · intro pre s
      cases pre with
      | none => unfold parsePrefix; exact gives_ok (Seen95.refl _ _)
      | grouping =>
        unfold parsePrefix
        exact gives_then (p := Seen95 Inside95 InExpr s) (sub (by omega) (seen_adv_any s)) fun t u hu =>
          gives_ok (hu.trans (seen_eat_expr _ _ (by decide) (by decide)))
      | unary =>
        unfold parsePrefix
        exact gives_then (p := Seen95 Inside95 InExpr s) (sub (by omega) (seen_adv_any s)) fun t u hu => gives_ok (seen_emit hu _)
      | primary =>
        have one : ∀ (ty : TT) (h1 : ty ≠ .kwStruct) (h2 : ty ≠ .kwEnum) (b : PSt), Seen95 InExpr InExpr s b → Seen95 InExpr InExpr s (b.consume ty) :=
          fun ty h1 h2 b hb => hb.trans (seen_eat_expr b ty h1 h2)
        have cond : ∀ (c : Prop) [Decidable c] (b : PSt) (bs : List Byte), Seen95 InExpr InExpr s b → Seen95 InExpr InExpr s (if c then b.emit bs else b) :=
          fun c _ b bs hb => by
            split
            · exact seen_emit hb _
            · exact hb
        have r0 : Seen95 InExpr InExpr s s := Seen95.refl _ _
        show PRes.Gives (Seen95 InExpr InExpr s) _
        unfold parsePrefix
        dsimp only
        split
        · split
          · exact gives_ok (seen_emit r0 _)
          · split
            · intro t s h; cases h
            · exact gives_ok (seen_emit r0 _)
        · exact gives_ok (seen_emit r0 _)
        · exact gives_ok (seen_emit r0 _)
        · exact gives_ok (seen_emit r0 _)
        · split
          · exact gives_then (p := Seen95 InExpr InExpr s) (sub (by omega) (one .lparen (by decide) (by decide) _ r0)) fun t u hu =>
              gives_ok (seen_emit (one _ (by decide) (by decide) _ (cond _ _ _ hu)) _)
          · split
            · exact gives_then (p := Seen95 InExpr InExpr s) (sub (by omega) (one .lparen (by decide) (by decide) _ r0)) fun t u hu =>
                gives_then (p := Seen95 InExpr InExpr s) (sub (by omega) (one .comma (by decide) (by decide) _ (cond _ _ _ hu))) fun t u hu =>
                  gives_ok (seen_emit (one _ (by decide) (by decide) _ (cond _ _ _ hu)) _)
            · split
              · exact gives_then (p := Seen95 InExpr InExpr s) (sub (by omega) (one .lparen (by decide) (by decide) _ r0)) fun t u hu =>
                  gives_ok (seen_emit (one _ (by decide) (by decide) _ hu) _)
              · split
                · exact gives_then (p := Seen95 InExpr InExpr s) (sub (by omega) (one .lparen (by decide) (by decide) _ r0)) fun t u hu =>
                    gives_ok (seen_emit (one _ (by decide) (by decide) _ hu) _)
                · split
                  · split
                    · exact gives_ok (r0.trans (seen_error _ _ _))
                    · split
                      · intro t s h; cases h
                      · next e => exact gives_ok (dotLoop_seen _ _ _ _ _ e)
                      · next e => exact gives_ok (seen_load (dotLoop_seen _ _ _ _ _ e) _)
                  · exact gives_ok (seen_load r0 _)
        · exact gives_ok r0

/-! ### Fields and statements -/

/-- From `a` to `b` the parser has read over tokens that declare nothing, and has not changed the registries. -/
structure Rel (X Y : Reader → Prop) (a b : CSt) : Prop where
  seen : Seen95 X Y a.toPSt b.toPSt
  structs : b.structs = a.structs
  enums : b.enums = a.enums

theorem Rel.refl (X : Reader → Prop) (a : CSt) : Rel X X a a := ⟨Seen95.refl _ _, rfl, rfl⟩
theorem Rel.trans {X Y Z : Reader → Prop} {a b c : CSt} (h : Rel X Y a b) (g : Rel Y Z b c) : Rel X Z a c :=
  ⟨h.seen.trans g.seen, g.structs.trans h.structs, g.enums.trans h.enums⟩
theorem Rel.weaken {X X' Y Y' : Reader → Prop} {a b : CSt} (h : Rel X Y a b) (hx : ∀ q, X' q → X q) (hy : ∀ q, Y q → Y' q) : Rel X' Y' a b :=
  ⟨h.seen.weaken hx hy, h.structs, h.enums⟩

theorem rel_same {X Y : Reader → Prop} {a b c : CSt} (h : Rel X Y a b) (h1 : c.cur = b.cur) (h2 : c.toks = b.toks) (h3 : c.log = b.log)
    (h4 : c.structs = b.structs) (h5 : c.enums = b.enums) : Rel X Y a c :=
  ⟨seen_same h.seen h1 h2 h3, h4.trans h.structs, h5.trans h.enums⟩

/-- With a message, anything. -/
theorem rel_err {X Y Z : Reader → Prop} {a s : CSt} (h : Rel X Y a s) : Rel X Z a s.err := h.trans ⟨seen_error _ _ _, rfl, rfl⟩
theorem rel_errS {X Y : Reader → Prop} {a s : CSt} (h : Rel X Y a s) : Rel X Y a s.err := rel_err h
theorem rel_put {X Y : Reader → Prop} {a s : CSt} {bs : List Byte} (h : Rel X Y a s) : Rel X Y a (s.put bs) := rel_same h rfl rfl rfl rfl rfl
theorem rel_patch {X Y : Reader → Prop} {a s : CSt} {o : Nat} {bs : List Byte} (h : Rel X Y a s) : Rel X Y a (s.patch o bs) := rel_same h rfl rfl rfl rfl rfl
theorem rel_intern {X Y : Reader → Prop} {a s : CSt} {n : List Byte} (h : Rel X Y a s) : Rel X Y a (s.intern n).1 := rel_same h rfl rfl rfl rfl rfl
theorem rel_bits {X Y : Reader → Prop} {a s : CSt} {b : BitVec 32} (h : Rel X Y a s) : Rel X Y a { s with bitCount := b } := rel_same h rfl rfl rfl rfl rfl
theorem rel_tab {X Y : Reader → Prop} {a s : CSt} {b : List (List Byte)} (h : Rel X Y a s) : Rel X Y a { s with tab := b } := rel_same h rfl rfl rfl rfl rfl
theorem rel_fields {X Y : Reader → Prop} {a s : CSt} {b : List (List Byte)} (h : Rel X Y a s) : Rel X Y a { s with fields := b } :=
  rel_same h rfl rfl rfl rfl rfl
theorem rel_errIf {X Y : Reader → Prop} {a s : CSt} {c : Bool} (h : Rel X Y a s) : Rel X Y a (s.errIf c) := by
  unfold CSt.errIf
  split
  · exact rel_err h
  · exact h
theorem rel_ite {X Y : Reader → Prop} {a s t : CSt} {c : Prop} [Decidable c] (h : Rel X Y a s) (g : Rel X Y a t) : Rel X Y a (if c then s else t) := by
  split <;> assumption
theorem rel_fold {X Y : Reader → Prop} {β : Type} {a : CSt} (l : List β) (s : CSt) (h : Rel X Y a s) : Rel X Y a (l.foldl (fun s _ => s.err) s) := by
  induction l generalizing s with
  | nil => exact h
  | cons x l ih => exact ih _ (rel_err h)

theorem rel_adv {X Y Z : Reader → Prop} {a s : CSt} (h : Rel X Y a s)
    (g : ∀ q, Y q → (∀ n, declAt q s.cur n = []) ∧ Z (readTok q s.cur)) : Rel X Z a s.adv :=
  h.trans ⟨seen_advance _ g, rfl, rfl⟩
theorem rel_eat {X Y Z : Reader → Prop} {a s : CSt} (ty : TT) (h : Rel X Y a s)
    (g : ∀ q t, t.type = ty → Y q → (∀ n, declAt q t n = []) ∧ Z (readTok q t)) : Rel X Z a (s.eat ty) :=
  h.trans ⟨seen_consume _ _ g, rfl, rfl⟩

/-- Tokens that change nothing for a reader in a body. -/
def bodyTok : TT → Bool
  | .lparen | .at | .kwStruct | .kwEnum => false
  | _ => true

theorem body_expr {q : Reader} (h : InBody q) : InExpr q := by
  intro k e
  rcases h with h | h | h | h <;> simp [h] at e

theorem read_body {q : Reader} (hq : InBody q) (t : Tok) (h : bodyTok t.type = true) : InBody (readTok q t) := by
  rcases hq with e | e | e | e <;> simp only [readTok, e] <;> cases ht : t.type <;> simp_all [bodyTok, readPlain, InBody]

theorem relE_eat {X : Reader → Prop} {a s : CSt} {ty : TT} (h : Rel X InExpr a s) (h1 : ty ≠ .kwStruct) (h2 : ty ≠ .kwEnum) : Rel X InExpr a (s.eat ty) :=
  h.trans ⟨seen_eat_expr _ _ h1 h2, rfl, rfl⟩
theorem relE_adv {X : Reader → Prop} {a s : CSt} (h : Rel X InExpr a s) (h1 : s.cur.type ≠ .kwStruct) (h2 : s.cur.type ≠ .kwEnum) : Rel X InExpr a s.adv :=
  h.trans ⟨seen_adv_expr _ h1 h2, rfl, rfl⟩
theorem relE_number {X : Reader → Prop} {a s : CSt} (h : Rel X InExpr a s) : Rel X InExpr a s.number.2 := relE_eat h (by decide) (by decide)
theorem relB_eat {X : Reader → Prop} {a s : CSt} {ty : TT} (h : Rel X InBody a s) (h1 : bodyTok ty = true) : Rel X InBody a (s.eat ty) :=
  rel_eat ty h fun q t ht hq => ⟨declAt_none (body_expr hq) _, read_body hq _ (by rw [ht]; exact h1)⟩
theorem relB_adv {X : Reader → Prop} {a s : CSt} (h : Rel X InBody a s) (h1 : bodyTok s.cur.type = true) : Rel X InBody a s.adv :=
  rel_adv h fun q hq => ⟨declAt_none (body_expr hq) _, read_body hq _ h1⟩
theorem relB_number {X : Reader → Prop} {a s : CSt} (h : Rel X InBody a s) : Rel X InBody a s.number.2 := relB_eat h (by decide)
/-- A closing parenthesis ends the parentheses of a decorator. -/
theorem relE_close {X : Reader → Prop} {a s : CSt} (h : Rel X InExpr a s) : Rel X InBody a (s.eat .rparen) := by
  refine rel_eat .rparen h fun q t ht hq => ⟨declAt_none hq _, ?_⟩
  unfold readTok readPlain InBody
  rw [ht]
  split <;> simp_all [InExpr]

macro "rels" : tactic => `(tactic|
  repeat (first
    | assumption
    | exact Rel.refl _ _
    | apply rel_put
    | apply relE_number
    | apply relB_number
    | (apply relE_eat (h1 := by decide) (h2 := by decide))
    | (apply relB_eat (h1 := by decide))
    | apply rel_errIf
    | apply rel_errS
    | apply rel_patch
    | apply rel_intern
    | apply rel_ite
    | apply rel_fold
    | apply rel_bits))

/-- What an outcome that is a value says. -/
def CRes.Gives {α : Type} (p : α → Prop) (r : CRes α) : Prop := ∀ a, r = .ok a → p a

theorem CRes.Gives.mono {α : Type} {p q : α → Prop} {r : CRes α} (h : r.Gives p) (g : ∀ a, p a → q a) : r.Gives q := fun a e => g a (h a e)
theorem CRes.Gives.bind {α β : Type} {p : α → Prop} {q : β → Prop} {r : CRes α} {F : α → CRes β} (h : r.Gives p) (g : ∀ a, p a → (F a).Gives q) :
    (r.bind F).Gives q := by
  intro b e
  cases r with
  | ok a => exact g a (h a rfl) b e
  | ub => cases e
  | imports => cases e
  | stuck => cases e
theorem CRes.Gives.ok {α : Type} {p : α → Prop} {a : α} (h : p a) : (CRes.ok a).Gives p := by
  intro b e
  cases e
  exact h
theorem Gives_ite {α : Type} {p : α → Prop} {c : Prop} [Decidable c] {x y : CRes α} (h : x.Gives p) (g : y.Gives p) : (if c then x else y).Gives p := by
  split <;> assumption
theorem Gives_ub {α : Type} {p : α → Prop} : (CRes.ub : CRes α).Gives p := fun _ e => by cases e
theorem Gives_stuck {α : Type} {p : α → Prop} : (CRes.stuck : CRes α).Gives p := fun _ e => by cases e
theorem Gives_imports {α : Type} {p : α → Prop} : (CRes.imports : CRes α).Gives p := fun _ e => by cases e

theorem cexpr_rel (P : PEnv) (f : Nat) (s : CSt) : (s.expr P f).Gives (Rel InExpr InExpr s) := by
  intro t h
  unfold CSt.expr parseExpr at h
  split at h
  · next e =>
    cases h
    exact ⟨(expr_seen P.dbl f).1 1 s.toPSt (by omega) _ _ e, rfl, rfl⟩
  · cases h
  · cases h

theorem emitRange_rel (X : Reader → Prop) (P : PEnv) (op : Byte) (lo hi : Tok) (s : CSt) : (emitRange P op lo hi s).Gives (Rel X X s) := by
  unfold emitRange
  split
  · exact Gives_ub
  · split
    · exact .ok (rel_err (Rel.refl _ _))
    · exact .ok (rel_put (Rel.refl _ _))

theorem rangePart_rel (X : Reader → Prop) (P : PEnv) (op : Byte) (r : Option (Tok × Tok)) (s : CSt) : (rangePart P op r s).Gives (Rel X X s) := by
  unfold rangePart
  split
  · exact .ok (Rel.refl _ _)
  · exact emitRange_rel _ _ _ _ _ _

theorem polyLoop_rel (P : PEnv) (f : Nat) (cs : List Word) (s : CSt) : (polyLoop P f cs s).Gives (fun r => Rel InExpr InExpr s r.2) := by
  induction f generalizing cs s with
  | zero => exact Gives_stuck
  | succ f ih =>
    unfold polyLoop
    have key : ∀ r : List Word × CSt, Rel InExpr InExpr s r.2 →
        (if r.2.cur.type = .comma then polyLoop P f r.1 r.2.adv else .ok r).Gives (fun r => Rel InExpr InExpr s r.2) := by
      intro r hr
      split
      · rename_i hc
        exact (ih r.1 r.2.adv).mono fun a ha => (relE_adv hr (by rw [hc]; decide) (by rw [hc]; decide)).trans ha
      · exact .ok hr
    apply key
    dsimp only
    split
    · rename_i hc
      have h1 := relE_adv (Rel.refl InExpr s) (by rw [hc]; decide) (by rw [hc]; decide)
      split <;> rels
    · rels

theorem splineLoop_rel (P : PEnv) (f : Nat) (cs : List Word) (s : CSt) : (splineLoop P f cs s).Gives (fun r => Rel InExpr InExpr s r.2) := by
  induction f generalizing cs s with
  | zero => exact Gives_stuck
  | succ f ih =>
    unfold splineLoop
    have key : ∀ r : List Word × CSt, Rel InExpr InExpr s r.2 →
        (if r.2.cur.type = .comma then splineLoop P f r.1 r.2.adv else .ok r).Gives (fun r => Rel InExpr InExpr s r.2) := by
      intro r hr
      split
      · rename_i hc
        exact (ih r.1 r.2.adv).mono fun a ha => (relE_adv hr (by rw [hc]; decide) (by rw [hc]; decide)).trans ha
      · exact .ok hr
    apply key
    dsimp only
    split
    · rename_i hc
      have h1 := relE_adv (Rel.refl InExpr s) (by rw [hc]; decide) (by rw [hc]; decide)
      split <;> rels
    · rels

theorem skipToParen_rel (docs : List (List Byte)) (f : Nat) (s : CSt) :
    (skipToParen f s).Gives (Rel (· = ⟨.skip, docs⟩) (· = ⟨.skip, docs⟩) s) := by
  induction f generalizing s with
  | zero => exact Gives_stuck
  | succ f ih =>
    unfold skipToParen
    split
    · exact .ok (Rel.refl _ _)
    · rename_i hc
      refine (ih s.adv).mono fun a ha => Rel.trans (rel_adv (Rel.refl _ _) fun q hq => ?_) ha
      subst hq
      refine ⟨fun n => rfl, ?_⟩
      unfold readTok
      rw [if_neg (fun e => hc (.inl e))]

theorem skipDocs_rel (f : Nat) (s : CSt) : (skipDocs f s).Gives (Rel InBody InBody s) := by
  induction f generalizing s with
  | zero => exact Gives_stuck
  | succ f ih =>
    unfold skipDocs
    split
    · rename_i hc
      exact (ih s.adv).mono fun a ha => (relB_adv (Rel.refl _ _) (by rw [hc]; decide)).trans ha
    · exact .ok (Rel.refl _ _)

theorem decInt_rel (t : Trans) (d : Dec) (s : CSt) : (decInt t d s).Gives (fun r => Rel InExpr InExpr s r.2) := by
  unfold decInt
  split
  · exact Gives_ub
  · exact .ok (relE_number (Rel.refl _ _))

theorem decArgs_rel (P : PEnv) (f : Nat) (t : Tok) (d : Dec) (s : CSt) : (decArgs P f t d s).Gives (fun r => Rel InExpr InExpr s r.2) := by
  have adv : ∀ ty : TT, s.cur.type = ty → ty ≠ .kwStruct → ty ≠ .kwEnum → Rel InExpr InExpr s s.adv :=
    fun ty e h1 h2 => relE_adv (Rel.refl _ _) (by rw [e]; exact h1) (by rw [e]; exact h2)
  unfold decArgs
  refine Gives_ite ?_ ?_
  · split
    · rename_i hc
      exact .ok (rel_intern (adv _ hc (by decide) (by decide)))
    · split
      · rename_i hc
        exact .ok (adv _ hc (by decide) (by decide))
      · exact .ok (rel_err (Rel.refl _ _))
  repeat' (first | exact decInt_rel _ _ _ | apply Gives_ite)
  all_goals first
    | exact (polyLoop_rel P f _ s).bind fun a ha => .ok ha
    | exact (splineLoop_rel P f _ s).bind fun a ha => .ok ha
    | exact (cexpr_rel P f s).bind fun a ha => .ok ha
    | (refine .ok ?_; show Rel InExpr InExpr s _; rels; done)
    | (split
       · exact Gives_ub
       · refine .ok ?_; show Rel InExpr InExpr s _; rels; done)
    | skip
  refine (skipToParen_rel [] f s.err).bind fun a ha => .ok ?_
  exact Rel.trans (b := s.err) ⟨seen_error _ _ _, rfl, rfl⟩ (ha.weaken (Y' := InExpr) (fun q h => h) fun q h => by subst h; intro k; simp)

theorem word_type {t : Tok} {w : List Byte} (h : t.isWord w) : t.type = .identifier := by
  simp only [Tok.isWord, decide_eq_true_eq] at h
  exact h.1

theorem relB_advW {X : Reader → Prop} {a s : CSt} {w : List Byte} (h : Rel X InBody a s) (h1 : s.cur.isWord w) : Rel X InBody a s.adv :=
  relB_adv h (by rw [word_type h1]; rfl)
theorem relB_advT {X : Reader → Prop} {a s : CSt} (h : Rel X InBody a s) {ty : TT} (h1 : s.cur.type = ty) (h2 : bodyTok ty = true) : Rel X InBody a s.adv :=
  relB_adv h (by rw [h1]; exact h2)
theorem relB_lparen {X : Reader → Prop} {a s : CSt} (h : Rel X InBody a s) : Rel X InExpr a (s.eat .lparen) :=
  relE_eat (h.weaken (fun _ h => h) fun _ h => body_expr h) (by decide) (by decide)

theorem decFill_rel (s : CSt) : Rel InBody InBody s (decFill s) := by
  unfold decFill
  have key : ∀ r : Byte × CSt, Rel InBody InBody s r.2 → Rel InBody InBody s
      (if (r.2.put [0x24, r.1]).inBit ∧ (r.2.put [0x24, r.1]).bitValid then { r.2.put [0x24, r.1] with bitCount := 0 }
        else r.2.put [0x24, r.1]) := by
    intro r hr
    rels
  apply key
  split
  · rename_i hc
    refine relE_close (rel_errIf (relE_number (relE_adv ((Rel.refl InBody s).weaken (fun _ h => h) fun _ h => body_expr h) ?_ ?_))) <;>
      (rw [hc]; decide)
  · rels

/-- Behind an at sign. -/
def AtSign (q : Reader) : Prop := q.mode = .at

theorem at_word {X : Reader → Prop} {a s : CSt} (h : Rel X AtSign a s) : Rel X InBody a (s.eat .identifier) := by
  refine rel_eat .identifier h fun q t ht hq => ⟨declAt_none (fun k e => by rw [hq] at e; cases e) _, ?_⟩
  unfold readTok
  rw [hq]
  dsimp only
  rw [if_pos ht]
  exact .inr (.inl rfl)

theorem decOne_rel (P : PEnv) (f : Nat) (d : Dec) (s : CSt) : (decOne P f d s).Gives (fun r => Rel AtSign InBody s r.2) := by
  unfold decOne
  have hw := at_word (Rel.refl AtSign s)
  repeat' (apply Gives_ite)
  all_goals first
    | exact .ok (hw.trans (decFill_rel _))
    | exact (decArgs_rel P f _ _ _).bind fun a ha => .ok (relE_close ((relB_lparen hw).trans ha))
    | (refine .ok ?_; show Rel AtSign InBody s _; rels; done)

theorem decLoopS_rel (P : PEnv) (f : Nat) (d : Dec) (s : CSt) : (decLoopS P f d s).Gives (fun r => Rel InBody InBody s r.2) := by
  induction f generalizing d s with
  | zero => exact Gives_stuck
  | succ f ih =>
    unfold decLoopS
    split
    · rename_i hc
      refine (decOne_rel P f d s.adv).bind fun a ha => (ih a.1 a.2).mono fun b hb => Rel.trans (Rel.trans ?_ ha) hb
      refine rel_adv (Rel.refl _ _) fun q hq => ⟨declAt_none (body_expr hq) _, ?_⟩
      unfold readTok readPlain AtSign
      rw [hc]
      rcases hq with e | e | e | e <;> simp [e]
    · exact .ok (Rel.refl _ _)

theorem shapeWidth_rel {X : Reader → Prop} {a s : CSt} (h : Rel X InBody a s) : Rel X InBody a (shapeWidth s).2 := by
  unfold shapeWidth; split
  · rename_i hc
    exact relB_eat (relB_advT h hc rfl) rfl
  · rels

theorem shapeArr_rel {X : Reader → Prop} {a s : CSt} (h : Rel X InBody a s) : Rel X InBody a (shapeArr s).2.2.2 := by
  unfold shapeArr; split
  · rename_i hc
    have h1 := relB_advT h hc rfl
    dsimp only; split
    · rename_i hc
      exact relB_advT h1 hc rfl
    · rels
  · rels

theorem shapeMods_rel {X : Reader → Prop} {a s : CSt} {ty : Tok} {d : Dec} {h : Shape} (hl : Rel X InBody a s) : Rel X InBody a (shapeMods ty d h s).2 := by
  unfold shapeMods
  split
  · rename_i hc
    have h1 := relB_advW hl hc
    dsimp only; repeat' split
    all_goals rels
  · split
    · have key : ∀ r : Shape × CSt, Rel X InBody a r.2 → Rel X InBody a (if r.2.cur.isWord s_max then
          ({ r.1 with maxLen := (parseU32 r.2.adv.number.1).setWidth 16 }, r.2.adv.number.2) else r).2 := by
        intro r hr
        split
        · rename_i hc
          exact relB_number (relB_advW hr hc)
        · exact hr
      apply key
      split
      · rename_i hc
        exact relB_eat (relB_advW hl hc) rfl
      · exact hl
    · rels

theorem fieldConst_rel (P : PEnv) (ty : Tok) (d : Dec) (key : Nat) (v : Word) (s : CSt) :
    (fieldConst P ty d key v s).Gives (Rel InBody InBody s) := by
  unfold fieldConst
  refine (rangePart_rel InBody P _ _ _).mono fun a ha => Rel.trans ?_ ha
  rels

theorem fieldStruct_rel (code : List Byte) (ty name : Tok) (d : Dec) (h : Shape) (key : Nat) (s : CSt) :
    (fieldStruct code ty name d h key s).Gives (fun r => Rel InBody InBody s r.2) := by
  unfold fieldStruct
  split
  · exact .ok (rel_err (Rel.refl _ _))
  · dsimp only
    split
    · exact Gives_ub
    · refine .ok ?_
      refine rel_put (rel_put (rel_tab ?_))
      rels

theorem fieldEnum_rel (P : PEnv) (e : EnumD) (d : Dec) (h : Shape) (key : Nat) (s : CSt) :
    (fieldEnum P e d h key s).Gives (Rel InBody InBody s) := by
  unfold fieldEnum
  refine (rangePart_rel InBody P _ _ _).mono fun a ha => Rel.trans ?_ ha
  rels

theorem fieldString_rel {X : Reader → Prop} {a s : CSt} {d : Dec} {h : Shape} {key : Nat} (hl : Rel X InBody a s) : Rel X InBody a (fieldString d h key s) := by
  unfold fieldString
  dsimp only
  split <;> rels

theorem fieldPlain_rel (P : PEnv) (ty : Tok) (d : Dec) (h : Shape) (key : Nat) (s : CSt) :
    (fieldPlain P ty d h key s).Gives (fun r => Rel InBody InBody s r.2) := by
  unfold fieldPlain
  dsimp only
  repeat' split
  all_goals first
    | exact (rangePart_rel InBody P _ _ _).bind fun a ha => .ok ((rel_put (Rel.refl _ _)).trans ha)
    | (refine .ok ?_; show Rel InBody InBody s _; rels; done)

theorem fieldValue_rel (P : PEnv) (ty name : Tok) (d : Dec) (h : Shape) (key : Nat) (s : CSt) :
    (fieldValue P ty name d h key s).Gives (fun r => Rel InBody InBody s r.2) := by
  unfold fieldValue
  split
  · exact (fieldConst_rel P ty d key _ s).bind fun a ha => .ok ha
  · split
    · exact fieldStruct_rel _ _ _ _ _ _ _
    · split
      · exact (fieldEnum_rel P _ _ _ _ _).bind fun a ha => .ok ha
      · split
        · exact .ok (fieldString_rel (Rel.refl _ _))
        · exact fieldPlain_rel _ _ _ _ _ _

theorem fieldEmit_rel (P : PEnv) (ty name : Tok) (d : Dec) (h : Shape) (key : Nat) (s : CSt) :
    (fieldEmit P ty name d h key s).Gives (Rel InBody InBody s) := by
  unfold fieldEmit
  refine (fieldValue_rel P ty name d h key _).bind fun a ha => ?_
  have h0 : Rel InBody InBody s a.2 := by
    refine Rel.trans ?_ ha
    split <;> rels
  split <;> (refine .ok ?_; rels)

theorem fieldRest_rel (P : PEnv) (ty name : Tok) (d : Dec) (s : CSt) : (fieldRest P ty name d s).Gives (Rel InBody InBody s) := by
  unfold fieldRest
  refine (fieldEmit_rel P _ _ _ _ _ _).mono fun a ha => Rel.trans ?_ ha
  exact shapeMods_rel (shapeArr_rel (shapeWidth_rel (rel_intern (rel_fields (rel_errIf (Rel.refl _ _))))))

theorem fieldDecl_rel (P : PEnv) (d : Dec) (s : CSt) : (fieldDecl P d s).Gives (Rel InBody InBody s) := by
  unfold fieldDecl
  split
  · rename_i hc
    refine .ok ?_
    split
    · rename_i hc
      exact relB_advT (Rel.refl _ _) hc rfl
    · exact Rel.refl _ _
  · dsimp only
    have h0 : Rel InBody InBody s (s.put (transEmit d)) := rel_put (Rel.refl _ _)
    have fin : ∀ t, Rel InBody InBody ((s.put (transEmit d)).eat .identifier) t → Rel InBody InBody s t :=
      fun t ht => (relB_eat h0 rfl).trans ht
    split
    · exact .ok (fin _ (rel_err (Rel.refl _ _)))
    · exact (fieldRest_rel P _ _ d _).mono fun a ha => fin a ((relB_eat (Rel.refl _ _) rfl).trans ha)

/-! ### Statements -/

theorem rel_errAdv {X Y Z : Reader → Prop} {a s : CSt} (h : Rel X Y a s) : Rel X Z a s.err.adv := by
  have he : s.err.adv.toPSt.errs ≠ 0 := advance_errs s.err.toPSt (by show s.toPSt.error.errs ≠ 0; simp [PSt.error])
  exact ⟨⟨fun _ => he, fun e => absurd e he⟩, h.structs, h.enums⟩

theorem caseLabel_rel (s : CSt) (v : Word) (t : CSt) (h : caseLabel s = some (v, t)) : Rel InBody InBody s t := by
  unfold caseLabel at h
  split at h
  · rename_i hc
    obtain ⟨w, _, e⟩ := Option.map_eq_some_iff.mp h
    cases e
    exact relB_advT (Rel.refl _ _) hc rfl
  · split at h
    · rename_i hc
      have h1 := relB_advT (Rel.refl InBody s) hc rfl
      dsimp only at h
      split at h
      · rename_i hc
        have h2 := relB_advT h1 hc rfl
        split at h
        · cases h; rels
        · split at h <;> (cases h; rels)
      · cases h; rels
    · cases h; rels

theorem switchEnd_rel {X : Reader → Prop} {a s : CSt} (w : Sw) (loc : Nat) (h : Rel X InBody a s) : Rel X InBody a (switchEnd w loc s) := by
  unfold switchEnd
  dsimp only
  have key : ∀ (l : List Nat) (g : Nat → List Byte) (t : CSt), Rel X InBody a t →
      Rel X InBody a (l.foldl (fun s j => s.patch (j + 1) (g j)) t) := by
    intro l g
    induction l with
    | nil => exact fun t ht => ht
    | cons x l ih => exact fun t ht => ih _ (rel_patch ht)
  refine rel_patch (key _ _ _ ?_)
  rels

/-- At the beginning of a declaration without comments. -/
def Fresh95 (q : Reader) : Prop := q = ⟨.ready, []⟩

theorem fresh_body {q : Reader} (h : Fresh95 q) : InBody q := by
  rw [h]
  exact .inl rfl

theorem relB_rbrace {X : Reader → Prop} {a s : CSt} (h : Rel X InBody a s) : Rel X Fresh95 a (s.eat .rbrace) := by
  refine rel_eat .rbrace h fun q t ht hq => ⟨declAt_none (body_expr hq) _, ?_⟩
  unfold readTok readPlain Fresh95
  rw [ht]
  rcases hq with e | e | e | e <;> simp [e]

theorem relB_semi {X : Reader → Prop} {a s : CSt} (h : Rel X InBody a s) : Rel X Fresh95 a (s.eat .semicolon) := by
  refine rel_eat .semicolon h fun q t ht hq => ⟨declAt_none (body_expr hq) _, ?_⟩
  unfold readTok readPlain Fresh95
  rw [ht]
  rcases hq with e | e | e | e <;> simp [e]

/-- Everything about statements. -/
structure StmtRel (P : PEnv) (f : Nat) : Prop where
  field : ∀ s, (parseField P f s).Gives (Rel InBody InBody s)
  loop : ∀ s, (blockLoop P f s).Gives (Rel InBody InBody s)
  block : ∀ s, (parseBlock P f s).Gives (Rel InBody Fresh95 s)
  iff : ∀ s, (parseIf P f s).Gives (Rel InBody InBody s)
  swl : ∀ b w s, (switchLoop P f b w s).Gives (fun r => Rel InBody InBody s r.2)
  sw : ∀ s, (parseSwitch P f s).Gives (Rel InBody InBody s)
  body : ∀ s, (caseBody P f s).Gives (Rel InBody InBody s)

theorem stmt_rel (P : PEnv) (f : Nat) : StmtRel P f := by
  induction f with
  | zero => constructor <;> (intros; exact Gives_stuck)
  | succ f ih =>
    have blockAt : ∀ s t : CSt, Rel InBody InBody s t → (parseBlock P f t).Gives (Rel InBody InBody s) :=
      fun s t hl => (ih.block t).mono fun a ha => hl.trans (ha.weaken (fun _ h => h) fun _ h => fresh_body h)
    refine ⟨?_, ?_, ?_, ?_, ?_, ?_, ?_⟩
    · intro s
      unfold parseField
      refine Gives_ite (.ok (Rel.refl _ _)) ?_
      refine (skipDocs_rel f s).bind fun t ht => ?_
      split
      · rename_i hc
        exact (ih.sw t.adv).mono fun a ha => (relB_advT ht hc rfl).trans ha
      · split
        · rename_i hc
          exact (ih.iff t.adv).mono fun a ha => (relB_advT ht hc rfl).trans ha
        · exact (decLoopS_rel P f _ t).bind fun r hr => (fieldDecl_rel P r.1 r.2).mono fun a ha => ht.trans (hr.trans ha)
    · intro s
      unfold blockLoop
      split
      · exact .ok (Rel.refl _ _)
      · split
        · rename_i hc
          exact (ih.loop s.adv).mono fun a ha => (relB_advT (Rel.refl _ _) hc rfl).trans ha
        · exact (ih.field s).bind fun t ht => (ih.loop t).mono fun a ha => ht.trans ha
    · intro s
      unfold parseBlock
      exact (ih.loop _).bind fun a ha => .ok (relB_rbrace ((relB_eat (Rel.refl _ _) rfl).trans ha))
    · intro s
      unfold parseIf
      refine (cexpr_rel P f _).bind fun t ht => ?_
      have h1 : Rel InBody InBody s (t.eat .rparen) := relE_close ((relB_lparen (Rel.refl _ _)).trans ht)
      refine (blockAt s _ (rel_put h1)).bind fun u hu => ?_
      have key : ∀ q : CSt, Rel InBody InBody s q → (if q.cur.type = .kwElse then
            if q.adv.cur.type = .kwIf then parseIf P f q.adv.adv else parseBlock P f q.adv
          else .ok q).Gives (Rel InBody InBody s) := by
        intro q hq
        split
        · rename_i hc
          have h2 := relB_advT hq hc rfl
          split
          · rename_i hc
            exact (ih.iff q.adv.adv).mono fun a ha => (relB_advT h2 hc rfl).trans ha
          · exact blockAt s _ h2
        · exact .ok hq
      exact (key _ (rel_patch (rel_put hu))).bind fun v hv => .ok (rel_patch hv)
    · intro b w s
      unfold switchLoop
      split
      · exact .ok (Rel.refl _ _)
      · have rest : ∀ (w : Sw) (t : CSt), Rel InBody InBody s t →
            ((caseBody P f t).bind fun s => switchLoop P f b { w with fix := w.fix ++ [s.out.length] }
              (s.put [0x52, 0, 0, 0, 0])).Gives (fun r => Rel InBody InBody s r.2) := by
          intro w t ht
          refine (ih.body t).bind fun u hu => ?_
          exact (ih.swl b _ (u.put [0x52, 0, 0, 0, 0])).mono fun a ha => (rel_put (ht.trans hu)).trans ha
        split
        · rename_i hc
          have h1 := relB_advT (Rel.refl InBody s) hc rfl
          cases hl : caseLabel s.adv with
          | none => exact Gives_ub
          | some r =>
            obtain ⟨v, t⟩ := r
            have ht := caseLabel_rel _ _ _ hl
            exact rest { w with cases := w.cases ++ [(v, _)] } _ (rel_fold _ _ (relB_eat (h1.trans ht) rfl))
        · split
          · rename_i hc
            exact rest { w with dflt := some _ } _ (relB_eat (relB_advT (Rel.refl InBody s) hc rfl) rfl)
          · exact (ih.swl b w s.err.adv).mono fun a ha => (rel_errAdv (Rel.refl InBody s)).trans ha
    · intro s
      unfold parseSwitch
      have key : ∀ (b : Nat) (w : Sw) (t : CSt) (g : Sw × CSt → Nat), Rel InBody InBody s t →
          ((switchLoop P f b w t).bind fun q => .ok (switchEnd q.1 (g q) q.2)).Gives (Rel InBody InBody s) :=
        fun b w t g ht => (ih.swl b w t).bind fun a ha => .ok (switchEnd_rel _ _ (ht.trans ha))
      refine key _ _ _ (fun _ => _) (rel_put (relB_eat (relE_close (rel_intern (relE_eat (relB_lparen (Rel.refl _ _)) ?_ ?_))) ?_)) <;> decide
    · intro s
      unfold caseBody
      split
      · exact blockAt s s (Rel.refl _ _)
      · exact ih.field s

/-! ### Declarations -/

theorem enumLoop_rel (f : Nat) (vals : List (List Byte × Word)) (names : List (List Byte)) (next : Word) (s : CSt) :
    (enumLoop f vals names next s).Gives (fun r => Rel InBody InBody s r.2) := by
  induction f generalizing vals names next s with
  | zero => exact Gives_stuck
  | succ f ih =>
    unfold enumLoop
    split
    · exact .ok (Rel.refl _ _)
    · split
      · rename_i hc
        exact (ih vals names next s.adv).mono fun a ha => (relB_advT (Rel.refl _ _) hc rfl).trans ha
      · dsimp only
        split
        · exact Gives_ub
        · rename_i v t hr
          have ht : Rel InBody InBody s t := by
            split at hr
            · rename_i hc
              obtain ⟨w, _, e⟩ := Option.map_eq_some_iff.mp hr
              cases e
              exact relB_number (relB_advT (rel_errIf (relB_eat (Rel.refl _ _) rfl)) hc rfl)
            · cases hr
              exact rel_errIf (relB_eat (Rel.refl _ _) rfl)
          split
          · exact Gives_ub
          · refine (ih _ _ _ _).mono fun a ha => Rel.trans ?_ ha
            split
            · rename_i hc
              exact relB_advT (rel_fold _ _ ht) hc rfl
            · exact rel_fold _ _ ht

/-- What has been read of a declaration whose keyword has been read: its name and everything else of it. -/
structure Declares (k : Sort95) (s t : CSt) : Prop where
  mono : s.toPSt.errs ≠ 0 → t.toPSt.errs ≠ 0
  scan : t.toPSt.errs = 0 → Ends95 s.toPSt.rest → (Ends95 t.toPSt.rest ∧ Tail95 s.toPSt.rest t.toPSt.rest) ∧ ∀ d, Cnd.scan ⟨.kw k, d⟩ s.toPSt.rest =
    ⟨k, s.cur.text, s.toks.length, d⟩ :: Cnd.scan ⟨.ready, []⟩ t.toPSt.rest
  new : t.toPSt.errs = 0 → s.findStruct s.cur.text = none ∧ s.findEnum s.cur.text = none

theorem findEnum_eat (s : CSt) (ty : TT) (n : List Byte) : (s.eat ty).findEnum n = s.findEnum n := rfl
theorem findStruct_eat (s : CSt) (ty : TT) (n : List Byte) : (s.eat ty).findStruct n = s.findStruct n := rfl

theorem errIf_errs (s : CSt) (c : Bool) (h : (s.errIf c).toPSt.errs = 0) : c = false := by
  unfold CSt.errIf at h
  cases c with
  | false => rfl
  | true => exact absurd h (by show s.toPSt.error.errs ≠ 0; simp [PSt.error])

/-- A declaration: name, then the rest. -/
theorem declares_of {k : Sort95} {s u t : CSt} (h : Rel InBody Fresh95 u t)
    (hu : u.toPSt.errs = 0 → (s.eat .identifier).toPSt.errs = 0 ∧ u.toPSt.rest = (s.eat .identifier).toPSt.rest ∧
      s.findStruct s.cur.text = none ∧ s.findEnum s.cur.text = none) : Declares k s t := by
  have back : t.toPSt.errs = 0 → u.toPSt.errs = 0 := by
    intro e
    by_cases hb : u.toPSt.errs = 0
    · exact hb
    · exact absurd e (h.seen.1 hb)
  refine ⟨fun e e' => ?_, fun e hE => ?_, fun e => ?_⟩
  · obtain ⟨h1, -, -, -⟩ := hu (back e')
    have : Seen95 InExpr InExpr s.toPSt (s.eat .identifier).toPSt := seen_eat_expr _ _ (by decide) (by decide)
    exact this.1 e h1
  · obtain ⟨h1, h2, -, -⟩ := hu (back e)
    have h1' : (s.toPSt.consume .identifier).errs = 0 := h1
    have ht : s.cur.type = .identifier ∧ s.toPSt.consume .identifier = s.toPSt.advance := by
      unfold PSt.consume at h1' ⊢
      split at h1'
      · rename_i hc
        exact ⟨hc, if_pos hc⟩
      · exact absurd h1' (by simp [PSt.error])
    rw [ht.2] at h1'
    have adv := fun q => advance_clean s.toPSt h1' hE q
    have hr : u.toPSt.rest = s.toPSt.advance.rest := by rw [h2]; show (s.toPSt.consume .identifier).rest = _; rw [ht.2]
    have hE2 : Ends95 u.toPSt.rest := by rw [hr]; exact (adv ⟨.ready, []⟩).1.1
    obtain ⟨⟨E3, T3⟩, s3⟩ := h.seen.2 e hE2
    rw [hr] at T3
    refine ⟨⟨E3, (adv ⟨.ready, []⟩).1.2.trans T3⟩, fun d => ?_⟩
    obtain ⟨q', hq', e3⟩ := s3 ⟨.busy, []⟩ (.inr (.inr (.inr rfl)))
    rw [(adv _).2]
    have hd : declAt ⟨.kw k, d⟩ s.toPSt.cur s.toPSt.toks.length = [⟨k, s.cur.text, s.toks.length, d⟩] := by
      unfold declAt
      exact if_pos ht.1
    have hq : readTok ⟨.kw k, d⟩ s.toPSt.cur = ⟨.busy, []⟩ := by
      unfold readTok readPlain
      dsimp only
      rw [ht.1]
    rw [hd, hq, ← hr, e3, hq']
    rfl
  · exact (hu (back e)).2.2

theorem errIf2 (s : CSt) (a b : Bool) (h : ((s.errIf a).errIf b).toPSt.errs = 0) : a = false ∧ b = false ∧ (s.errIf a).errIf b = s := by
  have hb := errIf_errs _ _ h
  subst hb
  have ha := errIf_errs s a h
  subst ha
  exact ⟨rfl, rfl, rfl⟩

theorem isSome_false {α : Type} {o : Option α} (h : o.isSome = false) : o = none := by
  cases o with
  | none => rfl
  | some a => cases h

theorem setLast_fst (l : List (List Byte × List Byte)) (c : List Byte) : (setLast l c).map (·.1) = l.map (·.1) := by
  induction l with
  | nil => rfl
  | cons x l ih =>
    cases l with
    | nil => rfl
    | cons y l =>
      show x.1 :: (setLast (y :: l) c).map (·.1) = _
      rw [ih]
      rfl

theorem parseEnum_rel (f : Nat) (s : CSt) : (parseEnum f s).Gives (fun t => Declares .enum s t ∧ t.structs = s.structs ∧
    t.enums.map EnumD.name = s.enums.map EnumD.name ++ [s.cur.text]) := by
  unfold parseEnum
  have key : ∀ (u : CSt) (r : Byte × CSt), Rel InBody InBody u r.2 → u.structs = s.structs → u.enums = s.enums →
      (u.toPSt.errs = 0 → (s.eat .identifier).toPSt.errs = 0 ∧ u.toPSt.rest = (s.eat .identifier).toPSt.rest ∧
        s.findStruct s.cur.text = none ∧ s.findEnum s.cur.text = none) →
      ((enumLoop f [] [] 0 (r.2.eat .lbrace)).bind fun q =>
      .ok { q.2.eat .rbrace with enums := (q.2.eat .rbrace).enums ++ [⟨s.cur.text, r.1, q.1⟩] }).Gives (fun t => Declares .enum s t ∧ t.structs = s.structs ∧
        t.enums.map EnumD.name = s.enums.map EnumD.name ++ [s.cur.text]) := by
    intro u r hr h1 h2 h3
    refine (enumLoop_rel f [] [] 0 _).bind fun a ha => .ok ?_
    have hl : Rel InBody Fresh95 u (a.2.eat .rbrace) := relB_rbrace ((relB_eat hr rfl).trans ha)
    have hd := declares_of (k := .enum) hl h3
    refine ⟨⟨hd.mono, hd.scan, hd.new⟩, hl.structs.trans h1, ?_⟩
    show ((a.2.eat .rbrace).enums ++ [_]).map EnumD.name = _
    rw [hl.enums, h2, List.map_append]
    rfl
  refine key (((s.eat .identifier).errIf ((s.eat .identifier).findEnum s.cur.text).isSome).errIf
    (((s.eat .identifier).errIf ((s.eat .identifier).findEnum s.cur.text).isSome).findStruct s.cur.text).isSome) _ ?_ ?_ ?_ ?_
  · split
    · rename_i hc
      dsimp only
      have h1 := relB_eat (relB_advT (Rel.refl InBody _) hc rfl) (ty := .identifier) rfl
      split
      · exact h1
      · exact rel_errS h1
    · exact Rel.refl _ _
  · exact (rel_errIf (rel_errIf (relB_eat (Rel.refl InBody s) (ty := .identifier) rfl))).structs
  · exact (rel_errIf (rel_errIf (relB_eat (Rel.refl InBody s) (ty := .identifier) rfl))).enums
  · intro e
    obtain ⟨ha, hb, hs⟩ := errIf2 _ _ _ e
    rw [hs] at e
    rw [ha] at hb
    exact ⟨e, by rw [hs], isSome_false hb, isSome_false ha⟩

theorem parseStruct_rel (P : PEnv) (f : Nat) (s : CSt) : (parseStruct P f s).Gives (fun t => Declares .struct s t ∧ t.enums = s.enums ∧
    t.structs.map (·.1) = s.structs.map (·.1) ++ [s.cur.text]) := by
  unfold parseStruct
  dsimp only
  have key : ∀ (u : CSt) (g : CSt → CSt), u.enums = s.enums → u.structs = s.structs ++ [(s.cur.text, [])] →
      (u.toPSt.errs = 0 → (s.eat .identifier).toPSt.errs = 0 ∧ u.toPSt.rest = (s.eat .identifier).toPSt.rest ∧
        s.findStruct s.cur.text = none ∧ s.findEnum s.cur.text = none) →
      (∀ v, ∃ w, Rel Fresh95 Fresh95 v w ∧ (g v).cur = w.cur ∧ (g v).toks = w.toks ∧ (g v).log = w.log ∧ (g v).enums = w.enums ∧
        (g v).structs.map (·.1) = w.structs.map (·.1)) →
      ((parseBlock P f u).bind fun v => .ok (g v)).Gives (fun t => Declares .struct s t ∧ t.enums = s.enums ∧
        t.structs.map (·.1) = s.structs.map (·.1) ++ [s.cur.text]) := by
    intro u g h1 h2 h3 h4
    refine ((stmt_rel P f).block u).bind fun v hv => .ok ?_
    obtain ⟨w, hw, e1, e2, e3, e4, e5⟩ := h4 v
    have hd := declares_of (k := .struct) (hv.trans hw) h3
    have he : (g v).toPSt.errs = w.toPSt.errs := by unfold PSt.errs; rw [e3]
    have hr : (g v).toPSt.rest = w.toPSt.rest := by unfold PSt.rest; rw [e1, e2]
    refine ⟨⟨fun h => by rw [he]; exact hd.mono h, fun h => by rw [he] at h; rw [hr]; exact hd.scan h, fun h => by rw [he] at h; exact hd.new h⟩, ?_, ?_⟩
    · rw [e4, hw.enums, hv.enums, h1]
    · rw [e5, hw.structs, hv.structs, h2, List.map_append]
      rfl
  have hp : ∀ c : CSt, c.errIf false = c := fun _ => rfl
  refine key _ (fun u => _) ?_ ?_ ?_ ?_
  · split <;> exact (rel_errIf (rel_errIf (relB_eat (Rel.refl InBody s) (ty := .identifier) rfl))).enums
  · have := (rel_errIf (c := (((s.eat .identifier).errIf ((s.eat .identifier).findStruct s.cur.text).isSome).findEnum s.cur.text).isSome)
      (rel_errIf (c := ((s.eat .identifier).findStruct s.cur.text).isSome) (relB_eat (Rel.refl InBody s) (ty := .identifier) rfl))).structs
    split <;> exact congrArg (· ++ [(s.cur.text, [])]) this
  · intro e
    have e' : (((s.eat .identifier).errIf ((s.eat .identifier).findStruct s.cur.text).isSome).errIf
        (((s.eat .identifier).errIf ((s.eat .identifier).findStruct s.cur.text).isSome).findEnum s.cur.text).isSome).toPSt.errs = 0 := by
      split at e <;> exact e
    obtain ⟨ha, hb, hs⟩ := errIf2 _ _ _ e'
    rw [hs] at e'
    rw [ha] at hb
    refine ⟨e', ?_, isSome_false ha, isSome_false hb⟩
    rw [hs]
    split <;> rfl
  · intro v
    dsimp only
    split
    · exact ⟨(v.errIf (v.bitValid ∧ v.bitCount.toNat % 8 ≠ 0)).put [0x26], rel_put (rel_errIf (Rel.refl _ _)), rfl, rfl, rfl, rfl, setLast_fst _ _⟩
    · exact ⟨v, Rel.refl _ _, rfl, rfl, rfl, rfl, setLast_fst _ _⟩

theorem parsePacket_rel (P : PEnv) (f : Nat) (s : CSt) : (parsePacket P f s).Gives (Rel InBody Fresh95 s) := by
  unfold parsePacket
  dsimp only
  have key : ∀ (q : CSt) (loc : Nat) (name : List Byte), Rel InBody InBody s q →
      ((if q.cur.type = .equals then
        match ((q.adv.eat .identifier).eat .semicolon).findStruct q.adv.cur.text with
        | none => CRes.ok ((q.adv.eat .identifier).eat .semicolon).err
        | some code => .ok (((q.adv.eat .identifier).eat .semicolon).put code)
      else (parseBlock P f { q with fields := [] }).bind fun s => .ok { s with fields := [] }).bind fun s =>
        .ok ((s.intern name).1.patch (loc + 1) (u16le (s.intern name).2))).Gives (Rel InBody Fresh95 s) := by
    intro q loc name hq
    refine CRes.Gives.bind (p := Rel InBody Fresh95 s) ?_ fun a ha => .ok (rel_patch (rel_intern ha))
    split
    · rename_i hc
      have h1 : Rel InBody Fresh95 s ((q.adv.eat .identifier).eat .semicolon) := relB_semi (relB_eat (relB_advT hq hc rfl) rfl)
      split
      · exact .ok (rel_errS h1)
      · exact .ok (rel_put h1)
    · refine ((stmt_rel P f).block { q with fields := [] }).bind fun a ha => .ok (rel_fields ((rel_fields hq).trans ha))
  exact key _ _ _ (rel_put (rel_errIf (rel_errIf (relB_eat (Rel.refl _ _) rfl))))

end Cnd
