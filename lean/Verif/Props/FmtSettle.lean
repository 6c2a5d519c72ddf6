/-
  C90: formatting settles: from the second time on it changes nothing.
-/
import Verif.Props.FmtTokens

namespace Cnd

/-! ### Specification -/

/-- A text that does not end inside a string, where strings do not begin inside line comments. -/
inductive StrClosed : List Byte → Prop
  | nil : StrClosed []
  | char {c s} : c ≠ 0x22 → ¬ (c = 0x2F ∧ NextIs (· = 0x2F) s) → StrClosed s → StrClosed (c :: s)
  | str {body s} : 0x22 ∉ body → StrClosed s → StrClosed (0x22 :: (body ++ 0x22 :: s))
  | line {body s} : 0x0A ∉ body → (s = [] ∨ NextIs (· = 0x0A) s) → StrClosed s → StrClosed (0x2F :: 0x2F :: (body ++ s))

/-! ### The tokens of the formatter, exactly -/

def fmtWs (c : Byte) : Bool := c = 0x20 ∨ c = 0x09 ∨ c = 0x0D

/-- Tokens apart from white space; `r` is what follows. -/
inductive InkTok : FT → List Byte → List Byte → Prop
  | comment {body r} : 0x0A ∉ body → (r = [] ∨ NextIs (· = 0x0A) r) → InkTok .comment (0x2F :: 0x2F :: body) r
  | single {ty c r} : fmtSingle c = some ty → InkTok ty [c] r
  | str {body r} : 0x22 ∉ body → InkTok .string (0x22 :: (body ++ [0x22])) r
  | ident {c a r} : isAlpha c = true → (∀ d ∈ a, (isAlpha d || isDig d) = true) → ¬ NextIs (fun d => (isAlpha d || isDig d) = true) r →
      InkTok .identifier (c :: a) r
  | num {c a r} : isDig c = true → (∀ d ∈ a, fmtNumChar d = true) → ¬ NextIs (fun d => fmtNumChar d = true) r → InkTok .number (c :: a) r
  | neg {d a r} : isDig d = true → (∀ d ∈ a, fmtNumChar d = true) → ¬ NextIs (fun d => fmtNumChar d = true) r →
      InkTok .number (0x2D :: d :: a) r
  | other {c r} : ¬ Blank c → fmtSingle c = none → c ≠ 0x22 → isAlpha c = false → isDig c = false →
      (c = 0x2F → ¬ NextIs (· = 0x2F) r) → (c = 0x2D → ¬ NextIs (fun d => isDig d = true) r) → InkTok .identifier [c] r

theorem fmtSpan_exact (ty : FT) (p : Byte → Bool) (hp : p 0 = false) (c : Byte) (a r post : List Byte) (ha : ∀ d ∈ a, p d = true)
    (hr : ¬ NextIs (fun d => p d = true) r) :
    fmtSpan ty p (c :: (a ++ r ++ 0 :: post)) (a ++ r ++ 0 :: post) = .tok ty (c :: a) (r ++ 0 :: post) := by
  obtain ⟨a', r', e, h1, h2, h3⟩ := fmtSpan_spec ty p hp c (a ++ r)
  obtain ⟨rfl, rfl⟩ := munch (p := fun d => p d = true) ha hr h1 h2 e
  exact h3 post

theorem single_facts (c : Byte) (ty : FT) (h : fmtSingle c = some ty) : c ≠ 0 ∧ c ≠ 0x0A ∧ ¬ (c = 0x20 ∨ c = 0x09 ∨ c = 0x0D) ∧ c ≠ 0x2F := by
  have key : ∀ m : Fin 256, (fmtSingle (BitVec.ofFin m)).isSome = true → BitVec.ofFin m ≠ 0#8 ∧ BitVec.ofFin m ≠ 0x0A#8 ∧
      ¬ (BitVec.ofFin m = 0x20#8 ∨ BitVec.ofFin m = 0x09#8 ∨ BitVec.ofFin m = 0x0D#8) ∧ BitVec.ofFin m ≠ 0x2F#8 := by decide +kernel
  exact key c.toFin (by show (fmtSingle c).isSome = true; rw [h]; rfl)

theorem alnum_facts (c : Byte) (h : isAlpha c = true ∨ isDig c = true) : c ≠ 0 ∧ c ≠ 0x0A ∧ ¬ (c = 0x20 ∨ c = 0x09 ∨ c = 0x0D) ∧
    c ≠ 0x2F ∧ fmtSingle c = none ∧ c ≠ 0x22 ∧ (isDig c = true → isAlpha c = false) := by
  have key : ∀ m : Fin 256, (isAlpha (BitVec.ofFin m) = true ∨ isDig (BitVec.ofFin m) = true) → BitVec.ofFin m ≠ 0#8 ∧ BitVec.ofFin m ≠ 0x0A#8 ∧
      ¬ (BitVec.ofFin m = 0x20#8 ∨ BitVec.ofFin m = 0x09#8 ∨ BitVec.ofFin m = 0x0D#8) ∧ BitVec.ofFin m ≠ 0x2F#8 ∧
      fmtSingle (BitVec.ofFin m) = none ∧ BitVec.ofFin m ≠ 0x22#8 ∧ (isDig (BitVec.ofFin m) = true → isAlpha (BitVec.ofFin m) = false) := by
    decide +kernel
  exact key c.toFin h

theorem not_blank {c : Byte} (h : ¬ Blank c) : c ≠ 0x0A ∧ ¬ (c = 0x20 ∨ c = 0x09 ∨ c = 0x0D) :=
  ⟨fun e => h (.inr (.inr (.inr e))), fun e => h (e.elim .inl fun e => e.elim (fun e => .inr (.inl e)) fun e => .inr (.inr (.inl e)))⟩

/-- fmt_next finds such tokens. -/
theorem inkTok_next {ty : FT} {raw r : List Byte} (h : InkTok ty raw r) (hn : NoNul (raw ++ r)) (post : List Byte) :
    fmtNext (raw ++ r ++ 0 :: post) = .tok ty raw (r ++ 0 :: post) := by
  cases h with
  | @comment body _ h1 h2 =>
    simp only [List.cons_append, fmtNext]
    rw [if_neg (by decide), if_neg (by decide), if_neg (by decide), if_pos trivial, if_pos trivial]
    have := fmtSpan_exact .comment (fun d => d ≠ 0 ∧ d ≠ 0x0A) (by decide) 0x2F (0x2F :: body) r post (fun d hd => by
        have h0 : d ≠ 0 := hn d (by simp only [List.cons_append]; exact List.mem_cons_of_mem _ (by
          rcases List.mem_cons.1 hd with h | h
          · simp [h]
          · simp [h]))
        have hl : d ≠ 0x0A := fun e => by
          rcases List.mem_cons.1 hd with h | h
          · rw [h] at e; exact absurd e (by decide)
          · exact h1 (e ▸ h)
        simp; exact ⟨h0, hl⟩)
      (fun ⟨d, ds, e, h⟩ => by
        rcases h2 with h2 | ⟨x, xs, e', h'⟩
        · rw [h2] at e; cases e
        · rw [e] at e'; cases e'; rw [h'] at h; simp at h)
    simpa using this
  | @single _ c _ h =>
    obtain ⟨h1, h2, h3, h4⟩ := single_facts c ty h
    simp only [List.cons_append, List.nil_append, fmtNext]
    rw [if_neg h1, if_neg h2, if_neg h3, if_neg h4]
    unfold fmtRest
    rw [h]
  | @str body _ h =>
    simp only [List.cons_append, fmtNext]
    rw [if_neg (by decide), if_neg (by decide), if_neg (by decide), if_neg (by decide)]
    unfold fmtRest
    rw [show fmtSingle 0x22 = none from rfl]
    dsimp only
    rw [if_pos rfl]
    unfold fmtString
    obtain ⟨a, r', e, h1, h2, h3⟩ := skipWhile_all (fun d => d ≠ 0x22 ∧ d ≠ 0) (by decide) (body ++ 0x22 :: r)
    obtain ⟨rfl, rfl⟩ := munch (p := fun d => (decide (d ≠ 0x22 ∧ d ≠ 0)) = true) (a := body) (b := 0x22 :: r) (fun d hd => by
        have h0 : d ≠ 0 := hn d (by simp [hd])
        have hq : d ≠ 0x22 := fun e => h (e ▸ hd)
        simp; exact ⟨hq, h0⟩) (fun ⟨d, ds, e, h⟩ => by cases e; simp at h) h1 h2 e
    have e2 : body ++ [0x22] ++ r ++ 0 :: post = body ++ 0x22 :: r ++ 0 :: post := by simp
    rw [e2, h3 post]
    dsimp only [List.cons_append]
    rw [if_pos rfl]
    have := between_append (0x22 :: (body ++ [0x22])) (r ++ 0 :: post)
    rw [show 0x22 :: (body ++ 0x22 :: r ++ 0 :: post) = 0x22 :: (body ++ [0x22]) ++ (r ++ 0 :: post) by simp, this]
  | @ident c a _ h1 h2 h3 =>
    obtain ⟨g1, g2, g3, g4, g5, g6, g7⟩ := alnum_facts c (.inl h1)
    simp only [List.cons_append, fmtNext]
    rw [if_neg g1, if_neg g2, if_neg g3, if_neg g4]
    unfold fmtRest
    rw [g5]
    dsimp only
    rw [if_neg g6, if_pos h1]
    exact fmtSpan_exact .identifier (fun d => isAlpha d || isDig d) (by decide) c a r post h2 h3
  | @num c a _ h1 h2 h3 =>
    obtain ⟨g1, g2, g3, g4, g5, g6, g7⟩ := alnum_facts c (.inr h1)
    simp only [List.cons_append, fmtNext]
    rw [if_neg g1, if_neg g2, if_neg g3, if_neg g4]
    unfold fmtRest
    rw [g5]
    dsimp only
    rw [if_neg g6, if_neg (by rw [g7 h1]; simp), if_pos h1]
    exact fmtSpan_exact .number fmtNumChar (by decide) c a r post h2 h3
  | @neg d a _ h1 h2 h3 =>
    simp only [List.cons_append, fmtNext]
    rw [if_neg (by decide), if_neg (by decide), if_neg (by decide), if_neg (by decide)]
    unfold fmtRest
    rw [show fmtSingle 0x2D = none from rfl]
    dsimp only
    rw [if_neg (by decide), if_neg (by decide), if_neg (by decide), if_pos rfl, if_pos h1]
    have hd : fmtNumChar d = true := by unfold fmtNumChar; simp [h1]
    have := fmtSpan_exact .number fmtNumChar (by decide) 0x2D (d :: a) r post
      (fun x hx => (List.mem_cons.1 hx).elim (fun e => e ▸ hd) (h2 x)) h3
    simpa using this
  | @other c _ h1 h2 h3 h4 h5 h6 h7 =>
    obtain ⟨g1, g2⟩ := not_blank h1
    have g0 : c ≠ 0 := hn c (by simp)
    simp only [List.cons_append, List.nil_append, fmtNext]
    rw [if_neg g0, if_neg g1, if_neg g2]
    have key : fmtRest c (c :: (r ++ 0 :: post)) (r ++ 0 :: post) = .tok .identifier [c] (r ++ 0 :: post) := by
      unfold fmtRest
      rw [h2]
      dsimp only
      rw [if_neg h3, if_neg (by rw [h4]; simp), if_neg (by rw [h5]; simp)]
      by_cases hm : c = 0x2D
      · rw [if_pos hm]
        cases r with
        | nil => rfl
        | cons d ds =>
          dsimp only [List.cons_append]
          rw [if_neg (fun h => h7 hm ⟨d, ds, rfl, h⟩)]
      · rw [if_neg hm]
    by_cases hs : c = 0x2F
    · rw [if_pos hs]
      cases r with
      | nil => exact key
      | cons d ds =>
        dsimp only [List.cons_append]
        rw [if_neg (fun h => h6 hs ⟨d, ds, rfl, h⟩)]
        exact key
    · rw [if_neg hs]
      exact key

/-- The character behind a token may be replaced by white space, a line feed behind a comment. -/
theorem inkTok_carry {ty : FT} {raw r r' : List Byte} (h : InkTok ty raw r)
    (hr : (∀ p : Byte → Prop, (∀ c, Blank c → ¬ p c) → NextIs p r' → NextIs p r)) (hc : ty = .comment → NextIs (· = 0x0A) r') :
    InkTok ty raw r' := by
  have b1 : ∀ c, Blank c → ¬ ((isAlpha c || isDig c) = true) := by
    intro c h; rcases h with rfl | rfl | rfl | rfl <;> decide
  have b2 : ∀ c, Blank c → ¬ (fmtNumChar c = true) := by
    intro c h; rcases h with rfl | rfl | rfl | rfl <;> decide
  have b3 : ∀ c, Blank c → ¬ (c = 0x2F) := by
    intro c h; rcases h with rfl | rfl | rfl | rfl <;> decide
  have b4 : ∀ c, Blank c → ¬ (isDig c = true) := by
    intro c h; rcases h with rfl | rfl | rfl | rfl <;> decide
  cases h with
  | comment h1 h2 => exact .comment h1 (.inr (hc rfl))
  | single h => exact .single h
  | str h => exact .str h
  | ident h1 h2 h3 => exact .ident h1 h2 (fun h => h3 (hr _ b1 h))
  | num h1 h2 h3 => exact .num h1 h2 (fun h => h3 (hr _ b2 h))
  | neg h1 h2 h3 => exact .neg h1 h2 (fun h => h3 (hr _ b2 h))
  | other h1 h2 h3 h4 h5 h6 h7 =>
    exact .other h1 h2 h3 h4 h5 (fun e h => h6 e (hr _ b3 h)) (fun e h => h7 e (hr _ b4 h))

theorem inkTok_head {ty : FT} {raw r : List Byte} (h : InkTok ty raw r) : ∃ c a, raw = c :: a ∧ ¬ Blank c := by
  cases h with
  | comment => exact ⟨_, _, rfl, by decide⟩
  | single h => exact ⟨_, _, rfl, (fmtSingle_plain _ _ h).2.2.1⟩
  | str => exact ⟨_, _, rfl, by decide⟩
  | ident h => exact ⟨_, _, rfl, (identChar_plain _ (by rw [h]; rfl)).1⟩
  | num h => exact ⟨_, _, rfl, (identChar_plain _ (by rw [h]; simp)).1⟩
  | neg => exact ⟨_, _, rfl, by decide⟩
  | other h => exact ⟨_, _, rfl, h⟩

/-! ### Texts cut into tokens -/

/-- The tokens of a text, each with the white space in front of it. -/
inductive FmtCut : List Byte → List (List Byte × FT × List Byte) → Prop
  | nil {g} : (∀ c ∈ g, Blank c) → FmtCut g []
  | cons {g ty raw r items} : (∀ c ∈ g, Blank c) → InkTok ty raw r → FmtCut r items → FmtCut (g ++ (raw ++ r)) ((g, ty, raw) :: items)

theorem cut_blank {c : Byte} (hc : Blank c) {s : List Byte} {items : List (List Byte × FT × List Byte)} (h : FmtCut s items) :
    ∃ items', FmtCut (c :: s) items' := by
  cases h with
  | nil h => exact ⟨_, .nil (fun d hd => (List.mem_cons.1 hd).elim (fun e => e ▸ hc) (h d))⟩
  | @cons g _ _ _ _ h1 h2 h3 => exact ⟨_, .cons (g := c :: g) (fun d hd => (List.mem_cons.1 hd).elim (fun e => e ▸ hc) (h1 d)) h2 h3⟩

theorem closed_chars (a : List Byte) (h : ∀ d ∈ a, PlainChar d) {r : List Byte} (hs : StrClosed (a ++ r)) : StrClosed r := by
  induction a with
  | nil => exact hs
  | cons c a ih =>
    obtain ⟨h1, h2, h3, h4⟩ := h c (by simp)
    generalize e : c :: a ++ r = s at hs
    rw [List.cons_append] at e
    cases hs with
    | nil => cases e
    | char _ _ h5 =>
      injection e with _ e
      exact ih (fun d hd => h d (by simp [hd])) (e ▸ h5)
    | str => injection e with e _; exact absurd e h2
    | line => injection e with e _; exact absurd e h3

theorem span_split (p : Byte → Bool) (s : List Byte) : ∃ a r, s = a ++ r ∧ (∀ c ∈ a, p c = true) ∧ ¬ NextIs (fun c => p c = true) r := by
  induction s with
  | nil => exact ⟨[], [], rfl, by simp, fun ⟨_, _, h, _⟩ => by cases h⟩
  | cons c s ih =>
    by_cases hc : p c = true
    · obtain ⟨a, r, e, h1, h2⟩ := ih
      exact ⟨c :: a, r, by rw [e]; rfl, fun d hd => (List.mem_cons.1 hd).elim (fun e => e ▸ hc) (h1 d), h2⟩
    · exact ⟨[], c :: s, rfl, by simp, fun ⟨_, _, h, h'⟩ => by cases h; exact hc h'⟩

/-- Every text that does not end inside a string can be cut. -/
theorem cut_total (n : Nat) : ∀ (s : List Byte), s.length ≤ n → StrClosed s → ∃ items, FmtCut s items := by
  induction n with
  | zero =>
    intro s hl _
    have : s = [] := List.eq_nil_of_length_eq_zero (by omega)
    subst this
    exact ⟨[], .nil (by simp)⟩
  | succ n ih =>
    intro s hl hs
    cases hs with
    | nil => exact ⟨[], .nil (by simp)⟩
    | @str body s h1 h2 =>
      obtain ⟨items, hi⟩ := ih s (by simp at hl; omega) h2
      exact ⟨_, by have := FmtCut.cons (g := []) (by simp) (.str h1) hi; simpa using this⟩
    | @line body s h1 h2 h3 =>
      obtain ⟨items, hi⟩ := ih s (by simp at hl; omega) h3
      exact ⟨_, by have := FmtCut.cons (g := []) (by simp) (.comment h1 h2) hi; simpa using this⟩
    | @char c s h1 h2 h3 =>
      simp only [List.length_cons] at hl
      by_cases hb : Blank c
      · obtain ⟨items, hi⟩ := ih s (by omega) h3
        exact cut_blank hb hi
      · cases hsg : fmtSingle c with
        | some ty =>
          obtain ⟨items, hi⟩ := ih s (by omega) h3
          exact ⟨_, FmtCut.cons (g := []) (by simp) (.single hsg) hi⟩
        | none =>
          by_cases ha : isAlpha c = true
          · obtain ⟨a, r, rfl, k1, k2⟩ := span_split (fun d => isAlpha d || isDig d) s
            obtain ⟨items, hi⟩ := ih r (by simp at hl; omega) (closed_chars a (fun d hd => identChar_plain d (k1 d hd)) h3)
            exact ⟨_, FmtCut.cons (g := []) (by simp) (.ident ha k1 k2) hi⟩
          · by_cases hd : isDig c = true
            · obtain ⟨a, r, rfl, k1, k2⟩ := span_split fmtNumChar s
              obtain ⟨items, hi⟩ := ih r (by simp at hl; omega) (closed_chars a (fun d hd => numChar_plain d (k1 d hd)) h3)
              exact ⟨_, FmtCut.cons (g := []) (by simp) (.num hd k1 k2) hi⟩
            · by_cases hm : c = 0x2D ∧ NextIs (fun d => isDig d = true) s
              · obtain ⟨rfl, d, ds, rfl, hd'⟩ := hm
                obtain ⟨a, r, rfl, k1, k2⟩ := span_split fmtNumChar ds
                have hdn : fmtNumChar d = true := by unfold fmtNumChar; simp [hd']
                obtain ⟨items, hi⟩ := ih r (by simp at hl; omega) (closed_chars (d :: a) (fun x hx => numChar_plain x
                  ((List.mem_cons.1 hx).elim (fun e => e ▸ hdn) (k1 x))) h3)
                exact ⟨_, FmtCut.cons (g := []) (by simp) (.neg hd' k1 k2) hi⟩
              · obtain ⟨items, hi⟩ := ih s (by omega) h3
                exact ⟨_, FmtCut.cons (g := []) (by simp) (.other hb hsg h1 (by simpa using ha) (by simpa using hd)
                  (fun e h => h2 ⟨e, h⟩) (fun e h => hm ⟨e, h⟩)) hi⟩

/-! ### What the formatter writes -/

def nlAfter (ty : FT) : Nat := if ty = .lbrace ∨ ty = .rbrace ∨ ty = .semicolon ∨ ty = .comment then 1 else 0
def indBefore (ty : FT) (n : Nat) : Nat := if ty = .rbrace then n - 1 else n
def indAfter (ty : FT) (n : Nat) : Nat := if ty = .lbrace then n + 1 else indBefore ty n
def lbSpace (ty : FT) : List Byte := if ty = .lbrace then [0x20] else []

/-- The number of line feeds in front of a token behind a token of type `p`. -/
def feeds (p ty : FT) (nl : Nat) : Nat := if ty = .rbrace then 1 else min 2 (nlAfter p + nl)

/-- The white space in front of a token. -/
def gapOf (prev : Option FT) (ind : Nat) (ty : FT) (nl : Nat) (ws : Bool) : List Byte :=
  match prev with
  | none => lbSpace ty
  | some p =>
    if feeds p ty nl = 0 then (if p = .comma ∨ ws = true then [0x20] else []) ++ lbSpace ty
    else List.replicate (feeds p ty nl) 0x0A ++ (indentText (indBefore ty ind) ++ lbSpace ty)

def gapAt (prev : Option FT) (ind : Nat) (ty : FT) (g : List Byte) : List Byte := gapOf prev ind ty (newlines g) (g.any fmtWs)

def layout : Option FT → Nat → List (List Byte × FT × List Byte) → List Byte
  | _, _, [] => [0x0A]
  | prev, ind, (g, ty, raw) :: its => gapAt prev ind ty g ++ (raw ++ layout (some ty) (indAfter ty ind) its)

def regap : Option FT → Nat → List (List Byte × FT × List Byte) → List (List Byte × FT × List Byte)
  | _, _, [] => []
  | prev, ind, (g, ty, raw) :: its => (gapAt prev ind ty g, ty, raw) :: regap (some ty) (indAfter ty ind) its

/-- The variables of the formatter behind a token. -/
def stAt (prev : Option FT) (ind : Nat) (out : List Byte) : FSt :=
  match prev with
  | none => ⟨ind, 0, false, true, false, out⟩
  | some p => ⟨ind, nlAfter p, p = .comma, false, true, out⟩

/-- The variables behind white space. -/
def afterGap (g : List Byte) (st : FSt) : FSt :=
  { st with newlinePending := min 2 (st.newlinePending + newlines g), spacePending := st.spacePending || (st.started && g.any fmtWs) }

def FmtTo (st : FSt) (s out : List Byte) : Prop := ∀ post f, s.length < f → fmtLoop f (s ++ 0 :: post) st = some out

theorem fmtTo_step {st : FSt} {raw r out : List Byte} {ty : FT} (h0 : raw ≠ [])
    (h : ∀ post, fmtNext (raw ++ r ++ 0 :: post) = .tok ty raw (r ++ 0 :: post))
    (ht : FmtTo (fmtToken ty raw st) r out) : FmtTo st (raw ++ r) out := by
  intro post f hf
  have : 0 < raw.length := List.length_pos_iff.2 h0
  simp only [List.length_append] at hf
  obtain ⟨f, rfl⟩ : ∃ k, f = k + 1 := ⟨f - 1, by omega⟩
  rw [fmtLoop, h]
  exact ht post f (by omega)

theorem fmtNext_ws (c : Byte) (a r post : List Byte) (hc : fmtWs c = true) (ha : ∀ d ∈ a, fmtWs d = true)
    (hr : ¬ NextIs (fun d => fmtWs d = true) r) : fmtNext (c :: a ++ r ++ 0 :: post) = .tok .whitespace (c :: a) (r ++ 0 :: post) := by
  have hc' : c = 0x20 ∨ c = 0x09 ∨ c = 0x0D := by unfold fmtWs at hc; simpa using hc
  simp only [List.cons_append, fmtNext]
  rw [if_neg (by rcases hc' with rfl | rfl | rfl <;> decide), if_neg (by rcases hc' with rfl | rfl | rfl <;> decide), if_pos hc']
  exact fmtSpan_exact .whitespace fmtWs (by decide) c a r post ha hr

theorem afterGap_nil (st : FSt) (h : st.newlinePending ≤ 2) : afterGap [] st = st := by
  obtain ⟨ind, np, sp, on, sd, out⟩ := st
  simp only at h
  simp [afterGap, newlines, Nat.min_eq_right h]

/-- White space only changes the pending flags. -/
theorem fmtTo_gap (n : Nat) : ∀ (g : List Byte), g.length ≤ n → (∀ c ∈ g, Blank c) → ∀ {st : FSt} {r out : List Byte}, st.newlinePending ≤ 2 →
    ¬ NextIs Blank r → FmtTo (afterGap g st) r out → FmtTo st (g ++ r) out := by
  induction n with
  | zero =>
    intro g hl _ st r out hp _ h
    have : g = [] := List.eq_nil_of_length_eq_zero (by omega)
    subst this
    rw [afterGap_nil st hp] at h
    exact h
  | succ n ih =>
    intro g hl hg st r out hp hr h
    cases g with
    | nil => rw [afterGap_nil st hp] at h; exact h
    | cons c g =>
      simp only [List.length_cons] at hl
      by_cases hc : c = 0x0A
      · subst hc
        refine fmtTo_step (raw := [0x0A]) (r := g ++ r) (ty := .newline) (by simp) (fun post => ?_) ?_
        · simp only [List.cons_append, List.nil_append, fmtNext]
          rw [if_neg (by decide), if_pos trivial]
        · refine ih g (by omega) (fun c hc => hg c (by simp [hc])) ?_ hr ?_
          · unfold fmtToken
            dsimp only
            split <;> first | omega | (dsimp only; omega)
          · have e : afterGap g (fmtToken .newline [0x0A] st) = afterGap (0x0A :: g) st := by
              obtain ⟨ind, np, sp, on, sd, o⟩ := st
              have hn : newlines (0x0A :: g) = newlines g + 1 := by simp [newlines]
              unfold afterGap fmtToken
              rw [hn]
              simp only at hp
              by_cases h2 : np < 2
              · simp [h2, fmtWs]
                omega
              · simp [h2, fmtWs]
                omega
            rw [e]
            exact h
      · have hw : fmtWs c = true := by
          rcases hg c (by simp) with h | h | h | h
          · rw [h]; rfl
          · rw [h]; rfl
          · rw [h]; rfl
          · exact absurd h hc
        obtain ⟨a, g2, rfl, k1, k2⟩ := span_split fmtWs g
        have hr' : ¬ NextIs (fun d => fmtWs d = true) (g2 ++ r) := by
          cases g2 with
          | nil =>
            rintro ⟨d, ds, e, hd⟩
            refine hr ⟨d, ds, e, ?_⟩
            unfold fmtWs at hd
            rw [decide_eq_true_eq] at hd
            rcases hd with h | h | h
            · exact .inl h
            · exact .inr (.inl h)
            · exact .inr (.inr (.inl h))
          | cons d ds =>
            rintro ⟨x, xs, e, hx⟩
            cases e
            exact k2 ⟨d, ds, rfl, hx⟩
        have := fmtTo_step (raw := c :: a) (r := g2 ++ r) (ty := .whitespace) (st := st) (out := out) (by simp) (fun post => fmtNext_ws c a _ post hw k1 hr') (by
          refine ih g2 (by simp at hl; omega) (fun c hc => hg c (by simp [hc])) ?_ hr ?_
          · unfold fmtToken
            dsimp only
            split <;> exact hp
          · have e : afterGap g2 (fmtToken .whitespace (c :: a) st) = afterGap (c :: (a ++ g2)) st := by
              obtain ⟨ind, np, sp, on, sd, o⟩ := st
              have hn : newlines (c :: (a ++ g2)) = newlines g2 := by
                have ha : newlines (c :: a) = 0 := by
                  unfold newlines
                  rw [List.countP_eq_zero]
                  intro d hd
                  have : fmtWs d = true := (List.mem_cons.1 hd).elim (fun e => e ▸ hw) (k1 d)
                  simp
                  intro e
                  rw [e] at this
                  exact absurd this (by decide)
                have : newlines (c :: (a ++ g2)) = newlines (c :: a) + newlines g2 := by
                  unfold newlines
                  rw [← List.cons_append, List.countP_append]
                omega
              unfold afterGap fmtToken
              rw [hn]
              cases sd <;> simp [hw]
            rw [e]
            exact h)
        simpa using this

theorem fmtAfter_eq (ty : FT) (ind : Nat) (sd : Bool) (out : List Byte) :
    fmtAfter ty ⟨ind, 0, false, false, sd, out⟩ = stAt (some ty) (if ty = .lbrace then ind + 1 else ind) out := by
  cases ty <;> rfl

theorem fmtBefore_first (ty : FT) (nl : Nat) (out : List Byte) :
    fmtBefore ty ⟨0, nl, false, true, false, out⟩ = ⟨0, 0, false, false, false, out ++ lbSpace ty⟩ := by
  unfold fmtBefore lbSpace
  by_cases t1 : ty = .rbrace
  · subst t1
    simp [indentText]
  · by_cases t2 : ty = .lbrace
    · subst t2
      cases nl <;> simp [indentText]
    · cases nl <;> simp [indentText, t1, t2]

theorem fmtBefore_next (p ty : FT) (ind nl : Nat) (ws : Bool) (out : List Byte) :
    fmtBefore ty ⟨ind, min 2 (nlAfter p + nl), decide (p = .comma) || ws, false, true, out⟩ =
      ⟨indBefore ty ind, 0, false, false, true, out ++ gapOf (some p) ind ty nl ws⟩ := by
  have hc : (p = .comma ∨ ws = true) = ((decide (p = .comma) || ws) = true) := by simp
  unfold fmtBefore gapOf
  dsimp only
  simp only [hc]
  generalize (decide (p = .comma) || ws) = b
  unfold feeds lbSpace indBefore
  have hm : min 2 (nlAfter p + nl) = 0 ∨ min 2 (nlAfter p + nl) = 1 ∨ min 2 (nlAfter p + nl) = 2 := by omega
  generalize min 2 (nlAfter p + nl) = n at hm
  by_cases t1 : ty = .rbrace
  · subst t1
    simp
  · by_cases t2 : ty = .lbrace
    · subst t2
      rcases hm with rfl | rfl | rfl <;> cases b <;> simp [List.replicate]
    · rcases hm with rfl | rfl | rfl <;> cases b <;> simp [t1, t2, List.replicate]

theorem afterGap_stAt (prev : Option FT) (ind : Nat) (out g : List Byte) (hi : prev = none → ind = 0) (ty : FT) (raw : List Byte)
    (h1 : ty ≠ .whitespace) (h2 : ty ≠ .newline) :
    fmtToken ty raw (afterGap g (stAt prev ind out)) = stAt (some ty) (indAfter ty ind) (out ++ (gapAt prev ind ty g ++ raw)) := by
  rw [fmtToken_ink ty raw _ h1 h2]
  unfold gapAt
  cases prev with
  | none =>
    rw [hi rfl]
    have e : afterGap g (stAt none 0 out) = ⟨0, min 2 (0 + newlines g), false, true, false, out⟩ := by
      unfold afterGap stAt
      simp
    rw [e, fmtBefore_first]
    dsimp only
    rw [fmtAfter_eq]
    unfold indAfter indBefore gapOf
    simp
  | some p =>
    have e : afterGap g (stAt (some p) ind out) = ⟨ind, min 2 (nlAfter p + newlines g), decide (p = .comma) || g.any fmtWs, false, true, out⟩ := by
      unfold afterGap stAt
      simp
    rw [e, fmtBefore_next]
    dsimp only
    rw [fmtAfter_eq]
    unfold indAfter indBefore
    by_cases t2 : ty = .lbrace
    · subst t2; simp
    · simp [t2]

theorem inkTok_ty {ty : FT} {raw r : List Byte} (h : InkTok ty raw r) : ty ≠ .whitespace ∧ ty ≠ .newline := by
  cases h with
  | single h => exact fmtSingle_ink _ _ h
  | _ => exact ⟨by simp, by simp⟩

theorem stAt_np (prev : Option FT) (ind : Nat) (out : List Byte) : (stAt prev ind out).newlinePending ≤ 2 := by
  cases prev with
  | none => simp [stAt]
  | some p => unfold stAt nlAfter; dsimp only; split <;> omega

theorem fmtTo_layout {s : List Byte} {items : List (List Byte × FT × List Byte)} (h : FmtCut s items) : ∀ (prev : Option FT) (ind : Nat)
    (out : List Byte), (prev = none → ind = 0) → NoNul s → FmtTo (stAt prev ind out) s (out ++ layout prev ind items) := by
  induction h with
  | @nil g hg =>
    intro prev ind out hi hn
    have := fmtTo_gap _ g (Nat.le_refl _) hg (stAt_np prev ind out) (r := []) (out := out ++ layout prev ind [])
      (fun ⟨_, _, h, _⟩ => by cases h) (fun post f hf => by
        obtain ⟨f, rfl⟩ : ∃ k, f = k + 1 := ⟨f - 1, by omega⟩
        cases prev <;> rfl)
    simpa using this
  | @cons g ty raw r items hg ht hr ih =>
    intro prev ind out hi hn
    obtain ⟨c, a, e, hc⟩ := inkTok_head ht
    refine fmtTo_gap _ g (Nat.le_refl _) hg (stAt_np prev ind out) (by rw [e]; rintro ⟨_, _, h, h'⟩; cases h; exact hc h') ?_
    have hn' : NoNul (raw ++ r) := fun b hb => hn b (List.mem_append_right _ hb)
    refine fmtTo_step (by rw [e]; simp) (fun post => inkTok_next ht hn' post) ?_
    rw [afterGap_stAt prev ind out g hi ty raw (inkTok_ty ht).1 (inkTok_ty ht).2]
    have := ih (some ty) (indAfter ty ind) (out ++ (gapAt prev ind ty g ++ raw)) (fun h => by cases h)
      (fun b hb => hn' b (List.mem_append_right _ hb))
    rw [layout]
    simpa using this

theorem gapOf_blank (prev : Option FT) (ind : Nat) (ty : FT) (nl : Nat) (ws : Bool) : ∀ c ∈ gapOf prev ind ty nl ws, Blank c := by
  have hl : ∀ c ∈ lbSpace ty, Blank c := by
    unfold lbSpace
    split
    · intro c hc; simp at hc; exact .inl hc
    · simp
  unfold gapOf
  cases prev with
  | none => exact hl
  | some p =>
    dsimp only
    split
    · intro c hc
      rcases List.mem_append.1 hc with h | h
      · split at h
        · simp at h; exact .inl h
        · simp at h
      · exact hl c h
    · intro c hc
      rcases List.mem_append.1 hc with h | h
      · exact .inr (.inr (.inr (List.eq_of_mem_replicate h)))
      · rcases List.mem_append.1 h with h | h
        · exact indentText_blank _ c h
        · exact hl c h

/-- White space is not dropped between two tokens. -/
theorem gapOf_nil {p : FT} {ind : Nat} {ty : FT} {g : List Byte} (hg : ∀ c ∈ g, Blank c) (h : gapAt (some p) ind ty g = []) : g = [] := by
  unfold gapAt gapOf at h
  dsimp only at h
  split at h
  · rename_i hf
    have hw : ¬ (p = .comma ∨ g.any fmtWs = true) := by
      intro hw
      rw [if_pos hw] at h
      simp at h
    have hnl : newlines g = 0 := by
      unfold feeds at hf
      split at hf
      · omega
      · omega
    cases g with
    | nil => rfl
    | cons c g =>
      exfalso
      by_cases hc : c = 0x0A
      · subst hc
        simp [newlines] at hnl
      · refine hw (.inr ?_)
        rw [List.any_cons, Bool.or_eq_true]
        left
        rcases hg c (by simp) with h | h | h | h
        · rw [h]; rfl
        · rw [h]; rfl
        · rw [h]; rfl
        · exact absurd h hc
  · rename_i hf
    have := congrArg List.length h
    simp only [List.length_append, List.length_replicate, List.length_nil] at this
    omega

/-- The written text is cut into the same tokens. -/
theorem cut_layout {s : List Byte} {items : List (List Byte × FT × List Byte)} (h : FmtCut s items) : ∀ (prev : Option FT) (ind : Nat),
    FmtCut (layout prev ind items) (regap prev ind items) := by
  induction h with
  | nil hg => intro prev ind; exact .nil (by intro c hc; simp [layout] at hc; exact .inr (.inr (.inr hc)))
  | @cons g ty raw r items hg ht hr ih =>
    intro prev ind
    rw [layout, regap]
    refine .cons (gapOf_blank _ _ _ _ _) (inkTok_carry ht (fun p hp hn => ?_) (fun e => ?_)) (ih (some ty) (indAfter ty ind))
    · cases hr with
      | nil h =>
        obtain ⟨c, cs, e, hc⟩ := hn
        cases e
        exact absurd hc (hp _ (.inr (.inr (.inr rfl))))
      | @cons g2 ty2 raw2 r2 _ h1 h2 h3 =>
        rw [layout] at hn
        obtain ⟨c, cs, e, hc⟩ := hn
        generalize hgp : gapAt (some ty) (indAfter ty ind) ty2 g2 = gp at e
        cases gp with
        | nil =>
          have := gapOf_nil h1 hgp
          subst this
          obtain ⟨d, a, rfl, _⟩ := inkTok_head h2
          cases e
          exact ⟨c, _, rfl, hc⟩
        | cons d gp =>
          cases e
          exact absurd hc (hp c (gapOf_blank _ _ _ _ _ c (by unfold gapAt at hgp; rw [hgp]; simp)))
    · subst e
      cases items with
      | nil => exact ⟨_, _, rfl, rfl⟩
      | cons it items =>
        obtain ⟨g2, ty2, raw2⟩ := it
        rw [layout]
        unfold gapAt gapOf
        dsimp only
        have hf : feeds .comment ty2 (newlines g2) ≠ 0 := by
          unfold feeds nlAfter
          split
          · simp
          · simp
        rw [if_neg hf]
        obtain ⟨k, hk⟩ : ∃ k, feeds .comment ty2 (newlines g2) = k + 1 := ⟨_, (Nat.succ_pred_eq_of_ne_zero hf).symm⟩
        rw [hk, List.replicate_succ]
        exact ⟨_, _, rfl, rfl⟩

theorem newlines_indent (n : Nat) : newlines (indentText n) = 0 := by
  unfold newlines
  rw [List.countP_eq_zero]
  intro c hc
  unfold indentText at hc
  rw [List.mem_flatten] at hc
  obtain ⟨l, hl, hc⟩ := hc
  rw [List.mem_replicate] at hl
  rw [hl.2] at hc
  simp at hc
  rw [hc]
  decide

theorem newlines_lb (ty : FT) : newlines (lbSpace ty) = 0 := by unfold lbSpace; split <;> rfl

/-- The white space of the second time is that of the third. -/
theorem gap_settles (prev : Option FT) (ind : Nat) (ty : FT) (g : List Byte) :
    gapAt prev ind ty (gapAt prev ind ty (gapAt prev ind ty g)) = gapAt prev ind ty (gapAt prev ind ty g) := by
  cases prev with
  | none => rfl
  | some p =>
    have zero : ∀ nl ws, feeds p ty nl = 0 → newlines (gapOf (some p) ind ty nl ws) = 0 ∧
        (gapOf (some p) ind ty nl ws).any fmtWs = (decide (p = .comma) || ws || decide (ty = .lbrace)) := by
      intro nl ws h
      unfold gapOf
      dsimp only
      rw [if_pos h, newlines_append, newlines_lb]
      unfold lbSpace
      by_cases h1 : p = .comma <;> cases ws <;> by_cases h2 : ty = .lbrace <;> simp [h1, h2, newlines, fmtWs]
    have pos : ∀ nl ws, feeds p ty nl ≠ 0 → newlines (gapOf (some p) ind ty nl ws) = feeds p ty nl := by
      intro nl ws h
      unfold gapOf
      dsimp only
      rw [if_neg h, newlines_append, newlines_append, newlines_indent, newlines_lb]
      unfold newlines
      rw [List.countP_replicate]
      simp
    have same : ∀ nl nl' ws ws', feeds p ty nl = feeds p ty nl' → (feeds p ty nl = 0 → (decide (p = .comma) || ws) = (decide (p = .comma) || ws')) →
        gapOf (some p) ind ty nl ws = gapOf (some p) ind ty nl' ws' := by
      intro nl nl' ws ws' h h'
      unfold gapOf
      dsimp only
      rw [h] at h' ⊢
      split
      · rename_i h0
        have := h' h0
        by_cases hc : p = .comma
        · simp [hc]
        · simp [hc] at this
          simp [hc, this]
      · rfl
    have hp : nlAfter p ≤ 1 := by unfold nlAfter; split <;> omega
    unfold gapAt
    generalize newlines g = nl
    generalize g.any fmtWs = ws
    by_cases h0 : feeds p ty nl = 0
    · obtain ⟨z1, z2⟩ := zero nl ws h0
      rw [z1, z2]
      have h1 : feeds p ty 0 = 0 := by
        unfold feeds at h0 ⊢
        split at h0
        · omega
        · rename_i h
          rw [if_neg h]
          omega
      obtain ⟨y1, y2⟩ := zero 0 (decide (p = .comma) || ws || decide (ty = .lbrace)) h1
      rw [y1, y2]
      refine same _ _ _ _ rfl (fun _ => ?_)
      cases decide (p = .comma) <;> cases ws <;> cases decide (ty = .lbrace) <;> rfl
    · rw [pos nl ws h0]
      have h1 : feeds p ty (feeds p ty nl) ≠ 0 := by
        unfold feeds at h0 ⊢
        split
        · omega
        · rename_i h
          rw [if_neg h] at h0
          omega
      rw [pos _ _ h1]
      refine same _ _ _ _ ?_ (fun h => absurd h ?_)
      · by_cases t : ty = .rbrace
        · simp [feeds, t]
        · simp only [feeds, t, if_false]
          omega
      · by_cases t : ty = .rbrace
        · simp [feeds, t]
        · simp only [feeds, t, if_false] at h1 ⊢
          omega

theorem layout_settles (items : List (List Byte × FT × List Byte)) : ∀ (prev : Option FT) (ind : Nat),
    layout prev ind (regap prev ind (regap prev ind items)) = layout prev ind (regap prev ind items) := by
  induction items with
  | nil => intro prev ind; rfl
  | cons it items ih =>
    intro prev ind
    obtain ⟨g, ty, raw⟩ := it
    simp only [regap, layout]
    rw [gap_settles, ih]

theorem ink_noNul {s out : List Byte} (h : ink out = ink s) (hs : NoNul s) : NoNul out := by
  intro c hc e
  subst e
  have : (0 : Byte) ∈ ink out := by
    unfold ink
    rw [List.mem_filter]
    exact ⟨hc, by decide⟩
  rw [h] at this
  exact hs 0 (List.mem_filter.1 this).1 rfl

theorem cut_source {s : List Byte} {items : List (List Byte × FT × List Byte)} (h : FmtCut s items) (hn : NoNul s) :
    fmtSource (s ++ [0]) = some (layout none 0 items) ∧ NoNul (layout none 0 items) := by
  have h1 : fmtSource (s ++ [0]) = some (layout none 0 items) := by
    have := fmtTo_layout h none 0 [] (fun _ => rfl) hn
    have := this [] (s.length + 2) (by omega)
    unfold fmtSource
    rw [List.length_append]
    exact this
  obtain ⟨out, k1, k2⟩ := C50_formatter s hn
  have e := (k2 []).symm.trans h1
  cases e
  exact ⟨h1, ink_noNul k1 hn⟩

/-- C90. Formatting a text a third time gives what the second time gave. -/
theorem C90_settles (s : List Byte) (hn : NoNul s) (hc : StrClosed s) :
    ∃ a b, fmtSource (s ++ [0]) = some a ∧ fmtSource (a ++ [0]) = some b ∧ fmtSource (b ++ [0]) = some b := by
  obtain ⟨items, h⟩ := cut_total _ s (Nat.le_refl _) hc
  obtain ⟨h1, n1⟩ := cut_source h hn
  have k2 := cut_layout h none 0
  obtain ⟨h2, n2⟩ := cut_source k2 n1
  have k3 := cut_layout k2 none 0
  obtain ⟨h3, n3⟩ := cut_source k3 n2
  exact ⟨_, _, h1, h2, by rw [h3, layout_settles]⟩

/-! ### The layout -/

/-- The number of open braces, where a closing brace too many does not count. -/
def braceDepth (tys : List FT) : Nat := tys.foldl (fun n ty => if ty = .lbrace then n + 1 else if ty = .rbrace then n - 1 else n) 0

theorem indentText_eq (n : Nat) : indentText n = List.replicate (4 * n) 0x20 := by
  induction n with
  | zero => rfl
  | succ n ih =>
    unfold indentText at ih ⊢
    rw [List.replicate_succ, List.flatten_cons, ih, show 4 * (n + 1) = 4 + 4 * n by omega, ← List.replicate_append_replicate]
    rfl

theorem regap_split (items : List (List Byte × FT × List Byte)) : ∀ (prev : Option FT) (ind : Nat) (xs : List (List Byte × FT × List Byte))
    (g : List Byte) (ty : FT) (raw : List Byte) (ys : List (List Byte × FT × List Byte)), regap prev ind items = xs ++ (g, ty, raw) :: ys →
    ∃ g0, g = gapAt ((xs.getLast?.map (·.2.1)).or prev) ((xs.map (·.2.1)).foldl (fun n ty => indAfter ty n) ind) ty g0 := by
  induction items with
  | nil => intro prev ind xs g ty raw ys h; cases xs <;> cases h
  | cons it items ih =>
    intro prev ind xs g ty raw ys h
    obtain ⟨g1, ty1, raw1⟩ := it
    rw [regap] at h
    cases xs with
    | nil => cases h; exact ⟨g1, rfl⟩
    | cons x xs =>
      injection h with h1 h2
      subst h1
      obtain ⟨g0, h⟩ := ih _ _ xs g ty raw ys h2
      refine ⟨g0, ?_⟩
      rw [h]
      cases xs with
      | nil => rfl
      | cons x xs =>
        rw [List.getLast?_cons_cons]
        cases hx : (x :: xs).getLast? with
        | none => simp at hx
        | some y => rfl

/-- C90. The formatted text, cut into tokens: behind `;`, `{`, `}` and comments, and in front of `}`, a line ends, and a line begins with four
spaces for every open brace. There is at most one empty line between two tokens. -/
theorem C90_layout (s : List Byte) (hn : NoNul s) (hc : StrClosed s) : ∃ out items, fmtSource (s ++ [0]) = some out ∧ FmtCut out items ∧
    ∀ xs p g ty raw ys, items = xs ++ p :: (g, ty, raw) :: ys →
      (newlines g = 0 → p.2.1 ∉ [.semicolon, .lbrace, .rbrace, .comment] ∧ ty ≠ .rbrace) ∧
      (newlines g ≠ 0 → newlines g ≤ 2 ∧ g = List.replicate (newlines g) 0x0A ++
        (List.replicate (4 * (braceDepth ((xs ++ [p]).map (·.2.1)) - if ty = .rbrace then 1 else 0)) 0x20 ++
          if ty = .lbrace then [0x20] else [])) := by
  obtain ⟨items, h⟩ := cut_total _ s (Nat.le_refl _) hc
  refine ⟨_, _, (cut_source h hn).1, cut_layout h none 0, fun xs p g ty raw ys e => ?_⟩
  obtain ⟨g0, hg⟩ := regap_split items none 0 (xs ++ [p]) g ty raw ys (by rw [e]; simp)
  rw [List.getLast?_concat] at hg
  have hd : ((xs ++ [p]).map (·.2.1)).foldl (fun n ty => indAfter ty n) 0 = braceDepth ((xs ++ [p]).map (·.2.1)) := by
    unfold braceDepth indAfter indBefore
    rfl
  rw [hd] at hg
  generalize braceDepth ((xs ++ [p]).map (·.2.1)) = depth at hg ⊢
  simp only [Option.map_some, Option.some_or] at hg
  unfold gapAt gapOf at hg
  dsimp only at hg
  have hp : nlAfter p.2.1 ≤ 1 := by unfold nlAfter; split <;> omega
  by_cases hf : feeds p.2.1 ty (newlines g0) = 0
  · rw [if_pos hf] at hg
    have hnl : newlines g = 0 := by
      rw [hg, newlines_append, newlines_lb]
      split <;> rfl
    refine ⟨fun _ => ?_, fun h => absurd hnl h⟩
    unfold feeds at hf
    split at hf
    · omega
    · rename_i ht
      refine ⟨fun hm => ?_, ht⟩
      have : nlAfter p.2.1 = 1 := by
        unfold nlAfter
        rw [if_pos]
        simp at hm
        rcases hm with h | h | h | h
        · exact .inr (.inr (.inl h))
        · exact .inl h
        · exact .inr (.inl h)
        · exact .inr (.inr (.inr h))
      omega
  · rw [if_neg hf] at hg
    have hnl : newlines g = feeds p.2.1 ty (newlines g0) := by
      rw [hg, newlines_append, newlines_append, newlines_indent, newlines_lb]
      unfold newlines
      rw [List.countP_replicate]
      simp
    refine ⟨fun h => absurd (hnl.symm.trans h) hf, fun _ => ⟨?_, ?_⟩⟩
    · rw [hnl]
      unfold feeds
      split <;> omega
    · rw [hnl]
      rw [indentText_eq] at hg
      rw [hg]
      unfold indBefore lbSpace
      by_cases ht : ty = .rbrace
      · simp [ht]
      · simp [ht]

/-! ### Programs -/

theorem closed_add (a : List Byte) (h : ∀ d ∈ a, PlainChar d) {r : List Byte} (hs : StrClosed r) : StrClosed (a ++ r) := by
  induction a with
  | nil => exact hs
  | cons c a ih =>
    obtain ⟨h1, h2, h3, h4⟩ := h c (by simp)
    exact .char h2 (fun h => h3 h.1) (ih (fun d hd => h d (by simp [hd])))

theorem closed_trivia {t u : List Byte} (h : PlainTrivia t u) (hu : StrClosed u) : StrClosed (t ++ u) := by
  induction h with
  | nil => exact hu
  | ws hc _ ih => exact .char (by rintro rfl; exact absurd hc (by decide)) (by rintro ⟨rfl, _⟩; exact absurd hc (by decide)) (ih hu)
  | line h1 h2 h3 _ ih =>
    have := StrClosed.line h1 h3 (ih hu)
    simpa using this
  | @block body t u h1 h2 h3 h4 _ ih =>
    have hb : ∀ body : List Byte, 0x22 ∉ body → (∀ a b, body ≠ a ++ 0x2F :: 0x2F :: b) → StrClosed (body ++ 0x2A :: 0x2F :: (t ++ u)) := by
      intro body
      induction body with
      | nil =>
        intro _ _
        exact .char (by decide) (fun h => absurd h.1 (by decide)) (.char (by decide) (fun h => h4 h.2) (ih hu))
      | cons c body ihb =>
        intro k1 k2
        refine .char (fun e => k1 (by simp [e])) ?_ (ihb (fun h => k1 (List.mem_cons_of_mem _ h)) (fun a b e => k2 (c :: a) b (by rw [e]; rfl)))
        rintro ⟨rfl, d, ds, e, rfl⟩
        cases body with
        | nil => simp at e
        | cons x body =>
          injection e with e _
          exact k2 [] body (by rw [e]; rfl)
    have := hb body h2 h3
    have := StrClosed.char (c := 0x2F) (by decide) (fun h => by obtain ⟨_, d, ds, e, h⟩ := h; cases e; exact absurd h (by decide))
      (StrClosed.char (c := 0x2A) (by decide) (fun h => absurd h.1 (by decide)) this)
    simpa using this

/-- Plain texts do not end inside a string. -/
theorem plain_closed {s : List Byte} {toks : List (TT × List Byte)} (h : PlainText s toks) : StrClosed s := by
  induction h with
  | eof ht => have := closed_trivia ht .nil; simpa using this
  | @tok t raw r ty text toks ht hk h1 h2 _ ih =>
    refine closed_trivia ht ?_
    cases hk with
    | op hp k1 k2 k3 =>
      obtain ⟨q1, q2, q3, q4, q5⟩ := punct_chars _ hp
      cases raw with
      | nil => exact ih
      | cons c a =>
        simp only [List.headD_cons, List.tail_cons] at q2 q3 q4
        refine .char q3 ?_ (closed_add a q2 ih)
        rintro ⟨rfl, d, ds, e, rfl⟩
        rcases q4 with h | h
        · injection h with _ h
          subst h
          exact k2 rfl ⟨_, _, e, .inl rfl⟩
        · exact h rfl
    | @word c cs _ _ k1 k2 _ _ =>
      exact closed_add (c :: cs) (fun d hd => (List.mem_cons.1 hd).elim (fun e => wordChar_plain d (.inl (e ▸ k1))) (fun h => wordChar_plain d (k2 d h))) ih
    | num k => exact closed_add _ (num_plain k) ih
    | @negNum n _ k => exact closed_add (0x2D :: n) (fun d hd => (List.mem_cons.1 hd).elim (fun e => by rw [e]; decide) (num_plain k d)) ih
    | str k => have := StrClosed.str k ih; simpa using this
    | openStr k =>
      have := h1 rfl
      simp only [List.cons.injEq, true_and] at this
      have := congrArg List.length this
      simp at this
    | doc k1 k2 k3 =>
      rcases h2 rfl with h | h | ⟨u, h⟩
      · have := StrClosed.line (body := 0x2F :: text) (by simp; exact k1) (.inl h) ih
        simpa using this
      · have := StrClosed.line (body := 0x2F :: text) (by simp; exact k1) (.inr h) ih
        simpa using this
      · subst h
        have hu : StrClosed (0x0A :: u) := by
          cases ih with
          | char _ _ h => exact h
        have := StrClosed.line (body := 0x2F :: (text ++ [0x0D])) (by simp; exact k1) (.inr ⟨_, _, rfl, rfl⟩) hu
        simpa using this
    | @error c _ k1 k2 k3 k4 k5 => exact .char k3 (fun h => k4 .slash (by rw [h.1]; decide)) ih

namespace FmtDemo

example : ∃ a b, fmtSource (src ++ [0]) = some a ∧ fmtSource (a ++ [0]) = some b ∧ fmtSource (b ++ [0]) = some b := by
  obtain ⟨toks, h⟩ := plain
  exact C90_settles src (by unfold NoNul; decide +kernel) (plain_closed h)

/-- The first and the second time differ. -/
theorem C90_twice : ∃ a b, fmtSource (word "packet P{u8 a;}" ++ [0]) = some a ∧ fmtSource (a ++ [0]) = some b ∧
    a = word "packet P {\n    u8 a;\n}\n" ∧ b = word "packet P  {\n\n    u8 a;\n}\n" := ⟨_, _, rfl, rfl, by decide +kernel, by decide +kernel⟩

/-- A text that ends inside a string grows every time. -/
theorem C90_open_false : ∀ n, ∃ out, fmtSource (0x22 :: (List.replicate n 0x0A) ++ [0]) = some out ∧ out = 0x22 :: List.replicate (n + 1) 0x0A := by
  intro n
  have hn : NoNul (List.replicate n 0x0A) := fun c hc => by rw [List.eq_of_mem_replicate hc]; decide
  obtain ⟨a, r, e, h1, h2, h3⟩ := skipWhile_all (fun d => d ≠ 0x22 ∧ d ≠ 0) (by decide) (List.replicate n 0x0A)
  obtain ⟨rfl, rfl⟩ := munch (p := fun d => (decide (d ≠ 0x22 ∧ d ≠ 0)) = true) (a := List.replicate n 0x0A) (b := [])
    (fun d hd => by rw [List.eq_of_mem_replicate hd]; decide) (fun ⟨_, _, h, _⟩ => by cases h) h1 h2 (by simpa using e)
  refine ⟨_, ?_, rfl⟩
  have hx : fmtNext (0x22 :: (List.replicate n 0x0A ++ 0 :: [])) = .tok .string (0x22 :: List.replicate n 0x0A) [0] := by
    simp only [fmtNext]
    rw [if_neg (by decide), if_neg (by decide), if_neg (by decide), if_neg (by decide)]
    unfold fmtRest
    rw [show fmtSingle 0x22 = none from rfl]
    dsimp only
    rw [if_pos rfl]
    unfold fmtString
    rw [h3 []]
    dsimp only [List.nil_append]
    rw [if_neg (by decide)]
    have := between_append (0x22 :: List.replicate n 0x0A) [0]
    rw [List.cons_append] at this
    rw [this]
  unfold fmtSource
  simp only [List.cons_append, List.length_cons]
  rw [fmtLoop, hx]
  dsimp only
  rw [List.length_append, fmtLoop]
  have : fmtNext [0] = .eof := rfl
  rw [this]
  dsimp only
  rw [List.replicate_succ']
  rfl

end FmtDemo

end Cnd
