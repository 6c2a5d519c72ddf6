/-
  C87: the context of completion in the language server.
-/
import Verif.LspContext
import Verif.Props.LspCursor

namespace Cnd

/-! ### Specification: groups -/

/-- How many tokens are of a type. -/
def cnt (ty : TT) (p : List (TT × List Byte)) : Nat := p.countP (·.1 = ty)

/-- A group of brackets `o`, `c` that is open before the tokens `p` is open all along `p`. -/
def StaysOpen (o c : TT) (p : List (TT × List Byte)) : Prop := ∀ q r, p = q ++ r → cnt c q ≤ cnt o q

/-- Behind the tokens `toks`, one is in a group with the name `n`: it is headed by one of the tokens `heads`, the name, and `o`, and not closed since. -/
def InGroup (o c : TT) (heads : List TT) (toks : List (TT × List Byte)) (n : List Byte) : Prop :=
  ∃ q k m l p, toks = q ++ k :: m :: l :: p ∧ k.1 ∈ heads ∧ m = (.identifier, n) ∧ l.1 = o ∧ StaysOpen o c p

/-- No group with a name begins in another. -/
def Apart (o c : TT) (heads : List TT) (toks : List (TT × List Byte)) : Prop :=
  ∀ q k m l p, toks = q ++ k :: m :: l :: p → k.1 ∈ heads → m.1 = .identifier → l.1 = o → ∀ n, ¬ InGroup o c heads q n

/-- In the parentheses of the decorator `n`. -/
abbrev InDeco := InGroup .lparen .rparen [.at]

/-- In the braces of the struct or packet `n`. -/
abbrev InBlock := InGroup .lbrace .rbrace [.kwStruct, .kwPacket]

/-! ### Specification: texts -/

/-- `toks` are the tokens of a text that begin before the offset `off`. (A string begins behind its quotation mark, a documentation comment behind its slashes.) -/
inductive TokensBefore : Nat → List Byte → List (TT × List Byte) → Prop
  | stop {off t u} : Trivia t u → Stop u → u = [] ∨ off ≤ t.length + leadOf u → TokensBefore off (t ++ u) []
  | tok {off t raw s ty text toks} : Trivia t (raw ++ s) → IsTok raw s ty text → t.length + leadOf (raw ++ s) < off →
      TokensBefore (off - (t.length + raw.length)) s toks → TokensBefore off (t ++ (raw ++ s)) ((ty, text) :: toks)

/-! ### The trackers -/

theorem cnt_append (ty : TT) (a b : List (TT × List Byte)) : cnt ty (a ++ b) = cnt ty a + cnt ty b := List.countP_append ..

theorem cnt_one (ty : TT) (t : TT × List Byte) : cnt ty [t] = if t.1 = ty then 1 else 0 := by
  unfold cnt
  by_cases h : t.1 = ty <;> simp [h]

theorem cnt_cons (ty : TT) (t : TT × List Byte) (l) : cnt ty (t :: l) = (if t.1 = ty then 1 else 0) + cnt ty l := by
  rw [← cnt_one, ← cnt_append]; rfl

theorem snoc_split {α : Type} {a b : List α} {x y : α} (h : a ++ [x] = b ++ [y]) : a = b ∧ x = y := by
  have := List.append_inj' h rfl
  exact ⟨this.1, by simpa using this.2⟩

theorem split_last {α : Type} (l : List α) : l = [] ∨ ∃ a x, l = a ++ [x] := by
  rcases List.eq_nil_or_concat l with h | ⟨a, x, h⟩
  · exact .inl h
  · exact .inr ⟨a, x, by rw [h, List.concat_eq_append]⟩

/-- Adding a token that does not close the group. -/
theorem staysOpen_snoc {o c : TT} {p : List (TT × List Byte)} {t} (hp : StaysOpen o c p) (h : cnt c (p ++ [t]) ≤ cnt o (p ++ [t])) :
    StaysOpen o c (p ++ [t]) := by
  intro q r e
  rcases split_last r with rfl | ⟨a, x, rfl⟩
  · rw [List.append_nil] at e; rw [← e]; exact h
  · rw [← List.append_assoc] at e
    exact hp q a (snoc_split e).1

theorem staysOpen_init {o c : TT} {p : List (TT × List Byte)} {t} (hp : StaysOpen o c (p ++ [t])) : StaysOpen o c p := fun q r e =>
  hp q (r ++ [t]) (by rw [e, List.append_assoc])

def depthOf (o c : TT) (toks : List (TT × List Byte)) : Int := cnt o toks - cnt c toks

/-- Splits of a list with one more element. -/
theorem split_snoc {toks q : List (TT × List Byte)} {t k m l : TT × List Byte} {p} (h : toks ++ [t] = q ++ k :: m :: l :: p) :
    (p = [] ∧ t = l ∧ toks = q ++ [k, m]) ∨ ∃ p', p = p' ++ [t] ∧ toks = q ++ k :: m :: l :: p' := by
  rcases split_last p with rfl | ⟨p', x, rfl⟩
  · have : toks ++ [t] = (q ++ [k, m]) ++ [l] := by rw [h]; simp
    exact .inl ⟨rfl, (snoc_split this).2, (snoc_split this).1⟩
  · have : toks ++ [t] = (q ++ k :: m :: l :: p') ++ [x] := by rw [h]; simp
    obtain ⟨e, rfl⟩ := snoc_split this
    exact .inr ⟨p', rfl, e⟩

/-- The state of one tracker after the tokens. -/
def grpRun (o c : TT) (heads : List TT) (toks : List (TT × List Byte)) : (TT × List Byte) × (TT × List Byte) × Grp :=
  toks.foldl (fun s t => (t, s.1, grpStep o c heads s.1 s.2.1 t s.2.2)) ((.eof, []), (.eof, []), {})

theorem grpRun_snoc (o c : TT) (heads : List TT) (toks : List (TT × List Byte)) (t) : grpRun o c heads (toks ++ [t]) =
    (t, (grpRun o c heads toks).1, grpStep o c heads (grpRun o c heads toks).1 (grpRun o c heads toks).2.1 t (grpRun o c heads toks).2.2) := by
  unfold grpRun
  rw [List.foldl_append]; rfl

theorem scan_grp (toks : List (TT × List Byte)) : toks.foldl scanTok {} =
    ⟨(grpRun .lparen .rparen [.at] toks).1, (grpRun .lparen .rparen [.at] toks).2.1, (grpRun .lparen .rparen [.at] toks).2.2,
     (grpRun .lbrace .rbrace [.kwStruct, .kwPacket] toks).2.2⟩ ∧
    (grpRun .lbrace .rbrace [.kwStruct, .kwPacket] toks).1 = (grpRun .lparen .rparen [.at] toks).1 ∧
    (grpRun .lbrace .rbrace [.kwStruct, .kwPacket] toks).2.1 = (grpRun .lparen .rparen [.at] toks).2.1 := by
  have key : ∀ L : List (TT × List Byte), L.reverse.foldl scanTok {} =
      ⟨(grpRun .lparen .rparen [.at] L.reverse).1, (grpRun .lparen .rparen [.at] L.reverse).2.1, (grpRun .lparen .rparen [.at] L.reverse).2.2,
       (grpRun .lbrace .rbrace [.kwStruct, .kwPacket] L.reverse).2.2⟩ ∧
      (grpRun .lbrace .rbrace [.kwStruct, .kwPacket] L.reverse).1 = (grpRun .lparen .rparen [.at] L.reverse).1 ∧
      (grpRun .lbrace .rbrace [.kwStruct, .kwPacket] L.reverse).2.1 = (grpRun .lparen .rparen [.at] L.reverse).2.1 := by
    intro L
    induction L with
    | nil => exact ⟨rfl, rfl, rfl⟩
    | cons t L ih =>
      obtain ⟨h1, h2, h3⟩ := ih
      rw [List.reverse_cons, List.foldl_append, h1, grpRun_snoc, grpRun_snoc]
      exact ⟨by rw [← h2, ← h3]; rfl, rfl, h2⟩
  have := key toks.reverse
  rw [List.reverse_reverse] at this
  exact this

/-- The last two tokens. -/
theorem grpRun_prev (o c : TT) (heads : List TT) (q : List (TT × List Byte)) (k m) :
    (grpRun o c heads (q ++ [k, m])).1 = m ∧ (grpRun o c heads (q ++ [k, m])).2.1 = k := by
  have : q ++ [k, m] = (q ++ [k]) ++ [m] := by simp
  rw [this, grpRun_snoc, grpRun_snoc]; exact ⟨rfl, rfl⟩

/-- If the token before is of some type and the one before that too, the list has two tokens at its end. -/
theorem grpRun_two (o c : TT) (heads : List TT) (toks : List (TT × List Byte)) (h1 : (grpRun o c heads toks).1.1 = .identifier)
    (h2 : (grpRun o c heads toks).2.1.1 ≠ .eof) : ∃ q, toks = q ++ [(grpRun o c heads toks).2.1, (grpRun o c heads toks).1] := by
  rcases split_last toks with rfl | ⟨a, x, rfl⟩
  · cases h1
  · rcases split_last a with rfl | ⟨b, y, rfl⟩
    · exact absurd rfl h2
    · have : (b ++ [y]) ++ [x] = b ++ [y, x] := by simp
      rw [this, (grpRun_prev o c heads b y x).1, (grpRun_prev o c heads b y x).2]
      exact ⟨b, rfl⟩

theorem apart_init {o c : TT} {heads : List TT} {a b : List (TT × List Byte)} (h : Apart o c heads (a ++ b)) : Apart o c heads a :=
  fun q k m l p e => h q k m l (p ++ b) (by rw [e]; simp)

/-- Tokens that are not brackets do not matter at the end. -/
theorem inGroup_snoc {o c : TT} {heads : List TT} {toks : List (TT × List Byte)} {t n} (ho : t.1 ≠ o) (hc : t.1 ≠ c) :
    InGroup o c heads (toks ++ [t]) n ↔ InGroup o c heads toks n := by
  constructor
  · rintro ⟨q, k, m, l, p, e, h1, h2, h3, h4⟩
    rcases split_snoc e with ⟨rfl, rfl, _⟩ | ⟨p', rfl, e'⟩
    · exact absurd h3 ho
    · exact ⟨q, k, m, l, p', e', h1, h2, h3, staysOpen_init h4⟩
  · rintro ⟨q, k, m, l, p, rfl, h1, h2, h3, h4⟩
    refine ⟨q, k, m, l, p ++ [t], by simp, h1, h2, h3, staysOpen_snoc h4 ?_⟩
    rw [cnt_append, cnt_append, cnt_one, cnt_one, if_neg ho, if_neg hc]
    exact h4 p [] (by simp)

theorem depthOf_split (o c : TT) (q : List (TT × List Byte)) {k m l} (p) (hk : k.1 ≠ o ∧ k.1 ≠ c) (hm : m.1 ≠ o ∧ m.1 ≠ c) (hl : l.1 = o) (hoc : o ≠ c) :
    depthOf o c (q ++ k :: m :: l :: p) = depthOf o c q + 1 + depthOf o c p := by
  unfold depthOf
  simp only [cnt_append, cnt_cons, if_neg hk.1, if_neg hk.2, if_neg hm.1, if_neg hm.2, hl, if_neg hoc, if_true]
  omega

/-- What the tracker knows. -/
theorem grp_inv (o c : TT) (heads : List TT) (hoc : o ≠ c) (ho : o ≠ .identifier ∧ o ∉ heads) (hc : c ≠ .identifier ∧ c ∉ heads) (he : TT.eof ∉ heads)
    (L : List (TT × List Byte)) (hA : Apart o c heads L.reverse) :
    (grpRun o c heads L.reverse).2.2.depth = depthOf o c L.reverse ∧
    (∀ n, (grpRun o c heads L.reverse).2.2.name = some n → InGroup o c heads L.reverse n) ∧
    (∀ q k m l p, L.reverse = q ++ k :: m :: l :: p → k.1 ∈ heads → m.1 = .identifier → l.1 = o → StaysOpen o c p →
      (grpRun o c heads L.reverse).2.2.name = some m.2 ∧ (grpRun o c heads L.reverse).2.2.start = depthOf o c q + 1) := by
  induction L with
  | nil => exact ⟨rfl, fun n h => (by cases h), fun q k m l p h => absurd (congrArg List.length h) (by simp)⟩
  | cons t L ih =>
    rw [List.reverse_cons] at hA ⊢
    obtain ⟨i1, i2, i3⟩ := ih (apart_init hA)
    revert hA i1 i2 i3
    generalize L.reverse = toks
    intro hA i1 i2 i3
    have hhd : ∀ k : TT × List Byte, k.1 ∈ heads → k.1 ≠ o ∧ k.1 ≠ c := fun k hk => ⟨fun e => ho.2 (e ▸ hk), fun e => hc.2 (e ▸ hk)⟩
    have hid : ∀ k : TT × List Byte, k.1 = .identifier → k.1 ≠ o ∧ k.1 ≠ c := fun k hk => ⟨fun e => ho.1 (e ▸ hk), fun e => hc.1 (e ▸ hk)⟩
    have dsnoc : depthOf o c (toks ++ [t]) = depthOf o c toks + (if t.1 = o then 1 else 0) - (if t.1 = c then 1 else 0) := by
      unfold depthOf
      rw [cnt_append, cnt_append, cnt_one, cnt_one]
      split <;> split <;> omega
    rw [grpRun_snoc]
    unfold grpStep
    dsimp only
    by_cases h1 : t.1 = o
    · rw [if_pos h1]
      have h1c : t.1 ≠ c := h1 ▸ hoc
      rw [if_pos h1, if_neg h1c] at dsnoc
      by_cases hd : (grpRun o c heads toks).1.1 = .identifier ∧ (grpRun o c heads toks).2.1.1 ∈ heads
      · rw [if_pos hd]
        obtain ⟨q, hq⟩ := grpRun_two o c heads toks hd.1 (fun e => he (e ▸ hd.2))
        revert hd hq
        generalize (grpRun o c heads toks).1 = m
        generalize (grpRun o c heads toks).2.1 = k
        intro hd hq
        have hspl : toks ++ [t] = q ++ k :: m :: t :: [] := by rw [hq]; simp
        refine ⟨by dsimp only; rw [dsnoc, i1]; omega, ?_, ?_⟩
        · intro n hn
          dsimp only at hn
          refine ⟨q, k, m, t, [], hspl, hd.2, ?_, h1, ?_⟩
          · injection hn with hn
            exact Prod.ext hd.1 hn
          · intro a b e
            have := List.append_eq_nil_iff.1 e.symm
            rw [this.1]; exact Nat.le_refl _
        · intro q' k' m' l' p' e g1 g2 g3 g4
          rcases split_snoc e with ⟨rfl, rfl, e'⟩ | ⟨p'', rfl, e'⟩
          · have hkm : (q' ++ [k']) ++ [m'] = (q ++ [k]) ++ [m] := by
              have := e'.symm.trans hq
              simpa using this
            obtain ⟨a1, rfl⟩ := snoc_split hkm
            obtain ⟨rfl, rfl⟩ := snoc_split a1
            refine ⟨rfl, ?_⟩
            dsimp only
            rw [i1, hq]
            have e1 := (hhd _ g1)
            have e2 := (hid _ g2)
            unfold depthOf
            simp only [cnt_append, cnt_cons, if_neg e1.1, if_neg e1.2, if_neg e2.1, if_neg e2.2]
            simp [cnt]
          · -- the header lies in another group
            exfalso
            have hg : InGroup o c heads toks m'.2 := ⟨q', k', m', l', p'', e', g1, Prod.ext g2 rfl, g3, staysOpen_init g4⟩
            have hk := hhd k hd.2
            have hm := hid m hd.1
            have e3 : toks = (q ++ [k]) ++ [m] := by rw [hq]; simp
            rw [e3, inGroup_snoc hm.1 hm.2, inGroup_snoc hk.1 hk.2] at hg
            exact hA q k m t [] hspl hd.2 hd.1 h1 _ hg
      · rw [if_neg hd]
        refine ⟨by dsimp only; rw [dsnoc, i1]; omega, ?_, ?_⟩
        · intro n hn
          obtain ⟨q, k, m, l, p, rfl, g1, g2, g3, g4⟩ := i2 n hn
          refine ⟨q, k, m, l, p ++ [t], by simp, g1, g2, g3, staysOpen_snoc g4 ?_⟩
          rw [cnt_append, cnt_append, cnt_one, cnt_one, if_pos h1, if_neg h1c]
          have := g4 p [] (by simp)
          omega
        · intro q k m l p e g1 g2 g3 g4
          rcases split_snoc e with ⟨rfl, rfl, e'⟩ | ⟨p', rfl, e'⟩
          · exfalso
            rw [e', (grpRun_prev o c heads q k m).1, (grpRun_prev o c heads q k m).2] at hd
            exact hd ⟨g2, g1⟩
          · exact i3 q k m l p' e' g1 g2 g3 (staysOpen_init g4)
    · rw [if_neg h1]
      by_cases h2 : t.1 = c
      · rw [if_pos h2]
        rw [if_neg h1, if_pos h2] at dsnoc
        by_cases hd : (grpRun o c heads toks).2.2.name.isSome ∧ (grpRun o c heads toks).2.2.depth = (grpRun o c heads toks).2.2.start
        · rw [if_pos hd]
          refine ⟨by dsimp only; rw [dsnoc, i1]; omega, ⟨fun n h => (by cases h), ?_⟩⟩
          intro q k m l p e g1 g2 g3 g4
          exfalso
          rcases split_snoc e with ⟨rfl, rfl, e'⟩ | ⟨p', rfl, e'⟩
          · exact h1 g3
          · have h5 := (i3 q k m l p' e' g1 g2 g3 (staysOpen_init g4)).2
            have h6 := depthOf_split o c q (p := p') (hhd k g1) (hid m g2) g3 hoc
            have h7 := g4 (p' ++ [t]) [] (by simp)
            rw [cnt_append, cnt_append, cnt_one, cnt_one, if_pos h2, if_neg h1] at h7
            rw [← e', ← i1, hd.2, h5] at h6
            unfold depthOf at h6
            omega
        · rw [if_neg hd]
          refine ⟨by dsimp only; rw [dsnoc, i1]; omega, ?_, ?_⟩
          · intro n hn
            dsimp only at hn
            obtain ⟨q, k, m, l, p, e, g1, g2, g3, g4⟩ := i2 n hn
            have h5 := (i3 q k m l p e g1 (by rw [g2]) g3 g4).2
            have h6 := depthOf_split o c q (p := p) (hhd k g1) (hid m (by rw [g2])) g3 hoc
            rw [← e, ← i1] at h6
            refine ⟨q, k, m, l, p ++ [t], by rw [e]; simp, g1, g2, g3, staysOpen_snoc g4 ?_⟩
            rw [cnt_append, cnt_append, cnt_one, cnt_one, if_pos h2, if_neg h1]
            have h8 := g4 p [] (by simp)
            have h9 : depthOf o c p ≠ 0 := by
              intro h0
              exact hd ⟨by rw [hn]; rfl, by rw [h6, h5, h0]; omega⟩
            unfold depthOf at h9
            omega
          · intro q k m l p e g1 g2 g3 g4
            rcases split_snoc e with ⟨rfl, rfl, e'⟩ | ⟨p', rfl, e'⟩
            · exact absurd g3 h1
            · exact i3 q k m l p' e' g1 g2 g3 (staysOpen_init g4)
      · rw [if_neg h2]
        rw [if_neg h1, if_neg h2] at dsnoc
        refine ⟨by rw [dsnoc, i1]; omega, ?_, ?_⟩
        · intro n hn
          exact (inGroup_snoc h1 h2).2 (i2 n hn)
        · intro q k m l p e g1 g2 g3 g4
          rcases split_snoc e with ⟨rfl, rfl, e'⟩ | ⟨p', rfl, e'⟩
          · exact absurd g3 h1
          · exact i3 q k m l p' e' g1 g2 g3 (staysOpen_init g4)

/-- A tracker is in the group it says, if groups with names do not nest. -/
theorem grp_name (o c : TT) (heads : List TT) (hoc : o ≠ c) (ho : o ≠ .identifier ∧ o ∉ heads) (hc : c ≠ .identifier ∧ c ∉ heads) (he : TT.eof ∉ heads)
    (toks : List (TT × List Byte)) (hA : Apart o c heads toks) (n : List Byte) :
    (grpRun o c heads toks).2.2.name = some n ↔ InGroup o c heads toks n := by
  have := grp_inv o c heads hoc ho hc he toks.reverse (by rw [List.reverse_reverse]; exact hA)
  rw [List.reverse_reverse] at this
  refine ⟨this.2.1 n, ?_⟩
  rintro ⟨q, k, m, l, p, e, g1, g2, g3, g4⟩
  have := (this.2.2 q k m l p e g1 (by rw [g2]) g3 g4).1
  rw [this, g2]

theorem scan_deco (toks : List (TT × List Byte)) (hA : Apart .lparen .rparen [.at] toks) (n : List Byte) :
    (toks.foldl scanTok {}).deco.name = some n ↔ InDeco toks n := by
  rw [(scan_grp toks).1]
  exact grp_name _ _ _ (by decide) (by decide) (by decide) (by decide) toks hA n

theorem scan_block (toks : List (TT × List Byte)) (hA : Apart .lbrace .rbrace [.kwStruct, .kwPacket] toks) (n : List Byte) :
    (toks.foldl scanTok {}).block.name = some n ↔ InBlock toks n := by
  rw [(scan_grp toks).1]
  exact grp_name _ _ _ (by decide) (by decide) (by decide) (by decide) toks hA n

/-! ### The scan of a text -/

theorem scanLoop_spec {off' : Nat} {cur : List Byte} {toks : List (TT × List Byte)} (h : TokensBefore off' cur toks) : ∀ (pre : List Byte) (off fuel line : Nat) (s : Scan),
    NoNul (pre ++ cur) → off' = off - pre.length → cur.length < fuel →
    scanLoop ((pre ++ cur) ++ [0]) off fuel (cur ++ [0]) line s = toks.foldl scanTok s := by
  induction h with
  | @stop off' t u h1 h2 h3 =>
    intro pre off fuel line s hn ho hf
    obtain ⟨f, rfl⟩ : ∃ f, fuel = f + 1 := ⟨fuel - 1, by omega⟩
    rw [scanLoop]
    unfold lexNext
    rcases lexLoop_spec [] (((t ++ u) ++ [0]).length + 1) (t ++ u) line hn.right (by simp; omega) with
      ⟨g1, g2⟩ | ⟨t', raw', s', ty', text', e, g1, g2, g3, g4, g5⟩
    · rw [g2]; rfl
    · rw [g5]
      dsimp only
      rw [if_neg g4]
      have ht := trivia_unique h1 g1 e h2 (isTok_stop g2)
      subst ht
      have hu : u = raw' ++ s' := List.append_cancel_left e
      subst hu
      have hne : raw' ++ s' ≠ [] := fun h => (isTok_kind g2).1 (List.append_eq_nil_iff.1 h).1
      have h3 := h3.resolve_left hne
      have hl := isTok_lead g2
      rw [tokStart_spec [] h1 hne h2 hn.right _ (by simp; omega), if_pos]
      · rfl
      · simp only [List.length_append, List.length_drop] at h3 ⊢
        omega
  | @tok off' t raw s1 ty text toks h1 h2 h3 h4 ih =>
    intro pre off fuel line s hn ho hf
    obtain ⟨f, rfl⟩ : ∃ f, fuel = f + 1 := ⟨fuel - 1, by omega⟩
    obtain ⟨k1, k2⟩ := lexNext_tok hn.right h1 h2 [] line
    rw [scanLoop, k1]
    dsimp only
    rw [if_neg k2]
    have hne : raw ++ s1 ≠ [] := fun h => (isTok_kind h2).1 (List.append_eq_nil_iff.1 h).1
    have hl := isTok_lead h2
    rw [tokStart_spec [] h1 hne (isTok_stop h2) hn.right _ (by simp; omega), if_neg]
    · have hp := List.length_pos_iff.2 (isTok_kind h2).1
      have := ih (pre ++ (t ++ raw)) off f (line + newlines t) (scanTok s (ty, text)) (by simpa using hn) (by simp only [List.length_append]; omega)
        (by simp only [List.length_append] at hf; omega)
      have e : pre ++ (t ++ raw) ++ s1 = pre ++ (t ++ (raw ++ s1)) := by simp
      rw [e] at this
      rw [this, List.foldl_cons]
    · simp only [List.length_append, List.length_drop] at h3 ⊢
      omega

theorem takeWhile_snoc {α : Type} (p : α → Bool) (l : List α) (x : α) :
    (l ++ [x]).takeWhile p = if l.all p then l ++ (if p x then [x] else []) else l.takeWhile p := by
  induction l with
  | nil => cases h : p x <;> simp [h]
  | cons y l ih =>
    rw [List.cons_append, List.takeWhile_cons, ih]
    cases h : p y
    · simp [h]
    · by_cases h2 : l.all p = true
      · simp [h2, h]
      · simp [h2, h]

theorem colOf_cons (c : Byte) (a : List Byte) : colOf (c :: a) = if 0x0A ∈ a then colOf a else a.length + (if c = 0x0A then 0 else 1) := by
  unfold colOf
  rw [List.reverse_cons, takeWhile_snoc]
  by_cases h : (0x0A : Byte) ∈ a
  · rw [if_pos h, if_neg]
    intro h2
    rw [List.all_eq_true] at h2
    have := h2 0x0A (List.mem_reverse.2 h)
    simp at this
  · rw [if_neg h, if_pos]
    · by_cases hc : c = 0x0A
      · rw [hc]; simp
      · have h2 : (c != 0x0A) = true := by simpa using hc
        rw [h2, if_neg hc]; simp
    · rw [List.all_eq_true]
      intro x hx
      have : x ≠ 0x0A := fun e => h (e ▸ List.mem_reverse.1 hx)
      simpa using this

theorem newlines_head (c : Byte) (a : List Byte) : newlines (c :: a) = newlines a + if c = 0x0A then 1 else 0 := by
  rw [newlines_cons, Nat.add_comm]

theorem lineStart_spec (b : List Byte) : ∀ (a : List Byte), NoNul a → lineStart (a ++ b) (newlines a) + colOf a = a.length := by
  intro a
  induction a with
  | nil =>
    intro _
    cases b <;> rfl
  | cons c a ih =>
    intro hn
    have ih := ih fun x hx => hn x (List.mem_cons_of_mem _ hx)
    have hc0 : c ≠ 0 := hn c (by simp)
    rw [newlines_head, colOf_cons, List.cons_append, List.length_cons]
    have hz : (0x0A : Byte) ∉ a → newlines a = 0 := newlines_none
    have hnz : (0x0A : Byte) ∈ a → 0 < newlines a := by
      intro h
      unfold newlines
      exact List.countP_pos_iff.2 ⟨_, h, by decide⟩
    by_cases h : (0x0A : Byte) ∈ a
    · rw [if_pos h]
      have := hnz h
      by_cases hc : c = 0x0A
      · rw [if_pos hc, lineStart.eq_3, if_neg hc0, if_pos hc]
        omega
      · obtain ⟨l, hl⟩ : ∃ l, newlines a = l + 1 := ⟨newlines a - 1, by omega⟩
        rw [if_neg hc, Nat.add_zero, hl, lineStart.eq_3, if_neg hc0, if_neg hc, ← hl]
        omega
    · rw [if_neg h]
      have h0 := hz h
      have hcol : colOf a = a.length := by
        have := colOf_append [] a h
        rw [List.nil_append] at this
        rw [this]
        simp [colOf]
      rw [h0, hcol] at ih
      by_cases hc : c = 0x0A
      · rw [if_pos hc, if_pos hc, h0, lineStart.eq_3, if_neg hc0, if_pos hc]
        omega
      · rw [if_neg hc, if_neg hc, h0, lineStart.eq_1]
        omega

/-- Every text has tokens before an offset. -/
theorem before_exists : ∀ (n : Nat) (s : List Byte) (off : Nat), s.length ≤ n → NoNul s → ∃ toks, TokensBefore off s toks := by
  intro n
  induction n with
  | zero =>
    intro s off hl _
    have : s = [] := List.length_eq_zero_iff.1 (by omega)
    subst this
    exact ⟨[], .stop (t := []) (u := []) (.nil _) stop_nil (.inl rfl)⟩
  | succ n ih =>
    intro s off hl hn
    rcases lexLoop_spec [] (s.length + 1) s 1 hn (by omega) with ⟨g1, _⟩ | ⟨t, raw, s', ty, text, e, g1, g2, g3, g4, _⟩
    · refine ⟨[], ?_⟩
      have := TokensBefore.stop (off := off) g1 stop_nil (.inl rfl)
      rwa [List.append_nil] at this
    · subst e
      by_cases h : t.length + leadOf (raw ++ s') < off
      · have hp := List.length_pos_iff.2 g3
        obtain ⟨toks, ht⟩ := ih s' (off - (t.length + raw.length)) (by simp only [List.length_append] at hl; omega) hn.right.right
        exact ⟨_, .tok g1 g2 h ht⟩
      · exact ⟨[], .stop g1 (isTok_stop g2) (.inr (by omega))⟩

theorem scanTo_spec {a b : List Byte} {toks : List (TT × List Byte)} (hn : NoNul (a ++ b)) (h : TokensBefore a.length (a ++ b) toks) :
    scanTo ((a ++ b) ++ [0]) (newlines a) (colOf a) = toks.foldl scanTok {} := by
  unfold scanTo cursorOff
  rw [List.append_assoc, lineStart_spec (b ++ [0]) a (fun x hx => hn x (List.mem_append_left _ hx)), ← List.append_assoc]
  exact scanLoop_spec h [] _ _ _ _ hn (by simp) (by simp; omega)

/-! ### Programs -/

/-- Type and text of a token. -/
def bare (t : Tok) : TT × List Byte := (t.type, t.text)

/-- The depth of brackets behind tokens; nothing if one closes what is not open, or if a header comes within brackets. -/
def level (o c : TT) (heads : List TT) : Nat → List Tok → Option Nat
  | d, [] => some d
  | d, t :: ts =>
    if t.type = o then level o c heads (d + 1) ts
    else if t.type = c then (if d = 0 then none else level o c heads (d - 1) ts)
    else if t.type ∈ heads ∧ d ≠ 0 then none
    else level o c heads d ts

theorem level_append (o c : TT) (heads : List TT) (a b : List Tok) : ∀ d, level o c heads d (a ++ b) = (level o c heads d a).bind fun e => level o c heads e b := by
  induction a with
  | nil => intro d; rfl
  | cons t a ih =>
    intro d
    rw [List.cons_append, level, level]
    split
    · exact ih _
    · split
      · split
        · rfl
        · exact ih _
      · split
        · rfl
        · exact ih _

theorem level_seq {o c : TT} {heads : List TT} {d : Nat} {a b : List Tok} (ha : level o c heads d a = some d) (hb : level o c heads d b = some d) :
    level o c heads d (a ++ b) = some d := by
  rw [level_append, ha]; exact hb

theorem level_plain {o c : TT} {heads : List TT} {l : List Tok} (h : ∀ t ∈ l, t.type ≠ o ∧ t.type ≠ c ∧ t.type ∉ heads) (d : Nat) :
    level o c heads d l = some d := by
  induction l with
  | nil => rfl
  | cons t l ih =>
    have ht := h t (by simp)
    rw [level, if_neg ht.1, if_neg ht.2.1, if_neg (fun g => ht.2.2 g.1)]
    exact ih fun x hx => h x (List.mem_cons_of_mem _ hx)

/-- Balanced tokens without headers can be at any depth. -/
theorem level_shift {o c : TT} {heads : List TT} : ∀ (l : List Tok) (d e k : Nat), (∀ t ∈ l, t.type ∉ heads) → level o c heads d l = some e →
    level o c heads (d + k) l = some (e + k) := by
  intro l
  induction l with
  | nil => intro d e k _ h; injection h with h; rw [h]; rfl
  | cons t l ih =>
    intro d e k hh h
    have ih := fun d e k h => ih d e k (fun x hx => hh x (List.mem_cons_of_mem _ hx)) h
    have ht := hh t (by simp)
    rw [level] at h ⊢
    by_cases h1 : t.type = o
    · rw [if_pos h1] at h ⊢
      have := ih _ _ k h
      rwa [Nat.add_right_comm] at this
    · rw [if_neg h1] at h ⊢
      by_cases h2 : t.type = c
      · rw [if_pos h2] at h ⊢
        by_cases h3 : d = 0
        · rw [if_pos h3] at h; cases h
        · rw [if_neg h3] at h
          rw [if_neg (by omega)]
          have := ih _ _ k h
          rwa [show d - 1 + k = d + k - 1 by omega] at this
      · rw [if_neg h2, if_neg (fun g => ht g.1)] at h ⊢
        exact ih _ _ k h

theorem level_flatMap {α : Type} {o c : TT} {heads : List TT} {d : Nat} {f : α → List Tok} (l : List α) (h : ∀ x ∈ l, level o c heads d (f x) = some d) :
    level o c heads d (l.flatMap f) = some d := by
  induction l with
  | nil => rfl
  | cons x l ih =>
    rw [List.flatMap_cons]
    exact level_seq (h x (by simp)) (ih fun y hy => h y (List.mem_cons_of_mem _ hy))

/-- What a computed level says about the counts. -/
theorem level_depth {o c : TT} {heads : List TT} (hoc : o ≠ c) : ∀ (l : List Tok) (d e : Nat), level o c heads d l = some e →
    (d : Int) + depthOf o c (l.map bare) = e := by
  intro l
  induction l with
  | nil => intro d e h; injection h with h; rw [h]; simp [depthOf, cnt]
  | cons t l ih =>
    intro d e h
    have hd : depthOf o c ((t :: l).map bare) = (if t.type = o then 1 else 0) - (if t.type = c then 1 else 0) + depthOf o c (l.map bare) := by
      unfold depthOf
      rw [List.map_cons, cnt_cons, cnt_cons]
      show ((((if t.type = o then 1 else 0) + cnt o (l.map bare) : Nat) : Int) - ((if t.type = c then 1 else 0) + cnt c (l.map bare) : Nat)) = _
      split <;> split <;> omega
    rw [level] at h
    rw [hd]
    by_cases h1 : t.type = o
    · rw [if_pos h1] at h
      rw [if_pos h1, if_neg (h1 ▸ hoc)]
      have := ih _ _ h
      omega
    · rw [if_neg h1] at h
      rw [if_neg h1]
      by_cases h2 : t.type = c
      · rw [if_pos h2] at h
        rw [if_pos h2]
        by_cases h3 : d = 0
        · rw [if_pos h3] at h; cases h
        · rw [if_neg h3] at h
          have := ih _ _ h
          omega
      · rw [if_neg h2] at h
        rw [if_neg h2]
        split at h
        · cases h
        · have := ih _ _ h
          omega

/-- Where the level is computed, groups with names do not nest. -/
theorem apart_of_level {o c : TT} {heads : List TT} (hoc : o ≠ c) (ho : o ≠ .identifier ∧ o ∉ heads) (hc : c ≠ .identifier ∧ c ∉ heads) {l : List Tok} {e : Nat}
    (h : level o c heads 0 l = some e) : Apart o c heads (l.map bare) := by
  intro q k m x p e1 g1 g2 g3 n
  rintro ⟨q', k', m', l', p', e2, f1, f2, f3, f4⟩
  obtain ⟨lq, lr, rfl, rfl, hr⟩ := List.map_eq_append_iff.1 e1
  cases lr with
  | nil => cases hr
  | cons t lr =>
    rw [List.map_cons] at hr
    obtain ⟨rfl, hr⟩ := List.cons.inj hr
    rw [level_append] at h
    cases hq : level o c heads 0 lq with
    | none => rw [hq] at h; cases h
    | some d =>
      rw [hq] at h
      change level o c heads d (t :: lr) = some e at h
      have hto : t.type ≠ o := fun e => ho.2 (e ▸ g1)
      have htc : t.type ≠ c := fun e => hc.2 (e ▸ g1)
      rw [level, if_neg hto, if_neg htc] at h
      have hd : d = 0 := by
        by_cases hd : d = 0
        · exact hd
        · rw [if_pos ⟨g1, hd⟩] at h; cases h
      subst hd
      have hdep := level_depth hoc lq 0 0 hq
      have hk' : k'.1 ≠ o ∧ k'.1 ≠ c := ⟨fun e => ho.2 (e ▸ f1), fun e => hc.2 (e ▸ f1)⟩
      have hm' : m'.1 ≠ o ∧ m'.1 ≠ c := by rw [f2]; exact ⟨fun e => ho.1 e.symm, fun e => hc.1 e.symm⟩
      rw [e2, depthOf_split o c q' p' hk' hm' f3 hoc] at hdep
      -- the depth before the other header
      obtain ⟨lq1, lq2, rfl, hl1, _⟩ := List.map_eq_append_iff.1 e2
      rw [level_append] at hq
      cases hq1 : level o c heads 0 lq1 with
      | none => rw [hq1] at hq; cases hq
      | some d1 =>
        have h1 := level_depth hoc lq1 0 d1 hq1
        rw [hl1] at h1
        have h2 := f4 p' [] (by simp)
        unfold depthOf at hdep h1
        omega

end Cnd
