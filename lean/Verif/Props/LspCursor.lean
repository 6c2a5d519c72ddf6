/-
  C73: the symbol under the cursor. C74: the fields offered for completion.
-/
import Verif.LspCursor
import Verif.Props.LexUnique
import Verif.Props.Inspect

namespace Cnd

/-! ### C73: specification -/

/-- `r` is what is left of the source `s` behind its first tokens, whose types are `tys`; unless `nl`, none of them contains a newline (only
strings can). -/
inductive Behind (nl : Bool) : List Byte → List TT → List Byte → Prop
  | here (s) : Behind nl s [] s
  | tok {t raw s ty text tys r} : Trivia t (raw ++ s) → IsTok raw s ty text → (nl = false → 0x0A ∉ raw) → Behind nl s tys r →
      Behind nl (t ++ (raw ++ s)) (ty :: tys) r

/-- The column behind the text `a`. -/
def colOf (a : List Byte) : Nat := (a.reverse.takeWhile (· != 0x0A)).length

/-! ### C73: proof -/

theorem colOf_append (a b : List Byte) (h : 0x0A ∉ b) : colOf (a ++ b) = colOf a + b.length := by
  unfold colOf
  rw [List.reverse_append, List.takeWhile_append_of_pos, List.length_append, List.length_reverse, Nat.add_comm]
  intro c hc
  have hc : c ∈ b := List.mem_reverse.1 hc
  have : c ≠ 0x0A := fun e => h (e ▸ hc)
  simpa using this

theorem lexNext_tok {t raw s : List Byte} {ty : TT} {text : List Byte} (hs : NoNul (t ++ (raw ++ s))) (h1 : Trivia t (raw ++ s)) (h2 : IsTok raw s ty text)
    (post : List Byte) (line : Nat) :
    lexNext ((t ++ (raw ++ s)) ++ 0 :: post) line = .tok ⟨ty, text, line + newlines t⟩ (s ++ 0 :: post) (line + newlines t) ∧ ty ≠ .eof := by
  unfold lexNext
  rcases lexLoop_spec post (((t ++ (raw ++ s)) ++ 0 :: post).length + 1) (t ++ (raw ++ s)) line hs (by simp; omega) with
    ⟨g1, _⟩ | ⟨t', raw', s', ty', text', e, g1, g2, g3, g4, g5⟩
  · have := trivia_unique h1 g1 (by rw [List.append_nil]) (isTok_stop h2) stop_nil
    have h3 : raw ++ s = [] := by
      have : t ++ (raw ++ s) = t ++ [] := by rw [List.append_nil]; exact this.symm
      exact List.append_cancel_left this
    exact absurd (List.append_eq_nil_iff.1 h3).1 (isTok_kind h2).1
  · have := trivia_unique h1 g1 e (isTok_stop h2) (isTok_stop g2)
    subst this
    obtain ⟨rfl, rfl, rfl, rfl⟩ := isTok_unique h2 g2 (List.append_cancel_left e)
    exact ⟨g5, g4⟩

/-- The characters of a token before `token.start`. -/
def leadOf (u : List Byte) : Nat :=
  match u with
  | c :: r => if c = 0x22 then 1 else if c = 0x2F ∧ r.take 2 = [0x2F, 0x2F] then 3 else 0
  | [] => 0

theorem skipWhile_stop (p : Byte → Bool) {a : List Byte} (ha : ∀ c ∈ a, p c = true) {x : Byte} (hx : p x = false) (r : List Byte) :
    skipWhile p (a ++ x :: r) = some (x :: r) := by
  induction a with
  | nil => simp [skipWhile, hx]
  | cons c a ih =>
    rw [List.cons_append, skipWhile, if_pos (ha c (by simp)), ih fun d hd => ha d (List.mem_cons_of_mem _ hd)]

theorem tokStart_all (post : List Byte) {t u : List Byte} (h : Trivia t u) (hst : Stop u) (hn : NoNul (t ++ u)) (fuel : Nat)
    (hf : t.length < fuel) : tokStart fuel ((t ++ u) ++ 0 :: post) = u.drop (leadOf u) ++ 0 :: post := by
  induction h generalizing fuel with
  | nil u =>
    obtain ⟨f, rfl⟩ : ∃ f, fuel = f + 1 := ⟨fuel - 1, by simp at hf; omega⟩
    cases u with
    | nil => simp [tokStart, leadOf]
    | cons c cs =>
      rw [List.nil_append] at hn ⊢
      have hc0 : c ≠ 0 := hn c (by simp)
      have hw : c ∉ ([0x20, 0x0D, 0x09, 0x0A] : List Byte) := fun h => hst.1 ⟨c, cs, rfl, h⟩
      simp only [List.mem_cons, List.not_mem_nil, or_false, not_or] at hw
      rw [List.cons_append, tokStart, if_neg hc0, if_neg (fun h => h.elim hw.1 fun h => h.elim hw.2.1 hw.2.2.1), if_neg hw.2.2.2]
      by_cases hsl : c = 0x2F
      · subst hsl
        cases cs with
        | nil => simp [startOf, leadOf]
        | cons d ds =>
          have hd2 : d ≠ 0x2A := fun e => hst.2.1 ds (by rw [e])
          by_cases hd : d = 0x2F
          · subst hd
            obtain ⟨e, es, rfl, rfl⟩ := hst.2.2 ds rfl
            simp [startOf, leadOf]
          · have : startOf 0x2F ((d :: ds) ++ 0 :: post) = .token := by
              unfold startOf
              simp only [if_true, List.cons_append, if_neg hd, if_neg hd2]
            rw [this]
            dsimp only
            rw [if_neg (by decide)]
            have : leadOf (0x2F :: d :: ds) = 0 := by
              unfold leadOf
              dsimp only
              rw [if_neg (by decide), if_neg]
              rintro ⟨_, h⟩
              cases ds with
              | nil => simp at h
              | cons e es => simp at h; exact hd h.1
            rw [this]; rfl
      · have : startOf c (cs ++ 0 :: post) = .token := by unfold startOf; rw [if_neg hsl]
        rw [this]
        dsimp only
        unfold leadOf
        dsimp only
        by_cases hq : c = 0x22
        · rw [if_pos hq, if_pos hq]; rfl
        · rw [if_neg hq, if_neg hq, if_neg (fun h => hsl h.1)]; rfl
  | @ws c t u hc _ ih =>
    obtain ⟨f, rfl⟩ : ∃ f, fuel = f + 1 := ⟨fuel - 1, by simp at hf; omega⟩
    have ih := ih hst hn.tail f (by simpa using hf)
    have hc0 : c ≠ 0 := hn c (by simp)
    rw [List.cons_append, List.cons_append, tokStart, if_neg hc0]
    simp only [List.mem_cons, List.not_mem_nil, or_false] at hc
    by_cases h : c = 0x20 ∨ c = 0x0D ∨ c = 0x09
    · rw [if_pos h]; exact ih
    · rw [if_neg h, if_pos (by rcases hc with h' | h' | h' | h' <;> first | exact h' | (exfalso; exact h (by simp [h'])))]; exact ih
  | @line body t u hb h3 hnl _ ih =>
    obtain ⟨f, rfl⟩ : ∃ f, fuel = f + 1 := ⟨fuel - 1, by simp at hf; omega⟩
    have hn2 : NoNul (body ++ (t ++ u)) := by
      intro b hb
      refine hn b ?_
      simp only [List.cons_append, List.append_assoc, List.mem_cons]
      exact .inr (.inr hb)
    have hbn : ∀ c ∈ body, c ≠ 0 := fun c hc => hn2 c (List.mem_append_left _ hc)
    have ih := ih hst hn2.right f (by simp at hf; omega)
    have hlc : startOf 0x2F (0x2F :: (body ++ (t ++ u)) ++ 0 :: post) = .lineComment ((body ++ (t ++ u)) ++ 0 :: post) := by
      obtain ⟨e, es, he, this⟩ : ∃ e es, (body ++ (t ++ u)) ++ 0 :: post = e :: es ∧ e ≠ 0x2F := by
        cases h : body ++ (t ++ u) with
        | nil => exact ⟨0, post, rfl, by decide⟩
        | cons e es => exact ⟨e, es ++ 0 :: post, rfl, fun q => h3 ⟨e, es, h, q⟩⟩
      rw [List.cons_append, he]
      unfold startOf
      simp only [if_true, if_neg this]
    obtain ⟨x, xs, hx, hx0⟩ : ∃ x xs, (t ++ u) ++ 0 :: post = x :: xs ∧ (x != 0 && x != 0x0A) = false := by
      rcases hnl with h | ⟨x, xs, h, hx⟩
      · exact ⟨0, post, by rw [h]; rfl, by decide⟩
      · exact ⟨x, xs ++ 0 :: post, by rw [h]; rfl, by rw [hx]; decide⟩
    have e1 : (0x2F :: 0x2F :: (body ++ t) ++ u) ++ 0 :: post = 0x2F :: (0x2F :: (body ++ (t ++ u)) ++ 0 :: post) := by simp
    rw [e1, tokStart, if_neg (by decide), if_neg (by decide), if_neg (by decide), hlc]
    dsimp only
    have : skipWhile (fun c => c != 0 && c != 0x0A) ((body ++ (t ++ u)) ++ 0 :: post) = some ((t ++ u) ++ 0 :: post) := by
      rw [List.append_assoc, hx]
      refine skipWhile_stop _ ?_ hx0 _
      intro c hc
      simp only [Bool.and_eq_true, bne_iff_ne]
      exact ⟨hbn c hc, fun e => hb (e ▸ hc)⟩
    rw [this]
    exact ih
  | @block body t u hb _ ih =>
    obtain ⟨f, rfl⟩ : ∃ f, fuel = f + 1 := ⟨fuel - 1, by simp at hf; omega⟩
    have hn2 : NoNul (body ++ 0x2A :: 0x2F :: (t ++ u)) := by
      intro b hb
      refine hn b ?_
      simp only [List.cons_append, List.append_assoc, List.mem_cons]
      exact .inr (.inr hb)
    have ih := ih hst hn2.right.tail.tail f (by simp at hf; omega)
    have e1 : (0x2F :: 0x2A :: (body ++ 0x2A :: 0x2F :: t) ++ u) ++ 0 :: post =
        0x2F :: (0x2A :: (body ++ 0x2A :: 0x2F :: (t ++ u)) ++ 0 :: post) := by simp
    have hbc : startOf 0x2F (0x2A :: (body ++ 0x2A :: 0x2F :: (t ++ u)) ++ 0 :: post) =
        .blockComment ((body ++ 0x2A :: 0x2F :: (t ++ u)) ++ 0 :: post) := by
      unfold startOf
      simp
    rw [e1, tokStart, if_neg (by decide), if_neg (by decide), if_neg (by decide), hbc]
    dsimp only
    rcases blockSkip_split post (body ++ 0x2A :: 0x2F :: (t ++ u)) 0 hn2 with ⟨body', s', e, g1, g2⟩ | ⟨g1, g2⟩
    · rw [g2]
      dsimp only
      obtain ⟨rfl, rfl⟩ := first_unique hb g1 e
      exact ih
    · exact absurd rfl (g1 body (t ++ u))
  | @openBlock body hb =>
    obtain ⟨f, rfl⟩ : ∃ f, fuel = f + 2 := ⟨fuel - 2, by simp at hf; omega⟩
    have hn2 : NoNul body := by
      intro b hb
      exact hn b (by simp [hb])
    have e1 : (0x2F :: 0x2A :: body ++ []) ++ 0 :: post = 0x2F :: (0x2A :: body ++ 0 :: post) := by simp
    have hbc : startOf 0x2F (0x2A :: body ++ 0 :: post) = .blockComment (body ++ 0 :: post) := by
      unfold startOf
      simp
    rw [e1, tokStart, if_neg (by decide), if_neg (by decide), if_neg (by decide), hbc]
    dsimp only
    rcases blockSkip_split post body 0 hn2 with ⟨body', s', e, g1, g2⟩ | ⟨g1, g2⟩
    · exact absurd e (hb body' s')
    · rw [g2]
      simp [tokStart, leadOf]

theorem tokStart_spec (post : List Byte) {t u : List Byte} (h : Trivia t u) (_ : u ≠ []) (hst : Stop u) (hn : NoNul (t ++ u)) (fuel : Nat)
    (hf : t.length < fuel) : tokStart fuel ((t ++ u) ++ 0 :: post) = u.drop (leadOf u) ++ 0 :: post := tokStart_all post h hst hn fuel hf

theorem isTok_lead {raw s : List Byte} {ty : TT} {text : List Byte} (h : IsTok raw s ty text) :
    leadOf (raw ++ s) + text.length ≤ raw.length := by
  have hlead : ∀ c cs, raw = c :: cs → c ≠ 0x22 → c ≠ 0x2F → leadOf (raw ++ s) = 0 := by
    rintro c cs rfl h1 h2
    unfold leadOf
    rw [List.cons_append]
    dsimp only
    rw [if_neg h1, if_neg (fun h => h2 h.1)]
  cases h with
  | op h1 h2 h3 h4 =>
    obtain ⟨c, cs, rfl, _, _, k3, _⟩ := punct_cons h1
    by_cases hc : c = 0x2F
    · subst hc
      have : leadOf (0x2F :: cs ++ s) = 0 := by
        have hst := isTok_stop (IsTok.op h1 h2 h3 h4)
        have hcs : cs = [] := by
          have : ∀ p ∈ punct, p.1.headD 0 = 0x2F → p.1 = [0x2F] := by decide +kernel
          have := this _ h1 rfl
          injection this
        subst hcs
        have := h3 rfl
        unfold leadOf
        rw [List.cons_append]
        dsimp only
        rw [if_neg (by decide), if_neg]
        rintro ⟨_, h⟩
        cases s with
        | nil => simp at h
        | cons x xs =>
          refine this ⟨x, xs, rfl, .inl ?_⟩
          simp at h
          exact h.1
      rw [this]; simp
    · rw [hlead c cs rfl k3 hc]; simp
  | word h1 =>
    rw [hlead _ _ rfl (h1.ne (by decide)) (h1.ne (by decide))]; simp
  | num h =>
    obtain ⟨c, cs, rfl, hc⟩ := numLexeme_head h
    rw [hlead _ _ rfl (hc.ne (by decide)) (hc.ne (by decide))]; simp
  | negNum h => rw [hlead _ _ rfl (by decide) (by decide)]; simp
  | str => simp [leadOf]; omega
  | openStr => simp [leadOf]; omega
  | doc => simp [leadOf]; omega
  | @error c s h1 h2 h3 h4 =>
    by_cases hc : c = 0x2F
    · subst hc; exact absurd (by decide) (h4 .slash)
    · rw [hlead _ _ rfl h3 hc]; simp

/-- The column of the token at the head of `cur`, as the server computes it. -/
theorem start_col {pre t raw s : List Byte} {ty : TT} {text : List Byte} (hn : NoNul (pre ++ (t ++ (raw ++ s)))) (h1 : Trivia t (raw ++ s))
    (h2 : IsTok raw s ty text) (hr : 0x0A ∉ raw) :
    columnAt ((pre ++ (t ++ (raw ++ s))) ++ [0]) (((pre ++ (t ++ (raw ++ s))) ++ [0]).length -
      (tokStart (((t ++ (raw ++ s)) ++ [0]).length + 1) ((t ++ (raw ++ s)) ++ [0])).length) = colOf (pre ++ t) + leadOf (raw ++ s) := by
  have hne : raw ++ s ≠ [] := fun h => (isTok_kind h2).1 (List.append_eq_nil_iff.1 h).1
  rw [tokStart_spec [] h1 hne (isTok_stop h2) hn.right _ (by simp; omega)]
  have hl := isTok_lead h2
  have e : ((pre ++ (t ++ (raw ++ s))) ++ [0]).length - ((raw ++ s).drop (leadOf (raw ++ s)) ++ [0]).length =
      (pre ++ t ++ raw.take (leadOf (raw ++ s))).length := by
    simp only [List.length_append, List.length_drop, List.length_take]
    omega
  rw [e]
  have e2 : (pre ++ (t ++ (raw ++ s))) ++ [0] = (pre ++ t ++ raw.take (leadOf (raw ++ s))) ++ (raw.drop (leadOf (raw ++ s)) ++ (s ++ [0])) := by
    have := List.take_append_drop (leadOf (raw ++ s)) raw
    simp only [List.append_assoc]
    rw [← List.append_assoc (raw.take _), this]
  unfold columnAt
  rw [e2, List.take_left]
  show colOf _ = _
  rw [colOf_append _ _ (fun h => hr (List.mem_of_mem_take h)), List.length_take]
  omega

theorem find_here (row col : Nat) {pre t w b : List Byte} {fuel : Nat} {prev : TT} (hn : NoNul (pre ++ (t ++ (w ++ b)))) (h1 : Trivia t (w ++ b))
    (h2 : IsTok w b .identifier w) (hw : 0x0A ∉ w) (hrow : row = newlines (pre ++ t)) (h3 : colOf (pre ++ t) ≤ col) (h4 : col ≤ colOf (pre ++ t) + w.length) :
    findTok ((pre ++ (t ++ (w ++ b))) ++ [0]) row col (fuel + 1) ((t ++ (w ++ b)) ++ [0]) (1 + newlines pre) prev =
      some (⟨.identifier, w, 1 + newlines pre + newlines t⟩, decide (prev = .at)) := by
  have hlead : leadOf (w ++ b) = 0 := by
    have := isTok_lead h2
    omega
  rw [findTok, (lexNext_tok hn.right h1 h2 [] _).1]
  dsimp only
  rw [if_neg (by decide), start_col hn h1 h2 hw, hlead, if_pos]
  rw [newlines_append] at hrow
  exact ⟨by omega, by omega, by omega⟩

theorem behind_suffix {nl : Bool} {s : List Byte} {tys : List TT} {r : List Byte} (h : Behind nl s tys r) : ∃ a, s = a ++ r := by
  induction h with
  | here s => exact ⟨[], rfl⟩
  | @tok t2 raw2 s2 _ _ _ _ _ _ _ _ ih =>
    obtain ⟨a2, h⟩ := ih
    exact ⟨t2 ++ (raw2 ++ a2), by rw [h]; simp⟩

theorem find_later (row col : Nat) {t w b : List Byte} (h1 : Trivia t (w ++ b)) (h2 : IsTok w b .identifier w) (hw : 0x0A ∉ w) {cur : List Byte} {tys : List TT}
    (hB : Behind false cur tys (t ++ (w ++ b))) : ∀ (pre a : List Byte) (fuel : Nat) (prev : TT), NoNul (pre ++ cur) → cur = a ++ (t ++ (w ++ b)) →
    row = newlines (pre ++ a ++ t) → colOf (pre ++ a ++ t) ≤ col → col ≤ colOf (pre ++ a ++ t) + w.length → (colOf (pre ++ a ++ t) < col ∨ t ≠ []) →
    cur.length < fuel →
    ∃ l, findTok ((pre ++ cur) ++ [0]) row col fuel (cur ++ [0]) (1 + newlines pre) prev =
      some (⟨.identifier, w, l⟩, decide (tys.getLastD prev = .at)) := by
  generalize hr : t ++ (w ++ b) = r at hB
  induction hB with
  | here s =>
    subst hr
    intro pre a fuel prev hn e hrow h3 h4 _ hf
    have ha : a = [] := by
      have := congrArg List.length e
      simp only [List.length_append] at this
      exact List.length_eq_zero_iff.1 (by omega)
    subst ha
    rw [List.append_nil] at hrow h3 h4
    obtain ⟨f, rfl⟩ : ∃ f, fuel = f + 1 := ⟨fuel - 1, by omega⟩
    exact ⟨_, find_here row col hn h1 h2 hw hrow h3 h4⟩
  | @tok t1 raw s1 ty text tys r g1 g2 g3 gB ih =>
    subst hr
    intro pre a fuel prev hn e hrow h3 h4 h5 hf
    have ih := ih rfl
    -- what the token leaves
    obtain ⟨a1, ha1⟩ := behind_suffix gB
    have g3 := g3 rfl
    have ha : a = t1 ++ (raw ++ a1) := by
      rw [ha1] at e
      have : (t1 ++ (raw ++ a1)) ++ (t ++ (w ++ b)) = a ++ (t ++ (w ++ b)) := by rw [← e]; simp
      exact (List.append_cancel_right this).symm
    subst ha
    obtain ⟨f, rfl⟩ : ∃ f, fuel = f + 1 := ⟨fuel - 1, by omega⟩
    obtain ⟨k1, k2⟩ := lexNext_tok hn.right g1 g2 [] (1 + newlines pre)
    rw [findTok, k1]
    dsimp only
    rw [if_neg k2, start_col hn g1 g2 g3]
    have hN : newlines (pre ++ (t1 ++ (raw ++ a1)) ++ t) = newlines pre + newlines t1 + newlines (a1 ++ t) := by
      simp only [newlines_append, newlines_none g3]; omega
    have hl := isTok_lead g2
    rw [if_neg, if_neg (by rw [hrow, hN]; omega)]
    · have hpre : newlines (pre ++ (t1 ++ raw)) = newlines pre + newlines t1 := by
        simp only [newlines_append, newlines_none g3]; omega
      obtain ⟨l, hl⟩ := ih (pre ++ (t1 ++ raw)) a1 f ty (by simpa using hn) ha1 (by rw [hrow]; simp) (by simpa using h3) (by simpa using h4)
        (by simpa using h5) (by
          have := (isTok_kind g2).1
          have := List.length_pos_iff.2 this
          simp only [List.length_append] at hf
          omega)
      refine ⟨l, ?_⟩
      rw [hpre, ← Nat.add_assoc] at hl
      have e3 : pre ++ (t1 ++ raw) ++ s1 = pre ++ (t1 ++ (raw ++ s1)) := by simp
      rw [e3] at hl
      rw [hl]
      cases tys <;> rfl
    · rintro ⟨q1, q2, q3⟩
      rw [hrow, hN] at q1
      have hz : newlines (a1 ++ t) = 0 := by omega
      have hnl : (0x0A : Byte) ∉ raw ++ a1 ++ t := by
        intro hm
        rw [List.append_assoc] at hm
        rcases List.mem_append.1 hm with hm | hm
        · exact g3 hm
        · unfold newlines at hz
          rw [List.countP_eq_zero] at hz
          exact hz _ hm (by decide)
      have hc : colOf (pre ++ (t1 ++ (raw ++ a1)) ++ t) = colOf (pre ++ t1) + (raw ++ a1 ++ t).length := by
        rw [← colOf_append _ _ hnl]; simp
      rw [hc] at h3 h5
      simp only [List.length_append] at h3 h5
      rcases h5 with h5 | h5
      · omega
      · have := List.length_pos_iff.2 h5
        omega

theorem identTok_raw {raw b text : List Byte} (h : IsTok raw b .identifier text) : ∀ d ∈ raw, Letter d ∨ Digit d := by
  generalize hty : TT.identifier = ty at h
  cases h with
  | word k1 k2 =>
    intro d hd
    rcases List.mem_cons.1 hd with e | e
    · exact .inl (e ▸ k1)
    · exact k2 _ e
  | op k =>
    subst hty
    have : ∀ p ∈ punct, p.2 ≠ .identifier := by decide +kernel
    exact absurd rfl (this _ k)
  | _ => cases hty

/-- The claim: whatever identifier the cursor is in is the symbol looked up, and it is known whether it belongs to a decorator. `a` is the
text before the identifier and before the white space and comments `t` in front of it. With `nl`, strings before it may contain newlines; with `start`, the cursor may
be at its beginning also when another token ends there. -/
def FindsSymbol (nl start : Bool) : Prop := ∀ (s a t w b : List Byte) (tys : List TT) (col : Nat), s = a ++ (t ++ (w ++ b)) → NoNul s →
  Behind nl s tys (t ++ (w ++ b)) → Trivia t (w ++ b) → IsTok w b .identifier w → colOf (a ++ t) ≤ col → col ≤ colOf (a ++ t) + w.length →
  (start = true ∨ colOf (a ++ t) < col ∨ t ≠ [] ∨ a = []) →
  symbolAt (s ++ [0]) (newlines (a ++ t)) col = some (w, decide (tys.getLast? = some .at))

/-- **C73, partial**: the symbol under the cursor is found, in every source text in which no string before it contains a newline: for every column behind its first
character up to its end, and for its beginning if white space is before it. -/
theorem C73_symbol_partial : FindsSymbol false false := by
  intro s a t w b tys col hs hn hB h1 h2 h3 h4 h5
  have h5 : colOf (a ++ t) < col ∨ t ≠ [] ∨ a = [] := h5.elim (fun h => by cases h) id
  have hw : (0x0A : Byte) ∉ w := by
    have := identTok_raw h2
    intro hm
    rcases this _ hm with q | q
    · exact q.ne (d := 0x0A) (by decide) rfl
    · exact q.ne (d := 0x0A) (by decide) rfl
  have key : ∃ l, findTok (s ++ [0]) (newlines (a ++ t)) col ((s ++ [0]).length + 1) (s ++ [0]) 1 .eof =
      some (⟨.identifier, w, l⟩, decide (tys.getLastD .eof = .at)) := by
    by_cases ha : a = []
    · subst ha
      rw [List.nil_append] at hs
      cases hB with
      | here =>
        exact ⟨_, find_here (pre := []) (newlines t) col (by rw [List.nil_append, ← hs]; exact hn) h1 h2 hw rfl h3 h4⟩
      | tok g1 g2 g3 gB =>
        exfalso
        obtain ⟨a1, ha1⟩ := behind_suffix gB
        have := congrArg List.length hs
        rw [ha1] at this
        have hp := List.length_pos_iff.2 (isTok_kind g2).1
        simp only [List.length_append] at this
        omega
    · have := find_later (newlines (a ++ t)) col h1 h2 hw hB [] a ((s ++ [0]).length + 1) .eof hn hs rfl h3 h4
        (h5.elim .inl fun h => h.elim .inr fun h => absurd h ha) (by simp; omega)
      exact this
  obtain ⟨l, hl⟩ := key
  unfold symbolAt
  rw [hl]
  dsimp only
  rw [if_pos rfl]
  congr 2
  cases tys with
  | nil => decide
  | cons x xs =>
    rw [List.getLastD_eq_getLast?, List.getLast?_cons]
    simp

/-- `a@id` with the cursor on the `i`: the symbol is `id`, and it is a decorator. -/
example : symbolAt [0x61, 0x40, 0x69, 0x64, 0x20, 0] 0 3 = some ([0x69, 0x64], true) := by decide +kernel

/-- The hypotheses of the theorem for the line `u8 ab` behind an empty line. -/
example : symbolAt ([0x0A, 0x75, 0x38, 0x20, 0x61, 0x62] ++ [0]) 1 3 = some ([0x61, 0x62], false) :=
  C73_symbol_partial [0x0A, 0x75, 0x38, 0x20, 0x61, 0x62] [0x0A, 0x75, 0x38] [0x20] [0x61, 0x62] [] [.identifier] 3 rfl (by unfold NoNul; decide)
    (.tok (t := [0x0A]) (raw := [0x75, 0x38]) (text := [0x75, 0x38]) (.ws (by decide) (.nil _))
      (.word (by unfold Letter; decide) (by unfold Letter Digit; decide) (by rintro ⟨c, s, h, q⟩; cases h; revert q; unfold Letter Digit; decide)
        (.inr ⟨rfl, fun ty => by cases ty <;> decide⟩)) (fun _ => by decide) (.here _))
    (.ws (by decide) (.nil _))
    (.word (by unfold Letter; decide) (by unfold Letter Digit; decide) (by rintro ⟨c, s, h, q⟩; cases h) (.inr ⟨rfl, fun ty => by cases ty <;> decide⟩))
    (by decide) (by decide) (.inr (.inr (.inl (by decide))))

theorem letter_a : IsTok [0x61] [] .identifier [0x61] :=
  .word (by unfold Letter; decide) (fun d h => by cases h) (by rintro ⟨c, s, h, q⟩; cases h) (.inr ⟨rfl, fun ty => by cases ty <;> decide⟩)

/-- Behind a string with a newline in it, no symbol is found in its line: the lexer does not count that newline, but the editor does. `"⏎" a`. -/
theorem C73_false_string : ¬ FindsSymbol true false := by
  intro h
  have := h [0x22, 0x0A, 0x22, 0x20, 0x61] [0x22, 0x0A, 0x22] [0x20] [0x61] [] [.string] 3 rfl (by unfold NoNul; decide)
    (.tok (t := []) (raw := [0x22, 0x0A, 0x22]) (text := [0x0A]) (.nil _) (.str (text := [0x0A]) (by decide)) (fun h => by cases h) (.here _))
    (.ws (by decide) (.nil _)) letter_a (by decide) (by decide) (.inr (.inl (by decide)))
  revert this
  decide +kernel

/-- With the cursor before the first character of an identifier that directly follows another token, as in `(a`, the other token is taken
and nothing is found. -/
theorem C73_false_start : ¬ FindsSymbol false true := by
  intro h
  have := h [0x28, 0x61] [0x28] [] [0x61] [] [.lparen] 1 rfl (by unfold NoNul; decide)
    (.tok (t := []) (raw := [0x28]) (text := [0x28]) (.nil _)
      (.op (by decide) (by intro c s h ty; cases h; cases ty <;> decide) (by intro h; cases h) (by intro h; cases h)) (fun _ => by decide) (.here _))
    (.nil _) letter_a (by decide) (by decide) (.inl rfl)
  revert this
  decide +kernel

/-! ### C74: specification -/

/-- Instructions that read or write a field of a record, or the context, under a name. -/
def Op.ofField : Op → Bool
  | .io _ | .ioF32 | .ioF64 | .ioBool | .bitU | .bitI | .bitBool | .strNull | .strPre _ | .arrFixed | .arrPre _ | .arrEof | .arrDynamic | .rawBytes
  | .constCheck | .loadCtx | .storeCtx => true
  | _ => false

/-- Instructions the language server does not skip or read correctly. -/
def lspBad : List Byte := [0x3A, 0x3B, 0x53, 0x65, 0x39, 0x40]

/-- The fields of a program of complete instructions in the VM's sense: the names (below `count`) of the instructions of fields, in order.
With `all`, the six instructions above are allowed. -/
inductive Fields (all : Bool) (count : Nat) : List Byte → List Nat → Prop
  | nil : Fields all count [] []
  | field {op l n ks} : vmLen (op :: l) = some n → (all = true ∨ op ∉ lspBad) → (decodeOp op).ofField = true → Fields all count ((op :: l).drop n) ks →
      Fields all count (op :: l) ((if (leWord (l.take 2)).toNat < count then [(leWord (l.take 2)).toNat] else []) ++ ks)
  | other {op l n ks} : vmLen (op :: l) = some n → (all = true ∨ op ∉ lspBad) → (decodeOp op).ofField = false → Fields all count ((op :: l).drop n) ks →
      Fields all count (op :: l) ks

/-- The claim. -/
def OffersFields (all : Bool) : Prop := ∀ count code ks, Fields all count code ks → offerKeys count code = ks

/-! ### C74: proof -/

theorem lspSize_tag {w : Word} {t : Ty} (h : tyTag w = some t) : lspSize w.toNat = t.size ∧ w.toNat ≠ 0x18 ∧ w.toNat ≠ 0x19 ∧
    (t.signed = false → w.toNat = 0x10 ∧ t.size = 1 ∨ w.toNat = 0x11 ∧ t.size = 2 ∨ w.toNat = 0x12 ∧ t.size = 4 ∨ w.toNat = 0x13 ∧ t.size = 8) := by
  unfold tyTag at h
  split at h <;> first | (cases h; done) | (rename_i hw; cases h; rw [hw]; simp [lspSize, Ty.size, Ty.signed])

theorem lspU8_ok {l : List Byte} (h : 1 ≤ l.length) : lspU8 l = ((leWord (l.take 1)).toNat, l.drop 1) := by
  cases l with
  | nil => simp at h
  | cons b r =>
    show (b.toNat, r) = ((leWord [b]).toNat, r)
    congr 1
    have := b.isLt
    simp [leWord]
    omega

theorem lspU16_ok {l : List Byte} (h : 2 ≤ l.length) : lspU16 l = ((leWord (l.take 2)).toNat, l.drop 2) := by
  match l with
  | [] => simp at h
  | [_] => simp at h
  | a :: b :: r =>
    show (a.toNat + 256 * b.toNat, r) = ((leWord [a, b]).toNat, r)
    congr 1
    have := a.isLt; have := b.isLt
    have e : leWord [a, b] = a.setWidth 64 ||| b.setWidth 64 <<< 8 := by simp [leWord]
    rw [e, BitVec.toNat_or, BitVec.toNat_shiftLeft, BitVec.toNat_setWidth, BitVec.toNat_setWidth, Nat.shiftLeft_eq,
      Nat.mod_eq_of_lt (a := a.toNat) (by omega), Nat.mod_eq_of_lt (a := b.toNat) (by omega), Nat.mod_eq_of_lt (by omega), Nat.or_comm,
      Nat.mul_comm b.toNat, ← Nat.two_pow_add_eq_or_of_lt (i := 8) (by omega)]
    omega

def lspHandled : List Nat :=
  [0x05, 0x07, 0x10, 0x11, 0x12, 0x13, 0x14, 0x15, 0x16, 0x17, 0x18, 0x19, 0x1A, 0x03, 0x30, 0x31, 0x32, 0x33, 0x35, 0x36, 0x37,
   0x20, 0x21, 0x22, 0x34, 0x39, 0x41, 0x40, 0x42, 0x43, 0x45, 0x46, 0x47, 0x48, 0x4C, 0x4D, 0x44, 0x49, 0x4B, 0x51, 0x52, 0x50,
   0x60, 0x78, 0x61, 0x23, 0x24]

theorem skip_other (op : Byte) (l : List Byte) (h : decodeOp op = .other) : skipIns op.toNat l = l := by
  have key : ∀ m : Fin 256, decodeOp (BitVec.ofFin m) = .other → m.val ∉ lspHandled := by decide +kernel
  have hn : op.toNat ∉ lspHandled := key op.toFin h
  unfold skipIns
  split
  all_goals first
    | rfl
    | (rename_i hk; rw [hk] at hn; exact absurd (by decide) hn)

set_option maxHeartbeats 1000000 in
/-- One instruction: if it is complete, the server moves on by its length. -/
theorem skip_len (op : Byte) (l : List Byte) (m : Nat) (h : opArgs (decodeOp op) l = some m) (hm : m ≤ l.length)
    (h1 : op.toNat ≠ 0x3A) (h2 : op.toNat ≠ 0x3B) (h3 : op.toNat ≠ 0x53) (h4 : op.toNat ≠ 0x65) : skipIns op.toNat l = l.drop m := by
  by_cases hop : decodeOp op = .other
  · rw [hop] at h
    cases h
    exact skip_other op l hop
  unfold decodeOp at h
  split at h
  case h_38 hk =>
    -- CONST_CHECK
    rw [hk]
    simp only [opArgs, Option.map_eq_some_iff] at h
    obtain ⟨t, ht, rfl⟩ := h
    obtain ⟨s1, -, -, -⟩ := lspSize_tag ht
    show (lspU8 (l.drop 2)).2.drop (lspSize (lspU8 (l.drop 2)).1) = _
    rw [lspU8_ok (by rw [List.length_drop]; omega), s1, List.drop_drop, List.drop_drop]
    congr 1; omega
  case h_39 hk =>
    -- CONST_WRITE
    rw [hk]
    simp only [opArgs] at h
    split at h
    case h_2 => cases h
    case h_1 t ht =>
      split at h
      · cases h
      · next hs =>
        obtain ⟨-, -, -, s4⟩ := lspSize_tag ht
        cases h
        show (if (lspU8 l).1 = 0x10 then (lspU8 l).2.drop 1 else if (lspU8 l).1 = 0x11 then (lspU8 l).2.drop 2 else if (lspU8 l).1 = 0x12 then (lspU8 l).2.drop 4
          else if (lspU8 l).1 = 0x13 then (lspU8 l).2.drop 8 else (lspU8 l).2) = _
        rw [lspU8_ok (by omega), ← List.drop_drop]
        dsimp only
        rcases s4 (by simpa using hs) with ⟨e, q⟩ | ⟨e, q⟩ | ⟨e, q⟩ | ⟨e, q⟩ <;> rw [e, q] <;> rfl
  case h_40 hk =>
    -- RANGE_CHECK
    rw [hk]
    simp only [opArgs] at h
    show (if (lspU8 l).1 = 0x18 then (lspU8 l).2.drop 8 else if (lspU8 l).1 = 0x19 then (lspU8 l).2.drop 16 else (lspU8 l).2.drop (2 * lspSize (lspU8 l).1)) = _
    have hl : 1 ≤ l.length := by
      split at h
      · cases h; omega
      · split at h
        · cases h; omega
        · split at h
          · cases h; omega
          · cases h
    rw [lspU8_ok hl]
    dsimp only
    split at h
    case h_1 t ht =>
      obtain ⟨s1, s2, s3, -⟩ := lspSize_tag ht
      cases h
      rw [if_neg s2, if_neg s3, s1, List.drop_drop]
    case h_2 =>
      split at h
      · next h18 =>
        cases h
        rw [if_pos (by rw [h18]; rfl), List.drop_drop]
      · next h18 =>
        split at h
        · next h19 =>
          cases h
          rw [if_neg (by rw [h19]; decide), if_pos (by rw [h19]; rfl), List.drop_drop]
        · cases h
  case h_49 hk =>
    -- ENUM_CHECK
    rw [hk]
    show (lspU16 (lspU8 l).2).2.drop ((lspU16 (lspU8 l).2).1 * lspSize (lspU8 l).1) = _
    simp only [opArgs, Option.map_eq_some_iff] at h
    obtain ⟨t, ht, rfl⟩ := h
    obtain ⟨s1, -, -, -⟩ := lspSize_tag ht
    rw [lspU8_ok (by omega)]
    dsimp only
    rw [lspU16_ok (by rw [List.length_drop]; omega), s1, List.drop_drop, List.drop_drop]
    dsimp only
    congr 1; omega
  case h_50 hk =>
    -- TRANS_POLY
    rw [hk]
    show (lspU8 l).2.drop ((lspU8 l).1 * 8) = _
    simp only [opArgs] at h
    cases h
    rw [lspU8_ok (by omega), List.drop_drop]
  case h_51 hk =>
    -- TRANS_SPLINE
    rw [hk]
    show (lspU8 l).2.drop ((lspU8 l).1 * 16) = _
    simp only [opArgs] at h
    cases h
    rw [lspU8_ok (by omega), List.drop_drop]
  case h_103 => exact absurd (by unfold decodeOp; split <;> first | contradiction | rfl) hop
  all_goals first
    | contradiction
    | (rename_i hk
       rw [hk]
       simp only [opArgs, Option.some.injEq] at h
       subst h
       rfl)

theorem field_ops : ∀ m : Fin 256, BitVec.ofFin m ∉ lspBad → (decodeOp (BitVec.ofFin m)).ofField = true → offered m.val = true ∧ m.val ≠ 0x03 := by
  decide +kernel

theorem other_ops : ∀ m : Fin 256, (decodeOp (BitVec.ofFin m)).ofField = false → offered m.val = false ∨ m.val = 0x03 := by
  decide +kernel

/-- Instructions whose length depends on their operands. -/
def Op.varArgs : Op → Bool
  | .constCheck | .constWrite | .rangeCheck | .enumCheck | .transPoly | .transSpline => true
  | _ => false

theorem opArgs_fix {o : Op} (h : o.varArgs = false) (r : List Byte) : opArgs o r = opArgs o [] := by
  cases o <;> first | rfl | cases h

theorem offered_ops : ∀ m : Fin 256, offered m.val = true → opArgs (decodeOp (BitVec.ofFin m)) [] = some (2 + behindKey m.val) ∧
    (decodeOp (BitVec.ofFin m)).varArgs = false := by
  decide +kernel

/-- **C74, partial**: the fields offered for completion are those the program of the structure reads or writes, in order. -/
theorem C74_offered_partial : OffersFields false := by
  intro count code ks h
  have key : ∀ fuel, code.length ≤ fuel → offerLoop count fuel code = ks := by
    induction h with
    | nil => intro fuel _; cases fuel <;> rfl
    | @field op l n ks hv hb hf _ ih =>
      intro fuel hle
      obtain ⟨fuel, rfl⟩ : ∃ f, fuel = f + 1 := ⟨fuel - 1, by simp at hle; omega⟩
      have hb := hb.resolve_left (by decide)
      obtain ⟨o1, o2⟩ := field_ops op.toFin hb hf
      obtain ⟨a1, a2⟩ := offered_ops op.toFin o1
      have ha : opArgs (decodeOp op) l = some (2 + behindKey op.toNat) := by rw [opArgs_fix a2]; exact a1
      unfold vmLen at hv
      dsimp only at hv
      rw [ha] at hv
      dsimp only at hv
      split at hv
      · next hn =>
        cases hv
        have o1 : offered op.toNat = true := o1
        have o2 : op.toNat ≠ 0x03 := o2
        rw [offerLoop, if_pos o1, lspU16_ok (by omega)]
        have := ih fuel (by simp at hle ⊢; omega)
        have e : (op :: l).drop (2 + behindKey op.toNat + 1) = (l.drop 2).drop (behindKey op.toNat) := by rw [List.drop_drop]; rfl
        rw [e] at this
        dsimp only
        rw [this]
        congr 1
        by_cases hk : (leWord (l.take 2)).toNat < count
        · rw [if_pos ⟨hk, o2⟩, if_pos hk]
        · rw [if_neg (fun h => hk h.1), if_neg hk]
      · cases hv
    | @other op l n ks hv hb hf _ ih =>
      intro fuel hle
      obtain ⟨fuel, rfl⟩ : ∃ f, fuel = f + 1 := ⟨fuel - 1, by simp at hle; omega⟩
      have hb := hb.resolve_left (by decide)
      by_cases ho : offered op.toNat = true
      · have o3 : op.toNat = 0x03 := (other_ops op.toFin hf).resolve_left (by rw [Bool.not_eq_false]; exact ho)
        obtain ⟨a1, a2⟩ := offered_ops op.toFin ho
        have ha : opArgs (decodeOp op) l = some (2 + behindKey op.toNat) := by rw [opArgs_fix a2]; exact a1
        unfold vmLen at hv
        dsimp only at hv
        rw [ha] at hv
        dsimp only at hv
        split at hv
        · next hn =>
          cases hv
          rw [offerLoop, if_pos ho, lspU16_ok (by omega)]
          have := ih fuel (by simp at hle ⊢; omega)
          have e : (op :: l).drop (2 + behindKey op.toNat + 1) = (l.drop 2).drop (behindKey op.toNat) := by rw [List.drop_drop]; rfl
          rw [e] at this
          dsimp only
          rw [this, if_neg (fun h => h.2 o3)]
          rfl
        · cases hv
      · unfold vmLen at hv
        dsimp only at hv
        split at hv
        · cases hv
        · next m hm =>
          split at hv
          · next hn =>
            cases hv
            have hne : ∀ b ∈ lspBad, op.toNat ≠ b.toNat := fun b hm e => hb (BitVec.eq_of_toNat_eq e ▸ hm)
            rw [offerLoop, if_neg ho, skip_len op l m hm hn (hne 0x3A (by decide)) (hne 0x3B (by decide)) (hne 0x53 (by decide)) (hne 0x65 (by decide))]
            exact ih fuel (by simp at hle ⊢; omega)
          · cases hv
  exact key _ (Nat.le_refl _)

/-- `IO_U8 key 0; ENUM_CHECK u8 {1,2}; STR_NULL key 1 max 16; LOAD_CTX key 0; STORE_CTX key 2` -/
example : offerKeys 3 [0x10, 0, 0, 0x4B, 0x10, 2, 0, 1, 2, 0x30, 1, 0, 16, 0, 0x60, 0, 0, 0x78, 2, 0] = [0, 1, 0, 2] :=
  C74_offered_partial 3 _ [0, 1, 0, 2]
    (.field rfl (by decide) rfl (.other rfl (by decide) rfl (.field rfl (by decide) rfl (.field rfl (by decide) rfl (.field rfl (by decide) rfl .nil)))))

/-- A read-to-end array hides the fields behind it, and itself: its key is taken for instructions. `ARR_EOF key 16; IO_U8 key 17; ARR_END; IO_U8 key 18` -/
theorem C74_false_eof : ¬ OffersFields true := by
  intro h
  have := h 20 [0x3A, 16, 0, 0x10, 17, 0, 0x38, 0x10, 18, 0] [16, 17, 18]
    (.field rfl (.inl rfl) rfl (.field rfl (.inl rfl) rfl (.other rfl (.inl rfl) rfl (.field rfl (.inl rfl) rfl .nil))))
  revert this
  decide +kernel

/-- Raw bytes and constants are not offered, though they are fields: `RAW_BYTES key 0, 4 bytes; CONST_CHECK key 1 u8 = 7; IO_U8 key 2`. -/
theorem C74_false_kinds : ∃ code, Fields true 3 code [0, 1, 2] ∧ offerKeys 3 code = [2] :=
  ⟨[0x39, 0, 0, 4, 0, 0, 0, 0x40, 1, 0, 0x10, 7, 0x10, 2, 0],
    .field rfl (.inl rfl) rfl (.field rfl (.inl rfl) rfl (.field rfl (.inl rfl) rfl .nil)), by decide +kernel⟩

/-- The comment in the code says that each field is offered once; a field used in an expression or a condition is offered again for each
use: `IO_U8 key 0; LOAD_CTX key 0; JUMP_IF_NOT; IO_U8 key 1`. -/
theorem C74_false_once : ∃ code ks, Fields false 2 code ks ∧ offerKeys 2 code = ks ∧ ¬ ks.Nodup :=
  ⟨[0x10, 0, 0, 0x60, 0, 0, 0x50, 3, 0, 0, 0, 0x10, 1, 0], [0, 0, 1],
    .field rfl (.inr (by decide)) rfl (.field rfl (.inr (by decide)) rfl (.other rfl (.inr (by decide)) rfl (.field rfl (.inr (by decide)) rfl .nil))),
    by decide +kernel, by decide⟩

end Cnd
