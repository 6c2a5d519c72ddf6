/-
  C49: the specification of the lexer determines the tokens: a source text has one sequence of tokens.
-/
import Verif.Props.Lexer

namespace Cnd

/-- A maximal piece of characters with a property is determined. -/
theorem munch {p : Byte → Prop} {a b a' b' : List Byte} (ha : ∀ c ∈ a, p c) (hb : ¬ NextIs p b) (ha' : ∀ c ∈ a', p c)
    (hb' : ¬ NextIs p b') (e : a ++ b = a' ++ b') : a = a' ∧ b = b' := by
  induction a generalizing a' with
  | nil =>
    cases a' with
    | nil => exact ⟨rfl, e⟩
    | cons c cs => exact absurd ⟨c, cs ++ b', e, ha' c (by simp)⟩ hb
  | cons x xs ih =>
    cases a' with
    | nil => exact absurd ⟨x, xs ++ b, e.symm, ha x (by simp)⟩ hb'
    | cons c cs =>
      simp only [List.cons_append, List.cons.injEq] at e
      obtain ⟨h1, h2⟩ := ih (fun c hc => ha c (by simp [hc])) (fun c hc => ha' c (by simp [hc])) e.2
      exact ⟨by rw [e.1, h1], h2⟩

/-- Two texts ended by the first star-slash. -/
theorem first_unique {a b a' b' : List Byte} (ha : ∀ x y, a ++ [0x2A] ≠ x ++ 0x2A :: 0x2F :: y)
    (ha' : ∀ x y, a' ++ [0x2A] ≠ x ++ 0x2A :: 0x2F :: y) (e : a ++ 0x2A :: 0x2F :: b = a' ++ 0x2A :: 0x2F :: b') : a = a' ∧ b = b' := by
  rcases List.append_eq_append_iff.1 e with ⟨x, h1, h2⟩ | ⟨x, h1, h2⟩
  · match x with
    | [] => simp at h1 h2; exact ⟨h1.symm, h2⟩
    | [c] => simp at h2
    | c :: d :: y =>
      simp only [List.cons_append, List.cons.injEq] at h2
      exact absurd (by rw [h1, ← h2.1, ← h2.2.1]; simp) (ha' a (y ++ [0x2A]))
  · match x with
    | [] => simp at h1 h2; exact ⟨h1, h2.symm⟩
    | [c] => simp at h2
    | c :: d :: y =>
      simp only [List.cons_append, List.cons.injEq] at h2
      exact absurd (by rw [h1, ← h2.1, ← h2.2.1]; simp) (ha a' (y ++ [0x2A]))

/-- No white space and no comment begins here. -/
def Stop (s : List Byte) : Prop :=
  ¬ NextIs (· ∈ [0x20, 0x0D, 0x09, 0x0A]) s ∧ (∀ x, s ≠ 0x2F :: 0x2A :: x) ∧ (∀ x, s = 0x2F :: 0x2F :: x → NextIs (· = 0x2F) x)

theorem notNextIs_ne (s : List Byte) (h : s = [] ∨ NextIs (· = 0x0A) s) : ¬ NextIs (· ≠ 0x0A) s := by
  rintro ⟨c, cs, rfl, hc⟩
  rcases h with h | ⟨d, ds, h, hd⟩
  · cases h
  · cases h; exact hc hd

theorem trivia_unique {t s t' s' : List Byte} (h : Trivia t s) (h' : Trivia t' s') (e : t ++ s = t' ++ s') (hs : Stop s) (hs' : Stop s') :
    t = t' := by
  induction h generalizing t' with
  | nil s =>
    cases h' with
    | nil => rfl
    | ws hc h => exact absurd ⟨_, _, e, hc⟩ hs.1
    | line h1 h2 h3 h4 =>
      refine absurd (hs.2.2 _ (e.trans ?_)) h2
      simp
    | block h1 h2 => exact absurd e (hs.2.1 _)
    | openBlock h1 => exact absurd e (hs.2.1 _)
  | ws hc h ih =>
    cases h' with
    | nil => exact absurd ⟨_, _, e.symm, hc⟩ hs'.1
    | ws hc' h' =>
      simp only [List.cons_append, List.cons.injEq] at e
      rw [e.1, ih h' e.2 hs]
    | line h1 h2 h3 h4 =>
      simp only [List.cons_append, List.cons.injEq] at e
      rw [e.1] at hc
      exact absurd hc (by decide)
    | block h1 h2 =>
      simp only [List.cons_append, List.cons.injEq] at e
      rw [e.1] at hc
      exact absurd hc (by decide)
    | openBlock h1 =>
      simp only [List.cons_append, List.cons.injEq] at e
      rw [e.1] at hc
      exact absurd hc (by decide)
  | line k1 k2 k3 k4 ih =>
    cases h' with
    | nil =>
      refine absurd (hs'.2.2 _ (e.symm.trans ?_)) k2
      simp
    | ws hc' h' =>
      simp only [List.cons_append, List.cons.injEq] at e
      rw [← e.1] at hc'
      exact absurd hc' (by decide)
    | line h1 h2 h3 h4 =>
      simp only [List.cons_append, List.cons.injEq, true_and, List.append_assoc] at e
      obtain ⟨g1, g2⟩ := munch (p := (· ≠ 0x0A)) (fun c hc q => k1 (q ▸ hc)) (notNextIs_ne _ k3) (fun c hc q => h1 (q ▸ hc)) (notNextIs_ne _ h3) e
      rw [g1, ih h4 g2 hs]
    | block h1 h2 => simp at e
    | openBlock h1 => simp at e
  | block k1 k2 ih =>
    cases h' with
    | nil => exact absurd e.symm (hs'.2.1 _)
    | ws hc' h' =>
      simp only [List.cons_append, List.cons.injEq] at e
      rw [← e.1] at hc'
      exact absurd hc' (by decide)
    | line h1 h2 h3 h4 => simp at e
    | block h1 h2 =>
      simp only [List.cons_append, List.cons.injEq, true_and, List.append_assoc] at e
      obtain ⟨g1, g2⟩ := first_unique k1 h1 e
      rw [g1, ih h2 g2 hs]
    | openBlock h1 =>
      simp only [List.cons_append, List.cons.injEq, true_and, List.append_assoc, List.append_nil] at e
      exact absurd e.symm (h1 _ _)
  | openBlock k1 =>
    cases h' with
    | nil => exact absurd e.symm (hs'.2.1 _)
    | ws hc' h' =>
      simp only [List.cons_append, List.cons.injEq] at e
      rw [← e.1] at hc'
      exact absurd hc' (by decide)
    | line h1 h2 h3 h4 => simp at e
    | block h1 h2 =>
      simp only [List.cons_append, List.cons.injEq, true_and, List.append_assoc, List.append_nil] at e
      exact absurd e (k1 _ _)
    | openBlock h1 => simpa using e

/-! ### Tokens -/

theorem Letter.ne {c d : Byte} (h : Letter c) (hd : isAlpha d = false) : c ≠ d := by
  rintro rfl
  rw [(letter_iff _).2 h] at hd
  cases hd

theorem Digit.ne {c d : Byte} (h : Digit c) (hd : isDig d = false) : c ≠ d := by
  rintro rfl
  rw [(digit_iff _).2 h] at hd
  cases hd

theorem letter_digit (c : Byte) (h : Letter c) (h' : Digit c) : False := by
  have key : ∀ m : Fin 256, isAlpha (BitVec.ofFin m) = true → isDig (BitVec.ofFin m) = true → False := by decide +kernel
  exact key c.toFin ((letter_iff c).2 h) ((digit_iff c).2 h')

/-- The first character of a token, as far as it decides what the token is. -/
inductive Kind
  | op | word | num | str | doc | error
  deriving DecidableEq

def kindOf : TT → Kind
  | .number => .num
  | .string => .str
  | .doc => .doc
  | .error => .error
  | .identifier | .kwStruct | .kwPacket | .kwEnum | .kwSwitch | .kwCase | .kwDefault | .kwIf | .kwElse | .kwTrue | .kwFalse | .kwSelf => .word
  | _ => .op

def nextB (p : Byte → Bool) : List Byte → Bool
  | [] => false
  | c :: _ => p c

/-- The kind of the token at the start of a text. -/
def startKind : List Byte → Kind
  | [] => .error
  | c :: s =>
    if isAlpha c then .word
    else if isDig c then .num
    else if c = 0x2D ∧ nextB isDig s then .num
    else if c = 0x22 then .str
    else if c = 0x2F ∧ nextB (· = 0x2F) s then .doc
    else if [c] ∈ punct.map (·.1) then .op
    else .error

theorem numLexeme_head {n s : List Byte} (h : NumLexeme n s) : ∃ c cs, n = c :: cs ∧ Digit c := by
  cases h with
  | hex => exact ⟨_, _, rfl, (digit_iff _).1 (by decide)⟩
  | int h1 h2 =>
    cases n with
    | nil => exact absurd rfl h1
    | cons d ds => exact ⟨d, ds, rfl, h2 d (by simp)⟩
  | @frac ds fs _ h1 h2 =>
    cases ds with
    | nil => exact absurd rfl h1
    | cons d ds => exact ⟨d, _, rfl, h2 d (by simp)⟩

theorem alpha_of {c : Byte} (h : ¬ Letter c) : isAlpha c = false := by
  rw [← letter_iff] at h
  simpa using h

theorem dig_of {c : Byte} (h : ¬ Digit c) : isDig c = false := by
  rw [← digit_iff] at h
  simpa using h

theorem punct_head : ∀ p ∈ punct, p.1 ≠ [] ∧ isAlpha (p.1.headD 0) = false ∧ isDig (p.1.headD 0) = false ∧ p.1.headD 0 ≠ 0x22 ∧
    [p.1.headD 0] ∈ punct.map (·.1) ∧ (p.1.headD 0 = 0x2D → p.1.tail = []) ∧ (p.1.headD 0 = 0x2F → p.1.tail = []) ∧ kindOf p.2 = .op ∧
    p.1.headD 0 ∉ [0x20#8, 0x0D, 0x09, 0x0A] := by
  decide +kernel

theorem punct_cons {raw : List Byte} {ty : TT} (h : (raw, ty) ∈ punct) : ∃ c cs, raw = c :: cs ∧ isAlpha c = false ∧ isDig c = false ∧ c ≠ 0x22 ∧
    [c] ∈ punct.map (·.1) ∧ (c = 0x2D → cs = []) ∧ (c = 0x2F → cs = []) ∧ kindOf ty = .op ∧ c ∉ [0x20#8, 0x0D, 0x09, 0x0A] := by
  have := punct_head _ h
  cases raw with
  | nil => exact absurd rfl this.1
  | cons c cs => exact ⟨c, cs, rfl, this.2⟩

theorem isTok_kind {raw s : List Byte} {ty : TT} {text : List Byte} (h : IsTok raw s ty text) : raw ≠ [] ∧ startKind (raw ++ s) = kindOf ty := by
  cases h with
  | op h1 h2 h3 h4 =>
    obtain ⟨c, cs, rfl, k1, k2, k3, k4, k5, k6, k7, _⟩ := punct_cons h1
    refine ⟨by simp, ?_⟩
    rw [List.cons_append, startKind, k1, k2, if_neg (by decide), if_neg (by decide), if_neg, if_neg k3, if_neg, if_pos k4, k7]
    · rintro ⟨rfl, q⟩
      obtain rfl := k6 rfl
      cases s with
      | nil => cases q
      | cons d ds => exact h3 rfl ⟨d, ds, rfl, .inl (by simpa [nextB] using q)⟩
    · rintro ⟨rfl, q⟩
      obtain rfl := k5 rfl
      cases s with
      | nil => cases q
      | cons d ds => exact h4 rfl ⟨d, ds, rfl, (digit_iff d).1 q⟩
  | word h1 h2 h3 h4 =>
    refine ⟨by simp, ?_⟩
    rw [List.cons_append, startKind, if_pos ((letter_iff _).2 h1)]
    rcases h4 with h4 | ⟨rfl, _⟩
    · have : ∀ p ∈ keywords, Kind.word = kindOf p.2 := by decide
      exact this _ h4
    · rfl
  | num h =>
    obtain ⟨c, cs, rfl, hc⟩ := numLexeme_head h
    refine ⟨by simp, ?_⟩
    rw [List.cons_append, startKind, if_neg (by rw [letter_iff]; exact fun q => letter_digit c q hc), if_pos ((digit_iff _).2 hc)]
    rfl
  | negNum h =>
    obtain ⟨c, cs, rfl, hc⟩ := numLexeme_head h
    refine ⟨by simp, ?_⟩
    rw [List.cons_append, startKind, if_neg (by decide), if_neg (by decide), if_pos]
    · rfl
    · exact ⟨rfl, (digit_iff _).2 hc⟩
  | str h => exact ⟨by simp, rfl⟩
  | openStr h => exact ⟨by simp, rfl⟩
  | doc h1 h2 h3 => exact ⟨by simp, rfl⟩
  | @error c s h1 h2 h3 h4 h5 =>
    refine ⟨by simp, ?_⟩
    have h6 : ([c] : List Byte) ∉ punct.map (·.1) := by
      intro q
      obtain ⟨p, hp, e⟩ := List.mem_map.1 q
      exact h4 p.2 (by rw [← e]; exact hp)
    have n1 : c ≠ 0x2D := by rintro rfl; exact h6 (by decide)
    have n2 : c ≠ 0x2F := by rintro rfl; exact h6 (by decide)
    rw [List.cons_append, startKind, alpha_of h1, dig_of h2, if_neg (by decide), if_neg (by decide), if_neg, if_neg h3, if_neg, if_neg h6]
    · rfl
    · exact fun q => n2 q.1
    · exact fun q => n1 q.1

theorem ws_class : ∀ c ∈ [0x20#8, 0x0D, 0x09, 0x0A], isAlpha c = false ∧ isDig c = false ∧ c ≠ 0x22 ∧ c ≠ 0x2F ∧ c ≠ 0x2D := by decide

theorem isTok_stop {raw s : List Byte} {ty : TT} {text : List Byte} (h : IsTok raw s ty text) : Stop (raw ++ s) := by
  have hd : ∀ c cs, raw = c :: cs → c ≠ 0x2F → c ∉ [0x20#8, 0x0D, 0x09, 0x0A] → Stop (raw ++ s) := by
    rintro c cs rfl h1 h2
    refine ⟨?_, ?_, ?_⟩
    · rintro ⟨d, ds, q, hd⟩
      cases q
      exact h2 hd
    · intro x q
      simp at q
      exact h1 q.1
    · intro x q
      simp at q
      exact absurd q.1 h1
  have hnum : ∀ c, Digit c → c ≠ 0x2F ∧ c ∉ [0x20#8, 0x0D, 0x09, 0x0A] := by
    intro c hc
    refine ⟨hc.ne (by decide), fun q => ?_⟩
    exact absurd (ws_class c q).2.1 (by simp [(digit_iff c).2 hc])
  cases h with
  | op h1 h2 h3 h4 =>
    obtain ⟨c, cs, rfl, k1, k2, k3, k4, k5, k6, k7, k8⟩ := punct_cons h1
    by_cases hc : c = 0x2F
    · subst hc
      obtain rfl := k6 rfl
      refine ⟨?_, ?_, ?_⟩
      · rintro ⟨d, ds, q, hd⟩
        cases q
        exact k8 hd
      · intro x q
        simp at q
        exact h3 rfl ⟨_, _, q, .inr rfl⟩
      · intro x q
        simp at q
        exact absurd ⟨_, _, q, .inl rfl⟩ (h3 rfl)
    · exact hd c cs rfl hc k8
  | word h1 h2 h3 h4 =>
    exact hd _ _ rfl (h1.ne (by decide)) fun q => by
      have := (ws_class _ q).1
      rw [(letter_iff _).2 h1] at this
      cases this
  | num h =>
    obtain ⟨c, cs, rfl, hc⟩ := numLexeme_head h
    exact hd _ _ rfl (hnum c hc).1 (hnum c hc).2
  | negNum h => exact hd _ _ rfl (by decide) (by decide)
  | str h => exact hd _ _ rfl (by decide) (by decide)
  | openStr h => exact hd _ _ rfl (by decide) (by decide)
  | doc h1 h2 h3 =>
    refine ⟨?_, ?_, ?_⟩
    · rintro ⟨d, ds, q, hd⟩
      cases q
      exact absurd hd (by decide)
    · intro x q
      simp at q
    · intro x q
      simp at q
      exact ⟨_, _, q.symm, rfl⟩
  | error h1 h2 h3 h4 h5 =>
    refine hd _ _ rfl ?_ h5
    rintro rfl
    exact h4 .slash (by decide)

theorem digits_dot {ds s : List Byte} : ¬ NextIs Digit (0x2E :: s) := by
  rintro ⟨c, cs, q, hc⟩
  cases q
  exact hc.ne (d := 0x2E) (by decide) rfl

theorem hex_not_digits {x : Byte} (hx : x = 0x78 ∨ x = 0x58) {s ds r : List Byte} (hd : ∀ d ∈ ds, Digit d) (h0 : ds ≠ [])
    (e : 0x30 :: x :: s = ds ++ r) : ds = [0x30] ∧ r = x :: s := by
  match ds, h0 with
  | [d], _ => simp at e; exact ⟨by rw [← e.1]; rfl, e.2.symm⟩
  | d :: d' :: ds, _ =>
    simp at e
    have := hd d' (by simp)
    rw [← e.2.1] at this
    rcases hx with rfl | rfl
    · exact absurd rfl (this.ne (d := 0x78) (by decide))
    · exact absurd rfl (this.ne (d := 0x58) (by decide))

theorem num_unique {n s n' s' : List Byte} (h : NumLexeme n s) (h' : NumLexeme n' s') (e : n ++ s = n' ++ s') : n = n' ∧ s = s' := by
  have hi : ∀ {x ds r m r'}, (x = 0x78 ∨ x = 0x58) → m ≠ [] → (∀ d ∈ m, Digit d) → ¬ (m = [0x30] ∧ NextIs (fun c => c = 0x78 ∨ c = 0x58) r') →
      0x30 :: x :: ds ++ r = m ++ r' → False := by
    intro x ds r m r' hx h0 hd hn e
    obtain ⟨g1, g2⟩ := hex_not_digits hx hd h0 e
    exact hn ⟨g1, _, _, g2, hx⟩
  have hf : ∀ {x ds r m fs r'}, (x = 0x78 ∨ x = 0x58) → m ≠ [] → (∀ d ∈ m, Digit d) →
      0x30 :: x :: ds ++ r = m ++ 0x2E :: fs ++ r' → False := by
    intro x ds r m fs r' hx h0 hd e
    obtain ⟨g1, g2⟩ := hex_not_digits hx hd h0 (e.trans (List.append_assoc ..))
    simp at g2
    rw [← g2.1] at hx
    exact absurd hx (by decide)
  have hif : ∀ {ds r m fs r'}, (∀ d ∈ ds, Digit d) → ¬ NextIs Digit r → (∀ s', r = 0x2E :: s' → ¬ NextIs Digit s') →
      (∀ d ∈ m, Digit d) → fs ≠ [] → (∀ d ∈ fs, Digit d) → ds ++ r = m ++ 0x2E :: fs ++ r' → False := by
    intro ds r m fs r' h1 h2 h3 h4 h5 h6 e
    rw [List.append_assoc] at e
    obtain ⟨g1, g2⟩ := munch h1 h2 h4 (digits_dot (ds := [])) e
    cases fs with
    | nil => exact h5 rfl
    | cons f fs => exact h3 _ g2 ⟨f, _, rfl, h6 f (by simp)⟩
  cases h with
  | hex hx hd hn =>
    cases h' with
    | hex hx' hd' hn' =>
      simp only [List.cons_append, List.cons.injEq, true_and] at e
      obtain ⟨g1, g2⟩ := munch hd hn hd' hn' e.2
      exact ⟨by rw [e.1, g1], g2⟩
    | int h1 h2 h3 h4 h5 => exact (hi hx h1 h2 h5 e).elim
    | frac h1 h2 h3 h4 h5 => exact (hf hx h1 h2 e).elim
  | int k1 k2 k3 k4 k5 =>
    cases h' with
    | hex hx' hd' hn' => exact (hi hx' k1 k2 k5 e.symm).elim
    | int h1 h2 h3 h4 h5 => exact munch k2 k3 h2 h3 e
    | frac h1 h2 h3 h4 h5 => exact (hif k2 k3 k4 h2 h3 h4 e).elim
  | frac k1 k2 k3 k4 k5 =>
    cases h' with
    | hex hx' hd' hn' => exact (hf hx' k1 k2 e.symm).elim
    | int h1 h2 h3 h4 h5 => exact (hif h2 h3 h4 k2 k3 k4 e.symm).elim
    | frac h1 h2 h3 h4 h5 =>
      rw [List.append_assoc, List.append_assoc] at e
      obtain ⟨g1, g2⟩ := munch k2 (digits_dot (ds := [])) h2 (digits_dot (ds := [])) e
      simp only [List.cons_append, List.cons.injEq, true_and] at g2
      obtain ⟨g3, g4⟩ := munch k4 k5 h4 h5 g2
      exact ⟨by rw [g1, g3], g4⟩

theorem punct_fun : ∀ p ∈ punct, ∀ q ∈ punct, p.1 = q.1 → p.2 = q.2 := by decide +kernel
theorem punct_short : ∀ p ∈ punct, p.1.length ≤ 2 := by decide +kernel
theorem keywords_fun : ∀ p ∈ keywords, ∀ q ∈ keywords, p.1 = q.1 → p.2 = q.2 := by decide +kernel
theorem keywords_kind : ∀ p ∈ keywords, kindOf p.2 = .word := by decide

theorem notQuote (s : List Byte) : ¬ NextIs (· ≠ 0x22) (0x22 :: s) := by
  rintro ⟨c, cs, q, hc⟩
  cases q
  exact hc rfl

theorem op_longer {raw s raw' s' : List Byte} {ty ty' : TT} (h1 : (raw, ty) ∈ punct) (h1' : (raw', ty') ∈ punct)
    (h2 : ∀ c s', s = c :: s' → ∀ ty', (raw ++ [c], ty') ∉ punct) (x : List Byte) (ex : raw' = raw ++ x) (es : s = x ++ s') : x = [] := by
  have l1 := punct_short _ h1'
  have l2 := (punct_head _ h1).1
  dsimp only at l1 l2
  match x, ex, es with
  | [], _, _ => rfl
  | [c], ex, es => exact absurd (ex ▸ h1') (h2 c s' es ty')
  | c :: d :: y, ex, _ =>
    have : 0 < raw.length := List.length_pos_iff.2 l2
    rw [ex] at l1
    simp at l1
    omega

theorem notDocEnd {s : List Byte} (h : s = [] ∨ NextIs (fun c => c = 0x0A ∨ c = 0x0D) s) : ¬ NextIs (fun c => c ≠ 0x0A ∧ c ≠ 0x0D) s := by
  rintro ⟨c, cs, rfl, hc⟩
  rcases h with h | ⟨d, ds, h, hd⟩
  · cases h
  · cases h
    rcases hd with hd | hd
    · exact hc.1 hd
    · exact hc.2 hd

theorem isTok_unique {raw s raw' s' : List Byte} {ty ty' : TT} {text text' : List Byte} (h : IsTok raw s ty text)
    (h' : IsTok raw' s' ty' text') (e : raw ++ s = raw' ++ s') : raw = raw' ∧ s = s' ∧ ty = ty' ∧ text = text' := by
  have k : kindOf ty = kindOf ty' := by rw [← (isTok_kind h).2, ← (isTok_kind h').2, e]
  have hop : ∀ {raw ty}, (raw, ty) ∈ punct → kindOf ty = .op := fun h => (punct_head _ h).2.2.2.2.2.2.2.1
  have hw : ∀ {w : List Byte} {ty}, ((w, ty) ∈ keywords ∨ ty = .identifier ∧ ∀ ty', (w, ty') ∉ keywords) → kindOf ty = .word := by
    rintro w ty (h | ⟨rfl, _⟩)
    · exact keywords_kind _ h
    · rfl
  cases h with
  | op h1 h2 h3 h4 =>
    rw [hop h1] at k
    cases h' with
    | op h1' h2' h3' h4' =>
      have : raw = raw' ∧ s = s' := by
        rcases List.append_eq_append_iff.1 e with ⟨x, g1, g2⟩ | ⟨x, g1, g2⟩
        · obtain rfl := op_longer h1 h1' h2 x g1 g2
          simp at g1 g2
          exact ⟨g1.symm, g2⟩
        · obtain rfl := op_longer h1' h1 h2' x g1 g2
          simp at g1 g2
          exact ⟨g1, g2.symm⟩
      exact ⟨this.1, this.2, punct_fun _ h1 _ h1' this.1, this.1⟩
    | word _ _ _ h => rw [hw h] at k; cases k
    | _ => cases k
  | word h1 h2 h3 h4 =>
    rw [hw h4] at k
    cases h' with
    | op h1' => rw [hop h1'] at k; cases k
    | word h1' h2' h3' h4' =>
      simp only [List.cons_append, List.cons.injEq] at e
      obtain ⟨rfl, e⟩ := e
      obtain ⟨rfl, rfl⟩ := munch h2 h3 h2' h3' e
      refine ⟨rfl, rfl, ?_, rfl⟩
      rcases h4 with h4 | ⟨rfl, h4⟩ <;> rcases h4' with h4' | ⟨rfl, h4'⟩
      · exact keywords_fun _ h4 _ h4' rfl
      · exact absurd h4 (h4' _)
      · exact absurd h4' (h4 _)
      · rfl
    | _ => cases k
  | num h =>
    cases h' with
    | op h1' => rw [hop h1'] at k; cases k
    | word _ _ _ h => rw [hw h] at k; cases k
    | num h' =>
      obtain ⟨rfl, rfl⟩ := num_unique h h' e
      exact ⟨rfl, rfl, rfl, rfl⟩
    | negNum h' =>
      obtain ⟨c, cs, rfl, hc⟩ := numLexeme_head h
      simp at e
      exact absurd e.1 (hc.ne (by decide))
    | _ => cases k
  | negNum h =>
    cases h' with
    | op h1' => rw [hop h1'] at k; cases k
    | word _ _ _ h => rw [hw h] at k; cases k
    | num h' =>
      obtain ⟨c, cs, rfl, hc⟩ := numLexeme_head h'
      simp at e
      exact absurd e.1.symm (hc.ne (by decide))
    | negNum h' =>
      simp only [List.cons_append, List.cons.injEq, true_and] at e
      obtain ⟨rfl, rfl⟩ := num_unique h h' e
      exact ⟨rfl, rfl, rfl, rfl⟩
    | _ => cases k
  | str h =>
    cases h' with
    | op h1' => rw [hop h1'] at k; cases k
    | word _ _ _ h => rw [hw h] at k; cases k
    | str h' =>
      simp only [List.cons_append, List.cons.injEq, true_and, List.append_assoc, List.nil_append] at e
      obtain ⟨rfl, e'⟩ := munch (p := (· ≠ 0x22)) (fun c hc q => h (q ▸ hc)) (notQuote _) (fun c hc q => h' (q ▸ hc)) (notQuote _) e
      simp only [List.cons.injEq, true_and] at e'
      exact ⟨rfl, e', rfl, rfl⟩
    | openStr h' =>
      simp only [List.cons_append, List.cons.injEq, true_and, List.append_assoc, List.nil_append, List.append_nil] at e
      exact absurd (by rw [← e]; simp) h'
    | _ => cases k
  | openStr h =>
    cases h' with
    | op h1' => rw [hop h1'] at k; cases k
    | word _ _ _ h => rw [hw h] at k; cases k
    | str h' =>
      simp only [List.cons_append, List.cons.injEq, true_and, List.append_assoc, List.nil_append, List.append_nil] at e
      exact absurd (by rw [e]; simp) h
    | openStr h' =>
      simp only [List.cons_append, List.append_nil, List.cons.injEq, true_and] at e
      exact ⟨by rw [e], rfl, rfl, e⟩
    | _ => cases k
  | doc h1 h2 h3 =>
    cases h' with
    | op h1' => rw [hop h1'] at k; cases k
    | word _ _ _ h => rw [hw h] at k; cases k
    | doc h1' h2' h3' =>
      simp only [List.cons_append, List.cons.injEq, true_and] at e
      obtain ⟨rfl, rfl⟩ := munch (p := fun c => c ≠ 0x0A ∧ c ≠ 0x0D) (fun c hc => ⟨fun q => h1 (q ▸ hc), fun q => h2 (q ▸ hc)⟩) (notDocEnd h3)
        (fun c hc => ⟨fun q => h1' (q ▸ hc), fun q => h2' (q ▸ hc)⟩) (notDocEnd h3') e
      exact ⟨rfl, rfl, rfl, rfl⟩
    | _ => cases k
  | error h1 h2 h3 h4 h5 =>
    cases h' with
    | op h1' => rw [hop h1'] at k; cases k
    | word _ _ _ h => rw [hw h] at k; cases k
    | error =>
      simp at e
      exact ⟨by rw [e.1], e.2, rfl, by rw [e.1]⟩
    | _ => cases k

theorem stop_nil : Stop [] :=
  ⟨(by rintro ⟨c, cs, q, _⟩; cases q), (by simp), (by simp)⟩

/-- **C49.** A text has only one sequence of tokens: the specification leaves nothing open. -/
theorem C49_unique {s : List Byte} {line : Nat} {toks toks' : List Tok} (h : Lexes s line toks) (h' : Lexes s line toks') : toks = toks' := by
  suffices hg : ∀ s', s = s' → Lexes s' line toks' → toks = toks' from hg s rfl h'
  clear h'
  induction h generalizing toks' with
  | @eof t line ht =>
    intro s' e h'
    cases h' with
    | eof => rw [e]
    | tok g1 g2 g3 =>
      have := trivia_unique ht g1 (by rw [List.append_nil]; exact e) stop_nil (isTok_stop g2)
      rw [this] at e
      simp at e
      exact absurd e.1 (isTok_kind g2).1
  | tok h1 h2 h3 ih =>
    intro s' e h'
    cases h' with
    | eof g1 =>
      have := trivia_unique h1 g1 (by rw [List.append_nil]; exact e) (isTok_stop h2) stop_nil
      rw [← this] at e
      simp at e
      exact absurd e.1 (isTok_kind h2).1
    | tok g1 g2 g3 =>
      have := trivia_unique h1 g1 e (isTok_stop h2) (isTok_stop g2)
      subst this
      obtain ⟨rfl, rfl, rfl, rfl⟩ := isTok_unique h2 g2 (List.append_cancel_left e)
      rw [ih _ rfl g3]

/-- C49, put as an equivalence: the lexer's tokens are those of the specification, for every text without NUL. -/
theorem C49_iff (s : List Byte) (hs : NoNul s) (line : Nat) (post : List Byte) (toks : List Tok) :
    lexAll (s.length + 1) (s ++ 0 :: post) line = some toks ↔ Lexes s line toks := by
  obtain ⟨toks', h1, h2⟩ := C49_lexer s hs line
  rw [h2 post]
  constructor
  · intro h
    cases h
    exact h1
  · intro h
    rw [C49_unique h h1]

/-! ### Writing tokens -/

/-- The spelling of a token of a program. -/
inductive Spelt : TT → List Byte → Prop
  | op {ty w} : (w, ty) ∈ punct → Spelt ty w
  | keyword {ty w} : (w, ty) ∈ keywords → Spelt ty w
  | ident {c cs} : Letter c → (∀ d ∈ cs, Letter d ∨ Digit d) → (∀ ty, (c :: cs, ty) ∉ keywords) → Spelt .identifier (c :: cs)
  | int {ds} : ds ≠ [] → (∀ d ∈ ds, Digit d) → Spelt .number ds
  | hex {x ds} : x = 0x78 ∨ x = 0x58 → (∀ d ∈ ds, HexDigit d) → Spelt .number (0x30 :: x :: ds)
  | frac {ds fs} : ds ≠ [] → (∀ d ∈ ds, Digit d) → fs ≠ [] → (∀ d ∈ fs, Digit d) → Spelt .number (ds ++ 0x2E :: fs)
  | neg {w} : Spelt .number w → 0x2D ∉ w → Spelt .number (0x2D :: w)
  | doc {w} : 0x0A ∉ w → 0x0D ∉ w → 0 ∉ w → Spelt .doc w

/-- The characters of a token, and the one behind it. -/
def Tok.chars (t : Tok) : List Byte := if t.type = .doc then [0x2F, 0x2F, 0x2F] ++ t.text else t.text
def Tok.sep (t : Tok) : Byte := if t.type = .doc then 0x0A else 0x20

/-- A text with these tokens. -/
def written : List Tok → List Byte
  | [] => []
  | t :: ts => t.chars ++ t.sep :: written ts

theorem spelt_num {w : List Byte} (h : Spelt .number w) (h0 : 0x2D ∉ w) (s : List Byte) : NumLexeme w (0x20 :: s) := by
  have hn : ∀ p : Byte → Prop, ¬ p 0x20 → ¬ NextIs p (0x20 :: s) := by
    rintro p hp ⟨c, cs, q, hc⟩
    cases q
    exact hp hc
  have hd : ¬ Digit 0x20 := by rw [← digit_iff]; decide
  cases h with
  | op h => exact absurd (punct_head _ h).2.2.2.2.2.2.2.1 (by simp [kindOf])
  | keyword h => exact absurd (keywords_kind _ h) (by simp [kindOf])
  | int h1 h2 =>
    refine .int h1 h2 (hn _ hd) (by simp) ?_
    rintro ⟨_, q⟩
    exact hn _ (by decide) q
  | hex h1 h2 => exact .hex h1 h2 (hn _ (by rw [← hexDigit_iff]; decide))
  | frac h1 h2 h3 h4 => exact .frac h1 h2 h3 h4 (hn _ hd)
  | neg h => exact absurd (by simp) h0

theorem spelt_isTok {t : Tok} (h : Spelt t.type t.text) (s : List Byte) : IsTok t.chars (t.sep :: s) t.type t.text := by
  obtain ⟨ty, w, line⟩ := t
  dsimp only at h
  have hn : ∀ p : Byte → Prop, ¬ p 0x20 → ¬ NextIs p (0x20 :: s) := by
    rintro p hp ⟨c, cs, q, hc⟩
    cases q
    exact hp hc
  have hd : ¬ Digit 0x20 := by rw [← digit_iff]; decide
  have hl : ¬ Letter 0x20 := by rw [← letter_iff]; decide
  have hc : ty ≠ .doc → Tok.chars ⟨ty, w, line⟩ = w ∧ Tok.sep ⟨ty, w, line⟩ = 0x20 := fun q => ⟨if_neg q, if_neg q⟩
  cases h with
  | op h =>
    obtain ⟨e1, e2⟩ := hc (by rintro rfl; exact absurd (punct_head _ h).2.2.2.2.2.2.2.1 (by simp [kindOf]))
    rw [e1, e2]
    refine .op h ?_ (fun _ => hn _ (by decide)) (fun _ => hn _ hd)
    intro c s' q ty' hq
    cases q
    have : ∀ p ∈ punct, (0x20 : Byte) ∉ p.1 := by decide +kernel
    exact this _ hq (by simp)
  | keyword h =>
    obtain ⟨e1, e2⟩ := hc (by rintro rfl; exact absurd (keywords_kind _ h) (by simp [kindOf]))
    rw [e1, e2]
    have : ∀ p ∈ keywords, p.1 ≠ [] ∧ isAlpha (p.1.headD 0) = true ∧ ∀ c ∈ p.1.tail, isAlpha c = true := by decide +kernel
    have := this _ h
    cases w with
    | nil => exact absurd rfl this.1
    | cons c cs =>
      exact .word ((letter_iff _).1 this.2.1) (fun d hd => .inl ((letter_iff _).1 (this.2.2 d hd))) (hn _ (by rintro (q | q) <;> contradiction)) (.inl h)
  | ident h1 h2 h3 =>
    obtain ⟨e1, e2⟩ := hc (by simp)
    rw [e1, e2]
    exact .word h1 h2 (hn _ (by rintro (q | q) <;> contradiction)) (.inr ⟨rfl, h3⟩)
  | doc h1 h2 h3 => exact .doc h1 h2 (.inr ⟨_, _, rfl, .inl rfl⟩)
  | int h1 h2 =>
    obtain ⟨e1, e2⟩ := hc (by simp)
    rw [e1, e2]
    exact .num (spelt_num (.int h1 h2) (fun q => (h2 _ q).ne (d := 0x2D) (by decide) rfl) s)
  | hex h1 h2 =>
    obtain ⟨e1, e2⟩ := hc (by simp)
    rw [e1, e2]
    refine .num (spelt_num (.hex h1 h2) (fun q => ?_) s)
    simp at q
    rcases q with q | q
    · rcases h1 with rfl | rfl <;> exact absurd q (by decide)
    · have := (hexDigit_iff _).2 (h2 _ q)
      exact absurd this (by decide)
  | frac h1 h2 h3 h4 =>
    obtain ⟨e1, e2⟩ := hc (by simp)
    rw [e1, e2]
    refine .num (spelt_num (.frac h1 h2 h3 h4) (fun q => ?_) s)
    simp at q
    rcases q with q | q
    · exact (h2 _ q).ne (d := 0x2D) (by decide) rfl
    · exact (h4 _ q).ne (d := 0x2D) (by decide) rfl
  | neg h h0 =>
    obtain ⟨e1, e2⟩ := hc (by simp)
    rw [e1, e2]
    exact .negNum (spelt_num h h0 s)

theorem written_lexes (toks : List Tok) (h : ∀ t ∈ toks, Spelt t.type t.text) (pre : List Byte) (hp : ∀ s, Trivia pre s) (line : Nat) :
    ∃ toks', Lexes (pre ++ written toks) line toks' ∧ toks'.map (fun t => (t.type, t.text)) = toks.map (fun t => (t.type, t.text)) ++ [(.eof, [])] := by
  induction toks generalizing pre line with
  | nil =>
    refine ⟨[⟨.eof, [], line + newlines pre⟩], ?_, rfl⟩
    rw [written, List.append_nil]
    exact .eof (hp [])
  | cons t ts ih =>
    have ht := spelt_isTok (h t (by simp)) (written ts)
    have hs : ∀ s, Trivia [t.sep] s := fun s => .ws (by unfold Tok.sep; split <;> decide) (.nil s)
    obtain ⟨toks', h1, h2⟩ := ih (fun t ht => h t (by simp [ht])) [t.sep] hs (line + newlines pre)
    refine ⟨⟨t.type, t.text, line + newlines pre⟩ :: toks', ?_, by simp [h2]⟩
    rw [written]
    exact .tok (hp _) ht h1

theorem spelt_noNul {t : Tok} (h : Spelt t.type t.text) : 0 ∉ t.chars := by
  have hn : ∀ {ty w}, Spelt ty w → 0 ∉ w := by
    intro ty w h
    induction h with
    | op h =>
      have : ∀ p ∈ punct, (0 : Byte) ∉ p.1 := by decide +kernel
      exact this _ h
    | keyword h =>
      have : ∀ p ∈ keywords, (0 : Byte) ∉ p.1 := by decide +kernel
      exact this _ h
    | ident h1 h2 h3 =>
      intro q
      rcases List.mem_cons.1 q with q | q
      · exact h1.ne (d := 0) (by decide) q.symm
      · rcases h2 _ q with h | h
        · exact h.ne (d := 0) (by decide) rfl
        · exact h.ne (d := 0) (by decide) rfl
    | int h1 h2 => exact fun q => (h2 _ q).ne (d := 0) (by decide) rfl
    | hex h1 h2 =>
      intro q
      simp at q
      rcases q with q | q
      · rcases h1 with rfl | rfl <;> exact absurd q (by decide)
      · have := (hexDigit_iff _).2 (h2 _ q)
        exact absurd this (by decide)
    | frac h1 h2 h3 h4 =>
      intro q
      simp at q
      rcases q with q | q
      · exact (h2 _ q).ne (d := 0) (by decide) rfl
      · exact (h4 _ q).ne (d := 0) (by decide) rfl
    | neg h h0 ih => simpa using ih
    | doc h1 h2 h3 => exact h3
  unfold Tok.chars
  split
  · simpa using hn h
  · exact hn h

theorem written_noNul (toks : List Tok) (h : ∀ t ∈ toks, Spelt t.type t.text) : NoNul (written toks) := by
  induction toks with
  | nil => exact fun _ h => (List.not_mem_nil h).elim
  | cons t ts ih =>
    intro b hb
    rw [written] at hb
    rcases List.mem_append.1 hb with q | q
    · rintro rfl
      exact spelt_noNul (h t (by simp)) q
    · rcases List.mem_cons.1 q with rfl | q
      · unfold Tok.sep
        split <;> decide
      · exact ih (fun t ht => h t (by simp [ht])) b q

/-- A test for the spelling of unsigned numbers, and of tokens. -/
def numB (w : List Byte) : Bool :=
  (w ≠ [] ∧ w.all isDig) ∨
  (w.take 1 = [0x30] ∧ (w.drop 1).take 1 ∈ [[0x78], [0x58]] ∧ (w.drop 2).all isHex) ∨
  (w.span isDig).1 ≠ [] ∧ (w.span isDig).2.take 1 = [0x2E] ∧ (w.span isDig).2.drop 1 ≠ [] ∧ ((w.span isDig).2.drop 1).all isDig ∧
    w = (w.span isDig).1 ++ (w.span isDig).2 ∧ (w.span isDig).1.all isDig

def speltB (t : Tok) : Bool :=
  match t.type with
  | .identifier => nextB isAlpha t.text ∧ t.text.tail.all (fun c => isAlpha c || isDig c) ∧ t.text ∉ keywords.map (·.1)
  | .number => numB t.text ∨ (t.text.take 1 = [0x2D] ∧ numB t.text.tail ∧ 0x2D ∉ t.text.tail)
  | .doc => 0x0A ∉ t.text ∧ 0x0D ∉ t.text ∧ 0 ∉ t.text
  | ty => (t.text, ty) ∈ punct ∨ (t.text, ty) ∈ keywords

theorem take_one {w : List Byte} {a : Byte} (h : w.take 1 = [a]) : w = a :: w.drop 1 := by
  cases w with
  | nil => simp at h
  | cons x xs => simp at h; simp [h]

theorem numB_spelt {w : List Byte} (h : numB w = true) : Spelt .number w := by
  have hd : ∀ {l : List Byte}, l.all isDig = true → ∀ d ∈ l, Digit d := fun h d hm => (digit_iff d).1 (List.all_eq_true.1 h d hm)
  simp only [numB, decide_eq_true_eq] at h
  rcases h with ⟨h1, h2⟩ | ⟨h1, h2, h3⟩ | ⟨h1, h2, h3, h4, h5, h6⟩
  · exact .int h1 (hd h2)
  · rw [take_one h1]
    simp only [List.mem_cons, List.not_mem_nil, or_false] at h2
    have e : ∀ a, (w.drop 1).take 1 = [a] → w.drop 1 = a :: w.drop 2 := by
      intro a ha
      rw [take_one ha, List.drop_drop]
    have hh : ∀ d ∈ w.drop 2, HexDigit d := fun d hm => (hexDigit_iff d).1 (List.all_eq_true.1 h3 d hm)
    rcases h2 with h2 | h2
    · rw [e _ h2]
      exact .hex (.inl rfl) hh
    · rw [e _ h2]
      exact .hex (.inr rfl) hh
  · rw [h5, take_one h2]
    exact .frac h1 (hd h6) h3 (hd h4)

theorem speltB_spelt {t : Tok} (h : speltB t = true) : Spelt t.type t.text := by
  obtain ⟨ty, w, line⟩ := t
  dsimp only [speltB] at h
  dsimp only
  have hg : (w, ty) ∈ punct ∨ (w, ty) ∈ keywords → Spelt ty w := fun h => h.elim .op .keyword
  split at h
  · simp only [decide_eq_true_eq] at h
    obtain ⟨h1, h2, h3⟩ := h
    cases w with
    | nil => cases h1
    | cons c cs =>
      refine .ident ((letter_iff c).1 h1) (fun d hd => ?_) (fun ty hk => h3 (List.mem_map.2 ⟨_, hk, rfl⟩))
      have := List.all_eq_true.1 h2 d hd
      rw [Bool.or_eq_true] at this
      exact this.imp (letter_iff d).1 (digit_iff d).1
  · simp only [decide_eq_true_eq] at h
    rcases h with h | ⟨h1, h2, h3⟩
    · exact numB_spelt h
    · rw [take_one h1]
      rw [← List.drop_one] at h2 h3
      exact .neg (numB_spelt h2) h3
  · simp only [decide_eq_true_eq] at h
    exact .doc h.1 h.2.1 h.2.2
  · exact hg (by simpa using h)

/-- Two ways to cut `x>>=1`: the maximal pieces only. -/
example : Lexes [0x78, 0x3E, 0x3E, 0x3D, 0x31] 1 [⟨.identifier, [0x78], 1⟩, ⟨.rshift, [0x3E, 0x3E], 1⟩, ⟨.equals, [0x3D], 1⟩,
    ⟨.number, [0x31], 1⟩, ⟨.eof, [], 1⟩] := by
  refine (C49_iff _ ?_ 1 [] _).1 (by decide +kernel)
  unfold NoNul
  decide

end Cnd
