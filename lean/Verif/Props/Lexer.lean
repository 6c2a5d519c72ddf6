/-
  C49: the lexer.
-/
import Verif.Lexer

namespace Cnd

/-! ### Specification -/

/-- The next character, if there is one, satisfies `p`. -/
def NextIs (p : Byte → Prop) (s : List Byte) : Prop := ∃ c cs, s = c :: cs ∧ p c

/-- Newline characters in a text. -/
def newlines (s : List Byte) : Nat := s.countP (· = 0x0A)

/-- `t`, followed by `s`, is white space and comments. -/
inductive Trivia : List Byte → List Byte → Prop
  | nil (s) : Trivia [] s
  | ws {c t s} : c ∈ [0x20, 0x0D, 0x09, 0x0A] → Trivia t s → Trivia (c :: t) s
  /-- a line comment ends before the end of the line and does not start with three slashes -/
  | line {body t s} : 0x0A ∉ body → ¬ NextIs (· = 0x2F) (body ++ (t ++ s)) → (t ++ s = [] ∨ NextIs (· = 0x0A) (t ++ s)) →
      Trivia t s → Trivia (0x2F :: 0x2F :: (body ++ t)) s
  /-- a block comment ends with the first star-slash -/
  | block {body t s} : (∀ a b, body ++ [0x2A] ≠ a ++ 0x2A :: 0x2F :: b) → Trivia t s →
      Trivia (0x2F :: 0x2A :: (body ++ 0x2A :: 0x2F :: t)) s
  /-- an unfinished block comment reaches to the end of the source -/
  | openBlock {body} : (∀ a b, body ≠ a ++ 0x2A :: 0x2F :: b) → Trivia (0x2F :: 0x2A :: body) []

/-- Operators and punctuation. -/
def punct : List (List Byte × TT) :=
  [([0x7B], .lbrace), ([0x7D], .rbrace), ([0x5B], .lbracket), ([0x5D], .rbracket), ([0x28], .lparen), ([0x29], .rparen),
   ([0x3B], .semicolon), ([0x3A], .colon), ([0x2C], .comma), ([0x40], .at), ([0x3D], .equals), ([0x2E], .dot),
   ([0x21], .bang), ([0x26], .amp), ([0x7C], .pipe), ([0x5E], .caret), ([0x7E], .tilde), ([0x3D, 0x3D], .eqEq),
   ([0x21, 0x3D], .bangEq), ([0x3E], .gt), ([0x3C], .lt), ([0x3E, 0x3D], .gtEq), ([0x3C, 0x3D], .ltEq),
   ([0x26, 0x26], .ampAmp), ([0x7C, 0x7C], .pipePipe), ([0x3C, 0x3C], .lshift), ([0x3E, 0x3E], .rshift),
   ([0x2B], .plus), ([0x2D], .minus), ([0x2A], .star), ([0x2F], .slash), ([0x25], .percent)]

/-- Reserved words: struct packet enum switch case default if else true false self. -/
def keywords : List (List Byte × TT) :=
  [([0x73, 0x74, 0x72, 0x75, 0x63, 0x74], .kwStruct), ([0x70, 0x61, 0x63, 0x6B, 0x65, 0x74], .kwPacket),
   ([0x65, 0x6E, 0x75, 0x6D], .kwEnum), ([0x73, 0x77, 0x69, 0x74, 0x63, 0x68], .kwSwitch),
   ([0x63, 0x61, 0x73, 0x65], .kwCase), ([0x64, 0x65, 0x66, 0x61, 0x75, 0x6C, 0x74], .kwDefault),
   ([0x69, 0x66], .kwIf), ([0x65, 0x6C, 0x73, 0x65], .kwElse), ([0x74, 0x72, 0x75, 0x65], .kwTrue),
   ([0x66, 0x61, 0x6C, 0x73, 0x65], .kwFalse), ([0x73, 0x65, 0x6C, 0x66], .kwSelf)]

def Letter (c : Byte) : Prop := c ∈ (List.range 26).map (fun i => BitVec.ofNat 8 (0x61 + i)) ∨
  c ∈ (List.range 26).map (fun i => BitVec.ofNat 8 (0x41 + i)) ∨ c = 0x5F
def Digit (c : Byte) : Prop := c ∈ (List.range 10).map (fun i => BitVec.ofNat 8 (0x30 + i))
def HexDigit (c : Byte) : Prop := Digit c ∨ c ∈ (List.range 6).map (fun i => BitVec.ofNat 8 (0x61 + i)) ∨
  c ∈ (List.range 6).map (fun i => BitVec.ofNat 8 (0x41 + i))

/-- `n`, followed by `s`, is an unsigned number, as long as possible. -/
inductive NumLexeme : List Byte → List Byte → Prop
  | hex {x ds s} : x = 0x78 ∨ x = 0x58 → (∀ d ∈ ds, HexDigit d) → ¬ NextIs HexDigit s → NumLexeme (0x30 :: x :: ds) s
  | int {ds s} : ds ≠ [] → (∀ d ∈ ds, Digit d) → ¬ NextIs Digit s → (∀ s', s = 0x2E :: s' → ¬ NextIs Digit s') →
      ¬ (ds = [0x30] ∧ NextIs (fun c => c = 0x78 ∨ c = 0x58) s) → NumLexeme ds s
  | frac {ds fs s} : ds ≠ [] → (∀ d ∈ ds, Digit d) → fs ≠ [] → (∀ d ∈ fs, Digit d) → ¬ NextIs Digit s →
      NumLexeme (ds ++ 0x2E :: fs) s

/-- The source bytes `raw`, followed by `s`, are the token of type `ty` with text `text`. -/
inductive IsTok : List Byte → List Byte → TT → List Byte → Prop
  | op {raw s ty} : (raw, ty) ∈ punct → (∀ c s', s = c :: s' → ∀ ty', (raw ++ [c], ty') ∉ punct) →
      (raw = [0x2F] → ¬ NextIs (fun c => c = 0x2F ∨ c = 0x2A) s) → (raw = [0x2D] → ¬ NextIs Digit s) → IsTok raw s ty raw
  | word {c cs s ty} : Letter c → (∀ d ∈ cs, Letter d ∨ Digit d) → ¬ NextIs (fun d => Letter d ∨ Digit d) s →
      ((c :: cs, ty) ∈ keywords ∨ ty = .identifier ∧ ∀ ty', (c :: cs, ty') ∉ keywords) → IsTok (c :: cs) s ty (c :: cs)
  | num {n s} : NumLexeme n s → IsTok n s .number n
  | negNum {n s} : NumLexeme n s → IsTok (0x2D :: n) s .number (0x2D :: n)
  | str {text s} : 0x22 ∉ text → IsTok (0x22 :: (text ++ [0x22])) s .string text
  /-- an unfinished string reaches to the end of the source -/
  | openStr {text} : 0x22 ∉ text → IsTok (0x22 :: text) [] .string text
  | doc {text s} : 0x0A ∉ text → 0x0D ∉ text → (s = [] ∨ NextIs (fun c => c = 0x0A ∨ c = 0x0D) s) →
      IsTok (0x2F :: 0x2F :: 0x2F :: text) s .doc text
  | error {c s} : ¬ Letter c → ¬ Digit c → c ≠ 0x22 → (∀ ty, ([c], ty) ∉ punct) → c ∉ [0x20, 0x0D, 0x09, 0x0A] →
      IsTok [c] s .error [c]

/-- The source `s`, starting in line `line`, is the sequence `toks` of tokens with white space and comments
between them, ended by the end-of-file token. -/
inductive Lexes : List Byte → Nat → List Tok → Prop
  | eof {t line} : Trivia t [] → Lexes t line [⟨.eof, [], line + newlines t⟩]
  | tok {t raw s line ty text toks} : Trivia t (raw ++ s) → IsTok raw s ty text →
      Lexes s (line + newlines t) toks → Lexes (t ++ (raw ++ s)) line (⟨ty, text, line + newlines t⟩ :: toks)

/-! ### The character classes -/

theorem letter_iff (c : Byte) : isAlpha c = true ↔ Letter c := by
  have key : ∀ m : Fin 256, isAlpha (BitVec.ofFin m) = true ↔
    (BitVec.ofFin m ∈ (List.range 26).map (fun i => BitVec.ofNat 8 (0x61 + i)) ∨
      BitVec.ofFin m ∈ (List.range 26).map (fun i => BitVec.ofNat 8 (0x41 + i)) ∨ BitVec.ofFin m = 0x5F#8) := by
    decide +kernel
  exact key c.toFin

theorem digit_iff (c : Byte) : isDig c = true ↔ Digit c := by
  have key : ∀ m : Fin 256, isDig (BitVec.ofFin m) = true ↔
    BitVec.ofFin m ∈ (List.range 10).map (fun i => BitVec.ofNat 8 (0x30 + i)) := by decide +kernel
  exact key c.toFin

theorem hexDigit_iff (c : Byte) : isHex c = true ↔ HexDigit c := by
  have key : ∀ m : Fin 256, isHex (BitVec.ofFin m) = true ↔
    (BitVec.ofFin m ∈ (List.range 10).map (fun i => BitVec.ofNat 8 (0x30 + i)) ∨
     BitVec.ofFin m ∈ (List.range 6).map (fun i => BitVec.ofNat 8 (0x61 + i)) ∨
     BitVec.ofFin m ∈ (List.range 6).map (fun i => BitVec.ofNat 8 (0x41 + i))) := by decide +kernel
  exact key c.toFin

/-- The facts about one or two characters that the operator tokens need, checked for all of them. -/
theorem single_punct (c : Byte) (t : TT) (h : single c = some t) :
    ([c], t) ∈ punct ∧ c ≠ 0x2D ∧ ∀ d ty, ([c] ++ [d], ty) ∉ punct := by
  have key : ∀ m : Fin 256, ∀ t ∈ (single (BitVec.ofFin m)).toList,
      ([BitVec.ofFin m], t) ∈ punct ∧ BitVec.ofFin m ≠ 0x2D#8 ∧
      ∀ e ∈ punct, e.1.take 1 = [BitVec.ofFin m] → e.1.length = 1 := by decide +kernel
  obtain ⟨h1, h2, h3⟩ := key c.toFin t (by show t ∈ (single c).toList; rw [h]; simp)
  refine ⟨h1, h2, fun d ty hm => ?_⟩
  have := h3 _ hm rfl
  simp at this

theorem double_punct (c : Byte) (t1 : TT) (l : List (Byte × TT)) (h : double c = some (t1, l)) :
    ([c], t1) ∈ punct ∧ c ≠ 0x2D ∧ c ≠ 0x2F ∧
    (∀ d t2, l.lookup d = some t2 → ([c, d], t2) ∈ punct) ∧
    (∀ d, l.lookup d = none → ∀ ty, ([c, d], ty) ∉ punct) := by
  have key : ∀ m : Fin 256, ∀ p ∈ (double (BitVec.ofFin m)).toList,
      ([BitVec.ofFin m], p.1) ∈ punct ∧ BitVec.ofFin m ≠ 0x2D#8 ∧ BitVec.ofFin m ≠ 0x2F#8 ∧
      (∀ e ∈ p.2, ([BitVec.ofFin m, e.1], e.2) ∈ punct) ∧
      (∀ e ∈ punct, e.1.take 1 = [BitVec.ofFin m] → e.1.length = 1 ∨ ∃ f ∈ p.2, e.1 = [BitVec.ofFin m, f.1]) := by
    decide +kernel
  obtain ⟨h1, h2, h3, h4, h5⟩ := key c.toFin (t1, l) (by show (t1, l) ∈ (double c).toList; rw [h]; simp)
  refine ⟨h1, h2, h3, fun d t2 hl => ?_, fun d hl ty hm => ?_⟩
  · have : (d, t2) ∈ l := by
      have hmem := List.lookup_eq_some_iff.1 hl
      obtain ⟨l1, l2, e, -⟩ := hmem
      rw [e]; simp
    exact h4 _ this
  · rcases h5 _ hm rfl with e | ⟨f, hf, e⟩
    · simp at e
    · simp only [List.cons.injEq, and_true] at e
      have := List.lookup_eq_none_iff.1 hl f hf
      simp [e.2] at this

theorem punct_len (raw : List Byte) (ty : TT) (h : (raw, ty) ∈ punct) : raw.length ≤ 2 := by
  have key : ∀ e ∈ punct, e.1.length ≤ 2 := by decide +kernel
  exact key _ h

theorem minus_punct : ([0x2D], TT.minus) ∈ punct ∧ ∀ d ty, ([0x2D] ++ [d], ty) ∉ punct := by
  refine ⟨by decide, fun d ty hm => ?_⟩
  have key : ∀ e ∈ punct, e.1.take 1 = [0x2D#8] → e.1.length = 1 := by decide +kernel
  have := key _ hm rfl
  simp at this

theorem error_char (c : Byte) (h1 : single c = none) (h2 : double c = none) (h3 : c ≠ 0x2D) :
    ∀ ty, ([c], ty) ∉ punct := by
  intro ty hm
  have key : ∀ m : Fin 256, single (BitVec.ofFin m) = none → double (BitVec.ofFin m) = none →
      BitVec.ofFin m ≠ 0x2D#8 → ∀ e ∈ punct, e.1 ≠ [BitVec.ofFin m] := by decide +kernel
  exact key c.toFin h1 h2 h3 _ hm rfl

theorem checkKeyword_spec (w : List Byte) :
    (w, checkKeyword w) ∈ keywords ∨ checkKeyword w = .identifier ∧ ∀ ty, (w, ty) ∉ keywords := by
  unfold checkKeyword
  repeat' split
  all_goals first
    | (left; subst_vars; decide)
    | (right
       refine ⟨rfl, fun ty hm => ?_⟩
       simp only [keywords, List.mem_cons, Prod.mk.injEq, List.not_mem_nil, or_false] at hm
       simp_all)

/-! ### The loops -/

/-- No NUL in the text. -/
def NoNul (s : List Byte) : Prop := ∀ b ∈ s, b ≠ 0

theorem NoNul.tail {c : Byte} {s : List Byte} (h : NoNul (c :: s)) : NoNul s := fun b hb => h b (List.mem_cons_of_mem _ hb)

theorem NoNul.right {a b : List Byte} (h : NoNul (a ++ b)) : NoNul b := fun x hx => h x (List.mem_append_right _ hx)

theorem between_append (a r : List Byte) : between (a ++ r) r = a := by
  unfold between
  simp

/-- A loop over characters that stops at NUL splits the text. -/
theorem skipWhile_split (p : Byte → Bool) (hp : p 0 = false) (post : List Byte) (s : List Byte) :
    ∃ a s', s = a ++ s' ∧ (∀ c ∈ a, p c = true) ∧ ¬ NextIs (fun c => p c = true) s' ∧
      skipWhile p (s ++ 0 :: post) = some (s' ++ 0 :: post) := by
  induction s with
  | nil =>
    refine ⟨[], [], rfl, by simp, ?_, ?_⟩
    · rintro ⟨c, cs, h, -⟩; cases h
    · show (if p 0 then _ else _) = _
      rw [if_neg (by rw [hp]; simp)]
      rfl
  | cons c cs ih =>
    by_cases h : p c = true
    · obtain ⟨a, s', rfl, h1, h2, h3⟩ := ih
      refine ⟨c :: a, s', rfl, ?_, h2, ?_⟩
      · intro d hd
        rcases List.mem_cons.1 hd with rfl | hd
        · exact h
        · exact h1 d hd
      · show (if p c then skipWhile p (a ++ s' ++ 0 :: post) else _) = _
        rw [if_pos h, h3]
    · refine ⟨[], c :: cs, rfl, by simp, ?_, ?_⟩
      · rintro ⟨d, ds, e, hd⟩
        injection e with e1 e2
        subst e1; exact h hd
      · show (if p c then _ else some (c :: (cs ++ 0 :: post))) = _
        rw [if_neg h]; rfl

/-- The loop inside a block comment. -/
theorem blockSkip_split (post : List Byte) (s : List Byte) (line : Nat) (hs : NoNul s) :
    (∃ body s', s = body ++ 0x2A :: 0x2F :: s' ∧ (∀ a b, body ++ [0x2A] ≠ a ++ 0x2A :: 0x2F :: b) ∧
      blockSkip (s ++ 0 :: post) line = some (s' ++ 0 :: post, line + newlines body)) ∨
    ((∀ a b, s ≠ a ++ 0x2A :: 0x2F :: b) ∧
      blockSkip (s ++ 0 :: post) line = some (0 :: post, line + newlines s)) := by
  induction s generalizing line with
  | nil =>
    right
    refine ⟨fun a b h => by simp at h, ?_⟩
    show blockSkip (0 :: post) line = _
    unfold blockSkip
    rw [if_pos rfl]
    rfl
  | cons c cs ih =>
    have hc : c ≠ 0 := hs c (by simp)
    have hnl : ∀ l : List Byte, newlines (c :: l) = (if c = 0x0A then 1 else 0) + newlines l := by
      intro l
      unfold newlines
      rw [List.countP_cons]
      by_cases h : c = 0x0A <;> simp [h, Nat.add_comm]
    have hline : (if c = 0x0A then line + 1 else line) = line + (if c = 0x0A then 1 else 0) := by
      split <;> rfl
    by_cases hstar : c = 0x2A
    · cases cs with
      | nil =>
        right
        refine ⟨fun a b h => ?_, ?_⟩
        · have := congrArg List.length h
          simp at this
          omega
        · show blockSkip (c :: 0 :: post) line = _
          unfold blockSkip
          rw [if_neg hc]
          dsimp only
          rw [if_pos hstar]
          rw [if_neg (by decide)]
          unfold blockSkip
          rw [if_pos rfl, hline, hnl]
          rfl
      | cons d ds =>
        by_cases hd : d = 0x2F
        · left
          refine ⟨[], ds, by rw [hstar, hd]; rfl, ?_, ?_⟩
          · intro a b h
            have := congrArg List.length h
            simp at this
            omega
          · show blockSkip (c :: d :: (ds ++ 0 :: post)) line = _
            conv => lhs; unfold blockSkip
            rw [if_neg hc]
            dsimp only
            rw [if_pos hstar, if_pos hd, if_neg (by rw [hstar]; decide)]
            rfl
        · have hstep : blockSkip (c :: d :: (ds ++ 0 :: post)) line = blockSkip (d :: (ds ++ 0 :: post)) line := by
            conv => lhs; unfold blockSkip
            rw [if_neg hc]
            dsimp only
            rw [if_pos hstar, if_neg hd, if_neg (by rw [hstar]; decide)]
          have hnl0 : ∀ l, newlines (c :: l) = newlines l := by
            intro l; rw [hnl, if_neg (by rw [hstar]; decide), Nat.zero_add]
          rcases ih line hs.tail with ⟨body, s', e, h1, h2⟩ | ⟨h1, h2⟩
          · left
            refine ⟨c :: body, s', by rw [e]; rfl, ?_, ?_⟩
            · intro a b h
              cases a with
              | nil =>
                simp only [List.nil_append, List.cons_append] at h
                injection h with _ h
                cases body with
                | nil => simp at h
                | cons x xs =>
                  injection h with h _
                  simp only [List.cons_append] at e
                  injection e with e _
                  exact hd (e.trans h)
              | cons x xs =>
                injection h with _ h
                exact h1 xs b h
            · rw [hnl0]
              exact hstep.trans h2
          · right
            refine ⟨?_, ?_⟩
            · intro a b h
              cases a with
              | nil =>
                simp only [List.nil_append] at h
                injection h with _ h
                injection h with h _
                exact hd h
              | cons x xs =>
                injection h with _ h
                exact h1 xs b h
            · rw [hnl0]
              exact hstep.trans h2
    · have hstep : blockSkip (c :: (cs ++ 0 :: post)) line =
          blockSkip (cs ++ 0 :: post) (line + (if c = 0x0A then 1 else 0)) := by
        conv => lhs; unfold blockSkip
        rw [if_neg hc]
        dsimp only
        rw [if_neg hstar, hline]
      rcases ih (line + (if c = 0x0A then 1 else 0)) hs.tail with ⟨body, s', e, h1, h2⟩ | ⟨h1, h2⟩
      · left
        refine ⟨c :: body, s', by rw [e]; rfl, ?_, ?_⟩
        · intro a b h
          cases a with
          | nil =>
            simp only [List.nil_append, List.cons_append] at h
            injection h with h _
            exact hstar h
          | cons x xs =>
            injection h with _ h
            exact h1 xs b h
        · rw [hnl, ← Nat.add_assoc]
          exact hstep.trans h2
      · right
        refine ⟨?_, ?_⟩
        · intro a b h
          cases a with
          | nil =>
            simp only [List.nil_append] at h
            injection h with h _
            exact hstar h
          | cons x xs =>
            injection h with _ h
            exact h1 xs b h
        · rw [hnl, ← Nat.add_assoc]
          exact hstep.trans h2

/-- The decimal part of a number. -/
theorem lexDecimal_split (post : List Byte) (s : List Byte) :
    ∃ a s', s = a ++ s' ∧ lexDecimal (s ++ 0 :: post) = some (s' ++ 0 :: post) ∧ ¬ NextIs Digit s' ∧
      (((∀ d ∈ a, Digit d) ∧ (∀ s'', s' = 0x2E :: s'' → ¬ NextIs Digit s'')) ∨
       (∃ ds fs, a = ds ++ 0x2E :: fs ∧ (∀ d ∈ ds, Digit d) ∧ fs ≠ [] ∧ ∀ d ∈ fs, Digit d)) := by
  obtain ⟨a, s', rfl, h1, h2, h3⟩ := skipWhile_split isDig (by decide) post s
  unfold lexDecimal
  rw [h3]
  simp only [digit_iff] at h1 h2
  cases s' with
  | nil =>
    refine ⟨a, [], rfl, ?_, h2, .inl ⟨h1, fun s'' h => by cases h⟩⟩
    dsimp only [List.nil_append]
    rw [if_neg (by decide)]
  | cons d ds =>
    dsimp only [List.cons_append]
    by_cases hd : d = 0x2E
    · rw [if_pos hd]
      cases ds with
      | nil =>
        refine ⟨a, [d], rfl, ?_, h2, .inl ⟨h1, fun s'' h => ?_⟩⟩
        · dsimp only [List.nil_append]
          rw [if_neg (by decide)]; rfl
        · injection h with _ h
          subst h
          rintro ⟨c, cs, h, -⟩; cases h
      | cons e es =>
        dsimp only [List.cons_append]
        by_cases he : isDig e = true
        · rw [if_pos he]
          obtain ⟨b, s'', e1, g1, g2, g3⟩ := skipWhile_split isDig (by decide) post (e :: es)
          simp only [digit_iff] at g1 g2
          refine ⟨a ++ 0x2E :: b, s'', ?_, g3, g2, .inr ⟨a, b, rfl, h1, ?_, g1⟩⟩
          · rw [hd, e1]; simp
          · rintro rfl
            simp only [List.nil_append] at e1
            exact g2 ⟨e, es, e1.symm, (digit_iff e).1 he⟩
        · rw [if_neg he]
          refine ⟨a, d :: e :: es, rfl, rfl, h2, .inl ⟨h1, fun s'' h => ?_⟩⟩
          injection h with _ h
          subst h
          rintro ⟨c, cs, h, hc⟩
          injection h with h _
          subst h
          exact he ((digit_iff e).2 hc)
    · rw [if_neg hd]
      refine ⟨a, d :: ds, rfl, rfl, h2, .inl ⟨h1, fun s'' h => ?_⟩⟩
      injection h with h _
      exact absurd h hd

theorem not_x_of_digit {d : Byte} (h : Digit d) : ¬ (d = 0x78 ∨ d = 0x58) := by
  rintro (rfl | rfl) <;> exact absurd ((digit_iff _).2 h) (by decide)

/-- Unsigned numbers. -/
theorem lexNumber_pos (post : List Byte) (c : Byte) (s : List Byte) (line : Nat) (hc : Digit c) :
    ∃ n s', c :: s = n ++ s' ∧ NumLexeme n s' ∧
      lexNumber c (s ++ 0 :: post) line = .tok ⟨.number, n, line⟩ (s' ++ 0 :: post) line := by
  have hm : c ≠ 0x2D := by rintro rfl; exact absurd ((digit_iff _).2 hc) (by decide)
  by_cases hx : c = 0x30 ∧ NextIs (fun c => c = 0x78 ∨ c = 0x58) s
  · obtain ⟨h0, x, ds, rfl, hx⟩ := hx
    obtain ⟨a, s', rfl, h1, h2, h3⟩ := skipWhile_split isHex (by decide) post ds
    simp only [hexDigit_iff] at h1 h2
    refine ⟨0x30 :: x :: a, s', by rw [h0]; rfl, .hex hx h1 h2, ?_⟩
    unfold lexNumber
    have : hexPrefix c (x :: (a ++ s') ++ 0 :: post) = some (some (a ++ s' ++ 0 :: post)) := by
      unfold hexPrefix
      rw [if_pos h0]
      show (if x = 0x78 ∨ x = 0x58 then _ else _) = _
      rw [if_pos hx]
      rfl
    rw [this]
    dsimp only
    rw [h3]
    dsimp only
    rw [show c :: (x :: (a ++ s') ++ 0 :: post) = (0x30 :: x :: a) ++ (s' ++ 0 :: post) by rw [h0]; simp, between_append]
  · obtain ⟨a, s', rfl, h1, h2, h3⟩ := lexDecimal_split post s
    refine ⟨c :: a, s', rfl, ?_, ?_⟩
    · rcases h3 with ⟨h3, h4⟩ | ⟨ds, fs, rfl, h4, h5, h6⟩
      · refine .int (by simp) ?_ h2 h4 ?_
        · intro d hd
          rcases List.mem_cons.1 hd with rfl | hd
          · exact hc
          · exact h3 d hd
        · rintro ⟨e, h⟩
          injection e with e1 e2
          subst e2
          exact hx ⟨e1, by simpa using h⟩
      · refine .frac (ds := c :: ds) (by simp) ?_ h5 h6 h2
        intro d hd
        rcases List.mem_cons.1 hd with rfl | hd
        · exact hc
        · exact h4 d hd
    · unfold lexNumber
      have : hexPrefix c (a ++ s' ++ 0 :: post) = some none := by
        unfold hexPrefix
        by_cases h0 : c = 0x30
        · rw [if_pos h0]
          cases hs : a ++ s' with
          | nil => rfl
          | cons x xs =>
            show (if x = 0x78 ∨ x = 0x58 then _ else _) = _
            refine if_neg fun h => hx ⟨h0, ?_⟩
            rw [hs]
            exact ⟨x, xs, rfl, h⟩
        · rw [if_neg h0, if_neg hm]
      rw [this]
      dsimp only
      rw [h1]
      dsimp only
      rw [show c :: (a ++ s' ++ 0 :: post) = (c :: a) ++ (s' ++ 0 :: post) by simp, between_append]

/-- Negative numbers. -/
theorem lexNumber_neg (post : List Byte) (d : Byte) (s : List Byte) (line : Nat) (hc : Digit d) :
    ∃ n s', d :: s = n ++ s' ∧ NumLexeme n s' ∧
      lexNumber 0x2D (d :: s ++ 0 :: post) line = .tok ⟨.number, 0x2D :: n, line⟩ (s' ++ 0 :: post) line := by
  by_cases hx : d = 0x30 ∧ NextIs (fun c => c = 0x78 ∨ c = 0x58) s
  · obtain ⟨h0, x, ds, rfl, hx⟩ := hx
    obtain ⟨a, s', rfl, h1, h2, h3⟩ := skipWhile_split isHex (by decide) post ds
    simp only [hexDigit_iff] at h1 h2
    refine ⟨0x30 :: x :: a, s', by rw [h0]; rfl, .hex hx h1 h2, ?_⟩
    unfold lexNumber
    have : hexPrefix 0x2D (d :: x :: (a ++ s') ++ 0 :: post) = some (some (a ++ s' ++ 0 :: post)) := by
      unfold hexPrefix
      rw [if_neg (by decide), if_pos rfl]
      show (if d = 0x30 then (if x = 0x78 ∨ x = 0x58 then _ else _) else _) = _
      rw [if_pos h0, if_pos hx]
      rfl
    rw [this]
    dsimp only
    rw [h3]
    dsimp only
    rw [show (0x2D : Byte) :: (d :: x :: (a ++ s') ++ 0 :: post) = (0x2D :: 0x30 :: x :: a) ++ (s' ++ 0 :: post) by
      rw [h0]; simp, between_append]
  · obtain ⟨a, s', e, h1, h2, h3⟩ := lexDecimal_split post (d :: s)
    have ha : ∃ as, a = d :: as := by
      cases a with
      | nil => exact absurd ⟨d, s, e.symm, hc⟩ h2
      | cons x xs => injection e with e1 e2; exact ⟨xs, by rw [e1]⟩
    obtain ⟨as, rfl⟩ := ha
    refine ⟨d :: as, s', e, ?_, ?_⟩
    · rcases h3 with ⟨h3, h4⟩ | ⟨ds, fs, e2, h4, h5, h6⟩
      · refine .int (by simp) h3 h2 h4 ?_
        rintro ⟨e3, h⟩
        injection e3 with e1 e2
        subst e2
        simp only [List.cons_append, List.nil_append] at e
        injection e with _ e
        exact hx ⟨e1, by rw [e]; exact h⟩
      · rw [e2]
        refine .frac ?_ h4 h5 h6 h2
        rintro rfl
        simp only [List.nil_append] at e2
        injection e2 with e2 _
        subst e2
        exact absurd ((digit_iff _).2 hc) (by decide)
    · unfold lexNumber
      have : hexPrefix 0x2D (d :: s ++ 0 :: post) = some none := by
        unfold hexPrefix
        rw [if_neg (by decide), if_pos rfl]
        show (if d = 0x30 then _ else _) = _
        by_cases h0 : d = 0x30
        · rw [if_pos h0]
          cases s with
          | nil => rfl
          | cons x xs =>
            show (if x = 0x78 ∨ x = 0x58 then _ else _) = _
            exact if_neg fun h => hx ⟨h0, x, xs, rfl, h⟩
        · rw [if_neg h0]
      rw [this]
      dsimp only
      rw [h1]
      dsimp only
      rw [e, show (0x2D : Byte) :: (d :: as ++ s' ++ 0 :: post) = (0x2D :: d :: as) ++ (s' ++ 0 :: post) by simp,
        between_append]

theorem NumLexeme.ne_nil {n s : List Byte} (h : NumLexeme n s) : n ≠ [] := by
  cases h with
  | hex => simp
  | int h => exact h
  | frac => simp

theorem checkKeyword_ne_eof (w : List Byte) : checkKeyword w ≠ .eof := by
  unfold checkKeyword
  repeat' split
  all_goals exact TT.noConfusion

/-! ### One token -/

theorem lexToken_spec (post : List Byte) (c : Byte) (s : List Byte) (line : Nat) (hc0 : c ≠ 0) (hs : NoNul s)
    (hcom : c = 0x2F → ¬ NextIs (fun d => d = 0x2F ∨ d = 0x2A) s) (hws : c ∉ [0x20, 0x0D, 0x09, 0x0A]) :
    ∃ raw s' ty text, c :: s = raw ++ s' ∧ IsTok raw s' ty text ∧ raw ≠ [] ∧ ty ≠ .eof ∧
      lexToken c (s ++ 0 :: post) line = .tok ⟨ty, text, line⟩ (s' ++ 0 :: post) line := by
  unfold lexToken
  cases h1 : single c with
  | some t =>
    obtain ⟨g1, g2, g3⟩ := single_punct c t h1
    refine ⟨[c], s, t, [c], rfl, .op g1 (fun d _ _ ty => g3 d ty) (fun e => ?_) (fun e => ?_), by simp, ?_, rfl⟩
    · injection e with e _; exact hcom e
    · injection e with e _; exact absurd e g2
    · rintro rfl
      exact absurd g1 (by simp [punct])
  | none =>
    dsimp only
    cases h2 : double c with
    | some p =>
      obtain ⟨t1, l⟩ := p
      obtain ⟨g1, g2, g3, g4, g5⟩ := double_punct c t1 l h2
      dsimp only
      have hne : ∀ raw ty, (raw, ty) ∈ punct → ty ≠ .eof := by
        rintro raw ty h rfl
        simp [punct] at h
      cases s with
      | nil =>
        dsimp only [List.nil_append]
        have : l.lookup 0 = none := by
          cases hl : l.lookup 0 with
          | none => rfl
          | some t2 =>
            have := g4 0 t2 hl
            simp [punct] at this
        rw [this]
        exact ⟨[c], [], t1, [c], rfl, .op g1 (fun d _ h => by cases h) (fun e => by injection e with e _; exact absurd e g3)
          (fun e => by injection e with e _; exact absurd e g2), by simp, hne _ _ g1, rfl⟩
      | cons d ds =>
        dsimp only [List.cons_append]
        cases hl : l.lookup d with
        | some t2 =>
          refine ⟨[c, d], ds, t2, [c, d], rfl, .op (g4 d t2 hl) (fun e _ _ ty hm => ?_) (fun e => by simp at e)
            (fun e => by simp at e), by simp, hne _ _ (g4 d t2 hl), rfl⟩
          have := punct_len _ _ hm
          simp at this
        | none =>
          refine ⟨[c], d :: ds, t1, [c], rfl, .op g1 (fun e es h ty => ?_) (fun e => by injection e with e _; exact absurd e g3)
            (fun e => by injection e with e _; exact absurd e g2), by simp, hne _ _ g1, rfl⟩
          injection h with h _
          subst h
          exact g5 d hl ty
    | none =>
      dsimp only
      by_cases hq : c = 0x22
      · rw [if_pos hq]
        unfold lexString
        obtain ⟨a, s', rfl, k1, k2, k3⟩ := skipWhile_split (fun c => c != 0x22 && c != 0) (by decide) post s
        rw [k3]
        have ka : (0x22 : Byte) ∉ a := fun h => by have := k1 _ h; simp at this
        cases s' with
        | nil =>
          refine ⟨0x22 :: a, [], .string, a, by rw [hq]; simp, .openStr ka, by simp, by simp, ?_⟩
          dsimp only [List.nil_append]
          rw [if_neg (by decide), List.append_nil, between_append]
        | cons d ds =>
          have hd : d = 0x22 := by
            have h0 := hs d (by simp)
            by_cases h : d = 0x22
            · exact h
            · exact absurd ⟨d, ds, rfl, by simp; exact ⟨h, h0⟩⟩ k2
          refine ⟨0x22 :: (a ++ [0x22]), ds, .string, a, by rw [hq, hd]; simp, .str ka, by simp, by simp, ?_⟩
          dsimp only [List.cons_append]
          rw [if_pos hd, ← List.cons_append, List.append_assoc, between_append]
      · rw [if_neg hq]
        by_cases hm : c = 0x2D
        · rw [if_pos hm]
          subst hm
          cases s with
          | nil =>
            dsimp only [List.nil_append]
            rw [if_neg (by decide)]
            refine ⟨[0x2D], [], .minus, [0x2D], rfl, .op minus_punct.1 (fun d _ h => by cases h) (fun e => by simp at e)
              (fun _ => ?_), by simp, by simp, rfl⟩
            rintro ⟨_, _, h, _⟩; cases h
          | cons d ds =>
            dsimp only [List.cons_append]
            by_cases hd : isDig d = true
            · rw [if_pos hd]
              obtain ⟨n, s', e, hn, hl⟩ := lexNumber_neg post d ds line ((digit_iff d).1 hd)
              exact ⟨0x2D :: n, s', .number, 0x2D :: n, by rw [e]; rfl, .negNum hn, by simp, by simp, hl⟩
            · rw [if_neg hd]
              refine ⟨[0x2D], d :: ds, .minus, [0x2D], rfl, .op minus_punct.1 (fun e _ _ ty => minus_punct.2 e ty)
                (fun e => by simp at e) (fun _ => ?_), by simp, by simp, rfl⟩
              rintro ⟨x, xs, h, hx⟩
              injection h with h _
              subst h
              exact hd ((digit_iff d).2 hx)
        · rw [if_neg hm]
          by_cases ha : isAlpha c = true
          · rw [if_pos ha]
            unfold lexWord
            obtain ⟨a, s', rfl, k1, k2, k3⟩ := skipWhile_split (fun c => isAlpha c || isDig c) (by decide) post s
            rw [k3]
            simp only [Bool.or_eq_true, letter_iff, digit_iff] at k1 k2
            dsimp only
            rw [show c :: (a ++ s' ++ 0 :: post) = (c :: a) ++ (s' ++ 0 :: post) by simp, between_append]
            refine ⟨c :: a, s', _, c :: a, rfl, .word ((letter_iff c).1 ha) k1 k2 (checkKeyword_spec _), by simp,
              checkKeyword_ne_eof _, rfl⟩
          · rw [if_neg ha]
            by_cases hd : isDig c = true
            · rw [if_pos hd]
              obtain ⟨n, s', e, hn, hl⟩ := lexNumber_pos post c s line ((digit_iff c).1 hd)
              exact ⟨n, s', .number, n, e, .num hn, hn.ne_nil, by simp, hl⟩
            · rw [if_neg hd]
              exact ⟨[c], s, .error, [c], rfl, .error (fun h => ha ((letter_iff c).2 h)) (fun h => hd ((digit_iff c).2 h)) hq
                (error_char c h1 h2 hm) hws, by simp, by simp, rfl⟩

/-! ### One call of lexer_next -/

theorem newlines_cons (c : Byte) (l : List Byte) : newlines (c :: l) = (if c = 0x0A then 1 else 0) + newlines l := by
  unfold newlines
  rw [List.countP_cons]
  by_cases h : c = 0x0A <;> simp [h, Nat.add_comm]

theorem newlines_append (a b : List Byte) : newlines (a ++ b) = newlines a + newlines b := List.countP_append

theorem newlines_none {a : List Byte} (h : (0x0A : Byte) ∉ a) : newlines a = 0 := by
  unfold newlines
  rw [List.countP_eq_zero]
  intro c hc
  simp only [decide_eq_true_eq]
  rintro rfl
  exact h hc

/-- What one call does: either only white space and comments are left, or they are followed by a token. -/
theorem lexLoop_spec (post : List Byte) (fuel : Nat) (s : List Byte) (line : Nat) (hs : NoNul s)
    (hf : s.length < fuel) :
    (Trivia s [] ∧ lexLoop fuel (s ++ 0 :: post) line =
      .tok ⟨.eof, [], line + newlines s⟩ (0 :: post) (line + newlines s)) ∨
    (∃ t raw s' ty text, s = t ++ (raw ++ s') ∧ Trivia t (raw ++ s') ∧ IsTok raw s' ty text ∧ raw ≠ [] ∧ ty ≠ .eof ∧
      lexLoop fuel (s ++ 0 :: post) line =
        .tok ⟨ty, text, line + newlines t⟩ (s' ++ 0 :: post) (line + newlines t)) := by
  induction fuel generalizing s line with
  | zero => omega
  | succ f ih =>
    cases s with
    | nil =>
      left
      refine ⟨.nil _, ?_⟩
      show (if (0 : Byte) = 0 then _ else _) = _
      rw [if_pos rfl]
      rfl
    | cons c cs =>
      have hc : c ≠ 0 := hs c (by simp)
      have hcs := hs.tail
      have hlen : cs.length < f := by simp only [List.length_cons] at hf; omega
      show (_ ∧ lexLoop (f + 1) (c :: (cs ++ 0 :: post)) line = _) ∨
        (∃ t raw s' ty text, _ ∧ _ ∧ _ ∧ _ ∧ _ ∧ lexLoop (f + 1) (c :: (cs ++ 0 :: post)) line = _)
      unfold lexLoop
      rw [if_neg hc]
      by_cases hw : c = 0x20 ∨ c = 0x0D ∨ c = 0x09
      · rw [if_pos hw]
        have hmem : c ∈ ([0x20, 0x0D, 0x09, 0x0A] : List Byte) := by
          rcases hw with rfl | rfl | rfl <;> decide
        have hn : ∀ l, newlines (c :: l) = newlines l := by
          intro l
          rw [newlines_cons, if_neg (by rcases hw with rfl | rfl | rfl <;> decide), Nat.zero_add]
        rcases ih cs line hcs hlen with ⟨h1, h2⟩ | ⟨t, raw, s', ty, text, e, h1, h2, h3, h4, h5⟩
        · left
          exact ⟨.ws hmem h1, by rw [h2, hn]⟩
        · right
          exact ⟨c :: t, raw, s', ty, text, by rw [e]; rfl, .ws hmem h1, h2, h3, h4, by rw [h5, hn]⟩
      · rw [if_neg hw]
        by_cases hnl : c = 0x0A
        · rw [if_pos hnl]
          have hmem : c ∈ ([0x20, 0x0D, 0x09, 0x0A] : List Byte) := by subst hnl; decide
          have hn : ∀ l, line + newlines (c :: l) = line + 1 + newlines l := by
            intro l
            rw [newlines_cons, if_pos hnl, Nat.add_assoc]
          rcases ih cs (line + 1) hcs hlen with ⟨h1, h2⟩ | ⟨t, raw, s', ty, text, e, h1, h2, h3, h4, h5⟩
          · left
            exact ⟨.ws hmem h1, by rw [h2, hn]⟩
          · right
            exact ⟨c :: t, raw, s', ty, text, by rw [e]; rfl, .ws hmem h1, h2, h3, h4, by rw [h5, hn]⟩
        · rw [if_neg hnl]
          have hws : c ∉ ([0x20, 0x0D, 0x09, 0x0A] : List Byte) := by
            simp only [List.mem_cons, List.not_mem_nil, or_false]
            rintro (h | h | h | h)
            · exact hw (.inl h)
            · exact hw (.inr (.inl h))
            · exact hw (.inr (.inr h))
            · exact hnl h
          have htoken : (c = 0x2F → ¬ NextIs (fun d => d = 0x2F ∨ d = 0x2A) cs) →
              ∃ t raw s' ty text, c :: cs = t ++ (raw ++ s') ∧ Trivia t (raw ++ s') ∧ IsTok raw s' ty text ∧ raw ≠ [] ∧
                ty ≠ .eof ∧ lexToken c (cs ++ 0 :: post) line =
                  .tok ⟨ty, text, line + newlines t⟩ (s' ++ 0 :: post) (line + newlines t) := by
            intro hcom
            obtain ⟨raw, s', ty, text, e, h1, h2, h3, h4⟩ := lexToken_spec post c cs line hc hcs hcom hws
            exact ⟨[], raw, s', ty, text, e, .nil _, h1, h2, h3, h4⟩
          by_cases hsl : c = 0x2F
          · subst hsl
            cases cs with
            | nil =>
              right
              have : startOf 0x2F ([] ++ 0 :: post) = .token := by
                simp [startOf]
              rw [this]
              exact htoken fun _ h => by obtain ⟨_, _, h, _⟩ := h; cases h
            | cons d ds =>
              by_cases hd : d = 0x2F
              · subst hd
                -- doc or line comment
                by_cases h3 : NextIs (· = 0x2F) ds
                · obtain ⟨e, es, rfl, he⟩ := h3
                  subst he
                  have : startOf 0x2F (0x2F :: 0x2F :: es ++ 0 :: post) = .doc (es ++ 0 :: post) := by
                    simp [startOf]
                  rw [this]
                  dsimp only
                  obtain ⟨a, s', rfl, k1, k2, k3⟩ :=
                    skipWhile_split (fun c => c != 0 && c != 0x0A && c != 0x0D) (by decide) post es
                  right
                  refine ⟨[], 0x2F :: 0x2F :: 0x2F :: a, s', .doc, a, rfl, .nil _, .doc ?_ ?_ ?_, by simp, by simp, ?_⟩
                  · intro h; have := k1 _ h; simp at this
                  · intro h; have := k1 _ h; simp at this
                  · cases s' with
                    | nil => exact .inl rfl
                    | cons x xs =>
                      right
                      refine ⟨x, xs, rfl, ?_⟩
                      have hx0 : x ≠ 0 := hs x (by simp)
                      have : ¬ ((x != 0 && x != 0x0A && x != 0x0D) = true) := fun h => k2 ⟨x, xs, rfl, h⟩
                      by_cases e1 : x = 0x0A
                      · exact .inl e1
                      · by_cases e2 : x = 0x0D
                        · exact .inr e2
                        · refine absurd ?_ this
                          simp only [Bool.and_eq_true, bne_iff_ne]
                          exact ⟨⟨hx0, e1⟩, e2⟩
                  · rw [k3]
                    dsimp only
                    rw [List.append_assoc, between_append]
                    rfl
                · have hlc : startOf 0x2F (0x2F :: ds ++ 0 :: post) = .lineComment (ds ++ 0 :: post) := by
                    cases ds with
                    | nil => simp [startOf]
                    | cons e es =>
                      have he : e ≠ 0x2F := fun h => h3 ⟨e, es, rfl, h⟩
                      show (if (0x2F : Byte) = 0x2F then (if (0x2F : Byte) = 0x2F then (if e = 0x2F then _ else _) else _) else _) = _
                      rw [if_pos rfl, if_pos rfl, if_neg he]
                      rfl
                  rw [hlc]
                  dsimp only
                  obtain ⟨a, s', rfl, k1, k2, k3⟩ :=
                    skipWhile_split (fun c => c != 0 && c != 0x0A) (by decide) post ds
                  have ka : (0x0A : Byte) ∉ a := fun h => by have := k1 _ h; simp at this
                  have ks : s' = [] ∨ NextIs (· = 0x0A) s' := by
                    cases s' with
                    | nil => exact .inl rfl
                    | cons x xs =>
                      right
                      refine ⟨x, xs, rfl, ?_⟩
                      have hx0 : x ≠ 0 := hs x (by simp)
                      by_cases e1 : x = 0x0A
                      · exact e1
                      · refine absurd ⟨x, xs, rfl, ?_⟩ k2
                        simp only [Bool.and_eq_true, bne_iff_ne]
                        exact ⟨hx0, e1⟩
                  rw [k3]
                  dsimp only
                  have hl2 : s'.length < f := by simp at hlen; omega
                  have hn : ∀ l, newlines (0x2F :: 0x2F :: (a ++ l)) = newlines l := by
                    intro l
                    rw [newlines_cons, newlines_cons, newlines_append, newlines_none ka, if_neg (by decide)]
                    omega
                  rcases ih s' line (hcs.tail.right) hl2 with ⟨h1, h2⟩ | ⟨t, raw, s'', ty, text, rfl, h1, h2, g3, h4, h5⟩
                  · left
                    refine ⟨.line ka (by rw [List.append_nil]; exact h3) (by rw [List.append_nil]; exact ks) h1, ?_⟩
                    rw [h2, hn]
                  · right
                    refine ⟨0x2F :: 0x2F :: (a ++ t), raw, s'', ty, text, by simp, .line ka h3 ks h1, h2, g3, h4, ?_⟩
                    rw [h5, hn]
              · by_cases hst : d = 0x2A
                · subst hst
                  have : startOf 0x2F (0x2A :: ds ++ 0 :: post) = .blockComment (ds ++ 0 :: post) := by
                    simp [startOf]
                  rw [this]
                  dsimp only
                  rcases blockSkip_split post ds line hcs.tail with ⟨body, s', rfl, g1, g2⟩ | ⟨g1, g2⟩
                  · rw [g2]
                    dsimp only
                    have hl2 : s'.length < f := by simp at hlen; omega
                    have hn : ∀ l, line + newlines (0x2F :: 0x2A :: (body ++ 0x2A :: 0x2F :: l)) =
                        line + newlines body + newlines l := by
                      intro l
                      rw [newlines_cons, newlines_cons, newlines_append, newlines_cons, newlines_cons, if_neg (by decide),
                        if_neg (by decide)]
                      omega
                    rcases ih s' (line + newlines body) (hcs.tail.right.tail.tail) hl2 with
                      ⟨h1, h2⟩ | ⟨t, raw, s'', ty, text, rfl, h1, h2, g3, h4, h5⟩
                    · left
                      refine ⟨.block g1 h1, ?_⟩
                      rw [h2, hn]
                    · right
                      refine ⟨0x2F :: 0x2A :: (body ++ 0x2A :: 0x2F :: t), raw, s'', ty, text, by simp, .block g1 h1, h2, g3,
                        h4, ?_⟩
                      rw [h5, hn]
                  · rw [g2]
                    dsimp only
                    left
                    refine ⟨.openBlock g1, ?_⟩
                    have hn : newlines (0x2F :: 0x2A :: ds) = newlines ds := by
                      rw [newlines_cons, newlines_cons, if_neg (by decide), if_neg (by decide)]
                      omega
                    rw [hn]
                    have : 0 < f := by omega
                    obtain ⟨f', rfl⟩ : ∃ f', f = f' + 1 := ⟨f - 1, by omega⟩
                    unfold lexLoop
                    rw [if_pos rfl]
                · right
                  have : startOf 0x2F (d :: ds ++ 0 :: post) = .token := by
                    show (if (0x2F : Byte) = 0x2F then (if d = 0x2F then _ else if d = 0x2A then _ else _) else _) = _
                    rw [if_pos rfl, if_neg hd, if_neg hst]
                  rw [this]
                  refine htoken fun _ h => ?_
                  obtain ⟨x, xs, h, hx⟩ := h
                  injection h with h _
                  subst h
                  rcases hx with hx | hx
                  · exact hd hx
                  · exact hst hx
          · right
            have : startOf c (cs ++ 0 :: post) = .token := by
              unfold startOf; rw [if_neg hsl]
            rw [this]
            exact htoken fun h => absurd h hsl

/-! ### What lies behind the source in memory has no influence -/

theorem skipWhile_mono {p : Byte → Bool} {x r : List Byte} (post : List Byte) (h : skipWhile p x = some r) :
    skipWhile p (x ++ post) = some (r ++ post) ∧ r.length ≤ x.length := by
  induction x with
  | nil => cases h
  | cons c cs ih =>
    unfold skipWhile at h
    show (if p c then skipWhile p (cs ++ post) else some (c :: (cs ++ post))) = _ ∧ _
    split at h
    · rename_i hp
      obtain ⟨h1, h2⟩ := ih h
      rw [if_pos hp]
      exact ⟨h1, by simp only [List.length_cons]; omega⟩
    · rename_i hp
      injection h with h
      subst h
      rw [if_neg hp]
      exact ⟨rfl, Nat.le_refl _⟩

theorem between_mono {x r : List Byte} (post : List Byte) : between (x ++ post) (r ++ post) = between x r := by
  unfold between
  simp only [List.length_append]
  rw [Nat.add_sub_add_right, List.take_append_of_le_length (by omega)]

theorem blockSkip_mono {x r : List Byte} {line l : Nat} (post : List Byte) (h : blockSkip x line = some (r, l)) :
    blockSkip (x ++ post) line = some (r ++ post, l) := by
  induction x generalizing line with
  | nil => cases h
  | cons c cs ih =>
    show blockSkip (c :: (cs ++ post)) line = _
    unfold blockSkip at h ⊢
    split at h
    · rename_i hc
      injection h with h
      injection h with h1 h2
      rw [if_pos hc, ← h1, ← h2]
      rfl
    · rename_i hc
      rw [if_neg hc]
      dsimp only at h ⊢
      generalize (if c = 0x0A then line + 1 else line) = ln at h ⊢
      split at h
      · rename_i hst
        rw [if_pos hst]
        cases cs with
        | nil => cases h
        | cons d ds =>
          show (if d = 0x2F then some (ds ++ post, ln) else blockSkip (d :: ds ++ post) ln) = _
          dsimp only at h
          split at h
          · rename_i hd
            injection h with h
            injection h with h1 h2
            rw [if_pos hd, h1, h2]
          · rename_i hd
            rw [if_neg hd]
            exact ih h
      · rename_i hst
        rw [if_neg hst]
        exact ih h

theorem lexDecimal_mono {x r : List Byte} (post : List Byte) (h : lexDecimal x = some r) :
    lexDecimal (x ++ post) = some (r ++ post) := by
  unfold lexDecimal at h ⊢
  cases h1 : skipWhile isDig x with
  | none => rw [h1] at h; cases h
  | some y =>
    rw [h1] at h
    rw [(skipWhile_mono post h1).1]
    cases y with
    | nil => cases h
    | cons d rest =>
      show (if d = 0x2E then _ else _) = _
      dsimp only at h
      split at h
      · rename_i hd
        rw [if_pos hd]
        cases rest with
        | nil => cases h
        | cons e es =>
          show (if isDig e = true then skipWhile isDig (e :: es ++ post) else _) = _
          dsimp only at h
          split at h
          · rename_i he
            rw [if_pos he]
            exact (skipWhile_mono post h).1
          · rename_i he
            injection h with h
            subst h
            rw [if_neg he]
            rfl
      · rename_i hd
        injection h with h
        subst h
        rw [if_neg hd]
        rfl

theorem hexPrefix_mono {c : Byte} {x : List Byte} {r : Option (List Byte)} (post : List Byte) (h : hexPrefix c x = some r) :
    hexPrefix c (x ++ post) = some (r.map (· ++ post)) := by
  unfold hexPrefix at h ⊢
  split at h
  · rename_i hc
    rw [if_pos hc]
    cases x with
    | nil => cases h
    | cons d ds =>
      dsimp only [List.cons_append] at h ⊢
      split at h <;> rename_i hd <;> injection h with h <;> subst h
      · rw [if_pos hd]; rfl
      · rw [if_neg hd]; rfl
  · rename_i hc
    rw [if_neg hc]
    split at h
    · rename_i hc2
      rw [if_pos hc2]
      cases x with
      | nil => cases h
      | cons d ds =>
        dsimp only [List.cons_append] at h ⊢
        split at h
        · rename_i hd
          rw [if_pos hd]
          cases ds with
          | nil => cases h
          | cons e es =>
            dsimp only [List.cons_append] at h ⊢
            split at h <;> rename_i he <;> injection h with h <;> subst h
            · rw [if_pos he]; rfl
            · rw [if_neg he]; rfl
        · rename_i hd
          injection h with h
          subst h
          rw [if_neg hd]; rfl
    · rename_i hc2
      injection h with h
      subst h
      rw [if_neg hc2]; rfl

/-- `tok` results carry over to a longer memory. -/
def Carries (a b : Lexed) (post : List Byte) : Prop := ∀ t r l, a = .tok t r l → b = .tok t (r ++ post) l

theorem lexNumber_mono (c : Byte) (x : List Byte) (line : Nat) (post : List Byte) :
    Carries (lexNumber c x line) (lexNumber c (x ++ post) line) post := by
  intro t r l h
  unfold lexNumber at h ⊢
  cases h1 : hexPrefix c x with
  | none => rw [h1] at h; cases h
  | some hx =>
    rw [h1] at h
    rw [hexPrefix_mono post h1]
    dsimp only at h ⊢
    cases hx with
    | some body =>
      dsimp only [Option.map] at h ⊢
      cases hk : skipWhile isHex body with
      | none => rw [hk] at h; cases h
      | some y =>
        rw [hk] at h
        rw [(skipWhile_mono post hk).1]
        dsimp only at h ⊢
        injection h with h1 h2 h3
        subst h1; subst h2; subst h3
        rw [← List.cons_append, between_mono]
    | none =>
      dsimp only [Option.map] at h ⊢
      cases hk : lexDecimal x with
      | none => rw [hk] at h; cases h
      | some y =>
        rw [hk] at h
        rw [lexDecimal_mono post hk]
        dsimp only at h ⊢
        injection h with h1 h2 h3
        subst h1; subst h2; subst h3
        rw [← List.cons_append, between_mono]

theorem lexToken_mono (c : Byte) (x : List Byte) (line : Nat) (post : List Byte) :
    Carries (lexToken c x line) (lexToken c (x ++ post) line) post := by
  intro t r l h
  unfold lexToken at h ⊢
  cases h1 : single c with
  | some ty =>
    rw [h1] at h
    dsimp only at h ⊢
    injection h with h1 h2 h3
    subst h1; subst h2; subst h3
    rfl
  | none =>
    rw [h1] at h
    dsimp only at h ⊢
    cases h2 : double c with
    | some p =>
      obtain ⟨t1, seconds⟩ := p
      rw [h2] at h
      dsimp only at h ⊢
      cases x with
      | nil => cases h
      | cons d ds =>
        dsimp only [List.cons_append] at h ⊢
        cases hl : seconds.lookup d with
        | some t2 =>
          rw [hl] at h
          injection h with h1 h2 h3
          subst h1; subst h2; subst h3
          rfl
        | none =>
          rw [hl] at h
          injection h with h1 h2 h3
          subst h1; subst h2; subst h3
          rfl
    | none =>
      rw [h2] at h
      dsimp only at h ⊢
      split at h
      · rename_i hq
        rw [if_pos hq]
        unfold lexString at h ⊢
        cases hs : skipWhile (fun c => c != 0x22 && c != 0) x with
        | none => rw [hs] at h; cases h
        | some y =>
          rw [hs] at h
          rw [(skipWhile_mono post hs).1]
          cases y with
          | nil => cases h
          | cons d rest =>
            dsimp only [List.cons_append] at h ⊢
            injection h with h1 h2 h3
            subst h1; subst h2; subst h3
            rw [← List.cons_append, between_mono]
            split <;> rfl
      · rename_i hq
        rw [if_neg hq]
        split at h
        · rename_i hm
          rw [if_pos hm]
          cases x with
          | nil => cases h
          | cons d ds =>
            dsimp only [List.cons_append] at h ⊢
            split at h
            · rename_i hd
              rw [if_pos hd]
              exact lexNumber_mono c (d :: ds) line post t r l h
            · rename_i hd
              rw [if_neg hd]
              injection h with h1 h2 h3
              subst h1; subst h2; subst h3
              rfl
        · rename_i hm
          rw [if_neg hm]
          split at h
          · rename_i ha
            rw [if_pos ha]
            unfold lexWord at h ⊢
            cases hs : skipWhile (fun c => isAlpha c || isDig c) x with
            | none => rw [hs] at h; cases h
            | some y =>
              rw [hs] at h
              rw [(skipWhile_mono post hs).1]
              dsimp only at h ⊢
              injection h with h1 h2 h3
              subst h1; subst h2; subst h3
              rw [← List.cons_append, between_mono]
          · rename_i ha
            rw [if_neg ha]
            split at h
            · rename_i hd
              rw [if_pos hd]
              exact lexNumber_mono c x line post t r l h
            · rename_i hd
              rw [if_neg hd]
              injection h with h1 h2 h3
              subst h1; subst h2; subst h3
              rfl

theorem startOf_mono (c : Byte) (x post : List Byte) :
    match startOf c x with
    | .oob => True
    | .doc b => startOf c (x ++ post) = .doc (b ++ post)
    | .lineComment b => startOf c (x ++ post) = .lineComment (b ++ post)
    | .blockComment b => startOf c (x ++ post) = .blockComment (b ++ post)
    | .token => startOf c (x ++ post) = .token := by
  unfold startOf
  by_cases hc : c = 0x2F
  · simp only [if_pos hc]
    cases x with
    | nil => trivial
    | cons d ds =>
      dsimp only [List.cons_append]
      by_cases hd : d = 0x2F
      · simp only [if_pos hd]
        cases ds with
        | nil => trivial
        | cons e es =>
          dsimp only [List.cons_append]
          by_cases he : e = 0x2F
          · simp only [if_pos he]
          · simp only [if_neg he]
            rfl
      · simp only [if_neg hd]
        by_cases h2 : d = 0x2A
        · simp only [if_pos h2]
        · simp only [if_neg h2]
  · simp only [if_neg hc]

theorem lexLoop_mono (post : List Byte) (k : Nat) (f : Nat) (x : List Byte) (line : Nat) :
    Carries (lexLoop f x line) (lexLoop (f + k) (x ++ post) line) post := by
  intro t r l h
  induction f generalizing x line with
  | zero => cases h
  | succ f ih =>
    rw [Nat.succ_add]
    cases x with
    | nil => cases h
    | cons c cs =>
      show lexLoop (f + k + 1) (c :: (cs ++ post)) line = _
      unfold lexLoop at h ⊢
      split at h
      · rename_i hc
        rw [if_pos hc]
        injection h with h1 h2 h3
        subst h1; subst h2; subst h3
        rfl
      · rename_i hc
        rw [if_neg hc]
        split at h
        · rename_i hw
          rw [if_pos hw]
          exact ih _ _ h
        · rename_i hw
          rw [if_neg hw]
          split at h
          · rename_i hn
            rw [if_pos hn]
            exact ih _ _ h
          · rename_i hn
            rw [if_neg hn]
            have hst := startOf_mono c cs post
            cases hs : startOf c cs with
            | oob => rw [hs] at h; cases h
            | token =>
              rw [hs] at h hst
              dsimp only at h hst
              rw [hst]
              exact lexToken_mono c cs line post t r l h
            | doc b =>
              rw [hs] at h hst
              dsimp only at h hst
              rw [hst]
              dsimp only
              cases hk : skipWhile (fun c => c != 0 && c != 0x0A && c != 0x0D) b with
              | none => rw [hk] at h; cases h
              | some y =>
                rw [hk] at h
                rw [(skipWhile_mono post hk).1]
                dsimp only at h ⊢
                injection h with h1 h2 h3
                subst h1; subst h2; subst h3
                rw [between_mono]
            | lineComment b =>
              rw [hs] at h hst
              dsimp only at h hst
              rw [hst]
              dsimp only
              cases hk : skipWhile (fun c => c != 0 && c != 0x0A) b with
              | none => rw [hk] at h; cases h
              | some y =>
                rw [hk] at h
                rw [(skipWhile_mono post hk).1]
                exact ih _ _ h
            | blockComment b =>
              rw [hs] at h hst
              dsimp only at h hst
              rw [hst]
              dsimp only
              cases hk : blockSkip b line with
              | none => rw [hk] at h; cases h
              | some y =>
                obtain ⟨y, l2⟩ := y
                rw [hk] at h
                rw [blockSkip_mono post hk]
                exact ih _ _ h

theorem lexNext_mono (x : List Byte) (line : Nat) (post : List Byte) :
    Carries (lexNext x line) (lexNext (x ++ post) line) post := by
  intro t r l h
  have := lexLoop_mono post post.length _ _ _ t r l h
  unfold lexNext
  rw [List.length_append, Nat.add_right_comm]
  exact this

/-- **C49.** Every source text without a NUL inside, followed in memory by a NUL and anything at all (also
nothing), is lexed completely by at most one call of lexer_next per character and one for the end; no read goes
beyond the NUL (`oob` does not occur even if nothing follows it, and what follows has no influence); and
the tokens are exactly consecutive pieces of the source with nothing but white space and comments between
them, each of the type and the maximal length its characters demand (`IsTok`), with line numbers that count
the newlines in the white space and comments before it. -/
theorem C49_lexer (s : List Byte) (hs : NoNul s) (line : Nat) :
    ∃ toks, Lexes s line toks ∧ ∀ post, lexAll (s.length + 1) (s ++ 0 :: post) line = some toks := by
  suffices h : ∀ fuel s line, NoNul s → s.length < fuel →
      ∃ toks, Lexes s line toks ∧ ∀ post, lexAll fuel (s ++ 0 :: post) line = some toks from
    h _ s line hs (by omega)
  intro fuel
  induction fuel with
  | zero => intro s line hs hl; omega
  | succ f ih =>
    intro s line hs hl
    have e0 : ∀ post, s ++ 0 :: post = s ++ [0] ++ post := by simp
    rcases lexLoop_spec [] ((s ++ [0]).length + 1) s line hs (by simp; omega) with
      ⟨h1, h2⟩ | ⟨t, raw, s', ty, text, e, h1, h2, h3, h4, h5⟩
    · refine ⟨_, .eof h1, fun post => ?_⟩
      unfold lexAll
      rw [e0, lexNext_mono (s ++ [0]) line post _ _ _ h2]
      rfl
    · have hl2 : s'.length < f := by
        have : 0 < raw.length := List.length_pos_iff.2 h3
        rw [e] at hl
        simp at hl
        omega
      obtain ⟨toks, g1, g2⟩ := ih s' (line + newlines t) (by rw [e] at hs; exact hs.right.right) hl2
      refine ⟨⟨ty, text, line + newlines t⟩ :: toks, by rw [e]; exact .tok h1 h2 g1, fun post => ?_⟩
      unfold lexAll
      rw [e0, lexNext_mono (s ++ [0]) line post _ _ _ h5]
      dsimp only
      rw [if_neg h4, List.append_assoc, List.singleton_append, g2]
      rfl

/-- No single call of lexer_next, from any position of the source, reads outside it or fails to end. -/
theorem C49_call (s : List Byte) (hs : NoNul s) (line : Nat) :
    ∃ t r l, lexNext (s ++ [0]) line = .tok t r l := by
  rcases lexLoop_spec [] ((s ++ [0]).length + 1) s line hs (by simp; omega) with
    ⟨h1, h2⟩ | ⟨t, raw, s', ty, text, e, h1, h2, h3, h4, h5⟩
  · exact ⟨_, _, _, h2⟩
  · exact ⟨_, _, _, h5⟩

/-- The source `a-1 /* x` newline `*/ >= "q`: a minus directly before a digit belongs to the number, the string is
not closed. -/
example : lexAll 17 ([0x61, 0x2D, 0x31, 0x20, 0x2F, 0x2A, 0x78, 0x0A, 0x2A, 0x2F, 0x3E, 0x3D, 0x22, 0x71] ++ [0]) 1 =
    some [⟨.identifier, [0x61], 1⟩, ⟨.number, [0x2D, 0x31], 1⟩, ⟨.gtEq, [0x3E, 0x3D], 2⟩, ⟨.string, [0x71], 2⟩,
      ⟨.eof, [], 2⟩] := by decide +kernel

/-- Newlines inside a string are not counted: behind a string with a newline the line numbers are too small. -/
theorem C49_line_false : ∃ toks, lexAll 9 ([0x22, 0x0A, 0x22, 0x0A, 0x78] ++ [0]) 1 = some toks ∧
    toks[1]? = some ⟨.identifier, [0x78], 2⟩ ∧ 1 + newlines [0x22, 0x0A, 0x22, 0x0A] = 3 :=
  ⟨_, rfl, rfl, rfl⟩

end Cnd
