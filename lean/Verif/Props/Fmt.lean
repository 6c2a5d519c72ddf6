/-
  C50: the formatter changes only white space.
-/
import Verif.Fmt
import Verif.Props.Lexer

namespace Cnd

/-! ### Specification -/

/-- Space, tab, carriage return, newline. -/
def Blank (c : Byte) : Prop := c = 0x20 ∨ c = 0x09 ∨ c = 0x0D ∨ c = 0x0A

instance (c : Byte) : Decidable (Blank c) := by unfold Blank; infer_instance

/-- The characters of a text that are not white space. -/
def ink (s : List Byte) : List Byte := s.filter fun c => ¬ Blank c

/-! ### Tokens of the formatter -/

theorem ink_append (a b : List Byte) : ink (a ++ b) = ink a ++ ink b := List.filter_append ..

theorem ink_blank (a : List Byte) (h : ∀ c ∈ a, Blank c) : ink a = [] := by
  unfold ink
  rw [List.filter_eq_nil_iff]
  intro c hc
  simp [h c hc]

theorem skipWhile_all (p : Byte → Bool) (hp : p 0 = false) (s : List Byte) :
    ∃ a s', s = a ++ s' ∧ (∀ c ∈ a, p c = true) ∧ ¬ NextIs (fun c => p c = true) s' ∧
      ∀ post, skipWhile p (s ++ 0 :: post) = some (s' ++ 0 :: post) := by
  obtain ⟨a, s', h1, h2, h3, h4⟩ := skipWhile_split p hp [] s
  refine ⟨a, s', h1, h2, h3, fun post => ?_⟩
  have := (skipWhile_mono post h4).1
  simpa using this

theorem fmtSpan_spec (ty : FT) (p : Byte → Bool) (hp : p 0 = false) (c : Byte) (cs : List Byte) :
    ∃ a r, cs = a ++ r ∧ (∀ d ∈ a, p d = true) ∧ ¬ NextIs (fun d => p d = true) r ∧
      ∀ post, fmtSpan ty p (c :: (cs ++ 0 :: post)) (cs ++ 0 :: post) = .tok ty (c :: a) (r ++ 0 :: post) := by
  obtain ⟨a, r, rfl, h1, h2, h3⟩ := skipWhile_all p hp cs
  refine ⟨a, r, rfl, h1, h2, fun post => ?_⟩
  unfold fmtSpan
  rw [h3]
  dsimp only
  rw [show c :: (a ++ r ++ 0 :: post) = (c :: a) ++ (r ++ 0 :: post) by simp, between_append]

theorem fmtSingle_ink (c : Byte) (ty : FT) (h : fmtSingle c = some ty) : ty ≠ .whitespace ∧ ty ≠ .newline := by
  unfold fmtSingle at h
  split at h <;> cases h <;> exact ⟨by simp, by simp⟩

theorem fmtRest_spec (c : Byte) (cs : List Byte) (hn : NoNul cs) :
    ∃ ty a r, cs = a ++ r ∧ ty ≠ .whitespace ∧ ty ≠ .newline ∧
      ∀ post, fmtRest c (c :: (cs ++ 0 :: post)) (cs ++ 0 :: post) = .tok ty (c :: a) (r ++ 0 :: post) := by
  unfold fmtRest
  cases hs : fmtSingle c with
  | some ty =>
    obtain ⟨h1, h2⟩ := fmtSingle_ink c ty hs
    exact ⟨ty, [], cs, rfl, h1, h2, fun _ => rfl⟩
  | none =>
    dsimp only
    by_cases h1 : c = 0x22
    · simp only [if_pos h1]
      unfold fmtString
      obtain ⟨a, r, rfl, g1, g2, g3⟩ := skipWhile_all (fun d => d ≠ 0x22 ∧ d ≠ 0) (by decide) cs
      simp only [g3]
      cases r with
      | nil =>
        refine ⟨.string, a, [], by simp, by simp, by simp, fun post => ?_⟩
        dsimp only [List.nil_append]
        rw [if_neg (by decide), show c :: (a ++ [] ++ 0 :: post) = (c :: a) ++ (0 :: post) by simp, between_append]
      | cons d ds =>
        have hd : d = 0x22 := by
          have hd0 := hn d (by simp)
          apply Classical.byContradiction
          intro h
          exact g2 ⟨d, ds, rfl, by simp; exact ⟨h, hd0⟩⟩
        refine ⟨.string, a ++ [d], ds, by simp, by simp, by simp, fun post => ?_⟩
        dsimp only [List.cons_append]
        rw [if_pos hd, show c :: (a ++ d :: ds ++ 0 :: post) = (c :: (a ++ [d])) ++ (ds ++ 0 :: post) by simp, between_append]
    · simp only [if_neg h1]
      by_cases h2 : isAlpha c = true
      · simp only [if_pos h2]
        obtain ⟨a, r, e, -, -, h⟩ := fmtSpan_spec .identifier (fun d => isAlpha d || isDig d) (by decide) c cs
        exact ⟨_, a, r, e, by simp, by simp, h⟩
      · simp only [if_neg h2]
        by_cases h3 : isDig c = true
        · simp only [if_pos h3]
          obtain ⟨a, r, e, -, -, h⟩ := fmtSpan_spec .number fmtNumChar (by decide) c cs
          exact ⟨_, a, r, e, by simp, by simp, h⟩
        · simp only [if_neg h3]
          by_cases h4 : c = 0x2D
          · simp only [if_pos h4]
            obtain ⟨a, r, e, -, -, h⟩ := fmtSpan_spec .number fmtNumChar (by decide) c cs
            cases cs with
            | nil => exact ⟨.identifier, [], [], rfl, by simp, by simp, fun _ => rfl⟩
            | cons d ds =>
              by_cases h5 : isDig d = true
              · refine ⟨.number, a, r, e, by simp, by simp, fun post => ?_⟩
                dsimp only [List.cons_append]
                rw [if_pos h5]
                exact h post
              · refine ⟨.identifier, [], d :: ds, rfl, by simp, by simp, fun post => ?_⟩
                dsimp only [List.cons_append]
                rw [if_neg h5]
          · simp only [if_neg h4]
            exact ⟨.identifier, [], cs, rfl, by simp, by simp, fun _ => rfl⟩

/-- fmt_next inside a source: a non-empty token, white space exactly if its type says so, independent of the memory behind
the terminating NUL. -/
theorem fmtNext_spec (c : Byte) (cs : List Byte) (hn : NoNul (c :: cs)) :
    ∃ ty a r, cs = a ++ r ∧ (ty = .whitespace ∨ ty = .newline → ∀ d ∈ c :: a, Blank d) ∧
      ∀ post, fmtNext (c :: cs ++ 0 :: post) = .tok ty (c :: a) (r ++ 0 :: post) := by
  have h0 := hn c (by simp)
  simp only [List.cons_append, fmtNext]
  simp only [if_neg h0]
  by_cases h1 : c = 0x0A
  · simp only [if_pos h1]
    refine ⟨.newline, [], cs, rfl, fun _ d hd => ?_, fun _ => rfl⟩
    simp at hd
    rw [hd, h1]
    exact .inr (.inr (.inr rfl))
  · simp only [if_neg h1]
    by_cases h2 : c = 0x20 ∨ c = 0x09 ∨ c = 0x0D
    · simp only [if_pos h2]
      obtain ⟨a, r, e, g, -, h⟩ := fmtSpan_spec .whitespace (fun d => d = 0x20 ∨ d = 0x09 ∨ d = 0x0D) (by decide) c cs
      refine ⟨_, a, r, e, fun _ d hd => ?_, h⟩
      rcases List.mem_cons.mp hd with rfl | hd
      · rcases h2 with h | h | h
        · exact .inl h
        · exact .inr (.inl h)
        · exact .inr (.inr (.inl h))
      · have := g d hd
        rw [decide_eq_true_eq] at this
        rcases this with h | h | h
        · exact .inl h
        · exact .inr (.inl h)
        · exact .inr (.inr (.inl h))
    · simp only [if_neg h2]
      obtain ⟨ty, a, r, e, t1, t2, h⟩ := fmtRest_spec c cs hn.tail
      by_cases h3 : c = 0x2F
      · simp only [if_pos h3]
        obtain ⟨a', r', e', -, -, h'⟩ := fmtSpan_spec .comment (fun d => d ≠ 0 ∧ d ≠ 0x0A) (by decide) c cs
        cases cs with
        | nil =>
          refine ⟨ty, a, r, e, fun h => by rcases h with h | h <;> contradiction, fun post => ?_⟩
          exact h post
        | cons d ds =>
          by_cases h4 : d = 0x2F
          · refine ⟨.comment, a', r', e', by simp, fun post => ?_⟩
            dsimp only [List.cons_append]
            rw [if_pos h4]
            exact h' post
          · refine ⟨ty, a, r, e, fun h => by rcases h with h | h <;> contradiction, fun post => ?_⟩
            dsimp only [List.cons_append]
            rw [if_neg h4]
            exact h post
      · simp only [if_neg h3]
        exact ⟨ty, a, r, e, fun h => by rcases h with h | h <;> contradiction, h⟩

theorem indentText_blank (n : Nat) : ∀ c ∈ indentText n, Blank c := by
  intro c hc
  unfold indentText at hc
  rw [List.mem_flatten] at hc
  obtain ⟨l, hl, hc⟩ := hc
  rw [List.mem_replicate] at hl
  rw [hl.2] at hc
  simp at hc
  exact .inl hc

theorem fmtBefore_out (ty : FT) (s : FSt) : ink (fmtBefore ty s).out = ink s.out := by
  have h1 : ink [0x0A] = [] := by decide
  have h2 : ink [0x0A, 0x0A] = [] := by decide
  have h3 : ink [0x20] = [] := by decide
  have h4 := fun n => ink_blank _ (indentText_blank n)
  unfold fmtBefore
  dsimp only
  repeat' split
  all_goals simp only [ink_append, h1, h2, h3, h4, List.append_nil]
  all_goals (repeat' split)
  all_goals simp only [ink_append, h1, h2, h3, h4, List.append_nil]

theorem fmtAfter_out (ty : FT) (s : FSt) : (fmtAfter ty s).out = s.out := by
  unfold fmtAfter
  dsimp only
  repeat' split
  all_goals rfl

theorem fmtToken_out (ty : FT) (text : List Byte) (s : FSt) (h : ty = .whitespace ∨ ty = .newline → ∀ d ∈ text, Blank d) :
    ink (fmtToken ty text s).out = ink s.out ++ ink text := by
  unfold fmtToken
  split
  · rw [ink_blank text (h (.inl rfl)), List.append_nil]
    split <;> rfl
  · rw [ink_blank text (h (.inr rfl)), List.append_nil]
    split <;> rfl
  · dsimp only
    rw [fmtAfter_out, ink_append, fmtBefore_out]

theorem fmtLoop_spec (fuel : Nat) (s : List Byte) (hn : NoNul s) (hf : s.length < fuel) (st : FSt) :
    ∃ out, ink out = ink st.out ++ ink s ∧ ∀ post f, s.length < f → fmtLoop f (s ++ 0 :: post) st = some out := by
  induction fuel generalizing s st with
  | zero => omega
  | succ fuel ih =>
    cases s with
    | nil =>
      refine ⟨st.out ++ [0x0A], ?_, fun post f hf => ?_⟩
      · rw [ink_append]; rfl
      · obtain ⟨f, rfl⟩ : ∃ g, f = g + 1 := ⟨f - 1, by simp at hf; omega⟩
        rfl
    | cons c cs =>
      obtain ⟨ty, a, r, e, hb, h⟩ := fmtNext_spec c cs hn
      have hn' : NoNul r := fun b hb => hn b (by rw [e]; simp; exact .inr (.inr hb))
      have hl : cs.length = a.length + r.length := by rw [e, List.length_append]
      simp only [List.length_cons] at hf
      obtain ⟨out, h1, h2⟩ := ih r hn' (by omega) (fmtToken ty (c :: a) st)
      refine ⟨out, ?_, fun post f hf => ?_⟩
      · rw [h1, fmtToken_out ty _ st hb, List.append_assoc, ← ink_append, e, List.cons_append]
      · simp only [List.length_cons] at hf
        obtain ⟨f, rfl⟩ : ∃ g, f = g + 1 := ⟨f - 1, by omega⟩
        unfold fmtLoop
        rw [h]
        exact h2 post f (by omega)

/-- C50. Formatting any source terminates without reading behind the terminating NUL, and the result consists of the same
characters in the same order, apart from white space. -/
theorem C50_formatter (s : List Byte) (hs : NoNul s) :
    ∃ out, ink out = ink s ∧ ∀ post, fmtSource (s ++ 0 :: post) = some out := by
  obtain ⟨out, h1, h2⟩ := fmtLoop_spec (s.length + 1) s hs (by omega) fmtStart
  exact ⟨out, h1, fun post => h2 post _ (by simp; omega)⟩

/-- The source `p P{u8 a;@x(1,2)}` and its formatted form. -/
example : fmtSource ([0x70, 0x20, 0x50, 0x7B, 0x75, 0x38, 0x20, 0x61, 0x3B, 0x40, 0x78, 0x28, 0x31, 0x2C, 0x32, 0x29, 0x7D] ++ [0]) =
    some [0x70, 0x20, 0x50, 0x20, 0x7B, 0x0A, 0x20, 0x20, 0x20, 0x20, 0x75, 0x38, 0x20, 0x61, 0x3B, 0x0A, 0x20, 0x20, 0x20, 0x20,
      0x40, 0x78, 0x28, 0x31, 0x2C, 0x20, 0x32, 0x29, 0x0A, 0x7D, 0x0A] := by decide +kernel

/-- Formatting twice is not the same as formatting once: `a{` gets one space in front of the brace, then two. -/
theorem C50_idempotent_false : ∃ s a b, NoNul s ∧ fmtSource (s ++ [0]) = some a ∧ fmtSource (a ++ [0]) = some b ∧ a ≠ b :=
  ⟨[0x61, 0x7B], _, _, by unfold NoNul; decide, rfl, rfl, by decide +kernel⟩

/-- White space inside a string can change: the formatter does not know block comments, so a quotation mark in a block comment
makes it take the following string for code. The source is a comment containing a quotation mark, then `"a;b"`. -/
theorem C50_strings_false : ∃ s out, NoNul s ∧ fmtSource (s ++ [0]) = some out ∧
    lexAll 20 (s ++ [0]) 1 = some [⟨.string, [0x61, 0x3B, 0x62], 1⟩, ⟨.eof, [], 1⟩] ∧
    lexAll 20 (out ++ [0]) 1 = some [⟨.string, [0x61, 0x3B, 0x0A, 0x62], 1⟩, ⟨.eof, [], 2⟩] :=
  ⟨[0x2F, 0x2A, 0x22, 0x2A, 0x2F, 0x20, 0x22, 0x61, 0x3B, 0x62, 0x22], _, by unfold NoNul; decide, rfl, by decide +kernel, by decide +kernel⟩

end Cnd
