/-
  C100 continued: what the check `tidy` (Verif/Props/NoUb.lean) says about numbers, and a class of texts that pass it, described by the grammar of
  tokens of C49 and not by functions of the model.
-/
import Verif.Props.NoUb
import Verif.Props.LexUnique

namespace Cnd
namespace Tidy

theorem decLoop_lt (s : List Byte) : ∀ r : Word, (decLoop 64 r s).toNat < (r.toNat + 1) * 10 ^ s.countP isDigit := by
  induction s with
  | nil => intro r; simp [decLoop]
  | cons x s ih =>
    intro r
    unfold decLoop
    rw [List.countP_cons]
    split
    · rename_i hx
      refine Nat.lt_of_lt_of_le (ih _) ?_
      rw [Nat.pow_succ', ← Nat.mul_assoc]
      apply Nat.mul_le_mul_right
      rw [BitVec.toNat_add, BitVec.toNat_mul, BitVec.toNat_ofNat]
      have hd := of_decide_eq_true hx
      have h10 : (10 : Word).toNat = 10 := rfl
      rw [h10]
      have a := Nat.mod_le (r.toNat * 10 % 2 ^ 64 + (x.toNat - 0x30) % 2 ^ 64) (2 ^ 64)
      have b := Nat.mod_le (r.toNat * 10) (2 ^ 64)
      have d := Nat.mod_le (x.toNat - 0x30) (2 ^ 64)
      omega
    · exact ih r

theorem hexVal_lt (x : Byte) : hexVal x < 16 := by
  unfold hexVal; repeat' split
  all_goals omega

theorem hexLoop_lt (s : List Byte) : ∀ (r : Word) (k : Nat), r.toNat < 2 ^ (4 * k) → (hexLoop 64 r s).toNat < 2 ^ (4 * (k + s.length)) := by
  induction s with
  | nil => intro r k h; exact h
  | cons x s ih =>
    intro r k h
    unfold hexLoop
    have : k + (x :: s).length = k + 1 + s.length := by simp; omega
    rw [this]
    apply ih
    rw [BitVec.toNat_or, BitVec.toNat_shiftLeft, BitVec.toNat_ofNat, Nat.shiftLeft_eq]
    have e : 2 ^ (4 * (k + 1)) = 2 ^ (4 * k) * 16 := by rw [Nat.mul_add, Nat.pow_add]
    apply Nat.or_lt_two_pow
    · exact Nat.lt_of_le_of_lt (Nat.mod_le _ _) (by rw [e]; exact Nat.mul_lt_mul_of_pos_right h (by decide))
    · have := hexVal_lt x
      have h1 : 1 ≤ 2 ^ (4 * k) := Nat.one_le_two_pow
      exact Nat.lt_of_le_of_lt (Nat.mod_le _ _) (by rw [e]; omega)

theorem modest_of {s : List Byte} (h1 : ∀ r : List Byte, r <:+ s → s.length ≤ r.length + 1 → (magnitude 64 r).toNat < 0x4000000000000000) : modest s = true := by
  have pos : ∀ v : Word, v.toNat < 0x4000000000000000 → (v + 0x4000000000000000).toNat ≤ 0x8000000000000000 := by
    intro v hv
    have e : (0x4000000000000000 : Word).toNat = 0x4000000000000000 := rfl
    rw [BitVec.toNat_add, e, Nat.mod_eq_of_lt (by omega)]; omega
  unfold modest
  cases s with
  | nil => exact decide_eq_true (pos _ (by decide))
  | cons x s =>
    have hs := h1 s (List.suffix_cons _ _) (by simp)
    unfold parseI64
    dsimp only
    by_cases c1 : x = 0x2D
    · rw [if_pos c1]
      generalize magnitude 64 s = r at hs ⊢
      rw [if_neg]
      · dsimp only
        apply decide_eq_true
        have e : (0x4000000000000000 : Word).toNat = 0x4000000000000000 := rfl
        rw [BitVec.toNat_add, BitVec.toNat_neg, e]
        omega
      · rintro rfl
        have : (BitVec.intMin 64).toNat = 0x8000000000000000 := by decide
        omega
    · rw [if_neg c1]
      by_cases c2 : x = 0x2B
      · rw [if_pos c2]; exact decide_eq_true (pos _ hs)
      · rw [if_neg c2]; exact decide_eq_true (pos _ (h1 _ (List.suffix_refl _) (by simp)))

end Tidy

/-- Tokens of up to 17 bytes are never the obstacle. -/
theorem C100_short (s : List Byte) (h : s.length ≤ 17) : Tidy.modest s = true := by
  refine Tidy.modest_of fun r hr hl => ?_
  have hr' := hr.length_le
  unfold magnitude
  cases e : hexBody r with
  | some ds =>
    have hd : ds.length + 2 = r.length := by
      unfold hexBody at e
      split at e
      · split at e
        · cases e; rfl
        · cases e
      · cases e
    have := Tidy.hexLoop_lt ds 0 0 (by decide)
    have p : 2 ^ (4 * (0 + ds.length)) ≤ 2 ^ (4 * 15) := Nat.pow_le_pow_right (by decide) (by omega)
    exact Nat.lt_of_lt_of_le this (Nat.le_trans p (by decide))
  | none =>
    have := Tidy.decLoop_lt r 0
    have hc : r.countP isDigit ≤ 17 := Nat.le_trans List.countP_le_length (by omega)
    have p : 10 ^ r.countP isDigit ≤ 10 ^ 17 := Nat.pow_le_pow_right (by decide) hc
    have z : ((0 : Word).toNat + 1) = 1 := rfl
    rw [z, Nat.one_mul] at this
    exact Nat.lt_of_lt_of_le this (Nat.le_trans p (by decide))

/-- Nor are longer ones with up to 18 digits, if they are not hexadecimal. -/
theorem C100_digits (s : List Byte) (h : s.countP (fun c => decide (0x30 ≤ c.toNat ∧ c.toNat ≤ 0x39)) ≤ 18) (hx : ∀ a b, ¬ (a ++ 0x30 :: 0x78 :: b = s) ∧ ¬ (a ++ 0x30 :: 0x58 :: b = s)) : Tidy.modest s = true := by
  refine Tidy.modest_of fun r hr hl => ?_
  obtain ⟨a, rfl⟩ := hr
  unfold magnitude
  cases e : hexBody r with
  | some ds =>
    unfold hexBody at e
    split at e
    · split at e
      · rename_i g
        obtain ⟨rfl, rfl | rfl⟩ := g
        · exact absurd rfl (hx _ _).1
        · exact absurd rfl (hx _ _).2
      · cases e
    · cases e
  | none =>
    have := Tidy.decLoop_lt r 0
    have hc : r.countP isDigit ≤ 18 := by
      rw [List.countP_append] at h
      exact Nat.le_trans (Nat.le_add_left _ _) h
    have p : 10 ^ r.countP isDigit ≤ 10 ^ 18 := Nat.pow_le_pow_right (by decide) hc
    have z : ((0 : Word).toNat + 1) = 1 := rfl
    rw [z, Nat.one_mul] at this
    exact Nat.lt_of_lt_of_le this (Nat.le_trans p (by decide))

/-- The first digits that are one too many. -/
example : Tidy.modest [0x39, 0x39, 0x39, 0x39, 0x39, 0x39, 0x39, 0x39, 0x39, 0x39, 0x39, 0x39, 0x39, 0x39, 0x39, 0x39, 0x39, 0x39, 0x39] = false := by decide +kernel


namespace Tidy

theorem noSwitch_of (ts : List Tok) (h : ∀ b u e, ts = b ++ u :: e → u.type = .kwSwitch → ∃ v ∈ b, v.type = .kwPacket) : noSwitch (ts.map Tok.bare) = true := by
  induction ts with
  | nil => rfl
  | cons t ts ih =>
    simp only [List.map_cons, noSwitch, Bool.or_eq_true, Bool.and_eq_true, decide_eq_true_eq]
    by_cases c1 : t.type = .kwPacket
    · exact .inl c1
    · refine .inr ⟨fun e => ?_, ih fun b u e g hu => ?_⟩
      · obtain ⟨v, hv, _⟩ := h [] t ts rfl e
        cases hv
      · obtain ⟨v, hv, hp⟩ := h (t :: b) u e (by rw [g]; rfl) hu
        rcases List.mem_cons.mp hv with rfl | hv
        · exact absurd hp c1
        · exact ⟨v, hv, hp⟩

theorem noDoc_of (ts : List Tok) (h : ∀ t ∈ ts, t.type ≠ .doc) : noDoc (ts.map Tok.bare) = true := by
  induction ts with
  | nil => rfl
  | cons t ts ih =>
    simp only [List.map_cons, noDoc, Bool.or_eq_true, Bool.and_eq_true, decide_eq_true_eq]
    exact .inr ⟨h t List.mem_cons_self, ih fun u hu => h u (List.mem_cons_of_mem _ hu)⟩

theorem regions_of (ts : List Tok) (hd : ∀ t ∈ ts, t.type ≠ .doc)
    (h : ∀ a t b u e, ts = a ++ t :: (b ++ u :: e) → t.type = .kwStruct → u.type = .kwSwitch → ∃ v ∈ b, v.type = .kwPacket) : regions (ts.map Tok.bare) = true := by
  induction ts with
  | nil => rfl
  | cons t ts ih =>
    have hd' : ∀ u ∈ ts, u.type ≠ .doc := fun u hu => hd u (List.mem_cons_of_mem _ hu)
    simp only [List.map_cons, regions, Bool.or_eq_true, Bool.and_eq_true, decide_eq_true_eq]
    refine ⟨⟨?_, .inr (noDoc_of ts hd')⟩, ih hd' fun a u b v e g => h (t :: a) u b v e (by rw [g]; rfl)⟩
    by_cases c1 : t.type = .kwStruct
    · exact .inr (noSwitch_of ts fun b u e g hu => h [] t b u e (by rw [g]; rfl) c1 hu)
    · exact .inl c1

theorem opens_types {t : Tok} (h : opens t = true) : t.type ∈ [TT.lparen, .minus, .bang, .tilde] := by
  unfold opens at h
  cases e : t.type <;> rw [e] at h <;> first | decide | cases h

theorem windows_of {c : Ctx} (hc : c.d = false) (ts : List Tok)
    (h : ∀ a t u b, ts = a ++ t :: u :: b → u.type = .kwPacket → t.type ∉ [TT.lparen, .minus, .bang, .tilde]) : windows c (ts.map Tok.bare) = true := by
  induction ts with
  | nil => rfl
  | cons t ts ih =>
    have i := ih fun a u v b g => h (t :: a) u v b (by rw [g]; rfl)
    have key : ∀ u us, ts = u :: us → (!opens t.bare || decide (u.bare.type ≠ .kwPacket)) = true := by
      rintro u us rfl
      simp only [Bool.or_eq_true, Bool.not_eq_true', decide_eq_true_eq]
      by_cases c1 : u.type = .kwPacket
      · left
        cases o : opens t.bare with
        | false => rfl
        | true => exact absurd (opens_types o) (h [] t u us rfl c1)
      · exact .inr c1
    rcases ts with _ | ⟨u, _ | ⟨v, us⟩⟩
    · rfl
    · simp only [List.map_cons, windows, hc] at i ⊢
      rw [key u _ rfl]; simpa using i
    · simp only [List.map_cons, windows, hc] at i ⊢
      rw [key u _ rfl]; simpa using i

theorem widths_of (ts : List Tok) (hcol : ∀ t ∈ ts, t.type = .colon → t.text = [0x3A])
    (h : ∀ a t b, ts = a ++ t :: b → t.type = .identifier → t.text = [0x62, 0x6F, 0x6F, 0x6C] → ∀ v ∈ b.take 2, v.type ≠ .colon) : widthsOk (ts.map Tok.bare) = true := by
  induction ts with
  | nil => rfl
  | cons t ts ih =>
    have i := ih (fun u hu => hcol u (List.mem_cons_of_mem _ hu)) fun a u b g => h (t :: a) u b (by rw [g]; rfl)
    show (_ && widthsOk (ts.map Tok.bare)) = true
    rw [i, Bool.and_true, Bool.and_eq_true]
    constructor
    · by_cases c1 : t.type = .colon
      · have : narrow t.bare = true := by
          unfold narrow
          have e : t.bare.text = [0x3A] := hcol t List.mem_cons_self c1
          rw [e]; decide +kernel
        rw [this, Bool.or_true]
      · rw [Bool.or_eq_true]; exact .inl (decide_eq_true c1)
    · cases hb : t.bare.isWord s_bool with
      | false => rfl
      | true =>
        have hw := of_decide_eq_true hb
        have g := h [] t ts rfl hw.1 hw.2
        rcases ts with _ | ⟨u, _ | ⟨v, _ | ⟨w, us⟩⟩⟩
        · rfl
        · rfl
        · have g1 : u.bare.type ≠ .colon := g u (by simp)
          simp [g1]
        · have g1 : u.bare.type ≠ .colon := g u (by simp)
          have g2 : v.bare.type ≠ .colon := g v (by simp)
          simp [g1, g2]

theorem foldl_max_le (l : List Nat) (k n : Nat) (hk : k ≤ n) (h : ∀ x ∈ l, x ≤ n) : l.foldl max k ≤ n := by
  induction l generalizing k with
  | nil => exact hk
  | cons x l ih => exact ih _ (Nat.max_le.mpr ⟨hk, h x List.mem_cons_self⟩) fun y hy => h y (List.mem_cons_of_mem _ hy)

theorem le_foldl_max (l : List Nat) (k : Nat) : k ≤ l.foldl max k ∧ ∀ x ∈ l, x ≤ l.foldl max k := by
  induction l generalizing k with
  | nil => exact ⟨Nat.le_refl _, fun x hx => absurd hx List.not_mem_nil⟩
  | cons y l ih =>
    have := ih (max k y)
    refine ⟨Nat.le_trans (Nat.le_max_left _ _) this.1, fun x hx => ?_⟩
    rcases List.mem_cons.mp hx with rfl | hx
    · exact Nat.le_trans (Nat.le_max_right _ _) this.1
    · exact this.2 x hx

theorem colon_text {s : List Byte} {line : Nat} {toks : List Tok} (h : Lexes s line toks) : ∀ t ∈ toks, t.type = .colon → t.text = [0x3A] := by
  have hp : ∀ p ∈ punct, p.2 = TT.colon → p.1 = [0x3A] := by decide
  have hk : ∀ p ∈ keywords, p.2 ≠ TT.colon := by decide
  induction h with
  | eof => intro t ht e; rw [List.mem_singleton.mp ht] at e; cases e
  | tok _ h2 _ ih =>
    intro t ht e
    rcases List.mem_cons.mp ht with rfl | ht
    · dsimp only at e ⊢
      cases h2 with
      | op g => exact hp _ g e
      | word _ _ _ g =>
        rcases g with g | g
        · exact absurd e (hk _ g)
        · rw [g.1] at e; cases e
      | num => cases e
      | negNum => cases e
      | str => cases e
      | openStr => cases e
      | doc => cases e
      | error => cases e
    · exact ih t ht e

end Tidy

open Tidy in
/-- C100 put without the check and without the lexer of the model, for a smaller class of texts: tokens of up to 17 bytes, none of them a documentation
comment or unreadable; up to 14 structs; between `struct` and `switch` always a `packet`; no `bool` with a bit width; `packet` never behind `(`, `-`, `!`, `~`. -/
theorem C100_simple_partial (P : PEnv) (f : Nat) (src : List Byte) (hn : NoNul src) (hl : src.length < 0x100000000000000) (toks : List Tok) (ht : Lexes src 1 toks)
    (h1 : ∀ t ∈ toks, t.type ≠ .doc ∧ t.type ≠ .error ∧ t.text.length ≤ 17) (h2 : (toks.filter fun t => t.type = .kwStruct).length ≤ 14)
    (h3 : ∀ a t b u e, toks = a ++ t :: (b ++ u :: e) → t.type = .kwStruct → u.type = .kwSwitch → ∃ v ∈ b, v.type = .kwPacket)
    (h4 : ∀ a t b, toks = a ++ t :: b → t.type = .identifier → t.text = [0x62, 0x6F, 0x6F, 0x6C] → ∀ v ∈ b.take 2, v.type ≠ .colon)
    (h5 : ∀ a t u b, toks = a ++ t :: u :: b → u.type = .kwPacket → t.type ∉ [TT.lparen, .minus, .bang, .tilde]) : compile P f src ≠ .ub := by
  refine C100_no_ub_partial P f src hl ?_
  have e := (C49_iff src hn 1 [] toks).mpr ht
  unfold tidy
  rw [e]
  dsimp only
  have hd : ∀ t ∈ toks, t.type ≠ .doc := fun t ht => (h1 t ht).1
  have ef : (toks.map Tok.bare).filter (fun t => t.type ≠ .error) = toks.map Tok.bare := by
    rw [List.filter_eq_self]
    intro t ht
    obtain ⟨u, hu, rfl⟩ := List.mem_map.mp ht
    exact decide_eq_true (h1 u hu).2.1
  have ed : (ctxOf (toks.map Tok.bare)).d = false := by
    show (toks.map Tok.bare).any _ = false
    rw [List.any_eq_false]
    intro t ht
    obtain ⟨u, hu, rfl⟩ := List.mem_map.mp ht
    exact fun g => (h1 u hu).1 (of_decide_eq_true g)
  have eL : (ctxOf (toks.map Tok.bare)).L ≤ 17 := by
    refine foldl_max_le _ _ _ (by omega) fun x hx => ?_
    obtain ⟨t, ht, rfl⟩ := List.mem_map.mp hx
    obtain ⟨u, hu, rfl⟩ := List.mem_map.mp ht
    exact (h1 u hu).2.2
  have eA : (ctxOf (toks.map Tok.bare)).A ≤ 255 := by
    show (if _ then 255 else 0) ≤ 255
    split <;> omega
  have es : structs (toks.map Tok.bare) ≤ 14 := by
    unfold structs
    rw [List.countP_map, List.countP_eq_length_filter]
    exact h2
  unfold tidyToks
  rw [ef, Bool.and_eq_true]
  constructor
  · unfold good
    rw [widths_of toks (colon_text ht) h4, windows_of ed toks h5, regions_of toks hd h3, Bool.and_true, Bool.and_true, Bool.and_true, List.all_eq_true]
    intro t ht
    have hx := ht
    obtain ⟨u, hu, rfl⟩ := List.mem_map.mp ht
    unfold fine
    rw [ed]
    simp only [Bool.and_eq_true, Bool.or_eq_true, decide_eq_true_eq]
    refine ⟨⟨⟨⟨decide_eq_true (h1 u hu).1, (h1 u hu).2.1⟩, C100_short _ (h1 u hu).2.2⟩, ?_⟩, ?_⟩
    · exact (le_foldl_max _ _).2 _ (List.mem_map.mpr ⟨_, hx, rfl⟩)
    · by_cases c1 : u.bare.type = .dot
      · right
        show 255 ≤ if (toks.map Tok.bare).any (fun t => t.type = .dot) then 255 else 0
        rw [if_pos (List.any_eq_true.mpr ⟨_, hx, decide_eq_true c1⟩)]
        exact Nat.le_refl _
      · exact .inl c1
  · apply decide_eq_true
    have : ((ctxOf (toks.map Tok.bare)).L + 1) * structs (toks.map Tok.bare) ≤ 18 * 14 := Nat.mul_le_mul (by omega) es
    omega

/-- `struct S { u8 x; }` / `packet P { S s; switch (s.x) { case 1: i16 y; } }` -/
def ex100simple : List Byte :=
  [0x73, 0x74, 0x72, 0x75, 0x63, 0x74, 0x20, 0x53, 0x20, 0x7B, 0x20, 0x75, 0x38, 0x20, 0x78, 0x3B, 0x20, 0x7D, 0x0A, 0x70, 0x61, 0x63, 0x6B, 0x65, 0x74, 0x20, 0x50, 0x20, 0x7B, 0x20, 0x53, 0x20, 0x73, 0x3B, 0x20, 0x73, 0x77, 0x69, 0x74, 0x63, 0x68, 0x20, 0x28, 0x73, 0x2E, 0x78, 0x29, 0x20, 0x7B, 0x20, 0x63, 0x61, 0x73, 0x65, 0x20, 0x31, 0x3A, 0x20, 0x69, 0x31, 0x36, 0x20, 0x79, 0x3B, 0x20, 0x7D, 0x20, 0x7D, 0x0A]

def ex100toks : List Tok :=
  [⟨.kwStruct, [0x73, 0x74, 0x72, 0x75, 0x63, 0x74], 1⟩, ⟨.identifier, [0x53], 1⟩, ⟨.lbrace, [0x7B], 1⟩, ⟨.identifier, [0x75, 0x38], 1⟩, ⟨.identifier, [0x78], 1⟩, ⟨.semicolon, [0x3B], 1⟩, ⟨.rbrace, [0x7D], 1⟩, ⟨.kwPacket, [0x70, 0x61, 0x63, 0x6B, 0x65, 0x74], 2⟩, ⟨.identifier, [0x50], 2⟩, ⟨.lbrace, [0x7B], 2⟩, ⟨.identifier, [0x53], 2⟩, ⟨.identifier, [0x73], 2⟩, ⟨.semicolon, [0x3B], 2⟩, ⟨.kwSwitch, [0x73, 0x77, 0x69, 0x74, 0x63, 0x68], 2⟩, ⟨.lparen, [0x28], 2⟩, ⟨.identifier, [0x73], 2⟩, ⟨.dot, [0x2E], 2⟩, ⟨.identifier, [0x78], 2⟩, ⟨.rparen, [0x29], 2⟩, ⟨.lbrace, [0x7B], 2⟩, ⟨.kwCase, [0x63, 0x61, 0x73, 0x65], 2⟩, ⟨.number, [0x31], 2⟩, ⟨.colon, [0x3A], 2⟩, ⟨.identifier, [0x69, 0x31, 0x36], 2⟩, ⟨.identifier, [0x79], 2⟩, ⟨.semicolon, [0x3B], 2⟩, ⟨.rbrace, [0x7D], 2⟩, ⟨.rbrace, [0x7D], 2⟩, ⟨.eof, [], 3⟩]

theorem Tidy.pair_mem {α : Type} (a : List α) (t u : α) (b : List α) : (t, u) ∈ (a ++ t :: u :: b).zip (a ++ t :: u :: b).tail := by
  induction a with
  | nil => simp
  | cons x a ih =>
    cases a with
    | nil => simp
    | cons y a => simp only [List.cons_append, List.tail_cons, List.zip_cons_cons]; exact List.mem_cons_of_mem _ ih

/-- The class has this text in it. -/
example (P : PEnv) (f : Nat) : compile P f ex100simple ≠ .ub := by
  refine C100_simple_partial P f ex100simple ?_ (by decide +kernel) ex100toks ((C49_iff _ ?_ 1 [] _).mp (by decide +kernel)) (by decide +kernel) (by decide +kernel) ?_ ?_ ?_
  · unfold NoNul; decide +kernel
  · unfold NoNul; decide +kernel
  · intro a t b u e g ht hu
    have hp : ∀ i < ex100toks.length, (ex100toks.getD i eofTok).type = .kwStruct → i = 0 := by decide +kernel
    have hq : ∀ i < ex100toks.length, (ex100toks.getD i eofTok).type = .kwSwitch → 8 ≤ i := by decide +kernel
    have h0 := hp a.length (by rw [g]; simp) (by rw [g]; simpa using ht)
    have h8 := hq (a.length + 1 + b.length) (by rw [g]; simp; omega) (by
      rw [g, List.getD_eq_getElem?_getD, List.getElem?_append_right (by omega), Nat.add_assoc, Nat.add_sub_cancel_left, Nat.add_comm 1, List.getElem?_cons_succ]
      simpa using hu)
    have e7 : ex100toks[7]? = some ⟨.kwPacket, [0x70, 0x61, 0x63, 0x6B, 0x65, 0x74], 2⟩ := by decide +kernel
    cases a with
    | cons _ _ => cases h0
    | nil =>
      have : b[6]? = some ⟨.kwPacket, [0x70, 0x61, 0x63, 0x6B, 0x65, 0x74], 2⟩ := by
        rw [g, List.nil_append, List.getElem?_cons_succ, List.getElem?_append_left (by simp at h8; omega)] at e7
        exact e7
      exact ⟨_, List.mem_of_getElem? this, rfl⟩
  · intro a t b g h1 h2
    have : ∀ t ∈ ex100toks, t.text ≠ [0x62, 0x6F, 0x6F, 0x6C] := by decide +kernel
    exact absurd h2 (this t (by rw [g]; simp))
  · intro a t u b g h1
    have : ∀ p ∈ ex100toks.zip ex100toks.tail, p.2.type = .kwPacket → p.1.type ∉ [TT.lparen, .minus, .bang, .tilde] := by decide +kernel
    exact this (t, u) (by rw [g]; exact Tidy.pair_mem a t u b) h1

end Cnd
