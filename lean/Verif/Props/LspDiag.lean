/-
  C88: the diagnostics published by the language server.
-/
import Verif.LspDiag
import Verif.Props.LspCursor
import Verif.Props.ParseTerm
import Verif.Source

namespace Cnd

/-! ### Specification -/

/-- Token number `i` of the text begins behind `a`; the end of the text counts as its last token. The quotation mark of a string and the slashes of a
documentation comment belong to `a`. -/
inductive StartAt : List Byte → Nat → List Byte → Prop
  | eof {t} : Trivia t [] → StartAt t 0 t
  | tok {t raw s ty text} : Trivia t (raw ++ s) → IsTok raw s ty text → ty ≠ .string → ty ≠ .doc → StartAt (t ++ (raw ++ s)) 0 t
  | str {t raw s text} : Trivia t (raw ++ s) → IsTok raw s .string text → StartAt (t ++ (raw ++ s)) 0 (t ++ [0x22])
  | doc {t raw s text} : Trivia t (raw ++ s) → IsTok raw s .doc text → StartAt (t ++ (raw ++ s)) 0 (t ++ [0x2F, 0x2F, 0x2F])
  | next {t raw s ty text i a} : Trivia t (raw ++ s) → IsTok raw s ty text → StartAt s i a → StartAt (t ++ (raw ++ s)) (i + 1) (t ++ (raw ++ a))

/-- No token contains a newline (only strings can). -/
def NoBreak (src : List Byte) : Prop :=
  ∀ tys t raw s ty text, Behind true src tys (t ++ (raw ++ s)) → Trivia t (raw ++ s) → IsTok raw s ty text → 0x0A ∉ raw

/-- Carriage returns only stand in front of newlines. -/
def CrLf (src : List Byte) : Prop := ∀ a b, src = a ++ 0x0D :: b → NextIs (· = 0x0A) b

/-! ### The table -/

theorem note_spec (l : List (Nat × Nat)) : ∀ (t : ErrTab) (k : List (Nat × Nat)), t.cap ∈ [0, 8, 16, 32, 64, 128, 256, 512, 1024] → t.count = k.length →
    t.kept = k.take 1024 → (t.count ≤ t.cap ∨ t.cap = 1024) →
    (l.foldl ErrTab.note t).count = (k ++ l).length ∧ (l.foldl ErrTab.note t).kept = (k ++ l).take 1024 ∧
      ((l.foldl ErrTab.note t).count ≤ (l.foldl ErrTab.note t).cap ∨ (l.foldl ErrTab.note t).cap = 1024) ∧ (l.foldl ErrTab.note t).cap ≤ 1024 := by
  induction l with
  | nil =>
    intro t k h1 h2 h3 h4
    rw [List.append_nil]
    refine ⟨h2, h3, h4, ?_⟩
    simp only [List.mem_cons, List.not_mem_nil, or_false] at h1
    show t.cap ≤ 1024
    omega
  | cons e l ih =>
    intro t k h1 h2 h3 h4
    rw [List.foldl_cons]
    have e1 : k ++ e :: l = (k ++ [e]) ++ l := by simp
    rw [e1]
    simp only [List.mem_cons, List.not_mem_nil, or_false] at h1
    by_cases hc : t.count + 1 > t.cap
    · by_cases hb : t.count + 1 ≤ (if (if t.cap = 0 then 8 else t.cap * 2) > 1024 then 1024 else (if t.cap = 0 then 8 else t.cap * 2))
      · have en : t.note e = ⟨if (if t.cap = 0 then 8 else t.cap * 2) > 1024 then 1024 else (if t.cap = 0 then 8 else t.cap * 2), t.count + 1, t.kept ++ [e]⟩ := by
          unfold ErrTab.note
          dsimp only
          rw [if_pos hc, if_pos hb, if_pos hb]
        rw [en]
        have hk : k.length < 1024 := by
          rw [← h2]
          split at hb <;> split at hb <;> omega
        refine ih _ _ ?_ ?_ ?_ (.inl hb)
        · simp only [List.mem_cons, List.not_mem_nil, or_false]
          split <;> split <;> omega
        · simp [h2]
        · dsimp only
          rw [h3, List.take_of_length_le (by omega), List.take_of_length_le (by simp; omega)]
      · have en : t.note e = ⟨t.cap, t.count + 1, t.kept⟩ := by
          unfold ErrTab.note
          dsimp only
          rw [if_pos hc, if_neg hb, if_neg (by omega)]
        rw [en]
        have hk : t.cap = 1024 ∧ 1024 ≤ k.length := by
          rw [← h2]
          split at hb <;> split at hb <;> omega
        refine ih _ _ ?_ ?_ ?_ (.inr hk.1)
        · simp only [List.mem_cons, List.not_mem_nil, or_false]; omega
        · simp [h2]
        · dsimp only
          rw [h3, List.take_append_of_le_length hk.2]
    · have en : t.note e = ⟨t.cap, t.count + 1, t.kept ++ [e]⟩ := by
        unfold ErrTab.note
        dsimp only
        rw [if_neg hc, if_pos (by omega)]
      rw [en]
      refine ih _ _ ?_ ?_ ?_ (.inl (by dsimp only; omega))
      · simp only [List.mem_cons, List.not_mem_nil, or_false]; omega
      · simp [h2]
      · dsimp only
        rw [h3, List.take_of_length_le (by omega), List.take_of_length_le (by simp; omega)]

theorem mapM_some {α β : Type} (f : α → Option β) (g : α → β) : ∀ l : List α, (∀ x ∈ l, f x = some (g x)) → l.mapM f = some (l.map g)
  | [], _ => rfl
  | x :: l, h => by
    rw [List.mapM_cons, h x (by simp), mapM_some f g l fun y hy => h y (List.mem_cons_of_mem _ hy)]
    rfl

theorem mapM_range {α β : Type} (f : α → β) (l : List α) : (List.range l.length).mapM (fun i => l[i]?.map f) = some (l.map f) := by
  cases l with
  | nil => rfl
  | cons d l =>
    rw [mapM_some _ fun i => f ((d :: l).getD i d)]
    · congr 1
      apply List.ext_getElem
      · simp
      · intro i h1 h2
        rw [List.getElem_map, List.getElem_map, List.getElem_range, List.getD_eq_getElem?_getD,
          List.getElem?_eq_getElem (by simpa using h2)]
        rfl
    · intro i hi
      have : i < (d :: l).length := List.mem_range.1 hi
      rw [List.getD_eq_getElem?_getD, List.getElem?_eq_getElem this]
      rfl

/-- Of the messages the first 1024 are kept, and all of them are published; no entry is read that was not written. -/
theorem publish_spec (l : List (Nat × Nat)) : (l.foldl ErrTab.note {}).publish = some ((l.take 1024).map fun e => (e.1 - 1, e.2 - 1)) := by
  obtain ⟨h1, h2, h3, h4⟩ := note_spec l {} [] (by simp) rfl rfl (.inl (Nat.le_refl _))
  rw [List.nil_append] at h1 h2
  unfold ErrTab.publish
  have e : (if (l.foldl ErrTab.note {}).count ≤ (l.foldl ErrTab.note {}).cap then (l.foldl ErrTab.note {}).count else (l.foldl ErrTab.note {}).cap) =
      (l.take 1024).length := by
    rw [List.length_take]
    split <;> omega
  rw [e, h2]
  exact mapM_range _ _

/-! ### Positions -/

theorem startAt_text {src : List Byte} {i : Nat} {a : List Byte} (h : StartAt src i a) (hb : NoBreak src) :
    ∃ b, src = a ++ b ∧ (b = [] ∨ ¬ NextIs (· = 0x0A) b ∨ ∃ x c, a = x ++ [c] ∧ c ≠ 0x0D) := by
  induction h with
  | eof => exact ⟨[], by simp, .inl rfl⟩
  | @tok t raw s ty text h1 h2 _ _ =>
    have hr := hb [] t raw s ty text (.here _) h1 h2
    refine ⟨raw ++ s, rfl, .inr (.inl ?_)⟩
    have hne := (isTok_kind h2).1
    cases raw with
    | nil => exact absurd rfl hne
    | cons c cs =>
      rintro ⟨d, ds, e, rfl⟩
      cases e
      exact hr (by simp)
  | @str t raw s text h1 h2 =>
    cases h2 with
    | str h => refine ⟨_, by simp; rfl, .inr (.inr ⟨t, 0x22, rfl, by decide⟩)⟩
    | openStr h => refine ⟨_, by simp; rfl, .inr (.inr ⟨t, 0x22, rfl, by decide⟩)⟩
    | op h => exact absurd h (by simp [punct])
    | word _ _ _ h => rcases h with h | ⟨h, _⟩ <;> exact absurd h (by simp [keywords])
  | @doc t raw s text h1 h2 =>
    cases h2 with
    | doc h => refine ⟨_, by simp; rfl, .inr (.inr ⟨t ++ [0x2F, 0x2F], 0x2F, by simp, by decide⟩)⟩
    | op h => exact absurd h (by simp [punct])
    | word _ _ _ h => rcases h with h | ⟨h, _⟩ <;> exact absurd h (by simp [keywords])
  | @next t raw s ty text i a h1 h2 h3 ih =>
    obtain ⟨b, rfl, h⟩ := ih fun tys t' raw' s' ty' text' g => hb (ty :: tys) t' raw' s' ty' text' (.tok h1 h2 (by simp) g)
    refine ⟨b, by simp, h.imp id (.imp id ?_)⟩
    rintro ⟨x, c, rfl, hc⟩
    exact ⟨t ++ (raw ++ x), c, by simp, hc⟩

theorem takeWhile_same {α : Type} (p q : α → Bool) : ∀ l : List α, (∀ x y z, l = x ++ y :: z → p y ≠ q y → ∃ w ∈ x, p w = false ∧ q w = false) →
    l.takeWhile p = l.takeWhile q
  | [], _ => rfl
  | c :: l, h => by
    have hc : p c = q c := Decidable.byContradiction fun hc => by
      obtain ⟨w, hw, _⟩ := h [] c l rfl hc
      cases hw
    cases hq : q c with
    | false => rw [List.takeWhile_cons_of_neg (by simp [hc, hq]), List.takeWhile_cons_of_neg (by simp [hq])]
    | true =>
      rw [List.takeWhile_cons_of_pos (hc.trans hq), List.takeWhile_cons_of_pos hq, takeWhile_same p q l]
      intro x y z e hne
      obtain ⟨w, hw, h1, h2⟩ := h (c :: x) y z (by rw [e]; rfl) hne
      rcases List.mem_cons.1 hw with rfl | hw
      · rw [hq] at h2; cases h2
      · exact ⟨w, hw, h1, h2⟩

theorem columnIn_spec {src : List Byte} {i : Nat} {a : List Byte} (h : StartAt src i a) (hb : NoBreak src) (hc : CrLf src) :
    columnIn (src ++ [0]) a.length = colOf a + 1 := by
  obtain ⟨b, rfl, hcr⟩ := startAt_text h hb
  unfold columnIn colOf
  rw [List.append_assoc, List.take_left, takeWhile_same _ (· != 0x0A)]
  intro x y z e hne
  have hy : y = 0x0D := Decidable.byContradiction fun hy => hne (by
    have : (y != 0x0D) = true := bne_iff_ne.2 hy
    rw [this, Bool.and_true])
  subst hy
  have ea : a = z.reverse ++ 0x0D :: x.reverse := by
    have := congrArg List.reverse e
    simpa using this
  obtain ⟨d, ds, e2, rfl⟩ := hc z.reverse (x.reverse ++ b) (by rw [ea]; simp)
  cases hx : x.reverse with
  | nil =>
    rw [hx, List.nil_append] at e2
    rcases hcr with h | h | ⟨u, c, h, h'⟩
    · rw [h] at e2; cases e2
    · exact absurd ⟨_, _, e2, rfl⟩ h
    · rw [ea, hx] at h
      have := List.append_inj_right' h rfl
      cases this
      exact absurd rfl h'
  | cons w ws =>
    rw [hx] at e2
    cases e2
    refine ⟨0x0A, ?_, by decide, by decide⟩
    rw [← List.mem_reverse, hx]
    simp

theorem placesOf_length (src : List Byte) : ∀ (f : Nat) (cur : List Byte) (line : Nat) (toks : List Tok), lexAll f cur line = some toks →
    (places src f cur line).length = toks.length := by
  intro f
  induction f with
  | zero => intro cur line toks h; exact absurd h (by simp [lexAll])
  | succ f ih =>
    intro cur line toks h
    unfold lexAll at h
    unfold places
    split at h
    · rename_i t rest line' he
      rw [he]
      dsimp only
      split at h
      · rename_i hc
        cases h
        rw [if_pos hc]
        rfl
      · rename_i hc
        obtain ⟨ts, h1, rfl⟩ := Option.map_eq_some_iff.mp h
        rw [if_neg hc, List.length_cons, List.length_cons, ih _ _ _ h1]
    · exact absurd h (by simp)

theorem tok_lead {raw s : List Byte} {ty : TT} {text : List Byte} (h : IsTok raw s ty text) :
    leadOf (raw ++ s) = (if ty = .string then 1 else if ty = .doc then 3 else 0) := by
  have hl := isTok_lead h
  cases h with
  | op h =>
    have : ty ≠ .string ∧ ty ≠ .doc := by
      constructor <;> (rintro rfl; exact absurd h (by simp [punct]))
    rw [if_neg this.1, if_neg this.2]; omega
  | word _ _ _ h =>
    have : ty ≠ .string ∧ ty ≠ .doc := by
      constructor <;> (rintro rfl; rcases h with h | ⟨h, _⟩ <;> exact absurd h (by simp [keywords]))
    rw [if_neg this.1, if_neg this.2]; omega
  | num => rw [if_neg (by decide), if_neg (by decide)]; omega
  | negNum => rw [if_neg (by decide), if_neg (by decide)]; omega
  | str => simp [leadOf]
  | openStr => simp [leadOf]
  | doc => simp [leadOf]
  | error => rw [if_neg (by decide), if_neg (by decide)]; omega

theorem places_cons (src : List Byte) (f : Nat) {cur : List Byte} {line : Nat} {t : Tok} {rest : List Byte} {line' : Nat}
    (h : lexNext cur line = .tok t rest line') : places src (f + 1) cur line =
      (src.length - (tokStart (cur.length + 1) cur).length, t.line) :: (if t.type = .eof then [] else places src f rest line') := by
  rw [places, h]

theorem places_spec : ∀ (f : Nat) (pre cur : List Byte) (line : Nat), NoNul (pre ++ cur) → NoBreak cur → cur.length < f →
    ∀ i p, (places ((pre ++ cur) ++ [0]) f (cur ++ [0]) line)[i]? = some p → ∃ a, StartAt cur i a ∧ p = (pre.length + a.length, line + newlines a) := by
  intro f
  induction f with
  | zero => intro pre cur line _ _ h; omega
  | succ f ih =>
    intro pre cur line hn hb hf i p hp
    rcases lexLoop_spec [] ((cur ++ [0]).length + 1) cur line hn.right (by simp; omega) with ⟨g1, g2⟩ | ⟨t, raw, s, ty, text, e, g1, g2, g3, g4, g5⟩
    · rw [places_cons _ _ g2, if_pos rfl] at hp
      have e := tokStart_all [] g1 stop_nil (by simpa using hn.right) ((cur ++ [0]).length + 1) (by simp; omega)
      rw [List.append_nil] at e
      rw [e] at hp
      cases i with
      | zero =>
        refine ⟨cur, .eof g1, ?_⟩
        cases hp
        simp
      | succ i => simp at hp
    · rw [places_cons _ _ g5, if_neg g4] at hp
      subst e
      have hne : raw ++ s ≠ [] := fun h => g3 (List.append_eq_nil_iff.1 h).1
      have hl := isTok_lead g2
      cases i with
      | zero =>
        rw [tokStart_spec [] g1 hne (isTok_stop g2) hn.right _ (by simp; omega)] at hp
        rw [List.getElem?_cons_zero, Option.some.injEq] at hp
        have hlead := tok_lead g2
        have hlen : ((pre ++ (t ++ (raw ++ s))) ++ [0]).length - ((raw ++ s).drop (leadOf (raw ++ s)) ++ [0]).length =
            pre.length + (t.length + leadOf (raw ++ s)) := by
          simp only [List.length_append, List.length_drop]
          omega
        rw [hlen, hlead] at hp
        by_cases h1 : ty = .string
        · subst h1
          refine ⟨_, .str g1 g2, ?_⟩
          rw [← hp, newlines_append, if_pos rfl]
          simp [newlines]
        · by_cases h2 : ty = .doc
          · subst h2
            refine ⟨_, .doc g1 g2, ?_⟩
            rw [← hp, newlines_append, if_neg (by decide), if_pos rfl]
            simp [newlines]
          · refine ⟨_, .tok g1 g2 h1 h2, ?_⟩
            rw [← hp, if_neg h1, if_neg h2]
            simp
      | succ i =>
        rw [List.getElem?_cons_succ] at hp
        have hp' := List.length_pos_iff.2 g3
        have e : pre ++ (t ++ raw) ++ s = pre ++ (t ++ (raw ++ s)) := by simp
        have hr := hb [] t raw s ty text (.here _) g1 g2
        obtain ⟨a, h1, h2⟩ := ih (pre ++ (t ++ raw)) s (line + newlines t) (by simpa using hn)
          (fun tys t' raw' s' ty' text' g => hb (ty :: tys) t' raw' s' ty' text' (.tok g1 g2 (by simp) g)) (by simp only [List.length_append] at hf; omega) i p
          (by rw [e]; exact hp)
        refine ⟨t ++ (raw ++ a), .next g1 g2 h1, ?_⟩
        rw [h2, newlines_append, newlines_append, newlines_none hr]
        simp only [List.length_append, Prod.mk.injEq]
        omega

/-! ### Where the parser gives messages -/

theorem pull_noted (ts : List Tok) (l : List Nat) : Noted (ts.length - 1) (pull ts l).2.1.length l (pull ts l).2.2 := by
  induction ts generalizing l with
  | nil => exact .refl _ _
  | cons t ts ih =>
    unfold pull
    rw [List.length_cons, Nat.add_sub_cancel]
    split
    · exact Noted.trans ⟨Nat.sub_le _ _, [ts.length], rfl, by simp, by simp⟩ (ih _)
    · exact .refl _ _

/-- Every message is about a token of the source, and later ones are not about earlier tokens. -/
theorem parseTop_noted (P : PEnv) (toks : List Tok) (f : Nat) (hf : 16 * toks.length + 2 ≤ f) :
    (parseTop P f (parseStart toks).adv).All fun s => s.log.Pairwise (· ≤ ·) ∧ ∀ n ∈ s.log, n ≤ toks.length - 1 := by
  have h1 : (parseStart toks).adv.rem ≤ 2 * toks.length := by
    have := cadv_rem (parseStart toks)
    have e : (parseStart toks).rem = 2 * toks.length := rfl
    omega
  unfold parseTop
  refine (topLoop_fine P f (parseStart toks).adv (by omega)).bind fun s hs => ?_
  have h2 : CLater (parseStart toks).adv (s.errIf (s.packets = 0)) := later_errIf hs
  have h3 : Noted (toks.length - 1) (parseStart toks).adv.toks.length [] (parseStart toks).adv.log := pull_noted toks []
  obtain ⟨_, m, e, k1, k2⟩ := h3.trans h2.log
  rw [List.append_nil] at e
  show (s.errIf (s.packets = 0)).log.Pairwise (· ≤ ·) ∧ _
  rw [e]
  exact ⟨k1, fun n hn => (k2 n hn).2⟩

/-! ### C88 -/

/-- What is published, in terms of the parser's state. -/
theorem diagnostics_eq (P : PEnv) (f : Nat) (src : List Byte) {toks : List Tok} (hl : lexAll (src.length + 1) (src ++ [0]) 1 = some toks) :
    diagnostics P f src =
      match parseTop P f (parseStart (toks.map Tok.bare)).adv with
      | .ok s => .list ((s.log.reverse.take 1024).map fun n =>
          let p := placeOf (src ++ [0]) (places (src ++ [0]) (src.length + 1) (src ++ [0]) 1) n
          (p.1 - 1, p.2 - 1))
      | .ub => .ub
      | .imports => .imports
      | .stuck => .stuck := by
  unfold diagnostics
  rw [hl]
  dsimp only
  cases parseTop P f (parseStart (toks.map Tok.bare)).adv with
  | ok s =>
    dsimp only
    rw [← List.foldl_map (f := placeOf (src ++ [0]) (places (src ++ [0]) (src.length + 1) (src ++ [0]) 1)) (g := ErrTab.note), publish_spec,
      ← List.map_take, List.map_map]
    rfl
  | ub => rfl
  | imports => rfl
  | stuck => rfl

/-- **C88**: nothing is reported about a document exactly if the compiler accepts it, and something exactly if the compiler refuses it. -/
theorem C88_agrees (P : PEnv) (f : Nat) (src : List Byte) :
    (diagnostics P f src = .list [] ↔ ∃ bs, compile P f src = .image bs) ∧
    ((∃ d ds, diagnostics P f src = .list (d :: ds)) ↔ compile P f src = .refused) := by
  obtain ⟨toks, _, hl⟩ := lexAll_total src
  rw [diagnostics_eq P f src hl]
  unfold compile compileToks
  rw [hl]
  dsimp only
  cases parseTop P f (parseStart (toks.map Tok.bare)).adv with
  | ok s =>
    dsimp only
    cases hlog : s.log with
    | nil =>
      have : s.bad = false := by unfold CSt.bad; simp [hlog]
      rw [this]
      simp
    | cons n l =>
      have : s.bad = true := by unfold CSt.bad; simp [hlog]
      rw [this]
      have h2 : (n :: l).reverse.take 1024 ≠ [] := by
        intro h
        have := congrArg List.length h
        rw [List.length_take, List.length_reverse, List.length_cons, List.length_nil] at this
        omega
      obtain ⟨m, ms, h3⟩ : ∃ m ms, (n :: l).reverse.take 1024 = m :: ms := by
        cases h : (n :: l).reverse.take 1024 with
        | nil => exact absurd h h2
        | cons m ms => exact ⟨m, ms, rfl⟩
      rw [h3]
      simp
  | ub => simp
  | imports => simp
  | stuck => simp

/-- **C88** (with newlines in strings, or carriage returns that end lines by themselves, the positions are wrong): each of the published positions is the
line and column at which a token of the document begins, and they are in the order of the document. -/
theorem C88_places_partial (P : PEnv) (f : Nat) (src : List Byte) (hf : 16 * (src.length + 1) + 2 ≤ f) (hn : NoNul src) (hb : NoBreak src) (hc : CrLf src)
    (ds : List (Nat × Nat)) (h : diagnostics P f src = .list ds) :
    ds.length ≤ 1024 ∧ ∃ l : List (Nat × List Byte), ds = l.map (fun x => (newlines x.2, colOf x.2)) ∧ l.Pairwise (fun x y => x.1 ≤ y.1) ∧
      ∀ x ∈ l, StartAt src x.1 x.2 := by
  obtain ⟨toks, _, hl⟩ := lexAll_total src
  rw [diagnostics_eq P f src hl] at h
  have hlen := lexAll_length _ _ _ _ hl
  have hnoted := parseTop_noted P (toks.map Tok.bare) f (by rw [List.length_map]; omega)
  revert h hnoted
  cases parseTop P f (parseStart (toks.map Tok.bare)).adv with
  | ok s =>
    intro h hnoted
    dsimp only at h
    cases h
    obtain ⟨k1, k2⟩ := hnoted
    rw [List.length_map] at k2
    have hpl := placesOf_length (src ++ [0]) _ _ _ _ hl
    have htok : 0 < toks.length := by
      cases toks with
      | nil =>
        unfold lexAll at hl
        split at hl
        · split at hl
          · cases hl
          · obtain ⟨ts, _, h⟩ := Option.map_eq_some_iff.mp hl
            cases h
        · cases hl
      | cons => simp
    have key : ∀ n ∈ s.log, ∃ a, StartAt src (toks.length - 1 - n) a ∧
        placeOf (src ++ [0]) (places (src ++ [0]) (src.length + 1) (src ++ [0]) 1) n = (newlines a + 1, colOf a + 1) := by
      intro n hn'
      have := k2 n hn'
      obtain ⟨p, hp⟩ : ∃ p, (places (src ++ [0]) (src.length + 1) (src ++ [0]) 1)[toks.length - 1 - n]? = some p :=
        ⟨_, List.getElem?_eq_getElem (by rw [hpl]; omega)⟩
      obtain ⟨a, h1, h2⟩ := places_spec (src.length + 1) [] src 1 hn hb (by omega) _ p hp
      refine ⟨a, h1, ?_⟩
      unfold placeOf
      rw [hpl, List.getD_eq_getElem?_getD, hp, h2]
      simp only [Option.getD_some, List.length_nil, Nat.zero_add]
      rw [columnIn_spec h1 hb hc, Nat.add_comm 1]
    refine ⟨by rw [List.length_map, List.length_take]; omega, ?_⟩
    have hsub : ∀ n ∈ s.log.reverse.take 1024, n ∈ s.log := fun n hn => List.mem_reverse.1 (List.mem_of_mem_take hn)
    have hord : (s.log.reverse.take 1024).Pairwise (fun a b => b ≤ a) :=
      (List.pairwise_reverse.2 k1).sublist (List.take_sublist _ _)
    generalize s.log.reverse.take 1024 = ns at hsub hord
    suffices hs : ∃ l : List (Nat × List Byte), l.map (·.1) = ns.map (toks.length - 1 - ·) ∧ ns.map (fun n =>
        let p := placeOf (src ++ [0]) (places (src ++ [0]) (src.length + 1) (src ++ [0]) 1) n
        (p.1 - 1, p.2 - 1)) = l.map (fun x => (newlines x.2, colOf x.2)) ∧ ∀ x ∈ l, StartAt src x.1 x.2 by
      obtain ⟨l, e1, e2, e3⟩ := hs
      refine ⟨l, e2, ?_, e3⟩
      have : (l.map (·.1)).Pairwise (· ≤ ·) := by
        rw [e1]
        exact hord.map _ fun a b hab => by omega
      exact List.pairwise_map.1 this
    clear hord
    induction ns with
    | nil => exact ⟨[], rfl, rfl, by simp⟩
    | cons n ns ih =>
      obtain ⟨l, e1, e2, e3⟩ := ih (fun m hm => hsub m (List.mem_cons_of_mem _ hm))
      obtain ⟨a, h1, h2⟩ := key n (hsub n (by simp))
      refine ⟨(toks.length - 1 - n, a) :: l, by rw [List.map_cons, List.map_cons, e1], ?_, ?_⟩
      · rw [List.map_cons, List.map_cons, e2]
        dsimp only
        rw [h2]
        rfl
      · intro x hx
        rcases List.mem_cons.1 hx with rfl | hx
        · exact h1
        · exact e3 x hx
  | ub => intro h; cases h
  | imports => intro h; cases h
  | stuck => intro h; cases h

/-! ### Texts without strings -/

theorem tok_oneLine {raw s : List Byte} {ty : TT} {text : List Byte} (h : IsTok raw s ty text) (hty : ty ≠ .string) : 0x0A ∉ raw := by
  have hl : ¬ Letter 0x0A := fun h => absurd ((letter_iff _).2 h) (by decide)
  have hd : ¬ Digit 0x0A := fun h => absurd ((digit_iff _).2 h) (by decide)
  have hx : ¬ HexDigit 0x0A := fun h => absurd ((hexDigit_iff _).2 h) (by decide)
  have hnum : ∀ {n s}, NumLexeme n s → 0x0A ∉ n := by
    intro n s h hm
    cases h with
    | hex h1 h2 _ =>
      rcases List.mem_cons.1 hm with h | hm
      · exact absurd h (by decide)
      · rcases List.mem_cons.1 hm with rfl | hm
        · rcases h1 with h | h <;> exact absurd h (by decide)
        · exact hx (h2 _ hm)
    | int _ h2 => exact hd (h2 _ hm)
    | frac _ h2 _ h3 =>
      rcases List.mem_append.1 hm with hm | hm
      · exact hd (h2 _ hm)
      · rcases List.mem_cons.1 hm with h | hm
        · exact absurd h (by decide)
        · exact hd (h3 _ hm)
  intro hm
  cases h with
  | op h =>
    have : ∀ p ∈ punct, 0x0A ∉ p.1 := by decide +kernel
    exact this _ h hm
  | word h1 h2 =>
    rcases List.mem_cons.1 hm with rfl | hm
    · exact hl h1
    · exact (h2 _ hm).elim hl hd
  | num h => exact hnum h hm
  | negNum h =>
    rcases List.mem_cons.1 hm with h' | hm
    · exact absurd h' (by decide)
    · exact hnum h hm
  | str => exact hty rfl
  | openStr => exact hty rfl
  | doc h1 =>
    simp only [List.mem_cons] at hm
    rcases hm with h | h | h | h
    · exact absurd h (by decide)
    · exact absurd h (by decide)
    · exact absurd h (by decide)
    · exact h1 h
  | error _ _ _ _ h =>
    rcases List.mem_cons.1 hm with rfl | hm
    · exact h (by simp)
    · cases hm

theorem noBreak_noQuote {src : List Byte} (h : 0x22 ∉ src) : NoBreak src := by
  intro tys t raw s ty text hb h1 h2
  refine tok_oneLine h2 ?_
  rintro rfl
  obtain ⟨a, rfl⟩ := behind_suffix hb
  have hq : 0x22 ∈ raw := by
    cases h2 with
    | str => simp
    | openStr => simp
    | op h => exact absurd h (by simp [punct])
    | word _ _ _ h => rcases h with h | ⟨h, _⟩ <;> exact absurd h (by simp [keywords])
  exact h (List.mem_append_right _ (List.mem_append_right _ (List.mem_append_left _ hq)))

/-! ### Examples -/

namespace DiagDemo

/-- A semicolon is missing behind `x`, and the second field is found instead of it. -/
example : diagnostics ⟨fun _ => 0, Demo.fl⟩ 2000 (word "packet P {\n  u8 x\n  u8 y;\n}") = .list [(2, 2), (2, 2)] := by decide +kernel

def P : PEnv := ⟨fun _ => 0, Demo.fl⟩

def text : List Byte := word "packet P {\n  u8 x\n  u8 y;\n}"

/-- The hypotheses are met: there are no strings in the text and no carriage returns. -/
example : NoNul text ∧ NoBreak text ∧ CrLf text :=
  ⟨by unfold NoNul; decide +kernel, noBreak_noQuote (by decide +kernel), fun a b h => absurd (show 0x0D ∈ text by rw [h]; simp) (by decide +kernel)⟩

/-- **C88**, without its restrictions, is false: after a string with a newline the line is too small (the `x` is in line 1), and after a carriage
return that is not followed by a newline the column begins again though the line does not (the brace is 18 bytes behind the beginning of line 0). -/
theorem C88_false_lines :
    diagnostics P 2000 (word "@foo(\"\n\") x") = .list [(0, 3), (0, 3)] ∧ newlines (word "@foo(\"\n\") ") = 1 ∧
    diagnostics P 2000 (word "packet P {\r  u8 x\r}") = .list [(0, 0)] ∧
    (∀ a, a ≠ [] → a <+: word "packet P {\r  u8 x\r}" → (newlines a, colOf a) ≠ (0, 0)) := by
  refine ⟨by decide +kernel, by decide +kernel, by decide +kernel, ?_⟩
  intro a ha hp
  have : ∀ n < (word "packet P {\r  u8 x\r}").length + 1, n ≠ 0 → (newlines ((word "packet P {\r  u8 x\r}").take n), colOf ((word "packet P {\r  u8 x\r}").take n)) ≠ (0, 0) := by
    decide +kernel
  have h2 := this a.length (by have := hp.length_le; omega) (fun h => ha (List.length_eq_zero_iff.1 h))
  rwa [← List.prefix_iff_eq_take.1 hp] at h2

/-- The token a message is given at is the current one, which often is not the one that is wrong: the second `a` is in column 20, the parenthesis that
stands where an expression should be in column 27. -/
theorem C88_behind :
    diagnostics P 2000 (word "packet P { u8 a; u8 a; }") = .list [(0, 21)] ∧
    diagnostics P 2000 (word "packet P { u8 a; @expr(a + ) u8 b; }") = .list [(0, 29), (0, 29)] := by
  decide +kernel

end DiagDemo

end Cnd
