/-
  C76: however the files import each other, the compiler ends; one outcome; single files are as before.
-/
import Verif.Props.Import

namespace Cnd

/-! ### The compiler ends -/

/-- What reading a file may take. -/
def fileCost (fs : Files) (p : List Byte) : Nat :=
  match fs.read p with
  | some src => 16 * (src.length + 1)
  | none => 0

/-- What reading the files that are not in `seen` may take. -/
def budget (fs : Files) (seen : List (List Byte)) : List (List Byte) → Nat
  | [] => 0
  | p :: ps => (if p ∈ seen then 0 else fileCost fs p) + budget fs seen ps

theorem budget_mono (fs : Files) {a b : List (List Byte)} (h : ∀ p ∈ a, p ∈ b) (l : List (List Byte)) : budget fs b l ≤ budget fs a l := by
  induction l with
  | nil => exact Nat.le_refl _
  | cons x xs ih =>
    unfold budget
    by_cases hx : x ∈ a
    · rw [if_pos hx, if_pos (h x hx)]; omega
    · rw [if_neg hx]; split <;> omega

theorem budget_take (fs : Files) {seen : List (List Byte)} {p : List Byte} (h : p ∉ seen) (l : List (List Byte)) (hp : p ∈ l) :
    budget fs (seen ++ [p]) l + fileCost fs p ≤ budget fs seen l := by
  induction l with
  | nil => cases hp
  | cons x xs ih =>
    unfold budget
    by_cases hx : x = p
    · subst hx
      rw [if_neg h, if_pos (by simp)]
      have := budget_mono fs (a := seen) (b := seen ++ [x]) (by simp +contextual) xs
      omega
    · have := ih (by simpa [Ne.symm hx] using hp)
      by_cases hs : x ∈ seen
      · rw [if_pos hs, if_pos (by simp [hs])]; omega
      · rw [if_neg hs, if_neg (by simp [hs, hx])]; omega

theorem budget_nil (fs : Files) (l : List (List Byte)) : budget fs [] l = (l.map (fileCost fs)).sum := by
  induction l with
  | nil => rfl
  | cons x xs ih => unfold budget; rw [if_neg (by simp), List.map_cons, List.sum_cons, ih]

/-- Nothing is read twice and no message is taken back; the messages may be about other files. -/
structure Onward (s t : CSt) : Prop where
  rem : t.rem ≤ s.rem
  errs : s.errs ≤ t.errs

theorem Onward.trans {a b c : CSt} (h : Onward a b) (g : Onward b c) : Onward a c := ⟨Nat.le_trans g.rem h.rem, Nat.le_trans h.errs g.errs⟩
theorem onward {s t : CSt} (h : CLater s t) : Onward s t := ⟨h.rem, h.errs⟩

/-- Later in the same file, with at least the same files begun. -/
structure ILater (fs : Files) (s t : ISt) : Prop where
  c : Onward s.c t.c
  sub : ∀ p ∈ s.imports, p ∈ t.imports
  opened : t.c.errs = 0 → ∀ p ∈ t.imports, p ∈ s.imports ∨ fs.read p ≠ none

theorem ILater.refl {fs : Files} (s : ISt) : ILater fs s s := ⟨onward (Later.refl _), fun _ h => h, fun _ _ h => .inl h⟩
theorem ILater.trans {fs : Files} {a b c : ISt} (h : ILater fs a b) (g : ILater fs b c) : ILater fs a c :=
  ⟨h.c.trans g.c, fun p hp => g.sub p (h.sub p hp), fun e p hp => by
    have := g.c.errs
    rcases g.opened e p hp with q | q
    · exact h.opened (by have : b.c.errs ≤ c.c.errs := g.c.errs; omega) p q
    · exact .inr q⟩
theorem ILater.of {fs : Files} {s : ISt} {c : CSt} (h : CLater s.c c) : ILater fs s { s with c := c } := ⟨onward h, fun _ hp => hp, fun _ _ hp => .inl hp⟩

theorem importHead_later (s : CSt) : CLater s (importHead s).2 := by
  unfold importHead
  exact later_eat (later_eat (later_eat (Later.refl _)))

theorem fileToks_some (src : List Byte) : ∃ toks, fileToks src = some toks ∧ toks.length ≤ src.length + 1 := by
  obtain ⟨toks, _, e⟩ := lexAll_total src
  refine ⟨toks.map Tok.bare, ?_, ?_⟩
  · unfold fileToks; rw [e]; rfl
  · rw [List.length_map]; exact lexAll_length _ _ _ _ e

/-- One declaration behind the decorators; a copy of the case distinction in topLoopI. -/
def topCase (P : PEnv) (f : Nat) (c : CSt) : CRes CSt :=
  match c.cur.type with
  | .kwStruct => parseStruct P f c.adv
  | .kwEnum => parseEnum f c.adv
  | .kwPacket =>
    let c := c.errIf (c.packets > 0)
    parsePacket P f { c.adv with packets := c.packets + 1 }
  | .semicolon => .ok c.adv
  | .eof => .ok c
  | _ => .ok c.err

/-- A declaration is read, or the loop ends behind it. -/
theorem topCase_fine (P : PEnv) (f : Nat) (t : CSt) (h : 8 * t.rem ≤ f + 2) :
    (topCase P f t).All fun u => CLater t u ∧ (u.rem < t.rem ∨ u.cur.type = .eof ∨ u.bad = true) := by
  have hadv := cadv_rem t
  have fwd : ∀ u, t.cur.type ≠ .eof → CLater t.adv u → CLater t u ∧ (u.rem < t.rem ∨ u.cur.type = .eof ∨ u.bad = true) := by
    intro u hne hu
    have := cpos hne
    have := hu.rem
    exact ⟨(later_adv (Later.refl _)).trans hu, .inl (by omega)⟩
  unfold topCase
  split
  · rename_i hk
    have hne : t.cur.type ≠ .eof := by rw [hk]; decide
    have := cpos hne
    exact (parseStruct_fine P f t.adv (by omega)).mono fun u hu => fwd u hne hu
  · rename_i hk
    have hne : t.cur.type ≠ .eof := by rw [hk]; decide
    have := cpos hne
    exact (parseEnum_fine f t.adv (by omega)).mono fun u hu => fwd u hne hu
  · rename_i hk
    have hne : t.cur.type ≠ .eof := by rw [hk]; decide
    have := cpos hne
    dsimp only
    have hl : CLater t (t.errIf (t.packets > 0)).adv := by later
    have := errIf_adv_rem t (t.packets > 0)
    refine (parsePacket_fine P f { (t.errIf (t.packets > 0)).adv with packets := (t.errIf (t.packets > 0)).packets + 1 }
      (show 8 * (t.errIf (t.packets > 0)).adv.rem + 5 ≤ f by omega)).mono fun u hu => ⟨hl.trans hu, .inl (by have : u.rem ≤ _ := hu.rem; have : _ ≤ t.adv.rem := Nat.le_trans this (Nat.le_of_eq ‹_›); omega)⟩
  · rename_i hk
    exact fwd t.adv (by rw [hk]; decide) (Later.refl _)
  · rename_i hk
    exact ⟨Later.refl _, .inr (.inl hk)⟩
  · refine ⟨later_err (Later.refl _), .inr (.inr ?_)⟩
    show decide (t.errs + 1 ≠ 0) = true
    simp

theorem topLoopI_stop {P : PEnv} {fs : Files} {f : Nat} {s : ISt} (h : s.c.cur.type = .eof ∨ s.c.bad = true) (hf : 1 ≤ f) :
    topLoopI P fs f s = .ok s := by
  obtain ⟨g, rfl⟩ : ∃ g, f = g + 1 := ⟨f - 1, by omega⟩
  unfold topLoopI
  rw [if_pos h]

/-- With the bound all four functions end. -/
theorem files_fine (P : PEnv) (fs : Files) (l : List (List Byte)) (hl : ∀ p, fs.read p ≠ none → p ∈ l) (f : Nat) :
    (∀ s : ISt, 8 * s.c.rem + 7 + budget fs s.imports l ≤ f → (parseImport P fs f s).All (ILater fs s)) ∧
    (∀ s : ISt, 8 * s.c.rem + 8 + budget fs s.imports l ≤ f → (topDecI P fs f s).All (ILater fs s)) ∧
    (∀ s : ISt, 8 * s.c.rem + 1 + budget fs s.imports l ≤ f → (topDecsI P fs f s).All (ILater fs s)) ∧
    (∀ s : ISt, 8 * s.c.rem + 2 + budget fs s.imports l ≤ f → (topLoopI P fs f s).All (ILater fs s)) := by
  induction f with
  | zero => exact ⟨fun _ h => by omega, fun _ h => by omega, fun _ h => by omega, fun _ h => by omega⟩
  | succ f ih =>
    obtain ⟨ih1, ih2, ih3, ih4⟩ := ih
    refine ⟨?_, ?_, ?_, ?_⟩
    · intro s h
      unfold parseImport
      have hh := importHead_later s.c
      dsimp only
      split
      · exact ⟨onward (later_err hh), fun _ hp => hp, fun _ _ hp => .inl hp⟩
      · split
        · exact ⟨onward hh, fun _ hp => hp, fun _ _ hp => .inl hp⟩
        · rename_i hs
          split
          · exact ⟨onward (later_err hh), fun _ hp => by simp [hp], fun e => absurd e (Nat.succ_ne_zero _)⟩
          · rename_i src hr
            obtain ⟨toks, ht, hlen⟩ := fileToks_some src
            rw [ht]
            dsimp only
            have hb := budget_take fs hs l (hl _ (by rw [hr]; simp))
            have hcost : fileCost fs (fs.canon (resolvePath s.path (importHead s.c).1)) = 16 * (src.length + 1) := by
              unfold fileCost; rw [hr]
            have hrem := cadv_rem { (importHead s.c).2 with toks := toks }
            have hrem0 : ({ (importHead s.c).2 with toks := toks } : CSt).rem ≤ 2 * toks.length + 1 := by
              show 2 * toks.length + (if _ then 0 else 1) ≤ _
              split <;> omega
            have herr : (importHead s.c).2.errs ≤ ({ (importHead s.c).2 with toks := toks } : CSt).adv.errs :=
              (advance_later ({ (importHead s.c).2 with toks := toks } : CSt).toPSt).1.errs
            refine (ih4 _ ?_).bind fun t ht => ⟨⟨?_, ?_⟩, ?_, ?_⟩
            · dsimp only at hrem hrem0 ⊢
              omega
            · exact hh.rem
            · exact Nat.le_trans hh.errs (Nat.le_trans herr ht.c.errs)
            · intro p hp
              exact ht.sub p (by simp [hp])
            · intro e p hp
              rcases ht.opened e p hp with q | q
              · rcases List.mem_append.1 q with q | q
                · exact .inl q
                · rw [List.mem_singleton.1 q, hr]
                  exact .inr (by simp)
              · exact .inr q
    · intro s h
      unfold topDecI
      split
      · have hl : CLater s.c (s.c.eat .identifier) := later_eat (Later.refl _)
        have := hl.rem
        exact (ih1 _ (by dsimp only; omega)).mono fun t ht => (ILater.of hl).trans ht
      · exact (topDec_fine f s.c (by omega)).bind fun c hc => ILater.of hc
    · intro s h
      unfold topDecsI
      split
      · rename_i hc
        have hp := cpos (s := s.c) (by rw [hc]; decide)
        have := cadv_rem s.c
        refine (ih2 { s with c := s.c.adv } (by dsimp only; omega)).bind fun a ha => ?_
        have h1 := ha.c.rem
        have h2 := budget_mono fs ha.sub l
        dsimp only at h1 h2
        exact (ih3 a (by omega)).mono fun b hb => (ILater.of (later_adv (Later.refl _))).trans (ha.trans hb)
      · exact ILater.refl _
    · intro s h
      unfold topLoopI
      have hadv := cadv_rem s.c
      split
      · exact ILater.refl _
      · rename_i hc
        have hp := cpos (s := s.c) (fun e => hc (.inl e))
        split
        · exact (ih4 { s with c := s.c.adv } (by dsimp only; omega)).mono fun a ha => (ILater.of (later_adv (Later.refl _))).trans ha
        · refine (ih3 s (by omega)).bind fun t ht => ?_
          have h1 := ht.c.rem
          have h2 := budget_mono fs ht.sub l
          refine (topCase_fine P f t.c (by omega)).bind fun u hu => ?_
          have h3 : ILater fs s { t with c := u } := ht.trans (ILater.of hu.1)
          rcases hu.2 with h4 | h4
          · exact (ih4 { t with c := u } (by dsimp only; omega)).mono fun a ha => h3.trans ha
          · rw [topLoopI_stop (s := { t with c := u }) h4 (by omega)]
            exact h3

/-- **C76.** If there are finitely many files, the compiler ends, however they import each other and whatever bytes they
consist of; the bound is linear in their size. -/
theorem C76_ends (P : PEnv) (fs : Files) (l : List (List Byte)) (hl : ∀ p, fs.read p ≠ none → p ∈ l) (path : List Byte) (f : Nat)
    (hf : (l.map (fileCost fs)).sum + 2 ≤ f) : compileFile P fs f path ≠ .stuck := by
  unfold compileFile
  dsimp only
  split
  · simp
  · rename_i src hr
    obtain ⟨toks, ht, hlen⟩ := fileToks_some src
    rw [ht]
    dsimp only
    have hb := budget_take fs (seen := []) (p := fs.canon path) (by simp) l (hl _ (by rw [hr]; simp))
    have h0 : budget fs [] l = (l.map (fileCost fs)).sum := budget_nil fs l
    have hcost : fileCost fs (fs.canon path) = 16 * (src.length + 1) := by unfold fileCost; rw [hr]
    have hrem := cadv_rem (parseStart toks)
    have e : (parseStart toks).rem = 2 * toks.length := rfl
    have := (files_fine P fs l hl f).2.2.2 ⟨(parseStart toks).adv, [fs.canon path], fs.canon path⟩ (by
      dsimp only
      rw [List.nil_append] at hb
      omega)
    unfold parseFiles
    generalize topLoopI P fs f _ = r at this
    cases r with
    | ok s =>
      show finish (.ok _) ≠ _
      unfold finish
      dsimp only
      split <;> simp
    | ub => simp [CRes.bind, finish]
    | imports => simp [CRes.bind, finish]
    | stuck => exact this.elim

/-- **C76.** If an image is made, every file that was named could be opened: a missing file is refused. -/
theorem C76_opened (P : PEnv) (fs : Files) (l : List (List Byte)) (hl : ∀ p, fs.read p ≠ none → p ∈ l) (path src : List Byte) (toks : List Tok) (f : Nat)
    (hf : (l.map (fileCost fs)).sum + 2 ≤ f) (hr : fs.read (fs.canon path) = some src) (ht : fileToks src = some toks) (bs : List Byte)
    (h : compileFile P fs f path = .image bs) :
    ∃ s, topLoopI P fs f ⟨(parseStart toks).adv, [fs.canon path], fs.canon path⟩ = .ok s ∧ ∀ p ∈ s.imports, fs.read p ≠ none := by
  obtain ⟨toks', ht', hlen⟩ := fileToks_some src
  obtain rfl : toks = toks' := by rw [ht] at ht'; exact Option.some.inj ht'
  have hb := budget_take fs (seen := []) (p := fs.canon path) (by simp) l (hl _ (by rw [hr]; simp))
  have h0 : budget fs [] l = (l.map (fileCost fs)).sum := budget_nil fs l
  have hcost : fileCost fs (fs.canon path) = 16 * (src.length + 1) := by unfold fileCost; rw [hr]
  have hrem := cadv_rem (parseStart toks)
  have e : (parseStart toks).rem = 2 * toks.length := rfl
  have hfine := (files_fine P fs l hl f).2.2.2 ⟨(parseStart toks).adv, [fs.canon path], fs.canon path⟩ (by
    dsimp only
    rw [List.nil_append] at hb
    omega)
  unfold compileFile at h
  simp only [hr, ht] at h
  unfold parseFiles at h
  generalize topLoopI P fs f _ = r at h hfine ⊢
  cases r with
  | ok s =>
    refine ⟨s, rfl, fun p hp => ?_⟩
    have hs : s.c.errs = 0 := by
      simp only [CRes.bind, finish] at h
      split at h
      · cases h
      · rename_i hbad
        by_cases he : s.c.errs = 0
        · exact he
        · exfalso
          apply hbad
          unfold CSt.errIf
          split
          · show decide (s.c.errs + 1 ≠ 0) = true
            simp
          · show decide (s.c.errs ≠ 0) = true
            simpa using he
    rcases hfine.opened hs p hp with q | q
    · rw [List.mem_singleton.1 q, hr]
      simp
    · exact q
  | ub => simp [CRes.bind, finish] at h
  | imports => simp [CRes.bind, finish] at h
  | stuck => simp [CRes.bind, finish] at h

/-- **C76.** A path of 256 bytes or more is refused, whatever follows the import. -/
theorem C76_long (P : PEnv) (fs : Files) (l : List (List Byte)) (hl : ∀ p, fs.read p ≠ none → p ∈ l) (path src rel : List Byte) (ks : List Tok)
    (hr : fs.read (fs.canon path) = some src) (ht : fileToks src = some (Piece.toks (.imp rel) ++ ks)) (hk : NoErr ks) (hlong : 256 ≤ rel.length) :
    ∃ n, ∀ f ≥ n, ∀ bs, compileFile P fs f path ≠ .image bs := by
  have hst : ∃ c : CSt, c.errs = 1 ∧ ∀ F, topDecsI P fs (F + 3) ⟨(parseStart (Piece.toks (.imp rel) ++ ks)).adv, [fs.canon path], fs.canon path⟩ =
      topDecsI P fs (F + 2) ⟨c, [fs.canon path], fs.canon path⟩ := by
    have e0 : (parseStart (Piece.toks (.imp rel) ++ ks)).adv = topSt P.dbl P.fl {} eofTok (Piece.toks (.imp rel) ++ ks) := by
      rw [← topSt_adv (p := eofTok) (by rw [NoErr_append]; exact ⟨by simp [Piece.toks, called, NoErr_append], hk⟩)]
      rfl
    refine ⟨(topSt P.dbl P.fl {} tRp ks).err, rfl, fun F => ?_⟩
    have h1 := topDecsI_imp P fs {} eofTok rel ks [fs.canon path] (fs.canon path) hk F
    unfold iSt at h1
    rw [e0, h1]
    unfold parseImport
    dsimp only
    rw [importHead_step P {} _ rel ks hk, if_pos hlong]
    rfl
  obtain ⟨c, hc, q⟩ := hst
  refine ⟨8 * c.rem + 8 + budget fs [fs.canon path] l + 8, fun f hf bs h => ?_⟩
  obtain ⟨g, rfl⟩ : ∃ g, f = g + 4 := ⟨f - 4, by omega⟩
  unfold compileFile at h
  simp only [hr, ht] at h
  unfold parseFiles at h
  unfold topLoopI at h
  rw [if_neg (by simp [parseStart, Piece.toks, called, CSt.adv, PSt.advance, pull, CSt.bad, tAt, tk]), if_neg (by
    simp [parseStart, Piece.toks, called, CSt.adv, PSt.advance, pull, tAt, tk]), q g] at h
  have hd := (files_fine P fs l hl (g + 2)).2.2.1 ⟨c, [fs.canon path], fs.canon path⟩ (by dsimp only; omega)
  have key : (((topDecsI P fs (g + 2) ⟨c, [fs.canon path], fs.canon path⟩).bind fun t => (topCase P (g + 3) t.c).bind fun u =>
      topLoopI P fs (g + 3) { t with c := u })).All fun t => t.c.errs ≠ 0 := by
    refine hd.bind fun t ht => ?_
    have h1 := ht.c.rem
    have h2 : 1 ≤ t.c.errs := hc ▸ ht.c.errs
    dsimp only at h1
    refine (topCase_fine P (g + 3) t.c (by omega)).bind fun u hu => ?_
    have h3 : 1 ≤ u.errs := Nat.le_trans h2 hu.1.errs
    rw [topLoopI_stop (s := { t with c := u }) (.inr (decide_eq_true (Nat.ne_of_gt h3))) (by omega)]
    show u.errs ≠ 0
    omega
  have h' := h
  change finish ((((topDecsI P fs (g + 2) ⟨c, [fs.canon path], fs.canon path⟩).bind fun t => (topCase P (g + 3) t.c).bind fun u =>
      topLoopI P fs (g + 3) { t with c := u })).bind fun s => .ok (s.c.errIf (s.c.packets = 0))) = _ at h'
  generalize ((topDecsI P fs (g + 2) ⟨c, [fs.canon path], fs.canon path⟩).bind fun t => (topCase P (g + 3) t.c).bind fun u =>
      topLoopI P fs (g + 3) { t with c := u }) = r at key h'
  cases r with
  | ok s =>
    simp only [CRes.bind, finish] at h'
    rw [if_pos (by
      have : 1 ≤ s.c.errs := Nat.pos_of_ne_zero key
      unfold CSt.errIf
      split
      · show decide (s.c.errs + 1 ≠ 0) = true
        simp
      · exact decide_eq_true (by omega))] at h'
    cases h'
  | ub => simp [CRes.bind, finish] at h'
  | imports => simp [CRes.bind, finish] at h'
  | stuck => simp [CRes.bind, finish] at h'

/-! ### One outcome -/

theorem topCase_more (P : PEnv) (f : Nat) (s : CSt) : (topCase P f s).le (topCase P (f + 1) s) := by
  unfold topCase
  split
  · exact parseStruct_more _ _ _
  · exact parseEnum_more _ _
  · exact parsePacket_more _ _ _
  · exact .refl _
  · exact .refl _
  · exact .refl _

theorem topDec_more (f : Nat) (s : CSt) : (topDec f s).le (topDec (f + 1) s) := by
  unfold topDec
  repeat' (first | exact CRes.le.refl _ | apply le_ite)
  exact (skipToParen_more f _).bind fun _ => .refl _

theorem files_more (P : PEnv) (fs : Files) (f : Nat) :
    (∀ s, (parseImport P fs f s).le (parseImport P fs (f + 1) s)) ∧ (∀ s, (topDecI P fs f s).le (topDecI P fs (f + 1) s)) ∧
    (∀ s, (topDecsI P fs f s).le (topDecsI P fs (f + 1) s)) ∧ (∀ s, (topLoopI P fs f s).le (topLoopI P fs (f + 1) s)) := by
  induction f with
  | zero => exact ⟨fun _ => .inl rfl, fun _ => .inl rfl, fun _ => .inl rfl, fun _ => .inl rfl⟩
  | succ f ih =>
    obtain ⟨ih1, ih2, ih3, ih4⟩ := ih
    refine ⟨?_, ?_, ?_, ?_⟩
    · intro s
      unfold parseImport
      refine le_ite (.refl _) (le_ite (.refl _) ?_)
      split
      · exact .refl _
      · split
        · exact .refl _
        · exact (ih4 _).bind fun _ => .refl _
    · intro s
      unfold topDecI
      exact le_ite (ih1 _) ((topDec_more f s.c).bind fun _ => .refl _)
    · intro s
      unfold topDecsI
      exact le_ite ((ih2 _).bind fun _ => ih3 _) (.refl _)
    · intro s
      unfold topLoopI
      exact le_ite (.refl _) (le_ite (ih4 _) ((ih3 s).bind fun t => (topCase_more P f t.c).bind fun _ => ih4 _))

theorem parseFiles_more (P : PEnv) (fs : Files) (f k : Nat) (seen : List (List Byte)) (cur : List Byte) (toks : List Tok)
    (h : finish (parseFiles P fs f seen cur toks) ≠ .stuck) :
    finish (parseFiles P fs (f + k) seen cur toks) = finish (parseFiles P fs f seen cur toks) := by
  have more : ∀ k s, (topLoopI P fs f s).le (topLoopI P fs (f + k) s) := by
    intro k s
    induction k with
    | zero => exact .refl _
    | succ k ih => exact ih.trans ((files_more P fs (f + k)).2.2.2 s)
  unfold parseFiles at h ⊢
  rcases more k ⟨(parseStart toks).adv, seen, cur⟩ with e | e
  · rw [e] at h
    exact absurd rfl h
  · rw [e]

theorem compileFile_more (P : PEnv) (fs : Files) (f k : Nat) (path : List Byte) (h : compileFile P fs f path ≠ .stuck) :
    compileFile P fs (f + k) path = compileFile P fs f path := by
  unfold compileFile at h ⊢
  dsimp only at h ⊢
  split
  · rfl
  · rename_i src hr
    rw [hr] at h
    dsimp only at h
    split
    · rfl
    · rename_i toks ht
      rw [ht] at h
      exact parseFiles_more P fs f k _ _ toks h

theorem diagnoseFile_more (P : PEnv) (fs : Files) (f k : Nat) (path src : List Byte) (h : diagnoseFile P fs f path src ≠ .stuck) :
    diagnoseFile P fs (f + k) path src = diagnoseFile P fs f path src := by
  unfold diagnoseFile at h ⊢
  split
  · rfl
  · rename_i toks ht
    rw [ht] at h
    exact parseFiles_more P fs f k _ _ toks h

/-- **C76.** The outcome is one and the same, whatever bound is taken. -/
theorem C76_one (P : PEnv) (fs : Files) (path : List Byte) (f g : Nat) (hf : compileFile P fs f path ≠ .stuck)
    (hg : compileFile P fs g path ≠ .stuck) : compileFile P fs f path = compileFile P fs g path := by
  rcases Nat.le_total f g with h | h
  · obtain ⟨k, rfl⟩ : ∃ k, g = f + k := ⟨g - f, by omega⟩
    exact (compileFile_more P fs f k _ hf).symm
  · obtain ⟨k, rfl⟩ : ∃ k, f = g + k := ⟨f - g, by omega⟩
    exact compileFile_more P fs g k _ hg

/-! ### Files without imports -/

/-- `r` is the outcome `a` with the table of imports and the path as in `s`, or `a` is outside the model of one file. -/
def SameOutcome (s : ISt) (a : CRes CSt) (r : CRes ISt) : Prop :=
  match a with
  | .ok c => r = .ok { s with c := c }
  | .ub => r = .ub
  | .imports => True
  | .stuck => True

theorem SameOutcome.bind {s : ISt} {a : CRes CSt} {r : CRes ISt} (h : SameOutcome s a r) {f : CSt → CRes CSt} {g : ISt → CRes ISt}
    (hg : ∀ c, SameOutcome s (f c) (g { s with c := c })) : SameOutcome s (a.bind f) (r.bind g) := by
  cases a with
  | ok c =>
    have e : r = .ok { s with c := c } := h
    rw [e]
    exact hg c
  | ub =>
    have e : r = .ub := h
    rw [e]
    rfl
  | imports => trivial
  | stuck => trivial

theorem SameOutcome.le {s : ISt} {a b : CRes CSt} (h : a.le b) {g : CSt → CRes CSt} {k : CSt → CRes ISt}
    (hk : ∀ c, SameOutcome s (g c) (k c)) : SameOutcome s (a.bind g) (b.bind k) := by
  rcases h with rfl | rfl
  · trivial
  · cases a with
    | ok c => exact hk c
    | ub => rfl
    | imports => trivial
    | stuck => trivial

theorem topDecs_same (P : PEnv) (fs : Files) (f : Nat) (s : ISt) : SameOutcome s (topDecs f s.c) (topDecsI P fs (f + 1) s) := by
  induction f generalizing s with
  | zero => exact trivial
  | succ f ih =>
    unfold topDecs topDecsI
    split
    · have h1 : SameOutcome s (topDec f s.c.adv) (topDecI P fs (f + 1) { s with c := s.c.adv }) := by
        unfold topDecI
        by_cases h : s.c.adv.cur.isWord s_import = true
        · have : topDec f s.c.adv = .imports := by
            unfold topDec
            dsimp only
            rw [if_neg (by
              intro hv
              simp only [Tok.isWord, decide_eq_true_eq] at h hv
              rw [h.2] at hv
              exact absurd hv.2 (by decide)), if_pos (by simpa [Tok.isWord] using h)]
          rw [this]
          trivial
        · rw [if_neg h]
          cases topDec f s.c.adv <;> first | rfl | trivial
      exact h1.bind fun c => ih { s with c := c }
    · rfl

theorem topLoop_same (P : PEnv) (fs : Files) (f : Nat) (s : ISt) : SameOutcome s (topLoop P f s.c) (topLoopI P fs (f + 1) s) := by
  induction f generalizing s with
  | zero => exact trivial
  | succ f ih =>
    unfold topLoop topLoopI
    split
    · rfl
    · split
      · exact ih { s with c := s.c.adv }
      · exact (topDecs_same P fs f s).bind fun c => SameOutcome.le (topCase_more P f c) fun d => ih { s with c := d }

/-- **C76.** A file that imports nothing is translated as by itself: all that is proved of `compile` holds of it. -/
theorem C76_single (P : PEnv) (fs : Files) (path src : List Byte) (f : Nat) (hr : fs.read (fs.canon path) = some src)
    (h1 : compile P f src ≠ .imports) (h2 : compile P f src ≠ .stuck) : compileFile P fs (f + 1) path = compile P f src := by
  obtain ⟨toks, _, e⟩ := lexAll_total src
  unfold compile at h1 h2 ⊢
  unfold compileFile fileToks
  dsimp only
  rw [hr]
  dsimp only
  rw [e] at h1 h2 ⊢
  dsimp only [Option.map_some] at h1 h2 ⊢
  unfold compileToks parseTop at h1 h2 ⊢
  unfold parseFiles
  have := topLoop_same P fs f ⟨(parseStart (toks.map Tok.bare)).adv, [fs.canon path], fs.canon path⟩
  dsimp only at this
  generalize topLoop P f (parseStart (toks.map Tok.bare)).adv = a at *
  cases a with
  | ok c =>
    rw [show topLoopI P fs (f + 1) _ = _ from this]
    rfl
  | ub =>
    rw [show topLoopI P fs (f + 1) _ = _ from this]
    rfl
  | imports => exact absurd rfl h1
  | stuck => exact absurd rfl h2

/-! ### Examples -/

/-- The text gives the parser these tokens, so it consists of the pieces. -/
theorem reads_of {src : List Byte} {ps : List Piece} (h : fileToks src = some (ps.flatMap Piece.toks ++ [eofTok])) : Reads src ps := by
  obtain ⟨toks, h1, h2⟩ := lexAll_total src
  refine ⟨toks, h1, ?_⟩
  unfold fileToks at h
  rw [h2] at h
  exact Option.some.inj h

/-- A directory of files; `lib/../` is taken out of paths. -/
def dirOf (files : List (List Byte × List Byte)) : Files :=
  { canon := fun p => if p = word "/p/lib/../main.cnd" then word "/p/main.cnd" else p
    read := fun p => files.lookup p }

def srcMain76 : List Byte := word "@import(\"lib/a.cnd\") @import(\"lib/b.cnd\") @big_endian packet P { A x; }"
def srcA76 : List Byte := word "@import(\"b.cnd\") struct A { B y; u8 n; }"
def srcB76 : List Byte := word "/// The inner one.\n@import(\"../main.cnd\") // not again\n@import(\"a.cnd\") struct B { u16 z; }"

/-- A main file, and a library of two files that import each other and the main file. -/
def exFiles76 : Files := dirOf [(word "/p/main.cnd", srcMain76), (word "/p/lib/a.cnd", srcA76), (word "/p/lib/b.cnd", srcB76)]

def exMain76 : List Piece :=
  [.imp (word "lib/a.cnd"), .imp (word "lib/b.cnd"), .dec .bigEndian, .decl (.packet (word "P") (bodyOf [fieldOf [] "A" "x"]))]

def exA76 : List Piece := [.imp (word "b.cnd"), .decl (.struct (word "A") (bodyOf [fieldOf [] "B" "y", fieldOf [] "u8" "n"]))]

def exB76 : List Piece :=
  [.doc (word " The inner one."), .imp (word "../main.cnd"), .imp (word "a.cnd"), .decl (.struct (word "B") (bodyOf [fieldOf [] "u16" "z"]))]

def exInB76 : List Item := [.doc (word " The inner one."), .decl [] (.struct (word "B") (bodyOf [fieldOf [] "u16" "z"]))]

def exInA76 : List Item := exInB76 ++ [.decl [] (.struct (word "A") (bodyOf [fieldOf [] "B" "y", fieldOf [] "u8" "n"]))]

/-- Everything in one. -/
def exItems76 : List Item := exInA76 ++ [.decl [.bigEndian] .empty, .decl [] (.packet (word "P") (bodyOf [fieldOf [] "A" "x"]))]

theorem exMain76_reads : Reads srcMain76 exMain76 := reads_of (by decide +kernel)

/-- The files import each other; the expansion has each of them once. -/
theorem exFiles76_expand : Expand exFiles76 (word "/p/main.cnd") [word "/p/main.cnd"] exMain76 exItems76
    [word "/p/main.cnd", word "/p/lib/a.cnd", word "/p/lib/b.cnd"] := by
  have hb : Expand exFiles76 (word "/p/lib/b.cnd") ([word "/p/main.cnd", word "/p/lib/a.cnd"] ++ [word "/p/lib/b.cnd"]) exB76 exInB76
      [word "/p/main.cnd", word "/p/lib/a.cnd", word "/p/lib/b.cnd"] := by
    refine .doc (.again (full := word "/p/main.cnd") ?_ (refers_iff.2 ?_) ?_ (.again (full := word "/p/lib/a.cnd") ?_ (refers_iff.2 ?_) ?_ (.decl (.nil _ _))))
    all_goals decide +kernel
  have ha : Expand exFiles76 (word "/p/lib/a.cnd") ([word "/p/main.cnd"] ++ [word "/p/lib/a.cnd"]) exA76 exInA76
      [word "/p/main.cnd", word "/p/lib/a.cnd", word "/p/lib/b.cnd"] := by
    refine .file (full := word "/p/lib/b.cnd") (src := srcB76) ?_ (refers_iff.2 ?_) ?_ ?_ (reads_of (ps := exB76) ?_) (by simp [exB76, DocsFirst]) hb (.decl (.nil _ _))
    all_goals decide +kernel
  refine .file (full := word "/p/lib/a.cnd") (src := srcA76) ?_ (refers_iff.2 ?_) ?_ ?_ (reads_of (ps := exA76) ?_) (by simp [exA76, DocsFirst]) ha
    (.again (full := word "/p/lib/b.cnd") ?_ (refers_iff.2 ?_) ?_ (.dec (.decl (.nil _ _))))
  all_goals decide +kernel

def exTab76 : List (List Byte) := ["z", "y", "y.z", "n", "x", "x.y", "x.y.z", "x.n", "P"].map word

def exCode76 : List Byte := [0x02, 0x07, 8, 0, 0x03, 4, 0, 0x03, 5, 0, 0x11, 6, 0, 0x04, 0x10, 7, 0, 0x04]

theorem ex76_code : progCode demoP.dbl demoP.fl exItems76 = some (exTab76, exCode76) := by decide +kernel

/-- The example meets the hypotheses of C76_files. -/
theorem ex76_image : ∃ n, ∀ f ≥ n, compileFile demoP exFiles76 f (word "/p/main.cnd") =
    .image (writeImage (optimizeStrings exTab76 exCode76).1 (optimizeStrings exTab76 exCode76).2) :=
  C76_files demoP exFiles76 (word "/p/main.cnd") (word "/p/main.cnd") srcMain76 exMain76 exItems76 _ exTab76 exCode76 (by decide +kernel)
    (by decide +kernel) exMain76_reads (by simp [exMain76, DocsFirst]) exFiles76_expand ex76_code

/-- Its files are finitely many, so that C76_ends applies to it. -/
example (f : Nat) (hf : 5000 ≤ f) (path : List Byte) : compileFile demoP exFiles76 f path ≠ .stuck := by
  refine C76_ends demoP exFiles76 [word "/p/main.cnd", word "/p/lib/a.cnd", word "/p/lib/b.cnd"] ?_ path f (Nat.le_trans (by decide +kernel) hf)
  intro p hp
  simp only [exFiles76, dirOf, List.lookup] at hp
  repeat' (split at hp)
  all_goals first
    | exact absurd rfl hp
    | (rename_i h; simp only [beq_iff_eq] at h; simp [h])

/-- A bound with which the outcome is found gives it for all. -/
theorem ex76_all {P : PEnv} {fs : Files} {path : List Byte} {r : Compiled} (n : Nat) (h : compileFile P fs n path = r) (hr : r ≠ .stuck) :
    ∀ f ≥ n, compileFile P fs f path = r := by
  intro f hf
  obtain ⟨k, rfl⟩ : ∃ k, f = n + k := ⟨f - n, by omega⟩
  rw [compileFile_more P fs n k path (by rw [h]; exact hr), h]

/-- A file named that is not there is refused. -/
example : ∀ f ≥ 50, compileFile demoP (dirOf [(word "/p/main.cnd", srcMain76)]) f (word "/p/main.cnd") = .refused :=
  ex76_all 50 (by decide +kernel) (by simp)

/-- A path that is too long is refused. -/
example : ∃ n, ∀ f ≥ n, ∀ bs, compileFile demoP (dirOf [(word "m", word "@import(\"" ++ List.replicate 256 0x61 ++ word "\") packet P { u8 x; }")]) f
    (word "m") ≠ .image bs := by
  refine C76_long demoP _ [word "m"] ?_ (word "m") (word "@import(\"" ++ List.replicate 256 0x61 ++ word "\") packet P { u8 x; }") (List.replicate 256 0x61)
    [tk .kwPacket (word "packet"), tId (word "P"), tk .lbrace [0x7B], tId (word "u8"), tId (word "x"), tk .semicolon [0x3B], tk .rbrace [0x7D], eofTok]
    (by decide +kernel) (by decide +kernel) (by simp [NoErr, eofTok, tk, tId]) (by rw [List.length_replicate]; exact Nat.le_refl _)
  intro p hp
  simp only [dirOf, List.lookup] at hp
  repeat' (split at hp)
  all_goals first
    | exact absurd rfl hp
    | (rename_i h; simp only [beq_iff_eq] at h; simp [h])

/-! ### Where it fails -/

def srcDoc76 : List Byte := word "@import(\"a.cnd\")\n/// The packet.\npacket P { A x; }"
def srcDocA76 : List Byte := word "struct A { u8 n; }"
def docFiles76 : Files := dirOf [(word "/p/main.cnd", srcDoc76), (word "/p/a.cnd", srcDocA76)]
def exDoc76 : List Piece := [.imp (word "a.cnd"), .doc (word " The packet."), .decl (.packet (word "P") (bodyOf [fieldOf [] "A" "x"]))]
def exDocItems76 : List Item :=
  [.decl [] (.struct (word "A") (bodyOf [fieldOf [] "u8" "n"]))] ++
    [.doc (word " The packet."), .decl [] (.packet (word "P") (bodyOf [fieldOf [] "A" "x"]))]

/-- **C76 fails** without `DocsFirst`: a documentation comment behind an import, in front of the declaration it documents, is refused,
though the program written in one file is translated. -/
theorem C76_false_doc : ∃ (fs : Files) (path src : List Byte) (ps : List Piece) (items : List Item) (seen' tab : List (List Byte)) (code : List Byte),
    fs.canon path = path ∧ fs.read path = some src ∧ Reads src ps ∧ Expand fs path [path] ps items seen' ∧
    progCode demoP.dbl demoP.fl items = some (tab, code) ∧ ∀ f ≥ 50, compileFile demoP fs f path = .refused := by
  refine ⟨docFiles76, word "/p/main.cnd", srcDoc76, exDoc76, exDocItems76, [word "/p/main.cnd"] ++ [word "/p/a.cnd"],
    ["n", "x", "x.n", "P"].map word, [0x07, 3, 0, 0x03, 1, 0, 0x10, 2, 0, 0x04], by decide +kernel, by decide +kernel,
    reads_of (by decide +kernel), ?_, by decide +kernel, ex76_all 50 (by decide +kernel) (by simp)⟩
  refine .file (full := word "/p/a.cnd") (src := srcDocA76) ?_ (refers_iff.2 ?_) ?_ ?_
    (reads_of (ps := [.decl (.struct (word "A") (bodyOf [fieldOf [] "u8" "n"]))]) ?_) (by simp [DocsFirst]) (.decl (.nil _ _)) (.doc (.decl (.nil _ _)))
  all_goals decide +kernel

/-- **C76 fails** for the language server, which does not enter the document itself: of the cyclic example above, which the
compiler translates, it reports errors. -/
theorem C76_false_editor : ∀ f ≥ 100, diagnoseFile demoP exFiles76 f (word "/p/main.cnd") srcMain76 = .refused ∧
    ∃ bs, compileFile demoP exFiles76 f (word "/p/main.cnd") = .image bs := by
  have h1 : diagnoseFile demoP exFiles76 100 (word "/p/main.cnd") srcMain76 = .refused := by decide +kernel
  have h2 : compileFile demoP exFiles76 100 (word "/p/main.cnd") =
      .image (writeImage (optimizeStrings exTab76 exCode76).1 (optimizeStrings exTab76 exCode76).2) := by decide +kernel
  intro f hf
  obtain ⟨k, rfl⟩ : ∃ k, f = 100 + k := ⟨f - 100, by omega⟩
  exact ⟨by rw [diagnoseFile_more demoP exFiles76 100 k _ _ (by rw [h1]; simp), h1],
    _, by rw [compileFile_more demoP exFiles76 100 k _ (by rw [h2]; simp), h2]⟩

end Cnd
