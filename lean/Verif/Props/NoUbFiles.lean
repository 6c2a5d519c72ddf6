/-
  C100 for programs of several files (Verif/Import.lean): if the tokens of every file that can be read pass the check, with common bounds, neither the
  compiler nor the parser of the language server meets undefined behaviour, however the files import each other.
-/
import Verif.Props.NoUb
import Verif.Props.ImportTerm

namespace Cnd.Tidy

/-- The tokens of a file without those the lexer reports as errors. -/
def fileView (fs : Files) (p : List Byte) : List Tok :=
  match fs.read p with
  | none => []
  | some src =>
    match fileToks src with
    | none => []
    | some toks => toks.filter (fun t => t.type ≠ .error)

/-- Structs in the files that have not been read. -/
def unread (fs : Files) (seen : List (List Byte)) : List (List Byte) → Nat
  | [] => 0
  | p :: ps => (if p ∈ seen then 0 else structs (fileView fs p)) + unread fs seen ps

theorem unread_mono (fs : Files) {a b : List (List Byte)} (h : ∀ p ∈ a, p ∈ b) (l : List (List Byte)) : unread fs b l ≤ unread fs a l := by
  induction l with
  | nil => exact Nat.le_refl _
  | cons x xs ih =>
    unfold unread
    by_cases hx : x ∈ a
    · rw [if_pos hx, if_pos (h x hx)]; omega
    · rw [if_neg hx]; split <;> omega

theorem unread_take (fs : Files) {seen : List (List Byte)} {p : List Byte} (h : p ∉ seen) (l : List (List Byte)) (hp : p ∈ l) :
    unread fs (seen ++ [p]) l + structs (fileView fs p) ≤ unread fs seen l := by
  induction l with
  | nil => cases hp
  | cons x xs ih =>
    unfold unread
    by_cases hx : x = p
    · subst hx
      rw [if_neg h, if_pos (by simp)]
      have := unread_mono fs (a := seen) (b := seen ++ [x]) (by simp +contextual) xs
      omega
    · have := ih (by simpa [Ne.symm hx] using hp)
      by_cases hs : x ∈ seen
      · rw [if_pos hs, if_pos (by simp [hs])]; omega
      · rw [if_neg hs, if_neg (by simp [hs, hx])]; omega

theorem unread_nil (fs : Files) (l : List (List Byte)) : unread fs [] l = (l.map fun p => structs (fileView fs p)).sum := by
  induction l with
  | nil => rfl
  | cons x xs ih => unfold unread; rw [if_neg (by simp), List.map_cons, List.sum_cons, ih]

section
variable {c : Ctx} {lim X : Nat} {s : CSt}

theorem Tp.less {Y : Nat} (h : Tp c X lim s) (hy : Y ≤ X) : Tp c Y lim s := by
  refine ⟨⟨⟨⟨h.1.p.low.1, h.1.p.low.2.1, by omega⟩, h.1.p.good, h.1.p.prev, ?_, h.1.p.names, h.1.p.tab, h.1.p.sw, h.1.p.code⟩, rfl, rfl⟩, h.2⟩
  have := h.1.p.room
  omega

/-- Another file is begun. -/
theorem Tp.enter {Y : Nat} {toks : List Tok} (h : Tp c X lim s) (hg : good c (toks.filter (fun t => t.type ≠ .error)) = true)
    (hr : lim + Y + (c.L + 1) * structs (toks.filter (fun t => t.type ≠ .error)) ≤ 511) : Tp c Y lim ({ s with toks := toks } : CSt).adv := by
  have e : stream ({ s with toks := toks } : CSt).toPSt = s.cur :: toks.filter (fun t => t.type ≠ .error) := rfl
  have e0 : structs [eofTok] = 0 := rfl
  have h1 : stream ({ s with toks := toks } : CSt).adv.toPSt = [eofTok] ∨
      stream ({ s with toks := toks } : CSt).adv.toPSt = toks.filter (fun t => t.type ≠ .error) := by
    rcases stream_adv ({ s with toks := toks } : CSt).toPSt with ⟨_, g⟩ | g
    · exact .inl g
    · rw [e] at g; injection g with _ g; exact .inr g.symm
  refine ⟨⟨⟨⟨h.1.p.low.1, h.1.p.low.2.1, by omega⟩, ?_, h.1.p.cur, ?_, h.1.p.names, List.prefix_refl _, fun e => (by cases e), fun e => (by cases e)⟩, rfl, rfl⟩, h.2.regs, h.2.enums⟩
  · rcases h1 with g | g <;> rw [g]
    · exact eof_good c
    · exact hg
  · rcases h1 with g | g <;> rw [g]
    · rw [e0]; omega
    · exact hr

/-- The importing file is gone on with. -/
theorem Tp.leave {Y lim' : Nat} {t : CSt} (h : Tp c X lim s) (g : Tp c (Y + (c.L + 1) * structs (stream s.toPSt)) lim' t) :
    Tp c Y lim' ({ t with prev := s.prev, cur := s.cur, toks := s.toks } : CSt) := by
  refine ⟨⟨⟨⟨g.1.p.low.1, g.1.p.low.2.1, by omega⟩, h.1.p.good, h.1.p.prev, ?_, g.1.p.names, List.prefix_refl _, fun e => (by cases e), fun e => (by cases e)⟩, rfl, rfl⟩, g.2.regs, g.2.enums⟩
  have := g.1.p.room
  show lim' + Y + (c.L + 1) * structs (stream s.toPSt) ≤ 511
  omega

theorem topCase_ok (P : PEnv) (f : Nat) (hf : f < 0x2000000000000000) (ht : Tp c X lim s) : CSafe (fun u => ∃ l, Tp c X l u) (topCase P f s) := by
  unfold topCase
  split
  · rename_i hk
    exact csafe_mono (parseStruct_ok P f (more_room hk ht.1) ht.adv.2) fun u hu => ⟨_, hu⟩
  · exact csafe_mono (parseEnum_ok hf ht.adv) fun u hu => ⟨_, hu⟩
  · refine csafe_mono (parsePacket_ok P f (lim := lim) (X := X) ?_) fun u hu => ⟨_, hu⟩
    exact Tp.same (s := (s.errIf (decide (s.packets > 0))).adv) ht.errIf.adv rfl rfl rfl rfl rfl rfl rfl
  · exact ⟨_, ht.adv⟩
  · exact ⟨_, ht⟩
  · exact ⟨_, ht.err⟩

end

/-- Between declarations of a file, `pend` structs being left in the files that import it. -/
def TI (c : Ctx) (fs : Files) (l : List (List Byte)) (pend : Nat) (s : ISt) : Prop :=
  ∃ lim, Tp c ((c.L + 1) * (pend + unread fs s.imports l)) lim s.c

theorem files_ok {c : Ctx} (P : PEnv) (fs : Files) (l : List (List Byte)) (hl : ∀ p, fs.read p ≠ none → p ∈ l)
    (hg : ∀ p ∈ l, good c (fileView fs p) = true) (f : Nat) (hf : f < 0x2000000000000000) :
    (∀ pend s, TI c fs l pend s → CSafe (TI c fs l pend) (parseImport P fs f s)) ∧
    (∀ pend s, TI c fs l pend s → CSafe (TI c fs l pend) (topDecI P fs f s)) ∧
    (∀ pend s, TI c fs l pend s → CSafe (TI c fs l pend) (topDecsI P fs f s)) ∧
    (∀ pend s, TI c fs l pend s → CSafe (TI c fs l pend) (topLoopI P fs f s)) := by
  induction f with
  | zero => exact ⟨fun _ _ _ => trivial, fun _ _ _ => trivial, fun _ _ _ => trivial, fun _ _ _ => trivial⟩
  | succ f ih =>
    obtain ⟨ih1, ih2, ih3, ih4⟩ := ih (by omega)
    refine ⟨?_, ?_, ?_, ?_⟩
    · rintro pend s ⟨lim, h⟩
      unfold parseImport
      have hh : Tp c ((c.L + 1) * (pend + unread fs s.imports l)) lim (importHead s.c).2 := h.eat.eat.eat
      dsimp only
      split
      · exact ⟨lim, hh.err⟩
      · split
        · exact ⟨lim, hh⟩
        · rename_i hs
          have hmono := unread_mono fs (a := s.imports) (b := s.imports ++ [fs.canon (resolvePath s.path (importHead s.c).1)]) (by simp +contextual) l
          split
          · exact ⟨lim, hh.err.less (Nat.mul_le_mul_left _ (by dsimp only; omega))⟩
          · rename_i src hr
            obtain ⟨toks, ht, _⟩ := fileToks_some src
            have hp := hl _ (by rw [hr]; simp : fs.read (fs.canon (resolvePath s.path (importHead s.c).1)) ≠ none)
            have hv : fileView fs (fs.canon (resolvePath s.path (importHead s.c).1)) = toks.filter (fun t => t.type ≠ .error) := by
              unfold fileView; rw [hr]; dsimp only; rw [ht]
            have hb := unread_take fs hs l hp
            have hgood := hg _ hp
            rw [hv] at hb hgood
            rw [ht]
            dsimp only
            have hroom := hh.1.p.room
            have hmul : (c.L + 1) * (pend + structs (stream (importHead s.c).2.toPSt) + unread fs (s.imports ++ [fs.canon (resolvePath s.path (importHead s.c).1)]) l) +
                (c.L + 1) * structs (toks.filter (fun t => t.type ≠ .error)) ≤
                (c.L + 1) * (pend + unread fs s.imports l) + (c.L + 1) * structs (stream (importHead s.c).2.toPSt) := by
              rw [← Nat.mul_add, ← Nat.mul_add]
              exact Nat.mul_le_mul_left _ (by omega)
            refine csafe_bind (ih4 (pend + structs (stream (importHead s.c).2.toPSt)) _ ⟨lim, hh.enter hgood (by dsimp only; omega)⟩) ?_
            rintro t ⟨lim', g⟩
            refine ⟨lim', hh.leave (Tp.less g ?_)⟩
            rw [← Nat.mul_add]
            exact Nat.mul_le_mul_left _ (by show pend + unread fs t.imports l + _ ≤ _; omega)
    · rintro pend s ⟨lim, h⟩
      unfold topDecI
      split
      · exact ih1 pend _ ⟨lim, h.eat⟩
      · exact csafe_bind (topDec_ok f h) fun r hr => ⟨lim, hr⟩
    · rintro pend s ⟨lim, h⟩
      unfold topDecsI
      exact csafe_ite (csafe_bind (ih2 pend _ ⟨lim, h.adv⟩) fun r hr => ih3 pend r hr) ⟨lim, h⟩
    · rintro pend s ⟨lim, h⟩
      unfold topLoopI
      refine csafe_ite ⟨lim, h⟩ (csafe_ite (ih4 pend _ ⟨lim, h.adv⟩) (csafe_bind (ih3 pend s ⟨lim, h⟩) ?_))
      rintro t ⟨lt, ht⟩
      exact csafe_bind (r := topCase P f t.c) (topCase_ok P f (by omega) ht) fun u hu => ih4 pend _ hu

theorem parseFiles_ok {c : Ctx} (P : PEnv) (fs : Files) (l : List (List Byte)) (hl : ∀ p, fs.read p ≠ none → p ∈ l) (hg : ∀ p ∈ l, good c (fileView fs p) = true)
    (f : Nat) (hf : f < 0x2000000000000000) (seen : List (List Byte)) (path : List Byte) (toks : List Tok) (hm : good c (toks.filter (fun t => t.type ≠ .error)) = true)
    (hr : max c.L c.A + (c.L + 1) * (structs (toks.filter (fun t => t.type ≠ .error)) + unread fs seen l) ≤ 511) : finish (parseFiles P fs f seen path toks) ≠ .ub := by
  rw [Nat.mul_add] at hr
  have h0 : Tp c 0 (max c.L c.A) (parseStart []) := by
    have e0 : structs [eofTok] = 0 := rfl
    refine ⟨⟨⟨⟨Nat.le_max_left _ _, Nat.le_max_right _ _, Nat.le_refl _⟩, eof_good c, eof_fine c, ?_, fun x hx => absurd hx List.not_mem_nil, List.prefix_refl _,
      fun e => (by cases e), fun e => (by cases e)⟩, rfl, rfl⟩, fun x hx => absurd hx List.not_mem_nil, fun x hx => absurd hx List.not_mem_nil⟩
    show max c.L c.A + 0 + (c.L + 1) * structs [eofTok] ≤ 511
    rw [e0]; omega
  have h1 := h0.enter (Y := (c.L + 1) * (0 + unread fs seen l)) (toks := toks) hm (by rw [Nat.zero_add]; omega)
  have h2 := (files_ok P fs l hl hg f hf).2.2.2 0 ⟨(parseStart toks).adv, seen, path⟩ ⟨_, h1⟩
  unfold parseFiles
  cases e : topLoopI P fs f ⟨(parseStart toks).adv, seen, path⟩ with
  | ub => rw [e] at h2; exact h2.elim
  | ok s =>
    dsimp only [CRes.bind, finish]
    split
    · exact fun h => nomatch h
    · exact fun h => nomatch h
  | imports => exact fun h => nomatch h
  | stuck => exact fun h => nomatch h

/-- The check on the files of a list: as for one file, with the structs of all of them. -/
def tidyFiles (fs : Files) (l : List (List Byte)) : Bool :=
  let c := ctxOf (l.flatMap (fileView fs))
  l.all (fun p => good c (fileView fs p)) && decide (max c.L c.A + (c.L + 1) * (l.map fun p => structs (fileView fs p)).sum ≤ 511)

/-- The same with a text that is in the editor. -/
def tidyEditor (fs : Files) (l : List (List Byte)) (src : List Byte) : Bool :=
  match fileToks src with
  | none => false
  | some toks =>
    let V := toks.filter (fun t => t.type ≠ .error)
    let c := ctxOf (V ++ l.flatMap (fileView fs))
    good c V && l.all (fun p => good c (fileView fs p)) && decide (max c.L c.A + (c.L + 1) * (structs V + (l.map fun p => structs (fileView fs p)).sum) ≤ 511)

end Cnd.Tidy

namespace Cnd

open Tidy in
/-- C100 for several files: if all files that can be read are among those of a list that passes the check, the compiler meets no undefined behaviour,
from whatever file it starts and however they import each other. -/
theorem C100_files_partial (P : PEnv) (fs : Files) (l : List (List Byte)) (hl : ∀ p, fs.read p ≠ none → p ∈ l) (hs : (l.map (fileCost fs)).sum < 0x1000000000000000)
    (h : tidyFiles fs l = true) (f : Nat) (path : List Byte) : compileFile P fs f path ≠ .ub := by
  simp only [tidyFiles, Bool.and_eq_true, List.all_eq_true, decide_eq_true_eq] at h
  have small : ∀ g, g < 0x2000000000000000 → compileFile P fs g path ≠ .ub := by
    intro g hg
    unfold compileFile
    dsimp only
    split
    · exact fun h => nomatch h
    · rename_i src hr
      obtain ⟨toks, ht, _⟩ := fileToks_some src
      have hp := hl _ (by rw [hr]; simp : fs.read (fs.canon path) ≠ none)
      have hv : fileView fs (fs.canon path) = toks.filter (fun t => t.type ≠ .error) := by
        unfold fileView; rw [hr]; dsimp only; rw [ht]
      have hb := unread_take fs (seen := []) (p := fs.canon path) List.not_mem_nil l hp
      have hgood := h.1 _ hp
      rw [hv] at hb hgood
      rw [unread_nil, List.nil_append] at hb
      rw [ht]
      refine parseFiles_ok P fs l hl h.1 g hg _ _ _ hgood (Nat.le_trans (Nat.add_le_add_left (Nat.mul_le_mul_left _ ?_) _) h.2)
      omega
  intro e
  have h1 := C76_one P fs path f ((l.map (fileCost fs)).sum + 2) (by rw [e]; exact fun g => nomatch g) (C76_ends P fs l hl path _ (Nat.le_refl _))
  exact small _ (by omega) (h1.symm.trans e)

/-- The parser of the language server ends, too. -/
theorem C76_editor_ends (P : PEnv) (fs : Files) (l : List (List Byte)) (hl : ∀ p, fs.read p ≠ none → p ∈ l) (path src : List Byte) (f : Nat)
    (hf : 16 * (src.length + 1) + (l.map (fileCost fs)).sum + 2 ≤ f) : diagnoseFile P fs f path src ≠ .stuck := by
  unfold diagnoseFile
  obtain ⟨toks, ht, hlen⟩ := fileToks_some src
  rw [ht]
  dsimp only
  have h0 : budget fs [] l = (l.map (fileCost fs)).sum := budget_nil fs l
  have hrem := cadv_rem (parseStart toks)
  have e : (parseStart toks).rem = 2 * toks.length := rfl
  have := (files_fine P fs l hl f).2.2.2 ⟨(parseStart toks).adv, [], path⟩ (by dsimp only; omega)
  unfold parseFiles
  generalize topLoopI P fs f _ = r at this
  cases r with
  | ok s =>
    show finish (.ok _) ≠ _
    unfold finish
    dsimp only
    split <;> simp
  | ub => simp [CRes.bind, finish]
  | imports => simp [CRes.bind, finish]
  | stuck => exact this.elim

/-- With one outcome, whatever bound is taken. -/
theorem C76_editor_one (P : PEnv) (fs : Files) (path src : List Byte) (f g : Nat) (hf : diagnoseFile P fs f path src ≠ .stuck)
    (hg : diagnoseFile P fs g path src ≠ .stuck) : diagnoseFile P fs f path src = diagnoseFile P fs g path src := by
  rcases Nat.le_total f g with h | h
  · obtain ⟨k, rfl⟩ : ∃ k, g = f + k := ⟨g - f, by omega⟩
    exact (diagnoseFile_more P fs f k _ _ hf).symm
  · obtain ⟨k, rfl⟩ : ∃ k, f = g + k := ⟨f - g, by omega⟩
    exact diagnoseFile_more P fs g k _ _ hg

open Tidy in
/-- C100 for the language server: the parser that publishes diagnostics, on a text in the editor. -/
theorem C100_editor_partial (P : PEnv) (fs : Files) (l : List (List Byte)) (hl : ∀ p, fs.read p ≠ none → p ∈ l) (path src : List Byte)
    (hs : 16 * (src.length + 1) + (l.map (fileCost fs)).sum < 0x1000000000000000) (h : tidyEditor fs l src = true) (f : Nat) : diagnoseFile P fs f path src ≠ .ub := by
  have small : ∀ g, g < 0x2000000000000000 → diagnoseFile P fs g path src ≠ .ub := by
    intro g hg
    unfold tidyEditor at h
    unfold diagnoseFile
    cases e : fileToks src with
    | none => rw [e] at h; cases h
    | some toks =>
      rw [e] at h
      simp only [Bool.and_eq_true, List.all_eq_true, decide_eq_true_eq] at h
      exact parseFiles_ok P fs l hl h.1.2 g hg [] path toks h.1.1 (by rw [unread_nil]; exact h.2)
  intro e
  have h1 := C76_editor_one P fs path src f (16 * (src.length + 1) + (l.map (fileCost fs)).sum + 2) (by rw [e]; exact fun g => nomatch g)
    (C76_editor_ends P fs l hl path src _ (Nat.le_refl _))
  exact small _ (by omega) (h1.symm.trans e)

/-- The files of the example of C76, which import each other. -/
example : Tidy.tidyFiles exFiles76 [word "/p/main.cnd", word "/p/lib/a.cnd", word "/p/lib/b.cnd"] = true ∧
    Tidy.tidyEditor exFiles76 [word "/p/main.cnd", word "/p/lib/a.cnd", word "/p/lib/b.cnd"] srcMain76 = true := by decide +kernel

/-- Whichever of them the compiler is given. -/
example (P : PEnv) (f : Nat) (path : List Byte) : compileFile P exFiles76 f path ≠ .ub := by
  refine C100_files_partial P exFiles76 [word "/p/main.cnd", word "/p/lib/a.cnd", word "/p/lib/b.cnd"] (fun p hp => ?_) (by decide +kernel) (by decide +kernel) f path
  have e : exFiles76.read p = [(word "/p/main.cnd", srcMain76), (word "/p/lib/a.cnd", srcA76), (word "/p/lib/b.cnd", srcB76)].lookup p := rfl
  rw [e] at hp
  by_cases h1 : p = word "/p/main.cnd"
  · rw [h1]; exact .head _
  by_cases h2 : p = word "/p/lib/a.cnd"
  · rw [h2]; exact .tail _ (.head _)
  by_cases h3 : p = word "/p/lib/b.cnd"
  · rw [h3]; exact .tail _ (.tail _ (.head _))
  rw [List.lookup_cons, List.lookup_cons, List.lookup_cons, beq_false_of_ne h1, beq_false_of_ne h2, beq_false_of_ne h3] at hp
  exact absurd rfl hp

end Cnd
