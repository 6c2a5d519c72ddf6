import Verif.Props.LspKnown
import Verif.Props.Lsp
import Verif.Props.ImportTerm
/-
  C95: outline, definitions and documentation in the editor.
-/

namespace Cnd

/-- Something is declared in a file with the given path and tokens, or in a file it imports. -/
def Visible (fs : Files) (path : List Byte) (toks : List Tok) (e : Found) : Prop :=
  e ∈ declared95 path toks ∨ ∃ p toks', Reached fs path toks p ∧ fileText fs p toks' ∧ e ∈ declared95 p toks'

/-- What is known about a document that is accepted: everything it declares, in its order, everything some of the files it imports declare, and nothing
else; no two declarations have the same name. -/
structure Knows (fs : Files) (path : List Byte) (toks : List Tok) (reg : List Found) : Prop where
  own : (declared95 path toks).Sublist reg
  only : ∀ e ∈ reg, Visible fs path toks e
  files : ∀ e ∈ reg, e ∉ declared95 path toks → ∃ toks', Reached fs path toks e.file ∧ fileText fs e.file toks' ∧ (declared95 e.file toks').Sublist reg
  distinct : (reg.map Found.name).Nodup

theorem loopI_clean {P : PEnv} {fs : Files} {fuel : Nat} {path src bs : List Byte} (h : diagnoseFile P fs fuel path src = .image bs) :
    ∃ toks s, lexAll (src.length + 1) (src ++ [0]) 1 = some toks ∧
      topLoopI P fs fuel ⟨(parseStart (toks.map Tok.bare)).adv, [], path⟩ = .ok s ∧ s.c.toPSt.errs = 0 := by
  unfold diagnoseFile fileToks at h
  cases hl : lexAll (src.length + 1) (src ++ [0]) 1 with
  | none => rw [hl] at h; cases h
  | some toks =>
    rw [hl] at h
    simp only [Option.map_some] at h
    unfold parseFiles at h
    refine ⟨toks, ?_⟩
    generalize topLoopI P fs fuel _ = r at h ⊢
    cases r with
    | ok s =>
      refine ⟨s, rfl, rfl, ?_⟩
      simp only [CRes.bind, finish] at h
      split at h
      · cases h
      · rename_i hbad
        by_cases he : s.c.toPSt.errs = 0
        · exact he
        · exfalso
          apply hbad
          unfold CSt.errIf
          split
          · show decide (s.c.errs + 1 ≠ 0) = true
            simp
          · show decide (s.c.errs ≠ 0) = true
            simpa using he
    | ub => simp [CRes.bind, finish] at h
    | imports => simp [CRes.bind, finish] at h
    | stuck => simp [CRes.bind, finish] at h

theorem known_full (P : PEnv) (fs : Files) (fuel : Nat) (path src bs : List Byte) (h : diagnoseFile P fs fuel path src = .image bs) :
    ∃ toks reg c, lexAll (src.length + 1) (src ++ [0]) 1 = some toks ∧ knownOf P fs fuel path src = .known (reg, c) ∧ Knows fs path toks reg ∧
      (reg.filter (·.sort = .enum)).map Found.name = c.enums.map EnumD.name := by
  obtain ⟨toks, s, hl, hs, he⟩ := loopI_clean h
  obtain ⟨hne, hends⟩ := lexAll_ends _ _ _ _ hl
  have er := (erased P fs fuel).loop toks [] ⟨⟨(parseStart (toks.map Tok.bare)).adv, [], path⟩, []⟩
  rw [hs] at er
  obtain ⟨t, ht, hti⟩ : ∃ t, topLoopS P fs fuel toks [] ⟨⟨(parseStart (toks.map Tok.bare)).adv, [], path⟩, []⟩ = .ok t ∧ t.i = s := by
    generalize topLoopS P fs fuel toks [] ⟨⟨(parseStart (toks.map Tok.bare)).adv, [], path⟩, []⟩ = r at er
    cases r with
    | ok t => exact ⟨t, rfl, by injection er⟩
    | ub => cases er
    | imports => cases er
    | stuck => cases er
  subst hti
  refine ⟨toks, t.reg, t.i.c, hl, ?_, ?_⟩
  · unfold knownOf
    rw [hl]
    dsimp only
    rw [ht]
  · obtain ⟨m, -, hn, hg⟩ := loop_ok P fs fuel toks [] _ t ht
    have e1 : (parseStart (toks.map Tok.bare)).adv.toPSt.errs = 0 := by
      by_cases hb : (parseStart (toks.map Tok.bare)).adv.toPSt.errs = 0
      · exact hb
      · exact absurd he (m hb)
    have hrest : (parseStart (toks.map Tok.bare)).adv.toPSt.rest = toks.map Tok.bare := by
      have hl : (pull (toks.map Tok.bare) []).2.2 = [] := List.length_eq_zero_iff.mp e1
      obtain ⟨-, h3⟩ := pull_clean _ _ hl
      show (pull (toks.map Tok.bare) []).1 :: (pull (toks.map Tok.bare) []).2.1 = _
      rcases h3 with ⟨u, -, -⟩ | ⟨x, r, u, v, w⟩
      · exact absurd (List.map_eq_nil_iff.mp u) hne
      · rw [v, w, u]
    have g := hg he (by rw [hrest]; exact hends) (by rw [hrest]; exact .refl _)
    rw [hrest, scan_bare] at g
    obtain ⟨new, r1, r2, r3, r4⟩ := g.reg
    have r1' : t.reg = new := r1
    rw [← r1'] at r2 r3 r4
    have own : (declared95 path toks).Sublist t.reg := r2
    have hN := hn ⟨rfl, rfl, fun _ => List.nodup_nil⟩
    refine ⟨⟨own, fun e he' => ?_, fun e he' hno => ?_, hN.distinct he⟩, hN.enums⟩
    · rcases r3 e he' with ho | ⟨x, y, toks', z, w⟩
      · exact .inl ho
      · exact .inr ⟨e.file, toks', g.reached _ x y, z, w⟩
    · rcases r3 e he' with ho | ⟨x, y, toks', z, w⟩
      · exact absurd ho hno
      · obtain ⟨toks'', a, b⟩ := r4 _ x y
        exact ⟨toks'', g.reached _ x y, a, b⟩

/-- **C95, partial**: what the server knows about a document without errors. -/
theorem C95_known_partial (P : PEnv) (fs : Files) (fuel : Nat) (path src bs : List Byte) (h : diagnoseFile P fs fuel path src = .image bs) :
    ∃ toks reg c, lexAll (src.length + 1) (src ++ [0]) 1 = some toks ∧ knownOf P fs fuel path src = .known (reg, c) ∧ Knows fs path toks reg := by
  obtain ⟨toks, reg, c, a, b, d, -⟩ := known_full P fs fuel path src bs h
  exact ⟨toks, reg, c, a, b, d⟩

theorem sublist_full {α : Type} {l m : List α} (h : l.Sublist m) (hm : ∀ x ∈ m, x ∈ l) (hn : m.Nodup) : l = m := by
  induction h with
  | slnil => rfl
  | cons x h ih =>
    rw [List.nodup_cons] at hn
    exact absurd (h.subset (hm x (by simp))) hn.1
  | cons_cons x h ih =>
    rw [List.nodup_cons] at hn
    rw [ih (fun y hy => ?_) hn.2]
    rcases List.mem_cons.mp (hm y (List.mem_cons_of_mem _ hy)) with e | e
    · rw [e] at hy; exact absurd hy hn.1
    · exact e

theorem nodup_of_names {l : List Found} (h : (l.map Found.name).Nodup) : l.Nodup := by
  induction l with
  | nil => exact List.nodup_nil
  | cons x l ih =>
    rw [List.map_cons, List.nodup_cons] at h
    exact List.nodup_cons.mpr ⟨fun hx => h.1 (List.mem_map_of_mem hx), ih h.2⟩

theorem reached_imports {fs : Files} {path : List Byte} {toks : List Tok} {p : List Byte} (h : Reached fs path toks p) : importsIn toks ≠ [] := by
  intro e
  cases h with
  | direct h _ => rw [e] at h; simp at h
  | further h _ _ _ => rw [e] at h; simp at h

/-- **C95**: of a document without errors and without imports exactly what it declares is known. -/
theorem C95_alone (P : PEnv) (fs : Files) (fuel : Nat) (path src bs : List Byte) (toks : List Tok) (h : diagnoseFile P fs fuel path src = .image bs)
    (hl : lexAll (src.length + 1) (src ++ [0]) 1 = some toks) (hi : importsIn toks = []) :
    ∃ c, knownOf P fs fuel path src = .known (declared95 path toks, c) := by
  obtain ⟨toks', reg, c, hl', hk, hK⟩ := C95_known_partial P fs fuel path src bs h
  rw [hl] at hl'
  cases hl'
  refine ⟨c, ?_⟩
  rw [sublist_full hK.own (fun e he => ?_) (nodup_of_names hK.distinct)]
  · exact hk
  · rcases hK.only e he with ho | ⟨p, -, hp, -⟩
    · exact ho
    · exact absurd hi (reached_imports hp)

theorem name_unique {l : List Found} (hl : (l.map Found.name).Nodup) {x y : Found} (hx : x ∈ l) (hy : y ∈ l) (h : x.name = y.name) : x = y := by
  induction l with
  | nil => cases hx
  | cons z l ih =>
    rw [List.map_cons, List.nodup_cons] at hl
    rcases List.mem_cons.mp hx with e1 | hx1
    · rcases List.mem_cons.mp hy with e2 | hy1
      · rw [e1, e2]
      · exact absurd (by rw [← e1, h]; exact List.mem_map_of_mem hy1) hl.1
    · rcases List.mem_cons.mp hy with e2 | hy1
      · exact absurd (by rw [← e2, ← h]; exact List.mem_map_of_mem hx1) hl.1
      · exact ih hl.2 hx1 hy1

/-! ### Document symbols -/

/-- **C95**: the outline of a file without errors and without imports: the structs it declares and then the enums, in their order, with their lines. -/
theorem C95_symbols (P : PEnv) (fs : Files) (fuel : Nat) (uri path src bs : List Byte) (toks : List Tok) (hu : uriPath uri = some path)
    (hr : fs.read path = some src) (h : diagnoseFile P fs fuel path (cText src) = .image bs)
    (hl : lexAll ((cText src).length + 1) (cText src ++ [0]) 1 = some toks) (hi : importsIn toks = []) :
    documentSymbols P fs fuel uri = .known (some
      (((declared95 path toks).filter (·.sort = .struct)).map (fun e => ⟨23, e.name, uri, e.line - 1⟩) ++
       ((declared95 path toks).filter (·.sort = .enum)).map (fun e => ⟨10, e.name, uri, e.line - 1⟩))) := by
  obtain ⟨c, hk⟩ := C95_alone P fs fuel path (cText src) bs toks h hl hi
  unfold documentSymbols
  rw [hu]
  dsimp only
  rw [hr]
  dsimp only
  rw [hk]
  dsimp only [Known95.bind]
  congr 3
  · refine List.map_congr_left fun e he => ?_
    have := of_decide_eq_true (List.mem_filter.mp he).2
    rw [this]
    rfl
  · refine List.map_congr_left fun e he => ?_
    have := of_decide_eq_true (List.mem_filter.mp he).2
    rw [this]
    rfl

/-- **C95, partial**: with imports: every struct and enum the file declares is in its outline, and everything in it is declared in the file or in one
it imports. Claimed would be that only those of the file itself are (see `C95_false_imported`). -/
theorem C95_symbols_partial (P : PEnv) (fs : Files) (fuel : Nat) (uri path src bs : List Byte) (toks : List Tok) (hu : uriPath uri = some path)
    (hr : fs.read path = some src) (h : diagnoseFile P fs fuel path (cText src) = .image bs)
    (hl : lexAll ((cText src).length + 1) (cText src ++ [0]) 1 = some toks) :
    ∃ l, documentSymbols P fs fuel uri = .known (some l) ∧ (l.map Symbol.name).Nodup ∧
      (∀ e ∈ declared95 path toks, ⟨e.sort.kind, e.name, uri, e.line - 1⟩ ∈ l) ∧
      ∀ x ∈ l, x.uri = uri ∧ ∃ e, Visible fs path toks e ∧ x.kind = e.sort.kind ∧ x.name = e.name ∧ x.line = e.line - 1 := by
  obtain ⟨toks', reg, c, hl', hk, hK⟩ := C95_known_partial P fs fuel path (cText src) bs h
  rw [hl] at hl'
  cases hl'
  unfold documentSymbols
  rw [hu]
  dsimp only
  rw [hr]
  dsimp only
  rw [hk]
  dsimp only [Known95.bind]
  refine ⟨_, rfl, ?_, fun e he => ?_, fun x hx => ?_⟩
  · rw [← List.map_append, List.map_map]
    have hp : ∀ l : List Found, (l.map Found.name).Nodup → ((l.filter (·.sort = .struct) ++ l.filter (·.sort = .enum)).map Found.name).Nodup := by
      intro l hl
      rw [List.map_append, List.nodup_append]
      have sub : ∀ p : Found → Bool, ((l.filter p).map Found.name).Sublist (l.map Found.name) := fun p => (List.filter_sublist (p := p)).map _
      refine ⟨hl.sublist (sub _), hl.sublist (sub _), fun a ha b hb hab => ?_⟩
      obtain ⟨x, hx, rfl⟩ := List.mem_map.mp ha
      obtain ⟨y, hy, rfl⟩ := List.mem_map.mp hb
      obtain ⟨hx1, hx2⟩ := List.mem_filter.mp hx
      obtain ⟨hy1, hy2⟩ := List.mem_filter.mp hy
      have : x = y := name_unique hl hx1 hy1 hab
      subst this
      have a := of_decide_eq_true hx2
      have b := of_decide_eq_true hy2
      rw [a] at b
      cases b
    exact hp reg hK.distinct
  · have hm := hK.own.subset he
    cases hs : e.sort with
    | struct => exact List.mem_append_left _ (List.mem_map.mpr ⟨e, List.mem_filter.mpr ⟨hm, by simp [hs]⟩, by rw [hs]⟩)
    | enum => exact List.mem_append_right _ (List.mem_map.mpr ⟨e, List.mem_filter.mpr ⟨hm, by simp [hs]⟩, by rw [hs]⟩)
  · rw [← List.map_append] at hx
    obtain ⟨e, he, rfl⟩ := List.mem_map.mp hx
    have hm : e ∈ reg := by
      rcases List.mem_append.mp he with he | he <;> exact (List.mem_filter.mp he).1
    exact ⟨rfl, e, hK.only e hm, rfl, rfl, rfl⟩

/-! ### Definitions -/

theorem meantBy_entry {reg : List Found} (hn : (reg.map Found.name).Nodup) {e : Found} (he : e ∈ reg) {deco : Bool} (hd : ¬ (deco = true ∧ e.name ∈ builtinNames)) :
    meantBy reg (some (e.name, deco)) = .entry e := by
  unfold meantBy
  dsimp only
  rw [if_neg hd]
  have key : ∀ k e', reg.find? (fun e' => e'.sort = k ∧ e'.name = e.name) = some e' → e' = e ∧ e'.sort = k := by
    intro k e' h
    have h1 := List.find?_some h
    have h2 := List.mem_of_find?_eq_some h
    simp only [decide_eq_true_eq] at h1
    exact ⟨name_unique hn h2 he h1.2, h1.1⟩
  cases h1 : reg.find? (fun e' => e'.sort = .struct ∧ e'.name = e.name) with
  | some e' => rw [(key _ _ h1).1]
  | none =>
    cases h2 : reg.find? (fun e' => e'.sort = .enum ∧ e'.name = e.name) with
    | some e' => rw [(key _ _ h2).1]
    | none =>
      exfalso
      have a := List.find?_eq_none.mp h1 e he
      have b := List.find?_eq_none.mp h2 e he
      cases hs : e.sort <;> simp [hs] at a b

theorem meantBy_cases {reg : List Found} {w : List Byte} {deco : Bool} (hd : ¬ (deco = true ∧ w ∈ builtinNames)) :
    meantBy reg (some (w, deco)) = .nothing ∨ ∃ e ∈ reg, e.name = w ∧ meantBy reg (some (w, deco)) = .entry e := by
  unfold meantBy
  dsimp only
  rw [if_neg hd]
  cases h1 : reg.find? (fun e' => e'.sort = .struct ∧ e'.name = w) with
  | some e' =>
    have := List.find?_some h1
    simp only [decide_eq_true_eq] at this
    exact .inr ⟨e', List.mem_of_find?_eq_some h1, this.2, rfl⟩
  | none =>
    cases h2 : reg.find? (fun e' => e'.sort = .enum ∧ e'.name = w) with
    | some e' =>
      have := List.find?_some h2
      simp only [decide_eq_true_eq] at this
      exact .inr ⟨e', List.mem_of_find?_eq_some h2, this.2, rfl⟩
    | none => exact .inl rfl

theorem analyze_known {P : PEnv} {fs : Files} {fuel : Nat} {docs : List (List Byte × List Byte)} {uri path src : List Byte} {row col : Nat}
    {reg : List Found} {c : CSt} (hu : uriPath uri = some path) (ht : textOf docs fs uri path = some src)
    (hk : knownOf P fs fuel path src = .known (reg, c)) :
    analyze P fs fuel docs uri row col = .known (some (meantBy reg (symbolAt (src ++ [0]) row col), c)) := by
  unfold analyze
  rw [hu]
  dsimp only
  rw [ht]
  dsimp only
  rw [hk]
  rfl

/-- **C95, partial**: with the cursor on the name of something the document declares, the answer to a request for its definition is the line of the
declaration; on any other name, what the answer leads to is declared under that name in an imported file; if nothing is, there is none. -/
theorem C95_definition_partial (P : PEnv) (fs : Files) (fuel : Nat) (docs : List (List Byte × List Byte)) (uri path src bs : List Byte) (toks : List Tok)
    (row col : Nat) (w : List Byte) (deco : Bool) (hu : uriPath uri = some path) (ht : textOf docs fs uri path = some src)
    (h : diagnoseFile P fs fuel path src = .image bs) (hl : lexAll (src.length + 1) (src ++ [0]) 1 = some toks)
    (hw : symbolAt (src ++ [0]) row col = some (w, deco)) (hb : ¬ (deco = true ∧ w ∈ builtinNames)) :
    (∀ e ∈ declared95 path toks, e.name = w → ∀ u, pathUri path = some u → definition P fs fuel docs uri row col = .known (some (u, e.line - 1))) ∧
    (∀ u n, definition P fs fuel docs uri row col = .known (some (u, n)) →
      ∃ e, Visible fs path toks e ∧ e.name = w ∧ pathUri e.file = some u ∧ n = e.line - 1) ∧
    ((∀ e, Visible fs path toks e → e.name ≠ w) → definition P fs fuel docs uri row col = .known none) := by
  obtain ⟨toks', reg, c, hl', hk, hK⟩ := C95_known_partial P fs fuel path src bs h
  rw [hl] at hl'
  cases hl'
  have ha := analyze_known (row := row) (col := col) hu ht hk
  rw [hw] at ha
  unfold definition
  rw [ha]
  refine ⟨fun e he hew u hpu => ?_, fun u n hd => ?_, fun hno => ?_⟩
  · subst hew
    rw [meantBy_entry hK.distinct (hK.own.subset he) hb]
    have hf : e.file = path := by
      obtain ⟨dd, -, rfl⟩ := List.mem_map.mp he
      rfl
    dsimp only [Known95.bind]
    rw [hf, hpu]
  · rcases meantBy_cases (reg := reg) hb with hm | ⟨e, he, hew, hm⟩
    · rw [hm] at hd
      cases hd
    · rw [hm] at hd
      dsimp only [Known95.bind] at hd
      cases hp : pathUri e.file with
      | none => rw [hp] at hd; cases hd
      | some u' =>
        rw [hp] at hd
        simp only [Known95.known.injEq, Option.some.injEq, Prod.mk.injEq] at hd
        exact ⟨e, hK.only e he, hew, by rw [hp, hd.1], hd.2.symm⟩
  · rcases meantBy_cases (reg := reg) hb with hm | ⟨e, he, hew, hm⟩
    · rw [hm]
      rfl
    · exact absurd hew (hno e (hK.only e he))

/-! ### Hovering -/

/-- **C95, partial**: with the cursor on the name of a struct the document declares, the text shown is its name and place and the documentation comments
before it, if that is not longer than the buffer. -/
theorem C95_hover_partial (P : PEnv) (fs : Files) (builtinDoc : List Byte → List Byte × List Byte) (fuel : Nat) (docs : List (List Byte × List Byte))
    (uri path src bs : List Byte) (toks : List Tok) (row col : Nat) (deco : Bool) (e : Found) (hu : uriPath uri = some path)
    (ht : textOf docs fs uri path = some src) (h : diagnoseFile P fs fuel path src = .image bs)
    (hl : lexAll (src.length + 1) (src ++ [0]) 1 = some toks) (he : e ∈ declared95 path toks) (hs : e.sort = .struct)
    (hw : symbolAt (src ++ [0]) row col = some (e.name, deco)) (hb : ¬ (deco = true ∧ e.name ∈ builtinNames))
    (hlen : (hoverFull (aboutText e.name path e.line) e.doc none).length ≤ 4095) :
    hover P fs builtinDoc fuel docs uri row col = .known (some (hoverFull (aboutText e.name path e.line) e.doc none)) := by
  obtain ⟨toks', reg, c, hl', hk, hK⟩ := C95_known_partial P fs fuel path src bs h
  rw [hl] at hl'
  cases hl'
  have ha := analyze_known (row := row) (col := col) hu ht hk
  rw [hw, meantBy_entry hK.distinct (hK.own.subset he) hb] at ha
  have hf : e.file = path := by
    obtain ⟨dd, -, rfl⟩ := List.mem_map.mp he
    rfl
  unfold hover
  rw [ha]
  dsimp only [Known95.bind]
  have hab : (aboutText e.name path e.line).length ≤ 4095 := by
    have : (aboutText e.name path e.line).length ≤ (hoverFull (aboutText e.name path e.line) e.doc none).length := by
      unfold hoverFull
      simp only [List.length_append]
      omega
    omega
  have hdet : detailsOf e c = none := by unfold detailsOf; rw [hs]
  rw [hdet, hf, C72_hover, if_neg]
  · dsimp only
    rw [List.take_of_length_le hlen]
  · rintro (⟨-, hx⟩ | ⟨-, hx, -⟩)
    · omega
    · exact hx rfl

/-- **C95, partial**: and that of an enum: with the type and the values that the parser has under the name. -/
theorem C95_hover_enum_partial (P : PEnv) (fs : Files) (builtinDoc : List Byte → List Byte × List Byte) (fuel : Nat) (docs : List (List Byte × List Byte))
    (uri path src bs : List Byte) (toks : List Tok) (row col : Nat) (deco : Bool) (e : Found) (hu : uriPath uri = some path)
    (ht : textOf docs fs uri path = some src) (h : diagnoseFile P fs fuel path src = .image bs)
    (hl : lexAll (src.length + 1) (src ++ [0]) 1 = some toks) (he : e ∈ declared95 path toks) (hs : e.sort = .enum)
    (hw : symbolAt (src ++ [0]) row col = some (e.name, deco)) (hb : ¬ (deco = true ∧ e.name ∈ builtinNames))
    (hlen : (hoverFull (aboutText e.name path e.line) e.doc none).length ≤ 4095) :
    ∃ reg c d, knownOf P fs fuel path src = .known (reg, c) ∧ d ∈ c.enums ∧ d.name = e.name ∧
      hover P fs builtinDoc fuel docs uri row col = .known (some ((hoverFull (aboutText e.name path e.line) e.doc (some (enumDetails d))).take 4095)) := by
  obtain ⟨toks', reg, c, hl', hk, hK, hN⟩ := known_full P fs fuel path src bs h
  rw [hl] at hl'
  cases hl'
  have ha := analyze_known (row := row) (col := col) hu ht hk
  rw [hw, meantBy_entry hK.distinct (hK.own.subset he) hb] at ha
  have hf : e.file = path := by
    obtain ⟨dd, -, rfl⟩ := List.mem_map.mp he
    rfl
  have hmem : e.name ∈ c.enums.map EnumD.name := by
    rw [← hN]
    exact List.mem_map_of_mem (List.mem_filter.mpr ⟨hK.own.subset he, by simp [hs]⟩)
  obtain ⟨d0, hd0, hd0n⟩ := List.mem_map.mp hmem
  obtain ⟨d, hd⟩ : ∃ d, c.findEnum e.name = some d := by
    cases hfe : c.findEnum e.name with
    | some d => exact ⟨d, rfl⟩
    | none => exact absurd hd0n (by simpa using List.find?_eq_none.mp hfe d0 hd0)
  have hdn : d.name = e.name := by simpa using List.find?_some hd
  refine ⟨reg, c, d, hk, List.mem_of_find?_eq_some hd, hdn, ?_⟩
  unfold hover
  rw [ha]
  dsimp only [Known95.bind]
  have hab : (aboutText e.name path e.line).length ≤ 4095 := by
    have : (aboutText e.name path e.line).length ≤ (hoverFull (aboutText e.name path e.line) e.doc none).length := by
      unfold hoverFull
      simp only [List.length_append]
      omega
    omega
  have hdet : detailsOf e c = some (enumDetails d) := by unfold detailsOf; rw [hs]; dsimp only; rw [hd]; rfl
  rw [hdet, hf, C72_hover, if_neg]
  rintro (⟨-, hx⟩ | ⟨-, -, hx⟩) <;> omega

/-- The text is the decimal number, with a minus sign if it is negative. -/
def SpellsInt (t : List Byte) (i : Int) : Prop :=
  (0 ≤ i ∧ Spells t i.toNat) ∨ (i < 0 ∧ ∃ u, t = word "-" ++ u ∧ Spells u i.natAbs)

/-- The text says the type of the enum and, for every member in order, its name and its value read as a signed 64-bit number. -/
def DetailsSay (d : EnumD) (ty t : List Byte) : Prop :=
  ∃ rows : List (List Byte × List Byte),
    t = word "Type: `" ++ ty ++ word "`\n\nMembers:\n" ++ (rows.map fun r => word "- `" ++ r.1 ++ word "` = `" ++ r.2 ++ word "`\n").flatten ∧
    rows.map (·.1) = d.values.map (·.1) ∧
    ∀ (i : Nat) (r : List Byte × List Byte) (x : List Byte × Word), rows[i]? = some r → d.values[i]? = some x → SpellsInt r.2 x.2.toInt

theorem signText_spells (v : Word) : SpellsInt (signText v) v.toInt ∧ (signText v).length ≤ 21 := by
  have hb : v.toInt.natAbs < 10 ^ 20 := by
    have h1 := @BitVec.toInt_lt 64 v
    have h2 := @BitVec.le_toInt 64 v
    omega
  obtain ⟨s1, s2⟩ := decText_spells 20 v.toInt.natAbs (by omega) hb
  unfold signText
  split
  · rename_i h
    exact ⟨.inr ⟨h, _, rfl, s1⟩, by simp only [List.length_cons]; omega⟩
  · rename_i h
    have e : v.toInt.natAbs = v.toInt.toNat := by omega
    exact ⟨.inl ⟨by omega, by rw [← e]; exact s1⟩, by omega⟩

/-- **C95**: what is shown of an enum, if no name is longer than 200 bytes: type, names and values, in order, the values as signed numbers. -/
theorem C95_details (d : EnumD) (hn : ∀ v ∈ d.values, v.1.length ≤ 200) (ty : List Byte)
    (hty : (d.type, ty) ∈ [(0x10, word "u8"), (0x11, word "u16"), (0x12, word "u32"), (0x13, word "u64"), (0x14, word "i8"), (0x15, word "i16"),
      (0x16, word "i32"), (0x17, word "i64")]) : DetailsSay d ty (enumDetails d) := by
  have ht : typeName d.type = ty ∧ ty.length ≤ 3 := by
    generalize d.type = op at hty
    simp only [List.mem_cons, Prod.mk.injEq, List.not_mem_nil, or_false] at hty
    rcases hty with ⟨rfl, rfl⟩ | ⟨rfl, rfl⟩ | ⟨rfl, rfl⟩ | ⟨rfl, rfl⟩ | ⟨rfl, rfl⟩ | ⟨rfl, rfl⟩ | ⟨rfl, rfl⟩ | ⟨rfl, rfl⟩ <;> decide +kernel
  refine ⟨d.values.map fun v => (v.1, signText v.2), ?_, ?_, ?_⟩
  · unfold enumDetails
    rw [ht.1, List.take_of_length_le, List.map_map]
    · congr 2
      refine List.map_congr_left fun v hv => ?_
      have := hn v hv
      have := (signText_spells v.2).2
      rw [List.take_of_length_le]
      · rfl
      · simp only [List.length_append, s_item95, s_is95, s_end95, List.length_cons, List.length_nil]
        omega
    · have := ht.2
      simp only [List.length_append, s_type95, s_members95, List.length_cons, List.length_nil]
      omega
  · rw [List.map_map]
    rfl
  · intro i r x h1 h2
    rw [List.getElem?_map, h2] at h1
    cases h1
    exact (signText_spells x.2).1

/-- **C95**: the first line of what is shown: name, file and the number of the line. -/
theorem C95_about (name file : List Byte) (line : Nat) (hl : line < 10 ^ 20) :
    ∃ u, Spells u line ∧ aboutText name file line = word "**" ++ name ++ word "**\n\nDefined in " ++ file ++ word " on line " ++ u ++ word "." :=
  ⟨_, (decText_spells 20 line (by omega) hl).1, rfl⟩

example : ∃ u, Spells u 7 ∧ aboutText (word "Color") (word "/p/main.cnd") 7 =
    word "**" ++ word "Color" ++ word "**\n\nDefined in " ++ word "/p/main.cnd" ++ word " on line " ++ u ++ word "." :=
  C95_about _ _ 7 (by decide)

/-- The values of the example, and one that is negative. -/
example : DetailsSay ⟨word "Color", 0x14, [(word "Red", 5), (word "Off", 0xFFFFFFFFFFFFFFFE)]⟩ (word "i8")
    (word "Type: `i8`\n\nMembers:\n- `Red` = `5`\n- `Off` = `-2`\n") := by
  have h := C95_details ⟨word "Color", 0x14, [(word "Red", 5), (word "Off", 0xFFFFFFFFFFFFFFFE)]⟩ (by decide +kernel) (word "i8") (by decide +kernel)
  have e : enumDetails ⟨word "Color", 0x14, [(word "Red", 5), (word "Off", 0xFFFFFFFFFFFFFFFE)]⟩ =
      word "Type: `i8`\n\nMembers:\n- `Red` = `5`\n- `Off` = `-2`\n" := by decide +kernel
  rwa [e] at h

/-! ### An example -/

/-- Two comments before a struct, a decorator between the comment and the enum. -/
def src95 : List Byte := word "/// A point.\n/// In the plane.\nstruct Point { u8 x; u8 y; }\n\n/// Paint.\n@big_endian\nenum Color : u8 { Red, Green = 5 }\n\npacket P {\n  Point p;\n  @const(1) u8 v;\n  Color c;\n}\n"
def path95 : List Byte := word "/p/main.cnd"
def uri95 : List Byte := word "file:///p/main.cnd"
def fs95 : Files := dirOf [(path95, src95)]
def toks95 : List Tok := (lexAll (src95.length + 1) (src95 ++ [0]) 1).getD []

def isImage : Compiled → Bool
  | .image _ => true
  | _ => false

theorem isImage_spec {r : Compiled} (h : isImage r = true) : ∃ bs, r = .image bs := by
  cases r with
  | image bs => exact ⟨bs, rfl⟩
  | refused => cases h
  | ub => cases h
  | imports => cases h
  | stuck => cases h

theorem ex95_lex : lexAll (src95.length + 1) (src95 ++ [0]) 1 = some toks95 := by decide +kernel
theorem ex95_ok : isImage (diagnoseFile demoP fs95 400 path95 src95) = true := by decide +kernel
theorem ex95_text : cText src95 = src95 := by decide +kernel
theorem ex95_declared : declared95 path95 toks95 =
    [⟨.struct, word "Point", path95, 3, some (word " A point.\n In the plane.")⟩, ⟨.enum, word "Color", path95, 7, some (word " Paint.")⟩] := by decide +kernel

/-- Its outline. -/
example : documentSymbols demoP fs95 400 uri95 = .known (some [⟨23, word "Point", uri95, 2⟩, ⟨10, word "Color", uri95, 6⟩]) := by
  obtain ⟨bs, h⟩ := isImage_spec ex95_ok
  rw [C95_symbols demoP fs95 400 uri95 path95 src95 bs toks95 (by decide +kernel) (by decide +kernel) (by rw [ex95_text]; exact h)
    (by rw [ex95_text]; exact ex95_lex) (by decide +kernel), ex95_declared]
  decide +kernel

/-- The definition of what is used in line 10. -/
example : definition demoP fs95 400 [] uri95 9 4 = .known (some (uri95, 2)) := by
  obtain ⟨bs, h⟩ := isImage_spec ex95_ok
  refine (C95_definition_partial demoP fs95 400 [] uri95 path95 src95 bs toks95 9 4 (word "Point") false (by decide +kernel) (by decide +kernel) h ex95_lex
    (by decide +kernel) (by simp)).1 ⟨.struct, word "Point", path95, 3, some (word " A point.\n In the plane.")⟩ (by rw [ex95_declared]; simp) rfl uri95
    (by decide +kernel)

/-- The text shown there. -/
example : hover demoP fs95 (fun _ => ([], [])) 400 [] uri95 9 4 =
    .known (some (word "**Point**\n\nDefined in /p/main.cnd on line 3.\n\n A point.\n In the plane.")) := by
  obtain ⟨bs, h⟩ := isImage_spec ex95_ok
  rw [C95_hover_partial demoP fs95 (fun _ => ([], [])) 400 [] uri95 path95 src95 bs toks95 9 4 false
    ⟨.struct, word "Point", path95, 3, some (word " A point.\n In the plane.")⟩ (by decide +kernel) (by decide +kernel) h ex95_lex
    (by rw [ex95_declared]; simp) rfl (by decide +kernel) (by simp) (by decide +kernel)]
  decide +kernel

/-- And that of the enum. -/
example : hover demoP fs95 (fun _ => ([], [])) 400 [] uri95 11 4 =
    .known (some (word "**Color**\n\nDefined in /p/main.cnd on line 7.\n\n Paint.\n\nType: `u8`\n\nMembers:\n- `Red` = `0`\n- `Green` = `5`\n")) := by
  decide +kernel

/-! ### Where it fails -/

/-- **C95 fails**: a packet is not in the outline of its file, has no definition, and nothing is shown for it. -/
theorem C95_false_packet : ∃ (fs : Files) (uri path src : List Byte), uriPath uri = some path ∧ fs.read path = some src ∧
    isImage (diagnoseFile demoP fs 100 path src) = true ∧ symbolAt (src ++ [0]) 0 8 = some (word "P", false) ∧
    documentSymbols demoP fs 100 uri = .known (some []) ∧ definition demoP fs 100 [] uri 0 8 = .known none ∧
    hover demoP fs (fun _ => ([], [])) 100 [] uri 0 8 = .known none :=
  ⟨dirOf [(path95, word "packet P { u8 x; }")], uri95, path95, word "packet P { u8 x; }", by decide +kernel, by decide +kernel, by decide +kernel,
    by decide +kernel, by decide +kernel, by decide +kernel, by decide +kernel⟩

/-- **C95 fails**: what an imported file declares is shown in the outline of the file that imports it, under its URI and with the line it has in
the other file, here the third of a file with one line. -/
theorem C95_false_imported : ∃ (fs : Files) (uri path src : List Byte) (toks : List Tok), uriPath uri = some path ∧ fs.read path = some src ∧
    isImage (diagnoseFile demoP fs 200 path src) = true ∧ lexAll (src.length + 1) (src ++ [0]) 1 = some toks ∧ declared95 path toks = [] ∧
    0x0A ∉ src ∧ documentSymbols demoP fs 200 uri = .known (some [⟨23, word "A", uri, 2⟩]) :=
  ⟨dirOf [(path95, word "@import(\"a.cnd\") packet P { A x; }"), (word "/p/a.cnd", word "\n\nstruct A { u8 n; }")], uri95, path95,
    word "@import(\"a.cnd\") packet P { A x; }",
    (lexAll 40 (word "@import(\"a.cnd\") packet P { A x; }" ++ [0]) 1).getD [], by decide +kernel, by decide +kernel, by decide +kernel,
    by decide +kernel, by decide +kernel, by decide +kernel, by decide +kernel⟩

/-- **C95 fails**: the outline is that of the file, not of the text in the editor, which the other requests are answered from. -/
theorem C95_false_saved : ∃ (fs : Files) (docs : List (List Byte × List Byte)) (uri path src text : List Byte), uriPath uri = some path ∧
    fs.read path = some src ∧ docGet uri docs = some text ∧ isImage (diagnoseFile demoP fs 100 path text) = true ∧
    documentSymbols demoP fs 100 uri = .known (some [⟨23, word "A", uri, 0⟩]) ∧ definition demoP fs 100 docs uri 1 12 = .known (some (uri, 0)) ∧
    symbolAt (text ++ [0]) 1 12 = some (word "B", false) :=
  ⟨dirOf [(path95, word "struct A { u8 n; }\npacket P { A x; }")], [(uri95, word "struct B { u8 n; }\npacket P { B x; }")], uri95, path95,
    word "struct A { u8 n; }\npacket P { A x; }", word "struct B { u8 n; }\npacket P { B x; }", by decide +kernel, by decide +kernel, by decide +kernel,
    by decide +kernel, by decide +kernel, by decide +kernel, by decide +kernel⟩

/-- **C95 fails**: a field that has the name of a struct is taken for the struct. -/
theorem C95_false_field : ∃ (fs : Files) (uri path src : List Byte), uriPath uri = some path ∧ fs.read path = some src ∧
    isImage (diagnoseFile demoP fs 100 path src) = true ∧ src.drop 29 = word "u8 pos; }" ∧ columnAt src 32 = 14 ∧
    definition demoP fs 100 [] uri 1 14 = .known (some (uri, 0)) :=
  ⟨dirOf [(path95, word "struct pos{u8 a;}\npacket P { u8 pos; }")], uri95, path95, word "struct pos{u8 a;}\npacket P { u8 pos; }", by decide +kernel,
    by decide +kernel, by decide +kernel, by decide +kernel, by decide +kernel, by decide +kernel⟩

/-- **C95 fails**: the definition of a decorator is said to be in a file `built-in`, which does not exist. -/
theorem C95_false_builtin : ∃ (fs : Files) (uri path src : List Byte), uriPath uri = some path ∧ fs.read path = some src ∧
    isImage (diagnoseFile demoP fs 100 path src) = true ∧ definition demoP fs 100 [] uri 0 13 = .known (some (word "file://built-in", 0)) :=
  ⟨dirOf [(path95, word "packet P { @const(1) u8 x; }")], uri95, path95, word "packet P { @const(1) u8 x; }", by decide +kernel,
    by decide +kernel, by decide +kernel, by decide +kernel⟩

/-- **C95 fails**: behind the first error nothing is known. -/
theorem C95_false_error : ∃ (fs : Files) (uri path src : List Byte) (toks : List Tok), uriPath uri = some path ∧ fs.read path = some src ∧
    lexAll (src.length + 1) (src ++ [0]) 1 = some toks ∧ (declared95 path toks).map Found.name = [word "A", word "B"] ∧
    documentSymbols demoP fs 100 uri = .known (some [⟨23, word "A", uri, 0⟩]) :=
  ⟨dirOf [(path95, word "struct A { u8 ; }\nstruct B { u8 n; }")], uri95, path95, word "struct A { u8 ; }\nstruct B { u8 n; }",
    (lexAll 40 (word "struct A { u8 ; }\nstruct B { u8 n; }" ++ [0]) 1).getD [], by decide +kernel, by decide +kernel, by decide +kernel,
    by decide +kernel, by decide +kernel⟩

end Cnd
