import Verif.JsonTree
import Verif.Mimic
import Verif.Schema
/-
  The JSON binding follows the recording and the supplying host (used for C63): the document is built from the record, and reading
  the finished document gives the record again.
-/

namespace Cnd

/-- What one call of a decoding run does to the document, if the string is the one in the event. -/
def jEv (F : FloatOps) (names : List (List Byte)) (s : JSt) : Ev → JSt
  | .num k op v => ((jsonHost F names false).scalar s k op v).2.2
  | .str k _ bs => s.add (jsonName names k) (.str bs)
  | .note k op => ((jsonHost F names false).notify s k op).2

def jBuild (F : FloatOps) (names : List (List Byte)) (es : List Ev) : JSt := es.foldl (jEv F names) (JSt.start .nil)

theorem jBuild_snoc (F : FloatOps) (names : List (List Byte)) (es : List Ev) (e : Ev) :
    jBuild F names (es ++ [e]) = jEv F names (jBuild F names es) e := by
  simp [jBuild]

/-- The value of the first item of that name. -/
def Items.value (name : List Byte) (l : Items) : Option JVal :=
  (l.shape.find? fun x => x.1.map Items.lower == name.map Items.lower).map (·.2)

theorem find_findIdx {α : Type} {f : α → Bool} {l : List α} {x : α} (h : l.find? f = some x) :
    ∃ i, l.findIdx? f = some i ∧ l[i]? = some x := by
  induction l with
  | nil => cases h
  | cons a l ih =>
    rw [List.find?_cons] at h
    rw [List.findIdx?_cons]
    cases hf : f a with
    | true =>
      rw [hf] at h
      exact ⟨0, rfl, h⟩
    | false =>
      rw [hf] at h
      obtain ⟨i, h1, h2⟩ := ih h
      exact ⟨i + 1, by simp [h1], by simpa using h2⟩

theorem Items.index_value {name : List Byte} {l : Items} {v : JVal} (h : l.value name = some v) :
    ∃ i n, l.index name = some i ∧ l.shape[i]? = some (n, v) := by
  unfold Items.value at h
  rw [Option.map_eq_some_iff] at h
  obtain ⟨⟨n, v'⟩, h1, rfl⟩ := h
  obtain ⟨i, h2, h3⟩ := find_findIdx h1
  exact ⟨i, n, h2, h3⟩

theorem Items.value_index {name n : List Byte} {l : Items} {v : JVal} {i : Nat} (h : l.index name = some i)
    (h' : l.shape[i]? = some (n, v)) : l.value name = some v := by
  unfold Items.index at h
  unfold Items.value
  cases hf : l.shape.find? fun x => x.1.map Items.lower == name.map Items.lower with
  | none =>
    rw [List.find?_eq_none] at hf
    rw [List.findIdx?_eq_none_iff.2 (by simpa using hf)] at h
    cases h
  | some x =>
    obtain ⟨j, h2, h3⟩ := find_findIdx hf
    rw [h2] at h
    cases h
    rw [h3] at h'
    cases h'
    rfl

/-! ### What is true of every state of a decoding run -/

structure JSt.W (s : JSt) : Prop where
  ne : s.stack ≠ []
  sv : ∀ p ∈ s.stack, s.doc.valid p = true
  av : ∀ f ∈ s.arrs, s.doc.valid f.path = true
  idx : ∀ f ∈ s.arrs, f.idx = (s.kids f.path).size
  nd : (s.stack ++ s.arrs.map (·.path)).Nodup

theorem JSt.W.start : (JSt.start .nil).W :=
  ⟨by simp [JSt.start], by simp [JSt.start, Items.valid], by simp [JSt.start], by simp [JSt.start], by simp [JSt.start]⟩

theorem JSt.cur_mem {s : JSt} (h : s.W) : s.cur ∈ s.stack := by
  unfold JSt.cur
  cases h' : s.stack with
  | nil => exact absurd h' h.ne
  | cons a l => simp

theorem JSt.W.cur {s : JSt} (h : s.W) : s.doc.valid s.cur = true := h.sv _ (JSt.cur_mem h)

theorem JSt.inArr_some {s : JSt} {f : ArrFrame} (h : s.inArr = some f) : ∃ fs, s.arrs = f :: fs ∧ f.depth = s.stack.length := by
  unfold JSt.inArr at h
  split at h
  · cases h
  · split at h
    · cases h; exact ⟨_, by assumption, by assumption⟩
    · cases h

/-- Adding to an object on the stack. -/
theorem JSt.W.addCur {s : JSt} (h : s.W) (n : List Byte) (v : JVal) : ({ s with doc := s.doc.addAt s.cur n v } : JSt).W where
  ne := h.ne
  sv p hp := Items.valid_addAt n v (h.sv p hp)
  av f hf := Items.valid_addAt n v (h.av f hf)
  idx f hf := by
    rw [h.idx f hf]
    show (s.doc.kidsAt f.path).size = ((s.doc.addAt s.cur n v).kidsAt f.path).size
    unfold Items.size
    rw [Items.shape_addAt_ne n v (h.av f hf)]
    intro e
    have := (List.nodup_append.1 h.nd).2.2 _ (JSt.cur_mem h) _ (List.mem_map.2 ⟨f, hf, rfl⟩)
    exact this e.symm
  nd := h.nd

/-- Adding to the array in progress. -/
theorem JSt.W.addArr {s : JSt} (h : s.W) {f : ArrFrame} {fs : List ArrFrame} (e : s.arrs = f :: fs) (n : List Byte) (v : JVal) :
    ({ s with doc := s.doc.addAt f.path n v } : JSt).bump.W := by
  have hm : f ∈ s.arrs := by rw [e]; simp
  have hb : ({ s with doc := s.doc.addAt f.path n v } : JSt).bump =
      { s with doc := s.doc.addAt f.path n v, arrs := { f with idx := f.idx + 1 } :: fs } := by
    simp [JSt.bump, e]
  have hnd := h.nd
  rw [e] at hnd
  rw [hb]
  refine ⟨h.ne, fun p hp => Items.valid_addAt n v (h.sv p hp), ?_, ?_, by simpa using hnd⟩
  · intro g hg
    simp only [List.mem_cons] at hg
    rcases hg with rfl | hg
    · exact Items.valid_addAt n v (h.av f hm)
    · exact Items.valid_addAt n v (h.av g (by rw [e]; simp [hg]))
  · intro g hg
    simp only [List.mem_cons] at hg
    show _ = ((s.doc.addAt f.path n v).kidsAt g.path).size
    unfold Items.size
    rcases hg with rfl | hg
    · rw [Items.shape_addAt_same n v (h.av f hm)]
      have := h.idx f hm
      simp only [JSt.kids, Items.size] at this
      simp [this]
    · have hg' : g ∈ s.arrs := by rw [e]; simp [hg]
      rw [Items.shape_addAt_ne n v (h.av g hg'), h.idx g hg']
      · rfl
      · intro he
        have := (List.nodup_append.1 hnd).2.1
        simp only [List.map_cons, List.nodup_cons, List.mem_map] at this
        exact this.1 ⟨g, hg, he⟩

theorem JSt.W.add {s : JSt} (h : s.W) (n : List Byte) (v : JVal) : (s.add n v).W := by
  unfold JSt.add
  cases hi : s.inArr with
  | none => exact h.addCur n v
  | some f =>
    obtain ⟨fs, e, _⟩ := JSt.inArr_some hi
    exact h.addArr e [] v

theorem JSt.W.push {s : JSt} (h : s.W) {p : List Nat} (hv : s.doc.valid p = true) (hn : p ∉ s.stack ++ s.arrs.map (·.path)) :
    (s.push p).W := by
  unfold JSt.push
  split
  · exact ⟨h.ne, h.sv, h.av, h.idx, h.nd⟩
  · refine ⟨by simp, ?_, h.av, h.idx, ?_⟩
    · intro q hq
      simp only [List.mem_cons] at hq
      rcases hq with rfl | hq
      · exact hv
      · exact h.sv q hq
    · show (p :: s.stack ++ s.arrs.map (·.path)).Nodup
      rw [List.cons_append, List.nodup_cons]
      exact ⟨hn, h.nd⟩

/-- Paths of the state are valid, so a new one is none of them. -/
theorem JSt.W.new {s : JSt} (h : s.W) (p : List Nat) : p ++ [(s.kids p).size] ∉ s.stack ++ s.arrs.map (·.path) := by
  intro hm
  rw [List.mem_append, List.mem_map] at hm
  have : s.doc.valid (p ++ [(s.kids p).size]) = true := by
    rcases hm with hm | ⟨f, hf, e⟩
    · exact h.sv _ hm
    · rw [← e]; exact h.av f hf
  have h2 := Items.not_valid_new s.doc p
  simp only [JSt.kids] at this
  rw [this] at h2
  cases h2

theorem jsonEnter_W {s : JSt} (h : s.W) (n : List Byte) : (jsonEnter false n s).2.W := by
  unfold jsonEnter
  rw [if_neg (by simp)]
  cases hi : s.inArr with
  | none =>
    refine JSt.W.push (h.add n .obj) ?_ ?_
    · simp only [JSt.add, hi]
      exact Items.valid_addAt_new n .obj h.cur
    · simp only [JSt.add, hi]
      exact h.new _
  | some f =>
    obtain ⟨fs, e, _⟩ := JSt.inArr_some hi
    refine JSt.W.push (h.add n .obj) ?_ ?_
    · simp only [JSt.add, hi]
      have : ∀ t : JSt, t.bump.doc = t.doc := by intro t; unfold JSt.bump; split <;> rfl
      rw [this]
      exact Items.valid_addAt_new [] .obj (h.av f (by rw [e]; simp))
    · have := h.new f.path
      simp only [JSt.add, hi, JSt.bump, e]
      simpa [e] using this

theorem jsonArr_W {s : JSt} (h : s.W) (op : Byte) (n : List Byte) (v : Word) : (jsonArr false op n v s).2.2.W := by
  unfold jsonArr
  rw [if_neg (by simp)]
  split
  · exact h
  · have hc := h.addCur n .arr
    refine ⟨h.ne, hc.sv, ?_, ?_, ?_⟩
    · intro f hf
      simp only [List.mem_cons] at hf
      rcases hf with rfl | hf
      · exact Items.valid_addAt_new n .arr h.cur
      · exact hc.av f hf
    · intro f hf
      simp only [List.mem_cons] at hf
      rcases hf with rfl | hf
      · show 0 = ((s.doc.addAt s.cur n .arr).kidsAt (s.cur ++ [(s.doc.kidsAt s.cur).size])).size
        rw [Items.kidsAt_addAt_new n .arr h.cur]
        rfl
      · exact hc.idx f hf
    · show (s.stack ++ (s.cur ++ [(s.kids s.cur).size]) :: s.arrs.map (·.path)).Nodup
      have := h.new s.cur
      rw [List.nodup_append]
      rw [List.mem_append] at this
      obtain ⟨n1, n2, n3⟩ := List.nodup_append.1 h.nd
      refine ⟨n1, List.nodup_cons.2 ⟨fun hh => this (.inr hh), n2⟩, ?_⟩
      intro a ha b hb
      simp only [List.mem_cons] at hb
      rcases hb with rfl | hb
      · rintro rfl; exact this (.inl ha)
      · exact n3 a ha b hb

theorem jsonExit_W {s : JSt} (h : s.W) : (jsonExit s).W := by
  unfold jsonExit
  split
  · rename_i hl
    have hsub : (s.stack.tail ++ s.arrs.map (·.path)).Sublist (s.stack ++ s.arrs.map (·.path)) :=
      List.Sublist.append (List.tail_sublist _) (List.Sublist.refl _)
    refine ⟨?_, fun p hp => h.sv p (List.mem_of_mem_tail hp), h.av, h.idx, h.nd.sublist hsub⟩
    intro e
    have := congrArg List.length e
    simp at this
    omega
  · exact h

theorem jsonArrEnd_W {s : JSt} (h : s.W) : (jsonArrEnd s).W := by
  unfold jsonArrEnd
  have hsub : (s.stack ++ s.arrs.tail.map (·.path)).Sublist (s.stack ++ s.arrs.map (·.path)) :=
      List.Sublist.append (List.Sublist.refl _) (List.Sublist.map _ (List.tail_sublist _))
  exact ⟨h.ne, h.sv, fun f hf => h.av f (List.mem_of_mem_tail hf), fun f hf => h.idx f (List.mem_of_mem_tail hf), h.nd.sublist hsub⟩

theorem jEv_W (F : FloatOps) (names : List (List Byte)) {s : JSt} (h : s.W) (e : Ev) : (jEv F names s e).W := by
  cases e with
  | num k op v =>
    simp only [jEv, jsonHost]
    split
    · exact jsonArr_W h ..
    split
    · unfold jsonQuery
      split
      · exact h
      · split
        · exact h
        · split
          · exact h
          · exact ⟨h.ne, h.sv, h.av, h.idx, h.nd⟩
        · exact h
    split
    · exact h.addCur _ _
    · unfold jsonPrim
      rw [if_neg (by simp)]
      split
      · exact h.add _ _
      · exact h
  | str k op bs => exact h.add _ _
  | note k op =>
    simp only [jEv, jsonHost]
    split
    · exact jsonEnter_W h _
    split
    · exact jsonExit_W h
    · exact jsonArrEnd_W h

theorem jBuild_W (F : FloatOps) (names : List (List Byte)) (es : List Ev) : (jBuild F names es).W := by
  unfold jBuild
  generalize hs : JSt.start .nil = s
  have h : s.W := hs ▸ JSt.W.start
  clear hs
  induction es generalizing s with
  | nil => exact h
  | cons e es ih => exact ih _ (jEv_W F names h e)

/-! ### The document only grows -/

theorem bump_doc (s : JSt) : s.bump.doc = s.doc := by unfold JSt.bump; split <;> rfl

theorem push_doc (s : JSt) (p : List Nat) : (s.push p).doc = s.doc := by unfold JSt.push; split <;> rfl

theorem add_ext (s : JSt) (n : List Byte) (v : JVal) : Items.Ext s.doc (s.add n v).doc := by
  unfold JSt.add
  split
  · rw [bump_doc]; exact Items.ext_addAt _ _ _ _
  · exact Items.ext_addAt _ _ _ _

theorem jEv_ext (F : FloatOps) (names : List (List Byte)) (s : JSt) (e : Ev) : Items.Ext s.doc (jEv F names s e).doc := by
  cases e with
  | num k op v =>
    simp only [jEv, jsonHost]
    split
    · unfold jsonArr
      rw [if_neg (by simp)]
      split
      · exact .refl _
      · exact Items.ext_addAt _ _ _ _
    split
    · unfold jsonQuery
      split
      · exact .refl _
      · split
        · exact .refl _
        · split <;> exact .refl _
        · exact .refl _
    split
    · exact Items.ext_addAt _ _ _ _
    · unfold jsonPrim
      rw [if_neg (by simp)]
      split
      · exact add_ext _ _ _
      · exact .refl _
  | str k op bs => exact add_ext _ _ _
  | note k op =>
    simp only [jEv, jsonHost]
    split
    · unfold jsonEnter
      rw [if_neg (by simp)]
      split <;> rw [push_doc] <;> exact add_ext _ _ _
    split
    · unfold jsonExit; split <;> exact .refl _
    · exact .refl _

theorem jBuild_ext (F : FloatOps) (names : List (List Byte)) (g r : List Ev) :
    Items.Ext (jBuild F names g).doc (jBuild F names (g ++ r)).doc := by
  unfold jBuild
  rw [List.foldl_append]
  generalize g.foldl (jEv F names) (JSt.start .nil) = s
  induction r generalizing s with
  | nil => exact .refl _
  | cons e r ih => exact (jEv_ext F names s e).trans (ih _)

/-! ### Reading the finished document -/

/-- Opcodes that open an array. -/
def arrHead (op : Byte) : Bool := op == 0x34 || op == 0x35 || op == 0x36 || op == 0x37 || op == 0x3B

/-- No item of that name in the current object yet. -/
def JSt.fresh (s : JSt) (name : List Byte) : Prop := (s.kids s.cur).index name = none

/-- The call leaves in the document (finally `D`) what the encoder needs to find. -/
def jOk (F : FloatOps) (names : List (List Byte)) (hid : Nat → Bool) (D : Items) (s : JSt) : Ev → Prop
  | .num k op v =>
    if arrHead op = true then
      hid k = false ∧ s.arrs.length < 31 ∧ s.fresh (jsonName names k) ∧
      let n : Word := BitVec.ofNat 64 (D.kidsAt (s.cur ++ [(s.kids s.cur).size])).size
      (op = 0x35 → v = truncB 1 n) ∧ (op = 0x36 → v = truncB 2 n) ∧ (op = 0x37 → v = truncB 4 n)
    else if op = 0x78 then hid k = false
    else op ≠ 0x06 ∧ op ≠ 0x60 ∧ ∃ j, jsonPut F op v = some j ∧
      if hid k = true then s.inArr = none
      else (s.inArr = none → s.fresh (jsonName names k)) ∧ jsonGet F op j = some v
  | .str k op bs => (op = 0x30 ∨ op = 0x31 ∨ op = 0x32) ∧ NulFree bs ∧ (s.inArr = none → s.fresh (jsonName names k))
  | .note k op =>
    (op = 0x03 ∧ s.stack.length < 32 ∧ (s.inArr = none → s.fresh (jsonName names k))) ∨ op = 0x04 ∨ op = 0x38

def jClean (F : FloatOps) (names : List (List Byte)) (hid : Nat → Bool) (D : Items) : JSt → List Ev → Prop
  | _, [] => True
  | s, e :: es => jOk F names hid D s e ∧ jClean F names hid D (jEv F names s e) es

theorem jClean_at {F : FloatOps} {names : List (List Byte)} {hid : Nat → Bool} {D : Items} {s : JSt} (g : List Ev) {e : Ev} {r : List Ev}
    (h : jClean F names hid D s (g ++ e :: r)) : jOk F names hid D (g.foldl (jEv F names) s) e := by
  induction g generalizing s with
  | nil => exact h.1
  | cons a g ih => exact ih h.2

/-- The state of an encoding run: the finished document, and the place reached. -/
def JSt.over (s : JSt) (D : Items) : JSt := { s with doc := D }

section
variable {F : FloatOps} {names : List (List Byte)} {hid : Nat → Bool} {D : Items} {s : JSt}

theorem index_of_fresh {l m : Items} {name : List Byte} {v : JVal} (hf : l.index name = none)
    (hs : l.shape ++ [(name, v)] <+: m.shape) : m.index name = some l.size ∧ m.shape[l.size]? = some (name, v) := by
  constructor
  · refine Items.findIdx_prefix hs ?_
    unfold Items.index at hf
    rw [List.findIdx?_append, hf]
    simp [Items.size]
  · refine Items.getElem_prefix hs ?_
    simp [Items.size]

/-- The item just added to the current object is the one found there. -/
theorem find_fresh (hW : s.W) {n : List Byte} {v : JVal} (hi : s.inArr = none) (hf : s.fresh n)
    (hE : Items.Ext (s.doc.addAt s.cur n v) D) :
    (s.over D).find n = (some (s.cur ++ [(s.kids s.cur).size], v), s.over D) := by
  have h := (hE s.cur (Items.valid_addAt n v hW.cur)).2
  rw [Items.shape_addAt_same n v hW.cur] at h
  obtain ⟨h1, h2⟩ := index_of_fresh hf h
  have hc : (s.over D).cur = s.cur := rfl
  have hk : ∀ p, (s.over D).kids p = D.kidsAt p := fun _ => rfl
  have hi' : (s.over D).inArr = none := hi
  simp only [JSt.find, hi', hc, hk, h1, Option.bind_some, h2, Option.map_some]

/-- The element just added to the array in progress is the one found at its index. -/
theorem find_elem (hW : s.W) {f : ArrFrame} {fs : List ArrFrame} {n : List Byte} {v : JVal} (hi : s.inArr = some f)
    (he : s.arrs = f :: fs) (hE : Items.Ext (s.doc.addAt f.path [] v) D) :
    (s.over D).find n = (some (f.path ++ [(s.kids f.path).size], v), (s.over D).bump) := by
  have hm : f ∈ s.arrs := by rw [he]; simp
  have h := (hE f.path (Items.valid_addAt [] v (hW.av f hm))).2
  rw [Items.shape_addAt_same [] v (hW.av f hm)] at h
  have hi' : (s.over D).inArr = some f := hi
  have hk : ∀ p, (s.over D).kids p = D.kidsAt p := fun _ => rfl
  have h2 : (D.kidsAt f.path).shape[f.idx]? = some ([], v) := by
    refine Items.getElem_prefix h ?_
    rw [hW.idx f hm]
    simp [Items.size, JSt.kids]
  simp only [JSt.find, hi', hk, h2, Option.map_some]
  rw [hW.idx f hm]

theorem bump_over (s : JSt) (D E : Items) : (JSt.bump (s.over D)) = (({ s with doc := E } : JSt).bump).over D := by
  unfold JSt.bump
  simp only [JSt.over]
  split <;> rfl

/-- Finding the item that was just added, in the array in progress or in the current object. -/
theorem find_added (hW : s.W) {n : List Byte} {v : JVal} (hf : s.inArr = none → s.fresh n) (hE : Items.Ext (s.add n v).doc D) :
    ∃ p, (s.over D).find n = (some (p, v), (s.add n v).over D) ∧
      p = (match s.inArr with | some f => f.path ++ [(s.kids f.path).size] | none => s.cur ++ [(s.kids s.cur).size]) := by
  cases hi : s.inArr with
  | none =>
    simp only [JSt.add, hi] at hE
    refine ⟨_, ?_, rfl⟩
    rw [find_fresh hW hi (hf hi) hE]
    simp only [JSt.add, hi]
    rfl
  | some f =>
    obtain ⟨fs, he, _⟩ := JSt.inArr_some hi
    simp only [JSt.add, hi, bump_doc] at hE
    refine ⟨_, ?_, rfl⟩
    rw [find_elem hW hi he hE]
    simp only [JSt.add, hi, bump_over s D (s.doc.addAt f.path [] v)]

theorem over_push (s : JSt) (D : Items) (p : List Nat) : (s.push p).over D = (s.over D).push p := by
  unfold JSt.push JSt.over
  dsimp only
  split <;> rfl

/-- Reading a notification. -/
theorem read_note (hW : s.W) {k : Nat} {op : Byte} (ho : jOk F names hid D s (.note k op)) (hE : Items.Ext (jEv F names s (.note k op)).doc D) :
    (jsonHost F names true).notify (s.over D) k op = (true, (jEv F names s (.note k op)).over D) := by
  simp only [jOk] at ho
  simp only [jEv, jsonHost] at hE ⊢
  rcases ho with ⟨rfl, hl, hf⟩ | rfl | rfl
  · simp only [if_true] at hE ⊢
    have hd : (jsonEnter false (jsonName names k) s).2.doc = (s.add (jsonName names k) .obj).doc := by
      unfold jsonEnter
      rw [if_neg (by simp)]
      split <;> rw [push_doc]
    rw [hd] at hE
    obtain ⟨p, h1, h2⟩ := find_added hW hf hE
    simp only [jsonEnter, if_true, h1]
    rw [if_neg (by simp)]
    cases hi : s.inArr with
    | none => rw [hi] at h2; simp only [h2, over_push]
    | some f => rw [hi] at h2; simp only [h2, over_push]
  · simp only [show ¬ ((0x04 : Byte) = 0x03) by decide, if_false, if_true]
    unfold jsonExit JSt.over
    dsimp only
    split <;> rfl
  · simp only [show ¬ ((0x38 : Byte) = 0x03) by decide, show ¬ ((0x38 : Byte) = 0x04) by decide, if_false]
    rfl

/-- Reading a string. -/
theorem read_str (hW : s.W) {k : Nat} {op : Byte} {bs : List Byte} (ho : jOk F names hid D s (.str k op bs))
    (hE : Items.Ext (jEv F names s (.str k op bs)).doc D) :
    (jsonHost F names true).str (s.over D) k op = (true, some (bs ++ [0]), (jEv F names s (.str k op bs)).over D) := by
  obtain ⟨p, h1, _⟩ := find_added hW ho.2.2 hE
  simp only [jsonHost, h1]
  rfl

theorem arrHead_iff (op : Byte) :
    arrHead op = true ↔ (op.toNat = 0x34 ∨ op.toNat = 0x35 ∨ op.toNat = 0x36 ∨ op.toNat = 0x37 ∨ op.toNat = 0x3B) := by
  unfold arrHead
  simp only [Bool.or_eq_true, beq_iff_eq, ← BitVec.toNat_inj]
  simp [or_assoc]

theorem toNat_eq_iff (op c : Byte) : op.toNat = c.toNat ↔ op = c := BitVec.toNat_inj

/-- Reading a number. -/
theorem read_num (hW : s.W) {k : Nat} {op : Byte} {v cell : Word} (ho : jOk F names hid D s (.num k op v)) (hh : hid k = false)
    (hq : isQuery op = true → v = cell) (hE : Items.Ext (jEv F names s (.num k op v)).doc D) :
    (jsonHost F names true).scalar (s.over D) k op cell = (true, v, (jEv F names s (.num k op v)).over D) := by
  simp only [jOk] at ho
  simp only [jEv, jsonHost] at hE ⊢
  by_cases ha : arrHead op = true
  · rw [if_pos ha] at ho
    have ha' := (arrHead_iff op).1 ha
    rw [if_pos ha'] at hE ⊢
    rw [if_pos ha']
    obtain ⟨_, hl, hf, h1, h2, h3⟩ := ho
    have hnl : ¬ s.arrs.length ≥ 31 := by omega
    simp only [jsonArr, if_neg hnl] at hE ⊢
    simp only [Bool.false_eq_true, if_false, if_true] at hE ⊢
    have h := (hE s.cur (Items.valid_addAt _ .arr hW.cur)).2
    rw [Items.shape_addAt_same _ .arr hW.cur] at h
    obtain ⟨i1, i2⟩ := index_of_fresh hf h
    have hc : (s.over D).cur = s.cur := rfl
    have hk : ∀ p, (s.over D).kids p = D.kidsAt p := fun _ => rfl
    have hnl' : ¬ (s.over D).arrs.length ≥ 31 := hnl
    simp only [hc, hk, i1, i2, Option.map_some, ne_eq, not_true_eq_false, false_and, if_false, if_neg hnl', Prod.mk.injEq, true_and]
    refine ⟨?_, rfl⟩
    by_cases e1 : op = 0x35
    · rw [if_pos e1, h1 e1]
    rw [if_neg e1]
    by_cases e2 : op = 0x36
    · rw [if_pos e2, h2 e2]
    rw [if_neg e2]
    by_cases e3 : op = 0x37
    · rw [if_pos e3, h3 e3]
    rw [if_neg e3]
    refine (hq ?_).symm
    unfold isQuery
    unfold arrHead at ha
    simp only [beq_iff_eq, Bool.or_eq_true, e1, e2, e3, or_false] at ha ⊢
    rcases ha with ha | ha <;> simp [ha]
  · rw [if_neg ha] at ho
    have ha' := fun h => ha ((arrHead_iff op).2 h)
    rw [if_neg ha'] at hE ⊢
    rw [if_neg ha']
    by_cases h78 : op = 0x78
    · subst h78
      rw [← hq rfl]
      rfl
    · rw [if_neg h78] at ho
      obtain ⟨n6, n60, j, hj, ho⟩ := ho
      rw [if_neg (by simp [hh])] at ho
      have hn6 : ¬ (op.toNat = 0x06 ∨ op.toNat = 0x60) := by
        rintro (h | h)
        · exact n6 ((toNat_eq_iff op 0x06).1 h)
        · exact n60 ((toNat_eq_iff op 0x60).1 h)
      have hn78 : ¬ (op.toNat = 0x78) := fun h => h78 ((toNat_eq_iff op 0x78).1 h)
      rw [if_neg hn6, if_neg hn78] at hE ⊢
      rw [if_neg hn6, if_neg hn78]
      simp only [jsonPrim, Bool.false_eq_true, if_false, if_true, hj] at hE ⊢
      obtain ⟨p, h1, _⟩ := find_added hW ho.1 hE
      simp only [h1, ho.2]

/-- Fields whose value is fixed by the schema leave the place alone. -/
theorem skip_hid {k : Nat} {op : Byte} {v : Word} (ho : jOk F names hid D s (.num k op v)) (hh : hid k = true) :
    (jEv F names s (.num k op v)).over D = s.over D := by
  simp only [jOk, hh, if_true] at ho
  split at ho
  · cases ho.1
  split at ho
  · cases ho
  · rename_i ha h78
    obtain ⟨n6, n60, j, hj, ho⟩ := ho
    have ha' := fun h => ha ((arrHead_iff op).2 h)
    have hn6 : ¬ (op.toNat = 0x06 ∨ op.toNat = 0x60) := by
      rintro (h | h)
      · exact n6 ((toNat_eq_iff op 0x06).1 h)
      · exact n60 ((toNat_eq_iff op 0x60).1 h)
    have hn78 : ¬ (op.toNat = 0x78) := fun h => h78 ((toNat_eq_iff op 0x78).1 h)
    simp only [jEv, jsonHost]
    rw [if_neg ha', if_neg hn6, if_neg hn78]
    simp only [jsonPrim, Bool.false_eq_true, if_false, hj, JSt.add, ho]
    rfl

end

end Cnd
