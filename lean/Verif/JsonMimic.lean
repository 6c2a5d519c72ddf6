import Verif.JsonRun
/-
  The JSON binding answers as the recording and the supplying host of the packet theorems do (used for C63).
-/

namespace Cnd

/-- What the binding answers to a question about an earlier field: the number or boolean of that name in the current object. -/
def jAnswer (F : FloatOps) (names : List (List Byte)) (s : JSt) (key : Nat) : Option Word :=
  match (s.kids s.cur).value (jsonName names key) with
  | some (.bool b) => some (if b then 1 else 0)
  | some v => F.toTy .u64 v.dbl
  | none => none

/-- The packet theorems' host whose answers are those of the document built so far. -/
def jsonView (F : FloatOps) (names : List (List Byte)) (hid : Nat → Bool) : View :=
  ⟨hid, fun key es => jAnswer F names (jBuild F names es) key⟩

/-- Fields whose value is fixed by the schema have other names than the other fields. -/
def HidApart (names : List (List Byte)) (hid : Nat → Bool) : Prop :=
  ∀ k k', hid k = true → hid k' = false → (jsonName names k).map Items.lower ≠ (jsonName names k').map Items.lower

section
variable {F : FloatOps} {names : List (List Byte)} {hid : Nat → Bool} {D : Items} {s t : JSt}

theorem query_answer {key : Nat} {w : Word} (h : jAnswer F names s key = some w) (cell : Word) :
    jsonQuery F (jsonName names key) cell s = (true, w, s) := by
  unfold jAnswer at h
  unfold jsonQuery
  split at h
  · rename_i b hb
    obtain ⟨i, n, h1, h2⟩ := Items.index_value hb
    cases h
    simp only [h1, h2]
  · rename_i v hnb hb
    obtain ⟨i, n, h1, h2⟩ := Items.index_value hb
    simp only [h1, h2]
    cases v with
    | bool b => exact absurd rfl (hnb b)
    | _ => simp only [h]
  · cases h

theorem value_ext {l m : Items} {name : List Byte} {v : JVal} (h : l.shape <+: m.shape) (hv : l.value name = some v) :
    m.value name = some v := by
  obtain ⟨i, n, h1, h2⟩ := Items.index_value hv
  exact Items.value_index (Items.findIdx_prefix h h1) (Items.getElem_prefix h h2)

theorem answer_over (hW : s.W) (hE : Items.Ext s.doc D) {key : Nat} {w : Word} (h : jAnswer F names s key = some w) :
    jAnswer F names (s.over D) key = some w := by
  have hp := (hE s.cur hW.cur).2
  cases hv : (s.kids s.cur).value (jsonName names key) with
  | none => simp [jAnswer, hv] at h
  | some v =>
    have h2 : ((s.over D).kids (s.over D).cur).value (jsonName names key) = some v := value_ext hp hv
    unfold jAnswer at h ⊢
    rw [h2]
    rw [hv] at h
    exact h

theorem value_addAt_same {l : Items} {p : List Nat} (n name : List Byte) (v : JVal) (h : l.valid p = true) :
    ((l.addAt p n v).kidsAt p).value name =
      ((l.kidsAt p).value name).or (if n.map Items.lower = name.map Items.lower then some v else none) := by
  unfold Items.value
  rw [Items.shape_addAt_same n v h, List.find?_append]
  cases List.find? (fun x => x.1.map Items.lower == name.map Items.lower) (l.kidsAt p).shape with
  | some x => simp
  | none =>
    by_cases hc : n.map Items.lower = name.map Items.lower <;> simp [hc]

theorem value_addAt_ne {l : Items} {p q : List Nat} (n name : List Byte) (v : JVal) (h : l.valid q = true) (hne : q ≠ p) :
    ((l.addAt p n v).kidsAt q).value name = (l.kidsAt q).value name := by
  unfold Items.value
  rw [Items.shape_addAt_ne n v h hne]

/-- The documents of a record with and without the fields whose value is fixed: same place, and the same answers. -/
structure Thin (names : List (List Byte)) (hid : Nat → Bool) (s t : JSt) : Prop where
  ws : s.W
  wt : t.W
  arrs : s.arrs.map (·.depth) = t.arrs.map (·.depth)
  len : s.stack.length = t.stack.length
  same : ∀ (i : Nat) (p q : List Nat), s.stack[i]? = some p → t.stack[i]? = some q → ∀ key, hid key = false →
    (s.kids p).value (jsonName names key) = (t.kids q).value (jsonName names key)

theorem cur_get (h : s.W) : s.stack[0]? = some s.cur := by
  unfold JSt.cur
  cases h' : s.stack with
  | nil => exact absurd h' h.ne
  | cons a l => simp

theorem Thin.inArr (h : Thin names hid s t) : (s.inArr = none ∧ t.inArr = none) ∨
    ∃ f g fs gs, s.inArr = some f ∧ t.inArr = some g ∧ s.arrs = f :: fs ∧ t.arrs = g :: gs := by
  have ha := h.arrs
  unfold JSt.inArr
  cases h1 : s.arrs with
  | nil =>
    rw [h1] at ha
    cases h2 : t.arrs with
    | nil => exact .inl ⟨rfl, rfl⟩
    | cons g gs => rw [h2] at ha; simp at ha
  | cons f fs =>
    rw [h1] at ha
    cases h2 : t.arrs with
    | nil => rw [h2] at ha; simp at ha
    | cons g gs =>
      rw [h2] at ha
      simp only [List.map_cons, List.cons.injEq] at ha
      dsimp only
      rw [ha.1, h.len]
      by_cases hc : g.depth = t.stack.length
      · rw [if_pos hc, if_pos hc]; exact .inr ⟨f, g, fs, gs, rfl, rfl, rfl, rfl⟩
      · rw [if_neg hc, if_neg hc]; exact .inl ⟨rfl, rfl⟩

/-- Which stack entry is the current object. -/
theorem ne_cur (h : s.W) {i : Nat} {p : List Nat} (hp : s.stack[i]? = some p) (hi : i ≠ 0) : p ≠ s.cur := by
  rintro rfl
  have hn : s.stack.Nodup := (List.nodup_append.1 h.nd).1
  have hl : i < s.stack.length := (List.getElem?_eq_some_iff.1 hp).1
  have := (List.getElem?_inj hl hn).1 (hp.trans (cur_get h).symm)
  exact hi this

theorem stack_ne_arr (h : s.W) {i : Nat} {p : List Nat} (hp : s.stack[i]? = some p) {f : ArrFrame} (hf : f ∈ s.arrs) : p ≠ f.path :=
  (List.nodup_append.1 h.nd).2.2 _ (List.mem_of_getElem? hp) _ (List.mem_map.2 ⟨f, hf, rfl⟩)

theorem Thin.addCur (h : Thin names hid s t) (n : List Byte) (v : JVal) :
    Thin names hid { s with doc := s.doc.addAt s.cur n v } { t with doc := t.doc.addAt t.cur n v } where
  ws := h.ws.addCur n v
  wt := h.wt.addCur n v
  arrs := h.arrs
  len := h.len
  same i p q hp hq key hk := by
    replace hp : s.stack[i]? = some p := hp
    replace hq : t.stack[i]? = some q := hq
    have hs := h.same i p q hp hq key hk
    have vp := h.ws.sv p (List.mem_of_getElem? hp)
    have vq := h.wt.sv q (List.mem_of_getElem? hq)
    show ((s.doc.addAt s.cur n v).kidsAt p).value _ = ((t.doc.addAt t.cur n v).kidsAt q).value _
    by_cases hi : i = 0
    · subst hi
      have e1 := hp.symm.trans (cur_get h.ws)
      have e2 := hq.symm.trans (cur_get h.wt)
      cases e1
      cases e2
      rw [value_addAt_same _ _ _ vp, value_addAt_same _ _ _ vq]
      exact congrArg (Option.or · _) hs
    · rw [value_addAt_ne _ _ _ vp (ne_cur h.ws hp hi), value_addAt_ne _ _ _ vq (ne_cur h.wt hq hi)]
      exact hs

theorem Thin.addHid (h : Thin names hid s t) {n : List Byte} (v : JVal)
    (hn : ∀ key, hid key = false → n.map Items.lower ≠ (jsonName names key).map Items.lower) :
    Thin names hid { s with doc := s.doc.addAt s.cur n v } t where
  ws := h.ws.addCur n v
  wt := h.wt
  arrs := h.arrs
  len := h.len
  same i p q hp hq key hk := by
    replace hp : s.stack[i]? = some p := hp
    replace hq : t.stack[i]? = some q := hq
    have hs := h.same i p q hp hq key hk
    have vp := h.ws.sv p (List.mem_of_getElem? hp)
    show ((s.doc.addAt s.cur n v).kidsAt p).value _ = _
    by_cases hi : p = s.cur
    · subst hi
      rw [value_addAt_same _ _ _ vp, if_neg (hn key hk), Option.or_none]
      exact hs
    · rw [value_addAt_ne _ _ _ vp hi]
      exact hs

theorem bump_stack (s : JSt) : s.bump.stack = s.stack := by unfold JSt.bump; split <;> rfl

theorem bump_depths (s : JSt) : s.bump.arrs.map (·.depth) = s.arrs.map (·.depth) := by
  unfold JSt.bump
  split
  · rfl
  · rename_i e; simp [e]

theorem Thin.add (h : Thin names hid s t) (n : List Byte) (v : JVal) : Thin names hid (s.add n v) (t.add n v) := by
  rcases h.inArr with ⟨h1, h2⟩ | ⟨f, g, fs, gs, h1, h2, h3, h4⟩
  · simp only [JSt.add, h1, h2]
    exact h.addCur n v
  · have ws := h.ws.add n v
    have wt := h.wt.add n v
    simp only [JSt.add, h1, h2] at ws wt ⊢
    refine ⟨ws, wt, by rw [bump_depths, bump_depths]; exact h.arrs, by rw [bump_stack, bump_stack]; exact h.len, ?_⟩
    intro i p q hp hq key hk
    rw [bump_stack] at hp hq
    have hs := h.same i p q hp hq key hk
    have vp := h.ws.sv p (List.mem_of_getElem? hp)
    have vq := h.wt.sv q (List.mem_of_getElem? hq)
    simp only [JSt.kids, bump_doc]
    rw [value_addAt_ne _ _ _ vp (stack_ne_arr h.ws hp (by rw [h3]; simp)), value_addAt_ne _ _ _ vq (stack_ne_arr h.wt hq (by rw [h4]; simp))]
    exact hs

theorem Thin.push (h : Thin names hid s t) {p q : List Nat} (hp : (s.kids p) = .nil) (hq : (t.kids q) = .nil)
    (ws : (s.push p).W) (wt : (t.push q).W) : Thin names hid (s.push p) (t.push q) := by
  refine ⟨ws, wt, ?_, ?_, ?_⟩
  · unfold JSt.push; rw [h.len]; split <;> exact h.arrs
  · unfold JSt.push; rw [h.len]; split
    · exact h.len
    · simp [h.len]
  · intro i p' q' hp' hq' key hk
    simp only [JSt.kids, push_doc]
    unfold JSt.push at hp' hq'
    rw [h.len] at hp'
    split at hp'
    · rename_i hl
      rw [if_pos hl] at hq'
      exact h.same i p' q' hp' hq' key hk
    · rename_i hl
      rw [if_neg hl] at hq'
      cases i with
      | zero =>
        simp only [List.getElem?_cons_zero, Option.some.injEq] at hp' hq'
        subst hp' hq'
        show (s.kids p).value _ = (t.kids q).value _
        rw [hp, hq]
      | succ i =>
        simp only [List.getElem?_cons_succ] at hp' hq'
        exact h.same i p' q' hp' hq' key hk

theorem Thin.note (h : Thin names hid s t) (k : Nat) (op : Byte) :
    Thin names hid (jEv F names s (.note k op)) (jEv F names t (.note k op)) := by
  have ws := jEv_W F names h.ws (.note k op)
  have wt := jEv_W F names h.wt (.note k op)
  simp only [jEv, jsonHost] at ws wt ⊢
  split
  · rename_i hop
    rw [if_pos hop] at ws wt
    have ha := h.add (jsonName names k) .obj
    unfold jsonEnter at ws wt ⊢
    simp only [Bool.false_eq_true, if_false] at ws wt ⊢
    rcases h.inArr with ⟨h1, h2⟩ | ⟨f, g, fs, gs, h1, h2, h3, h4⟩
    · rw [h1] at ws ⊢
      rw [h2] at wt ⊢
      refine ha.push ?_ ?_ ws wt
      · simp only [JSt.kids, JSt.add, h1]; exact Items.kidsAt_addAt_new _ _ h.ws.cur
      · simp only [JSt.kids, JSt.add, h2]; exact Items.kidsAt_addAt_new _ _ h.wt.cur
    · rw [h1] at ws ⊢
      rw [h2] at wt ⊢
      refine ha.push ?_ ?_ ws wt
      · simp only [JSt.kids, JSt.add, h1, bump_doc]; exact Items.kidsAt_addAt_new _ _ (h.ws.av f (by rw [h3]; simp))
      · simp only [JSt.kids, JSt.add, h2, bump_doc]; exact Items.kidsAt_addAt_new _ _ (h.wt.av g (by rw [h4]; simp))
  rename_i hop
  rw [if_neg hop] at ws wt
  split
  · rename_i hop
    rw [if_pos hop] at ws wt
    unfold jsonExit at ws wt ⊢
    rw [h.len] at ws ⊢
    split
    · rename_i hl
      rw [if_pos hl] at ws wt
      refine ⟨ws, wt, h.arrs, by simp [h.len], ?_⟩
      intro i p q hp hq key hk
      simp only [List.getElem?_tail] at hp hq
      exact h.same (i + 1) p q hp hq key hk
    · exact h
  · rename_i hop
    rw [if_neg hop] at ws wt
    refine ⟨ws, wt, ?_, h.len, h.same⟩
    have := congrArg List.tail h.arrs
    simpa [jsonArrEnd] using this

theorem Thin.arr (h : Thin names hid s t) (op : Byte) (n : List Byte) (v : Word) :
    Thin names hid (jsonArr false op n v s).2.2 (jsonArr false op n v t).2.2 := by
  have ws := jsonArr_W h.ws op n v
  have wt := jsonArr_W h.wt op n v
  have hl : s.arrs.length = t.arrs.length := by simpa using congrArg List.length h.arrs
  have ha := h.addCur n .arr
  unfold jsonArr at ws wt ⊢
  simp only [Bool.false_eq_true, if_false] at ws wt ⊢
  rw [hl] at ws ⊢
  split
  · exact h
  · rename_i hc
    rw [if_neg hc] at ws wt
    exact ⟨ws, wt, by simp [h.arrs, h.len], h.len, ha.same⟩

/-- Steps on a field of the record. -/
theorem Thin.step (h : Thin names hid s t) {e : Ev} (he : match e with | .num _ op _ => op ≠ 0x06 ∧ op ≠ 0x60 | _ => True) :
    Thin names hid (jEv F names s e) (jEv F names t e) := by
  cases e with
  | note k op => exact h.note k op
  | str k op bs => exact h.add _ _
  | num k op v =>
    simp only [jEv, jsonHost]
    split
    · exact h.arr ..
    split
    · rename_i hq
      rcases hq with hq | hq
      · exact absurd ((toNat_eq_iff op 0x06).1 hq) he.1
      · exact absurd ((toNat_eq_iff op 0x60).1 hq) he.2
    split
    · exact h.addCur _ _
    · unfold jsonPrim
      simp only [Bool.false_eq_true, if_false]
      split
      · exact h.add _ _
      · exact h

/-- Steps on a field whose value is fixed. -/
theorem Thin.skip (hA : HidApart names hid) (h : Thin names hid s t) {k : Nat} {op : Byte} {v : Word} (hk : hid k = true)
    (ho : jOk F names hid D s (.num k op v)) : Thin names hid (jEv F names s (.num k op v)) t := by
  simp only [jOk, hk, if_true] at ho
  split at ho
  · cases ho.1
  split at ho
  · cases ho
  · rename_i ha h78
    obtain ⟨n6, n60, j, hj, ho⟩ := ho
    have ha' := fun h => ha ((arrHead_iff op).2 h)
    have hn6 : ¬ (op.toNat = 0x06 ∨ op.toNat = 0x60) := by
      rintro (h | h)
      · exact n6 ((toNat_eq_iff op 0x06).1 h)
      · exact n60 ((toNat_eq_iff op 0x60).1 h)
    have hn78 : ¬ (op.toNat = 0x78) := fun h => h78 ((toNat_eq_iff op 0x78).1 h)
    simp only [jEv, jsonHost]
    rw [if_neg ha', if_neg hn6, if_neg hn78]
    simp only [jsonPrim, Bool.false_eq_true, if_false, hj, JSt.add, ho]
    exact h.addHid j fun key hkey => hA k key hk hkey

theorem jOk_noQuery {k : Nat} {op : Byte} {v : Word} (ho : jOk F names hid D s (.num k op v)) : op ≠ 0x06 ∧ op ≠ 0x60 := by
  simp only [jOk] at ho
  split at ho
  · rename_i ha
    constructor <;> rintro rfl <;> simp [arrHead] at ha
  split at ho
  · rename_i h78
    subst h78
    constructor <;> decide
  · exact ⟨ho.1, ho.2.1⟩

theorem thin_run (hA : HidApart names hid) (K : View) (hK : K.hid = hid) (g : List Ev) (h : Thin names hid s t) (hc : jClean F names hid D s g) :
    Thin names hid (g.foldl (jEv F names) s) ((vis K g).foldl (jEv F names) t) := by
  induction g generalizing s t with
  | nil => exact h
  | cons e g ih =>
    have hv : vis K (e :: g) = vis K [e] ++ vis K g := by rw [← vis_append]; rfl
    rw [hv, List.foldl_cons, List.foldl_append]
    refine ih ?_ hc.2
    cases e with
    | note k op => exact h.step trivial
    | str k op bs => exact h.step trivial
    | num k op v =>
      by_cases hk : hid k = true
      · have : vis K [.num k op v] = [] := by simp [vis, hK, hk]
        rw [this]
        exact h.skip hA hk hc.1
      · have : vis K [.num k op v] = [.num k op v] := by simp [vis, hK, hk]
        rw [this]
        exact h.step (jOk_noQuery hc.1)

/-- The answers given from the record without the fixed fields are those of the document. -/
theorem answer_vis (hA : HidApart names hid) (K : View) (hK : K.hid = hid) {g : List Ev} (hc : jClean F names hid D (JSt.start .nil) g) {key : Nat}
    (hk : hid key = false) : jAnswer F names (jBuild F names (vis K g)) key = jAnswer F names (jBuild F names g) key := by
  have h0 : Thin names hid (JSt.start .nil) (JSt.start .nil) := ⟨.start, .start, rfl, rfl, by
    intro i p q hp hq key _
    rw [hp] at hq
    cases hq
    rfl⟩
  have h := thin_run hA K hK g h0 hc
  have := h.same 0 _ _ (cur_get h.ws) (cur_get h.wt) key hk
  unfold jAnswer jBuild
  rw [this]

/-! ### The decoder -/

theorem prefix_next {G g : List Ev} {e : Ev} (h : g ++ [e] <+: G) : ∃ r, G = g ++ e :: r := by
  obtain ⟨r, rfl⟩ := h
  exact ⟨r, by simp⟩

theorem prefix_of_snoc {G g : List Ev} {e : Ev} (h : g ++ [e] <+: G) : g <+: G :=
  (List.prefix_append g [e]).trans h

/-- A clean record: nothing in it that the document cannot carry. -/
def JClean (F : FloatOps) (names : List (List Byte)) (hid : Nat → Bool) (G : List Ev) : Prop :=
  jClean F names hid (jBuild F names G).doc (JSt.start .nil) G

theorem JClean.at {G g : List Ev} {e : Ev} (h : JClean F names hid G) (hp : g ++ [e] <+: G) :
    jOk F names hid (jBuild F names G).doc (jBuild F names g) e := by
  obtain ⟨r, rfl⟩ := prefix_next hp
  exact jClean_at g h

theorem jClean_prefix {g r : List Ev} (h : jClean F names hid D s (g ++ r)) : jClean F names hid D s g := by
  induction g generalizing s with
  | nil => trivial
  | cons e g ih => exact ⟨h.1, ih h.2⟩

theorem JClean.pre {G g : List Ev} (h : JClean F names hid G) (hp : g <+: G) :
    jClean F names hid (jBuild F names G).doc (JSt.start .nil) g := by
  obtain ⟨r, rfl⟩ := hp
  exact jClean_prefix h

/-- The callback's view of a string inside the packet, if it has no NUL. -/
theorem jsonStr_readStr {op : Byte} {be : Bool} {B : List Byte} {p : Nat} (hop : op = 0x30 ∨ op = 0x31 ∨ op = 0x32)
    (hn : NulFree (readStr op be B p)) (ht : strThere op be B p = true) : jsonStr op be B p = some (readStr op be B p) := by
  have htw : ∀ l : List Byte, NulFree l → l.takeWhile (· ≠ 0) = l := fun l hl => by
    induction l with
    | nil => rfl
    | cons a l ih =>
      rw [List.takeWhile_cons_of_pos (by simpa using hl a (by simp)), ih (fun x hx => hl x (by simp [hx]))]
  rcases hop with rfl | rfl | rfl
  · show cstrAt B p = some ((B.drop p).takeWhile (· ≠ 0))
    unfold cstrAt
    have : (0 : Byte) ∈ B.drop p := by
      have ht : (B.drop p).any (· == 0) = true := ht
      rw [List.any_eq_true] at ht
      obtain ⟨x, hx, h0⟩ := ht
      rw [beq_iff_eq] at h0
      exact h0 ▸ hx
    rw [if_pos this]
  · have ht : decide (1 ≤ p ∧ p + (rdWord be ((B.drop (p - 1)).take 1)).toNat ≤ B.length) = true := ht
    rw [decide_eq_true_eq] at ht
    have hn : NulFree ((B.drop p).take (rdWord be ((B.drop (p - 1)).take 1)).toNat) := hn
    show (if p < 1 then none else _) = some ((B.drop p).take (rdWord be ((B.drop (p - 1)).take 1)).toNat)
    rw [if_neg (by omega), if_neg (by omega), htw _ hn]
  · have ht : decide (2 ≤ p ∧ p + (rdWord be ((B.drop (p - 2)).take 2)).toNat ≤ B.length) = true := ht
    rw [decide_eq_true_eq] at ht
    have hn : NulFree ((B.drop p).take (rdWord be ((B.drop (p - 2)).take 2)).toNat) := hn
    show (if p < 2 then none else _) = some ((B.drop p).take (rdWord be ((B.drop (p - 2)).take 2)).toNat)
    rw [if_neg (by omega), if_neg (by omega), htw _ hn]

/-- Decoding calls on numbers leave the cell alone and succeed. -/
theorem scalar_decode {k : Nat} {op : Byte} {v : Word} (ho : jOk F names hid D s (.num k op v)) :
    (jsonHost F names false).scalar s k op v = (true, v, jEv F names s (.num k op v)) := by
  have hq := jOk_noQuery ho
  have hn6 : ¬ (op.toNat = 0x06 ∨ op.toNat = 0x60) := by
    rintro (h | h)
    · exact hq.1 ((toNat_eq_iff op 0x06).1 h)
    · exact hq.2 ((toNat_eq_iff op 0x60).1 h)
  simp only [jOk] at ho
  simp only [jEv, jsonHost]
  split
  · rename_i ha
    rw [if_pos ((arrHead_iff op).2 ha)] at ho
    unfold jsonArr
    simp only [Bool.false_eq_true, if_false]
    rw [if_neg (by omega)]
  split
  · rfl
  · unfold jsonPrim
    simp only [Bool.false_eq_true, if_false]
    split <;> rfl

theorem notify_decode {k : Nat} {op : Byte} : (jsonHost F names false).notify s k op = (true, jEv F names s (.note k op)) := by
  simp only [jEv, jsonHost]
  split
  · unfold jsonEnter
    simp only [Bool.false_eq_true, if_false]
    split <;> rfl
  split
  · rfl
  · rfl

/-- The binding builds the document of the record it is given. -/
theorem taker_json (hA : HidApart names hid) {G : List Ev} (hC : JClean F names hid G) :
    Mimics false (taker (jsonView F names hid)) (jsonHost F names false) (fun g => g <+: G) (fun g b => b = jBuild F names g) where
  notify := by
    intro g b key op g' hR hs ho
    simp only [taker, Prod.mk.injEq, true_and] at hs
    subst hs hR
    exact ⟨_, notify_decode, (jBuild_snoc F names g _).symm⟩
  notifyMono := fun h => prefix_of_snoc h
  scalar := by
    intro g b key op v w g' hR hs ho
    subst hR
    have hnum : (true, v, g ++ [Ev.num key op v]) = (true, w, g') →
        ∃ b', (jsonHost F names false).scalar (jBuild F names g) key op v = (true, w, b') ∧ b' = jBuild F names g' := by
      intro e
      simp only [Prod.mk.injEq, true_and] at e
      obtain ⟨rfl, rfl⟩ := e
      exact ⟨_, scalar_decode (hC.at ho), (jBuild_snoc F names g _).symm⟩
    simp only [taker] at hs
    split at hs
    · exact hnum hs
    rename_i hk
    split at hs
    · rename_i hq
      split at hs
      · rename_i w' hw
        simp only [Prod.mk.injEq, true_and] at hs
        obtain ⟨rfl, rfl⟩ := hs
        refine ⟨_, ?_, rfl⟩
        have ha : jAnswer F names (jBuild F names g) key = some w' := by
          rw [← answer_vis hA (jsonView F names hid) rfl (hC.pre ho) (Bool.eq_false_iff.2 hk)]
          exact hw
        have h1 := query_answer ha v
        simp only [jsonHost]
        rw [if_neg (by rcases hq with rfl | rfl <;> decide), if_pos (by rcases hq with rfl | rfl <;> decide)]
        exact h1
      · simp at hs
    · exact hnum hs
  scalarMono := by
    intro g key op v h
    simp only [taker] at h
    split at h
    · exact prefix_of_snoc h
    split at h
    · split at h <;> exact h
    · exact prefix_of_snoc h
  str := by intro h; cases h
  strMono := by intro h; cases h
  strNo := by intro h; cases h
  bytes := by
    intro _ g b key op be B p B' g' h39 hR hs ho
    subst hR
    simp only [taker, if_neg h39] at hs
    split at hs
    · rename_i ht
      simp only [Prod.mk.injEq, true_and] at hs
      obtain ⟨rfl, rfl⟩ := hs
      have hok := hC.at ho
      refine ⟨_, ?_, (jBuild_snoc F names g _).symm⟩
      simp only [jsonHost, if_neg h39, jsonStr_readStr hok.1 hok.2.1 ht]
      rfl
    · simp at hs
  bytesMono := by
    intro g key op be B p h
    simp only [taker] at h
    split at h
    · exact h
    split at h
    · exact prefix_of_snoc h
    · exact h
  raw := fun _ h => (by cases h)

/-! ### The encoder -/

/-- The states of the two hosts belong together: what has been supplied is a beginning of the record, less the fixed fields. -/
def JSupply (F : FloatOps) (names : List (List Byte)) (hid : Nat → Bool) (G : List Ev) (h : Tape) (b : JSt) : Prop :=
  ∃ g r, G = g ++ r ∧ h.done = vis (jsonView F names hid) g ∧ h.todo = vis (jsonView F names hid) r ∧
    b = (jBuild F names g).over (jBuild F names G).doc

/-- The next field supplied is the next one of the record that is not fixed. -/
theorem next_event {K : View} {G : List Ev} (hC : JClean F names hid G) (hK : K.hid = hid) {e : Ev} {t : List Ev} {g : List Ev} (r : List Ev)
    (hG : G = g ++ r) (ht : vis K r = e :: t) :
    ∃ g' r', G = g' ++ e :: r' ∧ vis K g' = vis K g ∧ vis K r' = t ∧ vis K [e] = [e] ∧
      (jBuild F names g').over (jBuild F names G).doc = (jBuild F names g).over (jBuild F names G).doc := by
  induction r generalizing g with
  | nil => cases ht
  | cons a r ih =>
    have hv : vis K (a :: r) = vis K [a] ++ vis K r := by rw [← vis_append]; rfl
    have hvis : vis K [a] = [a] → ∃ g' r', G = g' ++ e :: r' ∧ vis K g' = vis K g ∧ vis K r' = t ∧ vis K [e] = [e] ∧
      (jBuild F names g').over (jBuild F names G).doc = (jBuild F names g).over (jBuild F names G).doc := by
      intro h1
      rw [hv, h1] at ht
      simp only [List.cons_append, List.nil_append, List.cons.injEq] at ht
      obtain ⟨rfl, rfl⟩ := ht
      exact ⟨g, r, hG, rfl, rfl, h1, rfl⟩
    cases a with
    | note k op => exact hvis rfl
    | str k op bs => exact hvis rfl
    | num k op v =>
      by_cases hk : hid k = true
      · have h0 : vis K [.num k op v] = [] := by simp [vis, hK, hk]
        rw [hv, h0] at ht
        have hG' : G = (g ++ [.num k op v]) ++ r := by rw [hG]; simp
        obtain ⟨g', r', h1, h2, h3, h4, h5⟩ := ih hG' ht
        refine ⟨g', r', h1, ?_, h3, h4, ?_⟩
        · rw [h2, vis_append, h0, List.append_nil]
        · rw [h5, jBuild_snoc]
          have hok := hC.at (g := g) (e := .num k op v) (by rw [hG']; exact List.prefix_append ..)
          exact skip_hid hok hk
      · exact hvis (by simp [vis, hK, hk])

theorem supply_next {G : List Ev} (hC : JClean F names hid G) {h : Tape} {b : JSt} (hR : JSupply F names hid G h b) {e : Ev} {t : List Ev}
    (ht : h.todo = e :: t) : ∃ g, g ++ [e] <+: G ∧ b = (jBuild F names g).over (jBuild F names G).doc ∧
      JSupply F names hid G ⟨h.done ++ [e], t⟩ ((jEv F names (jBuild F names g) e).over (jBuild F names G).doc) := by
  obtain ⟨g, r, h1, h2, h3, h4⟩ := hR
  rw [ht] at h3
  obtain ⟨g', r', i1, i2, i3, i4, i5⟩ := next_event (K := jsonView F names hid) hC rfl r h1 h3.symm
  have e1 : G = (g' ++ [e]) ++ r' := by rw [i1]; simp
  refine ⟨g', by rw [e1]; exact List.prefix_append .., by rw [i5, h4], g' ++ [e], r', e1, ?_, i3.symm, by rw [jBuild_snoc]⟩
  rw [vis_append, i2, i4, h2]

theorem supply_ext {G g : List Ev} (hp : g <+: G) : Items.Ext (jBuild F names g).doc (jBuild F names G).doc := by
  obtain ⟨r, rfl⟩ := hp
  exact jBuild_ext F names g r

theorem mark_not {G : List Ev} (hC : JClean F names hid G) {h : Tape} :
    ¬ (h.refuse.done ++ h.refuse.todo = vis (jsonView F names hid) G) := by
  intro e
  have hm : Ev.note 65536 0xFF ∈ vis (jsonView F names hid) G := by rw [← e]; simp [Tape.refuse]
  have hm : Ev.note 65536 0xFF ∈ G := (List.mem_filter.1 hm).1
  obtain ⟨g, r, hG⟩ := List.append_of_mem hm
  have hok := hC.at (g := g) (e := .note 65536 0xFF) (by rw [hG]; exact ⟨r, by simp⟩)
  simp only [jOk] at hok
  rcases hok with ⟨h, _⟩ | h | h <;> revert h <;> decide

/-- The binding reads the record from the document. -/
theorem giver_json (hA : HidApart names hid) {G : List Ev} (hC : JClean F names hid G) :
    Mimics true (giver (jsonView F names hid)) (jsonHost F names true)
      (fun h => h.done ++ h.todo = vis (jsonView F names hid) G) (JSupply F names hid G) where
  notify := by
    intro h b key op h' hR hs ho
    simp only [giver] at hs
    split at hs
    · rename_i ht
      split at hs
      · rename_i hc
        simp only [Prod.mk.injEq, true_and] at hs
        obtain ⟨rfl, rfl⟩ := hc
        subst hs
        obtain ⟨g, hp, rfl, hS⟩ := supply_next hC hR ht
        refine ⟨_, read_note (jBuild_W F names g) (hC.at hp) ?_, hS⟩
        rw [← jBuild_snoc]
        exact supply_ext hp
      · simp at hs
    · simp at hs
  notifyMono := by
    intro h key op ho
    simp only [giver] at ho
    split at ho
    · rename_i ht
      split at ho
      · rw [ht]; simpa using ho
      · exact ho
    · exact ho
  scalar := by
    intro h b key op v w h' hR hs ho
    simp only [giver] at hs
    split at hs
    · simp at hs
    rename_i hk
    replace hk : hid key = false := Bool.eq_false_iff.2 hk
    split at hs
    · rename_i hq
      split at hs
      · rename_i w' hw
        simp only [Prod.mk.injEq, true_and] at hs
        obtain ⟨rfl, rfl⟩ := hs
        refine ⟨b, ?_, hR⟩
        obtain ⟨g, r, h1, h2, h3, h4⟩ := hR
        have hp : g <+: G := ⟨r, h1.symm⟩
        rw [h2] at hw
        have ha : jAnswer F names (jBuild F names g) key = some w' := by
          rw [← answer_vis hA (jsonView F names hid) rfl (hC.pre hp) hk]
          exact hw
        have h1 := query_answer (answer_over (jBuild_W F names g) (supply_ext hp) ha) v
        simp only [jsonHost]
        rw [if_neg (by rcases hq with rfl | rfl <;> decide), if_pos (by rcases hq with rfl | rfl <;> decide), h4]
        exact h1
      · simp at hs
    · split at hs
      · rename_i ht
        split at hs
        · rename_i hc
          simp only [Prod.mk.injEq, true_and] at hs
          obtain ⟨rfl, rfl, hq⟩ := hc
          obtain ⟨rfl, rfl⟩ := hs
          obtain ⟨g, hp, rfl, hS⟩ := supply_next hC hR ht
          refine ⟨_, read_num (jBuild_W F names g) (hC.at hp) hk hq ?_, hS⟩
          rw [← jBuild_snoc]
          exact supply_ext hp
        · simp at hs
      · simp at hs
  scalarMono := by
    intro h key op v ho
    simp only [giver] at ho
    split at ho
    · exact ho
    split at ho
    · split at ho <;> exact ho
    · split at ho
      · rename_i ht
        split at ho
        · rw [ht]; simpa using ho
        · exact ho
      · exact ho
  str := by
    intro _ h b key op w h' hR hs ho
    simp only [giver] at hs
    split at hs
    · rename_i ht
      split at hs
      · rename_i hc
        simp only [Prod.mk.injEq, true_and] at hs
        obtain ⟨rfl, rfl, hf⟩ := hc
        obtain ⟨rfl, rfl⟩ := hs
        obtain ⟨g, hp, rfl, hS⟩ := supply_next hC hR ht
        refine ⟨_, _, read_str (jBuild_W F names g) (hC.at hp) ?_, rfl, hS⟩
        rw [← jBuild_snoc]
        exact supply_ext hp
      · simp at hs
    · simp at hs
  strMono := by
    intro _ h key op ho
    simp only [giver] at ho
    split at ho
    · rename_i ht
      split at ho
      · rw [ht]; simpa using ho
      · exact absurd ho (mark_not hC)
    · exact absurd ho (mark_not hC)
  strNo := by
    intro _ h key op hs
    simp only [giver] at hs ⊢
    split at hs
    · rename_i ht
      split at hs
      · cases hs
      · rename_i hc
        rw [if_neg hc]
        exact mark_not hC
    · exact mark_not hC
  bytes := by intro h; cases h
  bytesMono := fun h => h
  raw := fun _ h => (by cases h)

end

end Cnd
