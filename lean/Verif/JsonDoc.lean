import Verif.JsonMimic
/-
  The JSON document of a record, stated without the machinery of the callback (used for C63).
-/

namespace Cnd

/-- `DocOf F names hid ds da elems es l`: the calls `es` are the members of a JSON object, or the elements of an array (`elems`), and
`l` are these items. `ds` structs and `da` arrays are open outside. Every number has to come back from its item, unless the schema
fixes its value; array counts have to be those of the elements. -/
inductive DocOf (F : FloatOps) (names : List (List Byte)) (hid : Nat → Bool) : (ds da : Nat) → (elems : Bool) → List Ev → Items → Prop
  | nil {ds da : Nat} {b : Bool} : DocOf F names hid ds da b [] .nil
  | num {ds da : Nat} {b : Bool} {k : Nat} {op : Byte} {v : Word} {j : JVal} {es : List Ev} {l : Items} :
      jsonPut F op v = some j → jsonGet F op j = some v ∧ hid k = false ∨ hid k = true ∧ b = false → DocOf F names hid ds da b es l →
      DocOf F names hid ds da b (.num k op v :: es) (.item (if b then [] else jsonName names k) j .nil l)
  | stored {ds da : Nat} {k : Nat} {v : Word} {es : List Ev} {l : Items} : hid k = false → DocOf F names hid ds da false es l →
      DocOf F names hid ds da false (.num k 0x78 v :: es) (.item (jsonName names k) (.num (F.ofU64 v)) .nil l)
  | str {ds da : Nat} {b : Bool} {k : Nat} {op : Byte} {bs : List Byte} {es : List Ev} {l : Items} :
      op = 0x30 ∨ op = 0x31 ∨ op = 0x32 → NulFree bs → DocOf F names hid ds da b es l →
      DocOf F names hid ds da b (.str k op bs :: es) (.item (if b then [] else jsonName names k) (.str bs) .nil l)
  | struct {ds da : Nat} {b : Bool} {k k' : Nat} {xs es : List Ev} {kids l : Items} :
      ds < 31 → DocOf F names hid (ds + 1) da false xs kids → DocOf F names hid ds da b es l →
      DocOf F names hid ds da b (.note k 0x03 :: (xs ++ .note k' 0x04 :: es)) (.item (if b then [] else jsonName names k) .obj kids l)
  | arr {ds da : Nat} {k k' : Nat} {op : Byte} {v : Word} {xs es : List Ev} {kids l : Items} :
      da < 31 → arrHead op = true → hid k = false →
      (op = 0x35 → v = BitVec.ofNat 64 kids.size ∧ kids.size < 2 ^ 8) → (op = 0x36 → v = BitVec.ofNat 64 kids.size ∧ kids.size < 2 ^ 16) →
      (op = 0x37 → v = BitVec.ofNat 64 kids.size ∧ kids.size < 2 ^ 32) →
      DocOf F names hid ds (da + 1) true xs kids → DocOf F names hid ds da false es l →
      DocOf F names hid ds da false (.num k op v :: (xs ++ .note k' 0x38 :: es)) (.item (jsonName names k) .arr kids l)

/-- No object has two members of the same name, without regard to case; `elems` for the elements of an array, which have no names. -/
def Items.Distinct : (elems : Bool) → Items → Prop
  | _, .nil => True
  | b, .item n v kids next =>
    (b = false → ∀ x ∈ next.shape, x.1.map Items.lower ≠ n.map Items.lower) ∧ kids.Distinct (v == .arr) ∧ next.Distinct b

namespace Items

def app : Items → Items → Items
  | .nil, m => m
  | .item n v k next, m => .item n v k (next.app m)

def appAt : Items → List Nat → Items → Items
  | l, [], m => l.app m
  | l, i :: p, m => l.modify i fun k => k.appAt p m

theorem app_nil (l : Items) : l.app .nil = l := by
  induction l with
  | nil => rfl
  | item n v k next _ ih => simp [app, ih]

theorem app_assoc (a b c : Items) : (a.app b).app c = a.app (b.app c) := by
  induction a with
  | nil => rfl
  | item n v k next _ ih => simp [app, ih]

theorem snoc_eq (l : Items) (n : List Byte) (v : JVal) : l.snoc n v = l.app (.item n v .nil .nil) := by
  induction l with
  | nil => rfl
  | item n' v' k next _ ih => simp [app, snoc, ih]

theorem shape_app (a b : Items) : (a.app b).shape = a.shape ++ b.shape := by
  induction a with
  | nil => rfl
  | item n v k next _ ih => simp [app, shape, ih]

theorem modify_id (l : Items) (i : Nat) (f : Items → Items) (h : ∀ k, f k = k) : l.modify i f = l := by
  induction l generalizing i with
  | nil => rfl
  | item n v k next _ ih => cases i <;> simp [modify, h, ih]

theorem modify_modify (l : Items) (i : Nat) (f g : Items → Items) : (l.modify i f).modify i g = l.modify i fun k => g (f k) := by
  induction l generalizing i with
  | nil => rfl
  | item n v k next _ ih => cases i <;> simp [modify, ih]

theorem modify_congr {l : Items} {i : Nat} {f g : Items → Items} (h : ∀ k, l.kid? i = some k → f k = g k) : l.modify i f = l.modify i g := by
  induction l generalizing i with
  | nil => rfl
  | item n v k next _ ih =>
    cases i with
    | zero => simp [modify, h k rfl]
    | succ i => simp only [modify, ih (i := i) h]

theorem addAt_eq (l : Items) (p : List Nat) (n : List Byte) (v : JVal) : l.addAt p n v = l.appAt p (.item n v .nil .nil) := by
  induction p generalizing l with
  | nil => exact snoc_eq ..
  | cons i p ih => simp only [addAt, appAt, ih]

theorem appAt_nil (l : Items) (p : List Nat) : l.appAt p .nil = l := by
  induction p generalizing l with
  | nil => exact app_nil l
  | cons i p ih => exact modify_id _ _ _ ih

theorem appAt_appAt (l : Items) (p : List Nat) (a b : Items) : (l.appAt p a).appAt p b = l.appAt p (a.app b) := by
  induction p generalizing l with
  | nil => exact app_assoc ..
  | cons i p ih => simp only [appAt, modify_modify, ih]

theorem kidsAt_appAt {l : Items} {p : List Nat} (m : Items) (h : l.valid p = true) : (l.appAt p m).kidsAt p = (l.kidsAt p).app m := by
  induction p generalizing l with
  | nil => rfl
  | cons i p ih =>
    obtain ⟨k, hk, hv⟩ := (valid_cons ..).1 h
    simp only [appAt, kidsAt, kid_modify, if_true, hk, Option.map_some]
    exact ih hv

theorem modify_new (l : Items) (n : List Byte) (v : JVal) (kids : Items) :
    (l.snoc n v).modify l.size (fun k => k.app kids) = l.app (.item n v kids .nil) := by
  induction l with
  | nil => rfl
  | item n' v' k next _ ih =>
    simp only [snoc, app]
    show Items.modify _ (next.size + 1) _ = _
    simp only [modify, ih]

/-- Filling the item just added. -/
theorem appAt_new {l : Items} {p : List Nat} (n : List Byte) (v : JVal) (kids : Items) (h : l.valid p = true) :
    (l.addAt p n v).appAt (p ++ [(l.kidsAt p).size]) kids = l.appAt p (.item n v kids .nil) := by
  induction p generalizing l with
  | nil => exact modify_new ..
  | cons i p ih =>
    obtain ⟨k, hk, hv⟩ := (valid_cons ..).1 h
    simp only [List.cons_append, addAt, appAt, modify_modify, kidsAt, hk]
    refine modify_congr fun k' hk' => ?_
    rw [hk] at hk'
    cases hk'
    exact ih hv

theorem kid_app_size (a : Items) (n : List Byte) (v : JVal) (k x : Items) : (a.app (.item n v k x)).kid? a.size = some k := by
  induction a with
  | nil => rfl
  | item n' v' k' next _ ih => exact ih

/-- The children of an item of the finished document. -/
theorem kidsAt_item {D : Items} {p : List Nat} {a k x : Items} {n : List Byte} {v : JVal} (h : D.kidsAt p = a.app (.item n v k x)) :
    D.kidsAt (p ++ [a.size]) = k := by
  rw [kidsAt_append, h]
  simp only [kidsAt, kid_app_size]

theorem distinct_app {b : Bool} {a k x : Items} {n : List Byte} {v : JVal} (h : (a.app (.item n v k x)).Distinct b) :
    k.Distinct (v == .arr) ∧ (b = false → a.index n = none) := by
  induction a with
  | nil => exact ⟨h.2.1, fun _ => rfl⟩
  | item n' v' k' next _ ih =>
    obtain ⟨h1, h2, h3⟩ := h
    obtain ⟨i1, i2⟩ := ih h3
    refine ⟨i1, fun hb => ?_⟩
    have hne := h1 hb (n, v) (by rw [shape_app]; simp [shape])
    have := i2 hb
    unfold index at this ⊢
    simp only [shape, List.findIdx?_cons]
    rw [this]
    have hf : (n'.map lower == n.map lower) = false := by simpa using Ne.symm hne
    simp [hf]

end Items

section
variable {F : FloatOps} {names : List (List Byte)} {hid : Nat → Bool} {D : Items} {s t : JSt}

theorem jClean_append {a b : List Ev} (h1 : jClean F names hid D s a) (h2 : jClean F names hid D (a.foldl (jEv F names) s) b) :
    jClean F names hid D s (a ++ b) := by
  induction a generalizing s with
  | nil => exact h2
  | cons e a ih => exact ⟨h1.1, ih h1.2 h2⟩

/-- Where the next items go. -/
def JSt.At (s : JSt) (b : Bool) (p : List Nat) : Prop :=
  (b = false ∧ s.inArr = none ∧ p = s.cur) ∨ (b = true ∧ ∃ f, s.inArr = some f ∧ p = f.path)

/-- Same place in structs and arrays. -/
structure JSt.Same (s t : JSt) : Prop where
  stack : t.stack = s.stack
  arrs : t.arrs.map (fun f => (f.path, f.depth)) = s.arrs.map (fun f => (f.path, f.depth))
  ub : t.ub = s.ub

theorem JSt.Same.refl (s : JSt) : s.Same s := ⟨rfl, rfl, rfl⟩

theorem JSt.Same.trans {a b c : JSt} (h1 : a.Same b) (h2 : b.Same c) : a.Same c :=
  ⟨h2.stack.trans h1.stack, h2.arrs.trans h1.arrs, h2.ub.trans h1.ub⟩

theorem JSt.Same.at {b : Bool} {p : List Nat} (h : s.Same t) (ha : s.At b p) : t.At b p := by
  have hi : t.inArr.map (fun f => (f.path, f.depth)) = s.inArr.map (fun f => (f.path, f.depth)) := by
    have := h.arrs
    unfold JSt.inArr
    rw [h.stack]
    cases h1 : s.arrs with
    | nil =>
      rw [h1] at this
      cases h2 : t.arrs with
      | nil => rfl
      | cons g gs => rw [h2] at this; simp at this
    | cons f fs =>
      rw [h1] at this
      cases h2 : t.arrs with
      | nil => rw [h2] at this; simp at this
      | cons g gs =>
        rw [h2] at this
        simp only [List.map_cons, List.cons.injEq, Prod.mk.injEq] at this
        dsimp only
        rw [this.1.2]
        split
        · simp [this.1]
        · rfl
  rcases ha with ⟨hb, h1, h2⟩ | ⟨hb, f, h1, h2⟩
  · refine .inl ⟨hb, ?_, ?_⟩
    · rw [h1] at hi
      simpa using hi
    · rw [h2]; unfold JSt.cur; rw [h.stack]
  · rw [h1] at hi
    simp only [Option.map_some, Option.map_eq_some_iff] at hi
    obtain ⟨g, hg, e⟩ := hi
    exact .inr ⟨hb, g, hg, by rw [h2]; exact (Prod.mk.inj e).1.symm⟩

theorem JSt.At.valid {b : Bool} {p : List Nat} (h : s.At b p) (hW : s.W) : s.doc.valid p = true := by
  rcases h with ⟨_, _, rfl⟩ | ⟨_, f, hf, rfl⟩
  · exact hW.cur
  · obtain ⟨fs, e, _⟩ := JSt.inArr_some hf
    exact hW.av f (by rw [e]; simp)

/-- What adding an item does. -/
theorem add_at {b : Bool} {p : List Nat} (h : s.At b p) (n : List Byte) (v : JVal) :
    s.Same (s.add n v) ∧ (s.add n v).doc = s.doc.appAt p (.item (if b then [] else n) v .nil .nil) := by
  rcases h with ⟨rfl, h1, rfl⟩ | ⟨rfl, f, hf, rfl⟩
  · simp only [JSt.add, h1]
    exact ⟨⟨rfl, rfl, rfl⟩, Items.addAt_eq ..⟩
  · obtain ⟨fs, e, _⟩ := JSt.inArr_some hf
    simp only [JSt.add, hf, JSt.bump, e]
    exact ⟨⟨rfl, by simp [e], rfl⟩, Items.addAt_eq ..⟩

theorem jsonPut_plain {op : Byte} {v : Word} {j : JVal} (h : jsonPut F op v = some j) :
    arrHead op = false ∧ op ≠ 0x78 ∧ op ≠ 0x06 ∧ op ≠ 0x60 := by
  refine ⟨?_, ?_, ?_, ?_⟩
  · cases ha : arrHead op with
    | false => rfl
    | true =>
      rcases (arrHead_iff op).1 ha with e | e | e | e | e <;> simp [jsonPut, e] at h
  all_goals
    rintro rfl
    simp [jsonPut] at h

theorem jEv_num {k : Nat} {op : Byte} {v : Word} {j : JVal} (h : jsonPut F op v = some j) :
    jEv F names s (.num k op v) = s.add (jsonName names k) j := by
  obtain ⟨h1, h2, h3, h4⟩ := jsonPut_plain h
  have ha' := fun h => Bool.eq_false_iff.1 h1 ((arrHead_iff op).2 h)
  have hn6 : ¬ (op.toNat = 0x06 ∨ op.toNat = 0x60) := by
    rintro (h | h)
    · exact h3 ((toNat_eq_iff op 0x06).1 h)
    · exact h4 ((toNat_eq_iff op 0x60).1 h)
  have hn78 : ¬ (op.toNat = 0x78) := fun h => h2 ((toNat_eq_iff op 0x78).1 h)
  simp only [jEv, jsonHost]
  rw [if_neg ha', if_neg hn6, if_neg hn78]
  simp only [jsonPrim, Bool.false_eq_true, if_false, h]

/-- What has been written so far, what comes now, what comes later. -/
structure Ready (D : Items) (ds da : Nat) (b : Bool) (s : JSt) (p : List Nat) (l x : Items) : Prop where
  W : s.W
  stack : s.stack.length = ds + 1
  arrs : s.arrs.length = da
  dep : ∀ f ∈ s.arrs, f.depth ≤ s.stack.length
  at_ : s.At b p
  doc : D.kidsAt p = (s.kids p).app (l.app x)
  dist : (D.kidsAt p).Distinct b

theorem Ready.fresh {ds da : Nat} {b : Bool} {p : List Nat} {n : List Byte} {v : JVal} {k l x : Items}
    (h : Ready D ds da b s p (.item (if b then [] else n) v k l) x) (hi : s.inArr = none) : s.fresh n := by
  rcases h.at_ with ⟨rfl, h1, rfl⟩ | ⟨rfl, f, hf, rfl⟩
  · have hd := h.dist
    rw [h.doc] at hd
    exact (Items.distinct_app hd).2 rfl
  · rw [hi] at hf; cases hf

theorem Ready.next {ds da : Nat} {b : Bool} {p : List Nat} {n : List Byte} {v : JVal} {k l x : Items}
    (h : Ready D ds da b s p (.item n v k l) x) (hs : s.Same t) (hW : t.W) (hd : t.doc = s.doc.appAt p (.item n v k .nil)) :
    Ready D ds da b t p l x where
  W := hW
  stack := by rw [hs.stack]; exact h.stack
  arrs := by have := congrArg List.length hs.arrs; simp at this; rw [this]; exact h.arrs
  dep := by
    intro f hf
    have : (f.path, f.depth) ∈ t.arrs.map (fun f => (f.path, f.depth)) := List.mem_map.2 ⟨f, hf, rfl⟩
    rw [hs.arrs] at this
    obtain ⟨g, hg, e⟩ := List.mem_map.1 this
    rw [hs.stack, ← (Prod.mk.inj e).2]
    exact h.dep g hg
  at_ := hs.at h.at_
  doc := by
    rw [h.doc]
    simp only [JSt.kids]
    rw [hd, Items.kidsAt_appAt _ (h.at_.valid h.W), Items.app_assoc]
    rfl
  dist := h.dist

theorem trunc_size {n k : Nat} (h : n < 2 ^ (8 * k)) (hk : k ≤ 4) : truncB k (BitVec.ofNat 64 n) = BitVec.ofNat 64 n := by
  apply BitVec.eq_of_toNat_eq
  have : 2 ^ (8 * k) ≤ 2 ^ 32 := Nat.pow_le_pow_right (by omega) (by omega)
  rw [toNat_truncB, BitVec.toNat_ofNat, Nat.mod_eq_of_lt (a := n) (by omega), Nat.mod_eq_of_lt h]

theorem enter_at {b : Bool} {p : List Nat} (h : s.At b p) (hl : s.stack.length < 32) (k : Nat) :
    (jEv F names s (.note k 0x03)).stack = (p ++ [(s.kids p).size]) :: s.stack ∧
    (jEv F names s (.note k 0x03)).arrs.map (fun f => (f.path, f.depth)) = s.arrs.map (fun f => (f.path, f.depth)) ∧
    (jEv F names s (.note k 0x03)).ub = s.ub ∧
    (jEv F names s (.note k 0x03)).doc = s.doc.addAt p (if b then [] else jsonName names k) .obj := by
  obtain ⟨a1, a2⟩ := add_at h (jsonName names k) .obj
  have e : jEv F names s (.note k 0x03) = (s.add (jsonName names k) .obj).push (p ++ [(s.kids p).size]) := by
    show (jsonEnter false (jsonName names k) s).2 = _
    unfold jsonEnter
    simp only [Bool.false_eq_true, if_false]
    rcases h with ⟨rfl, h1, rfl⟩ | ⟨rfl, f, hf, rfl⟩
    · rw [h1]
    · rw [hf]
  have hl' : ¬ (s.add (jsonName names k) .obj).stack.length ≥ 32 := by rw [a1.stack]; omega
  rw [e]
  unfold JSt.push
  rw [if_neg hl']
  exact ⟨by rw [a1.stack], a1.arrs, a1.ub, by rw [Items.addAt_eq]; exact a2⟩

theorem inArr_none_of (h : ∀ f ∈ s.arrs, f.depth < s.stack.length) : s.inArr = none := by
  unfold JSt.inArr
  cases h1 : s.arrs with
  | nil => rfl
  | cons f fs =>
    have := h f (by rw [h1]; simp)
    dsimp only
    rw [if_neg (by omega)]

theorem dep_of {n : Nat} (ha : t.arrs.map (fun f => (f.path, f.depth)) = s.arrs.map (fun f => (f.path, f.depth)))
    (h : ∀ f ∈ s.arrs, f.depth ≤ n) : ∀ f ∈ t.arrs, f.depth ≤ n := by
  intro f hf
  have : (f.path, f.depth) ∈ t.arrs.map (fun f => (f.path, f.depth)) := List.mem_map.2 ⟨f, hf, rfl⟩
  rw [ha] at this
  obtain ⟨g, hg, e⟩ := List.mem_map.1 this
  rw [← (Prod.mk.inj e).2]
  exact h g hg

/-- The calls of a document are clean and build it. -/
theorem doc_clean {ds da : Nat} {b : Bool} {es : List Ev} {l : Items} (h : DocOf F names hid ds da b es l) :
    ∀ {s : JSt} {p : List Nat} {x : Items}, Ready D ds da b s p l x → jClean F names hid D s es ∧
      s.Same (es.foldl (jEv F names) s) ∧ (es.foldl (jEv F names) s).W ∧ (es.foldl (jEv F names) s).doc = s.doc.appAt p l := by
  induction h with
  | nil =>
    intro s p x hr
    exact ⟨trivial, .refl _, hr.W, (Items.appAt_nil ..).symm⟩
  | @num ds da b k op v j es l hp hg hd ih =>
    intro s p x hr
    obtain ⟨a1, a2⟩ := add_at hr.at_ (jsonName names k) j
    have e1 : jEv F names s (.num k op v) = s.add (jsonName names k) j := jEv_num hp
    have hr' := hr.next a1 (hr.W.add _ _) a2
    rw [← e1] at hr'
    obtain ⟨i1, i2, i3, i4⟩ := ih hr'
    refine ⟨⟨?_, i1⟩, ?_, i3, ?_⟩
    · obtain ⟨h1, h2, h3, h4⟩ := jsonPut_plain hp
      simp only [jOk]
      rw [if_neg (by simp [h1]), if_neg h2]
      refine ⟨h3, h4, j, hp, ?_⟩
      rcases hg with ⟨g1, g2⟩ | ⟨g1, rfl⟩
      · rw [if_neg (by simp [g2])]
        exact ⟨fun hi => hr.fresh hi, g1⟩
      · rw [if_pos g1]
        rcases hr.at_ with ⟨_, h, _⟩ | ⟨h, _⟩
        · exact h
        · cases h
    · rw [e1] at i2
      rw [List.foldl_cons, e1]
      exact a1.trans i2
    · rw [List.foldl_cons, i4, e1, a2, Items.appAt_appAt]
      rfl
  | @stored ds da k v es l hk hd ih =>
    intro s p x hr
    have e1 : jEv F names s (.num k 0x78 v) = { s with doc := s.doc.addAt s.cur (jsonName names k) (.num (F.ofU64 v)) } := rfl
    have hcur : p = s.cur := by
      rcases hr.at_ with ⟨_, _, h⟩ | ⟨h, _⟩
      · exact h
      · cases h
    have a1 : s.Same { s with doc := s.doc.addAt s.cur (jsonName names k) (.num (F.ofU64 v)) } := ⟨rfl, rfl, rfl⟩
    have a2 : ({ s with doc := s.doc.addAt s.cur (jsonName names k) (.num (F.ofU64 v)) } : JSt).doc = _ :=
      Items.addAt_eq s.doc s.cur (jsonName names k) (.num (F.ofU64 v))
    rw [← hcur] at a2
    have hr' := hr.next a1 (hr.W.addCur _ _) (by rw [hcur] at a2 ⊢; exact a2)
    rw [← e1] at hr'
    obtain ⟨i1, i2, i3, i4⟩ := ih hr'
    refine ⟨⟨?_, i1⟩, ?_, i3, ?_⟩
    · simp only [jOk]
      rw [if_neg (by simp [arrHead]), if_pos trivial]
      exact hk
    · rw [e1] at i2
      rw [List.foldl_cons, e1]
      exact a1.trans i2
    · rw [List.foldl_cons, i4, e1]
      show Items.appAt (s.doc.addAt s.cur _ _) _ _ = _
      rw [Items.addAt_eq, ← hcur, Items.appAt_appAt]
      rfl
  | @str ds da b k op bs es l hop hn hd ih =>
    intro s p x hr
    obtain ⟨a1, a2⟩ := add_at hr.at_ (jsonName names k) (.str bs)
    have e1 : jEv F names s (.str k op bs) = s.add (jsonName names k) (.str bs) := rfl
    have hr' := hr.next a1 (hr.W.add _ _) a2
    rw [← e1] at hr'
    obtain ⟨i1, i2, i3, i4⟩ := ih hr'
    refine ⟨⟨⟨hop, hn, fun hi => hr.fresh hi⟩, i1⟩, ?_, i3, ?_⟩
    · rw [e1] at i2
      rw [List.foldl_cons, e1]
      exact a1.trans i2
    · rw [List.foldl_cons, i4, e1, a2, Items.appAt_appAt]
      rfl
  | @struct ds da b k k' xs es kids l hds hk hd ihk ih =>
    intro s p x hr
    obtain ⟨a1, a2, a3, a4⟩ := enter_at (F := F) (names := names) hr.at_ (by rw [hr.stack]; omega) k
    have hw := jEv_W F names hr.W (.note k 0x03)
    have hok : jOk F names hid D s (.note k 0x03) := .inl ⟨rfl, by rw [hr.stack]; omega, fun hi => hr.fresh hi⟩
    obtain ⟨s1, hs1⟩ : ∃ s1, jEv F names s (.note k 0x03) = s1 := ⟨_, rfl⟩
    rw [hs1] at a1 a2 a3 a4 hw
    have hv := hr.at_.valid hr.W
    have hdoc := hr.doc
    have hdist := hr.dist
    rw [hdoc] at hdist
    have hr1 : Ready D (ds + 1) da false s1 (p ++ [(s.kids p).size]) kids .nil := by
      refine ⟨hw, by rw [a1]; simp [hr.stack], ?_, ?_, ?_, ?_, ?_⟩
      · have := congrArg List.length a2; simp at this; rw [this]; exact hr.arrs
      · have := dep_of a2 hr.dep
        intro f hf
        rw [a1]
        exact Nat.le_succ_of_le (this f hf)
      · refine .inl ⟨rfl, inArr_none_of ?_, by simp [JSt.cur, a1]⟩
        have := dep_of a2 hr.dep
        intro f hf
        rw [a1]
        exact Nat.lt_succ_of_le (this f hf)
      · rw [Items.kidsAt_item hdoc]
        simp only [JSt.kids]
        rw [a4, Items.kidsAt_addAt_new _ _ hv, Items.app_nil]
        rfl
      · rw [Items.kidsAt_item hdoc]
        exact (Items.distinct_app hdist).1
    obtain ⟨i1, i2, i3, i4⟩ := ihk hr1
    obtain ⟨s2, hs2⟩ : ∃ s2, xs.foldl (jEv F names) s1 = s2 := ⟨_, rfl⟩
    rw [hs2] at i2 i3 i4
    have e3 : jEv F names s2 (.note k' 0x04) = { s2 with stack := s.stack } := by
      show jsonExit s2 = _
      unfold jsonExit
      rw [i2.stack, a1, if_pos (by simp [hr.stack])]
      rfl
    have a3' : s.Same { s2 with stack := s.stack } := ⟨rfl, i2.arrs.trans a2, i2.ub.trans a3⟩
    have hd3 : s2.doc = s.doc.appAt p (.item (if b then [] else jsonName names k) .obj kids .nil) := by
      rw [i4, a4]
      exact Items.appAt_new _ _ _ hv
    have hr3 := hr.next (t := { s2 with stack := s.stack }) a3' (by rw [← e3]; exact jEv_W F names i3 _) hd3
    obtain ⟨j1, j2, j3, j4⟩ := ih hr3
    have ef : (.note k 0x03 :: (xs ++ .note k' 0x04 :: es) : List Ev).foldl (jEv F names) s =
        es.foldl (jEv F names) { s2 with stack := s.stack } := by
      rw [List.foldl_cons, List.foldl_append, List.foldl_cons, hs1, hs2, e3]
    rw [ef]
    refine ⟨⟨hok, ?_⟩, a3'.trans j2, j3, ?_⟩
    · rw [hs1]
      refine jClean_append i1 ⟨.inr (.inl rfl), ?_⟩
      rw [hs2, e3]
      exact j1
    · rw [j4]
      show s2.doc.appAt p l = _
      rw [hd3, Items.appAt_appAt]
      rfl
  | @arr ds da k k' op v xs es kids l hda ha hh h1 h2 h3 hk hd ihk ih =>
    intro s p x hr
    have hcur : p = s.cur := by
      rcases hr.at_ with ⟨_, _, h⟩ | ⟨h, _⟩
      · exact h
      · cases h
    have hi : s.inArr = none := by
      rcases hr.at_ with ⟨_, h, _⟩ | ⟨h, _⟩
      · exact h
      · cases h
    have hv := hr.at_.valid hr.W
    have hdoc := hr.doc
    have hdist := hr.dist
    rw [hdoc] at hdist
    have hfr : s.fresh (jsonName names k) := by
      rw [hcur] at hdist
      exact (Items.distinct_app hdist).2 rfl
    have hsz : D.kidsAt (s.cur ++ [(s.kids s.cur).size]) = kids := by
      rw [← hcur]
      exact Items.kidsAt_item hdoc
    have hok : jOk F names hid D s (.num k op v) := by
      simp only [jOk]
      rw [if_pos ha, hsz]
      refine ⟨hh, by rw [hr.arrs]; exact hda, hfr, fun e => ?_, fun e => ?_, fun e => ?_⟩
      · rw [(h1 e).1, trunc_size (h1 e).2 (by omega)]
      · rw [(h2 e).1, trunc_size (h2 e).2 (by omega)]
      · rw [(h3 e).1, trunc_size (h3 e).2 (by omega)]
    have hs1 : jEv F names s (.num k op v) = { s with doc := s.doc.addAt p (jsonName names k) .arr, arrs := ⟨p ++ [(s.kids p).size], 0, s.stack.length⟩ :: s.arrs } := by
      simp only [jEv, jsonHost]
      rw [if_pos ((arrHead_iff op).1 ha)]
      unfold jsonArr
      simp only [Bool.false_eq_true, if_false]
      rw [if_neg (by rw [hr.arrs]; omega), hcur]
    have hw := jEv_W F names hr.W (.num k op v)
    rw [hs1] at hw
    have hr1 := Ready.mk (D := D) (ds := ds) (da := da + 1) (b := true) (p := p ++ [(s.kids p).size]) (l := kids) (x := .nil) hw hr.stack
      (by simp [hr.arrs])
      (by
        intro f hf
        simp only [List.mem_cons] at hf
        rcases hf with rfl | hf
        · exact Nat.le_refl _
        · exact hr.dep f hf)
      (.inr ⟨rfl, ⟨p ++ [(s.kids p).size], 0, s.stack.length⟩, by simp [JSt.inArr], rfl⟩)
      (by
        rw [Items.kidsAt_item hdoc]
        simp only [JSt.kids]
        rw [Items.kidsAt_addAt_new _ _ hv, Items.app_nil]
        rfl)
      (by
        rw [Items.kidsAt_item hdoc]
        exact (Items.distinct_app hdist).1)
    obtain ⟨i1, i2, i3, i4⟩ := ihk hr1
    rw [← hs1] at i1 i2 i3 i4
    obtain ⟨s2, hs2⟩ : ∃ s2, xs.foldl (jEv F names) (jEv F names s (.num k op v)) = s2 := ⟨_, rfl⟩
    rw [hs2] at i2 i3 i4
    rw [hs1] at i2 i4
    have e3 : jEv F names s2 (.note k' 0x38) = { s2 with arrs := s2.arrs.tail } := rfl
    have a3' : s.Same { s2 with arrs := s2.arrs.tail } := by
      refine ⟨i2.stack, ?_, i2.ub⟩
      have := congrArg List.tail i2.arrs
      simpa using this
    have hd3 : s2.doc = s.doc.appAt p (.item (jsonName names k) .arr kids .nil) := by
      rw [i4]
      exact Items.appAt_new _ _ _ hv
    have hr3 := hr.next (t := { s2 with arrs := s2.arrs.tail }) a3' (jsonArrEnd_W i3) hd3
    obtain ⟨j1, j2, j3, j4⟩ := ih hr3
    have ef : (.num k op v :: (xs ++ .note k' 0x38 :: es) : List Ev).foldl (jEv F names) s =
        es.foldl (jEv F names) { s2 with arrs := s2.arrs.tail } := by
      rw [List.foldl_cons, List.foldl_append, List.foldl_cons, hs2, e3]
    rw [ef]
    refine ⟨⟨hok, ?_⟩, a3'.trans j2, j3, ?_⟩
    · refine jClean_append i1 ⟨.inr (.inr rfl), ?_⟩
      rw [hs2, e3]
      exact j1
    · rw [j4]
      show s2.doc.appAt p l = _
      rw [hd3, Items.appAt_appAt]
      rfl

end

theorem bump_ub (s : JSt) : s.bump.ub = s.ub := by unfold JSt.bump; split <;> rfl

theorem add_ub (s : JSt) (n : List Byte) (v : JVal) : (s.add n v).ub = s.ub := by
  unfold JSt.add
  split
  · rw [bump_ub]
  · rfl

theorem push_ub {s : JSt} {p : List Nat} (h : (s.push p).ub = false) : s.ub = false := by
  unfold JSt.push at h
  split at h
  · cases h
  · exact h

/-- Undefined behaviour stays noticed. -/
theorem jEv_ub {F : FloatOps} {names : List (List Byte)} {s : JSt} {e : Ev} (h : (jEv F names s e).ub = false) : s.ub = false := by
  cases e with
  | num k op v =>
    simp only [jEv, jsonHost] at h
    split at h
    · unfold jsonArr at h
      simp only [Bool.false_eq_true, if_false] at h
      split at h <;> exact h
    split at h
    · unfold jsonQuery at h
      split at h
      · exact h
      · split at h
        · exact h
        · split at h
          · exact h
          · cases h
        · exact h
    split at h
    · exact h
    · unfold jsonPrim at h
      simp only [Bool.false_eq_true, if_false] at h
      split at h
      · rw [← add_ub]; exact h
      · exact h
  | str k op bs => rw [← add_ub]; exact h
  | note k op =>
    simp only [jEv, jsonHost] at h
    split at h
    · unfold jsonEnter at h
      simp only [Bool.false_eq_true, if_false] at h
      split at h
      · rw [← add_ub]; exact push_ub h
      · rw [← add_ub]; exact push_ub h
    split at h
    · unfold jsonExit at h
      split at h <;> exact h
    · exact h

theorem jBuild_ub {F : FloatOps} {names : List (List Byte)} {g r : List Ev} (h : (jBuild F names (g ++ r)).ub = false) :
    (jBuild F names g).ub = false := by
  unfold jBuild at h ⊢
  rw [List.foldl_append] at h
  generalize g.foldl (jEv F names) (JSt.start .nil) = s at h ⊢
  induction r generalizing s with
  | nil => exact h
  | cons e r ih => exact jEv_ub (ih _ h)

/-- The record of a document whose names are distinct is clean, and the document is built from it. -/
theorem DocOf.clean {F : FloatOps} {names : List (List Byte)} {hid : Nat → Bool} {es : List Ev} {l : Items}
    (h : DocOf F names hid 0 0 false es l) (hd : l.Distinct false) :
    JClean F names hid es ∧ (jBuild F names es).doc = l ∧ (jBuild F names es).ub = false := by
  have hr : Ready l 0 0 false (JSt.start .nil) [] l .nil :=
    ⟨.start, rfl, rfl, by simp [JSt.start], .inl ⟨rfl, rfl, rfl⟩, by rw [Items.app_nil]; rfl, hd⟩
  obtain ⟨h1, h2, h3, h4⟩ := doc_clean h hr
  have e : (jBuild F names es).doc = l := h4
  refine ⟨?_, e, h2.ub⟩
  unfold JClean
  rw [e]
  exact h1

end Cnd
