import Verif.Json
/-
  Growing documents: what adding an item changes and what it leaves alone (used for C63).
-/

namespace Cnd
namespace Items

theorem shape_snoc (l : Items) (n : List Byte) (v : JVal) : (l.snoc n v).shape = l.shape ++ [(n, v)] := by
  induction l with
  | nil => rfl
  | item n' v' k nx _ ih => simp [snoc, shape, ih]

theorem shape_modify (l : Items) (i : Nat) (f : Items → Items) : (l.modify i f).shape = l.shape := by
  induction l generalizing i with
  | nil => rfl
  | item n' v' k nx _ ih =>
    cases i with
    | zero => rfl
    | succ i => simp [modify, shape, ih]

theorem kid_modify (l : Items) (i j : Nat) (f : Items → Items) :
    (l.modify i f).kid? j = if j = i then (l.kid? j).map f else l.kid? j := by
  induction l generalizing i j with
  | nil => simp [modify, kid?]
  | item n' v' k nx _ ih =>
    cases i with
    | zero => cases j <;> simp [modify, kid?]
    | succ i =>
      cases j with
      | zero => simp [modify, kid?]
      | succ j => simp [modify, kid?, ih]

theorem kid_snoc (l : Items) (n : List Byte) (v : JVal) (j : Nat) :
    (l.snoc n v).kid? j = if j = l.size then some .nil else l.kid? j := by
  induction l generalizing j with
  | nil => cases j <;> simp [snoc, kid?, size, shape]
  | item n' v' k nx _ ih =>
    cases j with
    | zero => simp [snoc, kid?, size, shape]
    | succ j =>
      have := ih j
      simp only [size] at this
      simp only [snoc, kid?, size, shape, this, List.length_cons, Nat.add_right_cancel_iff]
      rfl

theorem kid_isSome (l : Items) (j : Nat) : (l.kid? j).isSome = decide (j < l.size) := by
  induction l generalizing j with
  | nil => simp [kid?, size, shape]
  | item n' v' k nx _ ih =>
    cases j with
    | zero => simp [kid?, size, shape]
    | succ j =>
      have := ih j
      simp only [size] at this
      simp only [kid?, size, shape, this, List.length_cons, Nat.add_lt_add_iff_right]
      rfl

theorem kid_none_iff (l : Items) (j : Nat) : l.kid? j = none ↔ l.size ≤ j := by
  have := kid_isSome l j
  cases h : l.kid? j <;> simp [h] at this ⊢ <;> omega

theorem valid_cons (l : Items) (i : Nat) (p : List Nat) :
    l.valid (i :: p) = true ↔ ∃ k, l.kid? i = some k ∧ k.valid p = true := by
  simp only [valid]
  cases l.kid? i <;> simp

theorem valid_snoc (l : Items) (p : List Nat) (i : Nat) :
    l.valid (p ++ [i]) = true ↔ l.valid p = true ∧ i < (l.kidsAt p).size := by
  induction p generalizing l with
  | nil =>
    have := kid_isSome l i
    simp only [List.nil_append, valid, kidsAt, true_and]
    cases h : l.kid? i <;> simp [h] at this ⊢ <;> omega
  | cons j p ih =>
    simp only [List.cons_append, valid, kidsAt]
    cases l.kid? j with
    | none => simp
    | some k => exact ih k

theorem shape_addAt_cons (l : Items) (i : Nat) (p : List Nat) (n : List Byte) (v : JVal) :
    (l.addAt (i :: p) n v).shape = l.shape := shape_modify ..

/-- Adding at a path appends to the children there. -/
theorem shape_addAt_same {l : Items} {p : List Nat} (n : List Byte) (v : JVal) (h : l.valid p = true) :
    ((l.addAt p n v).kidsAt p).shape = (l.kidsAt p).shape ++ [(n, v)] := by
  induction p generalizing l with
  | nil => exact shape_snoc l n v
  | cons i p ih =>
    obtain ⟨k, hk, hv⟩ := (valid_cons ..).1 h
    simp only [addAt, kidsAt, kid_modify, if_true, hk, Option.map_some]
    exact ih hv

theorem valid_addAt {l : Items} {p q : List Nat} (n : List Byte) (v : JVal) (h : l.valid q = true) :
    (l.addAt p n v).valid q = true := by
  induction q generalizing l p with
  | nil => simp [valid]
  | cons j q ih =>
    obtain ⟨k, hk, hv⟩ := (valid_cons ..).1 h
    rw [valid_cons]
    cases p with
    | nil =>
      refine ⟨k, ?_, hv⟩
      show (l.snoc n v).kid? j = some k
      rw [kid_snoc, if_neg, hk]
      have := kid_isSome l j
      simp [hk] at this
      omega
    | cons i p =>
      simp only [addAt, kid_modify]
      by_cases hc : j = i
      · simp only [hc, if_true]
        rw [hc] at hk
        exact ⟨k.addAt p n v, by rw [hk]; rfl, ih hv⟩
      · simp only [hc, if_false]
        exact ⟨k, hk, hv⟩

/-- Adding at a path leaves the children elsewhere alone. -/
theorem shape_addAt_ne {l : Items} {p q : List Nat} (n : List Byte) (v : JVal) (h : l.valid q = true) (hne : q ≠ p) :
    ((l.addAt p n v).kidsAt q).shape = (l.kidsAt q).shape := by
  induction q generalizing l p with
  | nil =>
    cases p with
    | nil => exact absurd rfl hne
    | cons i p => exact shape_addAt_cons ..
  | cons j q ih =>
    obtain ⟨k, hk, hv⟩ := (valid_cons ..).1 h
    cases p with
    | nil =>
      have : (l.snoc n v).kid? j = some k := by
        rw [kid_snoc, if_neg, hk]
        have := kid_isSome l j
        simp [hk] at this
        omega
      simp only [addAt, kidsAt, this, hk]
    | cons i p =>
      by_cases hc : j = i
      · subst hc
        simp only [addAt, kidsAt, kid_modify, if_true, hk, Option.map_some]
        exact ih hv (fun e => hne (by rw [e]))
      · simp only [addAt, kidsAt, kid_modify, if_neg hc, hk]

theorem kidsAt_append (l : Items) (p q : List Nat) : l.kidsAt (p ++ q) = (l.kidsAt p).kidsAt q := by
  induction p generalizing l with
  | nil => rfl
  | cons i p ih =>
    simp only [List.cons_append, kidsAt]
    cases l.kid? i with
    | none =>
      have : ∀ q, Items.nil.kidsAt q = .nil := by intro q; cases q <;> simp [kidsAt, kid?]
      simp [this]
    | some k => exact ih k

/-- The new item is at the end and has no children. -/
theorem kidsAt_addAt_new {l : Items} {p : List Nat} (n : List Byte) (v : JVal) (h : l.valid p = true) :
    (l.addAt p n v).kidsAt (p ++ [(l.kidsAt p).size]) = .nil := by
  induction p generalizing l with
  | nil =>
    simp only [List.nil_append, addAt, kidsAt, kid_snoc, if_true]
  | cons i p ih =>
    obtain ⟨k, hk, hv⟩ := (valid_cons ..).1 h
    simp only [List.cons_append, addAt, kidsAt, kid_modify, if_true, hk, Option.map_some]
    exact ih hv

theorem valid_addAt_new {l : Items} {p : List Nat} (n : List Byte) (v : JVal) (h : l.valid p = true) :
    (l.addAt p n v).valid (p ++ [(l.kidsAt p).size]) = true := by
  rw [valid_snoc]
  refine ⟨valid_addAt n v h, ?_⟩
  unfold size
  rw [shape_addAt_same n v h]
  simp

theorem not_valid_new (l : Items) (p : List Nat) : l.valid (p ++ [(l.kidsAt p).size]) = false := by
  cases h : l.valid (p ++ [(l.kidsAt p).size]) with
  | false => rfl
  | true => exact absurd ((valid_snoc ..).1 h).2 (by omega)

/-- `m` has everything that `l` has, and perhaps more at the ends. -/
def Ext (l m : Items) : Prop :=
  ∀ p, l.valid p = true → m.valid p = true ∧ (l.kidsAt p).shape <+: (m.kidsAt p).shape

theorem Ext.refl (l : Items) : Ext l l := fun _ h => ⟨h, List.prefix_refl _⟩

theorem Ext.trans {a b c : Items} (h1 : Ext a b) (h2 : Ext b c) : Ext a c := fun p h =>
  ⟨(h2 p (h1 p h).1).1, (h1 p h).2.trans (h2 p (h1 p h).1).2⟩

theorem ext_addAt (l : Items) (p : List Nat) (n : List Byte) (v : JVal) : Ext l (l.addAt p n v) := by
  intro q hq
  refine ⟨valid_addAt n v hq, ?_⟩
  by_cases h : q = p
  · subst h
    rw [shape_addAt_same n v hq]
    exact List.prefix_append ..
  · rw [shape_addAt_ne n v hq h]
    exact List.prefix_refl _

theorem findIdx_prefix {α : Type} {a b : List α} (h : a <+: b) {f : α → Bool} {i : Nat} (hi : a.findIdx? f = some i) :
    b.findIdx? f = some i := by
  obtain ⟨c, rfl⟩ := h
  rw [List.findIdx?_append, hi]
  rfl

theorem getElem_prefix {α : Type} {a b : List α} (h : a <+: b) {i : Nat} {x : α} (hi : a[i]? = some x) : b[i]? = some x := by
  obtain ⟨c, rfl⟩ := h
  have : i < a.length := by
    rw [List.getElem?_eq_some_iff] at hi
    exact hi.1
  rw [List.getElem?_append_left this, hi]

end Items
end Cnd
