import Verif.Props.Json
/-
  C63: which descriptions and records have a JSON document. The conditions on the description can be checked by looking at it, those
  on the record by looking at its calls.
-/

namespace Cnd

/-! ### Descriptions -/

section
variable (names : List (List Byte))

/-- The member name of a key, without regard to case. -/
def lowName (k0 k1 : Byte) : List Byte := (jsonName names (keyNum k0 k1)).map Items.lower

def notIn (a b : List (List Byte)) : Bool := a.all fun x => !b.contains x

/-- The names of the members that these fields give. -/
def Fld.members : Fld → List (List Byte)
  | .seq a b => a.members ++ b.members
  | .scalar _ k0 k1 | .range _ k0 k1 _ _ | .enum _ k0 k1 _ | .strNull k0 k1 _ _ | .strPre _ k0 k1 | .bitU k0 k1 _ | .bitI k0 k1 _
  | .bitBool k0 k1 | .struct k0 k1 _ | .arrFixed k0 k1 _ _ | .arrPre _ k0 k1 _ | .arrDyn k0 k1 _ _ _ => [lowName names k0 k1]
  | _ => []

/-- How many items these fields give. -/
def Fld.items : Fld → Nat
  | .seq a b => a.items + b.items
  | .scalar .. | .range .. | .enum .. | .strNull .. | .strPre .. | .bitU .. | .bitI .. | .bitBool .. | .struct .. | .arrFixed ..
  | .arrPre .. | .arrDyn .. => 1
  | _ => 0

/-- The fields have a document, as elements of an array (`elems`) or members of an object, inside `ds` structs and `da` arrays: structs
and arrays are not too deep, lengths of strings have one or two bytes, the elements of an array are single items and no arrays, and no two members have the same name. -/
def Fld.docOk : Fld → (ds da : Nat) → (elems : Bool) → Bool
  | .seq a b, ds, da, el => a.docOk ds da el && b.docOk ds da el && (el || notIn (a.members names) (b.members names))
  | .strPre .p4 _ _, _, _, _ => false
  | .struct _ _ f, ds, da, _ => decide (ds < 31) && f.docOk (ds + 1) da false
  | .arrFixed _ _ _ f, ds, da, el | .arrPre _ _ _ f, ds, da, el | .arrDyn _ _ _ _ f, ds, da, el =>
    !el && decide (da < 31) && f.items == 1 && f.docOk ds (da + 1) true
  | _, _, _, _ => true

mutual

def Sch.members : Sch → List (List Byte)
  | .fld f => f.members names
  | .seq a b => a.members ++ b.members
  | .struct k0 k1 _ | .arrFixed k0 k1 _ _ | .arrPre _ k0 k1 _ | .arrDyn k0 k1 _ _ _ | .trans _ _ _ _ k0 k1 | .curve _ _ _ k0 k1
  | .calc _ _ _ k0 k1 => [lowName names k0 k1]
  | .opt => []
  | .ite _ a b => a.members ++ b.members
  | .switch _ _ cs => cs.members

def Cases.members : Cases → List (List Byte)
  | .nil => []
  | .cons _ f rest => f.members ++ rest.members

end

/-- How many items the parts give, if that is always the same. -/
def Sch.items : Sch → Option Nat
  | .fld f => some f.items
  | .seq a b => match a.items, b.items with
    | some m, some n => some (m + n)
    | _, _ => none
  | .opt => some 0
  | .ite _ a b => if a.items = b.items then a.items else none
  | .switch .. => none
  | _ => some 1

mutual

/-- As `Fld.docOk`. Computed fields are members of objects; the alternatives of an `if` or `switch` may have the same names. -/
def Sch.docOk : Sch → (ds da : Nat) → (elems : Bool) → Bool
  | .fld f, ds, da, el => f.docOk names ds da el
  | .seq a b, ds, da, el => a.docOk ds da el && b.docOk ds da el && (el || notIn (a.members names) (b.members names))
  | .struct _ _ f, ds, da, _ => decide (ds < 31) && f.docOk (ds + 1) da false
  | .arrFixed _ _ _ f, ds, da, el | .arrPre _ _ _ f, ds, da, el | .arrDyn _ _ _ _ f, ds, da, el =>
    !el && decide (da < 31) && f.items == some 1 && f.docOk ds (da + 1) true
  | .calc .., _, _, el => !el
  | .ite _ a b, ds, da, el => a.docOk ds da el && b.docOk ds da el
  | .switch _ _ cs, ds, da, el => cs.docOk ds da el
  | _, _, _, _ => true

def Cases.docOk : Cases → (ds da : Nat) → (elems : Bool) → Bool
  | .nil, _, _, _ => true
  | .cons _ f rest, ds, da, el => f.docOk ds da el && rest.docOk ds da el

end

end

/-- What a call of the record needs to be shown and read back: arrays are not empty, and numbers survive being items. -/
def Ev.shown (F : FloatOps) : Ev → Prop
  | .num _ op v => (arrHead op = true → v ≠ 0) ∧
      (arrHead op = false → op ≠ 0x78 → ∃ j, jsonPut F op v = some j ∧ jsonGet F op j = some v)
  | _ => True

/-! ### Their documents -/

namespace Items

theorem size_app (a b : Items) : (a.app b).size = a.size + b.size := by
  unfold size
  rw [shape_app, List.length_append]

theorem distinct_append {b : Bool} {l m : Items} (hl : l.Distinct b) (hm : m.Distinct b)
    (h : b = false → ∀ x ∈ l.shape, ∀ y ∈ m.shape, y.1.map lower ≠ x.1.map lower) : (l.app m).Distinct b := by
  induction l with
  | nil => exact hm
  | item n v k next _ ih =>
    obtain ⟨h1, h2, h3⟩ := hl
    refine ⟨fun hb x hx => ?_, h2, ih h3 fun hb x hx y hy => h hb x (by simp [shape, hx]) y hy⟩
    rw [shape_app, List.mem_append] at hx
    rcases hx with hx | hx
    · exact h1 hb x hx
    · exact h hb (n, v) (by simp [shape]) x hx

end Items

section
variable {F : FloatOps} {names : List (List Byte)}

abbrev DocAll (F : FloatOps) (names : List (List Byte)) := DocOf F names (fun _ => false)

theorem docOf_append {ds da : Nat} {b : Bool} {es es' : List Ev} {l l' : Items} (h : DocAll F names ds da b es l)
    (h' : DocAll F names ds da b es' l') : DocAll F names ds da b (es ++ es') (l.app l') := by
  induction h with
  | nil => exact h'
  | num h1 h2 _ ih => exact .num h1 h2 (ih h')
  | stored h1 _ ih => exact .stored h1 (ih h')
  | str h1 h2 _ ih => exact .str h1 h2 (ih h')
  | struct h1 h2 _ _ ih =>
    rw [List.cons_append, List.append_assoc, List.cons_append]
    exact .struct h1 h2 (ih h')
  | arr h1 h2 h3 h4 h5 h6 h7 _ _ ih =>
    rw [List.cons_append, List.append_assoc, List.cons_append]
    exact .arr h1 h2 h3 h4 h5 h6 h7 (ih h')

/-- The part of a record from `p` to `q` has a document, with members of the names `ms` and, if `c` is known, `c` items. -/
def HasDoc (F : FloatOps) (names : List (List Byte)) (ds da : Nat) (b : Bool) (ms : List (List Byte)) (c : Option Nat) (p q : P) : Prop :=
  ∃ es l, q.evs = p.evs ++ es ∧ DocAll F names ds da b es l ∧ l.Distinct b ∧
    (b = false → ∀ x ∈ l.shape, x.1.map Items.lower ∈ ms) ∧ ∀ n, c = some n → l.size = n

/-- Every record of this kind has one. -/
def Docs (F : FloatOps) (names : List (List Byte)) (ds da : Nat) (b : Bool) (ms : List (List Byte)) (c : Option Nat) (R : P → P → Prop) : Prop :=
  ∀ p q, R p q → (∀ e ∈ q.evs, e.shown F) → HasDoc F names ds da b ms c p q

theorem hasDoc_none {ds da : Nat} {b : Bool} {ms : List (List Byte)} {p q : P} (h : q.evs = p.evs) : HasDoc F names ds da b ms (some 0) p q :=
  ⟨[], .nil, by rw [h, List.append_nil], .nil, trivial, fun _ x hx => (by cases hx), fun n hn => (by cases hn; rfl)⟩

/-- A single item. -/
theorem hasDoc_one {ds da : Nat} {b : Bool} {k0 k1 : Byte} {c : Option Nat} (hc : c = some 1) {p q : P} {es : List Ev} (h : q.evs = p.evs ++ es)
    {j : JVal} {kids : Items} (hd : DocAll F names ds da b es (.item (if b then [] else jsonName names (keyNum k0 k1)) j kids .nil))
    (hk : kids.Distinct (j == .arr)) : HasDoc F names ds da b [lowName names k0 k1] c p q := by
  refine ⟨es, _, h, hd, ⟨fun _ x hx => (by cases hx), hk, trivial⟩, fun hb x hx => ?_, fun n hn => ?_⟩
  · subst hb
    rcases List.mem_cons.1 hx with rfl | hx
    · exact List.mem_singleton.2 rfl
    · cases hx
  · rw [hc] at hn
    cases hn
    rfl

theorem scalar_head {op : Byte} {n : Nat} (h : scalarWidth op.toNat = some n) : arrHead op = false ∧ op ≠ 0x78 := by
  have H : ∀ op : Byte, (scalarWidth op.toNat).isSome = true → arrHead op = false ∧ op ≠ 0x78 := by decide +kernel
  exact H op (by rw [h]; rfl)

theorem hasDoc_num {ds da : Nat} {b : Bool} {k0 k1 op : Byte} {v : Word} {c : Option Nat} (hc : c = some 1) (h1 : arrHead op = false) (h2 : op ≠ 0x78)
    {p q : P} (h : q.evs = p.evs ++ [.num (keyNum k0 k1) op v]) (hs : ∀ e ∈ q.evs, e.shown F) :
    HasDoc F names ds da b [lowName names k0 k1] c p q := by
  obtain ⟨j, j1, j2⟩ := (hs (.num (keyNum k0 k1) op v) (by rw [h]; simp)).2 h1 h2
  exact hasDoc_one hc h (.num j1 (.inl ⟨j2, rfl⟩) .nil) trivial

theorem hasDoc_str {ds da : Nat} {b : Bool} {k0 k1 op : Byte} {bs : List Byte} {c : Option Nat} (hc : c = some 1) (h1 : op = 0x30 ∨ op = 0x31 ∨ op = 0x32)
    (h2 : NulFree bs) {p q : P} (h : q.evs = p.evs ++ [.str (keyNum k0 k1) op bs]) : HasDoc F names ds da b [lowName names k0 k1] c p q :=
  hasDoc_one hc h (.str h1 h2 .nil) trivial

theorem notIn_spec {a b : List (List Byte)} (h : notIn a b = true) {x : List Byte} (hx : x ∈ a) : x ∉ b := by
  have := List.all_eq_true.1 h x hx
  simpa using this

theorem docs_seq {ds da : Nat} {b : Bool} {m1 m2 : List (List Byte)} {c1 c2 c : Option Nat} {R1 R2 : P → P → Prop}
    (hc : ∀ n, c = some n → ∃ x y, c1 = some x ∧ c2 = some y ∧ n = x + y) (hn : (b || notIn m1 m2) = true)
    (h1 : Docs F names ds da b m1 c1 R1) (h2 : Docs F names ds da b m2 c2 R2) :
    Docs F names ds da b (m1 ++ m2) c fun p q => ∃ m, R1 p m ∧ R2 m q := by
  intro p q ⟨m, r1, r2⟩ hs
  obtain ⟨e2, l2, x2, d2, t2, n2, k2⟩ := h2 m q r2 hs
  obtain ⟨e1, l1, x1, d1, t1, n1, k1⟩ := h1 p m r1 fun e he => hs e (by rw [x2]; exact List.mem_append_left _ he)
  refine ⟨e1 ++ e2, l1.app l2, by rw [x2, x1, List.append_assoc], docOf_append d1 d2, Items.distinct_append t1 t2 ?_, ?_, ?_⟩
  · intro hb x hx y hy e
    rw [hb, Bool.false_or] at hn
    exact notIn_spec hn (n1 hb x hx) (e ▸ n2 hb y hy)
  · intro hb x hx
    rw [Items.shape_app, List.mem_append] at hx
    exact List.mem_append.2 (hx.imp (n1 hb x) (n2 hb x))
  · intro n hn
    obtain ⟨x, y, rfl, rfl, rfl⟩ := hc n hn
    rw [Items.size_app, k1 x rfl, k2 y rfl]

theorem docs_struct {ds da : Nat} {b : Bool} {k0 k1 : Byte} {ms : List (List Byte)} {c' c : Option Nat} {R : P → P → Prop} (hc : c = some 1) (hd : ds < 31)
    (h : Docs F names (ds + 1) da false ms c' R) :
    Docs F names ds da b [lowName names k0 k1] c fun p q => ∃ m, R (p.bits 0 [.note (keyNum k0 k1) 0x03]) m ∧ q = m.bits 0 [.note 0 0x04] := by
  intro p q ⟨m, r, hq⟩ hs
  have he : q.evs = m.evs ++ [.note 0 0x04] := by rw [hq]; rfl
  obtain ⟨es, l, x, d, t, _, _⟩ := h _ m r fun e hm => hs e (by rw [he]; exact List.mem_append_left _ hm)
  refine hasDoc_one hc (es := .note (keyNum k0 k1) 0x03 :: (es ++ .note 0 0x04 :: [])) (j := .obj) (kids := l) ?_ (.struct hd d .nil) t
  rw [he, x]
  simp [P.bits]

theorem docs_reps {ds da : Nat} {ms : List (List Byte)} {R : P → P → Prop} (h : Docs F names ds da true ms (some 1) R) :
    (n : Nat) → Docs F names ds da true ms (some n) (Reps R n)
  | 0 => fun p q r _ => by
    unfold Reps at r
    rw [r]
    exact hasDoc_none rfl
  | n + 1 => fun p q r hs => by
    obtain ⟨m, r1, r2⟩ := r
    obtain ⟨e2, l2, x2, d2, t2, n2, k2⟩ := docs_reps h n _ q r2 hs
    have hx : (m.bytes 0 []).evs = m.evs := by simp [P.bytes]
    rw [hx] at x2
    obtain ⟨e1, l1, x1, d1, t1, n1, k1⟩ := h p m r1 fun e he => hs e (by rw [x2]; exact List.mem_append_left _ he)
    refine ⟨e1 ++ e2, l1.app l2, by rw [x2, x1, List.append_assoc], docOf_append d1 d2, Items.distinct_append t1 t2 (fun hb => (by cases hb)),
      fun hb => (by cases hb), fun c hc => ?_⟩
    rw [Items.size_app, k1 1 rfl, k2 n rfl]
    cases hc
    omega

theorem docs_arr {ds da : Nat} {b : Bool} {k0 k1 op : Byte} {ms : List (List Byte)} {c : Option Nat} {R : P → P → Prop} {code : List Byte} {w : Nat} {v : Word}
    (hc : c = some 1) (hb : b = false) (ha : da < 31) (hop : arrHead op = true)
    (hsz : (op = 0x35 → v.toNat < 2 ^ 8) ∧ (op = 0x36 → v.toNat < 2 ^ 16) ∧ (op = 0x37 → v.toNat < 2 ^ 32))
    (h : Docs F names ds (da + 1) true ms (some 1) R) {p q : P}
    (r : ArrBody R code v.toNat (p.bytes w [.num (keyNum k0 k1) op v]) q) (hs : ∀ e ∈ q.evs, e.shown F) :
    HasDoc F names ds da b [lowName names k0 k1] c p q := by
  subst hb
  by_cases hv : v.toNat = 0
  · unfold ArrBody at r
    rw [if_pos hv] at r
    have := (hs (.num (keyNum k0 k1) op v) (by rw [r.2]; simp [P.bytes])).1 hop
    exact absurd (BitVec.eq_of_toNat_eq hv) this
  · unfold ArrBody at r
    rw [if_neg hv] at r
    obtain ⟨m, r, hq⟩ := r
    have he : q.evs = m.evs ++ [.note 0 0x38] := by rw [hq]; rfl
    obtain ⟨es, l, x, d, t, _, k⟩ := docs_reps h v.toNat _ m r fun e hm => hs e (by rw [he]; exact List.mem_append_left _ hm)
    have hk := k _ rfl
    have hw : v = BitVec.ofNat 64 l.size := by rw [hk]; simp
    have hh : DocAll F names ds da false (.num (keyNum k0 k1) op v :: (es ++ .note 0 0x38 :: [])) (.item (jsonName names (keyNum k0 k1)) .arr l .nil) :=
      .arr ha hop rfl (fun e => ⟨hw, by rw [hk]; exact hsz.1 e⟩) (fun e => ⟨hw, by rw [hk]; exact hsz.2.1 e⟩)
        (fun e => ⟨hw, by rw [hk]; exact hsz.2.2 e⟩) d .nil
    refine hasDoc_one hc ?_ hh t
    rw [he, x]
    simp [P.bytes]

theorem pre_head (r : Pre) : arrHead r.arrOp = true ∧ ∀ v : Word, v.toNat < 2 ^ (8 * r.size) →
    (r.arrOp = 0x35 → v.toNat < 2 ^ 8) ∧ (r.arrOp = 0x36 → v.toNat < 2 ^ 16) ∧ (r.arrOp = 0x37 → v.toNat < 2 ^ 32) := by
  cases r
  · exact ⟨rfl, fun v h => ⟨fun _ => h, fun e => (by cases e), fun e => (by cases e)⟩⟩
  · exact ⟨rfl, fun v h => ⟨fun e => (by cases e), fun _ => h, fun e => (by cases e)⟩⟩
  · exact ⟨rfl, fun v h => ⟨fun e => (by cases e), fun e => (by cases e), fun _ => h⟩⟩

abbrev allView (F : FloatOps) (names : List (List Byte)) : View := jsonView F names fun _ => false

theorem fld_docs (f : Fld) : ∀ {ds da : Nat} {b : Bool}, f.docOk names ds da b = true →
    Docs F names ds da b (f.members names) (some f.items) (Rec (allView F names) f) := by
  induction f with
  | seq a b iha ihb =>
    intro ds da el h
    simp only [Fld.docOk, Bool.and_eq_true] at h
    exact docs_seq (c1 := some a.items) (c2 := some b.items) (fun n hn => ⟨_, _, rfl, rfl, by cases hn; rfl⟩) h.2 (iha h.1.1) (ihb h.1.2)
  | scalar op k0 k1 =>
    rintro ds da el - p q ⟨n, v, h1, -, -, h⟩ hs
    exact hasDoc_num rfl (scalar_head h1).1 (scalar_head h1).2 (by rw [h]; rfl) hs
  | range t k0 k1 lo hi =>
    rintro ds da el - p q ⟨v, -, -, -, -, -, -, h⟩ hs
    exact hasDoc_num (op := t.tag) rfl (by cases t <;> rfl) (by cases t <;> decide) (by rw [h]; rfl) hs
  | enum t k0 k1 vals =>
    rintro ds da el - p q ⟨v, -, -, -, -, h⟩ hs
    exact hasDoc_num (op := t.tag) rfl (by cases t <;> rfl) (by cases t <;> decide) (by rw [h]; rfl) hs
  | const t k0 k1 c =>
    rintro ds da el - p q ⟨-, h, -⟩
    cases h
  | strNull k0 k1 m0 m1 =>
    rintro ds da el - p q ⟨bs, h1, -, h⟩ hs
    exact hasDoc_str rfl (.inl rfl) h1 (by rw [h]; rfl)
  | strPre r k0 k1 =>
    rintro ds da el hr p q ⟨bs, h1, -, h⟩ hs
    have ho : r.strOp = 0x30 ∨ r.strOp = 0x31 ∨ r.strOp = 0x32 := by
      cases r
      · exact .inr (.inl rfl)
      · exact .inr (.inr rfl)
      · cases hr
    exact hasDoc_str rfl ho h1 (by rw [h]; rfl)
  | bitU k0 k1 n =>
    rintro ds da el - p q ⟨v, -, -, -, h⟩ hs
    exact hasDoc_num (op := 0x20) rfl rfl (by decide) (by rw [h]; rfl) hs
  | bitI k0 k1 n =>
    rintro ds da el - p q ⟨v, -, -, -, -, -, h⟩ hs
    exact hasDoc_num (op := 0x21) rfl rfl (by decide) (by rw [h]; rfl) hs
  | bitBool k0 k1 =>
    rintro ds da el - p q ⟨v, -, -, h⟩ hs
    exact hasDoc_num (op := 0x22) rfl rfl (by decide) (by rw [h]; rfl) hs
  | struct k0 k1 f ih =>
    intro ds da el h
    simp only [Fld.docOk, Bool.and_eq_true, decide_eq_true_eq] at h
    exact docs_struct rfl h.1 (ih h.2)
  | arrFixed k0 k1 n f ih =>
    rintro ds da el h p q ⟨-, -, r⟩ hs
    simp only [Fld.docOk, Bool.and_eq_true, Bool.not_eq_true', decide_eq_true_eq, beq_iff_eq] at h
    obtain ⟨⟨⟨h1, h2⟩, h3⟩, h4⟩ := h
    exact docs_arr rfl h1 h2 rfl ⟨fun e => (by cases e), fun e => (by cases e), fun e => (by cases e)⟩ (h3 ▸ ih h4) r hs
  | arrPre p k0 k1 f ih =>
    rintro ds da el h p q ⟨n, hn, -, -, r⟩ hs
    simp only [Fld.docOk, Bool.and_eq_true, Bool.not_eq_true', decide_eq_true_eq, beq_iff_eq] at h
    obtain ⟨⟨⟨h1, h2⟩, h3⟩, h4⟩ := h
    exact docs_arr rfl h1 h2 (pre_head _).1 ((pre_head _).2 n hn) (h3 ▸ ih h4) r hs
  | arrDyn k0 k1 r0 r1 f ih =>
    rintro ds da el h p q ⟨n, -, -, -, -, r⟩ hs
    simp only [Fld.docOk, Bool.and_eq_true, Bool.not_eq_true', decide_eq_true_eq, beq_iff_eq] at h
    obtain ⟨⟨⟨h1, h2⟩, h3⟩, h4⟩ := h
    exact docs_arr rfl h1 h2 rfl ⟨fun e => (by cases e), fun e => (by cases e), fun e => (by cases e)⟩ (h3 ▸ ih h4) r hs
  | setLE | setBE =>
    rintro ds da el - p q ⟨-, h⟩ -
    exact hasDoc_none (by rw [h])
  | pad n | crc c =>
    rintro ds da el - p q ⟨-, h⟩ -
    exact hasDoc_none (by rw [h]; simp [P.bits, P.bytes])
  | exitBit =>
    rintro ds da el - p q ⟨-, h⟩ -
    exact hasDoc_none (by rw [h])
  | fill _ | empty | nop | enterBit | version _ | name _ _ =>
    intro ds da el _ p q h _
    exact hasDoc_none (by rw [Rec] at h; simp [h, P.bytes])

theorem HasDoc.weaken {ds da : Nat} {b : Bool} {ms ms' : List (List Byte)} {c c' : Option Nat} {p q : P} (h : HasDoc F names ds da b ms c p q)
    (hm : ∀ x ∈ ms, x ∈ ms') (hc : ∀ n, c' = some n → c = some n) : HasDoc F names ds da b ms' c' p q := by
  obtain ⟨es, l, h1, h2, h3, h4, h5⟩ := h
  exact ⟨es, l, h1, h2, h3, fun hb x hx => hm _ (h4 hb x hx), fun n hn => h5 n (hc n hn)⟩

mutual

theorem sch_docs : (f : Sch) → ∀ (ds da : Nat) (b : Bool), f.docOk names ds da b = true →
    Docs F names ds da b (f.members names) f.items (SRec F (allView F names) f)
  | .fld f => by
    intro ds da el h p q r hs
    unfold SRec at r
    unfold Sch.docOk at h
    unfold Sch.members Sch.items
    exact fld_docs f h p q r hs
  | .seq a b => by
    intro ds da el h p q r hs
    simp only [Sch.docOk, Bool.and_eq_true] at h
    unfold SRec at r
    unfold Sch.members
    refine docs_seq (c1 := a.items) (c2 := b.items) ?_ h.2 (sch_docs a _ _ _ h.1.1) (sch_docs b _ _ _ h.1.2) p q r hs
    intro n hn
    simp only [Sch.items] at hn
    split at hn
    · rename_i x y hx hy
      cases hn
      exact ⟨x, y, hx, hy, rfl⟩
    · cases hn
  | .struct k0 k1 f => by
    intro ds da el h p q r hs
    simp only [Sch.docOk, Bool.and_eq_true, decide_eq_true_eq] at h
    unfold SRec at r
    unfold Sch.members
    exact docs_struct rfl h.1 (sch_docs f _ _ _ h.2) p q r hs
  | .arrFixed k0 k1 n f => by
    intro ds da el h p q r hs
    simp only [Sch.docOk, Bool.and_eq_true, Bool.not_eq_true', decide_eq_true_eq, beq_iff_eq] at h
    obtain ⟨⟨⟨h1, h2⟩, h3⟩, h4⟩ := h
    unfold SRec at r
    obtain ⟨-, -, r⟩ := r
    unfold Sch.members
    exact docs_arr rfl h1 h2 rfl ⟨fun e => (by cases e), fun e => (by cases e), fun e => (by cases e)⟩ (h3 ▸ sch_docs f _ _ _ h4) r hs
  | .arrPre x k0 k1 f => by
    intro ds da el h p q r hs
    simp only [Sch.docOk, Bool.and_eq_true, Bool.not_eq_true', decide_eq_true_eq, beq_iff_eq] at h
    obtain ⟨⟨⟨h1, h2⟩, h3⟩, h4⟩ := h
    unfold SRec at r
    obtain ⟨n, hn, -, -, r⟩ := r
    unfold Sch.members
    exact docs_arr rfl h1 h2 (pre_head _).1 ((pre_head _).2 n hn) (h3 ▸ sch_docs f _ _ _ h4) r hs
  | .arrDyn k0 k1 r0 r1 f => by
    intro ds da el h p q r hs
    simp only [Sch.docOk, Bool.and_eq_true, Bool.not_eq_true', decide_eq_true_eq, beq_iff_eq] at h
    obtain ⟨⟨⟨h1, h2⟩, h3⟩, h4⟩ := h
    unfold SRec at r
    obtain ⟨n, -, -, -, -, r⟩ := r
    unfold Sch.members
    exact docs_arr rfl h1 h2 rfl ⟨fun e => (by cases e), fun e => (by cases e), fun e => (by cases e)⟩ (h3 ▸ sch_docs f _ _ _ h4) r hs
  | .opt => by
    intro ds da el h p q r hs
    unfold SRec at r
    exact hasDoc_none (by rw [r])
  | .trans x c big t k0 k1 => by
    intro ds da el h p q r hs
    unfold SRec at r
    obtain ⟨e, v, -, -, -, -, -, -, -, r⟩ := r
    unfold Sch.members
    exact hasDoc_num (op := 0x17) rfl rfl (by decide) (by rw [r]; rfl) hs
  | .curve c big n k0 k1 => by
    intro ds da el h p q r hs
    unfold SRec at r
    obtain ⟨e, v, -, -, -, -, -, r⟩ := r
    unfold Sch.members
    exact hasDoc_num (op := 0x19) rfl rfl (by decide) (by rw [r]; rfl) hs
  | .calc e big tag k0 k1 => by
    intro ds da el h p q r hs
    simp only [Sch.docOk, Bool.not_eq_true'] at h
    subst h
    unfold SRec at r
    obtain ⟨n, m, -, -, -, -, -, -, r⟩ := r
    unfold Sch.members
    exact hasDoc_one rfl (by rw [r]; rfl) (.stored rfl .nil) trivial
  | .ite c a b => by
    intro ds da el h p q r hs
    simp only [Sch.docOk, Bool.and_eq_true] at h
    unfold SRec at r
    obtain ⟨n, -, -, r⟩ := r
    unfold Sch.members
    split at r
    · refine (sch_docs a _ _ _ h.1 p q r hs).weaken (fun x hx => List.mem_append_left _ hx) fun n hn => ?_
      simp only [Sch.items] at hn
      split at hn
      · exact hn
      · cases hn
    · refine (sch_docs b _ _ _ h.2 p q r hs).weaken (fun x hx => List.mem_append_right _ hx) fun n hn => ?_
      simp only [Sch.items] at hn
      split at hn
      · rename_i e
        rw [← e]
        exact hn
      · cases hn
  | .switch k0 k1 cs => by
    intro ds da el h p q r hs
    unfold Sch.docOk at h
    unfold SRec at r
    obtain ⟨v, -, -, -, r⟩ := r
    unfold Sch.members
    have hc : ∀ {c : Option Nat} (n : Nat), (Sch.switch k0 k1 cs).items = some n → c = some n := fun n hn => (by simp only [Sch.items] at hn; cases hn)
    split at r
    · exact (case_docs cs _ _ _ h _ p q r hs).weaken (fun _ hx => hx) hc
    · split at r
      · exact (case_docs cs _ _ _ h _ p q r hs).weaken (fun _ hx => hx) hc
      · exact (hasDoc_none (ms := []) (by rw [r])).weaken (fun _ hx => (by cases hx)) hc

theorem case_docs : (cs : Cases) → ∀ (ds da : Nat) (b : Bool), cs.docOk names ds da b = true → ∀ v : Option Word,
    Docs F names ds da b (cs.members names) none (CaseRec F (allView F names) cs v)
  | .nil => by
    intro ds da el _ v p q r
    unfold CaseRec at r
    exact r.elim
  | .cons l f rest => by
    intro ds da el h v p q r hs
    simp only [Cases.docOk, Bool.and_eq_true] at h
    unfold CaseRec at r
    unfold Cases.members
    split at r
    · exact (sch_docs f _ _ _ h.1 p q r hs).weaken (fun x hx => List.mem_append_left _ hx) fun n hn => (by cases hn)
    · exact (case_docs rest _ _ _ h.2 v p q r hs).weaken (fun x hx => List.mem_append_right _ hx) fun n hn => hn

end

/-- **C63, documents.** Every record of such a description whose calls can be shown has a document with distinct names. -/
theorem C63_document (f : Sch) (hdoc : f.docOk names 0 0 false = true) (q : P) (hrec : SRec F (allView F names) f ⟨0, false, []⟩ q)
    (hs : ∀ e ∈ q.evs, e.shown F) : ∃ d, DocOf F names (fun _ => false) 0 0 false q.evs d ∧ d.Distinct false := by
  obtain ⟨es, d, h1, h2, h3, _⟩ := sch_docs f _ _ _ hdoc _ q hrec hs
  rw [List.nil_append] at h1
  exact ⟨d, h1 ▸ h2, h3⟩

/-- **C63, without the document as a premise.** A description without constants and arrays of single bytes that has documents; a record
that fits it and can be shown; then some document is encoded to a packet, and the packet is decoded to that document. -/
theorem C63_record_partial (f : Sch) (hdep : f.depth ≤ 8) (hlen : f.code.length < 2 ^ 31) (hB : NoBulk f.code) (hdoc : f.docOk names 0 0 false = true)
    (q : P) (hrec : SRec F (allView F names) f ⟨0, false, []⟩ q) (hs : ∀ e ∈ q.evs, e.shown F) (old : St JSt) (buf : List Byte)
    (hbuf : q.pos ≤ 8 * buf.length) :
    ∃ d n se, DocOf F names (fun _ => false) 0 0 false q.evs d ∧ jsonEncode F names f.code n old buf d = .stop .ok se ∧ se.host.ub = false ∧
      8 * se.cursor + se.bit = q.pos ∧ se.bit < 8 ∧
      ∀ (old' : St JSt) (rest : List Byte),
        ∃ sd, jsonDecode F names f.code n old' (se.packet ++ rest) = .stop .ok sd ∧ sd.host.doc = d ∧ sd.host.ub = false ∧
          sd.cursor = se.cursor ∧ sd.bit = se.bit := by
  obtain ⟨d, h1, h2⟩ := C63_document f hdoc q hrec hs
  obtain ⟨n, se, h⟩ := C63_packet_partial F names f hdep hlen hB q hrec d h1 h2 old buf hbuf
  exact ⟨d, n, se, h1, h⟩
end

/-- With exact integers below 2^53, the numbers of `JsonFits` can be shown. -/
theorem shown_fits {F : FloatOps} (hF : IntExact F) {k : Nat} {op : Byte} {v : Word} (ha : arrHead op = false) (h : JsonFits op v) :
    (Ev.num k op v).shown F :=
  ⟨fun e => (by rw [ha] at e; cases e), fun _ _ => C63_numbers F hF op v h⟩

/-- The description of the example of C63 has documents, and its record can be shown. -/
example : Demo.jsonSch.docOk Demo.jsonNames 0 0 false = true ∧ ∀ e ∈ Demo.jsonEvs, e.shown Soft.fl := by
  refine ⟨by decide +kernel, ?_⟩
  intro e he
  simp only [Demo.jsonEvs, List.mem_cons, List.not_mem_nil, or_false] at he
  rcases he with rfl | rfl | rfl | rfl | rfl | rfl | rfl | rfl | rfl | rfl | rfl | rfl
  all_goals first
    | trivial
    | exact shown_fits Soft.exact rfl (by unfold JsonFits; decide)
    | exact ⟨fun _ => by decide, fun h => (by cases h)⟩

/-- Two members of one name, or an array in an array, are refused; the two alternatives of an `if` may share names. -/
example : (Sch.fld (.seq (.scalar 0x11 1 0) (.scalar 0x10 1 0))).docOk Demo.jsonNames 0 0 false = false ∧
    (Sch.arrFixed 1 0 2 (.arrFixed 2 0 2 (.fld (.scalar 0x11 3 0)))).docOk Demo.jsonNames 0 0 false = false ∧
    (Sch.ite (.lit 1) (.fld (.scalar 0x11 1 0)) (.fld (.scalar 0x12 1 0))).docOk Demo.jsonNames 0 0 false = true := by decide +kernel

end Cnd
