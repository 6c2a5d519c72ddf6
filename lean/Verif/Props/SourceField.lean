import Verif.Props.Source
import Verif.BytesLemmas
/-
  C59, fields.
-/

namespace Cnd

/-! ### Tables of types -/

theorem lookup_mem {α : Type} {l : List (List Byte × α)} {w : List Byte} {a : α} (h : l.lookup w = some a) : (w, a) ∈ l := by
  induction l with
  | nil => cases h
  | cons x xs ih =>
    rw [List.lookup_cons] at h
    split at h
    · next e =>
      have : w = x.1 := by simpa using e
      cases h
      subst this
      simp
    · exact List.mem_cons_of_mem _ (ih h)

theorem lookup_table {α β : Type} (l : List (List Byte × α)) (m : List (List Byte × β)) (f : α → Option β)
    (h1 : ∀ p ∈ l, m.lookup p.1 = f p.2) (h2 : ∀ q ∈ m, q.1 ∈ l.map (·.1)) (w : List Byte) : m.lookup w = (l.lookup w).bind f := by
  cases e : l.lookup w with
  | none =>
    rw [List.lookup_eq_none_iff] at e
    show m.lookup w = none
    rw [List.lookup_eq_none_iff]
    intro q hq
    obtain ⟨p, hp, hpq⟩ := List.mem_map.mp (h2 q hq)
    rw [← hpq]
    exact e p hp
  | some a => exact h1 _ (lookup_mem e)

theorem find_id {α : Type} (w : List Byte) (l : List (List Byte × α)) : (tId w).find l = l.lookup w := rfl

theorem plain_types (w : List Byte) : plainTypes.lookup w = (numTypes.lookup w).map (·.op) := by
  have := lookup_table numTypes plainTypes (fun t => some t.op) (by decide +kernel) (by decide +kernel) w
  rw [this]; cases numTypes.lookup w <;> rfl

theorem int_types (w : List Byte) : (unsignedTypes ++ signedTypes).lookup w = (numTypes.lookup w).bind fun t => if t.isInt then some t.op else none :=
  lookup_table numTypes _ _ (by decide +kernel) (by decide +kernel) w

theorem unsigned_types (w : List Byte) : unsignedTypes.lookup w = (numTypes.lookup w).bind fun t => if t.kind = .unsigned then some t.op else none :=
  lookup_table numTypes _ _ (by decide +kernel) (by decide +kernel) w

theorem signed_types (w : List Byte) : signedTypes.lookup w = (numTypes.lookup w).bind fun t => if t.kind = .signed then some t.op else none :=
  lookup_table numTypes _ _ (by decide +kernel) (by decide +kernel) w

theorem bool_type (w : List Byte) : (tId w).isWord s_bool = (numTypes.lookup w).any (fun t => t.kind = .bool) := by
  have h : ∀ p ∈ numTypes, decide (p.1 = s_bool) = decide (p.2.kind = .bool) := by decide +kernel
  cases e : numTypes.lookup w with
  | none =>
    have : w ≠ s_bool := by
      rintro rfl
      revert e; decide +kernel
    simp [Tok.isWord, this]
  | some t =>
    have := h _ (lookup_mem e)
    simpa [Tok.isWord] using this

theorem prefix_types (w : List Byte) : prefixTypes.lookup w = (preTypes.lookup w).map (fun p => p.1 - 0x35) := by
  have := lookup_table preTypes prefixTypes (fun p => some (p.1 - 0x35)) (by decide +kernel) (by decide +kernel) w
  rw [this]; cases preTypes.lookup w <;> rfl

theorem pre_ops : ∀ p ∈ preTypes, 0x35 + (p.2.1 - 0x35) = p.2.1 ∧ 0x31 + (p.2.1 - 0x35) = p.2.2 := by decide +kernel

theorem enum_types (w : List Byte) : enumTypes.lookup w =
    (numTypes.lookup w).bind fun t => if t.isInt ∧ w ≠ word "byte" then some t.op else none := by
  by_cases hw : w = word "byte"
  · subst hw; decide +kernel
  · have := lookup_table (numTypes.filter fun p => p.1 ≠ word "byte") enumTypes (fun t => if t.isInt then some t.op else none)
      (by decide +kernel) (by decide +kernel) w
    rw [this]
    have e : ∀ l : List (List Byte × NTy), (l.filter fun p => p.1 ≠ word "byte").lookup w = l.lookup w := by
      intro l
      induction l with
      | nil => rfl
      | cons x xs ih =>
        rw [List.filter_cons]
        split
        · rw [List.lookup_cons, List.lookup_cons, ih]
        · next hx =>
          have hx' : x.1 = word "byte" := by simpa using hx
          rw [ih, List.lookup_cons]
          have : (w == x.1) = false := by rw [hx']; simpa using hw
          rw [this]
    rw [e]
    simp only [hw, ne_eq, not_false_eq_true, and_true]

/-- The number types. -/
theorem num_cases {w : List Byte} {t : NTy} (h : numTypes.lookup w = some t) :
    t ∈ [⟨.unsigned, 1, 0x10⟩, ⟨.unsigned, 2, 0x11⟩, ⟨.unsigned, 4, 0x12⟩, ⟨.unsigned, 8, 0x13⟩, ⟨.signed, 1, 0x14⟩, ⟨.signed, 2, 0x15⟩,
      ⟨.signed, 4, 0x16⟩, ⟨.signed, 8, 0x17⟩, ⟨.float, 4, 0x18⟩, ⟨.float, 8, 0x19⟩, (⟨.bool, 1, 0x1A⟩ : NTy)] := by
  have key : ∀ p ∈ numTypes, p.2 ∈ [⟨.unsigned, 1, 0x10⟩, ⟨.unsigned, 2, 0x11⟩, ⟨.unsigned, 4, 0x12⟩, ⟨.unsigned, 8, 0x13⟩, ⟨.signed, 1, 0x14⟩, ⟨.signed, 2, 0x15⟩,
      ⟨.signed, 4, 0x16⟩, ⟨.signed, 8, 0x17⟩, ⟨.float, 4, 0x18⟩, ⟨.float, 8, 0x19⟩, (⟨.bool, 1, 0x1A⟩ : NTy)] := by decide +kernel
  exact key _ (lookup_mem h)

theorem intOf_spec {op : Byte} {t : NTy} (h : intOf op = some t) : t.op = op ∧ t.isInt ∧ ∃ w, numTypes.lookup w = some t := by
  unfold intOf at h
  have h1 := List.find?_some h
  have h2 := List.mem_of_find?_eq_some h
  simp only [decide_eq_true_eq] at h1
  refine ⟨h1.1, h1.2, ?_⟩
  obtain ⟨p, hp, rfl⟩ := List.mem_map.mp h2
  have key : ∀ p ∈ numTypes, numTypes.lookup p.1 = some p.2 := by decide +kernel
  exact ⟨p.1, key p hp⟩

theorem num_size {w : List Byte} {t : NTy} (h : numTypes.lookup w = some t) (hi : t.isInt = true) : intSize t.op = t.size := by
  have key : ∀ p ∈ numTypes, p.2.isInt = true → intSize p.2.op = p.2.size := by decide +kernel
  exact key _ (lookup_mem h) hi

/-! ### Constants and ranges -/

theorem const_fits {w : List Byte} {t : NTy} (h : numTypes.lookup w = some t) (hi : t.isInt = true) (v : Word) (hf : t.fits v = true) :
    constBad (some t.op) v = false := by
  have := num_cases h
  simp only [List.mem_cons, List.not_mem_nil, or_false] at this
  rcases this with rfl | rfl | rfl | rfl | rfl | rfl | rfl | rfl | rfl | rfl | rfl <;>
    first
    | (simp [NTy.isInt] at hi; done)
    | rfl
    | (simp only [NTy.fits, decide_eq_true_eq] at hf
       refine decide_eq_false ?_
       omega)

theorem leBytes_trunc (n : Nat) (x : BitVec 32) (hn : n ≤ 2) : leBytes n ((x.setWidth 16).setWidth 64) = leBytes n (x.setWidth 64) := by
  apply leBytes_congr
  have e1 : ((x.setWidth 16).setWidth 64).toNat = x.toNat % 65536 := by
    simp only [BitVec.toNat_setWidth]
    omega
  have e2 : (x.setWidth 64).toNat = x.toNat := by
    simp only [BitVec.toNat_setWidth]
    have := x.isLt
    omega
  rw [e1, e2]
  rcases n with _ | _ | _ | n
  · simp [Nat.mod_one]
  · omega
  · omega
  · omega

theorem range_step (C : Ctx) (k : Bool × Nat) (g : Gen) (o c : List Byte) (p : Tok) (ts : List Tok) {w : List Byte} {t : NTy}
    (ht : numTypes.lookup w = some t) (r : Option (Tok × Tok)) (h : rangeGen C t r = some c) :
    rangePart C.P t.op r (cst C k g o p ts) = .ok (cst C k g (o ++ c) p ts) := by
  cases r with
  | none =>
    cases h
    simp [rangePart]
  | some r =>
    obtain ⟨lo, hi⟩ := r
    have := num_cases ht
    simp only [List.mem_cons, List.not_mem_nil, or_false] at this
    unfold rangePart emitRange
    dsimp only
    rcases this with rfl | rfl | rfl | rfl | rfl | rfl | rfl | rfl | rfl | rfl | rfl <;>
      simp only [rangeGen, bind_some, req_eq, exists_const, Option.some.injEq, reduceCtorEq, if_true, if_false, Nat.reduceLT, Nat.reduceEqDiff] at h
    · obtain ⟨hle, rfl⟩ := h
      have hu : (parseU32 hi.text).ult (parseU32 lo.text) = false := by simp [BitVec.ult]; omega
      simp [rangeBounds, hu, intSize]
    · obtain ⟨hle, rfl⟩ := h
      have hu : (parseU32 hi.text).ult (parseU32 lo.text) = false := by simp [BitVec.ult]; omega
      simp [rangeBounds, hu, intSize]
    · obtain ⟨hle, rfl⟩ := h
      have hu : (parseU32 hi.text).ult (parseU32 lo.text) = false := by simp [BitVec.ult]; omega
      simp [rangeBounds, hu, intSize]
    · obtain ⟨a, ha, b, hb, hle, rfl⟩ := h
      have hu : b.ult a = false := by simp [BitVec.ult]; omega
      simp [rangeBounds, hu, ha, hb]
    · obtain ⟨a, ha, b, hb, hle, rfl⟩ := h
      have hu : b.slt a = false := by simp [BitVec.slt]; omega
      simp [rangeBounds, hu, ha, hb, intSize]
    · obtain ⟨a, ha, b, hb, hle, rfl⟩ := h
      have hu : b.slt a = false := by simp [BitVec.slt]; omega
      simp [rangeBounds, hu, ha, hb, intSize]
    · obtain ⟨a, ha, b, hb, hle, rfl⟩ := h
      have hu : b.slt a = false := by simp [BitVec.slt]; omega
      simp [rangeBounds, hu, ha, hb, intSize]
    · obtain ⟨a, ha, b, hb, hle, rfl⟩ := h
      have hu : b.slt a = false := by simp [BitVec.slt]; omega
      simp [rangeBounds, hu, ha, hb, intSize]
    · obtain ⟨hle, rfl⟩ := h
      simp [rangeBounds, Ctx.P, hle]
    · obtain ⟨hle, rfl⟩ := h
      simp [rangeBounds, Ctx.P, hle]

/-! ### The shape behind the name -/

/-- The shape a field's declaration stands for. -/
def FieldD.shape (d : FieldD) (a : Dec) : Shape :=
  { width := match d.width with
      | some n => (parseU32 n).setWidth 8
      | none => 0
    arr := d.dims ≠ .none
    var := d.dims = .empty
    arrPre := match d.mods with
      | .pre ty => if d.arrayPre a then (preTypes.lookup ty).map (·.1) else none
      | .lim _ _ => none
    strPre := match d.mods with
      | .pre ty => if d.arrayPre a then none else (preTypes.lookup ty).map (·.2)
      | .lim _ _ => none
    maxLen := match d.mods with
      | .lim _ (some m) => (parseU32 m).setWidth 16
      | _ => 255
    until_ := match d.mods with
      | .lim (some _) _ => true
      | _ => false }

section
variable (C : Ctx) (k : Bool × Nat) (g : Gen) (o : List Byte)

theorem width_step (p : Tok) (w : Option (List Byte)) (ts : List Tok) (hne : NoErr ts) (hc : (ts.headD eofTok).type ≠ .colon) :
    ∃ p', shapeWidth (cst C k g o p ((match w with
      | some n => [tColon, tNum n]
      | none => []) ++ ts)) = ((match w with
      | some n => (parseU32 n).setWidth 8
      | none => 0), cst C k g o p' ts) := by
  cases w with
  | none =>
    refine ⟨p, ?_⟩
    simp only [List.nil_append]
    unfold shapeWidth
    rw [if_neg (show (cst C k g o p ts).cur.type ≠ .colon from hc)]
  | some n =>
    refine ⟨tNum n, ?_⟩
    simp only [List.cons_append, List.nil_append]
    unfold shapeWidth
    simp only [cst_cur, tColon_type, if_true]
    rw [cst_adv (by simpa using hne), cst_eat .number rfl hne]
    rfl

theorem arr_step (p : Tok) (dims : Dims) (ts : List Tok) (hne : NoErr ts) (hc : (ts.headD eofTok).type ≠ .lbracket) :
    ∃ p', shapeArr (cst C k g o p (dims.toks ++ ts)) = (decide (dims ≠ .none), decide (dims = .empty), (match dims with
      | .fixed n => some (parseU32 n)
      | _ => none), cst C k g o p' ts) := by
  cases dims with
  | none =>
    refine ⟨p, ?_⟩
    simp only [Dims.toks, List.nil_append]
    unfold shapeArr
    rw [if_neg (show (cst C k g o p ts).cur.type ≠ .lbracket from hc)]
    simp
  | empty =>
    refine ⟨tRk, ?_⟩
    simp only [Dims.toks, List.cons_append, List.nil_append]
    unfold shapeArr
    simp only [cst_cur, tLk_type, if_true]
    rw [cst_adv (by simpa using hne)]
    simp only [cst_cur, tRk_type, if_true]
    rw [cst_adv hne]
    simp
  | fixed n =>
    refine ⟨tRk, ?_⟩
    simp only [Dims.toks, List.cons_append, List.nil_append]
    unfold shapeArr
    simp only [cst_cur, tLk_type, if_true]
    rw [cst_adv (by simpa using hne)]
    simp only [cst_cur, tNum_type, reduceCtorEq, if_false, CSt.number, tNum_text]
    rw [cst_eat .number rfl (by simpa using hne), cst_eat .rbracket rfl hne]
    simp

theorem isWord_semi (w : List Byte) : tSemi.isWord w = false := rfl
theorem isWord_id (v w : List Byte) : (tId v).isWord w = decide (v = w) := by simp [Tok.isWord]

theorem word_max : (tId (word "max")).isWord s_prefix = false ∧ (tId (word "max")).isWord s_until = false ∧
    (tId (word "max")).isWord s_max = true := by decide
theorem word_until : (tId (word "until")).isWord s_prefix = false ∧ (tId (word "until")).isWord s_until = true := by decide

theorem s_string_eq : s_string = word "string" := by decide

theorem mods_step (p : Tok) (d : FieldD) (a : Dec) (ks : List Tok) (hne : NoErr ks) (hm : d.modsOk a = true) (w : Byte)
    (hw : w = (d.shape a).width) :
    ∃ p', shapeMods (tId d.type) a { width := w, arr := decide (d.dims ≠ .none), var := decide (d.dims = .empty) }
      (cst C k g o p (d.mods.toks ++ tSemi :: ks)) = (d.shape a, cst C k g o p' (tSemi :: ks)) := by
  unfold FieldD.modsOk at hm
  unfold FieldD.shape at hw ⊢
  dsimp only at hw
  cases hmods : d.mods with
  | pre ty =>
    rw [hmods] at hm
    simp only [decide_eq_true_eq] at hm
    obtain ⟨hl, hm⟩ := hm
    obtain ⟨x, hx⟩ := Option.isSome_iff_exists.mp hl
    have hops := pre_ops _ (lookup_mem hx)
    refine ⟨tId ty, ?_⟩
    simp only [Mods.toks, List.cons_append, List.nil_append]
    unfold shapeMods
    simp only [cst_cur]
    refine (if_pos (by decide)).trans ?_
    rw [cst_adv (by simpa using hne)]
    simp only [cst_cur, find_id, prefix_types, hx, Option.map_some]
    rw [cst_eat .identifier rfl (by simpa using hne)]
    unfold FieldD.arrayPre at hm ⊢
    by_cases hA : d.dims = .empty ∧ a.count = none ∧ a.ref = none
    · simp only [hA, decide_true, and_self, if_true, hops.1, ne_eq, reduceCtorEq, not_false_eq_true, hw]
    · have hA' : ¬ (decide (d.dims = .empty) = true ∧ a.count = none ∧ a.ref = none) := by simpa using hA
      rw [if_neg hA']
      have hs : d.type = word "string" := by
        rcases hm with hm | hm
        · exact absurd (by simpa using hm) hA
        · exact hm
      rw [if_pos (by rw [isWord_id, s_string_eq, hs]; simp)]
      simp only [hA, decide_false, Bool.false_eq_true, if_false, hops.2, hw]
  | lim u m =>
    rw [hmods] at hm
    simp only [Mods.toks]
    by_cases hs : d.type = word "string"
    · have hstr : (tId d.type).isWord s_string = true := by rw [isWord_id, s_string_eq, hs]; simp
      cases u with
      | none =>
        cases m with
        | none =>
          refine ⟨p, ?_⟩
          simp only [List.nil_append]
          unfold shapeMods
          simp only [cst_cur, isWord_semi, Bool.false_eq_true, if_false, hstr, if_true, hw]
        | some m =>
          refine ⟨tNum m, ?_⟩
          simp only [List.nil_append, List.cons_append]
          unfold shapeMods
          simp only [cst_cur, hstr, if_true, CSt.number, word_max.1, word_max.2.1, word_max.2.2, Bool.false_eq_true, if_false]
          rw [cst_adv (by simpa using hne)]
          simp only [cst_cur, tNum_text]
          rw [cst_eat .number rfl (by simpa using hne)]
          simp only [hw]
      | some u =>
        have e1 := @cst_adv C k g o p (tId (word "until"))
        have e2 := fun ts => @cst_eat C k g o (tId (word "until")) (tNum u) ts .number rfl
        cases m with
        | none =>
          refine ⟨tNum u, ?_⟩
          simp only [List.append_nil, List.cons_append, List.nil_append]
          unfold shapeMods
          simp only [cst_cur, hstr, if_true, CSt.number, word_until.1, word_until.2, Bool.false_eq_true, if_false]
          simp only [e1 (show NoErr (tNum u :: tSemi :: ks) by simpa using hne), e2 _ (show NoErr (tSemi :: ks) by simpa using hne),
            cst_cur, isWord_semi, Bool.false_eq_true, if_false, hw]
        | some m =>
          refine ⟨tNum m, ?_⟩
          simp only [List.cons_append, List.nil_append]
          unfold shapeMods
          simp only [cst_cur, hstr, if_true, CSt.number, word_until.1, word_until.2, Bool.false_eq_true, if_false]
          simp only [e1 (show NoErr (tNum u :: tId (word "max") :: tNum m :: tSemi :: ks) by simpa using hne),
            e2 _ (show NoErr (tId (word "max") :: tNum m :: tSemi :: ks) by simpa using hne),
            cst_cur, word_max.2.2, if_true]
          rw [cst_adv (by simpa using hne)]
          simp only [cst_cur, tNum_text]
          rw [cst_eat .number rfl (by simpa using hne)]
          simp only [hw]
    · have hum : u = none ∧ m = none := by
        cases u <;> cases m <;> simp_all
      obtain ⟨rfl, rfl⟩ := hum
      have hstr : (tId d.type).isWord s_string = false := by rw [isWord_id, s_string_eq]; simpa using hs
      refine ⟨p, ?_⟩
      simp only [List.nil_append]
      unfold shapeMods
      simp only [cst_cur, isWord_semi, Bool.false_eq_true, if_false, hstr, hw]

end

/-! ### Values -/

theorem cst_findStruct (C : Ctx) (k : Bool × Nat) (g : Gen) (o : List Byte) (p : Tok) (ts : List Tok) (n : List Byte) (h : C.self ≠ some n) :
    (cst C k g o p ts).findStruct n = C.structs.lookup n := by
  unfold CSt.findStruct cst
  dsimp only
  rw [List.lookup_append]
  have : ((C.self.map fun n => (n, ([] : List Byte))).toList).lookup n = none := by
    cases hs : C.self with
    | none => rfl
    | some m =>
      have : n ≠ m := by rintro rfl; exact h hs
      have e : (n == m) = false := by simpa using this
      simp [List.lookup_cons, e]
  rw [this]
  cases C.structs.lookup n <;> rfl

theorem cst_findEnum (C : Ctx) (k : Bool × Nat) (g : Gen) (o : List Byte) (p : Tok) (ts : List Tok) (n : List Byte) :
    (cst C k g o p ts).findEnum n = enumNamed C n := rfl

theorem u16_width (x : BitVec 32) : leBytes 2 (x.setWidth 64) = u16le x.toNat := by simp [u16le]
theorem u32_width (x : BitVec 32) : leBytes 4 (x.setWidth 64) = u32le x.toNat := by simp [u32le]

theorem num_not_special {w : List Byte} {t : NTy} (h : numTypes.lookup w = some t) : w ≠ word "string" := by
  rintro rfl
  revert h
  rw [show numTypes.lookup (word "string") = none by decide +kernel]
  simp

/-- The op and the width of a number field. -/
theorem bit_step {w : List Byte} {t : NTy} (h : numTypes.lookup w = some t) :
    bitOp (tId w) = t.bitOp ∧
    bitWidths (tId w) = (match t.kind with
      | .float => 0
      | .bool => 1
      | _ => BitVec.ofNat 8 (8 * t.size)) := by
  unfold bitOp bitWidths
  have hb := bool_type w
  simp only [find_id, unsigned_types, signed_types, int_types, h, Option.bind_some, hb, Option.any_some]
  have := num_cases h
  simp only [List.mem_cons, List.not_mem_nil, or_false] at this
  rcases this with rfl | rfl | rfl | rfl | rfl | rfl | rfl | rfl | rfl | rfl | rfl <;> decide

theorem number_step (C : Ctx) (k : Bool × Nat) (d : FieldD) (a : Dec) (key : Nat) (t : NTy) (g g' : Gen) (o c : List Byte) (p : Tok) (ts : List Tok)
    (ht : numTypes.lookup d.type = some t) (h : numberCode C d a key t g = some (c, g')) :
    fieldPlain C.P (tId d.type) a (d.shape a) key (cst C k g o p ts) = .ok (false, cst C k g' (o ++ c) p ts) := by
  obtain ⟨hop, hwd⟩ := bit_step ht
  unfold numberCode at h
  cases hb : bitsOf C d t with
  | some w =>
    rw [hb] at h
    simp only [bind_some, req_eq, exists_const, Option.some.injEq, Prod.mk.injEq] at h
    obtain ⟨⟨h0, h256, -, -, -⟩, op, hop2, rfl, rfl⟩ := h
    have hop3 : bitOp (tId d.type) = some op := hop.trans hop2
    have hnf : t.kind ≠ .float := by intro e; unfold NTy.bitOp at hop2; rw [e] at hop2; cases hop2
    have hwidth : (if (cst C k g o p ts).inBit = true ∧ (d.shape a).width = 0 then bitWidths (tId d.type) else (d.shape a).width) = BitVec.ofNat 8 w := by
      unfold bitsOf at hb
      cases hdw : d.width with
      | some n =>
        rw [hdw] at hb
        simp only [Option.some.injEq] at hb
        have e1 : (d.shape a).width = BitVec.ofNat 8 w := by
          unfold FieldD.shape
          rw [hdw]
          simp only [← hb]
          simp
        have e2 : (d.shape a).width ≠ 0 := by
          rw [e1]
          intro hz
          have := congrArg BitVec.toNat hz
          simp at this
          omega
        rw [if_neg (fun q => e2 q.2), e1]
      | none =>
        rw [hdw] at hb
        have e1 : (d.shape a).width = 0 := by unfold FieldD.shape; rw [hdw]
        cases hB : C.inBit with
        | false => rw [hB] at hb; simp at hb
        | true =>
          rw [hB] at hb
          simp only [if_true, Option.some.injEq] at hb
          rw [if_pos ⟨hB, e1⟩, hwd, ← hb]
          cases hk : t.kind <;> simp_all
    have hwn : BitVec.ofNat 8 w ≠ 0 := by
      intro hz
      have := congrArg BitVec.toNat hz
      simp at this
      omega
    unfold fieldPlain
    simp only [hwidth]
    refine (if_pos hwn).trans ?_
    simp only [hop3, cst_put, cst_inBit, cst_bitValid]
    by_cases hB : C.inBit = true
    case neg => simp [hB]
    case pos =>
      simp only [hB, and_self, if_true, CRes.ok.injEq, Prod.mk.injEq, true_and]
      have hn : (BitVec.setWidth 32 (BitVec.ofNat 8 w)).toNat = w := by simp; omega
      unfold cst
      dsimp only
      rw [hB, if_pos rfl, if_pos rfl, ofNat_add_bits, hn]
  | none =>
    rw [hb] at h
    unfold bitsOf at hb
    have hdw : d.width = none := by cases e : d.width with
      | none => rfl
      | some n => rw [e] at hb; cases hb
    rw [hdw] at hb
    have hB : C.inBit = false := by cases e : C.inBit with
      | false => rfl
      | true => rw [e] at hb; simp at hb
    have e1 : (d.shape a).width = 0 := by unfold FieldD.shape; rw [hdw]
    unfold fieldPlain
    simp only [cst_inBit, hB, Bool.false_eq_true, false_and, if_false, e1, ne_eq, not_true_eq_false, find_id, plain_types, ht, Option.map_some]
    dsimp only at h
    split at h
    · next hcrc =>
      rw [if_pos hcrc]
      split at h
      · next h16 =>
        cases h
        simp [h16.1, h16.2, crcEmit, u16_width]
      · next h16 =>
        split at h
        · next h32 =>
          cases h
          simp [h32.1, h32.2, crcEmit, u32_width]
        · cases h
    · next hcrc =>
      rw [if_neg hcrc]
      split at h
      · next he =>
        cases h
        rw [if_pos he]
        simp
      · next he =>
        rw [if_neg he]
        simp only [bind_some, Option.some.injEq, Prod.mk.injEq] at h
        obtain ⟨r, hr, rfl, rfl⟩ := h
        rw [cst_put, range_step C k g _ r p ts ht a.range hr]
        simp [CRes.bind]

theorem trans_code (a : Dec) : transEmit a = transPart a := by
  unfold transEmit transPart
  cases a.trans <;> simp [List.flatMap]

/-- The string field; a length prefix is emitted before. -/
theorem string_step (C : Ctx) (k : Bool × Nat) (d : FieldD) (a : Dec) (key : Nat) (g : Gen) (o c : List Byte) (p : Tok) (ts : List Tok)
    (h1 : a.trans = .none ∧ a.range = none ∧ a.crc = false ∧ d.width = none) (h : stringCode d a key = some c) :
    fieldString a (d.shape a) key (match (d.shape a).strPre with
      | some op => (cst C k g o p ts).put (op :: u16le key)
      | none => cst C k g o p ts) = cst C k g (o ++ c) p ts ∧
    ((d.shape a).arr = true → (d.shape a).strPre = none → (d.shape a).until_ = true) := by
  obtain ⟨ht, hr, hc, hw⟩ := h1
  unfold stringCode at h
  have hw' : (d.shape a).width = 0 := by unfold FieldD.shape; rw [hw]
  unfold fieldString
  simp only [ht, hr, hc, hw', ne_eq, not_true_eq_false, decide_false, Option.isSome_none]
  cases hm : d.mods with
  | pre ty =>
    rw [hm] at h
    by_cases hA : d.arrayPre a = true
    · exfalso
      simp only [hA, if_true, bind_some, req_eq, exists_const, Option.isSome_none, Bool.false_eq_true, or_false] at h
      unfold FieldD.arrayPre at hA
      simp only [decide_eq_true_eq] at hA
      rw [hA.1] at h
      simp at h
    · simp only [hA, Bool.false_eq_true, if_false, bind_some, Option.some.injEq] at h
      obtain ⟨x, hx, rfl⟩ := h
      have hs : (d.shape a).strPre = some x.2 := by
        unfold FieldD.shape
        simp only [hm, hA, hx, Bool.false_eq_true, if_false, Option.map_some]
      rw [hs]
      exact ⟨rfl, by simp⟩
  | lim u m =>
    rw [hm] at h
    have hlim : (if d.arrayPre a = true then Mods.lim none none else Mods.lim u m) = Mods.lim u m ∨ d.arrayPre a = true := by
      by_cases hA : d.arrayPre a = true
      · exact .inr hA
      · exact .inl (if_neg hA)
    have hs : (d.shape a).strPre = none := by unfold FieldD.shape; simp only [hm]
    rcases hlim with hlim | hA
    · rw [hlim] at h
      simp only [bind_some, req_eq, exists_const, Option.some.injEq] at h
      obtain ⟨hd, rfl⟩ := h
      have hun : (d.shape a).until_ = u.isSome := by unfold FieldD.shape; simp only [hm]; cases u <;> rfl
      have harr : (d.shape a).arr = decide (d.dims ≠ .none) := rfl
      have himp : (d.shape a).arr = true → (d.shape a).until_ = true := by
        rw [hun, harr]
        intro hh
        rcases hd with hd | hd
        · rw [hd] at hh; simp at hh
        · exact hd
      refine ⟨?_, fun hh _ => himp hh⟩
      rw [hs]
      dsimp only
      have hc2 : ¬ ((d.shape a).arr = true ∧ ¬ (d.shape a).until_ = true) := fun q => q.2 (himp q.1)
      simp only [hc2, decide_false, cst_errIf, cst_put]
      have hmax : leBytes 2 ((d.shape a).maxLen.setWidth 64) = u16le (match m with
          | some n => parseU32 n
          | none => 255).toNat := by
        unfold FieldD.shape
        simp only [hm]
        cases m with
        | none =>
          show leBytes 2 ((255 : BitVec 16).setWidth 64) = u16le (255 : BitVec 32).toNat
          decide
        | some m => rw [leBytes_trunc 2 _ (by omega), u16_width]
      rw [hmax]
      cases m <;> rfl
    · exfalso
      simp only [hA, if_true, bind_some, req_eq, exists_const, Option.isSome_none, Bool.false_eq_true, or_false] at h
      unfold FieldD.arrayPre at hA
      simp only [decide_eq_true_eq] at hA
      rw [hA.1] at h
      simp at h

/-- The value of a field, together with the length prefix of a string. -/
theorem value_step (C : Ctx) (k : Bool × Nat) (d : FieldD) (a : Dec) (key : Nat) (g g' : Gen) (o c : List Byte) (p : Tok) (ts : List Tok)
    (hm : d.modsOk a = true) (h : valueCode C d a key g = some (c, g')) :
    fieldValue C.P (tId d.type) (tId d.name) a (d.shape a) key (match (d.shape a).strPre with
      | some op => (cst C k g o p ts).put (op :: u16le key)
      | none => cst C k g o p ts) = .ok (false, cst C k g' (o ++ c) p ts) ∧
    ((d.shape a).arr = true → (tId d.type).isWord s_string = true → (d.shape a).strPre = none → (d.shape a).until_ = true) := by
  have hstr : d.type ≠ word "string" → (d.shape a).strPre = none ∧ (tId d.type).isWord s_string = false := by
    intro hs
    constructor
    · unfold FieldD.modsOk at hm
      unfold FieldD.shape
      dsimp only
      cases hd : d.mods with
      | lim u m => rfl
      | pre ty =>
        rw [hd] at hm
        simp only [decide_eq_true_eq] at hm
        rcases hm.2 with q | q
        · simp only [q, if_true]
        · exact absurd q hs
    · rw [isWord_id, s_string_eq]; simpa using hs
  unfold valueCode at h
  unfold fieldValue
  cases hc : a.const with
  | some v =>
    rw [hc] at h
    simp only [bind_some, req_eq, exists_const, Option.some.injEq, Prod.mk.injEq] at h
    obtain ⟨t, ht, ⟨hi, hf⟩, r, hr, rfl, rfl⟩ := h
    obtain ⟨hs1, hs2⟩ := hstr (num_not_special ht)
    rw [hs1, hs2]
    refine ⟨?_, by simp⟩
    dsimp only
    unfold fieldConst
    simp only [find_id, int_types, ht, Option.bind_some, hi, if_true, Option.getD_some, Option.isNone_some, cst_errIf]
    rw [const_fits ht hi v hf, num_size ht hi]
    simp only [cst_errIf, cst_put]
    rw [range_step C k g _ r p ts ht a.range hr]
    simp [CRes.bind]
  | none =>
    rw [hc] at h
    simp only [bind_some, req_eq, exists_const] at h
    obtain ⟨hself, h⟩ := h
    split at h
    · next hs =>
      simp only [bind_some, req_eq, exists_const, Option.some.injEq, Prod.mk.injEq] at h
      obtain ⟨⟨hst, hen, hrest⟩, cc, hcc, rfl, rfl⟩ := h
      obtain ⟨q1, q2⟩ := string_step C k d a key g o cc p ts hrest hcc
      refine ⟨?_, fun x _ => q2 x⟩
      dsimp only
      have e1 : ∀ s : CSt, s = (match (d.shape a).strPre with
          | some op => (cst C k g o p ts).put (op :: u16le key)
          | none => cst C k g o p ts) → s.findStruct (tId d.type).text = none ∧ s.findEnum (tId d.type).text = none := by
        intro s hs'
        have hen' : enumNamed C d.type = none := by simpa using hen
        cases hsp : (d.shape a).strPre with
        | none =>
          rw [hsp] at hs'
          subst hs'
          exact ⟨(cst_findStruct C k g o p ts _ hself).trans hst, hen'⟩
        | some op =>
          rw [hsp] at hs'
          subst hs'
          exact ⟨(cst_findStruct C k g _ p ts _ hself).trans hst, hen'⟩
      obtain ⟨e2, e3⟩ := e1 _ rfl
      rw [e2]
      dsimp only
      rw [e3]
      dsimp only
      rw [if_pos (by rw [isWord_id, s_string_eq, hs]; simp), q1]
    · next hs =>
      obtain ⟨hs1, hs2⟩ := hstr hs
      rw [hs1, hs2]
      refine ⟨?_, by simp⟩
      dsimp only
      rw [tId_text, cst_findStruct C k g o p ts _ hself]
      cases hst : C.structs.lookup d.type with
      | some code =>
        rw [hst] at h
        simp only [bind_some, req_eq, exists_const, Option.some.injEq, Prod.mk.injEq] at h
        obtain ⟨⟨h1, h2, h3, h4⟩, r, hr, rfl, rfl⟩ := h
        dsimp only
        have hw' : (d.shape a).width = 0 := by unfold FieldD.shape; rw [h4]
        unfold fieldStruct
        rw [if_neg (show ¬ (cst C k g o p ts).self = some (tId d.type).text from hself)]
        simp only [h1, h2, h3, hw', ne_eq, not_true_eq_false, decide_false, Option.isSome_none, cst_errIf, cst_put]
        rw [show (cst C k g (o ++ 0x03 :: u16le key) p ts).tab = g.tab from rfl, tId_text, hr]
        simp only [List.append_assoc, List.cons_append, List.nil_append]
        show CRes.ok (false, (({ cst C k g (o ++ 0x03 :: u16le key) p ts with tab := r.2 } : CSt).put r.1).put [0x04]) = _
        rw [show ({ cst C k g (o ++ 0x03 :: u16le key) p ts with tab := r.2 } : CSt) = cst C k { g with tab := r.2 } (o ++ 0x03 :: u16le key) p ts from rfl]
        simp
      | none =>
        rw [hst] at h
        dsimp only at h ⊢
        rw [cst_findEnum]
        cases hen : enumNamed C d.type with
        | some e =>
          rw [hen] at h
          simp only [bind_some, req_eq, exists_const, Option.some.injEq, Prod.mk.injEq] at h
          obtain ⟨⟨h1, h2, h3⟩, t, ht, r, hr, rfl, rfl⟩ := h
          obtain ⟨ho, hi, w, hw⟩ := intOf_spec ht
          have hw' : (d.shape a).width = 0 := by unfold FieldD.shape; rw [h3]
          dsimp only
          unfold fieldEnum
          simp only [h1, h2, hw', ne_eq, not_true_eq_false, decide_false, cst_errIf, cst_put]
          rw [← ho, range_step C k g _ r p ts hw a.range hr, num_size hw hi]
          simp [CRes.bind, List.flatMap]
        | none =>
          rw [hen] at h
          simp only [bind_some] at h
          obtain ⟨t, ht, h⟩ := h
          dsimp only
          rw [if_neg (by simp)]
          exact number_step C k d a key t g g' o c p ts ht h

/-- The start of an array. -/
theorem head_step (d : FieldD) (a : Dec) (key : Nat) (c : List Byte) (h : arrayHead d a key = some c) : arrCode a (d.shape a) key = c := by
  unfold arrayHead at h
  unfold arrCode
  have harr : (d.shape a).arr = decide (d.dims ≠ .none) := rfl
  by_cases hd : d.dims = .none
  · rw [hd] at h
    cases h
    have hp : (d.shape a).arrPre = none := by
      have hA : d.arrayPre a = false := by unfold FieldD.arrayPre; rw [hd]; simp
      unfold FieldD.shape
      dsimp only
      cases d.mods <;> simp [hA]
    have hf : (d.shape a).arr = false := by rw [harr, hd]; rfl
    rw [hp, hf]
    cases a.ref <;> cases a.count <;> simp
  · have h2 : (match (if d.arrayPre a then d.mods else .lim none none) with
        | Mods.pre ty => do
          let p ← preTypes.lookup ty
          some (p.1 :: u16le key)
        | Mods.lim _ _ =>
          if a.eof then some (0x3A :: u16le key)
          else match a.ref with
            | some r => some (0x3B :: (u16le key ++ u16le r))
            | none =>
              match a.count with
              | some n => some (0x34 :: (u16le key ++ u32le n.toNat))
              | none => none) = some c := by
      cases hdd : d.dims with
      | none => exact absurd hdd hd
      | empty => rw [hdd] at h; exact h
      | fixed n => rw [hdd] at h; exact h
    have hf : (d.shape a).arr = true := by rw [harr]; simpa using hd
    clear h
    have hlim : (d.shape a).arrPre = none →
        (if a.eof then some (0x3A :: u16le key)
          else match a.ref with
            | some r => some (0x3B :: (u16le key ++ u16le r))
            | none =>
              match a.count with
              | some n => some (0x34 :: (u16le key ++ u32le n.toNat))
              | none => none) = some c → (match (d.shape a).arrPre with
        | some op => op :: u16le key
        | none =>
          if a.eof ∧ (d.shape a).arr then 0x3A :: u16le key
          else match a.ref, a.count with
            | some r, c => if (d.shape a).arr then 0x3B :: (u16le key ++ u16le r) else
                match c with
                | some n => if (d.shape a).arr then 0x34 :: (u16le key ++ leBytes 4 (n.setWidth 64)) else []
                | none => []
            | none, some n => if (d.shape a).arr then 0x34 :: (u16le key ++ leBytes 4 (n.setWidth 64)) else []
            | none, none => []) = c := by
      intro hp hh
      rw [hp, hf]
      cases he : a.eof with
      | true => rw [he] at hh; simpa using hh
      | false =>
        rw [he] at hh
        cases hr : a.ref with
        | some r => rw [hr] at hh; simpa using hh
        | none =>
          rw [hr] at hh
          cases hcn : a.count with
          | some n => rw [hcn] at hh; simpa [u32_width] using hh
          | none => rw [hcn] at hh; simp at hh
    by_cases hA : d.arrayPre a = true
    · rw [if_pos hA] at h2
      cases hm : d.mods with
      | pre ty =>
        rw [hm] at h2
        simp only [bind_some, Option.some.injEq] at h2
        obtain ⟨x, hx, rfl⟩ := h2
        have hp : (d.shape a).arrPre = some x.1 := by
          unfold FieldD.shape
          simp only [hm, hA, if_true, hx, Option.map_some]
        rw [hp]
      | lim u m =>
        rw [hm] at h2
        exact hlim (by unfold FieldD.shape; simp only [hm]) h2
    · rw [if_neg hA] at h2
      refine hlim ?_ h2
      unfold FieldD.shape
      dsimp only
      cases hm : d.mods with
      | pre ty => simp only [hA, Bool.false_eq_true, if_false]
      | lim u m => rfl

/-! ### Fields -/

theorem attrs_be (d : FieldD) (a : Dec) : (d.attrs a).be = a.be := by unfold FieldD.attrs; cases d.dims <;> rfl

theorem strtabAdd_fresh (tab : List (List Byte)) (n : List Byte) (h : n ∉ tab) : (strtabAdd tab n).1 = tab ++ [n] := by
  unfold strtabAdd nameIdx
  have : tab.findIdx? (· = n) = none := by
    rw [List.findIdx?_eq_none_iff]
    intro x hx
    simp only [decide_eq_false_iff_not]
    rintro rfl
    exact h hx
  rw [this]

theorem body_step (C : Ctx) (k : Bool × Nat) (d : FieldD) (a : Dec) (g g' : Gen) (o c : List Byte) (p : Tok) (ks : List Tok)
    (hne : NoErr ks) (h : d.body C a g = some (c, g')) :
    ∃ p', fieldDecl C.P a (cst C k g o p (tId d.type :: tId d.name :: ((match d.width with
        | some n => [tColon, tNum n]
        | none => []) ++ d.dims.toks ++ d.mods.toks ++ tSemi :: ks))) = .ok (cst C k g' (o ++ c) p' ks) := by
  unfold FieldD.body at h
  simp only [bind_some, req_eq, exists_const, Option.some.injEq, Prod.mk.injEq] at h
  obtain ⟨hfresh, hm, head, hhead, ⟨vc, vg⟩, hv, rfl, rfl⟩ := h
  have n1 : NoErr (tSemi :: ks) := by simpa using hne
  have n2 : NoErr (d.mods.toks ++ tSemi :: ks) := by
    rw [NoErr_append]
    refine ⟨?_, n1⟩
    cases d.mods with
    | pre ty => simp [Mods.toks]
    | lim u m => cases u <;> cases m <;> simp [Mods.toks]
  have n3 : NoErr (d.dims.toks ++ (d.mods.toks ++ tSemi :: ks)) := by
    rw [NoErr_append]
    refine ⟨?_, n2⟩
    cases d.dims <;> simp [Dims.toks]
  have n4 : NoErr ((match d.width with
        | some n => [tColon, tNum n]
        | none => []) ++ (d.dims.toks ++ (d.mods.toks ++ tSemi :: ks))) := by
    rw [NoErr_append]
    refine ⟨?_, n3⟩
    cases d.width <;> simp
  have c1 : ((d.mods.toks ++ tSemi :: ks).headD eofTok).type ≠ .lbracket ∧ ((d.mods.toks ++ tSemi :: ks).headD eofTok).type ≠ .colon := by
    cases d.mods with
    | pre ty => simp [Mods.toks]
    | lim u m => cases u <;> cases m <;> simp [Mods.toks]
  have c2 : ((d.dims.toks ++ (d.mods.toks ++ tSemi :: ks)).headD eofTok).type ≠ .colon := by
    cases d.dims with
    | none => exact c1.2
    | _ => simp [Dims.toks]
  refine ⟨tSemi, ?_⟩
  simp only [List.append_assoc]
  unfold fieldDecl
  rw [if_neg (by simp)]
  simp only [cst_put, cst_cur, trans_code]
  rw [cst_eat .identifier rfl (by simpa using n4)]
  simp only [cst_cur, tId_type, reduceCtorEq, if_false]
  rw [cst_eat .identifier rfl n4]
  unfold fieldRest
  have hf : (strtabAdd g.fields d.name).1 = g.fields ++ [d.name] := strtabAdd_fresh _ _ hfresh
  have hs : ∀ (oo : List Byte) (pp : Tok) (ts : List Tok),
      ({ (cst C k g oo pp ts).errIf (decide ((strtabAdd (cst C k g oo pp ts).fields d.name).1.length = (cst C k g oo pp ts).fields.length)) with
        fields := (strtabAdd (cst C k g oo pp ts).fields d.name).1 } : CSt) = cst C k { g with fields := g.fields ++ [d.name] } oo pp ts := by
    intro oo pp ts
    rw [show (cst C k g oo pp ts).fields = g.fields from rfl, hf]
    simp only [List.length_append, List.length_cons, List.length_nil, Nat.zero_add, Nat.add_eq_left, Nat.one_ne_zero, decide_false, cst_errIf]
    rfl
  simp only [tId_text]
  refine (congrArg (fun s : CSt => (
    let r := s.intern d.name
    let w := shapeWidth r.1
    let a' := shapeArr w.2
    let dd := match a'.2.2.1 with
      | some n => { a with count := some n }
      | none => a
    let m := shapeMods (tId d.type) dd { width := w.1, arr := a'.1, var := a'.2.1 } a'.2.2.2
    fieldEmit C.P (tId d.type) (tId d.name) dd m.1 r.2 m.2)) (hs _ _ _)).trans ?_
  simp only [cst_intern]
  obtain ⟨p1, e1⟩ := width_step C k { tab := (strtabAdd g.tab d.name).1, fields := g.fields ++ [d.name], bits := g.bits } (o ++ transPart a) (tId d.name)
    d.width _ n3 c2
  obtain ⟨p2, e2⟩ := arr_step C k { tab := (strtabAdd g.tab d.name).1, fields := g.fields ++ [d.name], bits := g.bits } (o ++ transPart a) p1
    d.dims _ n2 c1.1
  simp only [e1, e2]
  have hattrs : (match (match d.dims with
      | .fixed n => some (parseU32 n)
      | _ => none) with
    | some n => { a with count := some n }
    | none => a) = d.attrs a := by
    unfold FieldD.attrs
    cases d.dims <;> rfl
  obtain ⟨p3, e3⟩ := mods_step C k { tab := (strtabAdd g.tab d.name).1, fields := g.fields ++ [d.name], bits := g.bits } (o ++ transPart a) p2 d (d.attrs a)
    ks hne hm ((d.shape (d.attrs a)).width) rfl
  rw [hattrs]
  have hwd : (match d.width with
    | some n => (parseU32 n).setWidth 8
    | none => 0 : Byte) = (d.shape (d.attrs a)).width := rfl
  rw [hwd, e3]
  unfold fieldEmit
  obtain ⟨v1, v2⟩ := value_step C k d (d.attrs a) (strtabAdd g.tab d.name).2
    { tab := (strtabAdd g.tab d.name).1, fields := g.fields ++ [d.name], bits := g.bits } vg
    (o ++ transPart a ++ (if a.be then [0x02] else []) ++ head) vc p3 (tSemi :: ks) hm hv
  have hcond : ¬ ((d.shape (d.attrs a)).arr = true ∧ (tId d.type).isWord s_string = true ∧ (d.shape (d.attrs a)).strPre = none ∧
      ¬ (d.shape (d.attrs a)).until_ = true ∧ (d.attrs a).count = none ∧ (d.attrs a).ref = none) := by
    rintro ⟨q1, q2, q3, q4, -⟩
    exact q4 (v2 q1 q2 q3)
  simp only [hcond, decide_false, cst_errIf, head_step d (d.attrs a) _ head hhead, attrs_be, cst_put]
  have hbe : ∀ (oo : List Byte) (gg : Gen) (pp : Tok) (b : Byte) (ts : List Tok), (if a.be = true then cst C k gg (oo ++ [b]) pp ts else cst C k gg oo pp ts) =
      cst C k gg (oo ++ (if a.be then [b] else [])) pp ts := by
    intro oo gg pp b ts
    cases a.be <;> simp
  rw [hbe]
  simp only [cst_put] at v1 ⊢
  refine (congrArg (fun r => CRes.bind r _) (Eq.trans ?_ v1)).trans ?_
  · cases (d.shape (d.attrs a)).strPre <;> rfl
  simp only [CRes.bind, Bool.false_eq_true, if_false]
  have harr : (d.shape (d.attrs a)).arr = decide (d.dims ≠ .none) := rfl
  have hend : ∀ (oo : List Byte), (if (d.shape (d.attrs a)).arr = true then (cst C k vg oo p3 (tSemi :: ks)).put [0x38] else cst C k vg oo p3 (tSemi :: ks)) =
      cst C k vg (oo ++ if d.dims = .none then [] else [0x38]) p3 (tSemi :: ks) := by
    intro oo
    rw [harr]
    by_cases hd : d.dims = .none <;> simp [hd]
  rw [hend, cst_eat .semicolon rfl hne]
  simp only [cst_put]
  rw [hbe]
  simp only [List.append_assoc]

end Cnd
