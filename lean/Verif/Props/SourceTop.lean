/-
  C59, declarations and whole files.
-/
import Verif.Props.SourceStmt

namespace Cnd

/-- The parser between declarations. -/
def topSt (dbl : List Byte → Word) (fl : FloatOps) (t : Top) (p : Tok) (ts : List Tok) : CSt :=
  cst (t.ctx dbl fl none false) (t.unaligned, t.packets) ⟨t.tab, [], 0⟩ t.code p ts

section
variable {dbl : List Byte → Word} {fl : FloatOps} {t : Top} {p a : Tok} {ts : List Tok}

@[simp] theorem topSt_cur : (topSt dbl fl t p (a :: ts)).cur = a := rfl
@[simp] theorem topSt_bad : (topSt dbl fl t p ts).bad = false := rfl
@[simp] theorem topSt_put (bs : List Byte) : (topSt dbl fl t p ts).put bs = topSt dbl fl { t with code := t.code ++ bs } p ts := rfl
theorem topSt_adv (h : NoErr ts) : (topSt dbl fl t p (a :: ts)).adv = topSt dbl fl t a ts := cst_adv h
theorem topSt_eat (ty : TT) (ht : a.type = ty) (h : NoErr ts) : (topSt dbl fl t p (a :: ts)).eat ty = topSt dbl fl t a ts := cst_eat ty ht h
theorem topSt_eq (x : List Tok) : topSt dbl fl t p x =
    { prev := p, cur := x.headD eofTok, toks := x.tail, out := t.code, tab := t.tab, log := [], fields := [],
      structs := t.structs, enums := t.enums, self := none, inBit := false, bitCount := 0, bitValid := false, pending := t.unaligned,
      packets := t.packets } := by
  simp [topSt, cst, Top.ctx]

end

/-! ### Decorators of declarations -/

theorem topDec_step (dbl : List Byte → Word) (fl : FloatOps) (x : TopDec) (t : Top) (p : Tok) (ks : List Tok) (hne : NoErr ks) :
    ∃ p', ∀ F, topDec F (topSt dbl fl t p (x.toks.tail ++ ks)) = .ok (topSt dbl fl (x.gen t) p' ks) := by
  cases x with
  | version n =>
    refine ⟨tRp, fun F => ?_⟩
    unfold topDec
    simp only [TopDec.toks, called, List.tail_cons, List.cons_append, List.nil_append, topSt_cur]
    branch
    rw [topSt_eat .identifier rfl (by simpa using hne), topSt_eat .lparen rfl (by simpa using hne)]
    simp only [CSt.number, topSt_cur, tNum_text]
    rw [topSt_eat .number rfl (by simpa using hne), topSt_put, topSt_eat .rparen rfl hne]
    rfl
  | bigEndian =>
    refine ⟨tId (word "big_endian"), fun F => ?_⟩
    unfold topDec
    simp only [TopDec.toks, List.tail_cons, List.cons_append, List.nil_append, topSt_cur]
    repeat branch
    rw [topSt_eat .identifier rfl hne]
    rfl
  | littleEndian long =>
    refine ⟨tId (if long then word "little_endian" else word "le"), fun F => ?_⟩
    unfold topDec
    simp only [TopDec.toks, List.tail_cons, List.cons_append, List.nil_append, topSt_cur]
    cases long <;>
    · repeat branch
      rw [topSt_eat .identifier rfl hne]
      rfl
  | unaligned =>
    refine ⟨tId (word "unaligned_bytes"), fun F => ?_⟩
    unfold topDec
    simp only [TopDec.toks, List.tail_cons, List.cons_append, List.nil_append, topSt_cur]
    repeat branch
    rw [topSt_eat .identifier rfl hne]
    rfl

theorem topDecs_step (dbl : List Byte → Word) (fl : FloatOps) (xs : List TopDec) (t : Top) (p : Tok) (ks : List Tok)
    (hne : NoErr (xs.flatMap TopDec.toks ++ ks)) (hat : (ks.headD eofTok).type ≠ .at) :
    ∃ p', Gets (fun F => topDecs F (topSt dbl fl t p (xs.flatMap TopDec.toks ++ ks))) (topSt dbl fl (xs.foldl (fun t x => x.gen t) t) p' ks) := by
  induction xs generalizing t p with
  | nil =>
    refine ⟨p, (Gets.const _).succ fun F => ?_⟩
    unfold topDecs
    exact if_neg hat
  | cons x xs ih =>
    have e : (x :: xs).flatMap TopDec.toks ++ ks = x.toks ++ (xs.flatMap TopDec.toks ++ ks) := by simp
    rw [e] at hne ⊢
    have n2 : NoErr (xs.flatMap TopDec.toks ++ ks) := by rw [NoErr_append] at hne; exact hne.2
    obtain ⟨p1, q1⟩ := topDec_step dbl fl x t tAt (xs.flatMap TopDec.toks ++ ks) n2
    obtain ⟨p2, q2⟩ := ih (x.gen t) p1 n2
    refine ⟨p2, q2.succ fun F => ?_⟩
    have hx : x.toks = tAt :: x.toks.tail := by cases x <;> rfl
    rw [hx] at hne ⊢
    conv => lhs; unfold topDecs
    rw [if_pos (by rfl)]
    simp only [List.cons_append]
    rw [topSt_adv (by rw [List.cons_append, NoErr_cons] at hne; exact hne.2), q1]
    rfl

/-! ### Names -/

theorem free_struct {t : Top} {name : List Byte} (h : t.free name = true) : t.structs.lookup name = none := by
  unfold Top.free at h
  simp only [decide_eq_true_eq] at h
  have h1 := h.1
  clear h
  generalize t.structs = l at h1 ⊢
  induction l with
  | nil => rfl
  | cons x xs ih =>
    simp only [List.map_cons, List.mem_cons, not_or] at h1
    have : (name == x.1) = false := by simpa using h1.1
    simp only [List.lookup, this]
    exact ih h1.2

theorem free_enum {t : Top} {name : List Byte} (h : t.free name = true) : t.enums.find? (fun e => e.name = name) = none := by
  unfold Top.free at h
  simp only [decide_eq_true_eq] at h
  rw [List.find?_eq_none]
  intro e he
  simp only [decide_eq_true_eq]
  rintro rfl
  exact h.2 (List.mem_map_of_mem he)

/-! ### Enums -/

theorem filter_fresh (vals : List (List Byte × Word)) (v : Word) (h : v ∉ vals.map (·.2)) : vals.filter (fun c => decide (c.2 = v)) = [] := by
  rw [List.filter_eq_nil_iff]
  intro x hx
  simp only [decide_eq_true_eq]
  rintro rfl
  exact h (List.mem_map_of_mem hx)

theorem enumLoop_step (dbl : List Byte → Word) (fl : FloatOps) (xs : List EnumV) (vals l : List (List Byte × Word)) (next : Word) (t : Top) (p : Tok)
    (ks : List Tok) (h : enumGen vals next xs = some l) (hne : NoErr ks) :
    ∃ p', Gets (fun F => enumLoop F vals (vals.map (·.1)) next (topSt dbl fl t p (xs.flatMap EnumV.toks ++ tRb :: ks)))
      (l, topSt dbl fl t p' (tRb :: ks)) := by
  have hall : ∀ xs : List EnumV, NoErr (xs.flatMap EnumV.toks ++ tRb :: ks) := by
    intro xs
    rw [NoErr_append]
    refine ⟨?_, by simpa using hne⟩
    intro x hx
    rw [List.mem_flatMap] at hx
    obtain ⟨v, -, hx⟩ := hx
    obtain ⟨n, val, cm⟩ := v
    cases val <;> cases cm <;> simp [EnumV.toks] at hx <;> (try rcases hx with rfl | rfl | rfl | rfl) <;> (try rcases hx with rfl | rfl | rfl) <;>
      (try rcases hx with rfl | rfl) <;> (try subst hx) <;> simp
  induction xs generalizing vals next p with
  | nil =>
    simp only [enumGen, Option.some.injEq] at h
    subst h
    refine ⟨p, (Gets.const _).succ fun F => ?_⟩
    unfold enumLoop
    simp
  | cons x xs ih =>
    simp only [enumGen, bind_some, req_eq, exists_const] at h
    obtain ⟨v, hv, ⟨h1, h2, h3⟩, h4⟩ := h
    have hv3 : v ≠ 0x7FFFFFFFFFFFFFFF := by
      rintro rfl
      exact h3 (by decide)
    have hfr : (strtabAdd (vals.map (·.1)) x.name).1 = vals.map (·.1) ++ [x.name] := strtabAdd_fresh _ _ h1
    obtain ⟨n, val, cm⟩ := x
    have hmap : (vals ++ [(n, v)]).map (·.1) = vals.map (·.1) ++ [n] := by simp
    -- behind name and value
    have hend : ∀ q, ∃ p', Gets (fun F => enumLoop F (vals ++ [(n, v)]) (vals.map (·.1) ++ [n]) (v + 1)
        (if (topSt dbl fl t q ((if cm then [tComma] else []) ++ (xs.flatMap EnumV.toks ++ tRb :: ks))).cur.type = .comma then
          (topSt dbl fl t q ((if cm then [tComma] else []) ++ (xs.flatMap EnumV.toks ++ tRb :: ks))).adv else
          topSt dbl fl t q ((if cm then [tComma] else []) ++ (xs.flatMap EnumV.toks ++ tRb :: ks))))
        (l, topSt dbl fl t p' (tRb :: ks)) := by
      intro q
      cases cm with
      | true =>
        obtain ⟨p', hp⟩ := ih (vals ++ [(n, v)]) (v + 1) tComma h4
        rw [hmap] at hp
        refine ⟨p', hp.of_eq fun F => ?_⟩
        simp only [if_true, List.cons_append, List.nil_append, topSt_cur, tComma_type]
        rw [topSt_adv (hall xs)]
      | false =>
        obtain ⟨p', hp⟩ := ih (vals ++ [(n, v)]) (v + 1) q h4
        rw [hmap] at hp
        refine ⟨p', hp.of_eq fun F => ?_⟩
        have hc : (topSt dbl fl t q (xs.flatMap EnumV.toks ++ tRb :: ks)).cur.type ≠ .comma := by
          cases xs with
          | nil => simp
          | cons y ys => simp [EnumV.toks]
        simp only [Bool.false_eq_true, if_false, List.nil_append, hc]
    have hall2 : NoErr ((if cm then [tComma] else []) ++ (xs.flatMap EnumV.toks ++ tRb :: ks)) := by
      rw [NoErr_append]
      exact ⟨by cases cm <;> simp, hall xs⟩
    have hnc : ¬ (vals.map (·.1) ++ [n]).length = (vals.map (·.1)).length := by simp
    cases val with
    | none =>
      obtain rfl : next = v := by simpa [EnumV.number] using hv
      obtain ⟨p', hp⟩ := hend (tId n)
      refine ⟨p', hp.succ fun F => ?_⟩
      conv => lhs; unfold enumLoop
      have e : List.flatMap EnumV.toks (⟨n, none, cm⟩ :: xs) ++ tRb :: ks =
          tId n :: ((if cm then [tComma] else []) ++ (xs.flatMap EnumV.toks ++ tRb :: ks)) := by simp [EnumV.toks]
      rw [e]
      simp only [topSt_cur, tId_type, tId_text, topSt_bad, reduceCtorEq, Bool.false_eq_true, or_self, if_false]
      rw [topSt_eat .identifier rfl hall2]
      have hc : (topSt dbl fl t (tId n) ((if cm then [tComma] else []) ++ (xs.flatMap EnumV.toks ++ tRb :: ks))).cur.type ≠ .equals := by
        cases cm with
        | true => simp
        | false =>
          cases xs with
          | nil => simp
          | cons y ys => simp [EnumV.toks]
      simp only [hfr, hnc, decide_false, show ∀ s : CSt, s.errIf false = s from fun _ => rfl, hc, if_false]
      rw [filter_fresh vals next h2]
      simp only [List.foldl_nil, hv3, if_false]
      rfl
    | some w =>
      have hw : parseI64 w = some v := by simpa [EnumV.number] using hv
      obtain ⟨p', hp⟩ := hend (tNum w)
      refine ⟨p', hp.succ fun F => ?_⟩
      conv => lhs; unfold enumLoop
      have e : List.flatMap EnumV.toks (⟨n, some w, cm⟩ :: xs) ++ tRb :: ks =
          tId n :: tEq :: tNum w :: ((if cm then [tComma] else []) ++ (xs.flatMap EnumV.toks ++ tRb :: ks)) := by simp [EnumV.toks]
      rw [e]
      simp only [topSt_cur, tId_type, tId_text, topSt_bad, reduceCtorEq, Bool.false_eq_true, or_self, if_false]
      rw [topSt_eat .identifier rfl (by simpa using hall2)]
      simp only [hfr, hnc, decide_false, show ∀ s : CSt, s.errIf false = s from fun _ => rfl, topSt_cur, tEq_type, if_true]
      rw [topSt_adv (by simpa using hall2)]
      simp only [CSt.number, topSt_cur, tNum_text, hw, Option.map_some]
      rw [topSt_eat .number rfl hall2, filter_fresh vals v h2]
      simp only [List.foldl_nil, hv3, if_false]
      rfl

theorem topSt_findEnum (dbl : List Byte → Word) (fl : FloatOps) (t : Top) (p : Tok) (ts : List Tok) (name : List Byte) :
    (topSt dbl fl t p ts).findEnum name = t.enums.find? (fun e => e.name = name) := rfl

theorem topSt_findStruct (dbl : List Byte → Word) (fl : FloatOps) (t : Top) (p : Tok) (ts : List Tok) (name : List Byte) :
    (topSt dbl fl t p ts).findStruct name = t.structs.lookup name := by
  rw [topSt_eq]
  rfl

theorem errIf_none (s : CSt) {α : Type} (x : Option α) (h : x = none) : s.errIf x.isSome = s := by
  subst h
  rfl

def tyToks (ty : Option (List Byte)) : List Tok :=
  match ty with
  | some t => [tColon, tId t]
  | none => []

theorem enum_step (dbl : List Byte → Word) (fl : FloatOps) (t t' : Top) (p : Tok) (name : List Byte) (ty : Option (List Byte)) (vs : List EnumV)
    (ks : List Tok) (h : (Decl.enum name ty vs).gen dbl fl t = some t') (hne : NoErr ((Decl.enum name ty vs).toks ++ ks)) :
    ∃ p', Gets (fun F => parseEnum F (topSt dbl fl t p ((Decl.enum name ty vs).toks.tail ++ ks))) (topSt dbl fl t' p' ks) := by
  simp only [Decl.gen, bind_some, req_eq, exists_const, Option.some.injEq] at h
  obtain ⟨hfree, op, hop, l, hl, rfl⟩ := h
  have e : (Decl.enum name ty vs).toks ++ ks = tEnum :: tId name :: (tyToks ty ++ (tLb :: (vs.flatMap EnumV.toks ++ tRb :: ks))) := by
    simp only [Decl.toks, List.cons_append, List.append_assoc, List.nil_append]
    cases ty <;> rfl
  have e2 : (Decl.enum name ty vs).toks.tail ++ ks = tId name :: (tyToks ty ++ (tLb :: (vs.flatMap EnumV.toks ++ tRb :: ks))) := by
    simp only [Decl.toks, List.tail_cons, List.cons_append, List.append_assoc, List.nil_append]
    cases ty <;> rfl
  rw [e, NoErr_cons, NoErr_cons] at hne
  rw [e2]
  have n1 := hne.2.2
  have n2 : NoErr (vs.flatMap EnumV.toks ++ tRb :: ks) := by rw [NoErr_append, NoErr_cons] at n1; exact n1.2.2
  have hks : NoErr ks := by rw [NoErr_append, NoErr_cons] at n2; exact n2.2.2
  obtain ⟨p1, q1⟩ := enumLoop_step dbl fl vs [] l 0 t tLb ks hl hks
  refine ⟨tRb, ?_⟩
  refine (q1.bind (q := fun _ q => CRes.ok ({ q.2.eat .rbrace with enums := (q.2.eat .rbrace).enums ++ [⟨name, op, q.1⟩] } : CSt))
    ((Gets.const _).of_eq fun F => ?_)).of_eq fun F => ?_
  · dsimp only
    rw [topSt_eat .rbrace rfl hks]
    rfl
  · unfold parseEnum
    simp only [topSt_cur, tId_text]
    rw [topSt_eat .identifier rfl n1]
    simp only [topSt_findEnum, errIf_none _ _ (free_enum hfree), topSt_findStruct, errIf_none _ _ (free_struct hfree)]
    cases ty with
    | none =>
      obtain rfl : 0x12 = op := by simpa [enumTy] using hop
      simp only [tyToks, List.nil_append, topSt_cur, tLb_type, reduceCtorEq, if_false]
      rw [topSt_eat .lbrace rfl n2]
      rfl
    | some w =>
      simp only [enumTy, bind_some, req_eq, exists_const, Option.some.injEq] at hop
      obtain ⟨x, hx, ⟨hi, hb⟩, rfl⟩ := hop
      simp only [tyToks, List.cons_append, List.nil_append, topSt_cur, tColon_type, if_true]
      rw [topSt_adv (by simpa using n2)]
      simp only [topSt_cur]
      rw [topSt_eat .identifier rfl (by simpa using n2)]
      have hfind : (tId w).find enumTypes = some x.op := by
        rw [find_id, enum_types, hx, Option.bind_some, if_pos ⟨hi, hb⟩]
      rw [hfind]
      dsimp only
      rw [topSt_eat .lbrace rfl n2]
      rfl

/-! ### Structs and packets -/

theorem setLast_append (l : List (List Byte × List Byte)) (n c d : List Byte) : setLast (l ++ [(n, c)]) d = l ++ [(n, d)] := by
  induction l with
  | nil => rfl
  | cons x xs ih =>
    cases xs with
    | nil => rfl
    | cons y ys =>
      show x :: setLast ((y :: ys) ++ [(n, c)]) d = _
      rw [ih]
      rfl

theorem struct_step (dbl : List Byte → Word) (fl : FloatOps) (t t' : Top) (p : Tok) (name : List Byte) (b : Body)
    (ks : List Tok) (h : (Decl.struct name b).gen dbl fl t = some t') (hne : NoErr ((Decl.struct name b).toks ++ ks)) :
    ∃ p', Gets (fun F => parseStruct ⟨dbl, fl⟩ F (topSt dbl fl t p ((Decl.struct name b).toks.tail ++ ks))) (topSt dbl fl t' p' ks) := by
  simp only [Decl.gen, bind_some, req_eq, exists_const, Option.some.injEq] at h
  obtain ⟨hfree, ⟨c, g⟩, hb, hbits, rfl⟩ := h
  have e : (Decl.struct name b).toks ++ ks = tStruct :: tId name :: tLb :: (b.toks ++ tRb :: ks) := by simp [Decl.toks]
  have e2 : (Decl.struct name b).toks.tail ++ ks = tId name :: tLb :: (b.toks ++ tRb :: ks) := by simp [Decl.toks]
  rw [e, NoErr_cons, NoErr_cons, NoErr_cons] at hne
  rw [e2]
  have n1 := hne.2.2.2
  have hks : NoErr ks := by rw [NoErr_append, NoErr_cons] at n1; exact n1.2.2
  refine ⟨tRb, ?_⟩
  have hstart : (let s : CSt := { topSt dbl fl t (tId name) (tLb :: (b.toks ++ tRb :: ks)) with
        structs := (topSt dbl fl t (tId name) (tLb :: (b.toks ++ tRb :: ks))).structs ++ [(name, [])], fields := [], self := some name, out := [] }
      if s.pending then { s.put [0x25, 0x02] with inBit := true, pending := false, bitCount := 0, bitValid := true } else s) =
      cst (t.ctx dbl fl (some name) t.unaligned) (false, t.packets) ⟨t.tab, [], 0⟩ (if t.unaligned then [0x25, 0x02] else []) (tId name)
        (tLb :: (b.toks ++ tRb :: ks)) := by
    dsimp only
    rw [topSt_eq]
    cases hu : t.unaligned with
    | true => simp [cst, Top.ctx, hu, CSt.put, PSt.emit]
    | false => simp [cst, Top.ctx, hu]
  have q := block_step (t.ctx dbl fl (some name) t.unaligned) (false, t.packets) ⟨t.tab, [], 0⟩ g (if t.unaligned then [0x25, 0x02] else []) c (tId name) b.toks ks
    n1 (fun q => body_ok _ _ b _ g _ c q ks hb n1)
  refine (q.bind (q := fun _ s =>
      let s := if s.inBit ∧ ¬ (false : Bool) then (s.errIf (s.bitValid ∧ s.bitCount.toNat % 8 ≠ 0)).put [0x26] else s
      CRes.ok ({ s with
        structs := setLast s.structs s.out, out := t.code, self := none, inBit := false, bitCount := 0, bitValid := false, fields := [] } : CSt)) ((Gets.const _).of_eq fun F => ?_)).of_eq fun F => ?_
  · dsimp only
    congr 1
    cases hu : t.unaligned with
    | true =>
      have hb8 := hbits hu
      have hz : (BitVec.ofNat 32 g.bits).toNat % 8 = 0 := by
        rw [BitVec.toNat_ofNat]
        dsimp only at hb8
        omega
      have hb9 : g.bits % 8 = 0 := hb8
      rw [topSt_eq]
      simp [cst, Top.ctx, hz, hb9, CSt.errIf, CSt.put, PSt.emit, setLast_append]
    | false =>
      rw [topSt_eq]
      simp [cst, Top.ctx, setLast_append]
  · unfold parseStruct
    simp only [topSt_cur, tId_text]
    rw [topSt_eat .identifier rfl (by simpa using n1)]
    simp only [topSt_findEnum, errIf_none _ _ (free_enum hfree), topSt_findStruct, errIf_none _ _ (free_struct hfree)]
    rw [← hstart]
    rfl

theorem packet_end (dbl : List Byte → Word) (fl : FloatOps) (t : Top) (p : Tok) (ks : List Tok) (name c : List Byte) (tab : List (List Byte)) (bits : Nat)
    (o : List Byte) :
    (((cst (t.ctx dbl fl none false) (t.unaligned, t.packets) ⟨tab, [], bits⟩ (o ++ [0x07, 0xFF, 0xFF] ++ c) p ks).intern name).1).patch (o.length + 1)
      (u16le ((cst (t.ctx dbl fl none false) (t.unaligned, t.packets) ⟨tab, [], bits⟩ (o ++ [0x07, 0xFF, 0xFF] ++ c) p ks).intern name).2) =
    topSt dbl fl { t with tab := (strtabAdd tab name).1, code := o ++ ([0x07] ++ u16le (strtabAdd tab name).2 ++ c) } p ks := by
  simp only [cst_intern]
  have e : o ++ [0x07, 0xFF, 0xFF] ++ c = (o ++ [0x07]) ++ ([0xFF, 0xFF] ++ c) := by simp
  rw [e, cst_patch _ _ _ p ks (o ++ [0x07]) [0xFF, 0xFF] (u16le (strtabAdd tab name).2) c _ (by simp) (by simp), topSt_eq]
  simp [cst, Top.ctx]

theorem packet_step (dbl : List Byte → Word) (fl : FloatOps) (t t' : Top) (p : Tok) (name : List Byte) (b : Body)
    (ks : List Tok) (h : (Decl.packet name b).gen dbl fl t = some t') (hne : NoErr ((Decl.packet name b).toks ++ ks)) :
    ∃ p', Gets (fun F => parsePacket ⟨dbl, fl⟩ F (topSt dbl fl { t with packets := 1 } p ((Decl.packet name b).toks.tail ++ ks))) (topSt dbl fl t' p' ks) := by
  simp only [Decl.gen, bind_some, req_eq, exists_const, Option.some.injEq] at h
  obtain ⟨⟨hfree, hpk⟩, ⟨c, g⟩, hb, rfl⟩ := h
  have e : (Decl.packet name b).toks ++ ks = tPacket :: tId name :: tLb :: (b.toks ++ tRb :: ks) := by simp [Decl.toks]
  have e2 : (Decl.packet name b).toks.tail ++ ks = tId name :: tLb :: (b.toks ++ tRb :: ks) := by simp [Decl.toks]
  rw [e, NoErr_cons, NoErr_cons, NoErr_cons] at hne
  rw [e2]
  have n1 := hne.2.2.2
  have hks : NoErr ks := by rw [NoErr_append, NoErr_cons] at n1; exact n1.2.2
  refine ⟨tRb, ?_⟩
  have q := block_step (t.ctx dbl fl none false) (t.unaligned, 1) ⟨t.tab, [], 0⟩ g (t.code ++ [0x07, 0xFF, 0xFF]) c (tId name) b.toks ks
    n1 (fun q => body_ok _ _ b _ g _ c q ks hb n1)
  have hfree' : ({ t with packets := 1 } : Top).free name = true := hfree
  refine (q.bind (q := fun _ s =>
      let s : CSt := { s with fields := [] }
      let r := s.intern name
      CRes.ok (r.1.patch (t.code.length + 1) (u16le r.2))) ((Gets.const _).of_eq fun F => ?_)).of_eq fun F => ?_
  · dsimp only
    congr 1
    exact packet_end dbl fl { t with packets := 1 } tRb ks name c g.tab g.bits t.code
  · unfold parsePacket
    simp only [topSt_cur, tId_text]
    rw [topSt_eat .identifier rfl (by simpa using n1)]
    simp only [topSt_findEnum, errIf_none _ _ (free_enum hfree'), topSt_findStruct, errIf_none _ _ (free_struct hfree'), topSt_put, topSt_cur,
      tLb_type, reduceCtorEq, if_false]
    show (((parseBlock ⟨dbl, fl⟩ F (cst (t.ctx dbl fl none false) (t.unaligned, 1) ⟨t.tab, [], 0⟩ (t.code ++ [0x07, 0xFF, 0xFF]) (tId name)
      (tLb :: (b.toks ++ tRb :: ks)))).bind fun s => .ok ({ s with fields := [] } : CSt)).bind _) = _
    show _ = (parseBlock ⟨dbl, fl⟩ F (cst (t.ctx dbl fl none false) (t.unaligned, 1) ⟨t.tab, [], 0⟩ (t.code ++ [0x07, 0xFF, 0xFF]) (tId name)
      (tLb :: (b.toks ++ tRb :: ks)))).bind _
    cases parseBlock ⟨dbl, fl⟩ F (cst (t.ctx dbl fl none false) (t.unaligned, 1) ⟨t.tab, [], 0⟩ (t.code ++ [0x07, 0xFF, 0xFF]) (tId name)
      (tLb :: (b.toks ++ tRb :: ks))) <;> rfl

theorem packetOf_step (dbl : List Byte → Word) (fl : FloatOps) (t t' : Top) (p : Tok) (name sn : List Byte)
    (ks : List Tok) (h : (Decl.packetOf name sn).gen dbl fl t = some t') (hks : NoErr ks) :
    ∃ p', Gets (fun F => parsePacket ⟨dbl, fl⟩ F (topSt dbl fl { t with packets := 1 } p ((Decl.packetOf name sn).toks.tail ++ ks))) (topSt dbl fl t' p' ks) := by
  simp only [Decl.gen, bind_some, req_eq, exists_const, Option.some.injEq] at h
  obtain ⟨⟨hfree, hpk⟩, c, hc, rfl⟩ := h
  have hfree' : ({ t with packets := 1 } : Top).free name = true := hfree
  refine ⟨tSemi, (Gets.const _).of_eq fun F => ?_⟩
  have w1 : NoErr (tEq :: tId sn :: tSemi :: ks) := by simpa using hks
  have w2 : NoErr (tId sn :: tSemi :: ks) := by simpa using hks
  have w3 : NoErr (tSemi :: ks) := by simpa using hks
  unfold parsePacket
  simp only [Decl.toks, List.tail_cons, List.cons_append, List.nil_append, topSt_cur, tId_text, topSt_eat .identifier (tId_type name) w1,
    topSt_findEnum, errIf_none _ _ (free_enum hfree'), topSt_findStruct, errIf_none _ _ (free_struct hfree'), topSt_put,
    tEq_type, if_true, topSt_adv w2, topSt_eat .identifier (tId_type sn) w3, topSt_eat .semicolon tSemi_type hks]
  simp only [hc, CRes.bind]
  congr 1
  exact packet_end dbl fl { t with packets := 1 } tSemi ks name c t.tab 0 t.code

/-! ### Files -/

theorem decl_head (d : Decl) : ∃ a ts, d.toks = a :: ts ∧ a.type ∈ [TT.kwEnum, .kwStruct, .kwPacket, .semicolon] := by
  cases d <;> exact ⟨_, _, rfl, by decide⟩

theorem decl_step (dbl : List Byte → Word) (fl : FloatOps) (d : Decl) (t t' : Top) (p : Tok) (ks : List Tok) (h : d.gen dbl fl t = some t')
    (hne : NoErr (d.toks ++ ks)) :
    ∃ p', Gets (fun F => match (topSt dbl fl t p (d.toks ++ ks)).cur.type with
      | .kwStruct => parseStruct ⟨dbl, fl⟩ F (topSt dbl fl t p (d.toks ++ ks)).adv
      | .kwEnum => parseEnum F (topSt dbl fl t p (d.toks ++ ks)).adv
      | .kwPacket =>
        let s := (topSt dbl fl t p (d.toks ++ ks)).errIf ((topSt dbl fl t p (d.toks ++ ks)).packets > 0)
        parsePacket ⟨dbl, fl⟩ F { s.adv with packets := s.packets + 1 }
      | .semicolon => .ok (topSt dbl fl t p (d.toks ++ ks)).adv
      | .eof => .ok (topSt dbl fl t p (d.toks ++ ks))
      | _ => .ok (topSt dbl fl t p (d.toks ++ ks)).err) (topSt dbl fl t' p' ks) := by
  have hadv : ∀ a ts, d.toks = a :: ts → (topSt dbl fl t p (d.toks ++ ks)).adv = topSt dbl fl t a (d.toks.tail ++ ks) := by
    intro a ts hd
    rw [hd] at hne ⊢
    rw [List.cons_append, NoErr_cons] at hne
    rw [List.cons_append, topSt_adv hne.2]
    rfl
  have hpkt : ∀ ts, d.toks = tPacket :: ts → t.packets = 0 →
      (let s := (topSt dbl fl t p (d.toks ++ ks)).errIf ((topSt dbl fl t p (d.toks ++ ks)).packets > 0)
       ({ s.adv with packets := s.packets + 1 } : CSt)) = topSt dbl fl { t with packets := 1 } tPacket (d.toks.tail ++ ks) := by
    intro ts hd h0
    have hp : (topSt dbl fl t p (d.toks ++ ks)).packets = 0 := h0
    simp only [hp, gt_iff_lt, Nat.lt_irrefl, decide_false, show ∀ s : CSt, s.errIf false = s from fun _ => rfl, hadv _ _ hd]
    rfl
  cases d with
  | enum name ty vs =>
    obtain ⟨p', q⟩ := enum_step dbl fl t t' tEnum name ty vs ks h hne
    exact ⟨p', q.of_eq fun F => congrArg (parseEnum F) (hadv _ _ rfl)⟩
  | struct name b =>
    obtain ⟨p', q⟩ := struct_step dbl fl t t' tStruct name b ks h hne
    exact ⟨p', q.of_eq fun F => congrArg (parseStruct ⟨dbl, fl⟩ F) (hadv _ _ rfl)⟩
  | packet name b =>
    obtain ⟨p', q⟩ := packet_step dbl fl t t' tPacket name b ks h hne
    have h0 : t.packets = 0 := by
      simp only [Decl.gen, bind_some, req_eq, exists_const, Option.some.injEq] at h
      exact h.1.2
    exact ⟨p', q.of_eq fun F => congrArg (parsePacket ⟨dbl, fl⟩ F) (hpkt _ rfl h0)⟩
  | packetOf name sn =>
    have hks : NoErr ks := by rw [NoErr_append] at hne; exact hne.2
    obtain ⟨p', q⟩ := packetOf_step dbl fl t t' tPacket name sn ks h hks
    have h0 : t.packets = 0 := by
      simp only [Decl.gen, bind_some, req_eq, exists_const, Option.some.injEq] at h
      exact h.1.2
    exact ⟨p', q.of_eq fun F => congrArg (parsePacket ⟨dbl, fl⟩ F) (hpkt _ rfl h0)⟩
  | empty =>
    obtain rfl : t = t' := by simpa [Decl.gen] using h
    exact ⟨tSemi, (Gets.const _).of_eq fun F => congrArg CRes.ok (hadv _ _ rfl)⟩

theorem prog_step (dbl : List Byte → Word) (fl : FloatOps) (prog : List Item) (t t' : Top) (p : Tok)
    (h : progGen dbl fl prog t = some t') (hne : NoErr (prog.flatMap Item.toks)) :
    ∃ p', Gets (fun F => topLoop ⟨dbl, fl⟩ F (topSt dbl fl t p (prog.flatMap Item.toks ++ [eofTok]))) (topSt dbl fl t' p' [eofTok]) := by
  induction prog generalizing t p with
  | nil =>
    simp only [progGen, Option.some.injEq] at h
    subst h
    refine ⟨p, (Gets.const _).succ fun F => ?_⟩
    unfold topLoop
    exact if_pos (.inl rfl)
  | cons x xs ih =>
    have hall : NoErr (xs.flatMap Item.toks ++ [eofTok]) := by
      rw [List.flatMap_cons, NoErr_append] at hne
      rw [NoErr_append]
      exact ⟨hne.2, by simp [eofTok]⟩
    rw [List.flatMap_cons, NoErr_append] at hne
    cases x with
    | doc w =>
      simp only [progGen] at h
      obtain ⟨p', q⟩ := ih t (tDoc w) h hne.2
      refine ⟨p', q.succ fun F => ?_⟩
      conv => lhs; unfold topLoop
      simp only [List.flatMap_cons, Item.toks, List.cons_append, List.nil_append]
      rw [if_neg (by simp), if_pos (by simp), topSt_adv hall]
    | decl decs d =>
      simp only [progGen, bind_some] at h
      obtain ⟨t1, h1, h2⟩ := h
      simp only [Item.toks, NoErr_append] at hne
      have n1 : NoErr (d.toks ++ (xs.flatMap Item.toks ++ [eofTok])) := by rw [NoErr_append]; exact ⟨hne.1.2, hall⟩
      have n0 : NoErr (decs.flatMap TopDec.toks ++ (d.toks ++ (xs.flatMap Item.toks ++ [eofTok]))) := by rw [NoErr_append]; exact ⟨hne.1.1, n1⟩
      obtain ⟨a, ts, hd, ha⟩ := decl_head d
      obtain ⟨p1, q1⟩ := topDecs_step dbl fl decs t p (d.toks ++ (xs.flatMap Item.toks ++ [eofTok])) n0 (by
        rw [hd]
        intro hh
        rw [show a.type = .at from hh] at ha
        revert ha
        decide)
      obtain ⟨p2, q2⟩ := decl_step dbl fl d _ t1 p1 (xs.flatMap Item.toks ++ [eofTok]) h1 n1
      obtain ⟨p3, q3⟩ := ih t1 p2 h2 hne.2
      refine ⟨p3, ?_⟩
      have e : (Item.decl decs d :: xs).flatMap Item.toks ++ [eofTok] =
          decs.flatMap TopDec.toks ++ (d.toks ++ (xs.flatMap Item.toks ++ [eofTok])) := by simp [Item.toks]
      rw [e]
      refine (q1.bind (q := fun F s => (match s.cur.type with
        | .kwStruct => parseStruct ⟨dbl, fl⟩ F s.adv
        | .kwEnum => parseEnum F s.adv
        | .kwPacket =>
          let s := s.errIf (s.packets > 0)
          parsePacket ⟨dbl, fl⟩ F { s.adv with packets := s.packets + 1 }
        | .semicolon => .ok s.adv
        | .eof => .ok s
        | _ => .ok s.err).bind (topLoop ⟨dbl, fl⟩ F)) (q2.bind q3)).succ fun F => ?_
      conv => lhs; unfold topLoop
      have hc : (topSt dbl fl t p (decs.flatMap TopDec.toks ++ (d.toks ++ (xs.flatMap Item.toks ++ [eofTok])))).cur.type ∈
          [TT.kwEnum, .kwStruct, .kwPacket, .semicolon, .at] := by
        cases decs with
        | nil =>
          rw [hd]
          exact List.mem_append_left [TT.at] ha
        | cons y ys => cases y <;> exact (by decide : TT.at ∈ [TT.kwEnum, .kwStruct, .kwPacket, .semicolon, .at])
      rw [if_neg (by
        rintro (q | q)
        · rw [q] at hc; revert hc; decide
        · simp at q), if_neg (by intro q; rw [q] at hc; revert hc; decide)]
      rfl

end Cnd
