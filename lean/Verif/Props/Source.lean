/-
  C59: the compiler gives the image the source stands for.
-/
import Verif.Source
import Verif.Props.ParseTerm

namespace Cnd

/-! ### Framework -/

/-- With enough fuel the outcome is `a`. -/
def Gets {α : Type} (r : Nat → CRes α) (a : α) : Prop := ∃ F0, ∀ F ≥ F0, r F = .ok a

theorem Gets.const {α : Type} (a : α) : Gets (fun _ => .ok a) a := ⟨0, fun _ _ => rfl⟩

theorem Gets.of_eq {α : Type} {r q : Nat → CRes α} {a : α} (h : Gets r a) (e : ∀ F, q F = r F) : Gets q a := by
  obtain ⟨F0, h⟩ := h
  exact ⟨F0, fun F hF => (e F).trans (h F hF)⟩

theorem Gets.bind {α β : Type} {r : Nat → CRes α} {q : Nat → α → CRes β} {a : α} {b : β} (h : Gets r a)
    (g : Gets (fun F => q F a) b) : Gets (fun F => (r F).bind (q F)) b := by
  obtain ⟨F0, h⟩ := h
  obtain ⟨F1, g⟩ := g
  refine ⟨max F0 F1, fun F hF => ?_⟩
  show CRes.bind (r F) (q F) = .ok b
  rw [h F (by omega)]
  exact g F (by omega)

/-- One unit of fuel more. -/
theorem Gets.succ {α : Type} {r q : Nat → CRes α} {a : α} (h : Gets r a) (e : ∀ F, q (F + 1) = r F) : Gets q a := by
  obtain ⟨F0, h⟩ := h
  refine ⟨F0 + 1, fun F hF => ?_⟩
  obtain ⟨F, rfl⟩ : ∃ F', F = F' + 1 := ⟨F - 1, by omega⟩
  rw [e]
  exact h F (by omega)

/-- No token stands for a character outside the language. -/
def NoErr (ts : List Tok) : Prop := ∀ t ∈ ts, t.type ≠ .error

@[simp] theorem NoErr_nil : NoErr [] := by simp [NoErr]
@[simp] theorem NoErr_cons (t : Tok) (ts : List Tok) : NoErr (t :: ts) ↔ t.type ≠ .error ∧ NoErr ts := by simp [NoErr]
@[simp] theorem NoErr_append (a b : List Tok) : NoErr (a ++ b) ↔ NoErr a ∧ NoErr b := by
  simp only [NoErr, List.mem_append]
  constructor
  · intro h; exact ⟨fun t ht => h t (.inl ht), fun t ht => h t (.inr ht)⟩
  · rintro ⟨h, g⟩ t (ht | ht)
    · exact h t ht
    · exact g t ht

def Ctx.P (C : Ctx) : PEnv := ⟨C.dbl, C.fl⟩

/-- The parser in front of the tokens `ts`. -/
def cst (C : Ctx) (k : Bool × Nat) (g : Gen) (o : List Byte) (p : Tok) (ts : List Tok) : CSt :=
  { prev := p, cur := ts.headD eofTok, toks := ts.tail, out := o, tab := g.tab, log := [], fields := g.fields,
    structs := C.structs ++ (C.self.map fun n => (n, [])).toList, enums := C.enums, self := C.self, inBit := C.inBit,
    bitCount := if C.inBit then BitVec.ofNat 32 g.bits else 0, bitValid := C.inBit, pending := k.1, packets := k.2 }

section
variable {C : Ctx} {k : Bool × Nat} {g : Gen} {o : List Byte} {p : Tok} {a : Tok} {ts : List Tok}

@[simp] theorem cst_cur : (cst C k g o p (a :: ts)).cur = a := rfl
@[simp] theorem cst_prev : (cst C k g o p ts).prev = p := rfl
@[simp] theorem cst_out : (cst C k g o p ts).out = o := rfl
@[simp] theorem cst_inBit : (cst C k g o p ts).inBit = C.inBit := rfl
@[simp] theorem cst_bitValid : (cst C k g o p ts).bitValid = C.inBit := rfl
@[simp] theorem cst_bad : (cst C k g o p ts).bad = false := rfl
@[simp] theorem cst_put (bs : List Byte) : (cst C k g o p ts).put bs = cst C k g (o ++ bs) p ts := rfl
@[simp] theorem cst_put_nil : (cst C k g o p ts).put [] = cst C k g o p ts := by simp
@[simp] theorem cst_errIf : (cst C k g o p ts).errIf false = cst C k g o p ts := rfl
@[simp] theorem cst_intern (n : List Byte) : (cst C k g o p ts).intern n =
    (cst C k { g with tab := (strtabAdd g.tab n).1 } o p ts, (strtabAdd g.tab n).2) := rfl

theorem cst_adv (h : NoErr ts) : (cst C k g o p (a :: ts)).adv = cst C k g o a ts := by
  unfold CSt.adv PSt.advance cst
  cases ts with
  | nil => rfl
  | cons t ts =>
    have ht : t.type ≠ .error := h t (by simp)
    simp only [List.tail_cons, pull, if_neg ht, List.headD_cons]

theorem cst_eat (ty : TT) (ht : a.type = ty) (h : NoErr ts) : (cst C k g o p (a :: ts)).eat ty = cst C k g o a ts := by
  have e : (cst C k g o p (a :: ts)).eat ty = (cst C k g o p (a :: ts)).adv := by
    unfold CSt.eat PSt.consume CSt.adv
    rw [if_pos (show (cst C k g o p (a :: ts)).toPSt.cur.type = ty from ht)]
  rw [e, cst_adv h]

end

@[simp] theorem tk_type (ty : TT) (w : List Byte) : (tk ty w).type = ty := rfl
@[simp] theorem tId_type (w : List Byte) : (tId w).type = .identifier := rfl
@[simp] theorem tNum_type (w : List Byte) : (tNum w).type = .number := rfl
@[simp] theorem tNum_text (w : List Byte) : (tNum w).text = w := rfl
@[simp] theorem tId_text (w : List Byte) : (tId w).text = w := rfl
@[simp] theorem tDoc_type (w : List Byte) : (tDoc w).type = .doc := rfl
@[simp] theorem tAt_type : tAt.type = .at := rfl
@[simp] theorem tLp_type : tLp.type = .lparen := rfl
@[simp] theorem tRp_type : tRp.type = .rparen := rfl
@[simp] theorem tLb_type : tLb.type = .lbrace := rfl
@[simp] theorem tRb_type : tRb.type = .rbrace := rfl
@[simp] theorem tLk_type : tLk.type = .lbracket := rfl
@[simp] theorem tRk_type : tRk.type = .rbracket := rfl
@[simp] theorem tSemi_type : tSemi.type = .semicolon := rfl
@[simp] theorem tColon_type : tColon.type = .colon := rfl
@[simp] theorem tComma_type : tComma.type = .comma := rfl
@[simp] theorem tEq_type : tEq.type = .equals := rfl
@[simp] theorem tDot_type : tDot.type = .dot := rfl
@[simp] theorem tIf_type : tIf.type = .kwIf := rfl
@[simp] theorem tElse_type : tElse.type = .kwElse := rfl
@[simp] theorem tSwitch_type : tSwitch.type = .kwSwitch := rfl
@[simp] theorem tCase_type : tCase.type = .kwCase := rfl
@[simp] theorem tDefault_type : tDefault.type = .kwDefault := rfl
@[simp] theorem tStruct_type : tStruct.type = .kwStruct := rfl
@[simp] theorem tPacket_type : tPacket.type = .kwPacket := rfl
@[simp] theorem tEnum_type : tEnum.type = .kwEnum := rfl

@[simp] theorem req_eq {c : Prop} [Decidable c] {u : Unit} : req c = some u ↔ c := by
  unfold req; split <;> simp_all

theorem bind_some {α β : Type} {x : Option α} {f : α → Option β} {b : β} : (x >>= f) = some b ↔ ∃ a, x = some a ∧ f a = some b := by
  cases x <;> simp

theorem req_bind {c : Prop} [Decidable c] {β : Type} {f : Unit → Option β} {b : β} : (req c >>= f) = some b ↔ c ∧ f () = some b := by
  unfold req; split <;> simp_all

/-- Decide the next test of a chain. -/
macro "branch" : tactic => `(tactic| first
  | refine (if_pos (by decide)).trans ?_
  | refine (if_neg (by decide)).trans ?_)

/-! ### Expressions -/

theorem expr_gets (C : Ctx) (k : Bool × Nat) (e : ETree) (g : Gen) (o : List Byte) (p : Tok) (t : Tok) (ks : List Tok) (c : List Byte)
    (tab : List (List Byte)) (h : exprGen C e g.tab = some (c, tab)) (ht : t = tRp) :
    ∃ p', Gets (fun F => (cst C k g o p (e.flat ++ t :: ks)).expr C.P F) (cst C k { g with tab := tab } (o ++ c) p' (t :: ks)) := by
  unfold exprGen at h
  rw [req_bind] at h
  obtain ⟨⟨hr, hl⟩, h⟩ := h
  have hc : (e.code C.dbl g.tab).1 = c ∧ (e.code C.dbl g.tab).2 = tab := by
    have := Option.some.inj h
    rw [this]; exact ⟨rfl, rfl⟩
  subst ht
  obtain ⟨F0, hF⟩ := C42_precedence_partial C.dbl e hr hl tRp ks (by decide) (by decide) (by decide) (by decide) p o g.tab []
  have hs : (cst C k g o p (e.flat ++ tRp :: ks)).toPSt = psAt p (e.flat ++ tRp :: ks) o g.tab [] := by
    obtain ⟨x, xs, hx, _⟩ := flat_head e hl
    rw [hx]; rfl
  obtain ⟨last, hlast⟩ := hF F0 (Nat.le_refl _)
  refine ⟨last, F0, fun F hFF => ?_⟩
  have hsame : ∀ n, parseExpr C.dbl (F0 + n) (psAt p (e.flat ++ tRp :: ks) o g.tab []) =
      parseExpr C.dbl F0 (psAt p (e.flat ++ tRp :: ks) o g.tab []) := by
    intro n
    induction n with
    | zero => rfl
    | succ n ih =>
      rcases (expr_more C.dbl (F0 + n)).1 1 (psAt p (e.flat ++ tRp :: ks) o g.tab []) with q | q
      · have : parseExpr C.dbl (F0 + n) (psAt p (e.flat ++ tRp :: ks) o g.tab []) = .stuck := q
        rw [ih, hlast] at this
        cases this
      · exact q.symm.trans ih
  obtain ⟨n, rfl⟩ : ∃ n, F = F0 + n := ⟨F - F0, by omega⟩
  unfold CSt.expr
  rw [hs]
  show (match parseExpr C.dbl (F0 + n) _ with
    | .ok _ q => CRes.ok { cst C k g o p (e.flat ++ tRp :: ks) with toPSt := q }
    | .ub => .ub
    | .stuck => .stuck) = _
  rw [hsame, hlast]
  dsimp only
  rw [hc.1, hc.2]
  rfl

/-! ### Decorators -/

theorem called_shape (name : List Byte) (args ks : List Tok) :
    called name args ++ ks = tAt :: tId name :: tLp :: (args ++ tRp :: ks) := by
  simp [called]

/-- A decorator with arguments: what is between the parentheses decides. -/
theorem decOne_called (C : Ctx) (k : Bool × Nat) (g g' : Gen) (o o' : List Byte) (a a' : Dec) (p : Tok) (n : List Byte) (args ks : List Tok)
    (hn : n ∉ [s_big_endian, s_be, s_little_endian, s_le, s_fill, s_crc_refin, s_crc_refout, s_optional, s_eof])
    (hne : NoErr (args ++ tRp :: ks))
    (h : ∃ p', Gets (fun F => decArgs C.P F (tId n) a (cst C k g o tLp (args ++ tRp :: ks))) (a', cst C k g' o' p' (tRp :: ks))) :
    ∃ p', Gets (fun F => decOne C.P F a (cst C k g o p (tId n :: tLp :: (args ++ tRp :: ks)))) (a', cst C k g' o' p' ks) := by
  obtain ⟨p', h⟩ := h
  refine ⟨tRp, ?_⟩
  have hk : NoErr ks := by simp at hne; exact hne.2
  refine (Gets.bind (q := fun _ r => .ok (r.1, r.2.eat .rparen)) h (b := (a', cst C k g' o' tRp ks)) ?_).of_eq ?_
  · refine (Gets.const _).of_eq fun F => ?_
    dsimp only
    rw [cst_eat .rparen rfl hk]
  · intro F
    simp only [List.mem_cons, List.not_mem_nil, or_false, not_or] at hn
    unfold decOne
    simp only [cst_cur, Tok.isWord, tId_type, tId_text, true_and, hn, decide_false, Bool.false_eq_true, or_self, if_false]
    rw [cst_eat .identifier rfl (by simpa using hne), cst_eat .lparen rfl hne]

/-- `decArgs` on a word: skip the tests for other words. -/
macro "args" : tactic => `(tactic| (
  unfold decArgs
  try simp only [cst_cur]
  repeat branch))

theorem polyLoop_gets (C : Ctx) (k : Bool × Nat) (g : Gen) (o : List Byte) (p : Tok) (c : List Byte) (cs : List (List Byte)) (acc : List Word)
    (ks : List Tok) (hlen : acc.length + (cs.length + 1) ≤ 16)
    (hne : NoErr (commas ((c :: cs).map fun n => [tNum n]) ++ tRp :: ks)) :
    ∃ p', Gets (fun F => polyLoop C.P F acc (cst C k g o p (commas ((c :: cs).map fun n => [tNum n]) ++ tRp :: ks)))
      (acc ++ (c :: cs).map C.dbl, cst C k g o p' (tRp :: ks)) := by
  induction cs generalizing c acc p with
  | nil =>
    refine ⟨tNum c, (Gets.const _).succ fun F => ?_⟩
    simp only [List.map_cons, List.map_nil, commas, List.singleton_append] at hne ⊢
    unfold polyLoop
    simp only [cst_cur, tNum_type, if_true]
    have hacc : acc.length < 16 := by simp at hlen; omega
    rw [cst_adv (by simpa using hne)]
    simp only [hacc, if_true]
    simp only [cst_cur, tRp_type, reduceCtorEq, if_false, tNum_text]
    rfl
  | cons d ds ih =>
    have e : commas ((c :: d :: ds).map fun n => [tNum n]) ++ tRp :: ks =
        tNum c :: tComma :: (commas ((d :: ds).map fun n => [tNum n]) ++ tRp :: ks) := by simp [commas]
    rw [e] at hne ⊢
    have hne2 : NoErr (commas ((d :: ds).map fun n => [tNum n]) ++ tRp :: ks) := by
      rw [NoErr_cons, NoErr_cons] at hne; exact hne.2.2
    obtain ⟨p', h⟩ := ih tComma d (acc ++ [C.dbl c]) (by simp at hlen ⊢; omega) hne2
    refine ⟨p', ?_⟩
    have e2 : acc ++ (c :: d :: ds).map C.dbl = acc ++ [C.dbl c] ++ (d :: ds).map C.dbl := by simp
    rw [e2]
    refine h.succ fun F => ?_
    conv => lhs; unfold polyLoop
    simp only [cst_cur, tNum_type, if_true]
    have hacc : acc.length < 16 := by simp at hlen; omega
    rw [cst_adv (by rw [NoErr_cons] at hne; exact hne.2)]
    simp only [hacc, if_true]
    simp only [cst_cur, tComma_type, if_true, tNum_text]
    rw [cst_adv hne2]
    rfl

theorem splineLoop_gets (C : Ctx) (k : Bool × Nat) (g : Gen) (o : List Byte) (p : Tok) (c : List Byte × List Byte) (cs : List (List Byte × List Byte))
    (acc : List Word) (ks : List Tok) (hlen : acc.length + 2 * (cs.length + 1) ≤ 32)
    (hne : NoErr (commas ((c :: cs).map fun q => [tNum q.1, tComma, tNum q.2]) ++ tRp :: ks)) :
    ∃ p', Gets (fun F => splineLoop C.P F acc (cst C k g o p (commas ((c :: cs).map fun q => [tNum q.1, tComma, tNum q.2]) ++ tRp :: ks)))
      (acc ++ (c :: cs).flatMap (fun q => [C.dbl q.1, C.dbl q.2]), cst C k g o p' (tRp :: ks)) := by
  induction cs generalizing c acc p with
  | nil =>
    refine ⟨tNum c.2, (Gets.const _).succ fun F => ?_⟩
    simp only [List.map_cons, List.map_nil, commas, List.cons_append, List.nil_append] at hne ⊢
    have hks : NoErr ks := by simp at hne; exact hne
    unfold splineLoop
    simp only [cst_cur, tNum_type, if_true]
    have hacc : acc.length < 32 := by simp at hlen; omega
    simp only [hacc, if_true]
    rw [cst_adv (by simpa using hks), cst_eat .comma rfl (by simpa using hks)]
    simp only [cst_cur]
    rw [cst_eat .number rfl (by simpa using hks)]
    simp only [cst_cur, tRp_type, reduceCtorEq, if_false, tNum_text]
    rfl
  | cons d ds ih =>
    have e : commas ((c :: d :: ds).map fun q => [tNum q.1, tComma, tNum q.2]) ++ tRp :: ks =
        tNum c.1 :: tComma :: tNum c.2 :: tComma :: (commas ((d :: ds).map fun q => [tNum q.1, tComma, tNum q.2]) ++ tRp :: ks) := by
      simp [commas]
    rw [e] at hne ⊢
    have hne2 : NoErr (commas ((d :: ds).map fun q => [tNum q.1, tComma, tNum q.2]) ++ tRp :: ks) := by
      rw [NoErr_cons, NoErr_cons, NoErr_cons, NoErr_cons] at hne; exact hne.2.2.2.2
    obtain ⟨p', h⟩ := ih tComma d (acc ++ [C.dbl c.1, C.dbl c.2]) (by simp at hlen ⊢; omega) hne2
    refine ⟨p', ?_⟩
    have e2 : acc ++ (c :: d :: ds).flatMap (fun q => [C.dbl q.1, C.dbl q.2]) =
        acc ++ [C.dbl c.1, C.dbl c.2] ++ (d :: ds).flatMap (fun q => [C.dbl q.1, C.dbl q.2]) := by simp
    rw [e2]
    refine h.succ fun F => ?_
    conv => lhs; unfold splineLoop
    simp only [cst_cur, tNum_type, if_true]
    have hacc : acc.length < 32 := by simp at hlen; omega
    simp only [hacc, if_true]
    rw [cst_adv (by rw [NoErr_cons] at hne; exact hne.2),
      cst_eat .comma rfl (by rw [NoErr_cons, NoErr_cons] at hne; exact hne.2.2)]
    simp only [cst_cur]
    rw [cst_eat .number rfl (by rw [NoErr_cons, NoErr_cons, NoErr_cons] at hne; exact hne.2.2.2)]
    simp only [cst_cur, tComma_type, if_true, tNum_text]
    rw [cst_adv hne2]
    rfl

theorem ofNat_add_bits (b : Nat) (n : BitVec 32) : BitVec.ofNat 32 b + n = BitVec.ofNat 32 (b + n.toNat) := by
  apply BitVec.eq_of_toNat_eq
  simp

/-- A decorator with a number between parentheses. -/
theorem deco_number (C : Ctx) (k : Bool × Nat) (g g' : Gen) (o c : List Byte) (a a' : Dec) (p : Tok) (w n : List Byte) (ks : List Tok)
    (hw : w ∉ [s_big_endian, s_be, s_little_endian, s_le, s_fill, s_crc_refin, s_crc_refout, s_optional, s_eof])
    (hne : NoErr ks)
    (h : ∀ F, decArgs C.P F (tId w) a (cst C k g o tLp (tNum n :: tRp :: ks)) = .ok (a', cst C k g' (o ++ c) (tNum n) (tRp :: ks))) :
    ∃ p', Gets (fun F => decOne C.P F a (cst C k g o p ((called w [tNum n]).tail ++ ks))) (a', cst C k g' (o ++ c) p' ks) := by
  have := decOne_called C k g g' o (o ++ c) a a' p w [tNum n] ks hw (by simpa using hne)
    ⟨tNum n, (Gets.const _).of_eq h⟩
  simpa [called] using this

/-- A decorator without arguments. -/
theorem deco_plain (C : Ctx) (k : Bool × Nat) (g : Gen) (o c : List Byte) (a a' : Dec) (p : Tok) (w : List Byte) (ks : List Tok)
    (h : ∀ F, decOne C.P F a (cst C k g o p (tId w :: ks)) = .ok (a', cst C k g (o ++ c) (tId w) ks)) :
    ∃ p', Gets (fun F => decOne C.P F a (cst C k g o p (tId w :: ks))) (a', cst C k g (o ++ c) p' ks) :=
  ⟨tId w, (Gets.const _).of_eq h⟩

theorem deco_step (C : Ctx) (k : Bool × Nat) (x : Deco) (g g' : Gen) (o c : List Byte) (a a' : Dec) (p : Tok) (ks : List Tok)
    (h : x.gen C a g = some (c, a', g')) (hne : NoErr (x.toks ++ ks)) (hlp : (ks.headD eofTok).type ≠ .lparen) :
    ∃ p', Gets (fun F => decOne C.P F a (cst C k g o p (x.toks.tail ++ ks))) (a', cst C k g' (o ++ c) p' ks) := by
  have hks : NoErr ks := by rw [NoErr_append] at hne; exact hne.2
  cases x with
  | be long =>
    obtain ⟨rfl, rfl, rfl⟩ : [] = c ∧ { a with be := true } = a' ∧ g = g' := by simpa [Deco.gen] using h
    refine deco_plain C k g o [] a _ p _ ks fun F => ?_
    unfold decOne
    simp only [cst_cur]
    cases long <;> branch <;> (rw [cst_eat .identifier rfl hks]; simp)
  | le long =>
    obtain ⟨rfl, rfl, rfl⟩ : [] = c ∧ { a with be := false } = a' ∧ g = g' := by simpa [Deco.gen] using h
    refine deco_plain C k g o [] a _ p _ ks fun F => ?_
    unfold decOne
    simp only [cst_cur]
    cases long <;> branch <;> branch <;> (rw [cst_eat .identifier rfl hks]; simp)
  | optional =>
    obtain ⟨rfl, rfl, rfl⟩ : [0x4A] = c ∧ a = a' ∧ g = g' := by simpa [Deco.gen] using h
    refine deco_plain C k g o _ a _ p _ ks fun F => ?_
    unfold decOne
    simp only [cst_cur]
    repeat branch
    rw [cst_eat .identifier rfl hks]; simp
  | eof =>
    obtain ⟨rfl, rfl, rfl⟩ : [] = c ∧ { a with eof := true } = a' ∧ g = g' := by simpa [Deco.gen] using h
    refine deco_plain C k g o _ a _ p _ ks fun F => ?_
    unfold decOne
    simp only [cst_cur]
    repeat branch
    rw [cst_eat .identifier rfl hks]; simp
  | refin =>
    obtain ⟨rfl, rfl, rfl⟩ : [] = c ∧ { a with crcFlags := a.crcFlags ||| 1 } = a' ∧ g = g' := by simpa [Deco.gen] using h
    refine deco_plain C k g o _ a _ p _ ks fun F => ?_
    unfold decOne
    simp only [cst_cur]
    repeat branch
    rw [cst_eat .identifier rfl hks]; simp
  | refout =>
    obtain ⟨rfl, rfl, rfl⟩ : [] = c ∧ { a with crcFlags := a.crcFlags ||| 2 } = a' ∧ g = g' := by simpa [Deco.gen] using h
    refine deco_plain C k g o _ a _ p _ ks fun F => ?_
    unfold decOne
    simp only [cst_cur]
    repeat branch
    rw [cst_eat .identifier rfl hks]; simp
  | fill v =>
    unfold Deco.gen at h
    dsimp only at h
    rw [req_bind] at h
    obtain ⟨hb, h⟩ := h
    have hbit : ∀ (b : Byte) (p' : Tok), (if (cst C k g (o ++ [0x24, b]) p' ks).inBit ∧ (cst C k g (o ++ [0x24, b]) p' ks).bitValid then
        { cst C k g (o ++ [0x24, b]) p' ks with bitCount := 0 } else cst C k g (o ++ [0x24, b]) p' ks) =
        cst C k (if C.inBit then { g with bits := 0 } else g) (o ++ [0x24, b]) p' ks := by
      intro b p'
      by_cases hB : C.inBit
      · rw [if_pos ⟨hB, hB⟩, if_pos hB]; simp [cst, hB]
      · rw [if_neg (fun h => hB h.1), if_neg hB]
    cases v with
    | none =>
      simp only [Option.some.injEq, Prod.mk.injEq] at h
      obtain ⟨rfl, rfl, rfl⟩ := h
      refine ⟨tId (word "fill"), (Gets.const _).of_eq fun F => ?_⟩
      unfold decOne
      simp only [Deco.toks, List.tail_cons, List.singleton_append, cst_cur]
      repeat branch
      rw [cst_eat .identifier rfl hks]
      unfold decFill
      have hlp' : (cst C k g o (tId (word "fill")) ks).cur.type ≠ .lparen := hlp
      simp only [hlp', if_false, cst_put]
      rw [hbit]
    | some n =>
      simp only [Option.some.injEq, Prod.mk.injEq] at h
      obtain ⟨rfl, rfl, rfl⟩ := h
      refine ⟨tRp, (Gets.const _).of_eq fun F => ?_⟩
      unfold decOne
      simp only [Deco.toks, called, List.tail_cons, List.cons_append, List.nil_append, cst_cur]
      repeat branch
      rw [cst_eat .identifier rfl (by simpa using hks)]
      unfold decFill
      simp only [cst_cur, tLp_type, if_true, CSt.number]
      rw [cst_adv (by simpa using hks)]
      simp only [cst_cur, tNum_text]
      rw [cst_eat .number rfl (by simpa using hks)]
      have hb' : ¬ ((parseU32 n).setWidth 8 : Byte).toNat > 1 := by
        dsimp only at hb
        rcases hb with hb | hb <;> (rw [hb]; decide)
      simp only [hb', decide_false, cst_errIf, cst_eat .rparen tRp_type hks, cst_put]
      rw [hbit]
  | count long n =>
    obtain ⟨rfl, rfl, rfl⟩ : [] = c ∧ { a with count := some (parseU32 n) } = a' ∧ g = g' := by simpa [Deco.gen] using h
    cases long <;>
    · refine deco_number C k g g o [] a _ p _ n ks (by decide) hks fun F => ?_
      args
      rw [cst_adv (by simpa using hks)]
      simp
  | countOf long n =>
    obtain ⟨rfl, rfl, rfl⟩ : [] = c ∧ { a with ref := some (strtabAdd g.tab n).2 } = a' ∧ { g with tab := (strtabAdd g.tab n).1 } = g' := by
      simpa [Deco.gen] using h
    have := fun w hw hh => decOne_called C k g { g with tab := (strtabAdd g.tab n).1 } o o a { a with ref := some (strtabAdd g.tab n).2 }
      p w [tId n] ks hw (by simpa using hks) hh
    cases long <;>
    · simp only [Deco.toks, called_shape, List.append_nil]
      refine this _ (by decide) ⟨tId n, (Gets.const _).of_eq fun F => ?_⟩
      args
      simp only [List.singleton_append]
      rw [cst_adv (by simpa using hks)]
      simp
  | const long n =>
    simp only [Deco.gen, bind_some, Option.some.injEq, Prod.mk.injEq] at h
    obtain ⟨v, hv, rfl, rfl, rfl⟩ := h
    cases long <;>
    · refine deco_number C k g g o [] a _ p _ n ks (by decide) hks fun F => ?_
      args
      simp only [CSt.number, cst_cur, tNum_text, hv]
      rw [cst_eat .number rfl (by simpa using hks)]
      simp
  | pad n =>
    simp only [Deco.gen, Option.some.injEq, Prod.mk.injEq] at h
    obtain ⟨rfl, rfl, rfl⟩ := h
    refine deco_number C k g _ o _ a _ p _ n ks (by decide) hks fun F => ?_
    args
    simp only [CSt.number, cst_cur, tNum_text, cst_eat .number (tNum_type n) (show NoErr (tRp :: ks) by simpa using hks)]
    by_cases hB : C.inBit
    · simp only [cst_put, cst_inBit, cst_bitValid, hB, if_true, and_self, CRes.ok.injEq, Prod.mk.injEq, true_and]
      unfold cst
      dsimp only
      rw [hB, if_pos rfl, if_pos rfl, ofNat_add_bits]
    · simp [hB]
  | range lo hi =>
    obtain ⟨rfl, rfl, rfl⟩ : [] = c ∧ { a with range := some (tNum lo, tNum hi) } = a' ∧ g = g' := by simpa [Deco.gen] using h
    have := decOne_called C k g g o o a { a with range := some (tNum lo, tNum hi) } p (word "range") [tNum lo, tComma, tNum hi] ks
      (by decide) (by simpa using hks) ⟨tNum hi, (Gets.const _).of_eq fun F => ?_⟩
    · simpa [Deco.toks, called] using this
    · args
      simp only [List.cons_append, List.nil_append, cst_cur]
      rw [cst_eat .number rfl (by simpa using hks), cst_eat .comma rfl (by simpa using hks)]
      simp only [cst_cur]
      rw [cst_eat .number rfl (by simpa using hks)]
  | crc n =>
    simp only [Deco.gen] at h
    refine deco_number C k g g' o c a a' p _ n ks (by decide) hks fun F => ?_
    args
    simp only [CSt.number, cst_cur, tNum_text]
    rw [cst_eat .number rfl (by simpa using hks)]
    split at h
    · next h16 =>
      simp only [Option.some.injEq, Prod.mk.injEq] at h
      obtain ⟨rfl, rfl, rfl⟩ := h
      simp [h16]
    · next h16 =>
      split at h
      · next h32 =>
        simp only [Option.some.injEq, Prod.mk.injEq] at h
        obtain ⟨rfl, rfl, rfl⟩ := h
        simp [h32]
      · cases h
  | crcPoly n =>
    simp only [Deco.gen, Option.some.injEq, Prod.mk.injEq] at h
    obtain ⟨rfl, rfl, rfl⟩ := h
    refine deco_number C k g g o [] a _ p _ n ks (by decide) hks fun F => ?_
    args
    simp only [CSt.number, cst_cur, tNum_text]
    rw [cst_eat .number rfl (by simpa using hks)]
    simp
  | crcInit n =>
    simp only [Deco.gen, Option.some.injEq, Prod.mk.injEq] at h
    obtain ⟨rfl, rfl, rfl⟩ := h
    refine deco_number C k g g o [] a _ p _ n ks (by decide) hks fun F => ?_
    args
    simp only [CSt.number, cst_cur, tNum_text]
    rw [cst_eat .number rfl (by simpa using hks)]
    simp
  | crcXor n =>
    simp only [Deco.gen, Option.some.injEq, Prod.mk.injEq] at h
    obtain ⟨rfl, rfl, rfl⟩ := h
    refine deco_number C k g g o [] a _ p _ n ks (by decide) hks fun F => ?_
    args
    simp only [CSt.number, cst_cur, tNum_text]
    rw [cst_eat .number rfl (by simpa using hks)]
    simp
  | scale n =>
    simp only [Deco.gen, Option.some.injEq, Prod.mk.injEq] at h
    obtain ⟨rfl, rfl, rfl⟩ := h
    refine deco_number C k g g o [] a _ p _ n ks (by decide) hks fun F => ?_
    args
    simp only [CSt.number, cst_cur, tNum_text]
    rw [cst_eat .number rfl (by simpa using hks)]
    simp [Ctx.P]
  | offset n =>
    simp only [Deco.gen, Option.some.injEq, Prod.mk.injEq] at h
    obtain ⟨rfl, rfl, rfl⟩ := h
    refine deco_number C k g g o [] a _ p _ n ks (by decide) hks fun F => ?_
    args
    simp only [CSt.number, cst_cur, tNum_text]
    rw [cst_eat .number rfl (by simpa using hks)]
    by_cases hs : a.trans = .scale <;> simp [Ctx.P, hs]
  | mul n =>
    simp only [Deco.gen, bind_some, Option.some.injEq, Prod.mk.injEq] at h
    obtain ⟨v, hv, rfl, rfl, rfl⟩ := h
    refine deco_number C k g g o [] a _ p _ n ks (by decide) hks fun F => ?_
    args
    unfold decInt
    simp only [CSt.number, cst_cur, tNum_text, hv]
    rw [cst_eat .number rfl (by simpa using hks)]
    simp
  | div n =>
    simp only [Deco.gen, bind_some, Option.some.injEq, Prod.mk.injEq] at h
    obtain ⟨v, hv, rfl, rfl, rfl⟩ := h
    refine deco_number C k g g o [] a _ p _ n ks (by decide) hks fun F => ?_
    args
    unfold decInt
    simp only [CSt.number, cst_cur, tNum_text, hv]
    rw [cst_eat .number rfl (by simpa using hks)]
    simp
  | add n =>
    simp only [Deco.gen, bind_some, Option.some.injEq, Prod.mk.injEq] at h
    obtain ⟨v, hv, rfl, rfl, rfl⟩ := h
    refine deco_number C k g g o [] a _ p _ n ks (by decide) hks fun F => ?_
    args
    unfold decInt
    simp only [CSt.number, cst_cur, tNum_text, hv]
    rw [cst_eat .number rfl (by simpa using hks)]
    simp
  | sub n =>
    simp only [Deco.gen, bind_some, Option.some.injEq, Prod.mk.injEq] at h
    obtain ⟨v, hv, rfl, rfl, rfl⟩ := h
    refine deco_number C k g g o [] a _ p _ n ks (by decide) hks fun F => ?_
    args
    unfold decInt
    simp only [CSt.number, cst_cur, tNum_text, hv]
    rw [cst_eat .number rfl (by simpa using hks)]
    simp
  | poly x xs =>
    simp only [Deco.gen, req_bind, Option.some.injEq, Prod.mk.injEq] at h
    obtain ⟨hlen, rfl, rfl, rfl⟩ := h
    simp only [Deco.toks] at hne ⊢
    rw [called_shape] at hne
    have hne' : NoErr (commas ((x :: xs).map fun n => [tNum n]) ++ tRp :: ks) := by
      rw [NoErr_cons, NoErr_cons, NoErr_cons] at hne; exact hne.2.2.2
    obtain ⟨p', hp⟩ := polyLoop_gets C k g o tLp x xs a.poly ks (by simpa using hlen) hne'
    have := decOne_called C k g g o o a _ p (word "poly") (commas ((x :: xs).map fun n => [tNum n])) ks (by decide) hne'
      ⟨p', (Gets.bind (q := fun _ r => .ok ({ a with trans := .poly, poly := r.1 }, r.2)) hp (Gets.const _)).of_eq fun F => by args; rfl⟩
    simpa [called] using this
  | spline x xs =>
    simp only [Deco.gen, req_bind, Option.some.injEq, Prod.mk.injEq] at h
    obtain ⟨hlen, rfl, rfl, rfl⟩ := h
    simp only [Deco.toks] at hne ⊢
    rw [called_shape] at hne
    have hne' : NoErr (commas ((x :: xs).map fun q => [tNum q.1, tComma, tNum q.2]) ++ tRp :: ks) := by
      rw [NoErr_cons, NoErr_cons, NoErr_cons] at hne; exact hne.2.2.2
    have hl2 : a.spline.length + 2 * (xs.length + 1) ≤ 32 := by
      have e : ∀ l : List (List Byte × List Byte), (l.flatMap fun q => [C.dbl q.1, C.dbl q.2]).length = 2 * l.length := by
        intro l
        induction l with
        | nil => rfl
        | cons y ys ih => simp only [List.flatMap_cons, List.length_append, List.length_cons, List.length_nil, ih]; omega
      rw [List.length_append, e] at hlen
      exact hlen
    obtain ⟨p', hp⟩ := splineLoop_gets C k g o tLp x xs a.spline ks hl2 hne'
    have := decOne_called C k g g o o a _ p (word "spline") (commas ((x :: xs).map fun q => [tNum q.1, tComma, tNum q.2])) ks (by decide) hne'
      ⟨p', (Gets.bind (q := fun _ r => .ok ({ a with trans := .spline, spline := r.1 }, r.2)) hp (Gets.const _)).of_eq fun F => by args; rfl⟩
    simpa [called] using this
  | expr e =>
    simp only [Deco.gen, bind_some, Option.some.injEq, Prod.mk.injEq] at h
    obtain ⟨⟨cc, tab⟩, he, rfl, rfl, rfl⟩ := h
    simp only [Deco.toks] at hne ⊢
    rw [called_shape] at hne
    have hne' : NoErr (e.flat ++ tRp :: ks) := by
      rw [NoErr_cons, NoErr_cons, NoErr_cons] at hne; exact hne.2.2.2
    obtain ⟨p', hp⟩ := expr_gets C k e g o tLp tRp ks cc tab he rfl
    have := decOne_called C k g { g with tab := tab } o (o ++ cc) a { a with expr := true } p (word "expr") e.flat ks (by decide) hne'
      ⟨p', (Gets.bind (q := fun _ r => .ok ({ a with expr := true }, r)) hp (Gets.const _)).of_eq fun F => by args; rfl⟩
    simpa [called] using this

theorem decos_step (C : Ctx) (k : Bool × Nat) (xs : List Deco) (g g' : Gen) (o c : List Byte) (a a' : Dec) (p : Tok) (ks : List Tok)
    (h : decosGen C xs a g = some (c, a', g')) (hne : NoErr (xs.flatMap Deco.toks ++ ks))
    (hlp : (ks.headD eofTok).type ≠ .lparen) (hat : (ks.headD eofTok).type ≠ .at) :
    ∃ p', Gets (fun F => decLoopS C.P F a (cst C k g o p (xs.flatMap Deco.toks ++ ks))) (a', cst C k g' (o ++ c) p' ks) := by
  induction xs generalizing g o a p c with
  | nil =>
    obtain ⟨rfl, rfl, rfl⟩ : [] = c ∧ a = a' ∧ g = g' := by simpa [decosGen] using h
    refine ⟨p, (Gets.const _).succ fun F => ?_⟩
    unfold decLoopS
    simp only [List.flatMap_nil, List.nil_append]
    rw [if_neg (show (cst C k g o p ks).cur.type ≠ .at from hat)]
    simp
  | cons x xs ih =>
    simp only [decosGen, bind_some, Option.some.injEq, Prod.mk.injEq] at h
    obtain ⟨⟨c1, a1, g1⟩, h1, ⟨c2, a2, g2⟩, h2, rfl, h3⟩ := h
    cases h3
    have hx : ∃ w ts, x.toks = tAt :: tId w :: ts := by
      cases x with
      | fill v => cases v <;> exact ⟨_, _, rfl⟩
      | _ => exact ⟨_, _, rfl⟩
    obtain ⟨w, ts, hx⟩ := hx
    have hhead : ((xs.flatMap Deco.toks ++ ks).headD eofTok).type ≠ .lparen := by
      cases xs with
      | nil => exact hlp
      | cons y ys =>
        cases y with
        | fill v => cases v <;> exact (by decide : TT.at ≠ .lparen)
        | _ => exact (by decide : TT.at ≠ .lparen)
    have e : (x :: xs).flatMap Deco.toks ++ ks = x.toks ++ (xs.flatMap Deco.toks ++ ks) := by simp
    rw [e] at hne ⊢
    have hne2 : NoErr (xs.flatMap Deco.toks ++ ks) := by rw [NoErr_append] at hne; exact hne.2
    obtain ⟨p1, q1⟩ := deco_step C k x g g1 o c1 a a1 tAt (xs.flatMap Deco.toks ++ ks) h1 hne hhead
    obtain ⟨p2, q2⟩ := ih g1 (o ++ c1) c2 a1 p1 h2 hne2
    refine ⟨p2, ?_⟩
    dsimp only
    rw [← List.append_assoc o c1 c2]
    refine (q1.bind (q := fun F r => decLoopS C.P F r.1 r.2) q2).succ fun F => ?_
    conv => lhs; unfold decLoopS
    rw [hx] at hne ⊢
    simp only [List.cons_append, cst_cur, tAt_type, if_true, List.tail_cons]
    rw [cst_adv (by simpa using hne)]

end Cnd
