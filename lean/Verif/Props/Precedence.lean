/-
  C42: operator precedence and associativity of expressions.
-/
import Verif.ExprParse
import Verif.Props.Expr

namespace Cnd

/-! ### Specification -/

/-- The binary operators by precedence, weakest first. -/
def levels : List (List TT) :=
  [[.pipePipe], [.ampAmp], [.pipe], [.caret], [.amp], [.eqEq, .bangEq], [.lt, .gt, .ltEq, .gtEq], [.lshift, .rshift],
   [.plus, .minus], [.star, .slash, .percent]]

/-- Position in the table, counted from 1; 0 for tokens that are not binary operators. -/
def opLevel (t : TT) : Nat :=
  match levels.findIdx? (t ∈ ·) with
  | some i => i + 1
  | none => 0

/-- Expression trees over tokens. A leaf is a literal, `self`, or a field name, possibly with members
(pairs of a dot and an identifier). The last two are what the compiler takes for parentheses and unary operators: it skips the
token `x` behind them (finding 19, C75). They are not part of the language. -/
inductive ETree
  | leaf (first : Tok) (subs : List (Tok × Tok))
  | node (l : ETree) (op : Tok) (r : ETree)
  | call (f lp : Tok) (a : ETree) (rp : Tok)
  | call2 (f lp : Tok) (a : ETree) (comma : Tok) (b : ETree) (rp : Tok)
  | paren (lp x : Tok) (a : ETree) (rp : Tok)
  | unary (u x : Tok) (a : ETree)

def subToks (subs : List (Tok × Tok)) : List Tok := subs.flatMap fun p => [p.1, p.2]

/-- The tokens of an expression from left to right. -/
def ETree.flat : ETree → List Tok
  | .leaf first subs => first :: subToks subs
  | .node l op r => l.flat ++ op :: r.flat
  | .call f lp a rp => f :: lp :: (a.flat ++ [rp])
  | .call2 f lp a comma b rp => f :: lp :: (a.flat ++ comma :: (b.flat ++ [rp]))
  | .paren lp x a rp => lp :: x :: (a.flat ++ [rp])
  | .unary u x a => u :: x :: a.flat

/-- Level of the outermost operator; everything else binds strongest. -/
def ETree.root : ETree → Nat
  | .node _ op _ => opLevel op.type
  | _ => 12

/-- The tree respects precedence and left associativity: the left operand of an operator binds at least as
strongly as the operator, the right operand more strongly. -/
def ETree.Respects : ETree → Prop
  | .leaf _ _ => True
  | .node l op r => 0 < opLevel op.type ∧ opLevel op.type ≤ l.root ∧ opLevel op.type < r.root ∧ l.Respects ∧ r.Respects
  | .call _ _ a _ => a.Respects
  | .call2 _ _ a _ b _ => a.Respects ∧ b.Respects
  | .paren _ _ a _ => a.Respects
  | .unary _ _ a => a.root = 12 ∧ a.Respects

/-- The full name of a field with members. -/
def fullName (first : Tok) (subs : List (Tok × Tok)) : List Byte :=
  subs.foldl (fun n p => n ++ 0x2E :: p.2.text) first.text

/-- Names of built-in functions: sin cos tan sqrt log abs pow float int. -/
def builtins : List (List Byte) :=
  [[0x73, 0x69, 0x6E], [0x63, 0x6F, 0x73], [0x74, 0x61, 0x6E], [0x73, 0x71, 0x72, 0x74], [0x6C, 0x6F, 0x67],
   [0x61, 0x62, 0x73], [0x70, 0x6F, 0x77], [0x66, 0x6C, 0x6F, 0x61, 0x74], [0x69, 0x6E, 0x74]]

/-- What may be an operand: an integer literal other than −2^63 and without the letter e (as hexadecimal digit), a
literal with a fraction, true, false, self, or a field name that is not a built-in function, of less than 256
bytes if it has members. -/
def LeafOk (first : Tok) (subs : List (Tok × Tok)) : Prop :=
  (subs = [] ∧ first.type = .number ∧
    (0x2E ∈ first.text ∨ ((0x2E : Byte) ∉ first.text ∧ (0x65 : Byte) ∉ first.text ∧ (0x45 : Byte) ∉ first.text ∧ parseI64 first.text ≠ none))) ∨
  (subs = [] ∧ (first.type = .kwTrue ∨ first.type = .kwFalse ∨ first.type = .kwSelf)) ∨
  (first.type = .identifier ∧ first.text ∉ builtins ∧ (∀ p ∈ subs, p.1.type = .dot ∧ p.2.type = .identifier) ∧
    (subs = [] ∨ (fullName first subs).length < 256))

/-- Functions of one argument and their opcodes: sin cos tan sqrt log abs; float and int are conversions. -/
def functions : List (List Byte × Byte) :=
  [([0x73, 0x69, 0x6E], 0x85), ([0x63, 0x6F, 0x73], 0x86), ([0x74, 0x61, 0x6E], 0x87), ([0x73, 0x71, 0x72, 0x74], 0x88), ([0x6C, 0x6F, 0x67], 0x8A),
   ([0x61, 0x62, 0x73], 0x8B), ([0x66, 0x6C, 0x6F, 0x61, 0x74], 0x90), ([0x69, 0x6E, 0x74], 0x91)]

/-- A function name and the parentheses of its arguments. -/
def CallOk (f lp rp : Tok) : Prop :=
  f.type = .identifier ∧ (functions.lookup f.text).isSome = true ∧ lp.type = .lparen ∧ rp.type = .rparen

/-- `pow`, parentheses and comma. -/
def CallOk2 (f lp comma rp : Tok) : Prop :=
  f.type = .identifier ∧ f.text = [0x70, 0x6F, 0x77] ∧ lp.type = .lparen ∧ comma.type = .comma ∧ rp.type = .rparen

/-- The operands are proper, and there are no parentheses and unary operators. -/
def ETree.LeavesOk : ETree → Prop
  | .leaf first subs => LeafOk first subs
  | .node l _ r => l.LeavesOk ∧ r.LeavesOk
  | .call f lp a rp => CallOk f lp rp ∧ a.LeavesOk
  | .call2 f lp a comma b rp => CallOk2 f lp comma rp ∧ a.LeavesOk ∧ b.LeavesOk
  | .paren _ _ _ _ => False
  | .unary _ _ _ => False

/-- What the compiler takes for a number with a fraction. -/
def fracLit (text : List Byte) : Prop := (0x2E : Byte) ∈ text ∨ (0x65 : Byte) ∈ text ∨ (0x45 : Byte) ∈ text

instance (text : List Byte) : Decidable (fracLit text) := by unfold fracLit; infer_instance

/-- What the compiler takes for an operand. -/
def LeafAcc (first : Tok) (subs : List (Tok × Tok)) : Prop :=
  (subs = [] ∧ first.type = .number ∧ (fracLit first.text ∨ parseI64 first.text ≠ none)) ∨
  (subs = [] ∧ (first.type = .kwTrue ∨ first.type = .kwFalse ∨ first.type = .kwSelf)) ∨
  (first.type = .identifier ∧ first.text ∉ builtins ∧ (∀ p ∈ subs, p.1.type = .dot ∧ p.2.type = .identifier) ∧
    (subs = [] ∨ (fullName first subs).length < 256))

/-- What the compiler takes for an expression: behind a parenthesis and a unary operator, one token is skipped. -/
def ETree.Acc : ETree → Prop
  | .leaf first subs => LeafAcc first subs
  | .node l _ r => l.Acc ∧ r.Acc
  | .call f lp a rp => CallOk f lp rp ∧ a.Acc
  | .call2 f lp a comma b rp => CallOk2 f lp comma rp ∧ a.Acc ∧ b.Acc
  | .paren lp x a rp => lp.type = .lparen ∧ x.type ≠ .error ∧ rp.type = .rparen ∧ a.Acc
  | .unary u x a => (u.type = .minus ∨ u.type = .bang ∨ u.type = .tilde) ∧ x.type ≠ .error ∧ a.Acc

/-- The expression ends with a name, which a dot would continue. -/
def ETree.named : ETree → Bool
  | .leaf first _ => first.type = .identifier
  | .node _ _ r => r.named
  | .unary _ _ a => a.named
  | _ => false

/-- Type of an operand; the compiler does not know the types of fields. -/
def leafTy (first : Tok) : ETy :=
  match first.type with
  | .number => if fracLit first.text then .float else .int
  | .kwTrue | .kwFalse => .int
  | _ => .unk

/-- Code of an operand, and the string table with its name added. -/
def leafCode (dbl : List Byte → Word) (tab : List (List Byte)) (first : Tok) (subs : List (Tok × Tok)) :
    List Byte × List (List Byte) :=
  match first.type with
  | .number =>
    (0x61 :: leBytes 8 (if fracLit first.text then dbl first.text else (parseI64 first.text).getD 0), tab)
  | .kwTrue => (0x61 :: leBytes 8 1, tab)
  | .kwFalse => (0x61 :: leBytes 8 0, tab)
  | .kwSelf => ([0x64], tab)
  | _ => let r := strtabAdd tab (fullName first subs)
    (0x60 :: leBytes 2 (BitVec.ofNat 64 r.2), r.1)

/-- Operators: token, integer opcode, floating-point opcode if there is one, and whether the result of the
floating-point operator is a float. -/
def operators : List (TT × Byte × Option Byte × Bool) :=
  [(.pipePipe, 0x70, none, false), (.ampAmp, 0x6F, none, false), (.pipe, 0xA1, none, false), (.caret, 0xA2, none, false),
   (.amp, 0xA0, none, false), (.eqEq, 0x69, some 0x92, false), (.bangEq, 0x6A, some 0x93, false),
   (.lt, 0x6C, some 0x95, false), (.gt, 0x6B, some 0x94, false), (.ltEq, 0x6E, some 0x97, false),
   (.gtEq, 0x6D, some 0x96, false), (.lshift, 0xA4, none, false), (.rshift, 0xA5, none, false),
   (.plus, 0x72, some 0x80, true), (.minus, 0x73, some 0x81, true), (.star, 0x74, some 0x82, true),
   (.slash, 0x75, some 0x83, true), (.percent, 0x76, none, false)]

/-- Code of an operator, by operand types: conversion if just one operand is a float and the other an integer, then
the opcode. -/
def opCode (op : TT) (l r : ETy) : List Byte :=
  let f : Bool := l = .float ∨ r = .float
  (if f ∧ l = .int then [0x63, 0x90, 0x63] else if f ∧ r = .int then [0x90] else []) ++
  match operators.lookup op with
  | some (i, some g, _) => [if f then g else i]
  | some (i, none, _) => [i]
  | none => []

def opTy (op : TT) (l r : ETy) : ETy :=
  match operators.lookup op with
  | some (_, some _, true) => if l = .float ∨ r = .float then .float else .int
  | _ => .int

/-- Functions take floats: integer arguments are converted. -/
def argCode (t : ETy) : List Byte := if t = .int then [0x90] else []

/-- Code and type of a function of one argument; the conversions `float` and `int` do not convert their argument before. -/
def callCode (name : List Byte) (t : ETy) : List Byte × ETy :=
  match functions.lookup name with
  | some 0x90 => ([0x90], .float)
  | some 0x91 => ([0x91], .int)
  | some op => (argCode t ++ [op], .float)
  | none => ([], .unk)

/-- Code and type of what the compiler takes for a unary operator, by the type of the token it skips. -/
def skipCode (x : TT) (t : ETy) : List Byte × ETy :=
  match x with
  | .bang => ([0x71], .int)
  | .tilde => ([0xA3], .int)
  | .minus => if t = .float then ([0x84], .float) else ([0x77], .int)
  | _ => ([], .unk)

def ETree.ty : ETree → ETy
  | .leaf first _ => leafTy first
  | .node l op r => opTy op.type l.ty r.ty
  | .call f _ a _ => (callCode f.text a.ty).2
  | .call2 _ _ _ _ _ _ => .float
  | .paren _ _ a _ => a.ty
  | .unary _ x a => (skipCode x.type a.ty).2

/-- Postfix code: left operand, right operand, operator; names enter the string table in this order. -/
def ETree.code (dbl : List Byte → Word) (tab : List (List Byte)) : ETree → List Byte × List (List Byte)
  | .leaf first subs => leafCode dbl tab first subs
  | .node l op r =>
    let a := l.code dbl tab
    let b := r.code dbl a.2
    (a.1 ++ b.1 ++ opCode op.type l.ty r.ty, b.2)
  | .call f _ a _ =>
    let r := a.code dbl tab
    (r.1 ++ (callCode f.text a.ty).1, r.2)
  | .call2 _ _ a _ b _ =>
    let r := a.code dbl tab
    let q := b.code dbl r.2
    (r.1 ++ argCode a.ty ++ q.1 ++ argCode b.ty ++ [0x89], q.2)
  | .paren _ _ a _ => a.code dbl tab
  | .unary _ x a =>
    let r := a.code dbl tab
    (r.1 ++ (skipCode x.type a.ty).1, r.2)

/-- Parser state in front of the tokens `ts`. -/
def psAt (prev : Tok) (ts : List Tok) (out : List Byte) (tab : List (List Byte)) (errs : List Nat) : PSt :=
  match ts with
  | [] => ⟨prev, eofTok, [], out, tab, errs⟩
  | c :: cs => ⟨prev, c, cs, out, tab, errs⟩

/-! ### The tables agree -/

theorem rule_level (t : TT) (h : 0 < opLevel t) : ruleOf t = some (if t = .minus then .unary else .none, opLevel t) := by
  cases t <;> first | rfl | exact absurd h (by decide)

theorem binEmit_code (op : TT) (l r : ETy) (h : 0 < opLevel op) : binEmit op l r = (opCode op l r, opTy op l r) := by
  cases op <;> first | exact absurd h (by decide) | (cases l <;> cases r <;> rfl)

theorem op_not_error (t : TT) (h : 0 < opLevel t) : t ≠ .error ∧ t ≠ .dot := by
  cases t <;> first | exact absurd h (by decide) | exact ⟨by simp, by simp⟩

theorem opLevel_le (t : TT) : opLevel t ≤ 10 := by cases t <;> decide

/-! ### Operands -/

theorem advance_at (p c u : Tok) (ts : List Tok) (o : List Byte) (tab : List (List Byte)) (e : List Nat) (h : u.type ≠ .error) :
    (psAt p (c :: u :: ts) o tab e).advance = psAt c (u :: ts) o tab e := by
  unfold psAt PSt.advance
  dsimp only
  unfold pull
  rw [if_neg h]

theorem dotLoop_subs (f : Nat) (subs : List (Tok × Tok)) (name : List Byte) (p k : Tok) (ks : List Tok) (o : List Byte)
    (tab : List (List Byte)) (e : List Nat) (hf : subs.length < f) (hs : ∀ q ∈ subs, q.1.type = .dot ∧ q.2.type = .identifier)
    (hk : k.type ≠ .error) (hk2 : k.type ≠ .dot)
    (hl : (subs.foldl (fun n p => n ++ 0x2E :: p.2.text) name).length < 256) :
    ∃ last, dotLoop f name (psAt p (subToks subs ++ k :: ks) o tab e) =
      some (some (subs.foldl (fun n p => n ++ 0x2E :: p.2.text) name), psAt last (k :: ks) o tab e) := by
  induction subs generalizing f name p with
  | nil =>
    obtain ⟨f, rfl⟩ : ∃ f', f = f' + 1 := ⟨f - 1, by omega⟩
    refine ⟨p, ?_⟩
    unfold dotLoop
    exact if_neg hk2
  | cons q qs ih =>
    obtain ⟨f, rfl⟩ : ∃ f', f = f' + 1 := ⟨f - 1, by omega⟩
    obtain ⟨h1, h2⟩ := hs q (by simp)
    have hmono : ∀ (l : List (Tok × Tok)) (n : List Byte), n.length ≤ (l.foldl (fun n p => n ++ 0x2E :: p.2.text) n).length := by
      intro l
      induction l with
      | nil => intro n; exact Nat.le_refl _
      | cons x xs ih2 =>
        intro n
        refine Nat.le_trans ?_ (ih2 _)
        simp
    have hlen := hmono qs (name ++ 0x2E :: q.2.text)
    have hl' : (qs.foldl (fun n p => n ++ 0x2E :: p.2.text) (name ++ 0x2E :: q.2.text)).length < 256 := hl
    obtain ⟨last, hlast⟩ := ih f (name ++ 0x2E :: q.2.text) q.2 (by simp at hf; omega)
      (fun x hx => hs x (List.mem_cons_of_mem _ hx)) hl
    refine ⟨last, ?_⟩
    have e1 : subToks (q :: qs) ++ k :: ks = q.1 :: q.2 :: (subToks qs ++ k :: ks) := by simp [subToks]
    rw [e1]
    unfold dotLoop
    rw [if_pos (show (psAt p (q.1 :: q.2 :: (subToks qs ++ k :: ks)) o tab e).cur.type = .dot from h1)]
    rw [advance_at _ _ _ _ _ _ _ (by rw [h2]; simp)]
    have e2 : (psAt q.1 (q.2 :: (subToks qs ++ k :: ks)) o tab e).cur = q.2 := rfl
    dsimp only
    rw [e2, if_neg (by rw [List.length_append, List.length_cons] at hlen; omega)]
    have e3 : (psAt q.1 (q.2 :: (subToks qs ++ k :: ks)) o tab e).consume .identifier =
        psAt q.2 (subToks qs ++ k :: ks) o tab e := by
      unfold PSt.consume
      rw [e2, if_pos h2]
      cases qs with
      | nil => exact advance_at _ _ _ _ _ _ _ hk
      | cons x xs =>
        have := hs x (by simp)
        exact advance_at _ _ _ _ _ _ _ (by rw [this.1]; simp)
    rw [e3]
    exact hlast

theorem fun1_lookup (text : List Byte) (h : text ∉ builtins) :
    fun1.lookup text = none ∧ text ≠ powName ∧ text ≠ floatName ∧ text ≠ intName := by
  have key : ∀ p ∈ fun1, p.1 ∈ builtins := by decide +kernel
  refine ⟨?_, ?_, ?_, ?_⟩
  · rw [List.lookup_eq_none_iff]
    intro p hp
    by_cases hpe : text = p.1
    · exact absurd (hpe ▸ key p hp) h
    · simpa using hpe
  · rintro rfl; exact h (by decide)
  · rintro rfl; exact h (by decide)
  · rintro rfl; exact h (by decide)

/-- Parsing an operand: one token (or a name with members) is consumed, its code emitted, and the loop for
operators entered. -/
theorem leaf_parse (dbl : List Byte → Word) (first : Tok) (subs : List (Tok × Tok)) (hok : LeafAcc first subs)
    (prec : Nat) (p k : Tok) (ks : List Tok) (o : List Byte) (tab : List (List Byte)) (e : List Nat)
    (hk : k.type ≠ .error) (hk2 : first.type = .identifier → k.type ≠ .dot) (F : Nat) (hF : subs.length + 1 < F) :
    ∃ last, parsePrec dbl (F + 1) prec (psAt p (first :: (subToks subs ++ k :: ks)) o tab e) =
      infixLoop dbl F prec (leafTy first)
        (psAt last (k :: ks) (o ++ (leafCode dbl tab first subs).1) (leafCode dbl tab first subs).2 e) := by
  obtain ⟨F, rfl⟩ : ∃ f', F = f' + 1 := ⟨F - 1, by omega⟩
  have hadv : (psAt p (first :: (subToks subs ++ k :: ks)) o tab e).advance =
      psAt first (subToks subs ++ k :: ks) o tab e ∨ first.type ≠ .identifier := by
    by_cases hi : first.type = .identifier
    · left
      cases subs with
      | nil => exact advance_at _ _ _ _ _ _ _ hk
      | cons q qs =>
        have h4 : ∀ x ∈ q :: qs, x.1.type = .dot ∧ x.2.type = .identifier := by
          rcases hok with ⟨h, _⟩ | ⟨h, _⟩ | ⟨_, _, h, _⟩
          · cases h
          · cases h
          · exact h
        exact advance_at _ _ _ _ _ _ _ (by rw [(h4 q (by simp)).1]; simp)
    · exact .inr hi
  rcases hok with ⟨rfl, hty, hnum⟩ | ⟨rfl, hty⟩ | ⟨hty, hnb, hsub, hlen⟩
  · refine ⟨first, ?_⟩
    unfold parsePrec
    dsimp only
    rw [show subToks [] ++ k :: ks = k :: ks from rfl, advance_at _ _ _ _ _ _ _ hk]
    have hprev : (psAt first (k :: ks) o tab e).prev = first := rfl
    rw [hprev, hty]
    dsimp only [ruleOf]
    unfold parsePrefix
    dsimp only
    rw [hprev, hty]
    dsimp only
    unfold leafTy leafCode
    rw [hty]
    dsimp only
    have hfl : (isFloatLit first.text = true) = fracLit first.text := by
      unfold isFloatLit fracLit
      rw [List.any_eq_true]
      apply propext
      constructor
      · rintro ⟨c, hc, hc2⟩
        rw [decide_eq_true_eq] at hc2
        rcases hc2 with rfl | rfl | rfl
        · exact .inl hc
        · exact .inr (.inl hc)
        · exact .inr (.inr hc)
      · rintro (h | h | h) <;> exact ⟨_, h, by decide⟩
    by_cases hfr : fracLit first.text
    · rw [if_pos (hfl.symm ▸ hfr), if_pos hfr]
      dsimp only
      rw [if_pos hfr]
      rfl
    · rw [if_neg (fun h => hfr (hfl ▸ h)), if_neg hfr]
      cases hp : parseI64 first.text with
      | none => exact absurd hp (hnum.resolve_left hfr)
      | some w =>
        dsimp only [Option.getD]
        rw [if_neg hfr]
        rfl
  · refine ⟨first, ?_⟩
    unfold parsePrec
    dsimp only
    rw [show subToks [] ++ k :: ks = k :: ks from rfl, advance_at _ _ _ _ _ _ _ hk]
    have hprev : (psAt first (k :: ks) o tab e).prev = first := rfl
    unfold leafTy leafCode
    rcases hty with hty | hty | hty <;>
    · rw [hprev, hty]
      dsimp only [ruleOf]
      unfold parsePrefix
      dsimp only
      rw [hprev, hty]
      rfl
  · obtain ⟨g1, g2, g3, g4⟩ := fun1_lookup first.text hnb
    have hadv' := hadv.resolve_right (fun h => h hty)
    have hprev : ∀ ts, (psAt first ts o tab e).prev = first := by intro ts; cases ts <;> rfl
    have hleaf : leafTy first = .unk := by unfold leafTy; rw [hty]
    have hcode : leafCode dbl tab first subs =
        (0x60 :: leBytes 2 (BitVec.ofNat 64 (strtabAdd tab (fullName first subs)).2), (strtabAdd tab (fullName first subs)).1) := by
      unfold leafCode; rw [hty]
    unfold parsePrec
    dsimp only
    rw [hadv', hprev, hty]
    dsimp only [ruleOf]
    unfold parsePrefix
    dsimp only
    rw [hprev, hty]
    dsimp only
    rw [g1]
    dsimp only
    rw [if_neg g2, if_neg g3, if_neg g4, hleaf, hcode]
    cases subs with
    | nil =>
      refine ⟨first, ?_⟩
      rw [if_neg (show ¬ (psAt first (subToks [] ++ k :: ks) o tab e).cur.type = .dot from hk2 hty)]
      rfl
    | cons q qs =>
      have hl : (fullName first (q :: qs)).length < 256 := by
        rcases hlen with h | h
        · cases h
        · exact h
      obtain ⟨last, hlast⟩ := dotLoop_subs F (q :: qs) first.text first k ks o tab e (by omega) hsub hk (hk2 hty) hl
      refine ⟨last, ?_⟩
      have hq := (hsub q (by simp)).1
      rw [if_pos (show (psAt first (subToks (q :: qs) ++ k :: ks) o tab e).cur.type = .dot from hq)]
      have hlen0 : first.text.length < 256 := by
        have hmono : ∀ (l : List (Tok × Tok)) (n : List Byte), n.length ≤ (l.foldl (fun n p => n ++ 0x2E :: p.2.text) n).length := by
          intro l
          induction l with
          | nil => intro n; exact Nat.le_refl _
          | cons x xs ih2 =>
            intro n
            refine Nat.le_trans ?_ (ih2 _)
            simp
        exact Nat.lt_of_le_of_lt (hmono (q :: qs) first.text) hl
      rw [if_neg (by omega), hlast]
      rfl

/-! ### The theorem -/

theorem leafOk_acc {first : Tok} {subs : List (Tok × Tok)} (h : LeafOk first subs) : LeafAcc first subs := by
  rcases h with ⟨h1, h2, h3⟩ | h | h
  · refine .inl ⟨h1, h2, ?_⟩
    rcases h3 with h3 | h3
    · exact .inl (.inl h3)
    · exact .inr h3.2.2.2
  · exact .inr (.inl h)
  · exact .inr (.inr h)

theorem leavesOk_acc (t : ETree) (h : t.LeavesOk) : t.Acc := by
  induction t with
  | leaf => exact leafOk_acc h
  | node l op r ihl ihr => exact ⟨ihl h.1, ihr h.2⟩
  | call f lp a rp ih => exact ⟨h.1, ih h.2⟩
  | call2 f lp a c b rp iha ihb => exact ⟨h.1, iha h.2.1, ihb h.2.2⟩
  | paren => exact h.elim
  | unary => exact h.elim

theorem acc_head (t : ETree) (h : t.Acc) : ∃ c cs, t.flat = c :: cs ∧ c.type ≠ .error := by
  induction t with
  | leaf first subs =>
    refine ⟨first, subToks subs, rfl, ?_⟩
    rcases h with ⟨_, h, _⟩ | ⟨_, h⟩ | ⟨h, _⟩
    · rw [h]; simp
    · rcases h with h | h | h <;> (rw [h]; simp)
    · rw [h]; simp
  | node a x b iha ihb =>
    obtain ⟨c, cs, hc, he⟩ := iha h.1
    exact ⟨c, cs ++ x :: b.flat, by simp [ETree.flat, hc], he⟩
  | call f lp a rp => exact ⟨f, _, rfl, by rw [h.1.1]; simp⟩
  | call2 f lp a c b rp => exact ⟨f, _, rfl, by rw [h.1.1]; simp⟩
  | paren lp x a rp => exact ⟨lp, _, rfl, by rw [h.1]; simp⟩
  | unary u x a => exact ⟨u, _, rfl, by rcases h.1 with h | h | h <;> (rw [h]; simp)⟩

theorem flat_head (t : ETree) (h : t.LeavesOk) : ∃ c cs, t.flat = c :: cs ∧ c.type ≠ .error := acc_head t (leavesOk_acc t h)

theorem respects_root {t : ETree} (h : t.Respects) : 1 ≤ t.root := by
  cases t <;> first | exact h.1 | (show 1 ≤ 12; decide)

theorem root_le (t : ETree) : t.root ≤ 12 := by
  cases t <;> first | (have := opLevel_le; exact Nat.le_trans (opLevel_le _) (by decide)) | exact Nat.le_refl _

/-- Moving on in front of an expression. -/
theorem advance_tree {t : ETree} (h : t.Acc) (p c k : Tok) (ks : List Tok) (o : List Byte) (tab : List (List Byte)) (e : List Nat) :
    (psAt p (c :: (t.flat ++ k :: ks)) o tab e).advance = psAt c (t.flat ++ k :: ks) o tab e := by
  obtain ⟨x, xs, hx, he⟩ := acc_head t h
  rw [hx]
  exact advance_at _ _ _ _ _ _ _ he

theorem psAt_prev (c : Tok) (ts : List Tok) (o : List Byte) (tab : List (List Byte)) (e : List Nat) : (psAt c ts o tab e).prev = c := by
  cases ts <;> rfl

theorem consume_at (p c u : Tok) (ts : List Tok) (o : List Byte) (tab : List (List Byte)) (e : List Nat) {ty : TT} (hc : c.type = ty) (h : u.type ≠ .error) :
    (psAt p (c :: u :: ts) o tab e).consume ty = psAt c (u :: ts) o tab e := by
  unfold PSt.consume
  rw [show (psAt p (c :: u :: ts) o tab e).cur = c from rfl, if_pos hc, advance_at _ _ _ _ _ _ _ h]

theorem consume_tree {t : ETree} (h : t.Acc) (p c k : Tok) (ks : List Tok) (o : List Byte) (tab : List (List Byte)) (e : List Nat) {ty : TT} (hc : c.type = ty) :
    (psAt p (c :: (t.flat ++ k :: ks)) o tab e).consume ty = psAt c (t.flat ++ k :: ks) o tab e := by
  unfold PSt.consume
  rw [show (psAt p (c :: (t.flat ++ k :: ks)) o tab e).cur = c from rfl, if_pos hc, advance_tree h]

theorem emit_at (p k : Tok) (ks : List Tok) (o b : List Byte) (tab : List (List Byte)) (e : List Nat) :
    (psAt p (k :: ks) o tab e).emit b = psAt p (k :: ks) (o ++ b) tab e := rfl

theorem callCode_cases {name : List Byte} (h : (functions.lookup name).isSome = true) (t : ETy) :
    (∃ op, fun1.lookup name = some op ∧ callCode name t = (argCode t ++ [op], .float)) ∨
    (fun1.lookup name = none ∧ name = floatName ∧ callCode name t = ([0x90], .float)) ∨
    (fun1.lookup name = none ∧ name = intName ∧ callCode name t = ([0x91], .int)) := by
  have key : ∀ p ∈ functions, (functions.lookup p.1).isSome = true := by decide +kernel
  obtain ⟨op, hop⟩ := Option.isSome_iff_exists.1 h
  have hm : name ∈ functions.map (·.1) := by
    rw [List.lookup_eq_some_iff] at hop
    obtain ⟨l1, l2, e, _⟩ := hop
    rw [e]; simp
  simp only [functions, List.map_cons, List.map_nil, List.mem_cons, List.not_mem_nil, or_false] at hm
  rcases hm with rfl | rfl | rfl | rfl | rfl | rfl | rfl | rfl
  · exact .inl ⟨_, rfl, rfl⟩
  · exact .inl ⟨_, rfl, rfl⟩
  · exact .inl ⟨_, rfl, rfl⟩
  · exact .inl ⟨_, rfl, rfl⟩
  · exact .inl ⟨_, rfl, rfl⟩
  · exact .inl ⟨_, rfl, rfl⟩
  · exact .inr (.inl ⟨rfl, rfl, rfl⟩)
  · exact .inr (.inr ⟨rfl, rfl, rfl⟩)

theorem emitArg (t : ETy) (p k : Tok) (ks : List Tok) (o : List Byte) (tab : List (List Byte)) (e : List Nat) :
    (if t = .int then (psAt p (k :: ks) o tab e).emit [0x90] else psAt p (k :: ks) o tab e) = psAt p (k :: ks) (o ++ argCode t) tab e := by
  unfold argCode
  split
  · rfl
  · rw [List.append_nil]

theorem skip_unEmit (x : TT) (t : ETy) : unEmit x t = skipCode x t := by cases x <;> rfl

/-- What tree_parse says about a tree. -/
def Parses (dbl : List Byte → Word) (t : ETree) : Prop :=
  ∀ (prec : Nat), prec ≤ t.root → ∀ (k : Tok) (ks : List Tok), k.type ≠ .error → (t.named = true → k.type ≠ .dot) →
    ∀ (pre : Prefix) (q : Nat), ruleOf k.type = some (pre, q) → q ≤ t.root →
    ∀ (p : Tok) (o : List Byte) (tab : List (List Byte)) (e : List Nat) (f : Nat),
    ∃ F0, ∀ F ≥ F0, ∃ g, g ≥ f ∧ ∃ last, parsePrec dbl F prec (psAt p (t.flat ++ k :: ks) o tab e) =
      infixLoop dbl g prec t.ty (psAt last (k :: ks) (o ++ (t.code dbl tab).1) (t.code dbl tab).2 e)

/-- ... up to the end of the tree. -/
theorem Parses.full {dbl : List Byte → Word} {t : ETree} (h : Parses dbl t) (prec : Nat) (hp : prec ≤ t.root) (k : Tok) (ks : List Tok)
    (hk : k.type ≠ .error) (hk2 : t.named = true → k.type ≠ .dot) {pre : Prefix} {q : Nat} (hq : ruleOf k.type = some (pre, q)) (hqp : q < prec)
    (p : Tok) (o : List Byte) (tab : List (List Byte)) (e : List Nat) :
    ∃ F0, ∀ F ≥ F0, ∃ last, parsePrec dbl F prec (psAt p (t.flat ++ k :: ks) o tab e) =
      .ok t.ty (psAt last (k :: ks) (o ++ (t.code dbl tab).1) (t.code dbl tab).2 e) := by
  obtain ⟨F0, hF⟩ := h prec hp k ks hk hk2 pre q hq (by omega) p o tab e 1
  refine ⟨F0, fun F hF0 => ?_⟩
  obtain ⟨g, hg, last, h2⟩ := hF F hF0
  refine ⟨last, ?_⟩
  obtain ⟨g, rfl⟩ : ∃ g', g = g' + 1 := ⟨g - 1, by omega⟩
  rw [h2]
  unfold infixLoop
  rw [show (psAt last (k :: ks) (o ++ (t.code dbl tab).1) (t.code dbl tab).2 e).cur = k from rfl, hq]
  dsimp only
  rw [if_neg (by omega)]

/-- A prefix form: one call of parsePrefix, then the loop. -/
theorem parses_prefix {dbl : List Byte → Word} {t : ETree} {c : Tok} {cs : List Tok} (hflat : t.flat = c :: cs) {pr : Prefix} {n : Nat}
    (hr : ruleOf c.type = some (pr, n)) (hpr : pr ≠ .none) (hcs : ∃ u us, cs = u :: us ∧ u.type ≠ .error)
    (h : ∀ (k : Tok) (ks : List Tok), k.type ≠ .error → (t.named = true → k.type ≠ .dot) →
      ∀ (pre : Prefix) (q : Nat), ruleOf k.type = some (pre, q) → q ≤ 10 → ∀ (o : List Byte) (tab : List (List Byte)) (e : List Nat),
      ∃ F0, ∀ F ≥ F0, ∃ last, parsePrefix dbl F pr (psAt c (cs ++ k :: ks) o tab e) =
        .ok t.ty (psAt last (k :: ks) (o ++ (t.code dbl tab).1) (t.code dbl tab).2 e)) : Parses dbl t := by
  intro prec _ k ks hk hk2 pre q hq _ p o tab e f
  have hq10 : q ≤ 10 := by
    revert hq
    cases k.type <;> intro hq <;> first | (cases hq; decide) | (cases hq; done)
  obtain ⟨F0, hF⟩ := h k ks hk hk2 pre q hq hq10 o tab e
  refine ⟨F0 + f + 1, fun F hF0 => ?_⟩
  obtain ⟨F, rfl⟩ : ∃ f', F = f' + 1 := ⟨F - 1, by omega⟩
  obtain ⟨last, hl⟩ := hF F (by omega)
  refine ⟨F, by omega, last, ?_⟩
  obtain ⟨u, us, rfl, hu⟩ := hcs
  unfold parsePrec
  dsimp only
  rw [hflat, List.cons_append, List.cons_append, advance_at _ _ _ _ _ _ _ hu, psAt_prev, hr]
  cases pr with
  | none => exact absurd rfl hpr
  | _ =>
    dsimp only
    rw [List.cons_append] at hl
    rw [hl]

theorem tree_parse (dbl : List Byte → Word) (t : ETree) (hr : t.Respects) (hl : t.Acc) : Parses dbl t := by
  induction t with
  | leaf first subs =>
    intro prec hp k ks hk hk2 pre q hq hqr p o tab e f
    refine ⟨f + subs.length + 3, fun F hF => ?_⟩
    obtain ⟨F, rfl⟩ : ∃ f', F = f' + 1 := ⟨F - 1, by omega⟩
    obtain ⟨last, h⟩ := leaf_parse dbl first subs hl prec p k ks o tab e hk (fun hi => hk2 (by simpa [ETree.named] using hi)) F (by omega)
    exact ⟨F, by omega, last, h⟩
  | call f lp a rp ih =>
    obtain ⟨⟨h1, h2, h3, h4⟩, h5⟩ := hl
    have ih := ih hr h5
    refine parses_prefix (c := f) (cs := lp :: (a.flat ++ [rp])) (n := 0) (pr := .primary) rfl (by rw [h1]; rfl) (by simp) ⟨lp, _, rfl, by rw [h3]; simp⟩ ?_
    intro k ks hk hk2 pre q hq hq10 o tab e
    obtain ⟨F0, hF⟩ := ih.full 1 (respects_root hr) rp (k :: ks) (by rw [h4]; simp) (by rw [h4]; simp) (pre := .none) (q := 0) (by rw [h4]; rfl) (by omega) lp o tab e
    refine ⟨F0 + 1, fun F hF0 => ⟨rp, ?_⟩⟩
    obtain ⟨F, rfl⟩ : ∃ f', F = f' + 1 := ⟨F - 1, by omega⟩
    obtain ⟨last, hl⟩ := hF F (by omega)
    have e1 : lp :: (a.flat ++ [rp]) ++ k :: ks = lp :: (a.flat ++ rp :: k :: ks) := by simp
    rw [e1]
    unfold parsePrefix
    dsimp only
    rw [psAt_prev, h1]
    dsimp only
    simp only [ETree.ty, ETree.code]
    rcases callCode_cases h2 a.ty with ⟨op, g1, g2⟩ | ⟨g1, g2, g3⟩ | ⟨g1, g2, g3⟩
    · rw [g1, g2]
      dsimp only
      rw [consume_tree h5 _ _ _ _ _ _ _ h3, hl]
      dsimp only
      rw [emitArg, consume_at _ _ _ _ _ _ _ h4 hk, emit_at]
      simp only [List.append_assoc]
    · have hp : f.text ≠ powName := by rw [g2]; decide
      rw [g1, g3]
      dsimp only
      rw [if_neg hp, if_pos g2, consume_tree h5 _ _ _ _ _ _ _ h3, hl]
      dsimp only
      rw [consume_at _ _ _ _ _ _ _ h4 hk, emit_at]
      simp only [List.append_assoc]
    · have hp : f.text ≠ powName := by rw [g2]; decide
      have hp2 : f.text ≠ floatName := by rw [g2]; decide
      rw [g1, g3]
      dsimp only
      rw [if_neg hp, if_neg hp2, if_pos g2, consume_tree h5 _ _ _ _ _ _ _ h3, hl]
      dsimp only
      rw [consume_at _ _ _ _ _ _ _ h4 hk, emit_at]
      simp only [List.append_assoc]
  | call2 f lp a c b rp iha ihb =>
    obtain ⟨⟨h1, h2, h3, hc, h4⟩, h5, h6⟩ := hl
    have iha := iha hr.1 h5
    have ihb := ihb hr.2 h6
    refine parses_prefix (c := f) (cs := lp :: (a.flat ++ c :: (b.flat ++ [rp]))) (n := 0) (pr := .primary) rfl (by rw [h1]; rfl) (by simp)
      ⟨lp, _, rfl, by rw [h3]; simp⟩ ?_
    intro k ks hk hk2 pre q hq hq10 o tab e
    obtain ⟨F0, hF⟩ := iha.full 1 (respects_root hr.1) c (b.flat ++ rp :: k :: ks) (by rw [hc]; simp) (by rw [hc]; simp) (pre := .none) (q := 0) (by rw [hc]; rfl) (by omega) lp o tab e
    obtain ⟨F1, hF'⟩ := ihb.full 1 (respects_root hr.2) rp (k :: ks) (by rw [h4]; simp) (by rw [h4]; simp) (pre := .none) (q := 0) (by rw [h4]; rfl) (by omega) c
      (o ++ (a.code dbl tab).1 ++ argCode a.ty) (a.code dbl tab).2 e
    refine ⟨F0 + F1 + 1, fun F hF0 => ⟨rp, ?_⟩⟩
    obtain ⟨F, rfl⟩ : ∃ f', F = f' + 1 := ⟨F - 1, by omega⟩
    obtain ⟨last, hl⟩ := hF F (by omega)
    obtain ⟨last', hl'⟩ := hF' F (by omega)
    have e1 : lp :: (a.flat ++ c :: (b.flat ++ [rp])) ++ k :: ks = lp :: (a.flat ++ c :: (b.flat ++ rp :: k :: ks)) := by simp
    have g1 : fun1.lookup f.text = none := by rw [h2]; rfl
    rw [e1]
    unfold parsePrefix
    dsimp only
    rw [psAt_prev, h1]
    dsimp only
    simp only [ETree.ty, ETree.code]
    rw [g1]
    dsimp only
    rw [if_pos (show f.text = powName from h2), consume_tree h5 _ _ _ _ _ _ _ h3, hl]
    dsimp only
    rw [emitArg, consume_tree h6 _ _ _ _ _ _ _ hc, hl']
    dsimp only
    rw [emitArg, consume_at _ _ _ _ _ _ _ h4 hk, emit_at]
    simp only [List.append_assoc]
  | paren lp x a rp ih =>
    obtain ⟨h1, h2, h4, h5⟩ := hl
    have ih := ih hr h5
    refine parses_prefix (c := lp) (cs := x :: (a.flat ++ [rp])) (n := 0) (pr := .grouping) rfl (by rw [h1]; rfl) (by simp) ⟨x, _, rfl, h2⟩ ?_
    intro k ks hk hk2 pre q hq hq10 o tab e
    obtain ⟨F0, hF⟩ := ih.full 1 (respects_root hr) rp (k :: ks) (by rw [h4]; simp) (by rw [h4]; simp) (pre := .none) (q := 0) (by rw [h4]; rfl) (by omega) x o tab e
    refine ⟨F0 + 1, fun F hF0 => ⟨rp, ?_⟩⟩
    obtain ⟨F, rfl⟩ : ∃ f', F = f' + 1 := ⟨F - 1, by omega⟩
    obtain ⟨last, hl⟩ := hF F (by omega)
    have e1 : x :: (a.flat ++ [rp]) ++ k :: ks = x :: (a.flat ++ rp :: k :: ks) := by simp
    rw [e1]
    unfold parsePrefix
    rw [advance_tree h5, hl]
    dsimp only
    rw [consume_at _ _ _ _ _ _ _ h4 hk]
    rfl
  | unary u x a ih =>
    obtain ⟨h1, h2, h5⟩ := hl
    have ih := ih hr.2 h5
    refine parses_prefix (c := u) (cs := x :: a.flat) (n := opLevel u.type) (pr := .unary) rfl (by rcases h1 with h | h | h <;> (rw [h]; rfl)) (by simp) ⟨x, _, rfl, h2⟩ ?_
    intro k ks hk hk2 pre q hq hq10 o tab e
    obtain ⟨F0, hF⟩ := ih.full 11 (by rw [hr.1]; decide) k ks hk hk2 hq (by omega) x o tab e
    refine ⟨F0 + 1, fun F hF0 => ?_⟩
    obtain ⟨F, rfl⟩ : ∃ f', F = f' + 1 := ⟨F - 1, by omega⟩
    obtain ⟨last, hl⟩ := hF F (by omega)
    refine ⟨last, ?_⟩
    unfold parsePrefix
    dsimp only
    rw [List.cons_append, advance_tree h5, hl, show (psAt u (x :: (a.flat ++ k :: ks)) o tab e).cur = x from rfl]
    show PRes.ok (unEmit x.type a.ty).2 _ = _
    rw [emit_at, skip_unEmit]
    simp only [ETree.ty, ETree.code, List.append_assoc]
  | node l op r ihl ihr =>
    intro prec hp k ks hk hk2 pre q hq hqr p o tab e f
    obtain ⟨h0, h1, h2, h3, h4⟩ := hr
    obtain ⟨hne, hnd⟩ := op_not_error _ h0
    have hrule := rule_level _ h0
    have hp' : prec ≤ opLevel op.type := hp
    have hq' : q ≤ opLevel op.type := hqr
    obtain ⟨Fr, hFr⟩ := (ihr h4 hl.2).full (opLevel op.type + 1) h2 k ks hk hk2 hq (by omega) op (o ++ (l.code dbl tab).1) (l.code dbl tab).2 e
    obtain ⟨F0, hF0⟩ := ihl h3 hl.1 prec (by omega) op (r.flat ++ k :: ks) hne (fun _ => hnd) _ _ hrule h1 p o tab e (max f Fr + 1)
    refine ⟨F0, fun F hF => ?_⟩
    obtain ⟨g, hg, last, hg2⟩ := hF0 F hF
    obtain ⟨g, rfl⟩ : ∃ g', g = g' + 1 := ⟨g - 1, by omega⟩
    obtain ⟨last', hg3⟩ := hFr g (by omega)
    refine ⟨g, by omega, last', ?_⟩
    have eflat : (ETree.node l op r).flat ++ k :: ks = l.flat ++ op :: (r.flat ++ k :: ks) := by simp [ETree.flat]
    rw [eflat, hg2]
    conv => lhs; unfold infixLoop
    rw [show (psAt last (op :: (r.flat ++ k :: ks)) (o ++ (l.code dbl tab).1) (l.code dbl tab).2 e).cur = op from rfl, hrule]
    dsimp only
    rw [if_pos hp', advance_tree hl.2, psAt_prev, hg3]
    dsimp only
    rw [binEmit_code _ _ _ h0]
    simp only [ETree.ty, ETree.code, PSt.emit, psAt, List.append_assoc]

/-- C42 (the code emitted). For every tree that respects precedence and associativity, the compiler reads the tokens of the
tree and emits exactly the tree's postfix code, with no error reported, and stops in front of the next token, which may
be any token that is no binary operator, dot, doc comment or lexical error. -/
theorem C42_precedence_partial (dbl : List Byte → Word) (t : ETree) (hr : t.Respects) (hl : t.LeavesOk)
    (k : Tok) (ks : List Tok) (hop : opLevel k.type = 0) (hk : k.type ≠ .error) (hk2 : k.type ≠ .dot) (hk3 : k.type ≠ .doc)
    (p : Tok) (o : List Byte) (tab : List (List Byte)) (e : List Nat) :
    ∃ F0, ∀ F ≥ F0, ∃ last, parseExpr dbl F (psAt p (t.flat ++ k :: ks) o tab e) =
      .ok t.ty (psAt last (k :: ks) (o ++ (t.code dbl tab).1) (t.code dbl tab).2 e) := by
  have hroot : 1 ≤ t.root := respects_root hr
  have hrule : ∃ pre, ruleOf k.type = some (pre, 0) := by
    revert hop hk hk2 hk3
    cases k.type <;> intro a b c d <;> first
      | exact ⟨_, rfl⟩
      | exact absurd rfl b
      | exact absurd rfl c
      | exact absurd rfl d
      | exact absurd a (by decide)
  obtain ⟨pre, hrule⟩ := hrule
  exact (tree_parse dbl t hr (leavesOk_acc t hl)).full 1 hroot k ks hk (fun _ => hk2) hrule (by omega) p o tab e

/-! ### Every flat expression has exactly one such tree -/

/-- Not a binary operator at the root. -/
def ETree.atom (t : ETree) : Prop := t.root = 12

theorem not_atom (l : ETree) (op : Tok) (r : ETree) : ¬ (ETree.node l op r).atom := by
  intro h
  have h : opLevel op.type = 12 := h
  have := opLevel_le op.type
  omega

/-- Operands and operators of a tree from left to right. -/
def ETree.seq : ETree → ETree × List (Tok × ETree)
  | .node l op r => (l.seq.1, l.seq.2 ++ (op, r.seq.1) :: r.seq.2)
  | t => (t, [])

/-- Append an operator and an operand at the right. -/
def ETree.insert : ETree → Tok → ETree → ETree
  | .node l o r, op, b =>
    if opLevel op.type ≤ opLevel o.type then .node (.node l o r) op b else .node l o (r.insert op b)
  | t, op, b => .node t op b

def ETree.build (a : ETree) (l : List (Tok × ETree)) : ETree := l.foldl (fun t x => t.insert x.1 x.2) a

theorem insert_root (t : ETree) (op : Tok) (b : ETree) (n : Nat) (h : n < t.root) (h2 : n < opLevel op.type) :
    n < (t.insert op b).root := by
  cases t with
  | node l o r =>
    unfold ETree.insert
    split
    · exact h2
    · exact h
  | _ => exact h2

theorem insert_atom {t : ETree} (h : t.atom) (op : Tok) (b : ETree) : t.insert op b = .node t op b := by
  cases t <;> first | exact absurd h (not_atom _ _ _) | rfl

theorem seq_atom {t : ETree} (h : t.atom) : t.seq = (t, []) := by
  cases t <;> first | exact absurd h (not_atom _ _ _) | rfl

theorem insert_respects (t : ETree) (op : Tok) (b : ETree) (h : t.Respects) (h2 : 0 < opLevel op.type) (hb : b.atom) (hb2 : b.Respects) :
    (t.insert op b).Respects := by
  have hle := opLevel_le op.type
  have hb : b.root = 12 := hb
  induction t with
  | node l o r ihl ihr =>
    unfold ETree.insert
    split
    · next hc => exact ⟨h2, hc, by omega, h, hb2⟩
    · next hc =>
      obtain ⟨g0, g1, g2, g3, g4⟩ := h
      exact ⟨g0, g1, insert_root r op b _ g2 (by omega), g3, ihr g4⟩
  | _ => exact ⟨h2, by simp only [ETree.root]; omega, by omega, h, hb2⟩

theorem insert_seq (t : ETree) (op : Tok) (b : ETree) (hb : b.atom) : (t.insert op b).seq = (t.seq.1, t.seq.2 ++ [(op, b)]) := by
  induction t with
  | node l o r ihl ihr =>
    unfold ETree.insert
    split
    · simp [ETree.seq, seq_atom hb]
    · simp [ETree.seq, ihr]
  | _ => simp [ETree.insert, ETree.seq, seq_atom hb]

theorem seq_levels (t : ETree) (h : t.Respects) (n : Nat) (hn : n < t.root) : ∀ x ∈ t.seq.2, n < opLevel x.1.type := by
  induction t generalizing n with
  | node l o r ihl ihr =>
    obtain ⟨g0, g1, g2, g3, g4⟩ := h
    have hn' : n < opLevel o.type := hn
    intro x hx
    simp only [ETree.seq, List.mem_append, List.mem_cons] at hx
    rcases hx with hx | rfl | hx
    · exact ihl g3 n (by omega) x hx
    · exact hn'
    · exact ihr g4 n (by omega) x hx
  | _ => simp [ETree.seq]

theorem fold_right (xs : List (Tok × ETree)) (l : ETree) (o : Tok) (r : ETree)
    (h : ∀ x ∈ xs, opLevel o.type < opLevel x.1.type) :
    xs.foldl (fun (t : ETree) x => t.insert x.1 x.2) (ETree.node l o r) =
      ETree.node l o (xs.foldl (fun (t : ETree) x => t.insert x.1 x.2) r) := by
  induction xs generalizing r with
  | nil => rfl
  | cons x xs ih =>
    have hx := h x (by simp)
    rw [List.foldl_cons, List.foldl_cons, ← ih _ (fun y hy => h y (List.mem_cons_of_mem _ hy))]
    congr 1
    conv => lhs; unfold ETree.insert
    exact if_neg (by omega)

theorem build_seq (t : ETree) (h : t.Respects) : ETree.build t.seq.1 t.seq.2 = t := by
  induction t with
  | node l o r ihl ihr =>
    obtain ⟨g0, g1, g2, g3, g4⟩ := h
    have hl := ihl g3
    have hr := ihr g4
    unfold ETree.build at hl hr ⊢
    simp only [ETree.seq]
    rw [List.foldl_append, hl, List.foldl_cons]
    have hins : l.insert o r.seq.1 = .node l o r.seq.1 := by
      cases l with
      | node a b c => exact if_pos g1
      | _ => rfl
    rw [hins, fold_right _ _ _ _ (seq_levels r g4 _ g2), hr]
  | _ => rfl

/-- C42 (the grouping is unambiguous). Every sequence of operands (leaves and calls) and binary operators is the sequence of exactly one tree
that respects precedence and left associativity. -/
theorem C42_unique (a : ETree) (xs : List (Tok × ETree)) (ha : a.atom ∧ a.Respects)
    (hx : ∀ x ∈ xs, 0 < opLevel x.1.type ∧ x.2.atom ∧ x.2.Respects) :
    ∃ t : ETree, (t.Respects ∧ t.seq = (a, xs)) ∧ ∀ t' : ETree, t'.Respects → t'.seq = (a, xs) → t' = t := by
  refine ⟨ETree.build a xs, ?_, fun t' h h2 => ?_⟩
  · have key : ∀ (ys : List (Tok × ETree)) (t : ETree), t.Respects → (∀ x ∈ ys, 0 < opLevel x.1.type ∧ x.2.atom ∧ x.2.Respects) →
        (ys.foldl (fun t x => t.insert x.1 x.2) t).Respects ∧
        (ys.foldl (fun t x => t.insert x.1 x.2) t).seq = (t.seq.1, t.seq.2 ++ ys) := by
      intro ys
      induction ys with
      | nil => intro t h _; exact ⟨h, by simp⟩
      | cons y ys ih =>
        intro t h h2
        have hy := h2 y (by simp)
        obtain ⟨i1, i2⟩ := ih (t.insert y.1 y.2) (insert_respects t _ _ h hy.1 hy.2.1 hy.2.2)
          (fun x hx => h2 x (List.mem_cons_of_mem _ hx))
        refine ⟨i1, ?_⟩
        rw [List.foldl_cons, i2, insert_seq _ _ _ hy.2.1]
        simp
    obtain ⟨k1, k2⟩ := key xs a ha.2 hx
    exact ⟨k1, by unfold ETree.build; rw [k2, seq_atom ha.1]; rfl⟩
  · have := build_seq t' h
    rw [h2] at this
    exact this.symm

/-! ### Integer expressions: from tokens to the value on the VM -/

/-- The integer operator of a token. -/
def intOp : TT → Option IBin
  | .pipePipe => some .lor | .ampAmp => some .land | .pipe => some .bor | .caret => some .bxor | .amp => some .band
  | .eqEq => some .eq | .bangEq => some .neq | .lt => some .lt | .gt => some .gt | .ltEq => some .lte | .gtEq => some .gte
  | .lshift => some .shl | .rshift => some .shr | .plus => some .add | .minus => some .sub | .star => some .mul
  | .slash => some .div | .percent => some .mod
  | _ => none

/-- The integer expression of a tree without fractions and `self`, fields numbered as in the string table. -/
def ETree.toInt (tab : List (List Byte)) : ETree → Option (IExpr × List (List Byte))
  | .leaf first subs =>
    match first.type with
    | .number => if fracLit first.text then none else (parseI64 first.text).map fun w => (.lit w, tab)
    | .kwTrue => some (.lit 1, tab)
    | .kwFalse => some (.lit 0, tab)
    | .identifier =>
      let r := strtabAdd tab (fullName first subs)
      some (.fld (BitVec.ofNat 8 r.2) (BitVec.ofNat 8 (r.2 / 256)), r.1)
    | _ => none
  | .node l op r =>
    match l.toInt tab with
    | none => none
    | some (a, t1) =>
      match r.toInt t1, intOp op.type with
      | some (b, t2), some o => some (.bin o a b, t2)
      | _, _ => none
  | _ => none

theorem leBytes_id (n : Nat) (h : n < 65536) : leBytes 2 (BitVec.ofNat 64 n) = [BitVec.ofNat 8 n, BitVec.ofNat 8 (n / 256)] := by
  simp only [leBytes]
  congr 1
  · apply BitVec.eq_of_toNat_eq; simp
  · congr 1
    apply BitVec.eq_of_toNat_eq
    simp [Nat.shiftRight_eq_div_pow]; omega

theorem strtabAdd_lt (tab : List (List Byte)) (n : List Byte) : (strtabAdd tab n).2 < 65536 := by
  unfold strtabAdd
  split <;> exact Nat.mod_lt _ (by decide)

theorem toInt_code (dbl : List Byte → Word) (t : ETree) (tab : List (List Byte)) (e : IExpr) (tab' : List (List Byte))
    (h : t.toInt tab = some (e, tab')) : t.code dbl tab = (e.code, tab') ∧ t.ty ≠ .float := by
  induction t generalizing tab e tab' with
  | leaf first subs =>
    simp only [ETree.toInt] at h
    unfold ETree.code leafCode ETree.ty leafTy
    split at h
    · next ht =>
      rw [ht]
      split at h
      · cases h
      · next hd =>
        dsimp only
        rw [if_neg hd, if_neg hd]
        cases hp : parseI64 first.text with
        | none => rw [hp] at h; cases h
        | some w => rw [hp] at h; cases h; exact ⟨rfl, by simp⟩
    · next ht => rw [ht]; cases h; exact ⟨rfl, by simp⟩
    · next ht => rw [ht]; cases h; exact ⟨rfl, by simp⟩
    · next ht =>
      rw [ht]; cases h
      refine ⟨?_, by simp⟩
      simp only [IExpr.code]
      rw [leBytes_id _ (strtabAdd_lt _ _)]
    · cases h
  | node l op r ihl ihr =>
    simp only [ETree.toInt] at h
    cases hl : l.toInt tab with
    | none => rw [hl] at h; cases h
    | some x =>
      obtain ⟨a, t1⟩ := x
      rw [hl] at h
      dsimp only at h
      cases hr : r.toInt t1 with
      | none => rw [hr] at h; cases h
      | some y =>
        obtain ⟨b, t2⟩ := y
        rw [hr] at h
        cases ho : intOp op.type with
        | none => rw [ho] at h; cases h
        | some o =>
          rw [ho] at h
          cases h
          obtain ⟨l1, l2⟩ := ihl _ _ _ hl
          obtain ⟨r1, r2⟩ := ihr _ _ _ hr
          simp only [ETree.code, ETree.ty, l1, r1, IExpr.code]
          have key : ∀ (x y : ETy), x ≠ .float → y ≠ .float → opCode op.type x y = [o.byte] ∧ opTy op.type x y ≠ .float := by
            intro x y hx hy
            revert ho
            cases op.type <;> intro ho <;> first
              | (cases ho; done)
              | (cases ho; cases x <;> cases y <;> first | exact absurd rfl hx | exact absurd rfl hy | exact ⟨rfl, by decide⟩)
          obtain ⟨k1, k2⟩ := key _ _ l2 r2
          rw [k1, List.append_assoc]
          exact ⟨rfl, k2⟩
  | _ => cases h

/-- C42 with C41: the code the compiler emits for the tokens of an integer expression computes, on the VM, the value of the
expression grouped by precedence and left associativity. -/
theorem C42_value_partial {σ : Type} (dbl : List Byte → Word) (t : ETree) (hr : t.Respects) (hl : t.LeavesOk)
    (k : Tok) (ks : List Tok) (hop : opLevel k.type = 0) (hk : k.type ≠ .error) (hk2 : k.type ≠ .dot) (hk3 : k.type ≠ .doc)
    (p : Tok) (o : List Byte) (tab : List (List Byte)) (errs : List Nat) (e : IExpr) (tab' : List (List Byte))
    (he : t.toInt tab = some (e, tab')) :
    ∃ code F0, ∀ F ≥ F0, ∃ last ty, parseExpr dbl F (psAt p (t.flat ++ k :: ks) o tab errs) =
        .ok ty (psAt last (k :: ks) (o ++ code) tab' errs) ∧
      ∀ (E : Env σ) (fv : Nat → Word) (s : St σ), At E.prog s.ip code → s.stack.length + e.depth ≤ 8 →
        (∀ key, E.host.scalar s.host key 0x60 0 = (true, fv key, s.host)) → Evaluates E s code.length (e.value fv) := by
  obtain ⟨F0, h⟩ := C42_precedence_partial dbl t hr hl k ks hop hk hk2 hk3 p o tab errs
  obtain ⟨c1, _⟩ := toInt_code dbl t tab e tab' he
  refine ⟨e.code, F0, fun F hF => ?_⟩
  obtain ⟨last, h2⟩ := h F hF
  rw [c1] at h2
  exact ⟨last, _, h2, fun E fv s hat hd hh => C41_eval_partial E fv e s hat hd hh⟩

/-! ### Examples and counterexamples -/

namespace Demo

/-- The expression parser on a source text, all tokens lexed. -/
def parseText (fuel : Nat) (src : List Byte) : Option PRes :=
  (lexAll fuel (src ++ [0]) 1).map fun toks => parseExpr (fun _ => 0) fuel (psAt eofTok toks [] [] [])

def ident (c : Byte) : Tok := ⟨.identifier, [c], 1⟩

/-- `a - b * 2 - c`, grouped as `(a - (b * 2)) - c`. -/
def sampleTree : ETree :=
  .node (.node (.leaf (ident 0x61) []) ⟨.minus, [0x2D], 1⟩
    (.node (.leaf (ident 0x62) []) ⟨.star, [0x2A], 1⟩ (.leaf ⟨.number, [0x32], 1⟩ []))) ⟨.minus, [0x2D], 1⟩
    (.leaf (ident 0x63) [])

example : sampleTree.Respects := by
  simp only [sampleTree, ETree.Respects, ETree.root]; decide +kernel

example : sampleTree.LeavesOk := by
  refine ⟨⟨?_, ?_, ?_⟩, ?_⟩
  · exact .inr (.inr ⟨rfl, by decide +kernel, by simp, .inl rfl⟩)
  · exact .inr (.inr ⟨rfl, by decide +kernel, by simp, .inl rfl⟩)
  · exact .inl ⟨rfl, rfl, .inr ⟨by decide +kernel, by decide +kernel, by decide +kernel, by decide +kernel⟩⟩
  · exact .inr (.inr ⟨rfl, by decide +kernel, by simp, .inl rfl⟩)

example : (sampleTree.toInt []).map (·.2) = some [[0x61], [0x62], [0x63]] := by decide +kernel

/-- The source `a - b * 2 - c;` and its code. -/
example : parseText 20 [0x61, 0x20, 0x2D, 0x20, 0x62, 0x20, 0x2A, 0x20, 0x32, 0x20, 0x2D, 0x20, 0x63, 0x3B] =
    some (.ok .int (psAt (ident 0x63) [⟨.semicolon, [0x3B], 1⟩, ⟨.eof, [], 1⟩]
      ([0x60, 0, 0, 0x60, 1, 0, 0x61, 2, 0, 0, 0, 0, 0, 0, 0, 0x74, 0x73, 0x60, 2, 0, 0x73]) [[0x61], [0x62], [0x63]] [])) := by
  decide +kernel

end Demo

/-- Outside flat expressions: parentheses do not work. `(a + b)` is refused, since parse_grouping skips the token behind the
parenthesis. -/
theorem C42_paren_false : ∃ ty s, Demo.parseText 20 [0x28, 0x61, 0x20, 0x2B, 0x20, 0x62, 0x29, 0x3B] = some (.ok ty s) ∧ s.errs > 0 :=
  ⟨_, _, rfl, by decide +kernel⟩

/-- Unary operators do not work either: `!a` is refused, and `!!a` compiles to the code of a single negation. -/
theorem C42_unary_false :
    (∃ ty s, Demo.parseText 20 [0x21, 0x61, 0x3B] = some (.ok ty s) ∧ s.errs > 0) ∧
    (∃ ty s, Demo.parseText 20 [0x21, 0x21, 0x61, 0x3B] = some (.ok ty s) ∧ s.errs = 0 ∧
      s.out = IExpr.code (.un .lnot (.fld 0 0)) ∧ s.tab = [[0x61]]) :=
  ⟨⟨_, _, rfl, by decide +kernel⟩, ⟨_, _, rfl, by decide +kernel, by decide +kernel, by decide +kernel⟩⟩

/-- The operand `0xE` has the type of a fraction, so that `0xE + 1` becomes a floating-point addition. -/
theorem C42_hex_false : ∃ s, Demo.parseText 20 [0x30, 0x78, 0x45, 0x20, 0x2B, 0x20, 0x31, 0x3B] = some (.ok .float s) ∧ s.errs = 0 ∧
    parseI64 [0x30, 0x78, 0x45] = some 14 ∧ s.out.drop 18 = [0x90, 0x80] :=
  ⟨_, rfl, by decide +kernel, by decide +kernel, by decide +kernel⟩

/-- `a -1` without a second space: the expression ends behind `a`, in front of the number −1. -/
theorem C42_minus_false : ∃ s, Demo.parseText 20 [0x61, 0x20, 0x2D, 0x31, 0x3B] = some (.ok .unk s) ∧ s.errs = 0 ∧
    s.out = [0x60, 0, 0] ∧ s.cur = ⟨.number, [0x2D, 0x31], 1⟩ :=
  ⟨_, rfl, by decide +kernel, by decide +kernel, by decide +kernel⟩

/-- A doc comment behind an operand: the rules table is read outside its bounds. -/
theorem C42_doc_false : Demo.parseText 20 [0x61, 0x20, 0x2F, 0x2F, 0x2F, 0x78, 0x0A, 0x3B] = some .ub := by
  decide +kernel

end Cnd
