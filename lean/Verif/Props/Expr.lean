/-
  C41, C43, C44, C51: expressions and conditions on the VM.
-/
import Verif.Props.Control

namespace Cnd
variable {σ : Type}

/-! ### C41: integer expressions -/

/-- Unary integer operators of the language. -/
inductive IUn
  | neg | bnot | lnot
  deriving DecidableEq, Repr

/-- Integer expressions: literals, fields (by key), operators. -/
inductive IExpr
  | lit (w : Word)
  | fld (k0 k1 : Byte)
  | un (o : IUn) (e : IExpr)
  | bin (o : IBin) (l r : IExpr)

/-- Opcodes the compiler emits for integer operators (cnd_parser.c 50-62, 78-121; concordia.h). -/
def IBin.byte : IBin → Byte
  | .add => 0x72 | .sub => 0x73 | .mul => 0x74 | .div => 0x75 | .mod => 0x76
  | .eq => 0x69 | .neq => 0x6A | .gt => 0x6B | .lt => 0x6C | .gte => 0x6D | .lte => 0x6E
  | .land => 0x6F | .lor => 0x70 | .band => 0xA0 | .bor => 0xA1 | .bxor => 0xA2
  | .shl => 0xA4 | .shr => 0xA5

def IUn.byte : IUn → Byte
  | .neg => 0x77 | .bnot => 0xA3 | .lnot => 0x71

/-- Postfix code (parse_primary, cnd_parser.c 352-470; parse_binary 64-122; parse_unary 50-62). -/
def IExpr.code : IExpr → List Byte
  | .lit w => 0x61 :: leBytes 8 w
  | .fld k0 k1 => [0x60, k0, k1]
  | .un o e => e.code ++ [o.byte]
  | .bin o l r => l.code ++ (r.code ++ [o.byte])

/-- Stack slots needed. -/
def IExpr.depth : IExpr → Nat
  | .lit _ | .fld _ _ => 1
  | .un _ e => e.depth
  | .bin _ l r => max l.depth (r.depth + 1)

theorem IExpr.depth_pos (e : IExpr) : 1 ≤ e.depth := by
  induction e with
  | lit | fld => exact Nat.le_refl _
  | un o e ih => exact ih
  | bin o l r ihl ihr => exact Nat.le_trans ihl (Nat.le_max_left ..)

/-- The value of an expression: a number below 2^64, a division by zero, or something C leaves
undefined (shift by 64 or more, negating −2^63). -/
inductive EVal
  | val (n : Nat)
  | divZero
  | undef
  deriving DecidableEq, Repr

def bit01 (p : Prop) [Decidable p] : EVal := .val (if p then 1 else 0)

/-- Arithmetic modulo 2^64 on natural numbers; comparisons are unsigned. -/
def IBin.value (o : IBin) (a b : Nat) : EVal :=
  match o with
  | .add => .val ((a + b) % 2 ^ 64)
  | .sub => .val ((a + 2 ^ 64 - b) % 2 ^ 64)
  | .mul => .val (a * b % 2 ^ 64)
  | .div => if b = 0 then .divZero else .val (a / b)
  | .mod => if b = 0 then .divZero else .val (a % b)
  | .eq => bit01 (a = b)
  | .neq => bit01 (a ≠ b)
  | .gt => bit01 (a > b)
  | .lt => bit01 (a < b)
  | .gte => bit01 (a ≥ b)
  | .lte => bit01 (a ≤ b)
  | .land => bit01 (a ≠ 0 ∧ b ≠ 0)
  | .lor => bit01 (a ≠ 0 ∨ b ≠ 0)
  | .band => .val (a &&& b)
  | .bor => .val (a ||| b)
  | .bxor => .val (a ^^^ b)
  | .shl => if b < 64 then .val (a * 2 ^ b % 2 ^ 64) else .undef
  | .shr => if b < 64 then .val (a / 2 ^ b) else .undef

def IUn.value (o : IUn) (a : Nat) : EVal :=
  match o with
  | .neg => if a = 2 ^ 63 then .undef else .val ((2 ^ 64 - a) % 2 ^ 64)
  | .bnot => .val (2 ^ 64 - 1 - a)
  | .lnot => bit01 (a = 0)

/-- Evaluation from left to right; `fv` gives the field values. -/
def IExpr.value (fv : Nat → Word) : IExpr → EVal
  | .lit w => .val w.toNat
  | .fld k0 k1 => .val (fv (keyNum k0 k1)).toNat
  | .un o e =>
    match e.value fv with
    | .val a => o.value a
    | r => r
  | .bin o l r =>
    match l.value fv with
    | .val a =>
      match r.value fv with
      | .val b => o.value a b
      | r => r
    | r => r

/-- An ALU result is the specified value. -/
def AluIs : Alu → EVal → Prop
  | .val w, .val n => w.toNat = n
  | .err e, .divZero => e = .arithmetic
  | .ub _, .undef => True
  | _, _ => False

theorem aluIs_b2w (b : Bool) (p : Prop) [Decidable p] (h : b = true ↔ p) : AluIs (.val (b2w b)) (bit01 p) := by
  unfold bit01 b2w AluIs
  cases b with
  | true => rw [if_pos rfl, if_pos (h.mp rfl)]; rfl
  | false => rw [if_neg (by simp), if_neg (by rw [← h]; simp)]; rfl

theorem ibin_value (o : IBin) (a b : Word) : AluIs (ibinEval o a b) (o.value a.toNat b.toNat) := by
  have ha := a.isLt
  have hb := b.isLt
  have hz : ∀ x : Word, x = 0 ↔ x.toNat = 0 :=
    fun x => ⟨fun h => by rw [h]; rfl, fun h => BitVec.eq_of_toNat_eq h⟩
  cases o
  case add => exact BitVec.toNat_add a b
  case sub =>
    show (a - b).toNat = (a.toNat + 2 ^ 64 - b.toNat) % 2 ^ 64
    rw [BitVec.toNat_sub]
    congr 1; omega
  case mul => exact BitVec.toNat_mul a b
  case div =>
    simp only [ibinEval, IBin.value, hz]
    split
    · rfl
    · exact BitVec.toNat_udiv ..
  case mod =>
    simp only [ibinEval, IBin.value, hz]
    split
    · rfl
    · exact BitVec.toNat_umod ..
  case eq => exact aluIs_b2w _ _ (by rw [beq_iff_eq, BitVec.toNat_eq])
  case neq => exact aluIs_b2w _ _ (by rw [bne_iff_ne, ne_eq, BitVec.toNat_eq])
  case gt => exact aluIs_b2w _ _ (by simp [BitVec.ult])
  case lt => exact aluIs_b2w _ _ (by simp [BitVec.ult])
  case gte => exact aluIs_b2w _ _ (by simp [BitVec.ule])
  case lte => exact aluIs_b2w _ _ (by simp [BitVec.ule])
  case land => exact aluIs_b2w _ _ (by rw [Bool.and_eq_true, bne_iff_ne, bne_iff_ne, ne_eq, ne_eq, hz, hz])
  case lor => exact aluIs_b2w _ _ (by rw [Bool.or_eq_true, bne_iff_ne, bne_iff_ne, ne_eq, ne_eq, hz, hz])
  case band => exact BitVec.toNat_and ..
  case bor => exact BitVec.toNat_or ..
  case bxor => exact BitVec.toNat_xor ..
  case shl =>
    simp only [ibinEval, IBin.value]
    by_cases h : b.toNat < 64
    · rw [if_neg (by omega), if_pos h]
      show (a <<< b.toNat).toNat = _
      rw [BitVec.toNat_shiftLeft, Nat.shiftLeft_eq]
    · rw [if_pos (by omega), if_neg h]; trivial
  case shr =>
    simp only [ibinEval, IBin.value]
    by_cases h : b.toNat < 64
    · rw [if_neg (by omega), if_pos h]
      show (a >>> b.toNat).toNat = _
      rw [BitVec.toNat_ushiftRight, Nat.shiftRight_eq_div_pow]
    · rw [if_pos (by omega), if_neg h]; trivial

/-- The VM operator behind a unary operator of the language. -/
def IUn.un : IUn → Un
  | .neg => .neg | .bnot => .bnot | .lnot => .lnot

theorem iun_value (F : FloatOps) (o : IUn) (a : Word) : AluIs (unEval F o.un a) (o.value a.toNat) := by
  have ha := a.isLt
  cases o
  case neg =>
    simp only [IUn.un, unEval, IUn.value]
    by_cases h : a = 0x8000000000000000
    · rw [if_pos h, if_pos (by rw [h]; rfl)]; trivial
    · have : ¬ a.toNat = 2 ^ 63 := fun e => h (BitVec.eq_of_toNat_eq e)
      rw [if_neg h, if_neg this]
      exact BitVec.toNat_neg a
  case bnot => exact BitVec.toNat_not
  case lnot =>
    exact aluIs_b2w _ _ (by rw [beq_iff_eq, BitVec.toNat_eq]; rfl)

/-- What a run of the expression code must do from state `s`: continue behind the code with the value
pushed and nothing else changed; stop with the arithmetic error, packet and cursor unchanged; or run
into the undefined operation. -/
def Evaluates (E : Env σ) (s : St σ) (len : Nat) : EVal → Prop
  | .val n => ∃ w : Word, w.toNat = n ∧
      Reach E s { s with ip := s.ip + len, stack := w :: s.stack }
  | .divZero => ∃ k s', exec E k s = .stop .arithmetic s' ∧ s'.buf = s.buf ∧ s'.cursor = s.cursor ∧
      s'.bit = s.bit ∧ s'.host = s.host
  | .undef => ∃ k u, exec E k s = .ub u

theorem Reach.then_stop {E : Env σ} {s m s' : St σ} {e : Err} {k : Nat} (h : Reach E s m)
    (h2 : exec E k m = .stop e s') : ∃ j, exec E j s = .stop e s' := by
  obtain ⟨n, hn⟩ := h
  exact ⟨n + k, by rw [exec_add_run hn]; exact h2⟩

theorem Reach.then_ub {E : Env σ} {s m : St σ} {u : UB} {k : Nat} (h : Reach E s m)
    (h2 : exec E k m = .ub u) : ∃ j, exec E j s = .ub u := by
  obtain ⟨n, hn⟩ := h
  exact ⟨n + k, by rw [exec_add_run hn]; exact h2⟩

theorem exec_one {E : Env σ} {s : St σ} {r : Res σ} (h : step E s = r) : exec E 1 s = r := by
  rw [exec_succ, h]; cases r <;> rfl

/-- A unary operator applied to the top of the stack. -/
theorem un_done {E : Env σ} {s : St σ} {w : Word} {o : IUn} {rest : List Word}
    (hat : At E.prog s.ip [o.byte]) (hs : s.stack = w :: rest) (hd : rest.length < maxDepth)
    (sv : St σ) (hsv : s = { sv with ip := s.ip, stack := w :: rest })
    (len : Nat) (hip : s.ip + 1 = sv.ip + len) (hst : sv.stack = rest) (hr : Reach E sv s) :
    Evaluates E sv len (o.value w.toNat) := by
  have hstep : step E s = unary { s with ip := s.ip + 1 } (unEval E.fl o.un) := by
    cases o <;> (rw [step_pre hat, pre_unaligned _ s rfl]; rfl)
  unfold unary at hstep
  rw [show ({ s with ip := s.ip + 1 } : St σ).stack = w :: rest from hs] at hstep
  dsimp only at hstep
  have hval := iun_value E.fl o w
  cases hu : unEval E.fl o.un w with
  | val x =>
    rw [hu] at hval hstep
    cases hv : o.value w.toNat with
    | val n =>
      rw [hv] at hval
      refine ⟨x, hval, hr.snoc ?_⟩
      rw [hstep]
      unfold aluDone
      dsimp only
      rw [push_ok (by exact hd)]
      rw [hsv, ← hip, hst]
    | divZero => rw [hv] at hval; exact hval.elim
    | undef => rw [hv] at hval; exact hval.elim
  | err e =>
    rw [hu] at hval hstep
    cases hv : o.value w.toNat with
    | divZero =>
      rw [hv] at hval
      obtain ⟨k, hk⟩ := hr.then_stop (exec_one hstep)
      rw [show e = .arithmetic from hval] at hk
      exact ⟨k, _, hk, by rw [hsv], by rw [hsv], by rw [hsv], by rw [hsv]⟩
    | val n => rw [hv] at hval; exact hval.elim
    | undef => rw [hv] at hval; exact hval.elim
  | ub u =>
    rw [hu] at hval hstep
    cases hv : o.value w.toNat with
    | undef =>
      obtain ⟨k, hk⟩ := hr.then_ub (exec_one hstep)
      exact ⟨k, u, hk⟩
    | val n => rw [hv] at hval; exact hval.elim
    | divZero => rw [hv] at hval; exact hval.elim

/-- A binary operator applied to the two top values. -/
theorem bin_done {E : Env σ} {s : St σ} {a b : Word} {o : IBin} {rest : List Word}
    (hat : At E.prog s.ip [o.byte]) (hs : s.stack = b :: a :: rest) (hd : rest.length < maxDepth)
    (sv : St σ) (hsv : s = { sv with ip := s.ip, stack := b :: a :: rest })
    (len : Nat) (hip : s.ip + 1 = sv.ip + len) (hst : sv.stack = rest) (hr : Reach E sv s) :
    Evaluates E sv len (o.value a.toNat b.toNat) := by
  have hstep : step E s = binary { s with ip := s.ip + 1 } (ibinEval o) := by
    cases o <;> (rw [step_pre hat, pre_unaligned _ s rfl]; rfl)
  unfold binary at hstep
  rw [show ({ s with ip := s.ip + 1 } : St σ).stack = b :: a :: rest from hs] at hstep
  dsimp only at hstep
  have hval := ibin_value o a b
  cases hu : ibinEval o a b with
  | val x =>
    rw [hu] at hval hstep
    cases hv : o.value a.toNat b.toNat with
    | val n =>
      rw [hv] at hval
      refine ⟨x, hval, hr.snoc ?_⟩
      rw [hstep]
      unfold aluDone
      dsimp only
      rw [push_ok (by exact hd)]
      rw [hsv, ← hip, hst]
    | divZero => rw [hv] at hval; exact hval.elim
    | undef => rw [hv] at hval; exact hval.elim
  | err e =>
    rw [hu] at hval hstep
    cases hv : o.value a.toNat b.toNat with
    | divZero =>
      rw [hv] at hval
      obtain ⟨k, hk⟩ := hr.then_stop (exec_one hstep)
      rw [show e = .arithmetic from hval] at hk
      exact ⟨k, _, hk, by rw [hsv], by rw [hsv], by rw [hsv], by rw [hsv]⟩
    | val n => rw [hv] at hval; exact hval.elim
    | undef => rw [hv] at hval; exact hval.elim
  | ub u =>
    rw [hu] at hval hstep
    cases hv : o.value a.toNat b.toNat with
    | undef =>
      obtain ⟨k, hk⟩ := hr.then_ub (exec_one hstep)
      exact ⟨k, u, hk⟩
    | val n => rw [hv] at hval; exact hval.elim
    | divZero => rw [hv] at hval; exact hval.elim

/-- **C41, partial.** The code of every integer expression that needs at most the free part of the
eight-slot stack, run from any state and any host that answers field queries, computes the value of
the expression in arithmetic modulo 2^64 with unsigned comparisons; it stops with the arithmetic
error exactly when a division or remainder by zero is evaluated; packet, cursor, byte order, loops
and everything below on the stack stay as they were.  What is missing from the claim: shifts by 64 or
more and the negation of −2^63 have no defined value (`undef`), the C code runs into undefined
behaviour there (`C41_false_neg`, `C41_false_shift`). -/
theorem C41_eval_partial (E : Env σ) (fv : Nat → Word) (e : IExpr) (s : St σ)
    (hat : At E.prog s.ip e.code) (hd : s.stack.length + e.depth ≤ 8)
    (hh : ∀ key, E.host.scalar s.host key 0x60 0 = (true, fv key, s.host)) :
    Evaluates E s e.code.length (e.value fv) := by
  induction e generalizing s with
  | lit w =>
    refine ⟨w, rfl, Reach.one ?_⟩
    rw [step_pre hat, pre_unaligned 0x61 s rfl]
    show fet E _ 8 (fun v s => push s v) = _
    refine fet_ok (bs := leBytes 8 w) hat.tail (by simp) (by omega) ?_
    rw [leWord_leBytes_lt (by omega) (by have := w.isLt; omega)]
    simp only [IExpr.depth] at hd
    rw [push_ok (by show s.stack.length < 8; omega)]
    simp [IExpr.code, Nat.add_assoc]
  | fld k0 k1 =>
    refine ⟨fv (keyNum k0 k1), rfl, Reach.one ?_⟩
    rw [step_pre hat, pre_unaligned 0x60 s rfl]
    show handleLoadCtx E 0x60 _ = _
    unfold handleLoadCtx
    refine fet_ok (bs := [k0, k1]) hat.tail rfl (by omega) ?_
    rw [leWord_key]
    refine callScalar_ok (hh _) ?_
    rw [truncB_eight]
    simp only [IExpr.depth] at hd
    rw [push_ok (by show s.stack.length < 8; omega)]
    simp [IExpr.code, Nat.add_assoc]
  | un o e ih =>
    have hat' : At E.prog s.ip (e.code ++ [o.byte]) := hat
    have hpos := e.depth_pos
    simp only [IExpr.depth] at hd
    have h1 := ih s hat'.left hd hh
    simp only [IExpr.value]
    cases hv : e.value fv with
    | divZero => rw [hv] at h1; exact h1
    | undef => rw [hv] at h1; exact h1
    | val n =>
      rw [hv] at h1
      obtain ⟨w, rfl, hr⟩ := h1
      exact un_done (s := { s with ip := s.ip + e.code.length, stack := w :: s.stack }) hat'.right rfl
        (by unfold maxDepth; omega) s rfl _ (by simp [IExpr.code, Nat.add_assoc]) rfl hr
  | bin o l r ihl ihr =>
    have hat' : At E.prog s.ip (l.code ++ (r.code ++ [o.byte])) := hat
    have hpos := l.depth_pos
    simp only [IExpr.depth] at hd
    have h1 := ihl s hat'.left (by omega) hh
    simp only [IExpr.value]
    cases hv : l.value fv with
    | divZero => rw [hv] at h1; exact h1
    | undef => rw [hv] at h1; exact h1
    | val n =>
      rw [hv] at h1
      obtain ⟨w, rfl, hr⟩ := h1
      have h2 := ihr { s with ip := s.ip + l.code.length, stack := w :: s.stack } hat'.right.left
        (by simp only [List.length_cons]; omega) hh
      dsimp only
      cases hv2 : r.value fv with
      | divZero =>
        rw [hv2] at h2
        obtain ⟨k, s', hk, h3⟩ := h2
        obtain ⟨j, hj⟩ := hr.then_stop hk
        exact ⟨j, s', hj, h3⟩
      | undef =>
        rw [hv2] at h2
        obtain ⟨k, u, hk⟩ := h2
        obtain ⟨j, hj⟩ := hr.then_ub hk
        exact ⟨j, u, hj⟩
      | val m =>
        rw [hv2] at h2
        obtain ⟨w2, rfl, hr2⟩ := h2
        exact bin_done (s := { s with ip := s.ip + l.code.length + r.code.length, stack := w2 :: w :: s.stack })
          hat'.right.right rfl (by unfold maxDepth; omega) s rfl _ (by simp [IExpr.code, Nat.add_assoc]) rfl
          (hr.trans hr2)

/-- **C41, depth.** An expression that needs more than the free part of the eight-slot stack, and whose
evaluation meets no division by zero and nothing undefined, stops with the stack-overflow error. -/
theorem C41_too_deep (E : Env σ) (fv : Nat → Word) (e : IExpr) (s : St σ) (n : Nat)
    (hat : At E.prog s.ip e.code) (hd : s.stack.length + e.depth > 8) (hs : s.stack.length ≤ 8)
    (hh : ∀ key, E.host.scalar s.host key 0x60 0 = (true, fv key, s.host)) (hv : e.value fv = .val n) :
    ∃ k s', exec E k s = .stop .stackOverflow s' ∧ s'.buf = s.buf ∧ s'.cursor = s.cursor := by
  induction e generalizing s n with
  | lit w =>
    refine ⟨1, { s with ip := s.ip + 1 + 8 }, exec_one ?_, rfl, rfl⟩
    rw [step_pre hat, pre_unaligned 0x61 s rfl]
    show fet E _ 8 (fun v s => push s v) = _
    refine fet_ok (bs := leBytes 8 w) hat.tail (by simp) (by omega) ?_
    simp only [IExpr.depth] at hd
    unfold push
    exact if_pos (by show s.stack.length ≥ maxDepth; unfold maxDepth; omega)
  | fld k0 k1 =>
    refine ⟨1, { s with ip := s.ip + 1 + 2 }, exec_one ?_, rfl, rfl⟩
    rw [step_pre hat, pre_unaligned 0x60 s rfl]
    show handleLoadCtx E 0x60 _ = _
    unfold handleLoadCtx
    refine fet_ok (bs := [k0, k1]) hat.tail rfl (by omega) ?_
    refine callScalar_ok (hh _) ?_
    simp only [IExpr.depth] at hd
    unfold push
    exact if_pos (by show s.stack.length ≥ maxDepth; unfold maxDepth; omega)
  | un o e ih =>
    have hat' : At E.prog s.ip (e.code ++ [o.byte]) := hat
    simp only [IExpr.value] at hv
    cases hve : e.value fv with
    | val m => exact ih s m hat'.left hd hs hh hve
    | divZero => rw [hve] at hv; cases hv
    | undef => rw [hve] at hv; cases hv
  | bin o l r ihl ihr =>
    have hat' : At E.prog s.ip (l.code ++ (r.code ++ [o.byte])) := hat
    simp only [IExpr.depth] at hd
    simp only [IExpr.value] at hv
    cases hvl : l.value fv with
    | divZero => rw [hvl] at hv; cases hv
    | undef => rw [hvl] at hv; cases hv
    | val m =>
      rw [hvl] at hv
      dsimp only at hv
      by_cases hl : s.stack.length + l.depth > 8
      · exact ihl s m hat'.left hl hs hh hvl
      have h1 := C41_eval_partial E fv l s hat'.left (by omega) hh
      rw [hvl] at h1
      obtain ⟨w, rfl, hr⟩ := h1
      have hp := l.depth_pos
      cases hvr : r.value fv with
      | divZero => rw [hvr] at hv; cases hv
      | undef => rw [hvr] at hv; cases hv
      | val m2 =>
        obtain ⟨k, s', hk, h2, h3⟩ := ihr { s with ip := s.ip + l.code.length, stack := w :: s.stack } m2
          hat'.right.left (by simp only [List.length_cons]; omega) (by simp only [List.length_cons]; omega) hh hvr
        obtain ⟨j, hj⟩ := hr.then_stop hk
        exact ⟨j, s', hj, h2, h3⟩

namespace Demo

/-- A context host: every field has the value given by `fv`. -/
def ctxHost (fv : Nat → Word) : Host Unit where
  notify _ _ _ := (true, ())
  scalar _ key op v := (true, if op = 0x60 then fv key else v, ())
  str _ _ _ := (true, none, ())
  bytesAt _ _ _ _ buf _ := (false, buf, ())

def ctxEnv (prog : List Byte) (enc : Bool) (fv : Nat → Word) : Env Unit := ⟨prog, enc, ctxHost fv, Demo.fl⟩

/-- The state after cnd_init. -/
def ctxStart (buf : List Byte) : St Unit :=
  { buf := buf, ip := 0, cursor := 0, bit := 0, be := false, trans := .none, fFactor := 0x3FF0000000000000, fOffset := 0,
    iVal := 0, polyPos := 0, polyCnt := 0, splPos := 0, splCnt := 0, opt := false, loops := [], stack := [], host := () }

/-- `(field7 - 10) / field7 >= 3`, a tree of depth 2. -/
def sampleExpr : IExpr :=
  .bin .gte (.bin .div (.bin .sub (.fld 7 0) (.lit 10)) (.fld 7 0)) (.lit 3)

/-- The subtraction wraps, so the quotient is large: with field7 = 4 the value is 1. -/
example : sampleExpr.value (fun _ => 4) = .val 1 := by decide +kernel
/-- With field7 = 0 it is a division by zero. -/
example : sampleExpr.value (fun _ => 0) = .divZero := by decide +kernel
/-- The theorem applies to it. -/
example : Evaluates (ctxEnv sampleExpr.code false fun _ => 4) (ctxStart []) 27 (.val 1) :=
  C41_eval_partial (ctxEnv sampleExpr.code false fun _ => 4) (fun _ => 4) sampleExpr (ctxStart [])
    ⟨[], by simp [ctxEnv, ctxStart]⟩ (by decide) (fun _ => rfl)

end Demo

/-- C41 is false for the negation of −2^63: `-field` with that value is undefined behaviour in the VM. -/
theorem C41_false_neg : ∃ (e : IExpr) (fv : Nat → Word), e.depth = 1 ∧
    exec (Demo.ctxEnv e.code false fv) 2 (Demo.ctxStart []) = .ub .overflow :=
  ⟨.un .neg (.fld 1 0), fun _ => 0x8000000000000000, rfl, rfl⟩

/-- C41 is false for shifts by 64 or more: `1 << field` with field = 64 is undefined behaviour in the VM. -/
theorem C41_false_shift : ∃ (e : IExpr) (fv : Nat → Word), e.depth = 2 ∧
    exec (Demo.ctxEnv e.code false fv) 3 (Demo.ctxStart []) = .ub .shift :=
  ⟨.bin .shl (.lit 1) (.fld 1 0), fun _ => 64, rfl, rfl⟩

/-! ### C43: mixed integer and floating-point operands -/

/-- Opcodes the compiler emits for floating-point binary operators (cnd_parser.c 84-119). -/
def FBin.byte : FBin → Byte
  | .add => 0x80 | .sub => 0x81 | .mul => 0x82 | .div => 0x83 | .pow => 0x89
  | .eq => 0x92 | .neq => 0x93 | .gt => 0x94 | .lt => 0x95 | .gte => 0x96 | .lte => 0x97

/-- What a floating-point operator computes on the doubles `x`, `y`; `none` is a domain error. -/
def FBin.value (F : FloatOps) (o : FBin) (x y : Word) : Option Word :=
  match o with
  | .add => some (F.add x y)
  | .sub => some (F.sub x y)
  | .mul => some (F.mul x y)
  | .div => if F.eq y 0 = true then none else some (F.div x y)
  | .pow =>
    if F.lt x 0 = true ∧ F.eq (F.floor y) y = false ∨ F.eq x 0 = true ∧ F.le y 0 = true then none else some (F.pow x y)
  | .eq => some (if F.eq x y = true then 1 else 0)
  | .neq => some (if F.eq x y = true then 0 else 1)
  | .gt => some (if F.lt y x = true then 1 else 0)
  | .lt => some (if F.lt x y = true then 1 else 0)
  | .gte => some (if F.le y x = true then 1 else 0)
  | .lte => some (if F.le x y = true then 1 else 0)

theorem fbin_value (F : FloatOps) (o : FBin) (x y : Word) :
    fbinEval F o x y = match o.value F x y with
      | some w => .val w
      | none => .err .arithmetic := by
  cases o <;> simp only [fbinEval, FBin.value, b2w]
  case div => split <;> rfl
  case pow =>
    cases F.lt x 0 <;> cases F.eq (F.floor y) y <;> cases F.eq x 0 <;> cases F.le y 0 <;> rfl
  case neq => cases F.eq x y <;> rfl

/-- The run leaves `v` in place of the two operands, behind code of length `len`, or stops with the arithmetic error. -/
def Combines (E : Env σ) (s : St σ) (rest : List Word) (len : Nat) : Option Word → Prop
  | some v => Reach E s { s with ip := s.ip + len, stack := v :: rest }
  | none => ∃ k s', exec E k s = .stop .arithmetic s'

theorem fbin_step {E : Env σ} {s : St σ} {a b : Word} {o : FBin} {rest : List Word}
    (hat : At E.prog s.ip [o.byte]) (hs : s.stack = b :: a :: rest) (hd : rest.length < 8) :
    Combines E s rest 1 (o.value E.fl a b) := by
  have hstep : step E s = binary { s with ip := s.ip + 1 } (fbinEval E.fl o) := by
    cases o <;> (rw [step_pre hat, pre_unaligned _ s rfl]; rfl)
  unfold binary at hstep
  rw [show ({ s with ip := s.ip + 1 } : St σ).stack = b :: a :: rest from hs] at hstep
  dsimp only at hstep
  rw [fbin_value] at hstep
  cases ho : o.value E.fl a b with
  | none =>
    rw [ho] at hstep
    exact ⟨1, _, exec_one hstep⟩
  | some w =>
    rw [ho] at hstep
    refine Reach.one ?_
    rw [hstep]
    unfold aluDone
    dsimp only
    rw [push_ok (by exact hd)]

theorem itof_step {E : Env σ} {s : St σ} {b : Word} {rest : List Word}
    (hat : At E.prog s.ip [0x90]) (hs : s.stack = b :: rest) (hd : rest.length < 8) :
    step E s = .run { s with ip := s.ip + 1, stack := E.fl.ofI64 b :: rest } := by
  have hstep : step E s = unary { s with ip := s.ip + 1 } (unEval E.fl .itof) := by
    rw [step_pre hat, pre_unaligned _ s rfl]; rfl
  unfold unary at hstep
  rw [show ({ s with ip := s.ip + 1 } : St σ).stack = b :: rest from hs] at hstep
  rw [hstep]
  show push _ _ = _
  rw [push_ok (by exact hd)]

theorem swap_step {E : Env σ} {s : St σ} (hat : At E.prog s.ip [0x63]) :
    step E s = .run { s with ip := s.ip + 1 } := by
  rw [step_pre hat, pre_unaligned _ s rfl]; rfl

theorem Combines.after {E : Env σ} {s m : St σ} {rest : List Word} {n len : Nat} {v : Option Word}
    (hr : Reach E s m) (hm : m = { s with ip := s.ip + n, stack := m.stack })
    (h : Combines E m rest len v) : Combines E s rest (n + len) v := by
  cases v with
  | none => obtain ⟨k, s', hk⟩ := h; obtain ⟨j, hj⟩ := hr.then_stop hk; exact ⟨j, s', hj⟩
  | some v =>
    have := hr.trans h
    rw [hm] at this
    simpa only [Combines, Nat.add_assoc] using this

/-- Conversion code in front of a floating-point operator, by operand types (parse_binary, cnd_parser.c 69-77):
`l` and `r` say whether the left or right operand has integer type. -/
def convCode (l r : Bool) : List Byte :=
  if l then [0x63, 0x90, 0x63] else if r then [0x90] else []

/-- **C43, partial** (left operand floating point). The operator gets the left operand unchanged and the right
operand converted from integer to double if it is an integer, unchanged if it is not.  What is missing: an
integer on the left (`C43_left_int_actual`, `C43_false`), and fields, whose type the compiler does not know and
which are never converted. -/
theorem C43_right_partial (E : Env σ) (s : St σ) (a b : Word) (o : FBin) (rest : List Word) (r : Bool)
    (hat : At E.prog s.ip (convCode false r ++ [o.byte])) (hs : s.stack = b :: a :: rest) (hd : rest.length ≤ 6) :
    Combines E s rest (convCode false r ++ [o.byte]).length
      (o.value E.fl a (if r = true then E.fl.ofI64 b else b)) := by
  cases r with
  | false => exact fbin_step hat hs (by omega)
  | true =>
    have h1 : At E.prog s.ip ([0x90] ++ [o.byte]) := hat
    refine Combines.after (n := 1) (len := 1) (Reach.one (itof_step h1.left hs (by simp only [List.length_cons]; omega))) rfl ?_
    exact fbin_step (E := E) (s := { s with ip := s.ip + 1, stack := E.fl.ofI64 b :: a :: rest }) h1.right rfl (by omega)

/-- **What the code does for an integer on the left.** OP_SWAP has no case in the VM, so the conversion is
applied to the right operand: the left operand's integer bits are used as a double and the right operand's
double bits are converted as if they were an integer. -/
theorem C43_left_int_actual (E : Env σ) (s : St σ) (a b : Word) (o : FBin) (rest : List Word) (r : Bool)
    (hat : At E.prog s.ip (convCode true r ++ [o.byte])) (hs : s.stack = b :: a :: rest) (hd : rest.length ≤ 6) :
    Combines E s rest 4 (o.value E.fl a (E.fl.ofI64 b)) := by
  have h1 : At E.prog s.ip ([0x63] ++ ([0x90] ++ ([0x63] ++ [o.byte]))) := hat
  refine Combines.after (n := 1) (len := 3) (Reach.one (swap_step h1.left)) rfl ?_
  refine Combines.after (n := 1) (len := 2)
    (Reach.one (itof_step (s := { s with ip := s.ip + 1 }) h1.right.left hs (by simp only [List.length_cons]; omega))) rfl ?_
  refine Combines.after (n := 1) (len := 1)
    (Reach.one (swap_step (s := { s with ip := s.ip + 1 + 1, stack := E.fl.ofI64 b :: a :: rest }) h1.right.right.left)) rfl ?_
  exact fbin_step (E := E) (s := { s with ip := s.ip + 1 + 1 + 1, stack := E.fl.ofI64 b :: a :: rest })
    h1.right.right.right rfl (by omega)

/-- The code for `1 == 1.0`. -/
def oneEqOne : List Byte :=
  0x61 :: leBytes 8 1 ++ 0x61 :: leBytes 8 0x3FF0000000000000 ++ convCode true false ++ [FBin.eq.byte]

/-- **C43 is false.** `1 == 1.0` evaluates to 0 for every floating point that converts 1 to the double 1.0, finds
1.0 equal to itself, and tells the smallest subnormal from the double nearest to 4607182418800017408 (the bits of
1.0 read as an integer), all of which IEEE 754 does. -/
theorem C43_false (F : FloatOps) (h1 : F.ofI64 1 = 0x3FF0000000000000)
    (h2 : F.eq 0x3FF0000000000000 0x3FF0000000000000 = true) (h3 : F.eq 1 (F.ofI64 0x3FF0000000000000) = false)
    (host : Host Unit) :
    FBin.eq.value F (F.ofI64 1) 0x3FF0000000000000 = some 1 ∧
    exec ⟨oneEqOne, false, host, F⟩ 6 (Demo.ctxStart []) =
      .run { Demo.ctxStart [] with ip := oneEqOne.length, stack := [0] } := by
  constructor
  · rw [h1]; simp only [FBin.value, h2]; rfl
  · have : b2w (F.eq 1 (F.ofI64 0x3FF0000000000000)) = 0 := by rw [h3]; rfl
    show Res.run { Demo.ctxStart [] with ip := 22, stack := [b2w (F.eq 1 (F.ofI64 0x3FF0000000000000))] } = _
    rw [this]
    rfl

/-- Such a floating point exists. -/
example : ∃ F : FloatOps, F.ofI64 1 = 0x3FF0000000000000 ∧
    F.eq 0x3FF0000000000000 0x3FF0000000000000 = true ∧ F.eq 1 (F.ofI64 0x3FF0000000000000) = false :=
  ⟨{ Demo.fl with ofI64 := fun w => if w = 1 then 0x3FF0000000000000 else 0x43CFF80000000000 }, by decide +kernel⟩

/-! ### C44: computed fields -/

/-- Width in bytes of the integer types a computed field may have (0x1A is bool). -/
def intWidth (tag : Byte) : Option Nat :=
  if tag = 0x10 ∨ tag = 0x14 ∨ tag = 0x1A then some 1
  else if tag = 0x11 ∨ tag = 0x15 then some 2
  else if tag = 0x12 ∨ tag = 0x16 then some 4
  else if tag = 0x13 ∨ tag = 0x17 then some 8
  else none

theorem intWidth_emit {tag : Byte} {n : Nat} (h : intWidth tag = some n) :
    emitSize (leWord [tag]) = some n ∧ leWord [tag] ≠ 0x18 ∧ leWord [tag] ≠ 0x19 ∧ 0 < n ∧ n ≤ 8 := by
  have key : ∀ m : Fin 256, ∀ n, intWidth (BitVec.ofFin m) = some n →
      emitSize (leWord [BitVec.ofFin m]) = some n ∧ leWord [BitVec.ofFin m] ≠ 0x18 ∧ leWord [BitVec.ofFin m] ≠ 0x19 ∧
        0 < n ∧ n ≤ 8 := by
    have : ∀ m : Fin 256, ∀ n ∈ (intWidth (BitVec.ofFin m)).toList,
      emitSize (leWord [BitVec.ofFin m]) = some n ∧ leWord [BitVec.ofFin m] ≠ 0x18 ∧ leWord [BitVec.ofFin m] ≠ 0x19 ∧
        0 < n ∧ n ≤ 8 := by decide +kernel
    intro m n hn
    exact this m n (by rw [hn]; simp)
  have hb : BitVec.ofFin tag.toFin = tag := rfl
  have := key tag.toFin n
  rw [hb] at this
  exact this h

/-- Encoding a computed integer field. -/
theorem emit_enc {E : Env σ} {s : St σ} {tag : Byte} {n : Nat} {v : Word} {rest : List Word} (henc : E.enc = true)
    (hat : At E.prog s.ip [0x65, tag]) (hw : intWidth tag = some n) (hs : s.stack = v :: rest)
    (hroom : s.cursor + n ≤ s.buf.length) :
    step E s = .run { s with ip := s.ip + 2, stack := rest, cursor := s.cursor + n,
                             buf := splice s.buf s.cursor (wrBytes s.be n v) } := by
  obtain ⟨h1, h2, -, h4, h5⟩ := intWidth_emit hw
  rw [step_pre hat, pre_unaligned 0x65 s rfl]
  show handleEmit E _ = _
  unfold handleEmit
  refine fet_ok hat.tail rfl (by omega) ?_
  dsimp only
  rw [hs, h1]
  dsimp only
  rw [if_neg (by omega), if_pos henc, if_neg h2]
  refine wrAt_ok (b := splice s.buf s.cursor (wrBytes s.be n v))
    (store_eq_some.2 ⟨by rw [wrBytes_length]; exact hroom, rfl⟩) rfl

/-- Decoding a computed integer field: the number in the packet must equal the full 64-bit computed value. -/
theorem emit_dec {E : Env σ} {s : St σ} {tag : Byte} {n : Nat} {v x : Word} {rest : List Word} (henc : E.enc = false)
    (hat : At E.prog s.ip [0x65, tag]) (hw : intWidth tag = some n) (hs : s.stack = v :: rest)
    (hx : x.toNat < 2 ^ (8 * n)) (hf : FieldAt s.be s.buf s.cursor n x.toNat) (hroom : s.cursor + n ≤ s.buf.length) :
    step E s = if x = v then .run { s with ip := s.ip + 2, stack := rest, cursor := s.cursor + n }
      else .stop .validation { s with ip := s.ip + 2, stack := rest } := by
  obtain ⟨h1, h2, h3, h4, h5⟩ := intWidth_emit hw
  rw [step_pre hat, pre_unaligned 0x65 s rfl]
  show handleEmit E _ = _
  unfold handleEmit
  refine fet_ok hat.tail rfl (by omega) ?_
  dsimp only
  rw [hs, h1]
  dsimp only
  rw [if_neg (by omega), if_neg (by rw [henc]; simp)]
  refine rdAt_field h4 h5 hx hf ?_
  rw [if_neg h2, if_neg h3]
  by_cases h : x = v
  · rw [if_pos h, h]; simp
  · rw [if_neg h]; simp [h]

/-- **C44, partial.** Take a computed integer field: expression code followed by OP_EMIT with an integer type.
Encode it anywhere with room, then decode the resulting packet at the same place, with the same byte order and
field values. The decoder passes over the field if the computed value fits the width of the type, and refuses
the packet with the validation error if it does not.  So the claim holds exactly for values that fit as
unsigned numbers; it fails for larger and for all negative ones (`C44_false`). -/
theorem C44_computed_partial (E D : Env σ) (fv : Nat → Word) (e : IExpr) (tag : Byte) (n m : Nat) (s t : St σ)
    (henc : E.enc = true) (hdec : D.enc = false) (hw : intWidth tag = some n)
    (hatE : At E.prog s.ip (e.code ++ [0x65, tag])) (hatD : At D.prog t.ip (e.code ++ [0x65, tag]))
    (hdE : s.stack.length + e.depth ≤ 8) (hdD : t.stack.length + e.depth ≤ 8)
    (hhE : ∀ key, E.host.scalar s.host key 0x60 0 = (true, fv key, s.host))
    (hhD : ∀ key, D.host.scalar t.host key 0x60 0 = (true, fv key, t.host))
    (hv : e.value fv = .val m) (hroom : s.cursor + n ≤ s.buf.length)
    (hbe : t.be = s.be) (hcur : t.cursor = s.cursor) :
    ∃ buf', Reach E s { s with ip := s.ip + e.code.length + 2, cursor := s.cursor + n, buf := buf' } ∧
      FieldAt s.be buf' s.cursor n (m % 2 ^ (8 * n)) ∧
      (t.buf = buf' →
        (m < 2 ^ (8 * n) → Reach D t { t with ip := t.ip + e.code.length + 2, cursor := t.cursor + n }) ∧
        (2 ^ (8 * n) ≤ m → ∃ k t', exec D k t = .stop .validation t')) := by
  have hE := C41_eval_partial E fv e s hatE.left hdE hhE
  have hD := C41_eval_partial D fv e t hatD.left hdD hhD
  rw [hv] at hE hD
  obtain ⟨w, hwm, hrE⟩ := hE
  obtain ⟨w', hwm', hrD⟩ := hD
  have : w' = w := BitVec.eq_of_toNat_eq (by omega)
  subst this
  subst hwm
  obtain ⟨-, -, -, h4, h5⟩ := intWidth_emit hw
  refine ⟨_, hrE.snoc (emit_enc (s := { s with ip := s.ip + e.code.length, stack := w' :: s.stack })
    henc hatE.right hw rfl hroom), ?_, ?_⟩
  · rw [← toNat_truncB, fieldAt_iff h4]
    have := slice_store_same (buf := s.buf) (p := s.cursor) (bs := wrBytes s.be n w')
      (store_eq_some.2 ⟨by rw [wrBytes_length]; exact hroom, rfl⟩)
    rw [wrBytes_length] at this
    rw [this, wrBytes_truncB]
  intro hb
  have hst : store s.buf s.cursor (wrBytes s.be n w') = some t.buf :=
    store_eq_some.2 ⟨by rw [wrBytes_length]; exact hroom, hb⟩
  have hf : FieldAt t.be t.buf t.cursor n (truncB n w').toNat := by
    rw [hbe, hcur, fieldAt_iff h4]
    have := slice_store_same hst
    rw [wrBytes_length] at this
    rw [this, wrBytes_truncB]
  have hlen : t.cursor + n ≤ t.buf.length := by rw [store_length hst, hcur]; exact hroom
  have hstep := emit_dec (E := D) (s := { t with ip := t.ip + e.code.length, stack := w' :: t.stack }) (x := truncB n w')
    hdec hatD.right hw rfl (by rw [toNat_truncB]; exact Nat.mod_lt _ (Nat.two_pow_pos _)) hf hlen
  constructor
  · intro hm
    rw [if_pos (truncB_of_lt _ _ hm)] at hstep
    exact hrD.snoc hstep
  · intro hm
    rw [if_neg] at hstep
    · obtain ⟨k, hk⟩ := hrD.then_stop (exec_one hstep)
      exact ⟨k, _, hk⟩
    · intro h
      have := congrArg BitVec.toNat h
      rw [toNat_truncB] at this
      have h2 := Nat.mod_lt w'.toNat (Nat.two_pow_pos (8 * n))
      omega

/-- C44 is false. A u8 field computed as 256 is written as 0 and then refused on decoding; a signed 8-bit field
computed as `0 - 1` is written as 0xFF and then refused. -/
theorem C44_false :
    (∃ s', exec (Demo.ctxEnv (IExpr.code (.lit 256) ++ [0x65, 0x10]) true fun _ => 0) 3 (Demo.ctxStart [9]) = .stop .ok s' ∧
      s'.buf = [0] ∧
      ∃ t', exec (Demo.ctxEnv (IExpr.code (.lit 256) ++ [0x65, 0x10]) false fun _ => 0) 3 (Demo.ctxStart [0]) =
        .stop .validation t') ∧
    (∃ s', exec (Demo.ctxEnv (IExpr.code (.bin .sub (.lit 0) (.lit 1)) ++ [0x65, 0x14]) true fun _ => 0) 5
        (Demo.ctxStart [9]) = .stop .ok s' ∧ s'.buf = [0xFF] ∧
      ∃ t', exec (Demo.ctxEnv (IExpr.code (.bin .sub (.lit 0) (.lit 1)) ++ [0x65, 0x14]) false fun _ => 0) 5
        (Demo.ctxStart [0xFF]) = .stop .validation t') :=
  ⟨⟨_, rfl, rfl, _, rfl⟩, ⟨_, rfl, rfl, _, rfl⟩⟩

/-- C44's hypotheses are met by a u16 field computed as field7 * 3 with field7 = 1000. -/
example : ∃ buf', Reach (Demo.ctxEnv (IExpr.code (.bin .mul (.fld 7 0) (.lit 3)) ++ [0x65, 0x11]) true fun _ => 1000)
    (Demo.ctxStart [0, 0]) { Demo.ctxStart [0, 0] with ip := 15, cursor := 2, buf := buf' } :=
  (C44_computed_partial _ (Demo.ctxEnv (IExpr.code (.bin .mul (.fld 7 0) (.lit 3)) ++ [0x65, 0x11]) false fun _ => 1000)
    (fun _ => 1000) (.bin .mul (.fld 7 0) (.lit 3)) 0x11 2 3000 (Demo.ctxStart [0, 0]) (Demo.ctxStart [0, 0]) rfl rfl
    (by decide) ⟨[], rfl⟩ ⟨[], rfl⟩ (by decide) (by decide) (fun _ => rfl) (fun _ => rfl) (by decide +kernel) (by decide)
    rfl rfl).imp fun _ h => h.1

/-! ### C51: if/else -/

/-- buf_write_u32_at, cnd_utils.c 285-291: nothing is written if the four bytes are not all there. -/
def patch32 (out : List Byte) (off : Nat) (v : Nat) : List Byte :=
  if off + 4 > out.length then out else splice out off (leBytes 4 (BitVec.ofNat 64 v))

/-- parse_if, cnd_parser.c 471-505, on the output buffer. `cond`, `thn` and `els` are the bytes that parsing
the condition, the first block and the else part appends; `els` is empty if there is no else. The offsets are
computed as `(int32_t)(a - b)` on `size_t`; the difference is not negative. -/
def ifEmit (out cond thn els : List Byte) : List Byte :=
  let out := out ++ cond
  let jumpFalse := out.length
  let out := out ++ [0x50, 0, 0, 0, 0]
  let out := out ++ thn
  let jumpEnd := out.length
  let out := out ++ [0x52, 0, 0, 0, 0]
  let out := patch32 out (jumpFalse + 1) (out.length - (jumpFalse + 1 + 4))
  let out := out ++ els
  patch32 out (jumpEnd + 1) (out.length - (jumpEnd + 1 + 4))

/-- What the compiler must emit: condition, conditional jump over the first block and the jump that ends it, first
block, jump over the second block, second block. -/
def ifCode (cond thn els : List Byte) : List Byte :=
  cond ++ (0x50 :: leBytes 4 (BitVec.ofNat 64 (thn.length + 5))) ++ thn ++
    (0x52 :: leBytes 4 (BitVec.ofNat 64 els.length)) ++ els

theorem patch32_at (a b c : List Byte) (v : Nat) (hb : b.length = 4) :
    patch32 (a ++ (b ++ c)) a.length v = a ++ (leBytes 4 (BitVec.ofNat 64 v) ++ c) := by
  unfold patch32
  rw [if_neg (by simp; omega)]
  unfold splice
  rw [List.take_left, ← List.drop_drop, List.drop_left]
  simp [hb]

/-- The emitted bytes, with the back-patched offsets. -/
theorem C51_emit (out cond thn els : List Byte) : ifEmit out cond thn els = out ++ ifCode cond thn els := by
  unfold ifEmit
  dsimp only
  have e1 : patch32 (out ++ cond ++ [0x50, 0, 0, 0, 0] ++ thn ++ [0x52, 0, 0, 0, 0]) ((out ++ cond).length + 1)
      ((out ++ cond ++ [0x50, 0, 0, 0, 0] ++ thn ++ [0x52, 0, 0, 0, 0]).length - ((out ++ cond).length + 1 + 4)) =
      out ++ cond ++ [0x50] ++ (leBytes 4 (BitVec.ofNat 64 (thn.length + 5)) ++ (thn ++ [0x52, 0, 0, 0, 0])) := by
    have := patch32_at (out ++ cond ++ [0x50]) [0, 0, 0, 0] (thn ++ [0x52, 0, 0, 0, 0])
      ((out ++ cond ++ [0x50, 0, 0, 0, 0] ++ thn ++ [0x52, 0, 0, 0, 0]).length - ((out ++ cond).length + 1 + 4)) rfl
    have e : (out ++ cond ++ [0x50, 0, 0, 0, 0] ++ thn ++ [0x52, 0, 0, 0, 0]).length - ((out ++ cond).length + 1 + 4)
        = thn.length + 5 := by simp; omega
    rw [e] at this ⊢
    rw [← this]
    simp [Nat.add_assoc]
  rw [e1]
  have e2 := patch32_at (out ++ cond ++ [0x50] ++ leBytes 4 (BitVec.ofNat 64 (thn.length + 5)) ++ thn ++ [0x52])
    [0, 0, 0, 0] els els.length rfl
  refine Eq.trans ?_ (e2.trans ?_)
  · congr 1
    · simp
    · simp; omega
    · simp; omega
  · simp [ifCode]

theorem goto_ahead {E : Env σ} {s : St σ} {base d : Nat} (hd : d < 2 ^ 31) (hl : base + d ≤ E.prog.length) :
    goto E s base (leWord (leBytes 4 (BitVec.ofNat 64 d))) = .run { s with ip := base + d } := by
  refine goto_ok ?_
  rw [leWord_leBytes_lt (by omega) (by rw [BitVec.toNat_ofNat]; omega)]
  unfold branch
  have : ((BitVec.ofNat 64 d).setWidth 32).toInt = d := by
    rw [BitVec.toInt_eq_toNat_cond, BitVec.toNat_setWidth, BitVec.toNat_ofNat]
    split <;> omega
  dsimp only
  rw [this, if_neg (by omega)]
  dsimp only
  rw [Int.toNat_natCast, if_neg (by omega)]

/-- **C51.** For an if/else with any condition expression and any two blocks (each below 2 GiB), at any place of
any program: if the condition is not zero the run reaches the first byte of the first block with the stack as
before, and from the end of the first block, in whatever state, the run reaches the end of the whole
statement in one step with nothing else changed; if the condition is zero the run reaches the first byte of
the second block with the stack as before, and the end of that block is the end of the statement. -/
theorem C51_if_else (E : Env σ) (fv : Nat → Word) (c : IExpr) (thn els : List Byte) (s : St σ) (n : Nat)
    (hat : At E.prog s.ip (ifCode c.code thn els)) (ht : thn.length + 5 < 2 ^ 31) (he : els.length < 2 ^ 31)
    (hd : s.stack.length + c.depth ≤ 8)
    (hh : ∀ key, E.host.scalar s.host key 0x60 0 = (true, fv key, s.host)) (hv : c.value fv = .val n) :
    let thnStart := s.ip + c.code.length + 5
    let elsStart := thnStart + thn.length + 5
    let done := elsStart + els.length
    done = s.ip + (ifCode c.code thn els).length ∧ At E.prog thnStart thn ∧ At E.prog elsStart els ∧
    (n ≠ 0 → Reach E s { s with ip := thnStart }) ∧
    (n = 0 → Reach E s { s with ip := elsStart }) ∧
    (∀ t : St σ, t.ip = thnStart + thn.length → step E t = .run { t with ip := done }) := by
  have hat' : At E.prog s.ip (c.code ++ ((0x50 :: leBytes 4 (BitVec.ofNat 64 (thn.length + 5))) ++ (thn ++
    ((0x52 :: leBytes 4 (BitVec.ofNat 64 els.length)) ++ els)))) := by
    unfold ifCode at hat; simpa only [List.append_assoc] using hat
  have hlen : ∀ v : Nat, ∀ b : Byte, (b :: leBytes 4 (BitVec.ofNat 64 v)).length = 5 := by simp
  have hend := hat'.le (by simp)
  have h1 := hat'.right.left
  have h2 := hat'.right.right
  rw [hlen] at h2
  have h3 := h2.right.left
  have h4 := h2.right.right
  rw [hlen] at h4
  have hev := C41_eval_partial E fv c s hat'.left hd hh
  rw [hv] at hev
  obtain ⟨w, rfl, hr⟩ := hev
  simp only [List.length_append, hlen] at hend
  have hjin : step E { s with ip := s.ip + c.code.length, stack := w :: s.stack } =
      if w = 0 then .run { s with ip := s.ip + c.code.length + 5 + thn.length + 5 }
      else .run { s with ip := s.ip + c.code.length + 5 } := by
    rw [step_pre h1, pre_unaligned 0x50 _ rfl]
    show handleJumpIfNot E _ = _
    unfold handleJumpIfNot
    refine fet_ok h1.tail (by simp) (by omega) ?_
    dsimp only
    by_cases hw : w = 0
    · rw [if_pos hw, if_pos hw, goto_ahead ht (by omega)]
      simp [Nat.add_assoc]
    · rw [if_neg hw, if_neg hw]
  refine ⟨?_, h2.left, h4, ?_, ?_, ?_⟩
  · simp [ifCode]; omega
  · intro h0
    rw [if_neg (fun e => h0 (by rw [e]; rfl))] at hjin
    exact hr.snoc hjin
  · intro h0
    rw [if_pos (BitVec.eq_of_toNat_eq h0)] at hjin
    exact hr.snoc hjin
  · intro t hti
    rw [← hti] at h3
    rw [step_pre h3, pre_unaligned 0x52 _ rfl]
    show handleJump E _ = _
    unfold handleJump
    refine fet_ok h3.tail (by simp) (by omega) ?_
    rw [goto_ahead he (by show t.ip + 1 + 4 + els.length ≤ _; omega)]
    simp [hti, Nat.add_assoc]

/-- The whole statement: what the chosen block does is what the statement does. -/
theorem C51_statement (E : Env σ) (fv : Nat → Word) (c : IExpr) (thn els : List Byte) (s t : St σ) (n : Nat)
    (hat : At E.prog s.ip (ifCode c.code thn els)) (ht : thn.length + 5 < 2 ^ 31) (he : els.length < 2 ^ 31)
    (hd : s.stack.length + c.depth ≤ 8)
    (hh : ∀ key, E.host.scalar s.host key 0x60 0 = (true, fv key, s.host)) (hv : c.value fv = .val n)
    (hthn : n ≠ 0 → Reach E { s with ip := s.ip + c.code.length + 5 } { t with ip := s.ip + c.code.length + 5 + thn.length })
    (hels : n = 0 → Reach E { s with ip := s.ip + c.code.length + 5 + thn.length + 5 }
      { t with ip := s.ip + c.code.length + 5 + thn.length + 5 + els.length }) :
    Reach E s { t with ip := s.ip + (ifCode c.code thn els).length } := by
  obtain ⟨h1, -, -, h4, h5, h6⟩ := C51_if_else E fv c thn els s n hat ht he hd hh hv
  rw [← h1]
  by_cases h0 : n = 0
  · exact (h5 h0).trans (hels h0)
  · exact ((h4 h0).trans (hthn h0)).snoc (h6 _ rfl)

/-- A packet with `if (field1 == 2) { u8 field0 } else { u16 field0 }`: hypotheses met, first branch taken. -/
example : Reach (Demo.ctxEnv (ifCode (IExpr.code (.bin .eq (.fld 1 0) (.lit 2))) [0x10, 0, 0] [0x11, 0, 0]) false fun _ => 2)
    (Demo.ctxStart [7, 8]) { Demo.ctxStart [7, 8] with ip := 29, cursor := 1 } :=
  C51_statement (Demo.ctxEnv (ifCode (IExpr.code (.bin .eq (.fld 1 0) (.lit 2))) [0x10, 0, 0] [0x11, 0, 0]) false fun _ => 2)
    (fun _ => 2) (.bin .eq (.fld 1 0) (.lit 2)) [0x10, 0, 0] [0x11, 0, 0] (Demo.ctxStart [7, 8])
    { Demo.ctxStart [7, 8] with cursor := 1 } 1 ⟨[], by simp [Demo.ctxEnv, Demo.ctxStart]⟩ (by decide) (by decide)
    (by decide) (fun _ => rfl) (by decide +kernel) (fun _ => Reach.one rfl) (fun h => by cases h)

end Cnd
