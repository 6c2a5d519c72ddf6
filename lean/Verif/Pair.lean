import Verif.VMLemmas
import Verif.Run
/-
  Comparing two runs instruction by instruction (used for C33 and C34).
-/

set_option linter.unusedVariables false

namespace Cnd
variable {σ : Type}

/-- Two instruction results of the same kind whose states are related. -/
def Pair (P : St σ → St σ → Prop) : Res σ → Res σ → Prop
  | .run a, .run b => P a b
  | .stop e a, .stop e' b => e = e' ∧ P a b
  | .ub u, .ub u' => u = u'
  | _, _ => False

section
variable {P : St σ → St σ → Prop} {E : Env σ} {a b : St σ}

theorem pair_run (h : P a b) : Pair P (.run a) (.run b) := h
theorem pair_stop {e : Err} (h : P a b) : Pair P (.stop e a) (.stop e b) := ⟨rfl, h⟩
theorem pair_ub {u : UB} : Pair P (.ub u) (.ub u) := rfl

theorem pair_ite {c c' : Prop} [Decidable c] [Decidable c'] {x y x' y' : Res σ} (hc : c' ↔ c)
    (h1 : c → Pair P x x') (h2 : ¬ c → Pair P y y') :
    Pair P (if c then x else y) (if c' then x' else y') := by
  by_cases h : c
  · rw [if_pos h, if_pos (hc.2 h)]; exact h1 h
  · rw [if_neg h, if_neg (fun h' => h (hc.1 h'))]; exact h2 h

theorem pair_fet {n : Nat} {k k' : Word → St σ → Res σ} (hip : b.ip = a.ip)
    (h : ∀ v ip, Pair P (k v { a with ip := ip }) (k' v { b with ip := ip })) :
    Pair P (fet E a n k) (fet E b n k') := by
  unfold fet
  rw [hip]
  exact h _ _

theorem pair_callNotify {key key' : Nat} {op : Byte} {k k' : St σ → Res σ} (hh : b.host = a.host) (hkey : key' = key)
    (h : ∀ g, Pair P (k { a with host := g }) (k' { b with host := g }))
    (hs : ∀ g, P { a with host := g } { b with host := g }) :
    Pair P (callNotify E a key op k) (callNotify E b key' op k') := by
  cases a; cases b; dsimp only at *; subst_vars
  unfold callNotify
  dsimp only
  split
  · exact h _
  · exact ⟨rfl, hs _⟩

theorem pair_callScalar {key key' n n' : Nat} {op op' : Byte} {v v' : Word} {k k' : St σ → Word → Res σ}
    (hh : b.host = a.host) (hkey : key' = key) (hv : v' = v) (hop : op' = op) (hn : n' = n)
    (h : ∀ g w, Pair P (k { a with host := g } (truncB n w)) (k' { b with host := g } (truncB n w)))
    (hs : ∀ g, P { a with host := g } { b with host := g }) :
    Pair P (callScalar E a key op n v k) (callScalar E b key' op' n' v' k') := by
  cases a; cases b; dsimp only at *; subst_vars
  unfold callScalar
  dsimp only
  split
  · exact h _ _
  · exact ⟨rfl, hs _⟩

theorem pair_callStr {key key' : Nat} {op : Byte} {k k' : St σ → List Byte → Res σ} (hh : b.host = a.host) (hkey : key' = key)
    (ho : b.opt = a.opt)
    (h : ∀ g w, Pair P (k { a with host := g } w) (k' { b with host := g } w))
    (hs : ∀ g, P { a with host := g } { b with host := g })
    (hs2 : ∀ g, P { a with host := g, opt := false } { b with host := g, opt := false }) :
    Pair P (callStr E a key op k) (callStr E b key' op k') := by
  cases a; cases b; dsimp only at *; subst_vars
  unfold callStr
  dsimp only
  split
  · exact h _ _
  · split
    · exact hs2 _
    · exact ⟨rfl, hs _⟩

theorem pair_callAt {key key' p p' : Nat} {op : Byte} {k k' : St σ → Res σ} {l l' : St σ → Res σ} (hh : b.host = a.host)
    (hb : b.buf = a.buf) (he : b.be = a.be) (hkey : key' = key) (hp : p' = p)
    (h : ∀ g bs, Pair P (k { a with host := g, buf := bs }) (k' { b with host := g, buf := bs }))
    (h2 : ∀ g bs, Pair P (l { a with host := g, buf := bs }) (l' { b with host := g, buf := bs })) :
    Pair P (callAt E a key op p k l) (callAt E b key' op p' k' l') := by
  cases a; cases b; dsimp only at *; subst_vars
  unfold callAt
  dsimp only
  split
  · exact h _ _
  · exact h2 _ _

theorem pair_rdAt {p p' n n' : Nat} {k k' : Word → Res σ} (hb : b.buf = a.buf) (he : b.be = a.be) (hp : p' = p) (hn : n' = n)
    (h : ∀ w, Pair P (k w) (k' w)) : Pair P (rdAt a p n k) (rdAt b p' n' k') := by
  cases a; cases b; dsimp only at *; subst_vars
  unfold rdAt
  dsimp only
  split
  · exact rfl
  · exact h _

theorem pair_wrAt {p p' n n' : Nat} {w w' : Word} {k k' : St σ → Res σ} (hb : b.buf = a.buf) (he : b.be = a.be) (hp : p' = p)
    (hn : n' = n) (hw : w' = w)
    (h : ∀ bs, Pair P (k { a with buf := bs }) (k' { b with buf := bs })) : Pair P (wrAt a p n w k) (wrAt b p' n' w' k') := by
  cases a; cases b; dsimp only at *; subst_vars
  unfold wrAt
  dsimp only
  split
  · exact rfl
  · exact h _

theorem pair_wrRaw {p p' : Nat} {w w' : List Byte} {k k' : St σ → Res σ} (hb : b.buf = a.buf) (hp : p' = p)
    (hw : w' = w)
    (h : ∀ bs, Pair P (k { a with buf := bs }) (k' { b with buf := bs })) : Pair P (wrRaw a p w k) (wrRaw b p' w' k') := by
  cases a; cases b; dsimp only at *; subst_vars
  unfold wrRaw
  dsimp only
  split
  · exact rfl
  · exact h _

theorem pair_putBits {v v' : Word} {n n' : Nat} {k k' : St σ → Res σ} (hb : b.buf = a.buf) (he : b.be = a.be)
    (hc : b.cursor = a.cursor) (ho : b.bit = a.bit) (hv : v' = v) (hn : n' = n)
    (h : ∀ bs c o, Pair P (k { a with buf := bs, cursor := c, bit := o }) (k' { b with buf := bs, cursor := c, bit := o })) :
    Pair P (putBits a v n k) (putBits b v' n' k') := by
  cases a; cases b; dsimp only at *; subst_vars
  unfold putBits
  dsimp only
  split
  · exact rfl
  · exact h _ _ _

theorem pair_getBits {n n' : Nat} {k k' : Word → St σ → Res σ} (hb : b.buf = a.buf) (he : b.be = a.be)
    (hc : b.cursor = a.cursor) (ho : b.bit = a.bit) (hn : n' = n)
    (h : ∀ v c o, Pair P (k v { a with cursor := c, bit := o }) (k' v { b with cursor := c, bit := o })) :
    Pair P (getBits a n k) (getBits b n' k') := by
  cases a; cases b; dsimp only at *; subst_vars
  unfold getBits
  dsimp only
  split
  · exact rfl
  · exact h _ _ _

theorem pair_pushLoop {n n' : Nat} (hl : b.loops = a.loops) (hn : n' = n) (hp : P a b)
    (h : P { a with loops := ⟨a.ip, n⟩ :: a.loops } { b with loops := ⟨b.ip, n⟩ :: a.loops }) :
    Pair P (pushLoop a n) (pushLoop b n') := by
  cases a; cases b; dsimp only at *; subst_vars
  unfold pushLoop
  dsimp only
  split
  · exact ⟨rfl, hp⟩
  · exact h

theorem pair_push {v v' : Word} (hl : b.stack = a.stack) (hv : v' = v) (hp : P a b)
    (h : P { a with stack := v :: a.stack } { b with stack := v :: a.stack }) :
    Pair P (push a v) (push b v') := by
  cases a; cases b; dsimp only at *; subst_vars
  unfold push
  dsimp only
  split
  · exact ⟨rfl, hp⟩
  · exact h

theorem pair_goto {base base' : Nat} {off off' : Word} (hb : base' = base) (ho : off' = off) (hp : P a b)
    (h : ∀ t, P { a with ip := t } { b with ip := t }) :
    Pair P (goto E a base off) (goto E b base' off') := by
  unfold goto
  subst hb ho
  split
  · exact ⟨rfl, hp⟩
  · exact h _

end

/-! ### C33: the leftovers of an earlier run -/

/-- The fields of the context that cnd_init does not set. -/
structure Refs where
  pp : Nat
  pc : Nat
  sp : Nat
  sc : Nat

def St.refs (s : St σ) (r : Refs) : St σ := { s with polyPos := r.pp, polyCnt := r.pc, splPos := r.sp, splCnt := r.sc }

/-- Same state up to leftovers that no pending transform refers to. -/
def Fresh (a b : St σ) : Prop :=
  ∃ r : Refs, b = a.refs r ∧ (a.trans = .poly → r.pp = a.polyPos ∧ r.pc = a.polyCnt) ∧
    (a.trans = .spline → r.sp = a.splPos ∧ r.sc = a.splCnt)

macro "fresh_close" : tactic => `(tactic| first
  | exact ⟨_, rfl, by assumption, by assumption⟩
  | exact ⟨_, rfl, (fun h => by cases h), (fun h => by cases h)⟩
  | exact ⟨⟨_, _, _, _⟩, rfl, fun _ => ⟨rfl, rfl⟩, (fun h => by cases h)⟩
  | exact ⟨⟨_, _, _, _⟩, rfl, (fun h => by cases h), fun _ => ⟨rfl, rfl⟩⟩
  | exact ⟨⟨_, _, _, _⟩, rfl, by assumption, by assumption⟩)

macro "pair_rule" : tactic => `(tactic| first
  | (with_reducible apply pair_run)
  | (with_reducible apply pair_stop)
  | exact pair_ub
  | with_reducible apply pair_fet
  | with_reducible apply pair_callScalar
  | with_reducible apply pair_callNotify
  | with_reducible apply pair_callStr
  | with_reducible apply pair_callAt
  | with_reducible apply pair_rdAt
  | with_reducible apply pair_wrAt
  | with_reducible apply pair_wrRaw
  | with_reducible apply pair_putBits
  | with_reducible apply pair_getBits
  | with_reducible apply pair_pushLoop
  | with_reducible apply pair_push
  | with_reducible apply pair_goto
  | with_reducible apply pair_ite)

macro "pair_match" : tactic => `(tactic|
  (dsimp only [St.refs]; split <;> (try simp only [*])))

macro "pair_sweep" : tactic => `(tactic|
  repeat' (first | intro _ | rfl | fresh_close | exact Iff.rfl | pair_rule | pair_match))

section
variable {E : Env σ}

theorem handlePrim_fresh (t : Ty) (op : Byte) {s : St σ} {r : Refs}
    (h1 : s.trans = .poly → r.pp = s.polyPos ∧ r.pc = s.polyCnt)
    (h2 : s.trans = .spline → r.sp = s.splPos ∧ r.sc = s.splCnt) :
    Pair Fresh (handlePrim E t op s) (handlePrim E t op (s.refs r)) := by
  unfold handlePrim
  apply pair_fet
  · rfl
  intro v ip
  apply pair_ite Iff.rfl
  · intro _
    pair_sweep
  · intro _
    have ht : (s.refs r).trans = s.trans := rfl
    dsimp only
    simp only [ht]
    cases htr : s.trans <;> simp only [htr, reduceCtorEq, false_implies, forall_const] at h1 h2 <;> dsimp only
    case poly =>
      obtain ⟨pp, pc, sp, sc⟩ := r
      obtain ⟨rfl, rfl⟩ := h1
      dsimp only [St.refs]
      apply pair_ite Iff.rfl
      · intro _; exact pair_ub
      intro _
      pair_sweep
    case spline =>
      obtain ⟨pp, pc, sp, sc⟩ := r
      obtain ⟨rfl, rfl⟩ := h2
      dsimp only [St.refs]
      apply pair_ite Iff.rfl
      · intro _; exact pair_ub
      intro _
      pair_sweep
    all_goals pair_sweep

theorem handleBool_fresh (op : Byte) {s : St σ} {r : Refs}
    (h1 : s.trans = .poly → r.pp = s.polyPos ∧ r.pc = s.polyCnt)
    (h2 : s.trans = .spline → r.sp = s.splPos ∧ r.sc = s.splCnt) :
    Pair Fresh (handleBool E op s) (handleBool E op (s.refs r)) := by
  unfold handleBool
  try dsimp only
  pair_sweep

theorem handleBitU_fresh (op : Byte) {s : St σ} {r : Refs}
    (h1 : s.trans = .poly → r.pp = s.polyPos ∧ r.pc = s.polyCnt)
    (h2 : s.trans = .spline → r.sp = s.splPos ∧ r.sc = s.splCnt) :
    Pair Fresh (handleBitU E op s) (handleBitU E op (s.refs r)) := by
  unfold handleBitU
  try dsimp only
  pair_sweep

theorem handleBitI_fresh (op : Byte) {s : St σ} {r : Refs}
    (h1 : s.trans = .poly → r.pp = s.polyPos ∧ r.pc = s.polyCnt)
    (h2 : s.trans = .spline → r.sp = s.splPos ∧ r.sc = s.splCnt) :
    Pair Fresh (handleBitI E op s) (handleBitI E op (s.refs r)) := by
  unfold handleBitI
  try dsimp only
  pair_sweep

theorem handleBitBool_fresh (op : Byte) {s : St σ} {r : Refs}
    (h1 : s.trans = .poly → r.pp = s.polyPos ∧ r.pc = s.polyCnt)
    (h2 : s.trans = .spline → r.sp = s.splPos ∧ r.sc = s.splCnt) :
    Pair Fresh (handleBitBool E op s) (handleBitBool E op (s.refs r)) := by
  unfold handleBitBool
  try dsimp only
  pair_sweep

theorem handlePad_fresh  {s : St σ} {r : Refs}
    (h1 : s.trans = .poly → r.pp = s.polyPos ∧ r.pc = s.polyCnt)
    (h2 : s.trans = .spline → r.sp = s.splPos ∧ r.sc = s.splCnt) :
    Pair Fresh (handlePad E  s) (handlePad E  (s.refs r)) := by
  unfold handlePad
  try dsimp only
  pair_sweep

theorem handleFill_fresh  {s : St σ} {r : Refs}
    (h1 : s.trans = .poly → r.pp = s.polyPos ∧ r.pc = s.polyCnt)
    (h2 : s.trans = .spline → r.sp = s.splPos ∧ r.sc = s.splCnt) :
    Pair Fresh (handleFill E  s) (handleFill E  (s.refs r)) := by
  unfold handleFill
  try dsimp only
  pair_sweep

theorem handleStrNull_fresh (op : Byte) {s : St σ} {r : Refs}
    (h1 : s.trans = .poly → r.pp = s.polyPos ∧ r.pc = s.polyCnt)
    (h2 : s.trans = .spline → r.sp = s.splPos ∧ r.sc = s.splCnt) :
    Pair Fresh (handleStrNull E op s) (handleStrNull E op (s.refs r)) := by
  unfold handleStrNull
  try dsimp only
  pair_sweep

theorem handleStrPre_fresh (p : Pre) (op : Byte) {s : St σ} {r : Refs}
    (h1 : s.trans = .poly → r.pp = s.polyPos ∧ r.pc = s.polyCnt)
    (h2 : s.trans = .spline → r.sp = s.splPos ∧ r.sc = s.splCnt) :
    Pair Fresh (handleStrPre E p op s) (handleStrPre E p op (s.refs r)) := by
  unfold handleStrPre
  try dsimp only
  pair_sweep

theorem handleRaw_fresh (op : Byte) {s : St σ} {r : Refs}
    (h1 : s.trans = .poly → r.pp = s.polyPos ∧ r.pc = s.polyCnt)
    (h2 : s.trans = .spline → r.sp = s.splPos ∧ r.sc = s.splCnt) :
    Pair Fresh (handleRaw E op s) (handleRaw E op (s.refs r)) := by
  unfold handleRaw
  try dsimp only
  pair_sweep

theorem handleArrEof_fresh  {s : St σ} {r : Refs}
    (h1 : s.trans = .poly → r.pp = s.polyPos ∧ r.pc = s.polyCnt)
    (h2 : s.trans = .spline → r.sp = s.splPos ∧ r.sc = s.splCnt) :
    Pair Fresh (handleArrEof E  s) (handleArrEof E  (s.refs r)) := by
  unfold handleArrEof
  try dsimp only
  pair_sweep

theorem handleJump_fresh  {s : St σ} {r : Refs}
    (h1 : s.trans = .poly → r.pp = s.polyPos ∧ r.pc = s.polyCnt)
    (h2 : s.trans = .spline → r.sp = s.splPos ∧ r.sc = s.splCnt) :
    Pair Fresh (handleJump E  s) (handleJump E  (s.refs r)) := by
  unfold handleJump
  try dsimp only
  pair_sweep

theorem handleSwitch_fresh  {s : St σ} {r : Refs}
    (h1 : s.trans = .poly → r.pp = s.polyPos ∧ r.pc = s.polyCnt)
    (h2 : s.trans = .spline → r.sp = s.splPos ∧ r.sc = s.splCnt) :
    Pair Fresh (handleSwitch E  s) (handleSwitch E  (s.refs r)) := by
  unfold handleSwitch
  try dsimp only
  pair_sweep

theorem handleSwitchTable_fresh  {s : St σ} {r : Refs}
    (h1 : s.trans = .poly → r.pp = s.polyPos ∧ r.pc = s.polyCnt)
    (h2 : s.trans = .spline → r.sp = s.splPos ∧ r.sc = s.splCnt) :
    Pair Fresh (handleSwitchTable E  s) (handleSwitchTable E  (s.refs r)) := by
  unfold handleSwitchTable
  try dsimp only
  pair_sweep

theorem handleLoadCtx_fresh (op : Byte) {s : St σ} {r : Refs}
    (h1 : s.trans = .poly → r.pp = s.polyPos ∧ r.pc = s.polyCnt)
    (h2 : s.trans = .spline → r.sp = s.splPos ∧ r.sc = s.splCnt) :
    Pair Fresh (handleLoadCtx E op s) (handleLoadCtx E op (s.refs r)) := by
  unfold handleLoadCtx
  try dsimp only
  pair_sweep

theorem handleFloat_fresh (dbl : Bool) (op : Byte) {s : St σ} {r : Refs}
    (h1 : s.trans = .poly → r.pp = s.polyPos ∧ r.pc = s.polyCnt)
    (h2 : s.trans = .spline → r.sp = s.splPos ∧ r.sc = s.splCnt) :
    Pair Fresh (handleFloat E dbl op s) (handleFloat E dbl op (s.refs r)) := by
  unfold handleFloat
  dsimp only
  apply pair_fet
  · rfl
  intro key ip
  apply pair_ite Iff.rfl
  · intro _
    pair_sweep
  · intro _
    have ht : (s.refs r).trans = s.trans := rfl
    have hi : (s.refs r).iVal = s.iVal := rfl
    dsimp only
    rw [ht]
    cases htr : s.trans
    case none => pair_sweep
    case scale => pair_sweep
    case poly =>
      obtain ⟨pp, pc, sp, sc⟩ := r
      obtain ⟨rfl, rfl⟩ := h1 htr
      apply pair_ite Iff.rfl
      · intro _
        pair_sweep
      · intro _
        apply pair_rdAt
        any_goals rfl
        intro w
        generalize (if dbl = true then E.fl.toTy Ty.i64 w else E.fl.f32toI64 (BitVec.setWidth 32 w)) = o
        cases o with
        | none => exact pair_ub
        | some v => pair_sweep
    case spline =>
      obtain ⟨pp, pc, sp, sc⟩ := r
      obtain ⟨rfl, rfl⟩ := h2 htr
      apply pair_ite Iff.rfl
      · intro _
        pair_sweep
      · intro _
        apply pair_rdAt
        any_goals rfl
        intro w
        generalize (if dbl = true then E.fl.toTy Ty.i64 w else E.fl.f32toI64 (BitVec.setWidth 32 w)) = o
        cases o with
        | none => exact pair_ub
        | some v => pair_sweep
    all_goals
      simp only [htr, reduceCtorEq, false_implies] at h1 h2
      apply pair_ite Iff.rfl
      · intro _
        pair_sweep
      · intro _
        apply pair_rdAt
        any_goals rfl
        intro w
        generalize (if dbl = true then E.fl.toTy Ty.i64 w else E.fl.f32toI64 (BitVec.setWidth 32 w)) = o
        cases o with
        | none => exact pair_ub
        | some v => pair_sweep

theorem enterArray_fresh (n : Nat) {s : St σ} {r : Refs}
    (h1 : s.trans = .poly → r.pp = s.polyPos ∧ r.pc = s.polyCnt)
    (h2 : s.trans = .spline → r.sp = s.splPos ∧ r.sc = s.splCnt) :
    Pair Fresh (enterArray E s n) (enterArray E (s.refs r) n) := by
  unfold enterArray
  apply pair_ite Iff.rfl
  · intro _
    pair_sweep
  · intro _
    show Pair Fresh (match E.prog[s.ip]?, E.prog[s.ip + 3]? with
      | some nextOp, some afterOp => _ | _, _ => _) (match E.prog[s.ip]?, E.prog[s.ip + 3]? with
      | some nextOp, some afterOp => _ | _, _ => _)
    generalize E.prog[s.ip]? = o1
    generalize E.prog[s.ip + 3]? = o2
    cases o1 <;> cases o2 <;> pair_sweep

theorem handleArrEnd_fresh  {s : St σ} {r : Refs}
    (h1 : s.trans = .poly → r.pp = s.polyPos ∧ r.pc = s.polyCnt)
    (h2 : s.trans = .spline → r.sp = s.splPos ∧ r.sc = s.splCnt) :
    Pair Fresh (handleArrEnd E  s) (handleArrEnd E  (s.refs r)) := by
  unfold handleArrEnd
  have hl : (s.refs r).loops = s.loops := rfl
  rw [hl]
  cases s.loops
  · pair_sweep
  · pair_sweep

theorem handleConstWrite_fresh  {s : St σ} {r : Refs}
    (h1 : s.trans = .poly → r.pp = s.polyPos ∧ r.pc = s.polyCnt)
    (h2 : s.trans = .spline → r.sp = s.splPos ∧ r.sc = s.splCnt) :
    Pair Fresh (handleConstWrite E  s) (handleConstWrite E  (s.refs r)) := by
  unfold handleConstWrite
  try dsimp only
  pair_sweep

theorem handleConstCheck_fresh  {s : St σ} {r : Refs}
    (h1 : s.trans = .poly → r.pp = s.polyPos ∧ r.pc = s.polyCnt)
    (h2 : s.trans = .spline → r.sp = s.splPos ∧ r.sc = s.splCnt) :
    Pair Fresh (handleConstCheck E  s) (handleConstCheck E  (s.refs r)) := by
  unfold handleConstCheck
  try dsimp only
  pair_sweep

theorem handleEnum_fresh  {s : St σ} {r : Refs}
    (h1 : s.trans = .poly → r.pp = s.polyPos ∧ r.pc = s.polyCnt)
    (h2 : s.trans = .spline → r.sp = s.splPos ∧ r.sc = s.splCnt) :
    Pair Fresh (handleEnum E  s) (handleEnum E  (s.refs r)) := by
  unfold handleEnum
  apply pair_fet
  · rfl
  intro tag ip
  apply pair_fet
  · rfl
  intro count ip
  cases tyTag tag with
  | none => pair_sweep
  | some t =>
    dsimp only
    apply pair_ite Iff.rfl
    · intro _; exact pair_ub
    · intro _
      apply pair_rdAt
      any_goals rfl
      intro w
      cases enumScan E.prog t.size w count.toNat ip <;> pair_sweep

theorem handleRange_fresh  {s : St σ} {r : Refs}
    (h1 : s.trans = .poly → r.pp = s.polyPos ∧ r.pc = s.polyCnt)
    (h2 : s.trans = .spline → r.sp = s.splPos ∧ r.sc = s.splCnt) :
    Pair Fresh (handleRange E  s) (handleRange E  (s.refs r)) := by
  unfold handleRange
  try dsimp only
  pair_sweep

theorem handleCrc_fresh (w32 : Bool) {s : St σ} {r : Refs}
    (h1 : s.trans = .poly → r.pp = s.polyPos ∧ r.pc = s.polyCnt)
    (h2 : s.trans = .spline → r.sp = s.splPos ∧ r.sc = s.splCnt) :
    Pair Fresh (handleCrc E w32 s) (handleCrc E w32 (s.refs r)) := by
  unfold handleCrc
  try dsimp only
  pair_sweep

theorem handleJumpIfNot_fresh  {s : St σ} {r : Refs}
    (h1 : s.trans = .poly → r.pp = s.polyPos ∧ r.pc = s.polyCnt)
    (h2 : s.trans = .spline → r.sp = s.splPos ∧ r.sc = s.splCnt) :
    Pair Fresh (handleJumpIfNot E  s) (handleJumpIfNot E  (s.refs r)) := by
  unfold handleJumpIfNot
  try dsimp only
  pair_sweep

theorem handleStoreCtx_fresh (op : Byte) {s : St σ} {r : Refs}
    (h1 : s.trans = .poly → r.pp = s.polyPos ∧ r.pc = s.polyCnt)
    (h2 : s.trans = .spline → r.sp = s.splPos ∧ r.sc = s.splCnt) :
    Pair Fresh (handleStoreCtx E op s) (handleStoreCtx E op (s.refs r)) := by
  unfold handleStoreCtx
  try dsimp only
  pair_sweep

theorem handleEmit_fresh  {s : St σ} {r : Refs}
    (h1 : s.trans = .poly → r.pp = s.polyPos ∧ r.pc = s.polyCnt)
    (h2 : s.trans = .spline → r.sp = s.splPos ∧ r.sc = s.splCnt) :
    Pair Fresh (handleEmit E  s) (handleEmit E  (s.refs r)) := by
  unfold handleEmit
  dsimp only
  apply pair_fet
  · rfl
  intro tag ip
  have hl : (s.refs r).stack = s.stack := rfl
  dsimp only
  rw [hl]
  cases s.stack with
  | nil => pair_sweep
  | cons v vs =>
    dsimp only
    cases emitSize tag <;> pair_sweep

theorem handleArrPre_fresh (p : Pre) (op : Byte) {s : St σ} {r : Refs}
    (h1 : s.trans = .poly → r.pp = s.polyPos ∧ r.pc = s.polyCnt)
    (h2 : s.trans = .spline → r.sp = s.splPos ∧ r.sc = s.splCnt) :
    Pair Fresh (handleArrPre E p op s) (handleArrPre E p op (s.refs r)) := by
  unfold handleArrPre
  try dsimp only
  pair_sweep
  all_goals exact enterArray_fresh (r := r) _ h1 h2

theorem handleArrFixed_fresh (op : Byte) {s : St σ} {r : Refs}
    (h1 : s.trans = .poly → r.pp = s.polyPos ∧ r.pc = s.polyCnt)
    (h2 : s.trans = .spline → r.sp = s.splPos ∧ r.sc = s.splCnt) :
    Pair Fresh (handleArrFixed E op s) (handleArrFixed E op (s.refs r)) := by
  unfold handleArrFixed
  try dsimp only
  pair_sweep
  all_goals exact enterArray_fresh (r := r) _ h1 h2

theorem handleArrDynamic_fresh (op : Byte) {s : St σ} {r : Refs}
    (h1 : s.trans = .poly → r.pp = s.polyPos ∧ r.pc = s.polyCnt)
    (h2 : s.trans = .spline → r.sp = s.splPos ∧ r.sc = s.splCnt) :
    Pair Fresh (handleArrDynamic E op s) (handleArrDynamic E op (s.refs r)) := by
  unfold handleArrDynamic
  try dsimp only
  pair_sweep
  all_goals exact enterArray_fresh (r := r) _ h1 h2

theorem aluDone_fresh (x : Alu) {s : St σ} {r : Refs}
    (h1 : s.trans = .poly → r.pp = s.polyPos ∧ r.pc = s.polyCnt)
    (h2 : s.trans = .spline → r.sp = s.splPos ∧ r.sc = s.splCnt) :
    Pair Fresh (aluDone s x) (aluDone (s.refs r) x) := by
  cases x <;> unfold aluDone <;> pair_sweep

theorem binary_fresh (f : Word → Word → Alu) {s : St σ} {r : Refs}
    (h1 : s.trans = .poly → r.pp = s.polyPos ∧ r.pc = s.polyCnt)
    (h2 : s.trans = .spline → r.sp = s.splPos ∧ r.sc = s.splCnt) :
    Pair Fresh (binary s f) (binary (s.refs r) f) := by
  unfold binary
  have hl : (s.refs r).stack = s.stack := rfl
  rw [hl]
  rcases s.stack with _ | ⟨b, _ | ⟨a, rest⟩⟩
  · pair_sweep
  · pair_sweep
  · exact aluDone_fresh (s := { s with stack := rest }) (r := r) (f a b) h1 h2

theorem unary_fresh (f : Word → Alu) {s : St σ} {r : Refs}
    (h1 : s.trans = .poly → r.pp = s.polyPos ∧ r.pc = s.polyCnt)
    (h2 : s.trans = .spline → r.sp = s.splPos ∧ r.sc = s.splCnt) :
    Pair Fresh (unary s f) (unary (s.refs r) f) := by
  unfold unary
  have hl : (s.refs r).stack = s.stack := rfl
  rw [hl]
  rcases s.stack with _ | ⟨a, rest⟩
  · pair_sweep
  · exact aluDone_fresh (s := { s with stack := rest }) (r := r) (f a) h1 h2

theorem transI_int (op : Byte) (t : Trans) (h : decodeOp op = .transI t) : t ≠ .poly ∧ t ≠ .spline := by
  have key : ∀ n : Fin 256, decodeOp (BitVec.ofFin n) ≠ .transI .poly ∧ decodeOp (BitVec.ofFin n) ≠ .transI .spline := by
    decide +kernel
  constructor
  · rintro rfl
    exact (key op.toFin).1 h
  · rintro rfl
    exact (key op.toFin).2 h

theorem execOp_fresh (op : Byte) {s : St σ} {r : Refs}
    (h1 : s.trans = .poly → r.pp = s.polyPos ∧ r.pc = s.polyCnt)
    (h2 : s.trans = .spline → r.sp = s.splPos ∧ r.sc = s.splCnt) :
    Pair Fresh (execOp E op s) (execOp E op (s.refs r)) := by
  unfold execOp
  have hti := transI_int op
  cases hd : decodeOp op <;> dsimp only
  case transI t =>
    apply pair_fet
    · rfl
    intro v ip
    exact ⟨r, rfl, fun h => absurd h (hti t hd).1, fun h => absurd h (hti t hd).2⟩
  case io t => exact handlePrim_fresh t op h1 h2
  case ioF32 => exact handleFloat_fresh _ op h1 h2
  case ioF64 => exact handleFloat_fresh _ op h1 h2
  case ioBool => exact handleBool_fresh op h1 h2
  case bitU => exact handleBitU_fresh op h1 h2
  case bitI => exact handleBitI_fresh op h1 h2
  case bitBool => exact handleBitBool_fresh op h1 h2
  case alignPad => exact handlePad_fresh h1 h2
  case alignFill => exact handleFill_fresh h1 h2
  case strNull => exact handleStrNull_fresh op h1 h2
  case strPre p => exact handleStrPre_fresh p op h1 h2
  case arrFixed => exact handleArrFixed_fresh op h1 h2
  case arrPre p => exact handleArrPre_fresh p op h1 h2
  case arrEnd => exact handleArrEnd_fresh h1 h2
  case rawBytes => exact handleRaw_fresh op h1 h2
  case arrEof => exact handleArrEof_fresh h1 h2
  case arrDynamic => exact handleArrDynamic_fresh op h1 h2
  case constCheck => exact handleConstCheck_fresh h1 h2
  case constWrite => exact handleConstWrite_fresh h1 h2
  case rangeCheck => exact handleRange_fresh h1 h2
  case crc16 => exact handleCrc_fresh _ h1 h2
  case crc32 => exact handleCrc_fresh _ h1 h2
  case enumCheck => exact handleEnum_fresh h1 h2
  case jumpIfNot => exact handleJumpIfNot_fresh h1 h2
  case switch => exact handleSwitch_fresh h1 h2
  case jump => exact handleJump_fresh h1 h2
  case switchTable => exact handleSwitchTable_fresh h1 h2
  case loadCtx => exact handleLoadCtx_fresh op h1 h2
  case storeCtx => exact handleStoreCtx_fresh op h1 h2
  case emit => exact handleEmit_fresh h1 h2
  case ibin o => exact binary_fresh _ h1 h2
  case fbin o => exact binary_fresh _ h1 h2
  case un o => exact unary_fresh _ h1 h2
  case pop =>
    have hl : (s.refs r).stack = s.stack := rfl
    rw [hl]
    cases s.stack <;> pair_sweep
  case dup =>
    have hl : (s.refs r).stack = s.stack := rfl
    rw [hl]
    cases s.stack <;> pair_sweep
  all_goals pair_sweep

theorem step_fresh {a b : St σ} (h : Fresh a b) : Pair Fresh (step E a) (step E b) := by
  obtain ⟨r, rfl, h1, h2⟩ := h
  unfold step
  have hi : (a.refs r).ip = a.ip := rfl
  rw [hi]
  cases E.prog[a.ip]? with
  | none => exact ⟨rfl, r, rfl, h1, h2⟩
  | some op =>
    dsimp only
    unfold alignSt
    by_cases hc : (aligns op && a.bit != 0) = true
    · simp only [St.refs, hc, if_true]
      exact execOp_fresh (s := { a with ip := a.ip + 1, cursor := a.cursor + 1, bit := 0 }) (r := r) op h1 h2
    · simp only [St.refs, hc, if_false]
      exact execOp_fresh (s := { a with ip := a.ip + 1 }) (r := r) op h1 h2

theorem exec_fresh (n : Nat) {a b : St σ} (h : Fresh a b) : Pair Fresh (exec E n a) (exec E n b) := by
  induction n generalizing a b with
  | zero => exact h
  | succ n ih =>
    have hs := step_fresh (E := E) h
    rw [exec_succ, exec_succ]
    revert hs
    cases step E a <;> cases step E b <;> intro hs
    · exact ih hs
    all_goals first | exact hs | exact hs.elim

theorem exec_fresh_stop (n : Nat) {a b sf : St σ} {e : Err} (h : Fresh a b) (hx : exec E n a = .stop e sf) :
    ∃ r : Refs, exec E n b = .stop e (sf.refs r) := by
  have := exec_fresh (E := E) n h
  rw [hx] at this
  revert this
  cases exec E n b <;> intro hp
  · exact hp.elim
  · obtain ⟨rfl, r, rfl, _⟩ := hp
    exact ⟨r, rfl⟩
  · exact hp.elim

end

end Cnd
