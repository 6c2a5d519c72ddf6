import Verif.VMLemmas
import Verif.Run
import Verif.Mimic
/-
  The same run on a buffer with more bytes behind (used for C93): whatever an instruction does successfully on the shorter buffer it does
  on the longer one, unless it is one of those that take the end of the buffer for an answer.
-/

set_option linter.unusedVariables false
set_option linter.unusedSimpArgs false

namespace Cnd
variable {σ : Type}

/-- The state with `rest` behind the packet buffer. -/
def St.grow (s : St σ) (rest : List Byte) : St σ := { s with buf := s.buf ++ rest }

def TailedBy (rest : List Byte) (a b : St σ) : Prop := b = { a with buf := a.buf ++ rest }

/-- If the first result is a success, the second is the same with `rest` behind the buffer. -/
def Widens (P : St σ → St σ → Prop) : Res σ → Res σ → Prop
  | .run a, y => ∃ b, y = .run b ∧ P a b
  | .stop .ok a, y => ∃ b, y = .stop .ok b ∧ P a b
  | _, _ => True

/-- Nothing is said about this result. -/
def Spent : Res σ → Prop
  | .run _ => False
  | .stop .ok _ => False
  | _ => True

/-- The instruction about to be executed takes the end of the buffer for an answer: a bit field, padding or alignment with fewer bits left
than it needs, a computed field that starts inside a byte, an optional field that does not fit, or a read-to-end array at the end of the
buffer (or a loop that looks like one, having the count 0xFFFFFFFF). -/
def CutShort (E : Env σ) (s : St σ) : Prop :=
  ∃ op, E.prog[s.ip]? = some op ∧
    let s' := alignSt op { s with ip := s.ip + 1 }
    let bits := 8 * s.buf.length
    let here := 8 * s'.cursor + s'.bit
    match decodeOp op with
    | .io t => s.opt = true ∧ s.buf.length < s'.cursor + t.size
    | .ioF32 => s.opt = true ∧ s.buf.length < s'.cursor + 4
    | .ioF64 => s.opt = true ∧ s.buf.length < s'.cursor + 8
    | .ioBool => s.opt = true ∧ s.buf.length < s'.cursor + 1
    | .bitU | .bitI => bits < here + (fetch E.prog (fetch E.prog s'.ip 2).2 1).1.toNat
    | .bitBool => bits < here + 1
    | .alignPad => bits < here + (fetch E.prog s'.ip 1).1.toNat
    | .alignFill => 0 < s'.bit ∧ bits < here + (8 - s'.bit)
    | .emit => 0 < s'.bit
    | .arrEof => s.buf.length ≤ s'.cursor
    | .arrEnd => (∃ f fs, s.loops = f :: fs ∧ f.rem = 0xFFFFFFFF) ∧ s.buf.length ≤ s'.cursor
    | _ => False

/-- The host does not see where the packet ends: what it accepts at a place of the packet it accepts, with the same effect, when more bytes
follow. When encoding, places of the packet are only shown with raw bytes. -/
def Deaf (E : Env σ) : Prop :=
  (∀ (h : σ) key op be D p rest, (E.enc = true → op = 0x39) → (E.host.bytesAt h key op be D p).1 = true →
    E.host.bytesAt h key op be (D ++ rest) p =
      (true, hostBuf D (E.host.bytesAt h key op be D p).2.1 ++ rest, (E.host.bytesAt h key op be D p).2.2)) ∧
  (NoBulk E.prog ∨ ∀ (h : σ) key be D p, E.host.bytesAt h key 0x39 be D p = (false, D, h))

section
variable {P : St σ → St σ → Prop} {E : Env σ} {a b : St σ}

theorem wid_run (h : P a b) : Widens P (.run a) (.run b) := ⟨b, rfl, h⟩

theorem wid_stop {e : Err} (h : P a b) : Widens P (.stop e a) (.stop e b) := by
  cases e <;> first | exact ⟨b, rfl, h⟩ | exact trivial

theorem wid_spent {x y : Res σ} (h : Spent x) : Widens P x y := by
  cases x with
  | run => exact h.elim
  | ub => exact trivial
  | stop e => cases e <;> first | exact h.elim | exact trivial

theorem wid_ub {u : UB} {y : Res σ} : Widens P (.ub u) y := trivial

theorem wid_oob {c c' : Prop} [Decidable c] [Decidable c'] {x y x' y' : Res σ} (hx : Spent x) (hc : ¬ c → ¬ c')
    (h : ¬ c → Widens P y y') : Widens P (if c then x else y) (if c' then x' else y') := by
  by_cases h1 : c
  · rw [if_pos h1]; exact wid_spent hx
  · rw [if_neg h1, if_neg (hc h1)]; exact h h1

theorem wid_ite {c c' : Prop} [Decidable c] [Decidable c'] {x y x' y' : Res σ} (hc : c' ↔ c)
    (h1 : c → Widens P x x') (h2 : ¬ c → Widens P y y') :
    Widens P (if c then x else y) (if c' then x' else y') := by
  by_cases h : c
  · rw [if_pos h, if_pos (hc.2 h)]; exact h1 h
  · rw [if_neg h, if_neg (fun h' => h (hc.1 h'))]; exact h2 h

theorem wid_fet {n : Nat} {k k' : Word → St σ → Res σ} (hip : b.ip = a.ip)
    (h : Widens P (k (fetch E.prog a.ip n).1 { a with ip := (fetch E.prog a.ip n).2 })
      (k' (fetch E.prog a.ip n).1 { b with ip := (fetch E.prog a.ip n).2 })) :
    Widens P (fet E a n k) (fet E b n k') := by
  unfold fet
  rw [hip]
  exact h

theorem wid_callNotify {key key' : Nat} {op : Byte} {k k' : St σ → Res σ} (hh : b.host = a.host) (hkey : key' = key)
    (h : ∀ g, Widens P (k { a with host := g }) (k' { b with host := g })) :
    Widens P (callNotify E a key op k) (callNotify E b key' op k') := by
  cases a; cases b; dsimp only at *; subst_vars
  unfold callNotify
  dsimp only
  split
  · exact h _
  · exact trivial

theorem wid_callScalar {key key' n n' : Nat} {op op' : Byte} {v v' : Word} {k k' : St σ → Word → Res σ}
    (hh : b.host = a.host) (hkey : key' = key) (hv : v' = v) (hop : op' = op) (hn : n' = n)
    (h : ∀ g w, Widens P (k { a with host := g } (truncB n w)) (k' { b with host := g } (truncB n w))) :
    Widens P (callScalar E a key op n v k) (callScalar E b key' op' n' v' k') := by
  cases a; cases b; dsimp only at *; subst_vars
  unfold callScalar
  dsimp only
  split
  · exact h _ _
  · exact trivial

theorem wid_callStr {key key' : Nat} {op : Byte} {k k' : St σ → List Byte → Res σ} (hh : b.host = a.host) (hkey : key' = key)
    (ho : b.opt = a.opt)
    (h : ∀ g w, Widens P (k { a with host := g } w) (k' { b with host := g } w))
    (hs2 : ∀ g, P { a with host := g, opt := false } { b with host := g, opt := false }) :
    Widens P (callStr E a key op k) (callStr E b key' op k') := by
  cases a; cases b; dsimp only at *; subst_vars
  unfold callStr
  dsimp only
  split
  · exact h _ _
  · split
    · exact wid_run (hs2 _)
    · exact trivial

theorem slice_grow {buf rest bs : List Byte} {p n : Nat} (h : slice buf p n = some bs) : slice (buf ++ rest) p n = some bs := by
  obtain ⟨h1, rfl⟩ := slice_eq_some.1 h
  refine slice_eq_some.2 ⟨by rw [List.length_append]; omega, ?_⟩
  rw [List.drop_append_of_le_length (by omega), List.take_append_of_le_length (by rw [List.length_drop]; omega)]

theorem store_grow {buf rest bs b : List Byte} {p : Nat} (h : store buf p bs = some b) :
    store (buf ++ rest) p bs = some (b ++ rest) := by
  obtain ⟨h1, rfl⟩ := store_eq_some.1 h
  refine store_eq_some.2 ⟨by rw [List.length_append]; omega, ?_⟩
  unfold splice
  rw [List.take_append_of_le_length (by omega), List.drop_append_of_le_length (by omega)]
  simp

theorem wid_rdAt {rest : List Byte} {p p' n n' : Nat} {k k' : Word → Res σ} (hb : b.buf = a.buf ++ rest) (he : b.be = a.be) (hp : p' = p)
    (hn : n' = n) (h : ∀ w, Widens P (k w) (k' w)) : Widens P (rdAt a p n k) (rdAt b p' n' k') := by
  subst hp hn
  unfold rdAt
  cases h1 : slice a.buf p' n' with
  | none => exact trivial
  | some bs =>
    rw [hb, slice_grow h1, he]
    exact h _

theorem wid_wrRaw {rest : List Byte} {p p' : Nat} {w w' : List Byte} {k k' : St σ → Res σ} (hb : b.buf = a.buf ++ rest) (hp : p' = p)
    (hw : w' = w) (h : ∀ bs, Widens P (k { a with buf := bs }) (k' { b with buf := bs ++ rest })) :
    Widens P (wrRaw a p w k) (wrRaw b p' w' k') := by
  subst hp hw
  unfold wrRaw
  cases h1 : store a.buf p' w' with
  | none => exact trivial
  | some bs =>
    rw [hb, store_grow h1]
    exact h _

theorem wid_wrAt {rest : List Byte} {p p' n n' : Nat} {w w' : Word} {k k' : St σ → Res σ} (hb : b.buf = a.buf ++ rest) (he : b.be = a.be)
    (hp : p' = p) (hn : n' = n) (hw : w' = w) (h : ∀ bs, Widens P (k { a with buf := bs }) (k' { b with buf := bs ++ rest })) :
    Widens P (wrAt a p n w k) (wrAt b p' n' w' k') := by
  subst hn hw
  exact wid_wrRaw (w := wrBytes a.be n' w') (w' := wrBytes b.be n' w') hb hp (by rw [he]) h

theorem wid_pushLoop {n n' : Nat} (hl : b.loops = a.loops) (hn : n' = n)
    (h : P { a with loops := ⟨a.ip, n⟩ :: a.loops } { b with loops := ⟨b.ip, n⟩ :: a.loops }) :
    Widens P (pushLoop a n) (pushLoop b n') := by
  cases a; cases b; dsimp only at *; subst_vars
  unfold pushLoop
  dsimp only
  split
  · exact trivial
  · exact wid_run h

theorem wid_push {v v' : Word} (hl : b.stack = a.stack) (hv : v' = v)
    (h : P { a with stack := v :: a.stack } { b with stack := v :: a.stack }) :
    Widens P (push a v) (push b v') := by
  cases a; cases b; dsimp only at *; subst_vars
  unfold push
  dsimp only
  split
  · exact trivial
  · exact wid_run h

theorem wid_goto {base base' : Nat} {off off' : Word} (hb : base' = base) (ho : off' = off)
    (h : ∀ t, P { a with ip := t } { b with ip := t }) :
    Widens P (goto E a base off) (goto E b base' off') := by
  unfold goto
  subst hb ho
  split
  · exact trivial
  · exact wid_run (h _)

theorem wid_callAt (hD : Deaf E) {rest : List Byte} {key key' p p' : Nat} {op : Byte} {k k' l l' : St σ → Res σ}
    (hop : E.enc = true → op = 0x39)
    (hh : b.host = a.host) (hb : b.buf = a.buf ++ rest) (he : b.be = a.be) (hkey : key' = key) (hp : p' = p)
    (hl : ∀ g bs, Spent (l { a with host := g, buf := bs }))
    (h : ∀ g bs, Widens P (k { a with host := g, buf := bs }) (k' { b with host := g, buf := bs ++ rest })) :
    Widens P (callAt E a key op p k l) (callAt E b key' op p' k' l') := by
  cases a; cases b; dsimp only at *; subst_vars
  unfold callAt
  dsimp only
  split
  · rename_i hr
    rw [hD.1 _ _ _ _ _ _ rest hop hr]
    dsimp only
    rw [if_pos rfl]
    have e : ∀ D N : List Byte, hostBuf (D ++ rest) (hostBuf D N ++ rest) = hostBuf D N ++ rest := by
      intro D N
      unfold hostBuf
      rw [if_pos]
      split <;> simp [*]
    rw [e]
    exact h _ _
  · exact wid_spent (hl _ _)

end

/-! ### Bits -/

theorem readLoop_grow {buf rest : List Byte} {be : Bool} {n i cur bit : Nat} {val : Word} (hb : bit < 8)
    (hf : 8 * cur + bit + n ≤ 8 * buf.length) : readLoop (buf ++ rest) be n i cur bit val = readLoop buf be n i cur bit val := by
  induction n generalizing i cur bit val with
  | zero => rfl
  | succ n ih =>
    unfold readLoop
    rw [List.getElem?_append_left (by omega)]
    have hp : (bumpBit cur bit).2 < 8 ∧ 8 * (bumpBit cur bit).1 + (bumpBit cur bit).2 = 8 * cur + bit + 1 := by
      unfold bumpBit; split <;> constructor <;> dsimp only <;> omega
    split
    · rfl
    · dsimp only
      split
      · exact ih hp.1 (by omega)
      · split
        · split
          · rfl
          · exact ih hp.1 (by omega)
        · exact ih hp.1 (by omega)

theorem readBits_grow {buf rest : List Byte} {be : Bool} {cur bit n : Nat} (hb : bit < 8) (hf : 8 * cur + bit + n ≤ 8 * buf.length) :
    readBits (buf ++ rest) be cur bit n = readBits buf be cur bit n := by
  unfold readBits
  dsimp only
  by_cases h : bit = 0 ∧ n % 8 = 0 ∧ (n / 8 = 1 ∨ n / 8 = 2 ∨ n / 8 = 4 ∨ n / 8 = 8)
  · rw [if_pos ⟨h.1, h.2.1, by rw [List.length_append]; omega, h.2.2⟩, if_pos ⟨h.1, h.2.1, by omega, h.2.2⟩]
    rw [List.drop_append_of_le_length (by omega), List.take_append_of_le_length (by rw [List.length_drop]; omega)]
  · rw [if_neg (fun k => h ⟨k.1, k.2.1, k.2.2.2⟩), if_neg (fun k => h ⟨k.1, k.2.1, k.2.2.2⟩)]
    exact readLoop_grow hb hf

theorem writeLoop_grow {buf rest : List Byte} {be : Bool} {val : Word} {count n i cur bit : Nat} (hb : bit < 8)
    (hf : 8 * cur + bit + n ≤ 8 * buf.length) :
    writeLoop be val count n i (buf ++ rest) cur bit = (writeLoop be val count n i buf cur bit).map fun r => (r.1 ++ rest, r.2) := by
  induction n generalizing i buf cur bit with
  | zero => rfl
  | succ n ih =>
    unfold writeLoop
    rw [List.getElem?_append_left (by omega)]
    have hp : (bumpBit cur bit).2 < 8 ∧ 8 * (bumpBit cur bit).1 + (bumpBit cur bit).2 = 8 * cur + bit + 1 := by
      unfold bumpBit; split <;> constructor <;> dsimp only <;> omega
    split
    · rfl
    · dsimp only
      generalize (if be = true then count - 1 - i else i) = j
      by_cases hk : j ≥ 64
      · rw [if_pos hk, if_pos hk]; rfl
      · rw [if_neg hk, if_neg hk, List.set_append_left (h := by omega)]
        exact ih hp.1 (by rw [List.length_set]; omega)

theorem writeBits_grow {buf rest : List Byte} {be : Bool} {val : Word} {cur bit n : Nat} (hb : bit < 8)
    (hf : 8 * cur + bit + n ≤ 8 * buf.length) :
    writeBits (buf ++ rest) be cur bit val n = (writeBits buf be cur bit val n).map fun r => (r.1 ++ rest, r.2) := by
  unfold writeBits
  dsimp only
  by_cases h : bit = 0 ∧ n % 8 = 0 ∧ (n / 8 = 1 ∨ n / 8 = 2 ∨ n / 8 = 4 ∨ n / 8 = 8)
  · rw [if_pos ⟨h.1, h.2.1, by rw [List.length_append]; omega, h.2.2⟩, if_pos ⟨h.1, h.2.1, by omega, h.2.2⟩]
    simp only [Option.map_some, Option.some.injEq, Prod.mk.injEq, and_true]
    unfold splice
    rw [wrBytes_length, List.take_append_of_le_length (by omega), List.drop_append_of_le_length (by omega)]
    simp
  · rw [if_neg (fun k => h ⟨k.1, k.2.1, k.2.2.2⟩), if_neg (fun k => h ⟨k.1, k.2.1, k.2.2.2⟩)]
    exact writeLoop_grow hb hf

section
variable {P : St σ → St σ → Prop} {E : Env σ} {a b : St σ}

theorem wid_getBits {rest : List Byte} {n : Nat} {k k' : Word → St σ → Res σ} (hbit : a.bit < 8)
    (hf : 8 * a.cursor + a.bit + n ≤ 8 * a.buf.length) (hb : b = { a with buf := a.buf ++ rest })
    (h : ∀ v c o, Widens P (k v { a with cursor := c, bit := o }) (k' v { b with cursor := c, bit := o })) :
    Widens P (getBits a n k) (getBits b n k') := by
  subst hb
  unfold getBits
  dsimp only
  rw [readBits_grow hbit hf]
  split
  · exact trivial
  · exact h _ _ _

theorem wid_putBits {rest : List Byte} {v : Word} {n : Nat} {k k' : St σ → Res σ} (hbit : a.bit < 8)
    (hf : 8 * a.cursor + a.bit + n ≤ 8 * a.buf.length) (hb : b = { a with buf := a.buf ++ rest })
    (h : ∀ bs c o, Widens P (k { a with buf := bs, cursor := c, bit := o }) (k' { b with buf := bs ++ rest, cursor := c, bit := o })) :
    Widens P (putBits a v n k) (putBits b v n k') := by
  subst hb
  unfold putBits
  dsimp only
  rw [writeBits_grow hbit hf]
  cases writeBits a.buf a.be a.cursor a.bit v n with
  | none => exact trivial
  | some r => exact h _ _ _

end

macro "wid_len" : tactic => `(tactic|
  (intro hc; (try simp only [List.length_append] at *); omega))

macro "wid_rule" : tactic => `(tactic| first
  | exact wid_ub
  | (with_reducible apply wid_run)
  | (with_reducible apply wid_stop)
  | with_reducible apply wid_fet
  | with_reducible apply wid_callScalar
  | with_reducible apply wid_callNotify
  | with_reducible apply wid_callStr
  | with_reducible apply wid_rdAt
  | with_reducible apply wid_wrAt
  | with_reducible apply wid_wrRaw
  | with_reducible apply wid_pushLoop
  | with_reducible apply wid_push
  | with_reducible apply wid_goto
  | with_reducible refine wid_ite Iff.rfl ?_ ?_
  | refine wid_oob (by exact trivial) (by wid_len) ?_)

macro "wid_match" : tactic => `(tactic|
  ((try dsimp only); split <;> (try simp only [*])))

macro "wid_sweep" : tactic => `(tactic|
  repeat' (first | intro _ | rfl | assumption | (exact trivial) | wid_rule | wid_match))

theorem wid_opt {P : St σ → St σ → Prop} {c c' : Prop} {o : Bool} [Decidable c] [Decidable c'] {x1 x2 y z y' : Res σ} (hx : Spent x2)
    (hs : ¬ (o = true ∧ c)) (hc : ¬ c → ¬ c') (h : ¬ c → Widens P y y') :
    Widens P (if c then (if o then x1 else x2) else y) (if c' then z else y') := by
  by_cases h1 : c
  · rw [if_pos h1, if_neg (fun ho => hs ⟨ho, h1⟩)]
    exact wid_spent hx
  · rw [if_neg h1, if_neg (hc h1)]
    exact h h1

section
variable {E : Env σ} {rest : List Byte}

theorem handlePrim_wid (t : Ty) (op : Byte) (s : St σ) (hs : ¬ (s.opt = true ∧ s.buf.length < s.cursor + t.size)) :
    Widens (TailedBy rest) (handlePrim E t op s) (handlePrim E t op (s.grow rest)) := by
  unfold handlePrim St.grow
  apply wid_fet
  · rfl
  dsimp only
  refine wid_opt trivial hs (by wid_len) fun _ => ?_
  wid_sweep

theorem handleFloat_wid (dbl : Bool) (op : Byte) (s : St σ) (hs : ¬ (s.opt = true ∧ s.buf.length < s.cursor + if dbl then 8 else 4)) :
    Widens (TailedBy rest) (handleFloat E dbl op s) (handleFloat E dbl op (s.grow rest)) := by
  unfold handleFloat St.grow
  dsimp only
  apply wid_fet
  · rfl
  dsimp only
  generalize hz : (if dbl = true then 8 else 4) = z at *
  refine wid_opt trivial hs (by wid_len) fun _ => ?_
  wid_sweep

theorem handleBool_wid (op : Byte) (s : St σ) (hs : ¬ (s.opt = true ∧ s.buf.length < s.cursor + 1)) :
    Widens (TailedBy rest) (handleBool E op s) (handleBool E op (s.grow rest)) := by
  unfold handleBool St.grow
  apply wid_fet
  · rfl
  dsimp only
  refine wid_opt trivial hs (by wid_len) fun _ => ?_
  wid_sweep

theorem handleConstCheck_wid (s : St σ) : Widens (TailedBy rest) (handleConstCheck E s) (handleConstCheck E (s.grow rest)) := by
  unfold handleConstCheck St.grow
  wid_sweep

theorem handleConstWrite_wid (s : St σ) : Widens (TailedBy rest) (handleConstWrite E s) (handleConstWrite E (s.grow rest)) := by
  unfold handleConstWrite St.grow
  wid_sweep

theorem handleEmit_wid (s : St σ) : Widens (TailedBy rest) (handleEmit E s) (handleEmit E (s.grow rest)) := by
  unfold handleEmit St.grow
  apply wid_fet
  · rfl
  dsimp only
  cases s.stack with
  | nil => exact trivial
  | cons x r =>
    dsimp only
    cases emitSize (fetch E.prog s.ip 1).1 <;> wid_sweep

theorem handleRange_wid (s : St σ) : Widens (TailedBy rest) (handleRange E s) (handleRange E (s.grow rest)) := by
  unfold handleRange St.grow
  wid_sweep

theorem handleEnum_wid (s : St σ) : Widens (TailedBy rest) (handleEnum E s) (handleEnum E (s.grow rest)) := by
  unfold handleEnum St.grow
  wid_sweep

theorem handleJump_wid (s : St σ) : Widens (TailedBy rest) (handleJump E s) (handleJump E (s.grow rest)) := by
  unfold handleJump St.grow
  wid_sweep

theorem handleJumpIfNot_wid (s : St σ) : Widens (TailedBy rest) (handleJumpIfNot E s) (handleJumpIfNot E (s.grow rest)) := by
  unfold handleJumpIfNot St.grow
  wid_sweep

theorem handleSwitch_wid (s : St σ) : Widens (TailedBy rest) (handleSwitch E s) (handleSwitch E (s.grow rest)) := by
  unfold handleSwitch St.grow
  wid_sweep

theorem handleSwitchTable_wid (s : St σ) : Widens (TailedBy rest) (handleSwitchTable E s) (handleSwitchTable E (s.grow rest)) := by
  unfold handleSwitchTable St.grow
  wid_sweep

theorem handleLoadCtx_wid (op : Byte) (s : St σ) : Widens (TailedBy rest) (handleLoadCtx E op s) (handleLoadCtx E op (s.grow rest)) := by
  unfold handleLoadCtx St.grow
  wid_sweep

theorem handleStoreCtx_wid (op : Byte) (s : St σ) : Widens (TailedBy rest) (handleStoreCtx E op s) (handleStoreCtx E op (s.grow rest)) := by
  unfold handleStoreCtx St.grow
  wid_sweep

theorem handleArrEnd_wid (s : St σ) (hs : ¬ ((∃ f fs, s.loops = f :: fs ∧ f.rem = 0xFFFFFFFF) ∧ s.buf.length ≤ s.cursor)) :
    Widens (TailedBy rest) (handleArrEnd E s) (handleArrEnd E (s.grow rest)) := by
  cases s with
  | mk buf ip cursor bit be trans fFactor fOffset iVal polyPos polyCnt splPos splCnt opt loops stack host =>
    unfold handleArrEnd St.grow
    dsimp only at *
    cases loops with
    | nil => exact trivial
    | cons f fs =>
      dsimp only
      by_cases hf : f.rem = 0xFFFFFFFF
      · have hc : cursor < buf.length := by
          rcases Nat.lt_or_ge cursor buf.length with h | h
          · exact h
          · exact absurd ⟨⟨f, fs, rfl, hf⟩, h⟩ hs
        have e1 : (f.rem == 0xFFFFFFFF) = true := by simpa using hf
        simp only [e1, if_true]
        rw [if_pos (by simpa using hc), if_pos (by simp only [decide_eq_true_eq]; rw [List.length_append]; omega)]
        exact wid_run rfl
      · have e1 : (f.rem == 0xFFFFFFFF) = false := by simpa using hf
        simp only [e1, Bool.false_eq_true, if_false]
        wid_sweep

theorem handleArrEof_wid (s : St σ) (hs : ¬ s.buf.length ≤ s.cursor) :
    Widens (TailedBy rest) (handleArrEof E s) (handleArrEof E (s.grow rest)) := by
  unfold handleArrEof St.grow
  apply wid_fet
  · rfl
  dsimp only
  apply wid_oob (by exact trivial) (fun h => h)
  intro _
  rw [if_neg (by omega), if_neg (by rw [List.length_append]; omega)]
  exact wid_run rfl

theorem enterArray_wid (hD : Deaf E) (s : St σ) (count : Nat) :
    Widens (TailedBy rest) (enterArray E s count) (enterArray E { s with buf := s.buf ++ rest } count) := by
  unfold enterArray
  dsimp only
  refine wid_ite Iff.rfl (fun _ => wid_run rfl) fun _ => ?_
  have hpush : Widens (TailedBy rest) (pushLoop s count) (pushLoop { s with buf := s.buf ++ rest } count) := by wid_sweep
  rcases hD.2 with hB | hQ
  · cases h1 : E.prog[s.ip]? with
    | none => exact hpush
    | some x =>
      cases h2 : E.prog[s.ip + 3]? with
      | none => exact hpush
      | some y =>
        dsimp only
        have hn : ((x == 0x10 || x == 0x14) && y == 0x38) = false := by
          cases hxy : ((x == 0x10 || x == 0x14) && y == 0x38) with
          | false => rfl
          | true => exact (hB _ x y h1 h2 hxy).elim
        rw [hn, Bool.false_and, Bool.false_and, if_neg (by simp), if_neg (by simp)]
        exact hpush
  · have hcall : ∀ (a : St σ) key p k, callAt E a key 0x39 p k (fun s => pushLoop s count) = pushLoop a count := by
      intro a key p k
      unfold callAt
      rw [hQ]
      simp [hostBuf]
    split
    · simp only [hcall]
      split <;> split <;> exact hpush
    · exact hpush

theorem raw_byte {op : Byte} (h : decodeOp op = .rawBytes) : op = 0x39 := by
  have key : ∀ n : Fin 256, decodeOp (BitVec.ofFin n) = .rawBytes → (BitVec.ofFin n : Byte) = 0x39 := by decide +kernel
  exact key op.toFin h

theorem handleRaw_wid (hD : Deaf E) (s : St σ) : Widens (TailedBy rest) (handleRaw E 0x39 s) (handleRaw E 0x39 (s.grow rest)) := by
  unfold handleRaw St.grow
  apply wid_fet
  · rfl
  dsimp only
  apply wid_fet
  · rfl
  dsimp only
  refine wid_oob trivial (by wid_len) ?_
  intro _
  refine wid_callAt (rest := rest) hD (fun _ => rfl) rfl rfl rfl rfl rfl (fun _ _ => trivial) ?_
  intro g bs
  exact wid_run rfl

theorem handleArrFixed_wid (hD : Deaf E) (op : Byte) (s : St σ) :
    Widens (TailedBy rest) (handleArrFixed E op s) (handleArrFixed E op (s.grow rest)) := by
  unfold handleArrFixed St.grow
  wid_sweep
  exact enterArray_wid hD _ _

theorem handleArrDynamic_wid (hD : Deaf E) (op : Byte) (s : St σ) :
    Widens (TailedBy rest) (handleArrDynamic E op s) (handleArrDynamic E op (s.grow rest)) := by
  unfold handleArrDynamic St.grow
  wid_sweep
  exact enterArray_wid hD _ _

theorem handleArrPre_wid (hD : Deaf E) (p : Pre) (op : Byte) (s : St σ) :
    Widens (TailedBy rest) (handleArrPre E p op s) (handleArrPre E p op (s.grow rest)) := by
  unfold handleArrPre St.grow
  wid_sweep
  all_goals exact enterArray_wid hD _ _

theorem handleCrc_wid (w32 : Bool) (s : St σ) : Widens (TailedBy rest) (handleCrc E w32 s) (handleCrc E w32 (s.grow rest)) := by
  unfold handleCrc St.grow
  dsimp only
  apply wid_fet
  · rfl
  apply wid_fet
  · rfl
  apply wid_fet
  · rfl
  apply wid_fet
  · rfl
  dsimp only
  cases h : slice s.buf 0 s.cursor with
  | none => exact trivial
  | some data =>
    rw [slice_grow h]
    wid_sweep

theorem takeWhile_grow {p : Byte → Bool} : ∀ {l : List Byte} {m : Nat} {r : List Byte}, ((l.take m).takeWhile p).length < l.length →
    ((l ++ r).take m).takeWhile p = (l.take m).takeWhile p
  | [], m, r, h => by simp at h
  | x :: l, 0, r, _ => by simp
  | x :: l, m + 1, r, h => by
    simp only [List.cons_append, List.take_succ_cons, List.takeWhile_cons] at h ⊢
    split
    · rename_i hx
      rw [if_pos hx] at h
      rw [takeWhile_grow (by simpa using h)]
    · rfl

theorem handleStrNull_wid (hD : Deaf E) (op : Byte) (s : St σ) :
    Widens (TailedBy rest) (handleStrNull E op s) (handleStrNull E op (s.grow rest)) := by
  unfold handleStrNull St.grow
  apply wid_fet
  · rfl
  dsimp only
  apply wid_fet
  · rfl
  dsimp only
  generalize (fetch E.prog s.ip 2).1 = key
  generalize (fetch E.prog (fetch E.prog s.ip 2).2 2).1.toNat = m
  generalize (fetch E.prog (fetch E.prog s.ip 2).2 2).2 = ip
  cases henc : E.enc with
  | true =>
    simp only [if_true]
    wid_sweep
  | false =>
    simp only [Bool.false_eq_true, if_false]
    refine wid_oob ?_ (by wid_len) ?_
    · split <;> exact trivial
    intro hc
    by_cases hw : s.cursor + (List.takeWhile (fun x => decide (x ≠ 0)) (List.take m (List.drop s.cursor s.buf))).length ≥ s.buf.length
    · rw [if_pos hw]; exact trivial
    · have hd : (s.buf ++ rest).drop s.cursor = s.buf.drop s.cursor ++ rest := List.drop_append_of_le_length (by omega)
      rw [if_neg hw]
      simp only [hd]
      rw [takeWhile_grow (by rw [List.length_drop]; omega), if_neg (by rw [List.length_append]; omega)]
      refine wid_callAt (rest := rest) hD (fun h => by rw [henc] at h; cases h) rfl rfl rfl rfl rfl (fun _ _ => trivial) ?_
      intro g bs
      exact wid_run rfl

theorem handleStrPre_wid (hD : Deaf E) (p : Pre) (op : Byte) (s : St σ) :
    Widens (TailedBy rest) (handleStrPre E p op s) (handleStrPre E p op (s.grow rest)) := by
  unfold handleStrPre St.grow
  apply wid_fet
  · rfl
  dsimp only
  cases henc : E.enc with
  | true =>
    simp only [if_true]
    wid_sweep
  | false =>
    simp only [Bool.false_eq_true, if_false]
    refine wid_oob trivial (by wid_len) ?_
    intro _
    apply wid_rdAt (rest := rest)
    · rfl
    · rfl
    · rfl
    · rfl
    intro w
    refine wid_oob trivial (by wid_len) ?_
    intro _
    refine wid_callAt (rest := rest) hD (fun h => by rw [henc] at h; cases h) rfl rfl rfl rfl rfl (fun _ _ => trivial) ?_
    intro g bs
    exact wid_run rfl

theorem handleBitU_wid (op : Byte) (s : St σ) (hb : s.bit < 8)
    (hs : ¬ 8 * s.buf.length < 8 * s.cursor + s.bit + (fetch E.prog (fetch E.prog s.ip 2).2 1).1.toNat) :
    Widens (TailedBy rest) (handleBitU E op s) (handleBitU E op (s.grow rest)) := by
  unfold handleBitU St.grow
  apply wid_fet
  · rfl
  dsimp only
  apply wid_fet
  · rfl
  dsimp only
  refine wid_ite Iff.rfl (fun _ => ?_) (fun _ => ?_)
  · refine wid_callScalar ?_ rfl rfl rfl rfl ?_
    · rfl
    intro g w
    exact wid_putBits (rest := rest) (by exact hb) (by dsimp only; omega) rfl (fun _ _ _ => wid_run rfl)
  · refine wid_getBits (rest := rest) (by exact hb) (by dsimp only; omega) rfl ?_
    wid_sweep

theorem handleBitI_wid (op : Byte) (s : St σ) (hb : s.bit < 8)
    (hs : ¬ 8 * s.buf.length < 8 * s.cursor + s.bit + (fetch E.prog (fetch E.prog s.ip 2).2 1).1.toNat) :
    Widens (TailedBy rest) (handleBitI E op s) (handleBitI E op (s.grow rest)) := by
  unfold handleBitI St.grow
  apply wid_fet
  · rfl
  dsimp only
  apply wid_fet
  · rfl
  dsimp only
  refine wid_ite Iff.rfl (fun _ => ?_) (fun _ => ?_)
  · refine wid_callScalar ?_ rfl rfl rfl rfl ?_
    · rfl
    intro g w
    exact wid_putBits (rest := rest) (by exact hb) (by dsimp only; omega) rfl (fun _ _ _ => wid_run rfl)
  · refine wid_getBits (rest := rest) (by exact hb) (by dsimp only; omega) rfl ?_
    wid_sweep

theorem handleBitBool_wid (op : Byte) (s : St σ) (hb : s.bit < 8) (hs : ¬ 8 * s.buf.length < 8 * s.cursor + s.bit + 1) :
    Widens (TailedBy rest) (handleBitBool E op s) (handleBitBool E op (s.grow rest)) := by
  unfold handleBitBool St.grow
  apply wid_fet
  · rfl
  dsimp only
  refine wid_ite Iff.rfl (fun _ => ?_) (fun _ => ?_)
  · refine wid_callScalar ?_ rfl rfl rfl rfl ?_
    · rfl
    intro g w
    refine wid_oob trivial id fun _ => ?_
    exact wid_putBits (rest := rest) (by exact hb) (by dsimp only; omega) rfl (fun _ _ _ => wid_run rfl)
  · refine wid_getBits (rest := rest) (by exact hb) (by dsimp only; omega) rfl ?_
    wid_sweep

theorem handlePad_wid (s : St σ) (hb : s.bit < 8)
    (hs : ¬ 8 * s.buf.length < 8 * s.cursor + s.bit + (fetch E.prog s.ip 1).1.toNat) :
    Widens (TailedBy rest) (handlePad E s) (handlePad E (s.grow rest)) := by
  unfold handlePad St.grow
  apply wid_fet
  · rfl
  dsimp only
  refine wid_ite Iff.rfl (fun he => ?_) (fun _ => wid_run rfl)
  exact wid_putBits (rest := rest) (by exact hb) (by dsimp only; omega) rfl (fun _ _ _ => wid_run rfl)

theorem handleFill_wid (s : St σ) (hb : s.bit < 8) (hs : ¬ (0 < s.bit ∧ 8 * s.buf.length < 8 * s.cursor + s.bit + (8 - s.bit))) :
    Widens (TailedBy rest) (handleFill E s) (handleFill E (s.grow rest)) := by
  unfold handleFill St.grow
  apply wid_fet
  · rfl
  dsimp only
  refine wid_ite Iff.rfl (fun hp => ?_) (fun _ => wid_run rfl)
  have hq : ¬ 8 * s.buf.length < 8 * s.cursor + s.bit + (8 - s.bit) := fun h => hs ⟨hp, h⟩
  refine wid_ite Iff.rfl (fun he => ?_) (fun _ => ?_)
  · exact wid_putBits (rest := rest) (by exact hb) (by dsimp only; omega) rfl (fun _ _ _ => wid_run rfl)
  · exact wid_getBits (rest := rest) (by exact hb) (by dsimp only; omega) rfl (fun _ _ _ => wid_run rfl)

theorem aluDone_wid (x : Alu) (s : St σ) : Widens (TailedBy rest) (aluDone s x) (aluDone { s with buf := s.buf ++ rest } x) := by
  cases x <;> unfold aluDone <;> wid_sweep

theorem binary_wid (f : Word → Word → Alu) (s : St σ) : Widens (TailedBy rest) (binary s f) (binary (s.grow rest) f) := by
  cases s with
  | mk buf ip cursor bit be trans fFactor fOffset iVal polyPos polyCnt splPos splCnt opt loops stack host =>
    unfold binary St.grow
    rcases stack with _ | ⟨b, _ | ⟨a, r⟩⟩
    · exact trivial
    · exact trivial
    · exact aluDone_wid _ _

theorem unary_wid (f : Word → Alu) (s : St σ) : Widens (TailedBy rest) (unary s f) (unary (s.grow rest) f) := by
  cases s with
  | mk buf ip cursor bit be trans fFactor fOffset iVal polyPos polyCnt splPos splCnt opt loops stack host =>
    unfold unary St.grow
    rcases stack with _ | ⟨a, r⟩
    · exact trivial
    · exact aluDone_wid _ _

theorem step_wid (hD : Deaf E) (s : St σ) (hb : s.bit < 8) (hs : ¬ CutShort E s) :
    Widens (TailedBy rest) (step E s) (step E (s.grow rest)) := by
  cases hop : E.prog[s.ip]? with
  | none =>
    rw [step_end hop, step_end (by exact hop)]
    exact ⟨_, rfl, rfl⟩
  | some op =>
    rw [step_eq hop, step_eq (by exact hop)]
    have hs' := fun h => hs ⟨op, hop, h⟩
    dsimp only at hs'
    have e1 : alignSt op { s.grow rest with ip := (s.grow rest).ip + 1 } = (alignSt op { s with ip := s.ip + 1 }).grow rest := by
      unfold alignSt St.grow
      dsimp only
      split <;> rfl
    have e2 : (alignSt op { s with ip := s.ip + 1 }).buf = s.buf ∧ (alignSt op { s with ip := s.ip + 1 }).opt = s.opt ∧
        (alignSt op { s with ip := s.ip + 1 }).loops = s.loops ∧ (alignSt op { s with ip := s.ip + 1 }).bit < 8 := by
      unfold alignSt
      split
      · exact ⟨rfl, rfl, rfl, by simp⟩
      · exact ⟨rfl, rfl, rfl, hb⟩
    rw [e1]
    generalize alignSt op { s with ip := s.ip + 1 } = t at *
    rw [← e2.1, ← e2.2.1, ← e2.2.2.1] at hs'
    replace e2 := e2.2.2.2
    unfold execOp
    cases hd : decodeOp op <;> simp only [hd] at hs' <;> dsimp only
    case io ty => exact handlePrim_wid ty op t hs'
    case ioF32 => exact handleFloat_wid _ op t (by simpa using hs')
    case ioF64 => exact handleFloat_wid _ op t (by simpa using hs')
    case ioBool => exact handleBool_wid op t hs'
    case bitU => exact handleBitU_wid op t e2 hs'
    case bitI => exact handleBitI_wid op t e2 hs'
    case bitBool => exact handleBitBool_wid op t e2 hs'
    case alignPad => exact handlePad_wid t e2 hs'
    case alignFill => exact handleFill_wid t e2 hs'
    case strNull => exact handleStrNull_wid hD op t
    case strPre p => exact handleStrPre_wid hD p op t
    case arrFixed => exact handleArrFixed_wid hD op t
    case arrPre p => exact handleArrPre_wid hD p op t
    case arrEnd => exact handleArrEnd_wid t hs'
    case rawBytes => rw [raw_byte hd]; exact handleRaw_wid hD t
    case arrEof => exact handleArrEof_wid t hs'
    case arrDynamic => exact handleArrDynamic_wid hD op t
    case constCheck => exact handleConstCheck_wid t
    case constWrite => exact handleConstWrite_wid t
    case rangeCheck => exact handleRange_wid t
    case crc16 => exact handleCrc_wid _ t
    case crc32 => exact handleCrc_wid _ t
    case enumCheck => exact handleEnum_wid t
    case jumpIfNot => exact handleJumpIfNot_wid t
    case switch => exact handleSwitch_wid t
    case jump => exact handleJump_wid t
    case switchTable => exact handleSwitchTable_wid t
    case loadCtx => exact handleLoadCtx_wid op t
    case storeCtx => exact handleStoreCtx_wid op t
    case emit => exact handleEmit_wid t
    case ibin o => exact binary_wid _ t
    case fbin o => exact binary_wid _ t
    case un o => exact unary_wid _ t
    case dup =>
      unfold St.grow
      wid_sweep
      exact Eq.symm (by assumption)
    all_goals
      unfold St.grow
      wid_sweep

/-- A run that succeeds, and in which nothing was cut short, goes the same way on a longer buffer. -/
theorem exec_wid (hD : Deaf E) {n : Nat} {s sf : St σ} (hi : Inv s) (h : exec E n s = .stop .ok sf)
    (hs : ∀ t, Reach E s t → ¬ CutShort E t) : exec E n (s.grow rest) = .stop .ok (sf.grow rest) := by
  induction n generalizing s with
  | zero => cases h
  | succ n ih =>
    unfold exec at h ⊢
    have h1 := step_wid (rest := rest) hD s hi.bit (hs s (Reach.refl E s))
    cases hst : step E s with
    | ub u => rw [hst] at h; cases h
    | stop e t =>
      rw [hst] at h h1
      simp only [Res.stop.injEq] at h
      obtain ⟨rfl, rfl⟩ := h
      obtain ⟨b, e1, rfl⟩ := h1
      rw [e1]
      rfl
    | run t =>
      rw [hst] at h h1
      obtain ⟨b, e1, rfl⟩ := h1
      rw [e1]
      refine ih (step_inv hi hst) h fun u hu => hs u ?_
      obtain ⟨m, hm⟩ := hu
      exact ⟨m + 1, by unfold exec; rw [hst]; exact hm⟩

end

end Cnd
