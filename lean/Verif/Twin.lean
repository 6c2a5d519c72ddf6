import Verif.Pair
import Verif.SweepKeep
/-
  Two encoding runs into different buffers (used for C34).
-/

set_option linter.unusedVariables false
set_option linter.unusedSimpArgs false

namespace Cnd
variable {σ : Type}

/-- The buffer `B` has the length of the packet buffer and the same bits before the position. -/
structure Tw (s : St σ) (B : List Byte) : Prop where
  len : B.length = s.buf.length
  bits : ∀ k, k < 8 * s.cursor + s.bit → bitAt s.be B k = bitAt s.be s.buf k

/-- The same state over such a buffer. -/
def Twin (a b : St σ) : Prop := ∃ B, b = { a with buf := B } ∧ Tw a B

theorem Tw.byte {s : St σ} {B : List Byte} (h : Tw s B) (i : Nat) (hi : i < s.cursor) : B[i]? = s.buf[i]? := by
  apply byte_of_bits s.be
  intro k hk
  exact h.bits _ (by omega)

theorem tw_of_bytes {s : St σ} {B : List Byte} (hb : s.bit < 1) (hl : B.length = s.buf.length)
    (h : ∀ i, i < s.cursor → B[i]? = s.buf[i]?) : Tw s B :=
  ⟨hl, fun k hk => bitAt_of_byte (h _ (by omega))⟩

theorem slice_agree {b1 b2 : List Byte} {p n : Nat} (hl : b2.length = b1.length)
    (h : ∀ i, i < p + n → b2[i]? = b1[i]?) : slice b2 p n = slice b1 p n := by
  unfold slice
  rw [hl]
  split
  · congr 1
    apply List.ext_getElem?
    intro i
    rw [List.getElem?_take, List.getElem?_take]
    split
    · rw [List.getElem?_drop, List.getElem?_drop, h _ (by omega)]
    · rfl
  · rfl

theorem store_agree {b1 b2 bs b1' b2' : List Byte} {p : Nat} (h : ∀ i, i < p → b2[i]? = b1[i]?)
    (h1 : store b1 p bs = some b1') (h2 : store b2 p bs = some b2') (i : Nat) (hi : i < p + bs.length) :
    b2'[i]? = b1'[i]? := by
  obtain ⟨l1, rfl⟩ := store_eq_some.1 h1
  obtain ⟨l2, rfl⟩ := store_eq_some.1 h2
  by_cases hp : i < p
  · rw [getElem?_splice_lt l1 hp, getElem?_splice_lt l2 hp, h i hp]
  · obtain ⟨j, rfl⟩ : ∃ j, i = p + j := ⟨i - p, by omega⟩
    rw [getElem?_splice_mid l1 (by omega), getElem?_splice_mid l2 (by omega)]

section
variable {P : St σ → St σ → Prop} {E : Env σ} {a b : St σ}

theorem tw_wrRaw {p p' : Nat} {w w' : List Byte} {k k' : St σ → Res σ} (hl : b.buf.length = a.buf.length)
    (hA : ∀ i, i < p → b.buf[i]? = a.buf[i]?) (hp : p' = p) (hw : w' = w)
    (h : ∀ b1 b2, b2.length = b1.length → (∀ i, i < p + w.length → b2[i]? = b1[i]?) →
      Pair P (k { a with buf := b1 }) (k' { b with buf := b2 })) :
    Pair P (wrRaw a p w k) (wrRaw b p' w' k') := by
  subst hp hw
  unfold wrRaw
  cases h1 : store a.buf p' w' with
  | none =>
    have h2 : store b.buf p' w' = none := by rw [store_eq_none] at *; omega
    rw [h2]
    exact rfl
  | some b1 =>
    have h2 : store b.buf p' w' = some (splice b.buf p' w') := by
      rw [store_eq_some] at *; exact ⟨by omega, rfl⟩
    rw [h2]
    exact h _ _ (by rw [store_length h1, store_length h2, hl]) (store_agree hA h1 h2)

theorem tw_wrAt {p p' n n' : Nat} {w w' : Word} {k k' : St σ → Res σ} (hl : b.buf.length = a.buf.length)
    (hA : ∀ i, i < p → b.buf[i]? = a.buf[i]?) (he : b.be = a.be) (hp : p' = p) (hn : n' = n) (hw : w' = w)
    (h : ∀ b1 b2, b2.length = b1.length → (∀ i, i < p + n → b2[i]? = b1[i]?) →
      Pair P (k { a with buf := b1 }) (k' { b with buf := b2 })) :
    Pair P (wrAt a p n w k) (wrAt b p' n' w' k') := by
  subst hn hw
  refine tw_wrRaw (p := p) (p' := p') (w := wrBytes a.be n' w') (w' := wrBytes b.be n' w') hl hA hp (by rw [he]) ?_
  intro b1 b2 h1 h2
  exact h b1 b2 h1 (by simpa using h2)

theorem tw_rdAt {p p' n n' : Nat} {k k' : Word → Res σ} (hl : b.buf.length = a.buf.length)
    (hA : ∀ i, i < p + n → b.buf[i]? = a.buf[i]?) (he : b.be = a.be) (hp : p' = p) (hn : n' = n)
    (h : ∀ w, Pair P (k w) (k' w)) : Pair P (rdAt a p n k) (rdAt b p' n' k') := by
  subst hn hp
  unfold rdAt
  rw [slice_agree hl hA, he]
  split
  · exact rfl
  · exact h _

theorem writeLoop_none_len (be : Bool) (val : Word) (count n i : Nat) (b1 b2 : List Byte) (cur bit : Nat)
    (hl : b2.length = b1.length) (h : writeLoop be val count n i b1 cur bit = none) :
    writeLoop be val count n i b2 cur bit = none := by
  induction n generalizing i b1 b2 cur bit with
  | zero => simp [writeLoop] at h
  | succ n ih =>
    unfold writeLoop at h ⊢
    by_cases hc : cur < b1.length
    · rw [List.getElem?_eq_getElem hc] at h
      rw [List.getElem?_eq_getElem (by omega)]
      simp only at h ⊢
      generalize (if be = true then count - 1 - i else i) = j at h ⊢
      by_cases hk : j ≥ 64
      · rw [if_pos hk]
      · rw [if_neg hk] at h ⊢
        exact ih _ _ _ _ _ (by simpa using hl) h
    · rw [List.getElem?_eq_none (by omega)] at h
      cases h

theorem writeBits_none_len (be : Bool) (val : Word) (count : Nat) (b1 b2 : List Byte) (cur bit : Nat)
    (hl : b2.length = b1.length) (h : writeBits b1 be cur bit val count = none) :
    writeBits b2 be cur bit val count = none := by
  unfold writeBits at h ⊢
  simp only at h ⊢
  rw [hl]
  split at h
  · cases h
  · rename_i hc
    rw [if_neg hc]
    exact writeLoop_none_len _ _ _ _ _ _ _ _ _ hl h

theorem tw_putBits {v v' : Word} {n n' : Nat} {k k' : St σ → Res σ} (hbit : a.bit < 8) {B : List Byte} (hT : Tw a B)
    (hb : b = { a with buf := B }) (hv : v' = v) (hn : n' = n)
    (h : ∀ b1 b2 c o, Tw { a with buf := b1, cursor := c, bit := o } b2 →
      Pair P (k { a with buf := b1, cursor := c, bit := o }) (k' { a with buf := b2, cursor := c, bit := o })) :
    Pair P (putBits a v n k) (putBits b v' n' k') := by
  subst hb hv hn
  unfold putBits
  dsimp only
  cases h1 : writeBits a.buf a.be a.cursor a.bit v' n' with
  | none => rw [writeBits_none_len _ _ _ _ _ _ _ hT.len h1]; exact rfl
  | some r1 =>
    cases h2 : writeBits B a.be a.cursor a.bit v' n' with
    | none =>
      rw [writeBits_none_len _ _ _ _ _ _ _ hT.len.symm h2] at h1
      cases h1
    | some r2 =>
      obtain ⟨b1, c1, o1⟩ := r1
      obtain ⟨b2, c2, o2⟩ := r2
      obtain ⟨l1, p1, q1, e1⟩ := writeBits_spec _ _ _ _ _ _ hbit h1
      obtain ⟨l2, p2, q2, e2⟩ := writeBits_spec _ _ _ _ _ _ hbit h2
      rw [hT.len] at q2 e2
      obtain ⟨rfl, rfl⟩ : c2 = c1 ∧ o2 = o1 := by omega
      refine h b1 b2 _ _ ⟨by simp only; rw [l2, l1, hT.len], ?_⟩
      intro k hk
      simp only at hk ⊢
      rw [e1 k, e2 k]
      split
      · rfl
      · rename_i hc
        exact hT.bits k (by omega)

end

macro "tw_close" : tactic => `(tactic| first
  | exact ⟨_, rfl, by assumption, by assumption⟩
  | exact ⟨_, rfl, by assumption⟩
  | exact ⟨_, rfl, tw_of_bytes (by assumption) (by assumption) (by assumption)⟩)

macro "tw_rule" : tactic => `(tactic| first
  | (with_reducible apply pair_run)
  | (with_reducible apply pair_stop)
  | exact pair_ub
  | with_reducible apply pair_fet
  | with_reducible apply pair_callScalar
  | with_reducible apply pair_callNotify
  | with_reducible apply pair_callStr
  | with_reducible apply tw_rdAt
  | with_reducible apply tw_wrAt
  | with_reducible apply tw_wrRaw
  | with_reducible apply pair_pushLoop
  | with_reducible apply pair_push
  | with_reducible apply pair_goto
  | with_reducible apply pair_ite)

macro "tw_match" : tactic => `(tactic|
  ((try dsimp only); split <;> (try simp only [*])))

macro "tw_sweep" : tactic => `(tactic|
  repeat' (first | intro _ | rfl | tw_close | assumption | exact Iff.rfl | (simp only [*]; done) | tw_rule | tw_match))

section
variable {E : Env σ}

/-- The host declines bulk transfers and raw bytes, and does not look at the packet. -/
def Declines (H : Host σ) : Prop :=
  ∀ h key op be buf p, H.bytesAt h key op be buf p = (false, buf, (H.bytesAt h key op be [] p).2.2)

theorem tw_callAt {P : St σ → St σ → Prop} (hD : Declines E.host) {a : St σ} {B : List Byte} {key p : Nat} {op : Byte}
    {k k' l l' : St σ → Res σ}
    (h : ∀ g, Pair P (l { a with host := g }) (l' { a with host := g, buf := B })) :
    Pair P (callAt E a key op p k l) (callAt E { a with buf := B } key op p k' l') := by
  unfold callAt
  dsimp only
  rw [hD _ _ _ _ a.buf, hD _ _ _ _ B]
  simp only [hostBuf, if_true, Bool.false_eq_true, if_false]
  exact h _

theorem handlePrim_twin (henc : E.enc = true) (t : Ty) (op : Byte) {s : St σ} {B : List Byte} (hT : Tw s B) (hb : s.bit < 1) :
    Pair Twin (handlePrim E t op s) (handlePrim E t op { s with buf := B }) := by
  obtain ⟨hl, hbits⟩ := hT
  have hby := Tw.byte ⟨hl, hbits⟩
  unfold handlePrim
  try dsimp only
  try simp only [henc, if_true]
  tw_sweep

theorem handleFloat_twin (henc : E.enc = true) (dbl : Bool) (op : Byte) {s : St σ} {B : List Byte} (hT : Tw s B) (hb : s.bit < 1) :
    Pair Twin (handleFloat E dbl op s) (handleFloat E dbl op { s with buf := B }) := by
  obtain ⟨hl, hbits⟩ := hT
  have hby := Tw.byte ⟨hl, hbits⟩
  unfold handleFloat
  try dsimp only
  try simp only [henc, if_true]
  tw_sweep

theorem handleBool_twin (henc : E.enc = true) (op : Byte) {s : St σ} {B : List Byte} (hT : Tw s B) (hb : s.bit < 1) :
    Pair Twin (handleBool E op s) (handleBool E op { s with buf := B }) := by
  obtain ⟨hl, hbits⟩ := hT
  have hby := Tw.byte ⟨hl, hbits⟩
  unfold handleBool
  try dsimp only
  try simp only [henc, if_true]
  tw_sweep

theorem handleConstCheck_twin (henc : E.enc = true) {s : St σ} {B : List Byte} (hT : Tw s B) (hb : s.bit < 1) :
    Pair Twin (handleConstCheck E s) (handleConstCheck E { s with buf := B }) := by
  obtain ⟨hl, hbits⟩ := hT
  have hby := Tw.byte ⟨hl, hbits⟩
  unfold handleConstCheck
  try dsimp only
  try simp only [henc, if_true]
  tw_sweep

theorem handleConstWrite_twin (henc : E.enc = true) {s : St σ} {B : List Byte} (hT : Tw s B) (hb : s.bit < 1) :
    Pair Twin (handleConstWrite E s) (handleConstWrite E { s with buf := B }) := by
  obtain ⟨hl, hbits⟩ := hT
  have hby := Tw.byte ⟨hl, hbits⟩
  unfold handleConstWrite
  try dsimp only
  try simp only [henc, if_true]
  tw_sweep

theorem handleEmit_twin (henc : E.enc = true) {s : St σ} {B : List Byte} (hT : Tw s B) (hb : s.bit < 1) :
    Pair Twin (handleEmit E s) (handleEmit E { s with buf := B }) := by
  obtain ⟨hl, hbits⟩ := hT
  have hby := Tw.byte ⟨hl, hbits⟩
  unfold handleEmit
  try dsimp only
  try simp only [henc, if_true]
  apply pair_fet
  · rfl
  intro v ip
  dsimp only
  cases s.stack with
  | nil => tw_sweep
  | cons x rest =>
    dsimp only
    cases emitSize v <;> tw_sweep

theorem handleRange_twin (henc : E.enc = true) {s : St σ} {B : List Byte} (hT : Tw s B) :
    Pair Twin (handleRange E s) (handleRange E { s with buf := B }) := by
  obtain ⟨hl, hbits⟩ := hT
  have hby := Tw.byte ⟨hl, hbits⟩
  unfold handleRange
  try dsimp only
  try simp only [henc, if_true]
  tw_sweep
  all_goals (apply hby; dsimp only at *; omega)

theorem handleEnum_twin (henc : E.enc = true) {s : St σ} {B : List Byte} (hT : Tw s B) :
    Pair Twin (handleEnum E s) (handleEnum E { s with buf := B }) := by
  obtain ⟨hl, hbits⟩ := hT
  have hby := Tw.byte ⟨hl, hbits⟩
  unfold handleEnum
  try dsimp only
  try simp only [henc, if_true]
  apply pair_fet
  · rfl
  intro v ip
  apply pair_fet
  · rfl
  intro v2 ip2
  dsimp only
  cases tyTag v with
  | none => tw_sweep
  | some t =>
    dsimp only
    apply pair_ite Iff.rfl
    · intro _; exact pair_ub
    intro hc
    apply tw_rdAt hl
    · intro i hi
      apply hby
      omega
    · rfl
    · rfl
    · rfl
    intro w
    cases enumScan E.prog t.size w v2.toNat ip2 <;> tw_sweep

theorem handleJump_twin (henc : E.enc = true) {s : St σ} {B : List Byte} (hT : Tw s B) :
    Pair Twin (handleJump E s) (handleJump E { s with buf := B }) := by
  obtain ⟨hl, hbits⟩ := hT
  have hby := Tw.byte ⟨hl, hbits⟩
  unfold handleJump
  try dsimp only
  try simp only [henc, if_true]
  tw_sweep

theorem handleJumpIfNot_twin (henc : E.enc = true) {s : St σ} {B : List Byte} (hT : Tw s B) :
    Pair Twin (handleJumpIfNot E s) (handleJumpIfNot E { s with buf := B }) := by
  obtain ⟨hl, hbits⟩ := hT
  have hby := Tw.byte ⟨hl, hbits⟩
  unfold handleJumpIfNot
  try dsimp only
  try simp only [henc, if_true]
  tw_sweep

theorem handleSwitch_twin (henc : E.enc = true) {s : St σ} {B : List Byte} (hT : Tw s B) :
    Pair Twin (handleSwitch E s) (handleSwitch E { s with buf := B }) := by
  obtain ⟨hl, hbits⟩ := hT
  have hby := Tw.byte ⟨hl, hbits⟩
  unfold handleSwitch
  try dsimp only
  try simp only [henc, if_true]
  tw_sweep

theorem handleSwitchTable_twin (henc : E.enc = true) {s : St σ} {B : List Byte} (hT : Tw s B) :
    Pair Twin (handleSwitchTable E s) (handleSwitchTable E { s with buf := B }) := by
  obtain ⟨hl, hbits⟩ := hT
  have hby := Tw.byte ⟨hl, hbits⟩
  unfold handleSwitchTable
  try dsimp only
  try simp only [henc, if_true]
  tw_sweep

theorem handleLoadCtx_twin (henc : E.enc = true) (op : Byte) {s : St σ} {B : List Byte} (hT : Tw s B) :
    Pair Twin (handleLoadCtx E op s) (handleLoadCtx E op { s with buf := B }) := by
  obtain ⟨hl, hbits⟩ := hT
  have hby := Tw.byte ⟨hl, hbits⟩
  unfold handleLoadCtx
  try dsimp only
  try simp only [henc, if_true]
  tw_sweep

theorem handleStoreCtx_twin (henc : E.enc = true) (op : Byte) {s : St σ} {B : List Byte} (hT : Tw s B) :
    Pair Twin (handleStoreCtx E op s) (handleStoreCtx E op { s with buf := B }) := by
  obtain ⟨hl, hbits⟩ := hT
  have hby := Tw.byte ⟨hl, hbits⟩
  unfold handleStoreCtx
  try dsimp only
  try simp only [henc, if_true]
  tw_sweep

theorem handleArrEnd_twin (henc : E.enc = true) {s : St σ} {B : List Byte} (hT : Tw s B) :
    Pair Twin (handleArrEnd E s) (handleArrEnd E { s with buf := B }) := by
  obtain ⟨hl, hbits⟩ := hT
  have hby := Tw.byte ⟨hl, hbits⟩
  unfold handleArrEnd
  try dsimp only
  try simp only [henc, if_true]
  cases s with
  | mk buf ip cursor bit be trans fFactor fOffset iVal polyPos polyCnt splPos splCnt opt loops stack host =>
    dsimp only at *
    cases loops with
    | nil => tw_sweep
    | cons f fs =>
      dsimp only
      rw [hl]
      tw_sweep

theorem handleArrEof_twin (henc : E.enc = true) {s : St σ} {B : List Byte} (hT : Tw s B) :
    Pair Twin (handleArrEof E s) (handleArrEof E { s with buf := B }) := by
  obtain ⟨hl, hbits⟩ := hT
  have hby := Tw.byte ⟨hl, hbits⟩
  unfold handleArrEof
  try dsimp only
  try simp only [henc, if_true]
  tw_sweep

theorem op_bytes (op : Byte) :
    match decodeOp op with
    | .setLE => op = 0x01
    | .setBE => op = 0x02
    | .emit => op = 0x65
    | .io _ | .ioF32 | .ioF64 | .ioBool | .strNull | .strPre _ | .arrPre _ | .constCheck | .constWrite | .crc16 | .crc32 =>
      aligns op = true
    | _ => True := by
  have key : ∀ n : Fin 256, match decodeOp (BitVec.ofFin n) with
    | .setLE => (BitVec.ofFin n : Byte) = 0x01
    | .setBE => (BitVec.ofFin n : Byte) = 0x02
    | .emit => (BitVec.ofFin n : Byte) = 0x65
    | .io _ | .ioF32 | .ioF64 | .ioBool | .strNull | .strPre _ | .arrPre _ | .constCheck | .constWrite | .crc16 | .crc32 =>
      aligns (BitVec.ofFin n) = true
    | _ => True := by
    intro n
    have : ∀ n : Fin 256, (match decodeOp (BitVec.ofFin n) with
      | .setLE => (BitVec.ofFin n : Byte) == 0x01
      | .setBE => (BitVec.ofFin n : Byte) == 0x02
      | .emit => (BitVec.ofFin n : Byte) == 0x65
      | .io _ | .ioF32 | .ioF64 | .ioBool | .strNull | .strPre _ | .arrPre _ | .constCheck | .constWrite | .crc16 | .crc32 =>
        aligns (BitVec.ofFin n)
      | _ => true) = true := by decide +kernel
    have := this n
    revert this
    cases decodeOp (BitVec.ofFin n) <;> simp
  exact key op.toFin

theorem enterArray_twin (hD : Declines E.host) {s : St σ} {B : List Byte} (hT : Tw s B) (count : Nat) :
    Pair Twin (enterArray E s count) (enterArray E { s with buf := B } count) := by
  obtain ⟨hl, hbits⟩ := hT
  unfold enterArray
  dsimp only
  simp only [hl]
  apply pair_ite Iff.rfl
  · intro _; tw_sweep
  intro _
  split
  · apply pair_ite Iff.rfl
    · intro _
      apply tw_callAt hD
      intro g
      tw_sweep
    · intro _; tw_sweep
  · tw_sweep

theorem handleRaw_twin (hD : Declines E.host) (op : Byte) {s : St σ} {B : List Byte} (hT : Tw s B) :
    Pair Twin (handleRaw E op s) (handleRaw E op { s with buf := B }) := by
  obtain ⟨hl, hbits⟩ := hT
  unfold handleRaw fet
  dsimp only
  simp only [hl]
  apply pair_ite Iff.rfl
  · intro _; tw_sweep
  intro _
  exact tw_callAt (a := { s with ip := (fetch E.prog (fetch E.prog s.ip 2).2 4).2 }) hD (fun g => ⟨rfl, _, rfl, hl, hbits⟩)

theorem handleArrFixed_twin (hD : Declines E.host) (op : Byte) {s : St σ} {B : List Byte} (hT : Tw s B) :
    Pair Twin (handleArrFixed E op s) (handleArrFixed E op { s with buf := B }) := by
  obtain ⟨hl, hbits⟩ := hT
  unfold handleArrFixed
  tw_sweep
  rename_i ip _ ip2 g w
  exact enterArray_twin (s := { s with ip := ip2, host := g }) (B := B) hD ⟨hl, hbits⟩ _

theorem handleArrDynamic_twin (hD : Declines E.host) (op : Byte) {s : St σ} {B : List Byte} (hT : Tw s B) :
    Pair Twin (handleArrDynamic E op s) (handleArrDynamic E op { s with buf := B }) := by
  obtain ⟨hl, hbits⟩ := hT
  unfold handleArrDynamic
  tw_sweep
  rename_i ip _ ip2 _ _ _ g w
  exact enterArray_twin (s := { s with ip := ip2, host := g }) (B := B) hD ⟨hl, hbits⟩ _

theorem handleArrPre_twin (henc : E.enc = true) (hD : Declines E.host) (p : Pre) (op : Byte) {s : St σ} {B : List Byte}
    (hT : Tw s B) (hb : s.bit < 1) :
    Pair Twin (handleArrPre E p op s) (handleArrPre E p op { s with buf := B }) := by
  obtain ⟨hl, hbits⟩ := hT
  have hby := Tw.byte ⟨hl, hbits⟩
  unfold handleArrPre
  simp only [henc, if_true]
  tw_sweep
  rename_i ip g w _ b1 b2 h1 h2
  exact enterArray_twin (s := { s with ip := ip, host := g, buf := b1, cursor := s.cursor + p.size }) (B := b2) hD
    (tw_of_bytes hb h1 h2) _

theorem handleCrc_twin (henc : E.enc = true) (w32 : Bool) {s : St σ} {B : List Byte}
    (hT : Tw s B) (hb : s.bit < 1) :
    Pair Twin (handleCrc E w32 s) (handleCrc E w32 { s with buf := B }) := by
  obtain ⟨hl, hbits⟩ := hT
  have hby := Tw.byte ⟨hl, hbits⟩
  unfold handleCrc
  simp only [henc, if_true]
  apply pair_fet
  · rfl
  intro v1 ip1
  apply pair_fet
  · rfl
  intro v2 ip2
  apply pair_fet
  · rfl
  intro v3 ip3
  apply pair_fet
  · rfl
  intro v4 ip4
  have hs : slice B 0 s.cursor = slice s.buf 0 s.cursor := slice_agree hl (by simpa using hby)
  dsimp only
  rw [hs]
  cases slice s.buf 0 s.cursor with
  | none => exact pair_ub
  | some data => tw_sweep

theorem handleStrNull_twin (henc : E.enc = true) (op : Byte) {s : St σ} {B : List Byte} (hT : Tw s B) (hb : s.bit < 1) :
    Pair Twin (handleStrNull E op s) (handleStrNull E op { s with buf := B }) := by
  obtain ⟨hl, hbits⟩ := hT
  have hby := Tw.byte ⟨hl, hbits⟩
  unfold handleStrNull
  simp only [henc, if_true]
  tw_sweep
  rename_i b1 b2 h1 h2
  refine ⟨_, rfl, tw_of_bytes hb h1 ?_⟩
  intro i hi
  apply h2
  dsimp only at hi ⊢
  simp only [List.length_append, List.length_cons, List.length_nil]
  omega

theorem handleStrPre_twin (henc : E.enc = true) (p : Pre) (op : Byte) {s : St σ} {B : List Byte} (hT : Tw s B)
    (hb : s.bit < 1) : Pair Twin (handleStrPre E p op s) (handleStrPre E p op { s with buf := B }) := by
  obtain ⟨hl, hbits⟩ := hT
  have hby := Tw.byte ⟨hl, hbits⟩
  unfold handleStrPre
  simp only [henc, if_true]
  tw_sweep

theorem handleBitU_twin (henc : E.enc = true) (op : Byte) {s : St σ} {B : List Byte} (hT : Tw s B) (hb : s.bit < 8) :
    Pair Twin (handleBitU E op s) (handleBitU E op { s with buf := B }) := by
  obtain ⟨hl, hbits⟩ := hT
  unfold handleBitU
  simp only [henc, if_true]
  tw_sweep
  refine tw_putBits (B := B) hb ⟨hl, hbits⟩ rfl rfl rfl ?_
  intro b1 b2 c o h
  exact ⟨_, rfl, h⟩

theorem handleBitI_twin (henc : E.enc = true) (op : Byte) {s : St σ} {B : List Byte} (hT : Tw s B) (hb : s.bit < 8) :
    Pair Twin (handleBitI E op s) (handleBitI E op { s with buf := B }) := by
  obtain ⟨hl, hbits⟩ := hT
  unfold handleBitI
  simp only [henc, if_true]
  tw_sweep
  refine tw_putBits (B := B) hb ⟨hl, hbits⟩ rfl rfl rfl ?_
  intro b1 b2 c o h
  exact ⟨_, rfl, h⟩

theorem handleBitBool_twin (henc : E.enc = true) (op : Byte) {s : St σ} {B : List Byte} (hT : Tw s B) (hb : s.bit < 8) :
    Pair Twin (handleBitBool E op s) (handleBitBool E op { s with buf := B }) := by
  obtain ⟨hl, hbits⟩ := hT
  unfold handleBitBool
  simp only [henc, if_true]
  tw_sweep
  refine tw_putBits (B := B) hb ⟨hl, hbits⟩ rfl rfl rfl ?_
  intro b1 b2 c o h
  exact ⟨_, rfl, h⟩

theorem handlePad_twin (henc : E.enc = true) {s : St σ} {B : List Byte} (hT : Tw s B) (hb : s.bit < 8) :
    Pair Twin (handlePad E s) (handlePad E { s with buf := B }) := by
  obtain ⟨hl, hbits⟩ := hT
  unfold handlePad
  simp only [henc, if_true]
  tw_sweep
  refine tw_putBits (B := B) hb ⟨hl, hbits⟩ rfl rfl rfl ?_
  intro b1 b2 c o h
  exact ⟨_, rfl, h⟩

theorem handleFill_twin (henc : E.enc = true) {s : St σ} {B : List Byte} (hT : Tw s B) (hb : s.bit < 8) :
    Pair Twin (handleFill E s) (handleFill E { s with buf := B }) := by
  obtain ⟨hl, hbits⟩ := hT
  unfold handleFill
  simp only [henc, if_true]
  tw_sweep
  all_goals exact tw_putBits (B := B) hb ⟨hl, hbits⟩ rfl rfl rfl (fun b1 b2 c o h => ⟨_, rfl, h⟩)

theorem aluDone_twin (x : Alu) {s : St σ} {B : List Byte} (hT : Tw s B) :
    Pair Twin (aluDone s x) (aluDone { s with buf := B } x) := by
  obtain ⟨hl, hbits⟩ := hT
  cases x <;> unfold aluDone <;> tw_sweep

theorem binary_twin (f : Word → Word → Alu) {s : St σ} {B : List Byte} (hT : Tw s B) :
    Pair Twin (binary s f) (binary { s with buf := B } f) := by
  obtain ⟨hl, hbits⟩ := hT
  unfold binary
  dsimp only
  cases s with
  | mk buf ip cursor bit be trans fFactor fOffset iVal polyPos polyCnt splPos splCnt opt loops stack host =>
    dsimp only at *
    rcases stack with _ | ⟨b, _ | ⟨a, rest⟩⟩
    · tw_sweep
    · tw_sweep
    · exact aluDone_twin (s := ⟨buf, ip, cursor, bit, be, trans, fFactor, fOffset, iVal, polyPos, polyCnt, splPos, splCnt, opt,
        loops, rest, host⟩) (B := B) (f a b) ⟨hl, hbits⟩

theorem unary_twin (f : Word → Alu) {s : St σ} {B : List Byte} (hT : Tw s B) :
    Pair Twin (unary s f) (unary { s with buf := B } f) := by
  obtain ⟨hl, hbits⟩ := hT
  unfold unary
  dsimp only
  cases s with
  | mk buf ip cursor bit be trans fFactor fOffset iVal polyPos polyCnt splPos splCnt opt loops stack host =>
    dsimp only at *
    rcases stack with _ | ⟨a, rest⟩
    · tw_sweep
    · exact aluDone_twin (s := ⟨buf, ip, cursor, bit, be, trans, fFactor, fOffset, iVal, polyPos, polyCnt, splPos, splCnt, opt,
        loops, rest, host⟩) (B := B) (f a) ⟨hl, hbits⟩

/-- Instructions that must not come in the middle of a byte: those that skip its remaining bits, EMIT, and a change of
byte order. -/
def breaksByte (op : Byte) (be : Bool) : Bool :=
  aligns op || op == 0x65 || (op == 0x01 && be) || (op == 0x02 && !be)

theorem execOp_twin (henc : E.enc = true) (hD : Declines E.host) (op : Byte) {s : St σ} {B : List Byte} (hT : Tw s B)
    (hb8 : s.bit < 8) (hbr : breaksByte op s.be = true → s.bit = 0) :
    Pair Twin (execOp E op s) (execOp E op { s with buf := B }) := by
  have hT' := hT
  obtain ⟨hl, hbits⟩ := hT
  have hby := Tw.byte ⟨hl, hbits⟩
  have hal : aligns op = true → s.bit < 1 := fun h => by have := hbr (by simp [breaksByte, h]); omega
  have hop := op_bytes op
  unfold execOp
  cases hd : decodeOp op <;> simp only [hd] at hop <;> dsimp only
  case setLE =>
    subst hop
    by_cases hbe : s.be = true
    · have := hbr (by simp [breaksByte, hbe])
      exact ⟨_, rfl, tw_of_bytes (by rw [this]; omega) hl hby⟩
    · have hf : s.be = false := by simpa using hbe
      exact ⟨_, rfl, hl, by simpa [hf] using hbits⟩
  case setBE =>
    subst hop
    by_cases hbe : s.be = false
    · have := hbr (by simp [breaksByte, hbe])
      exact ⟨_, rfl, tw_of_bytes (by rw [this]; omega) hl hby⟩
    · have hf : s.be = true := by simpa using hbe
      exact ⟨_, rfl, hl, by simpa [hf] using hbits⟩
  case io t => exact handlePrim_twin henc t op hT' (hal hop)
  case ioF32 => exact handleFloat_twin henc _ op hT' (hal hop)
  case ioF64 => exact handleFloat_twin henc _ op hT' (hal hop)
  case ioBool => exact handleBool_twin henc op hT' (hal hop)
  case bitU => exact handleBitU_twin henc op hT' hb8
  case bitI => exact handleBitI_twin henc op hT' hb8
  case bitBool => exact handleBitBool_twin henc op hT' hb8
  case alignPad => exact handlePad_twin henc hT' hb8
  case alignFill => exact handleFill_twin henc hT' hb8
  case strNull => exact handleStrNull_twin henc op hT' (hal hop)
  case strPre p => exact handleStrPre_twin henc p op hT' (hal hop)
  case arrFixed => exact handleArrFixed_twin hD op hT'
  case arrPre p => exact handleArrPre_twin henc hD p op hT' (hal hop)
  case arrEnd => exact handleArrEnd_twin henc hT'
  case rawBytes => exact handleRaw_twin hD op hT'
  case arrEof => exact handleArrEof_twin henc hT'
  case arrDynamic => exact handleArrDynamic_twin hD op hT'
  case constCheck => exact handleConstCheck_twin henc hT' (hal hop)
  case constWrite => exact handleConstWrite_twin henc hT' (hal hop)
  case rangeCheck => exact handleRange_twin henc hT'
  case crc16 => exact handleCrc_twin henc _ hT' (hal hop)
  case crc32 => exact handleCrc_twin henc _ hT' (hal hop)
  case enumCheck => exact handleEnum_twin henc hT'
  case jumpIfNot => exact handleJumpIfNot_twin henc hT'
  case switch => exact handleSwitch_twin henc hT'
  case jump => exact handleJump_twin henc hT'
  case switchTable => exact handleSwitchTable_twin henc hT'
  case loadCtx => exact handleLoadCtx_twin henc op hT'
  case storeCtx => exact handleStoreCtx_twin henc op hT'
  case emit => exact handleEmit_twin henc hT' (by have := hbr (by simp [breaksByte, hop]); omega)
  case ibin o => exact binary_twin _ hT'
  case fbin o => exact binary_twin _ hT'
  case un o => exact unary_twin _ hT'
  case pop =>
    cases s with
    | mk buf ip cursor bit be trans fFactor fOffset iVal polyPos polyCnt splPos splCnt opt loops stack host =>
      dsimp only at *
      cases stack <;> tw_sweep
  case dup =>
    cases s with
    | mk buf ip cursor bit be trans fFactor fOffset iVal polyPos polyCnt splPos splCnt opt loops stack host =>
      dsimp only at *
      cases stack <;> tw_sweep
  all_goals tw_sweep

theorem step_twin (henc : E.enc = true) (hD : Declines E.host) {a b : St σ} (h : Twin a b) (hi : Inv a)
    (hbr : ∀ op, E.prog[a.ip]? = some op → breaksByte op a.be = true → a.bit = 0) :
    Pair Twin (step E a) (step E b) := by
  obtain ⟨B, rfl, hT⟩ := h
  cases hop : E.prog[a.ip]? with
  | none =>
    rw [step_end hop, step_end (by exact hop)]
    exact ⟨rfl, _, rfl, hT⟩
  | some op =>
    rw [step_eq hop, step_eq (by exact hop)]
    have hpre : ∀ s : St σ, s.bit = a.bit → alignSt op s = s := by
      intro s hs
      unfold alignSt
      split
      · rename_i hc
        simp only [Bool.and_eq_true, bne_iff_ne, ne_eq] at hc
        exact absurd (hs.trans (hbr op hop (by simp [breaksByte, hc.1]))) hc.2
      · rfl
    rw [hpre { a with ip := a.ip + 1 } rfl, hpre { a with ip := a.ip + 1, buf := B } rfl]
    exact execOp_twin (s := { a with ip := a.ip + 1 }) henc hD op ⟨hT.len, hT.bits⟩ hi.bit (hbr op hop)

end

end Cnd
