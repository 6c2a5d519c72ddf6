/-
  The instruction layout of the VM: how many bytes each instruction occupies, which key operands it
  has and where control can go next.

  Nothing here models C code of its own; the layout is read off the handlers of
  /repo/src/vm/vm_exec.c 700-1671 (model: VM.lean) and `step_next` proves that the VM model follows it.
  The other tools that walk bytecode (verifier, inspector, struct inlining, string optimisation) are
  compared with it.
-/
import Verif.SweepIp

namespace Cnd

/-- Operand bytes after the opcode for the instruction whose bytes after the opcode are `r`; `none`
if the type tag is one the VM refuses. -/
def opArgs (o : Op) (r : List Byte) : Option Nat :=
  match o with
  | .enterStruct | .metaName | .io _ | .ioF32 | .ioF64 | .ioBool | .bitBool | .strPre _
  | .arrPre _ | .arrEof | .loadCtx | .storeCtx => some 2
  | .metaVersion | .alignPad | .alignFill | .emit => some 1
  | .bitU | .bitI => some 3
  | .strNull | .arrDynamic | .jump | .jumpIfNot => some 4
  | .arrFixed | .rawBytes | .switch | .switchTable => some 6
  | .constCheck => (tyTag (leWord ((r.drop 2).take 1))).map fun t => 3 + t.size
  | .constWrite =>
    match tyTag (leWord (r.take 1)) with
    | some t => if t.signed then none else some (1 + t.size)
    | none => none
  | .rangeCheck =>
    match tyTag (leWord (r.take 1)) with
    | some t => some (1 + 2 * t.size)
    | none =>
      if leWord (r.take 1) = 0x18 then some 9
      else if leWord (r.take 1) = 0x19 then some 17 else none
  | .scaleLin => some 16
  | .crc16 => some 7
  | .crc32 => some 13
  | .transI _ | .pushImm => some 8
  | .enumCheck =>
    (tyTag (leWord (r.take 1))).map fun t => 3 + (leWord ((r.drop 1).take 2)).toNat * t.size
  | .transPoly => some (1 + (leWord (r.take 1)).toNat * 8)
  | .transSpline => some (1 + (leWord (r.take 1)).toNat * 16)
  | _ => some 0

/-- The length of the instruction at the head of `l`, if it is there completely. -/
def vmLen (l : List Byte) : Option Nat :=
  match l with
  | [] => none
  | op :: r =>
    match opArgs (decodeOp op) r with
    | none => none
    | some n => if n ≤ r.length then some (n + 1) else none

/-- Array instructions. -/
def Op.arr : Op → Bool
  | .arrFixed | .arrPre _ | .arrEof | .arrDynamic => true
  | _ => false

/-- Offsets in a switch table at `tbl`: the default and the case targets (vm_exec.c 1250-1269). -/
def switchOffs (prog : List Byte) (tbl : Nat) : List Word :=
  (fetch prog (tbl + 2) 4).1 ::
    (List.range (fetch prog tbl 2).1.toNat).map fun i => (fetch prog (tbl + 6 + 12 * i + 8) 4).1

/-- Offsets in a jump table at `tbl`: the default and the entries (vm_exec.c 1300-1322). -/
def tableOffs (prog : List Byte) (tbl : Nat) : List Word :=
  (fetch prog (tbl + 16) 4).1 ::
    (List.range ((fetch prog (tbl + 8) 8).1.toNat - (fetch prog tbl 8).1.toNat + 1)).map
      fun i => (fetch prog (tbl + 20 + 4 * i) 4).1

/-- The table of the switch instruction at `ip` lies completely inside the program (or starts
outside it, in which case the VM stops with an error). -/
def tableFits (prog : List Byte) (ip : Nat) : Prop :=
  match (prog[ip]?).map decodeOp with
  | some .switch =>
    let tbl := ip + 7 + (fetch prog (ip + 3) 4).1.toNat
    tbl > prog.length ∨ tbl + 6 + 12 * (fetch prog tbl 2).1.toNat ≤ prog.length
  | some .switchTable =>
    let tbl := ip + 7 + (fetch prog (ip + 3) 4).1.toNat
    (tbl + 20 > prog.length ∨
      tbl + 20 + 4 * ((fetch prog (tbl + 8) 8).1.toNat - (fetch prog tbl 8).1.toNat + 1) ≤
        prog.length) ∧ prog.length < 2 ^ 64
  | _ => True

instance (prog : List Byte) (ip : Nat) : Decidable (tableFits prog ip) := by
  unfold tableFits; split <;> infer_instance

/-- Where a control transfer at `ip` can go. -/
def targets (prog : List Byte) (ip : Nat) : List Nat :=
  match (prog[ip]?).map decodeOp with
  | some .jump | some .jumpIfNot =>
    (branch prog.length (ip + 5) (fetch prog (ip + 1) 4).1).toList
  | some .switch =>
    (switchOffs prog (ip + 7 + (fetch prog (ip + 3) 4).1.toNat)).filterMap
      (branch prog.length (ip + 7))
  | some .switchTable =>
    (tableOffs prog (ip + 7 + (fetch prog (ip + 3) 4).1.toNat)).filterMap
      (branch prog.length (ip + 7))
  | _ => []

/-- One step of control: from instruction pointer and loop stack to the next ones. -/
inductive Next (prog : List Byte) (ip : Nat) : List Frame → Nat → List Frame → Prop
  /-- fall through to the next instruction -/
  | seq {L : List Frame} {n : Nat} (h : vmLen (prog.drop ip) = some n) : Next prog ip L (ip + n) L
  /-- enter an array body -/
  | enter {L : List Frame} {n c : Nat} {op : Byte} (ho : prog[ip]? = some op)
      (ha : (decodeOp op).arr = true)
      (h : vmLen (prog.drop ip) = some n) : Next prog ip L (ip + n) (⟨ip + n, c⟩ :: L)
  /-- skip the body of an empty array (a read-to-end array leaves its frame behind) -/
  | skip {L L' : List Frame} {n : Nat} {op : Byte} (ho : prog[ip]? = some op)
      (ha : (decodeOp op).arr = true)
      (h : vmLen (prog.drop ip) = some n) (hL : L' = L ∨ ∃ c, L' = ⟨ip + n, c⟩ :: L) :
      Next prog ip L (skipBody prog (ip + n)) L'
  /-- hand a byte array over in one call: the body `IO_U8 key; ARR_END` is skipped -/
  | bulk {L : List Frame} {n : Nat} {op b : Byte} (ho : prog[ip]? = some op)
      (ha : (decodeOp op).arr = true)
      (h : vmLen (prog.drop ip) = some n) (hb : prog[ip + n]? = some b)
      (hb' : b = 0x10 ∨ b = 0x14) (he : prog[ip + n + 3]? = some 0x38) :
      Next prog ip L (ip + n + 4) L
  /-- next round of a loop -/
  | again {f : Frame} {fs : List Frame} {r : Nat} {op : Byte} (ho : prog[ip]? = some op)
      (ha : decodeOp op = .arrEnd) : Next prog ip (f :: fs) f.start (⟨f.start, r⟩ :: fs)
  /-- end of a loop -/
  | leave {f : Frame} {fs : List Frame} {op : Byte} (ho : prog[ip]? = some op)
      (ha : decodeOp op = .arrEnd) : Next prog ip (f :: fs) (ip + 1) fs
  /-- control transfer -/
  | jump {L : List Frame} {t : Nat} (h : t ∈ targets prog ip) : Next prog ip L t L

variable {σ : Type}

theorem fetch_full {prog : List Byte} {ip n : Nat} (h : ip + n ≤ prog.length) :
    fetch prog ip n = (leWord ((prog.drop ip).take n), ip + n) := by
  unfold fetch; rw [if_pos h]

theorem post_fetX {P : St σ → Prop} {Q : Err → St σ → Prop} {U : UB → Prop} {E : Env σ} {s : St σ}
    {n : Nat} {k : Word → St σ → Res σ} (hl : s.ip + n ≤ E.prog.length)
    (h : Post P Q U (k (fetch E.prog s.ip n).1 { s with ip := s.ip + n })) :
    Post P Q U (fet E s n k) := by
  have := fetch_full hl
  unfold fet
  simp only [this] at h ⊢
  exact h

/-- Sequential: `k` operand bytes consumed, loop stack untouched. -/
def SeqRes (E : Env σ) (k : Nat) (s : St σ) : Res σ → Prop :=
  Post (fun s' => s'.ip = s.ip + k ∧ s'.loops = s.loops) (fun _ _ => True) (fun _ => True)

macro "len_close" : tactic => `(tactic| first | omega | (dsimp only; omega))

macro "len_sweep" : tactic => `(tactic|
  repeat' (first | intro _ | with_reducible apply post_fetX | vm_rule | split | trivial | len_close))

macro "seq_close" : tactic => `(tactic| first
  | exact ⟨by (try dsimp only at *); omega, rfl⟩
  | exact ⟨rfl, rfl⟩)

theorem handlePrim_len (E : Env σ) (t : Ty) (op : Byte) (s : St σ) (h : s.ip + 2 ≤ E.prog.length) :
    SeqRes E 2 s (handlePrim E t op s) := by
  unfold SeqRes handlePrim
  try dsimp only
  len_sweep
  all_goals seq_close

theorem handleFloat_len (E : Env σ) (d : Bool) (op : Byte) (s : St σ) (h : s.ip + 2 ≤ E.prog.length) :
    SeqRes E 2 s (handleFloat E d op s) := by
  unfold SeqRes handleFloat
  try dsimp only
  len_sweep
  all_goals seq_close

theorem handleBool_len (E : Env σ) (op : Byte) (s : St σ) (h : s.ip + 2 ≤ E.prog.length) :
    SeqRes E 2 s (handleBool E op s) := by
  unfold SeqRes handleBool
  try dsimp only
  len_sweep
  all_goals seq_close

theorem handleBitU_len (E : Env σ) (op : Byte) (s : St σ) (h : s.ip + 3 ≤ E.prog.length) :
    SeqRes E 3 s (handleBitU E op s) := by
  unfold SeqRes handleBitU
  try dsimp only
  len_sweep
  all_goals seq_close

theorem handleBitI_len (E : Env σ) (op : Byte) (s : St σ) (h : s.ip + 3 ≤ E.prog.length) :
    SeqRes E 3 s (handleBitI E op s) := by
  unfold SeqRes handleBitI
  try dsimp only
  len_sweep
  all_goals seq_close

theorem handleBitBool_len (E : Env σ) (op : Byte) (s : St σ) (h : s.ip + 2 ≤ E.prog.length) :
    SeqRes E 2 s (handleBitBool E op s) := by
  unfold SeqRes handleBitBool
  try dsimp only
  len_sweep
  all_goals seq_close

theorem handlePad_len (E : Env σ) (s : St σ) (h : s.ip + 1 ≤ E.prog.length) :
    SeqRes E 1 s (handlePad E s) := by
  unfold SeqRes handlePad
  try dsimp only
  len_sweep
  all_goals seq_close

theorem handleFill_len (E : Env σ) (s : St σ) (h : s.ip + 1 ≤ E.prog.length) :
    SeqRes E 1 s (handleFill E s) := by
  unfold SeqRes handleFill
  try dsimp only
  len_sweep
  all_goals seq_close

theorem handleStrNull_len (E : Env σ) (op : Byte) (s : St σ) (h : s.ip + 4 ≤ E.prog.length) :
    SeqRes E 4 s (handleStrNull E op s) := by
  unfold SeqRes handleStrNull
  try dsimp only
  len_sweep
  all_goals seq_close

theorem handleStrPre_len (E : Env σ) (p : Pre) (op : Byte) (s : St σ) (h : s.ip + 2 ≤ E.prog.length) :
    SeqRes E 2 s (handleStrPre E p op s) := by
  unfold SeqRes handleStrPre
  try dsimp only
  len_sweep
  all_goals seq_close

theorem handleRaw_len (E : Env σ) (op : Byte) (s : St σ) (h : s.ip + 6 ≤ E.prog.length) :
    SeqRes E 6 s (handleRaw E op s) := by
  unfold SeqRes handleRaw
  try dsimp only
  len_sweep
  all_goals seq_close

theorem handleCrc_len (E : Env σ) (w : Bool) (s : St σ)
    (h : s.ip + (if w then 13 else 7) ≤ E.prog.length) :
    SeqRes E (if w then 13 else 7) s (handleCrc E w s) := by
  unfold SeqRes handleCrc
  cases w
  all_goals
    simp only [Bool.false_eq_true, if_false, if_true] at h ⊢
    len_sweep
    all_goals seq_close

theorem handleLoadCtx_len (E : Env σ) (op : Byte) (s : St σ) (h : s.ip + 2 ≤ E.prog.length) :
    SeqRes E 2 s (handleLoadCtx E op s) := by
  unfold SeqRes handleLoadCtx
  try dsimp only
  len_sweep
  all_goals seq_close

theorem handleStoreCtx_len (E : Env σ) (op : Byte) (s : St σ) (h : s.ip + 2 ≤ E.prog.length) :
    SeqRes E 2 s (handleStoreCtx E op s) := by
  unfold SeqRes handleStoreCtx
  try dsimp only
  len_sweep
  all_goals seq_close

theorem handleEmit_len (E : Env σ) (s : St σ) (h : s.ip + 1 ≤ E.prog.length) :
    SeqRes E 1 s (handleEmit E s) := by
  unfold SeqRes handleEmit
  try dsimp only
  len_sweep
  all_goals seq_close

theorem handleConstCheck_len (E : Env σ) (s : St σ) (t : Ty)
    (ht : tyTag (fetch E.prog (s.ip + 2) 1).1 = some t) (h : s.ip + (3 + t.size) ≤ E.prog.length) :
    SeqRes E (3 + t.size) s (handleConstCheck E s) := by
  unfold SeqRes handleConstCheck
  apply post_fetX (by omega)
  apply post_fetX (by dsimp only; omega)
  simp only [ht]
  len_sweep
  all_goals seq_close

theorem handleConstWrite_len (E : Env σ) (s : St σ) (t : Ty)
    (ht : tyTag (fetch E.prog s.ip 1).1 = some t) (h : s.ip + (1 + t.size) ≤ E.prog.length) :
    SeqRes E (1 + t.size) s (handleConstWrite E s) := by
  unfold SeqRes handleConstWrite
  apply post_fetX (by omega)
  simp only [ht]
  len_sweep
  all_goals seq_close

theorem handleRange_len (E : Env σ) (s : St σ) (t : Ty)
    (ht : tyTag (fetch E.prog s.ip 1).1 = some t) (h : s.ip + (1 + 2 * t.size) ≤ E.prog.length) :
    SeqRes E (1 + 2 * t.size) s (handleRange E s) := by
  unfold SeqRes handleRange
  apply post_fetX (by omega)
  simp only [ht]
  len_sweep
  all_goals seq_close

theorem handleRange_len32 (E : Env σ) (s : St σ)
    (ht : (fetch E.prog s.ip 1).1 = 0x18) (h : s.ip + 9 ≤ E.prog.length) :
    SeqRes E 9 s (handleRange E s) := by
  unfold SeqRes handleRange
  apply post_fetX (by omega)
  simp only [ht]
  rw [show tyTag 0x18 = none from rfl]
  dsimp only
  rw [if_pos trivial]
  len_sweep
  all_goals seq_close

theorem handleRange_len64 (E : Env σ) (s : St σ)
    (ht : (fetch E.prog s.ip 1).1 = 0x19) (h : s.ip + 17 ≤ E.prog.length) :
    SeqRes E 17 s (handleRange E s) := by
  unfold SeqRes handleRange
  apply post_fetX (by omega)
  simp only [ht]
  rw [show tyTag 0x19 = none from rfl]
  dsimp only
  rw [if_neg (by decide), if_pos trivial]
  len_sweep
  all_goals seq_close

theorem enumScan_len {prog : List Byte} {size : Nat} {a : Word} {n ip ip' : Nat}
    (hl : ip + n * size ≤ prog.length)
    (h : enumScan prog size a n ip = some ip') : ip' = ip + n * size := by
  induction n generalizing ip with
  | zero => simp [enumScan] at h
  | succ n ih =>
    rw [Nat.succ_mul] at hl ⊢
    simp only [enumScan, fetch_full (show ip + size ≤ prog.length by omega)] at h
    split at h
    · simp at h; omega
    · have := ih (ip := ip + size) (by omega) h; omega

theorem handleEnum_len (E : Env σ) (s : St σ) (t : Ty)
    (ht : tyTag (fetch E.prog s.ip 1).1 = some t)
    (h : s.ip + (3 + (fetch E.prog (s.ip + 1) 2).1.toNat * t.size) ≤ E.prog.length) :
    SeqRes E (3 + (fetch E.prog (s.ip + 1) 2).1.toNat * t.size) s (handleEnum E s) := by
  unfold SeqRes handleEnum
  apply post_fetX (by omega)
  apply post_fetX (by dsimp only; omega)
  simp only [ht]
  len_sweep
  rename_i he
  have := enumScan_len (by omega) he
  refine ⟨?_, rfl⟩
  dsimp only at *
  omega

theorem handleJump_tgt (E : Env σ) (s : St σ) (h : s.ip + 4 ≤ E.prog.length) :
    Post (fun s' => branch E.prog.length (s.ip + 4) (fetch E.prog s.ip 4).1 = some s'.ip ∧
      s'.loops = s.loops) (fun _ _ => True) (fun _ => True) (handleJump E s) := by
  unfold handleJump
  apply post_fetX h
  apply post_goto
  · intro t ht; exact ⟨ht, rfl⟩
  · intro _; trivial

theorem handleJumpIfNot_tgt (E : Env σ) (s : St σ) (h : s.ip + 4 ≤ E.prog.length) :
    Post (fun s' => (branch E.prog.length (s.ip + 4) (fetch E.prog s.ip 4).1 = some s'.ip ∨
      s'.ip = s.ip + 4) ∧
      s'.loops = s.loops) (fun _ _ => True) (fun _ => True) (handleJumpIfNot E s) := by
  unfold handleJumpIfNot
  len_sweep
  · exact ⟨Or.inl (by assumption), rfl⟩
  · exact ⟨Or.inr rfl, rfl⟩

theorem switchScan_mem (prog : List Byte) (disc : Word) (n ip : Nat) (f : Bool) (tg : Word)
    (hl : ip + 12 * n ≤ prog.length) :
    switchScan prog disc n ip f tg = tg ∨
    ∃ i, i < n ∧ switchScan prog disc n ip f tg = (fetch prog (ip + 12 * i + 8) 4).1 := by
  induction n generalizing ip f tg with
  | zero => left; rfl
  | succ n ih =>
    simp only [switchScan]
    rw [fetch_full (show ip + 8 ≤ prog.length by omega)]
    have e4 := fetch_full (show ip + 8 + 4 ≤ prog.length by omega)
    simp only [e4]
    split
    · rcases ih (ip + 8 + 4) true (leWord ((prog.drop (ip + 8)).take 4)) (by omega) with h | ⟨i, hi, h⟩
      · right; refine ⟨0, by omega, ?_⟩
        rw [h]; simp only [Nat.mul_zero, Nat.add_zero, e4]
      · right; refine ⟨i + 1, by omega, ?_⟩
        rw [h]; congr 3; omega
    · rcases ih (ip + 8 + 4) f tg (by omega) with h | ⟨i, hi, h⟩
      · left; exact h
      · right; refine ⟨i + 1, by omega, ?_⟩
        rw [h]; congr 3; omega

theorem handleSwitch_tgt (E : Env σ) (s : St σ) (h : s.ip + 6 ≤ E.prog.length)
    (ht : s.ip + 6 + (fetch E.prog (s.ip + 2) 4).1.toNat > E.prog.length ∨
      s.ip + 6 + (fetch E.prog (s.ip + 2) 4).1.toNat + 6 +
      12 * (fetch E.prog (s.ip + 6 + (fetch E.prog (s.ip + 2) 4).1.toNat) 2).1.toNat ≤ E.prog.length) :
    Post (fun s' => (∃ off ∈ switchOffs E.prog (s.ip + 6 + (fetch E.prog (s.ip + 2) 4).1.toNat),
      branch E.prog.length (s.ip + 6) off = some s'.ip) ∧ s'.loops = s.loops)
      (fun _ _ => True) (fun _ => True) (handleSwitch E s) := by
  unfold handleSwitch
  apply post_fetX (by omega)
  apply post_fetX (by dsimp only; omega)
  dsimp only
  generalize htb : s.ip + 2 + 4 + (fetch E.prog (s.ip + 2) 4).1.toNat = tbl
  rw [show s.ip + 6 + (fetch E.prog (s.ip + 2) 4).1.toNat = tbl by omega] at ht
  rcases ht with ht | ht
  · rw [if_pos ht]; trivial
  rw [if_neg (by omega)]
  have ec := fetch_full (show tbl + 2 ≤ E.prog.length by omega)
  have ed := fetch_full (show tbl + 2 + 4 ≤ E.prog.length by omega)
  len_sweep
  rename_i hb
  refine ⟨?_, rfl⟩
  dsimp only at hb ⊢
  refine ⟨_, ?_, hb⟩
  have e1 : (fetch E.prog tbl 2).2 = tbl + 2 := by rw [ec]
  have e2 : (fetch E.prog (tbl + 2) 4).2 = tbl + 2 + 4 := by rw [ed]
  rw [e1, e2]
  unfold switchOffs
  rcases switchScan_mem E.prog (truncB 8 ‹Word›) (fetch E.prog tbl 2).1.toNat (tbl + 2 + 4) false
    (fetch E.prog (tbl + 2) 4).1 (by omega) with h | ⟨i, hi, h⟩
  · rw [h]; exact List.mem_cons_self
  · rw [h]
    refine List.mem_cons_of_mem _ (List.mem_map.2 ⟨i, List.mem_range.2 hi, ?_⟩)
    rfl

theorem handleSwitchTable_tgt (E : Env σ) (s : St σ) (h : s.ip + 6 ≤ E.prog.length)
    (ht : s.ip + 6 + (fetch E.prog (s.ip + 2) 4).1.toNat + 20 > E.prog.length ∨
      s.ip + 6 + (fetch E.prog (s.ip + 2) 4).1.toNat + 20 +
      4 * ((fetch E.prog (s.ip + 6 + (fetch E.prog (s.ip + 2) 4).1.toNat + 8) 8).1.toNat -
        (fetch E.prog (s.ip + 6 + (fetch E.prog (s.ip + 2) 4).1.toNat) 8).1.toNat + 1)
      ≤ E.prog.length) (h64 : E.prog.length < 2 ^ 64) :
    Post (fun s' => (∃ off ∈ tableOffs E.prog (s.ip + 6 + (fetch E.prog (s.ip + 2) 4).1.toNat),
      branch E.prog.length (s.ip + 6) off = some s'.ip) ∧ s'.loops = s.loops)
      (fun _ _ => True) (fun _ => True) (handleSwitchTable E s) := by
  unfold handleSwitchTable
  apply post_fetX (by omega)
  apply post_fetX (by dsimp only; omega)
  dsimp only
  generalize htb : s.ip + 2 + 4 + (fetch E.prog (s.ip + 2) 4).1.toNat = tbl
  rw [show s.ip + 6 + (fetch E.prog (s.ip + 2) 4).1.toNat = tbl by omega] at ht
  rcases ht with ht | ht
  · rw [if_pos ht]; trivial
  rw [if_neg (by omega)]
  len_sweep
  · rename_i w hh hc hloc hfit t hb
    refine ⟨?_, rfl⟩
    refine ⟨_, ?_, hb⟩
    unfold tableOffs
    generalize (truncB 8 w).toNat = d at *
    refine List.mem_cons_of_mem _ (List.mem_map.2 ⟨d - (fetch E.prog tbl 8).1.toNat,
      List.mem_range.2 (by omega), ?_⟩)
    have : (tbl + 20 + (d - (fetch E.prog tbl 8).1.toNat) * 4 % 2 ^ 64) % 2 ^ 64 =
        tbl + 20 + 4 * (d - (fetch E.prog tbl 8).1.toNat) := by omega
    rw [this]
  · rename_i w hh hc t hb
    refine ⟨?_, rfl⟩
    refine ⟨_, ?_, hb⟩
    exact List.mem_cons_self

/-- Next control point after the instruction at `ip`. -/
def NextRes (E : Env σ) (ip : Nat) (L : List Frame) : Res σ → Prop :=
  Post (fun s' => Next E.prog ip L s'.ip s'.loops) (fun _ _ => True) (fun _ => True)

theorem enterArray_next (E : Env σ) (s : St σ) (c ip n : Nat) (op : Byte)
    (ho : E.prog[ip]? = some op) (ha : (decodeOp op).arr = true)
    (hv : vmLen (E.prog.drop ip) = some n) (hs : s.ip = ip + n) :
    NextRes E ip s.loops (enterArray E s c) := by
  have hpush : ∀ s1 : St σ, s1.ip = ip + n → s1.loops = s.loops →
      NextRes E ip s.loops (pushLoop s1 c) := by
    intro s1 h1 h2
    unfold NextRes
    apply post_pushLoop
    · intro _
      dsimp only
      rw [h1, h2]
      exact .enter ho ha hv
    · intro _; trivial
  unfold enterArray
  split
  · show Next E.prog ip s.loops (skipBody E.prog s.ip) s.loops
    rw [hs]
    exact .skip ho ha hv (Or.inl rfl)
  split
  · rename_i b a hb hafter
    split
    · rename_i hcond
      simp only [Bool.and_eq_true, Bool.or_eq_true, beq_iff_eq] at hcond
      apply post_callAt
      · intro h buf _
        show Next E.prog ip s.loops (s.ip + 4) s.loops
        rw [hs] at hb hafter ⊢
        exact .bulk ho ha hv hb hcond.1.1 (by rw [hafter, hcond.1.2])
      · intro h buf _
        exact hpush _ hs rfl
    · exact hpush s hs rfl
  · exact hpush s hs rfl

/-- **The VM model follows the layout.** -/
theorem execOp_next (E : Env σ) (op : Byte) (s : St σ) (ip n : Nat)
    (ho : E.prog[ip]? = some op) (hs : s.ip = ip + 1) (hv : vmLen (E.prog.drop ip) = some n)
    (ht : tableFits E.prog ip) : NextRes E ip s.loops (execOp E op s) := by
  have hip : ip < E.prog.length := (List.getElem?_eq_some_iff.1 ho).1
  have hd : E.prog.drop ip = op :: E.prog.drop (ip + 1) := by
    rw [List.drop_eq_getElem_cons hip, (List.getElem?_eq_some_iff.1 ho).2]
  have hv0 := hv
  rw [hd] at hv
  simp only [vmLen] at hv
  cases ha : opArgs (decodeOp op) (E.prog.drop (ip + 1)) with
  | none => simp [ha] at hv
  | some k =>
  simp only [ha] at hv
  split at hv
  case isFalse => simp at hv
  rename_i hle
  have hn : k + 1 = n := by simpa using hv
  have hk : s.ip + k ≤ E.prog.length := by
    rw [List.length_drop] at hle; omega
  have fromSeq : ∀ r, SeqRes E k s r → NextRes E ip s.loops r := by
    intro r h
    cases r with
    | run s' =>
      obtain ⟨h1, h2⟩ := h
      show Next E.prog ip s.loops s'.ip s'.loops
      rw [h1, h2, hs, show ip + 1 + k = ip + n by omega]
      exact .seq hv0
    | stop e s' => trivial
    | ub u => trivial
  have fe : ∀ (i m : Nat), s.ip + i + m ≤ E.prog.length →
      leWord (((E.prog.drop (ip + 1)).drop i).take m) = (fetch E.prog (s.ip + i) m).1 := by
    intro i m h
    rw [fetch_full h, List.drop_drop, hs]
  unfold execOp
  cases hdo : decodeOp op <;> simp only [hdo, opArgs, Option.some.injEq] at ha ⊢
  case io => subst ha; exact fromSeq _ (handlePrim_len _ _ _ _ hk)
  case ioF32 => subst ha; exact fromSeq _ (handleFloat_len _ _ _ _ hk)
  case ioF64 => subst ha; exact fromSeq _ (handleFloat_len _ _ _ _ hk)
  case ioBool => subst ha; exact fromSeq _ (handleBool_len _ _ _ hk)
  case bitU => subst ha; exact fromSeq _ (handleBitU_len _ _ _ hk)
  case bitI => subst ha; exact fromSeq _ (handleBitI_len _ _ _ hk)
  case bitBool => subst ha; exact fromSeq _ (handleBitBool_len _ _ _ hk)
  case alignPad => subst ha; exact fromSeq _ (handlePad_len _ _ hk)
  case alignFill => subst ha; exact fromSeq _ (handleFill_len _ _ hk)
  case strNull => subst ha; exact fromSeq _ (handleStrNull_len _ _ _ hk)
  case strPre => subst ha; exact fromSeq _ (handleStrPre_len _ _ _ _ hk)
  case rawBytes => subst ha; exact fromSeq _ (handleRaw_len _ _ _ hk)
  case crc16 => subst ha; exact fromSeq _ (handleCrc_len _ false _ hk)
  case crc32 => subst ha; exact fromSeq _ (handleCrc_len _ true _ hk)
  case loadCtx => subst ha; exact fromSeq _ (handleLoadCtx_len _ _ _ hk)
  case storeCtx => subst ha; exact fromSeq _ (handleStoreCtx_len _ _ _ hk)
  case emit => subst ha; exact fromSeq _ (handleEmit_len _ _ hk)
  case constCheck =>
    cases ht' : tyTag (leWord (((E.prog.drop (ip + 1)).drop 2).take 1)) with
    | none => rw [ht'] at ha; simp at ha
    | some t =>
      rw [ht'] at ha
      simp only [Option.map_some, Option.some.injEq] at ha
      subst ha
      rw [fe 2 1 (by omega)] at ht'
      exact fromSeq _ (handleConstCheck_len _ _ t ht' hk)
  case constWrite =>
    cases ht' : tyTag (leWord ((E.prog.drop (ip + 1)).take 1)) with
    | none => rw [ht'] at ha; simp at ha
    | some t =>
      rw [ht'] at ha
      simp only at ha
      split at ha
      · simp at ha
      simp only [Option.some.injEq] at ha
      subst ha
      have := fe 0 1 (by omega)
      simp only [List.drop_zero, Nat.add_zero] at this
      rw [this] at ht'
      exact fromSeq _ (handleConstWrite_len _ _ t ht' hk)
  case rangeCheck =>
    have f0 : 1 ≤ k → leWord ((E.prog.drop (ip + 1)).take 1) = (fetch E.prog s.ip 1).1 := by
      intro h1
      have := fe 0 1 (by omega)
      simpa only [List.drop_zero, Nat.add_zero] using this
    cases ht' : tyTag (leWord ((E.prog.drop (ip + 1)).take 1)) with
    | none =>
      rw [ht'] at ha
      simp only at ha
      split at ha
      · rename_i h18
        simp only [Option.some.injEq] at ha
        subst ha
        rw [f0 (by omega)] at h18
        exact fromSeq _ (handleRange_len32 _ _ h18 hk)
      split at ha
      · rename_i h19
        simp only [Option.some.injEq] at ha
        subst ha
        rw [f0 (by omega)] at h19
        exact fromSeq _ (handleRange_len64 _ _ h19 hk)
      · simp at ha
    | some t =>
      rw [ht'] at ha
      simp only [Option.some.injEq] at ha
      subst ha
      rw [f0 (by omega)] at ht'
      exact fromSeq _ (handleRange_len _ _ t ht' hk)
  case enumCheck =>
    cases ht' : tyTag (leWord ((E.prog.drop (ip + 1)).take 1)) with
    | none => rw [ht'] at ha; simp at ha
    | some t =>
      rw [ht'] at ha
      simp only [Option.map_some, Option.some.injEq] at ha
      subst ha
      have := fe 0 1 (by omega)
      simp only [List.drop_zero, Nat.add_zero] at this
      rw [this] at ht'
      have e2 := fe 1 2 (by omega)
      rw [e2] at hk
      have := handleEnum_len E s t ht' hk
      rw [← e2] at this
      exact fromSeq _ this
  case transPoly =>
    subst ha
    have e := fe 0 1 (by omega)
    simp only [List.drop_zero, Nat.add_zero] at e
    refine fromSeq _ ?_
    rw [e] at hk ⊢
    unfold SeqRes
    apply post_fetX (by omega)
    split
    · trivial
    · exact ⟨by dsimp only; omega, rfl⟩
  case transSpline =>
    subst ha
    have e := fe 0 1 (by omega)
    simp only [List.drop_zero, Nat.add_zero] at e
    refine fromSeq _ ?_
    rw [e] at hk ⊢
    unfold SeqRes
    apply post_fetX (by omega)
    split
    · trivial
    · exact ⟨by dsimp only; omega, rfl⟩
  case jump =>
    subst ha
    have := handleJump_tgt E s hk
    revert this
    cases handleJump E s with
    | run s' =>
      rintro ⟨h1, h2⟩
      show Next E.prog ip s.loops s'.ip s'.loops
      rw [h2]
      refine .jump ?_
      simp only [targets, ho, Option.map_some, hdo]
      rw [hs] at h1
      rw [h1]; simp
    | stop e s' => intro _; trivial
    | ub u => intro _; trivial
  case jumpIfNot =>
    subst ha
    have := handleJumpIfNot_tgt E s hk
    revert this
    cases handleJumpIfNot E s with
    | run s' =>
      rintro ⟨h1 | h1, h2⟩
      · show Next E.prog ip s.loops s'.ip s'.loops
        rw [h2]
        refine .jump ?_
        simp only [targets, ho, Option.map_some, hdo]
        rw [hs] at h1
        rw [h1]; simp
      · exact fromSeq (.run s') ⟨h1, h2⟩
    | stop e s' => intro _; trivial
    | ub u => intro _; trivial
  case switch =>
    subst ha
    simp only [tableFits, ho, Option.map_some, hdo] at ht
    have := handleSwitch_tgt E s hk (by rw [hs]; exact ht)
    revert this
    cases handleSwitch E s with
    | run s' =>
      rintro ⟨⟨off, h0, h1⟩, h2⟩
      show Next E.prog ip s.loops s'.ip s'.loops
      rw [h2]
      refine .jump ?_
      simp only [targets, ho, Option.map_some, hdo]
      rw [hs] at h1 h0
      exact List.mem_filterMap.2 ⟨off, h0, h1⟩
    | stop e s' => intro _; trivial
    | ub u => intro _; trivial
  case switchTable =>
    subst ha
    simp only [tableFits, ho, Option.map_some, hdo] at ht
    have := handleSwitchTable_tgt E s hk (by rw [hs]; exact ht.1) ht.2
    revert this
    cases handleSwitchTable E s with
    | run s' =>
      rintro ⟨⟨off, h0, h1⟩, h2⟩
      show Next E.prog ip s.loops s'.ip s'.loops
      rw [h2]
      refine .jump ?_
      simp only [targets, ho, Option.map_some, hdo]
      rw [hs] at h1 h0
      exact List.mem_filterMap.2 ⟨off, h0, h1⟩
    | stop e s' => intro _; trivial
    | ub u => intro _; trivial
  case arrEnd =>
    unfold handleArrEnd
    have hcase : ∀ (L : List Frame), L = s.loops → NextRes E ip s.loops
        (match L with
        | [] => .stop .invalidOp s
        | f :: fs =>
          let eof : Bool := f.rem == 0xFFFFFFFF
          let rem := if eof then f.rem else f.rem - 1
          let cont : Bool := if eof then decide (s.cursor < s.buf.length) else decide (rem > 0)
          let s := { s with loops := ⟨f.start, rem⟩ :: fs }
          if cont then .run { s with ip := f.start }
          else callNotify E s 0 0x38 fun s => .run { s with loops := fs }) := by
      intro L hL
      rw [← hL]
      cases L with
      | nil => trivial
      | cons f fs =>
        dsimp only
        generalize (if (f.rem == 0xFFFFFFFF) = true then f.rem else f.rem - 1) = r
        generalize (if (f.rem == 0xFFFFFFFF) = true then decide (s.cursor < s.buf.length)
          else decide (r > 0)) = c
        split
        · exact Next.again ho hdo
        · apply post_callNotify
          · intro h _
            show Next E.prog ip (f :: fs) s.ip fs
            rw [hs]
            exact .leave ho hdo
          · intro _ _; trivial
    exact hcase s.loops rfl
  case arrFixed =>
    subst ha
    unfold handleArrFixed
    apply post_fetX (by omega)
    apply post_fetX (by dsimp only; omega)
    apply post_callScalar
    · intro h w _
      exact enterArray_next E _ _ ip n op ho (by rw [hdo]; rfl) hv0 (by dsimp only; omega)
    · intro _ _ _; trivial
  case arrPre p =>
    subst ha
    unfold handleArrPre
    have ha : (decodeOp op).arr = true := by rw [hdo]; rfl
    apply post_fetX (by omega)
    split
    · apply post_callScalar
      · intro h w _
        dsimp only
        split
        · trivial
        · apply post_wrAt
          · intro b _ _
            exact enterArray_next E _ _ ip n op ho ha hv0 (by dsimp only; omega)
          · intro _; trivial
      · intro _ _ _; trivial
    · split
      · trivial
      · apply post_rdAt
        · intro bs _
          apply post_callScalar
          · intro h w _
            exact enterArray_next E _ _ ip n op ho ha hv0 (by dsimp only; omega)
          · intro _ _ _; trivial
        · intro _; trivial
  case arrDynamic =>
    subst ha
    unfold handleArrDynamic
    have ha : (decodeOp op).arr = true := by rw [hdo]; rfl
    apply post_fetX (by omega)
    apply post_fetX (by dsimp only; omega)
    apply post_callScalar
    · intro h w _
      dsimp only
      split
      · trivial
      · apply post_callScalar
        · intro h w _
          exact enterArray_next E _ _ ip n op ho ha hv0 (by dsimp only; omega)
        · intro _ _ _; trivial
    · intro _ _ _; trivial
  case arrEof =>
    subst ha
    have ha : (decodeOp op).arr = true := by rw [hdo]; rfl
    unfold handleArrEof
    apply post_fetX (by omega)
    split
    · trivial
    dsimp only
    rw [show s.ip + 2 = ip + n by omega]
    split
    · exact Next.skip ho ha hv0 (Or.inr ⟨_, rfl⟩)
    · exact Next.enter ho ha hv0
  all_goals
    subst ha
    refine fromSeq _ ?_
    unfold SeqRes
    len_sweep
    all_goals seq_close

/-- One step of the VM from a complete instruction goes where the layout says. -/
theorem step_next (E : Env σ) (s s' : St σ) (n : Nat) (hv : vmLen (E.prog.drop s.ip) = some n)
    (ht : tableFits E.prog s.ip) (h : step E s = .run s') :
    Next E.prog s.ip s.loops s'.ip s'.loops := by
  unfold step at h
  cases ho : E.prog[s.ip]? with
  | none => simp [ho] at h
  | some op =>
    simp only [ho] at h
    have hal : (alignSt op { s with ip := s.ip + 1 }).ip = s.ip + 1 ∧
        (alignSt op { s with ip := s.ip + 1 }).loops = s.loops := by
      unfold alignSt; split <;> exact ⟨rfl, rfl⟩
    have := execOp_next E op (alignSt op { s with ip := s.ip + 1 }) s.ip n ho hal.1 hv ht
    rw [h, hal.2] at this
    exact this

end Cnd
