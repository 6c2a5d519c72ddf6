import Verif.Props.Scalar
/-
  C19 (constants), C20 (ranges), C21 (enumerations), C28 (optional fields).
-/

namespace Cnd
variable {σ : Type}

/-- Type tag of an integer type in CONST/RANGE/ENUM instructions: the opcode of its field. -/
def Ty.tag : Ty → Byte
  | .u8 => 0x10 | .u16 => 0x11 | .u32 => 0x12 | .u64 => 0x13
  | .i8 => 0x14 | .i16 => 0x15 | .i32 => 0x16 | .i64 => 0x17

theorem tyTag_tag (t : Ty) : tyTag (leWord [t.tag]) = some t := by cases t <;> decide
theorem tag_cast (t : Ty) : (leWord [t.tag]).setWidth 8 = t.tag := by cases t <;> decide

theorem step_pre {E : Env σ} {s : St σ} {op : Byte} {rest : List Byte} (h : At E.prog s.ip (op :: rest)) :
    step E s = execOp E op (pre op s) := step_eq h.head

/-! ### Constants -/

/-- The instruction of a constant field (cnd_parser.c 1132-1139): key, type, value. -/
def constCode (t : Ty) (k0 k1 : Byte) (c : Word) : List Byte := [0x40, k0, k1, t.tag] ++ leBytes t.size c

theorem const_step {E : Env σ} {s : St σ} {t : Ty} {k0 k1 : Byte} {c : Word}
    (hat : At E.prog s.ip (constCode t k0 k1 c)) (hc : c.toNat < 2 ^ (8 * t.size)) :
    let p : St σ := { s with ip := s.ip + 4 + t.size, cursor := s.fieldPos, bit := 0 }
    step E s = if s.fieldPos + t.size > s.buf.length then .stop .oob p
      else if E.enc then wrAt p p.cursor t.size c fun s => .run { s with cursor := s.cursor + t.size }
      else rdAt p p.cursor t.size fun actual =>
        if actual ≠ c then .stop .validation p
        else callScalar E p (keyNum k0 k1) t.tag t.size actual fun s _ =>
          .run { s with cursor := s.cursor + t.size } := by
  intro p
  have h1 : At E.prog (s.ip + 1) [k0, k1] := (hat.left.tail.left (a := [k0, k1]) (b := [t.tag]))
  have h2 : At E.prog (s.ip + 1 + 2) [t.tag] := (hat.left.tail.right (a := [k0, k1]) (b := [t.tag]))
  have h3 : At E.prog (s.ip + 1 + 2 + 1) (leBytes t.size c) := hat.right
  rw [step_pre hat, pre_aligned 0x40 s rfl]
  show handleConstCheck E _ = _
  unfold handleConstCheck
  refine fet_ok h1 rfl (by omega) ?_
  refine fet_ok h2 rfl (by omega) ?_
  rw [tyTag_tag]
  refine fet_ok h3 (by simp) t.size_pos ?_
  rw [leWord_leBytes_lt t.size_le hc, leWord_key, tag_cast]

/-- C19, encoding: the constant is written, whatever the host would say. -/
theorem C19_const_encode (E : Env σ) (henc : E.enc = true) (s : St σ) (t : Ty) (k0 k1 : Byte) (c : Word)
    (hat : At E.prog s.ip (constCode t k0 k1 c)) (hc : c.toNat < 2 ^ (8 * t.size))
    (hroom : s.fieldPos + t.size ≤ s.buf.length) :
    ∃ s1, step E s = .run s1 ∧ FieldAt s.be s1.buf s.fieldPos t.size c.toNat ∧ s1.host = s.host ∧
      s1.cursor = s.fieldPos + t.size ∧ s1.bit = 0 ∧ s1.ip = s.ip + 4 + t.size ∧
      ∀ j, j < s.fieldPos ∨ s.fieldPos + t.size ≤ j → s1.buf[j]? = s.buf[j]? := by
  have hs := const_step hat hc
  dsimp only at hs
  rw [if_neg (by omega), henc, if_pos rfl] at hs
  have hl : s.fieldPos + (wrBytes s.be t.size c).length ≤ s.buf.length := by simpa using hroom
  have hst : store s.buf s.fieldPos (wrBytes s.be t.size c) =
      some (splice s.buf s.fieldPos (wrBytes s.be t.size c)) := store_eq_some.2 ⟨hl, rfl⟩
  rw [hs]
  refine ⟨_, wrAt_ok hst rfl, fieldAt_store hst, rfl, rfl, rfl, rfl, ?_⟩
  intro j hj
  rcases hj with hj | hj
  · exact getElem?_splice_lt hl hj
  · exact getElem?_splice_ge hl (by simpa using hj)

/-- C19, decoding: accepted exactly when the packet holds the constant, and then the host is called with it;
otherwise a validation error without a host call. -/
theorem C19_const_decode (E : Env σ) (hdec : E.enc = false) (s : St σ) (t : Ty) (k0 k1 : Byte) (c : Word)
    (hat : At E.prog s.ip (constCode t k0 k1 c)) (hc : c.toNat < 2 ^ (8 * t.size))
    (hroom : s.fieldPos + t.size ≤ s.buf.length) :
    (FieldAt s.be s.buf s.fieldPos t.size c.toNat →
      let r := E.host.scalar s.host (keyNum k0 k1) t.tag c
      (r.1 = true → ∃ s1, step E s = .run s1 ∧ s1.cursor = s.fieldPos + t.size ∧ s1.bit = 0 ∧
        s1.ip = s.ip + 4 + t.size ∧ s1.buf = s.buf ∧ s1.host = r.2.2) ∧
      (r.1 = false → ∃ s1, step E s = .stop .callback s1)) ∧
    (¬ FieldAt s.be s.buf s.fieldPos t.size c.toNat →
      ∃ s1, step E s = .stop .validation s1 ∧ s1.buf = s.buf ∧ s1.host = s.host) := by
  have hs := const_step hat hc
  dsimp only at hs
  rw [if_neg (by omega), hdec, if_neg (by simp)] at hs
  obtain ⟨w, hw, hwlt⟩ := fieldAt_exists s.be s.buf s.fieldPos t.size t.size_pos t.size_le hroom
  constructor
  · intro hf r
    have e : w = c := fieldAt_unique t.size_pos t.size_le hwlt hc hw hf
    subst e
    replace hs := hs.trans (rdAt_field t.size_pos t.size_le hwlt hw rfl)
    rw [if_neg (by simp)] at hs
    unfold callScalar at hs
    dsimp only at hs
    constructor
    · intro hr
      rw [if_pos hr] at hs
      exact ⟨_, hs, rfl, rfl, rfl, rfl, rfl⟩
    · intro hr
      rw [if_neg (by exact fun h => by rw [hr] at h; cases h)] at hs
      exact ⟨_, hs⟩
  · intro hf
    replace hs := hs.trans (rdAt_field t.size_pos t.size_le hwlt hw rfl)
    rw [if_pos (by intro e; subst e; exact hf hw)] at hs
    exact ⟨_, hs, rfl, rfl⟩

/-- C19, both modes: a constant that does not fit is an out-of-bounds error. -/
theorem C19_const_no_room (E : Env σ) (s : St σ) (t : Ty) (k0 k1 : Byte) (c : Word)
    (hat : At E.prog s.ip (constCode t k0 k1 c)) (hc : c.toNat < 2 ^ (8 * t.size))
    (hroom : s.buf.length < s.fieldPos + t.size) :
    ∃ s1, step E s = .stop .oob s1 ∧ s1.buf = s.buf ∧ s1.host = s.host := by
  have hs := const_step hat hc
  dsimp only at hs
  rw [if_pos hroom] at hs
  exact ⟨_, hs, rfl, rfl⟩

/-- C19 meets real cases: a big-endian u16 constant 0xCAFE, matching and not matching. -/
example :
    let prog := [(0x02 : Byte)] ++ constCode .u16 7 0 0xCAFE
    Demo.obs (exec (Demo.env prog true) 5 (Demo.start [9, 9, 9] {})) = .stopped .ok [0xCA, 0xFE, 9] 2 0 {} ∧
    Demo.obs (exec (Demo.env prog false) 5 (Demo.start [0xCA, 0xFE, 9] {})) =
      .stopped .ok [0xCA, 0xFE, 9] 2 0 { log := [(7, 0x11, 0xCAFE)] } ∧
    Demo.obs (exec (Demo.env prog false) 5 (Demo.start [0xFE, 0xCA, 9] {})) =
      .stopped .validation [0xFE, 0xCA, 9] 0 0 {} := by
  decide +kernel

/-! ### Ranges -/

/-- The VM's comparison at type `t` is the comparison of the denoted integers. -/
theorem tyLt_val (t : Ty) (a b : Word) (ha : a.toNat < 2 ^ (8 * t.size)) (hb : b.toNat < 2 ^ (8 * t.size)) :
    tyLt t a b = decide (t.val a.toNat < t.val b.toNat) := by
  cases t <;> simp only [Ty.size, Nat.reduceMul, Nat.reducePow] at ha hb <;>
    simp only [tyLt, Ty.signed, Ty.val, Ty.size, if_true, BitVec.ult, BitVec.slt, Bool.false_eq_true, if_false,
      false_and, sextB, reduceIte, Nat.reduceEqDiff, true_and]
  · simp
  · simp
  · simp
  · simp
  all_goals
    simp only [BitVec.toInt_signExtend_of_le (by decide : 8 ≤ 64), BitVec.toInt_signExtend_of_le (by decide : 16 ≤ 64),
      BitVec.toInt_signExtend_of_le (by decide : 32 ≤ 64), BitVec.toInt_eq_toNat_cond, BitVec.toNat_setWidth]
    congr 1
    apply propext
    omega

/-- The instruction of a range check (cnd_parser.c 302-347): type, lower bound, upper bound. -/
def rangeCode (t : Ty) (lo hi : Word) : List Byte := [0x42, t.tag] ++ (leBytes t.size lo ++ leBytes t.size hi)

/-- C20. With an integer field of type `t` just before the cursor, the check passes exactly when the denoted
number lies in the closed interval of the denoted bounds; packet, cursor and host are untouched either way. -/
theorem C20_range_check (E : Env σ) (s : St σ) (t : Ty) (lo hi v : Word)
    (hat : At E.prog s.ip (rangeCode t lo hi))
    (hlo : lo.toNat < 2 ^ (8 * t.size)) (hhi : hi.toNat < 2 ^ (8 * t.size)) (hv : v.toNat < 2 ^ (8 * t.size))
    (hc : t.size ≤ s.cursor) (hf : FieldAt s.be s.buf (s.cursor - t.size) t.size v.toNat) :
    step E s =
      if t.val lo.toNat ≤ t.val v.toNat ∧ t.val v.toNat ≤ t.val hi.toNat
      then .run { s with ip := s.ip + 2 + t.size + t.size }
      else .stop .validation { s with ip := s.ip + 2 + t.size + t.size } := by
  have h1 : At E.prog (s.ip + 1) [t.tag] := hat.left.tail
  have h2 : At E.prog (s.ip + 1 + 1) (leBytes t.size lo) := hat.right.left
  have h3 : At E.prog (s.ip + 1 + 1 + t.size) (leBytes t.size hi) := by simpa using hat.right.right
  rw [step_pre hat, pre_unaligned 0x42 s rfl]
  show handleRange E _ = _
  unfold handleRange
  refine fet_ok h1 rfl (by omega) ?_
  rw [tyTag_tag]
  refine fet_ok h2 (by simp) t.size_pos ?_
  refine fet_ok h3 (by simp) t.size_pos ?_
  rw [leWord_leBytes_lt t.size_le hlo, leWord_leBytes_lt t.size_le hhi]
  dsimp only
  refine (if_neg (by omega)).trans ?_
  refine rdAt_field t.size_pos t.size_le hv hf ?_
  rw [tyLt_val t v lo hv hlo, tyLt_val t hi v hhi hv]
  by_cases hh : t.val lo.toNat ≤ t.val v.toNat ∧ t.val v.toNat ≤ t.val hi.toNat
  · rw [if_pos hh, if_neg (by simp; omega)]
  · rw [if_neg hh, if_pos (by simp; omega)]

/-- C20 meets real cases: an i8 field in [-2, 3]; -1 passes, -3 (0xFD) does not. -/
example :
    let prog := [(0x14 : Byte), 0, 0] ++ rangeCode .i8 0xFE 3
    Demo.obs (exec (Demo.env prog false) 5 (Demo.start [0xFF] {})) = .stopped .ok [0xFF] 1 0 { log := [(0, 0x14, 0xFF)] } ∧
    Demo.obs (exec (Demo.env prog false) 5 (Demo.start [0xFD] {})) =
      .stopped .validation [0xFD] 1 0 { log := [(0, 0x14, 0xFD)] } := by
  decide +kernel

/-! ### Enumerations -/

/-- The instruction of an enum check (cnd_parser.c 1180-1190): type, number of values, values. -/
def enumCode (t : Ty) (vals : List Word) : List Byte :=
  [0x4B, t.tag] ++ (leBytes 2 (BitVec.ofNat 64 vals.length) ++ vals.flatMap (leBytes t.size))

theorem flatMap_leBytes_length (n : Nat) (vals : List Word) :
    (vals.flatMap (leBytes n)).length = vals.length * n := by
  induction vals with
  | nil => simp
  | cons v vs ih => simp [ih, Nat.succ_mul]; omega

theorem enumScan_spec (prog : List Byte) (n : Nat) (h0 : 0 < n) (hn : n ≤ 8) (v : Word) (vals : List Word)
    (hvals : ∀ x ∈ vals, x.toNat < 2 ^ (8 * n)) (ip : Nat) (hat : At prog ip (vals.flatMap (leBytes n))) :
    enumScan prog n v vals.length ip = if v ∈ vals then some (ip + vals.length * n) else none := by
  induction vals generalizing ip with
  | nil => simp [enumScan]
  | cons x vs ih =>
    rw [List.flatMap_cons] at hat
    have h2 := hat.right
    rw [leBytes_length] at h2
    simp only [List.length_cons, enumScan]
    rw [hat.left.fetch (by simp) h0, leWord_leBytes_lt hn (hvals x (by simp))]
    dsimp only
    by_cases hx : v = x
    · rw [if_pos hx, if_pos (by simp [hx]), Nat.succ_mul]
      congr 1; omega
    · rw [if_neg hx, ih (fun y hy => hvals y (by simp [hy])) _ h2]
      by_cases hm : v ∈ vs
      · rw [if_pos hm, if_pos (by simp [hm]), Nat.succ_mul]
        congr 1; omega
      · rw [if_neg hm, if_neg (by simp [hm, hx])]

/-- C21. With an integer field of type `t` just before the (aligned) cursor, the check passes exactly when the
value is listed; whichever entry matched, execution continues right after the list. -/
theorem C21_enum_check (E : Env σ) (s : St σ) (t : Ty) (vals : List Word) (v : Word)
    (hat : At E.prog s.ip (enumCode t vals)) (hlen : vals.length < 2 ^ 16)
    (hvals : ∀ x ∈ vals, x.toNat < 2 ^ (8 * t.size)) (hv : v.toNat < 2 ^ (8 * t.size))
    (hc : t.size ≤ s.fieldPos) (hf : FieldAt s.be s.buf (s.fieldPos - t.size) t.size v.toNat) :
    (v ∈ vals → step E s =
      .run { s with ip := s.ip + (enumCode t vals).length, cursor := s.fieldPos, bit := 0 }) ∧
    (v ∉ vals → ∃ s1, step E s = .stop .validation s1 ∧ s1.buf = s.buf ∧ s1.host = s.host) := by
  have h1 : At E.prog (s.ip + 1) [t.tag] := hat.left.tail
  have h2 : At E.prog (s.ip + 1 + 1) (leBytes 2 (BitVec.ofNat 64 vals.length)) := hat.right.left
  have h3 : At E.prog (s.ip + 1 + 1 + 2) (vals.flatMap (leBytes t.size)) := by simpa using hat.right.right
  have hcnt : (BitVec.ofNat 64 vals.length : Word).toNat = vals.length := by
    rw [BitVec.toNat_ofNat, Nat.mod_eq_of_lt (by omega)]
  have key : step E s = match (if v ∈ vals then some (s.ip + 1 + 1 + 2 + vals.length * t.size) else none) with
      | none => .stop .validation { s with ip := s.ip + 1 + 1 + 2, cursor := s.fieldPos, bit := 0 }
      | some ip => .run { s with ip := ip, cursor := s.fieldPos, bit := 0 } := by
    rw [step_pre hat, pre_aligned 0x4B s rfl]
    show handleEnum E _ = _
    unfold handleEnum
    refine fet_ok h1 rfl (by omega) ?_
    refine fet_ok h2 (by simp) (by omega) ?_
    rw [tyTag_tag, leWord_leBytes_lt (by omega) (by rw [hcnt]; omega), hcnt]
    dsimp only
    refine (if_neg (by omega)).trans ?_
    refine rdAt_field t.size_pos t.size_le hv hf ?_
    rw [enumScan_spec E.prog t.size t.size_pos t.size_le v vals hvals _ h3]
    by_cases hm : v ∈ vals
    · rw [if_pos hm]
    · rw [if_neg hm]
  constructor
  · intro hm
    rw [if_pos hm] at key
    rw [key]
    have : s.ip + 1 + 1 + 2 + vals.length * t.size = s.ip + (enumCode t vals).length := by
      simp only [enumCode, List.length_append, List.length_cons, List.length_nil, leBytes_length,
        flatMap_leBytes_length]
      omega
    rw [this]
  · intro hm
    rw [if_neg hm] at key
    exact ⟨_, key, rfl, rfl⟩

/-- C21 meets real cases: a u16 field restricted to 1, 500, 7, followed by a u8. -/
example :
    let prog := [(0x11 : Byte), 0, 0] ++ enumCode .u16 [1, 500, 7] ++ [0x10, 1, 0]
    Demo.obs (exec (Demo.env prog false) 5 (Demo.start [0xF4, 1, 8] {})) =
      .stopped .ok [0xF4, 1, 8] 3 0 { log := [(0, 0x11, 500), (1, 0x10, 8)] } ∧
    Demo.obs (exec (Demo.env prog false) 5 (Demo.start [2, 0, 8] {})) =
      .stopped .validation [2, 0, 8] 2 0 { log := [(0, 0x11, 2)] } := by
  decide +kernel

/-! ### Optional fields -/

/-- The mark itself (vm_exec.c 921-924). -/
theorem C28_mark (E : Env σ) (s : St σ) (hat : At E.prog s.ip [0x4A]) :
    step E s = .run { s with ip := s.ip + 1, opt := true } := by
  rw [step_pre hat, pre_unaligned 0x4A s rfl]
  rfl

/-- C28: a missing optional scalar is reported to the host as 0 and the cursor stays (up to byte
alignment). -/
theorem C28_missing (E : Env σ) (s : St σ) (op k0 k1 : Byte) (n : Nat) (hop : scalarWidth op.toNat = some n)
    (hat : At E.prog s.ip [op, k0, k1]) (hopt : s.opt = true) (hroom : s.buf.length < s.fieldPos + n) :
    let r := E.host.scalar s.host (keyNum k0 k1) op 0
    (r.1 = true → step E s = .run { s with ip := s.ip + 3, cursor := s.fieldPos, bit := 0, opt := false,
                                           host := r.2.2 }) ∧
    (r.1 = false → ∃ s1, step E s = .stop .callback s1) := by
  obtain ⟨hal, hn0, hn8, hcase⟩ := scalar_dispatch op n hop
  intro r
  have key : step E s = callScalar E { s with ip := s.ip + 3, cursor := s.fieldPos, bit := 0, opt := false }
      (keyNum k0 k1) op n 0 fun s _ => .run s := by
    rw [step_pre hat, pre_aligned op s hal]
    unfold execOp
    rcases hcase with ⟨t, hd, ht, hne⟩ | ⟨hd, rfl, hne⟩ | ⟨hd, rfl, hne⟩ | ⟨hd, rfl, he⟩
    · subst ht
      rw [hd]
      unfold handlePrim
      refine fet_ok hat.tail rfl (by omega) ?_
      rw [leWord_key]
      refine (if_pos hroom).trans ?_
      exact (if_pos hopt)
    · rw [hd]
      unfold handleFloat
      refine fet_ok hat.tail rfl (by omega) ?_
      rw [leWord_key]
      refine (if_pos hroom).trans ?_
      exact (if_pos hopt)
    · rw [hd]
      unfold handleFloat
      refine fet_ok hat.tail rfl (by omega) ?_
      rw [leWord_key]
      refine (if_pos hroom).trans ?_
      exact (if_pos hopt)
    · rw [hd]
      unfold handleBool
      refine fet_ok hat.tail rfl (by omega) ?_
      rw [leWord_key]
      refine (if_pos hroom).trans ?_
      exact (if_pos hopt)
  unfold callScalar at key
  dsimp only at key
  constructor
  · intro hr
    rw [key, if_pos hr]
  · intro hr
    rw [key, if_neg (by exact fun h => by rw [hr] at h; cases h)]
    exact ⟨_, rfl⟩

/-- C28: without the mark a missing scalar is an out-of-bounds error, in both modes; the host is not
called. -/
theorem C28_mandatory (E : Env σ) (s : St σ) (op k0 k1 : Byte) (n : Nat) (hop : scalarWidth op.toNat = some n)
    (hat : At E.prog s.ip [op, k0, k1]) (hopt : s.opt = false) (hroom : s.buf.length < s.fieldPos + n) :
    ∃ s1, step E s = .stop .oob s1 ∧ s1.buf = s.buf ∧ s1.host = s.host := by
  obtain ⟨hal, hn0, hn8, hcase⟩ := scalar_dispatch op n hop
  have hopt' : ¬ (s.opt = true) := by simp [hopt]
  refine ⟨{ s with ip := s.ip + 3, cursor := s.fieldPos, bit := 0 }, ?_, rfl, rfl⟩
  rw [step_pre hat, pre_aligned op s hal]
  unfold execOp
  rcases hcase with ⟨t, hd, ht, hne⟩ | ⟨hd, rfl, hne⟩ | ⟨hd, rfl, hne⟩ | ⟨hd, rfl, he⟩
  · subst ht
    rw [hd]
    unfold handlePrim
    refine fet_ok hat.tail rfl (by omega) ?_
    rw [leWord_key]
    refine (if_pos hroom).trans ?_
    exact (if_neg hopt')
  · rw [hd]
    unfold handleFloat
    refine fet_ok hat.tail rfl (by omega) ?_
    rw [leWord_key]
    refine (if_pos hroom).trans ?_
    exact (if_neg hopt')
  · rw [hd]
    unfold handleFloat
    refine fet_ok hat.tail rfl (by omega) ?_
    rw [leWord_key]
    refine (if_pos hroom).trans ?_
    exact (if_neg hopt')
  · rw [hd]
    unfold handleBool
    refine fet_ok hat.tail rfl (by omega) ?_
    rw [leWord_key]
    refine (if_pos hroom).trans ?_
    exact (if_neg hopt')

/-- A result with the optional mark wiped, to compare runs that differ only in the mark. -/
def Res.wipeOpt : Res σ → Res σ
  | .run s => .run { s with opt := false }
  | .stop e s => .stop e { s with opt := false }
  | .ub u => .ub u

theorem prim_wipe (E : Env σ) (t : Ty) (op : Byte) (s : St σ) (hroom : s.cursor + t.size ≤ s.buf.length) (o : Bool) :
    (handlePrim E t op { s with opt := o }).wipeOpt = (handlePrim E t op s).wipeOpt := by
  have hc : ¬ (s.cursor + t.size > s.buf.length) := by omega
  unfold handlePrim fet callScalar rdAt wrAt
  simp only [if_neg hc]
  split <;> (repeat' split) <;> (try rfl) <;> (try (exfalso; simp_all; done))

theorem float_wipe (E : Env σ) (dbl : Bool) (op : Byte) (s : St σ)
    (hroom : s.cursor + (if dbl then 8 else 4) ≤ s.buf.length) (o : Bool) :
    (handleFloat E dbl op { s with opt := o }).wipeOpt = (handleFloat E dbl op s).wipeOpt := by
  have hc : ¬ (s.cursor + (if dbl then 8 else 4) > s.buf.length) := by omega
  unfold handleFloat fet callScalar rdAt wrAt
  simp only [if_neg hc]
  split <;> (repeat' split) <;> (try rfl) <;> (try (exfalso; simp_all; done))

theorem bool_wipe (E : Env σ) (op : Byte) (s : St σ) (hroom : s.cursor + 1 ≤ s.buf.length) (o : Bool) :
    (handleBool E op { s with opt := o }).wipeOpt = (handleBool E op s).wipeOpt := by
  have hc : ¬ (s.cursor + 1 > s.buf.length) := by omega
  unfold handleBool fet callScalar rdAt wrAt
  simp only [if_neg hc]
  split <;> (repeat' split) <;> (try rfl) <;> (try (exfalso; simp_all; done))

/-- C28: a field that is present is processed in the same way with and without the mark (result, packet, cursor,
host calls; only the recorded mark itself may differ). -/
theorem C28_present (E : Env σ) (s : St σ) (op k0 k1 : Byte) (n : Nat) (hop : scalarWidth op.toNat = some n)
    (hat : At E.prog s.ip [op, k0, k1]) (hroom : s.fieldPos + n ≤ s.buf.length) :
    (step E { s with opt := true }).wipeOpt = (step E { s with opt := false }).wipeOpt := by
  obtain ⟨hal, hn0, hn8, hcase⟩ := scalar_dispatch op n hop
  have hp : ∀ o, step E { s with opt := o } =
      execOp E op { s with ip := s.ip + 1, cursor := s.fieldPos, bit := 0, opt := o } := by
    intro o
    have h := step_pre (s := { s with opt := o }) hat
    rw [pre_aligned op _ hal] at h
    exact h
  rw [hp, hp]
  unfold execOp
  rcases hcase with ⟨t, hd, ht, hne⟩ | ⟨hd, rfl, hne⟩ | ⟨hd, rfl, hne⟩ | ⟨hd, rfl, he⟩
  · subst ht
    rw [hd]
    exact (prim_wipe E t op { s with ip := s.ip + 1, cursor := s.fieldPos, bit := 0 } hroom true).trans
      (prim_wipe E t op { s with ip := s.ip + 1, cursor := s.fieldPos, bit := 0 } hroom false).symm
  · rw [hd]
    exact (float_wipe E false op { s with ip := s.ip + 1, cursor := s.fieldPos, bit := 0 } hroom true).trans
      (float_wipe E false op { s with ip := s.ip + 1, cursor := s.fieldPos, bit := 0 } hroom false).symm
  · rw [hd]
    exact (float_wipe E true op { s with ip := s.ip + 1, cursor := s.fieldPos, bit := 0 } hroom true).trans
      (float_wipe E true op { s with ip := s.ip + 1, cursor := s.fieldPos, bit := 0 } hroom false).symm
  · rw [hd]
    exact (bool_wipe E op { s with ip := s.ip + 1, cursor := s.fieldPos, bit := 0 } hroom true).trans
      (bool_wipe E op { s with ip := s.ip + 1, cursor := s.fieldPos, bit := 0 } hroom false).symm

/-- C28, negative: the mark is not confined to the next field. Here it precedes a constant field, which ignores and
keeps it; the mandatory u8 after it is then silently treated as optional (vm_exec.c 753-789 never clears
`is_next_optional`). -/
theorem C28_false_mark_leaks :
    Demo.obs (exec (Demo.env ([0x4A] ++ constCode .u8 1 0 0x55 ++ [0x10, 2, 0]) false) 9 (Demo.start [0x55] {})) =
      .stopped .ok [0x55] 1 0 { log := [(1, 0x10, 0x55), (2, 0x10, 0)] } ∧
    Demo.obs (exec (Demo.env (constCode .u8 1 0 0x55 ++ [0x10, 2, 0]) false) 9 (Demo.start [0x55] {})) =
      .stopped .oob [0x55] 1 0 { log := [(1, 0x10, 0x55)] } := by
  decide +kernel

/-- Instructions that use up the optional mark: scalars and strings. -/
def usesMark (op : Byte) : Bool :=
  (0x10 ≤ op.toNat && op.toNat ≤ 0x1A) || (0x30 ≤ op.toNat && op.toNat ≤ 0x33)

/-- C28, positive part of "the mark affects only the next field": every scalar and every string instruction
that continues leaves the mark cleared. Missing from the full claim: bit fields, arrays and constants (see
`C28_false_mark_leaks`). -/
theorem C28_mark_scoped_partial (E : Env σ) (s s1 : St σ) (op : Byte) (rest : List Byte)
    (hat : At E.prog s.ip (op :: rest)) (hu : usesMark op = true) (hs : step E s = .run s1) : s1.opt = false := by
  have key : ∀ i : Fin 256, usesMark (BitVec.ofFin i) = true →
      (∃ t ∈ [Ty.u8, .u16, .u32, .u64, .i8, .i16, .i32, .i64], decodeOp (BitVec.ofFin i) = .io t) ∨
      decodeOp (BitVec.ofFin i) = .ioF32 ∨ decodeOp (BitVec.ofFin i) = .ioF64 ∨
      decodeOp (BitVec.ofFin i) = .ioBool ∨ decodeOp (BitVec.ofFin i) = .strNull ∨
      (∃ p ∈ [Pre.p1, .p2, .p4], decodeOp (BitVec.ofFin i) = .strPre p) := by decide +kernel
  rw [step_pre hat] at hs
  generalize pre op s = q at hs
  unfold execOp at hs
  rcases key op.toFin hu with ⟨t, _, hd⟩ | hd | hd | hd | hd | ⟨p, _, hd⟩ <;>
    (change decodeOp op = _ at hd; rw [hd] at hs; dsimp only at hs)
  · unfold handlePrim fet callScalar rdAt wrAt at hs
    dsimp only at hs
    (repeat' split at hs) <;> (cases hs <;> rfl)
  · unfold handleFloat fet callScalar rdAt wrAt at hs
    dsimp only at hs
    (repeat' split at hs) <;> (cases hs <;> rfl)
  · unfold handleFloat fet callScalar rdAt wrAt at hs
    dsimp only at hs
    (repeat' split at hs) <;> (cases hs <;> rfl)
  · unfold handleBool fet callScalar rdAt wrAt at hs
    dsimp only at hs
    (repeat' split at hs) <;> (cases hs <;> rfl)
  · unfold handleStrNull fet callStr wrRaw callAt at hs
    dsimp only at hs
    (repeat' split at hs) <;> (cases hs <;> rfl)
  · unfold handleStrPre fet callStr wrAt wrRaw rdAt callAt at hs
    dsimp only at hs
    (repeat' split at hs) <;> (cases hs <;> rfl)

/-- C28 meets real cases: optional u16 missing, present, and a mandatory one missing. -/
example :
    Demo.obs (exec (Demo.env [0x4A, 0x11, 2, 0] false) 9 (Demo.start [7] {})) =
      .stopped .ok [7] 0 0 { log := [(2, 0x11, 0)] } ∧
    Demo.obs (exec (Demo.env [0x4A, 0x11, 2, 0] false) 9 (Demo.start [7, 1] {})) =
      .stopped .ok [7, 1] 2 0 { log := [(2, 0x11, 263)] } ∧
    Demo.obs (exec (Demo.env [0x11, 2, 0] false) 9 (Demo.start [7] {})) = .stopped .oob [7] 0 0 {} := by
  decide +kernel

end Cnd
