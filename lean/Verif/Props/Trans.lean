import Verif.Props.Packet
/-
  C26, C27: integer transforms.
-/

namespace Cnd

variable {σ : Type}

/-- The four integer transforms and their opcodes (concordia.h 66-69). -/
inductive ITrans
  | add | sub | mul | div
  deriving DecidableEq, Repr

def ITrans.op : ITrans → Byte
  | .add => 0x45 | .sub => 0x46 | .mul => 0x47 | .div => 0x48

def ITrans.tr : ITrans → Trans
  | .add => .add | .sub => .sub | .mul => .mul | .div => .div

/-- Transform decorator with constant `c` in front of an integer field (cnd_parser.c 1195-1202). -/
def transCode (x : ITrans) (c : Word) (t : Ty) (k0 k1 : Byte) : List Byte :=
  ([x.op] ++ leBytes 8 c) ++ [t.tag, k0, k1]

/-- Integers a wire type can hold. -/
def Ty.holds (t : Ty) (r : Int) : Prop :=
  if t.signed then -(2 ^ (8 * t.size - 1) : Int) ≤ r ∧ r < 2 ^ (8 * t.size - 1)
  else 0 ≤ r ∧ r < 2 ^ (8 * t.size)

/-- The wire field that denotes `r`. -/
def Ty.wire (t : Ty) (r : Int) : Nat := (r % 2 ^ (8 * t.size)).toNat

theorem trans_step {E : Env σ} {s : St σ} {x : ITrans} {c : Word} (hat : At E.prog s.ip ([x.op] ++ leBytes 8 c)) :
    step E s = .run { s with ip := s.ip + 9, trans := x.tr, iVal := c } := by
  rw [step_pre hat, pre_unaligned _ s (by cases x <;> rfl)]
  have h8 : leWord (leBytes 8 c) = c := leWord_leBytes_lt (by omega) (by have := c.isLt; omega)
  cases x
  · show fet E _ 8 (fun v s => .run { s with trans := .add, iVal := v }) = _
    refine fet_ok (bs := leBytes 8 c) hat.tail (by simp) (by omega) ?_
    rw [h8]
    rfl
  · show fet E _ 8 (fun v s => .run { s with trans := .sub, iVal := v }) = _
    refine fet_ok (bs := leBytes 8 c) hat.tail (by simp) (by omega) ?_
    rw [h8]
    rfl
  · show fet E _ 8 (fun v s => .run { s with trans := .mul, iVal := v }) = _
    refine fet_ok (bs := leBytes 8 c) hat.tail (by simp) (by omega) ?_
    rw [h8]
    rfl
  · show fet E _ 8 (fun v s => .run { s with trans := .div, iVal := v }) = _
    refine fet_ok (bs := leBytes 8 c) hat.tail (by simp) (by omega) ?_
    rw [h8]
    rfl

theorem prim_exec (t : Ty) (E : Env σ) (s : St σ) : execOp E t.tag s = handlePrim E t t.tag s := by
  cases t <;> rfl

/-- An integer field under a pending integer transform, encoding. -/
theorem prim_trans_enc {E : Env σ} {s : St σ} (henc : E.enc = true) {x : ITrans} {t : Ty} {k0 k1 : Byte} {w : Word}
    {h : σ} (hat : At E.prog s.ip [t.tag, k0, k1]) (htr : s.trans = x.tr)
    (hroom : s.fieldPos + t.size ≤ s.buf.length)
    (hhost : E.host.scalar s.host (keyNum k0 k1) 0x17 0 = (true, w, h)) :
    step E s = match intToRaw x.tr s.iVal w with
      | none => .ub .overflow
      | some v => .run { s with ip := s.ip + 3, buf := splice s.buf s.fieldPos (wrBytes s.be t.size v),
                                cursor := s.fieldPos + t.size, bit := 0, opt := false, trans := .none, host := h } := by
  have hal : aligns t.tag = true := by cases t <;> rfl
  have hf : fetch E.prog (s.ip + 1) 2 = (leWord [k0, k1], s.ip + 1 + 2) := hat.tail.fetch rfl (by omega)
  have ht : truncB 8 w = w := truncB_of_lt _ _ (by have := w.isLt; omega)
  have hst : ∀ v, store s.buf s.fieldPos (wrBytes s.be t.size v) =
      some (splice s.buf s.fieldPos (wrBytes s.be t.size v)) :=
    fun v => store_eq_some.2 ⟨by simpa using hroom, rfl⟩
  rw [step_pre hat, pre_aligned _ s hal, prim_exec]
  unfold handlePrim fet
  simp only [hf, leWord_key, htr, henc, if_true]
  refine (if_neg (by omega)).trans ?_
  cases x <;>
  · simp only [ITrans.tr]
    refine callScalar_ok hhost ?_
    simp only [ht]
    generalize intToRaw _ s.iVal w = o
    cases o with
    | none => rfl
    | some v => exact wrAt_ok (hst _) rfl

/-- An integer field under a pending integer transform, decoding. -/
theorem prim_trans_dec {E : Env σ} {s : St σ} (henc : E.enc = false) {x : ITrans} {t : Ty} {k0 k1 : Byte} {v : Word}
    (hat : At E.prog s.ip [t.tag, k0, k1]) (htr : s.trans = x.tr)
    (hroom : s.fieldPos + t.size ≤ s.buf.length)
    (hv : v.toNat < 2 ^ (8 * t.size)) (hf : FieldAt s.be s.buf s.fieldPos t.size v.toNat) :
    step E s = match intToEng x.tr s.iVal (t.toI64 v) with
      | none => .ub .overflow
      | some e =>
        if (E.host.scalar s.host (keyNum k0 k1) 0x17 e).1 then
          .run { s with ip := s.ip + 3, cursor := s.fieldPos + t.size, bit := 0, opt := false, trans := .none,
                        host := (E.host.scalar s.host (keyNum k0 k1) 0x17 e).2.2 }
        else .stop .callback { s with ip := s.ip + 3, cursor := s.fieldPos, bit := 0,
                                      host := (E.host.scalar s.host (keyNum k0 k1) 0x17 e).2.2 } := by
  have hal : aligns t.tag = true := by cases t <;> rfl
  have hft : fetch E.prog (s.ip + 1) 2 = (leWord [k0, k1], s.ip + 1 + 2) := hat.tail.fetch rfl (by omega)
  have ht : ∀ w : Word, truncB 8 w = w := fun w => truncB_of_lt _ _ (by have := w.isLt; omega)
  rw [step_pre hat, pre_aligned _ s hal, prim_exec]
  unfold handlePrim fet
  simp only [hft, leWord_key, htr, henc, Bool.false_eq_true, if_false]
  refine (if_neg (by omega)).trans ?_
  cases x <;>
  · simp only [ITrans.tr]
    refine rdAt_field (w := v) t.size_pos t.size_le hv hf ?_
    generalize intToEng _ s.iVal (t.toI64 v) = o
    cases o with
    | none => rfl
    | some e =>
      simp only [callScalar]

theorem toInt_sext {n : Nat} (r : Int) (hn : n ≤ 64) (h : -(2 ^ (n - 1) : Int) ≤ r) (h2 : r < 2 ^ (n - 1)) (h0 : 0 < n) :
    (((BitVec.ofNat 64 (r % 2 ^ n).toNat).setWidth n).signExtend 64).toInt = r := by
  have he : (BitVec.ofNat 64 (r % 2 ^ n).toNat).setWidth n = BitVec.ofInt n r := by
    apply BitVec.eq_of_toNat_eq
    rw [BitVec.toNat_setWidth, BitVec.toNat_ofNat, BitVec.toNat_ofInt, Nat.mod_mod_of_dvd _ (Nat.pow_dvd_pow 2 hn)]
    have hp : (0 : Int) < 2 ^ n := by exact_mod_cast Nat.two_pow_pos n
    have h1 : 0 ≤ r % 2 ^ n := Int.emod_nonneg _ (by omega)
    have h3 : r % 2 ^ n < 2 ^ n := Int.emod_lt_of_pos _ hp
    have h4 : (r % 2 ^ n).toNat < 2 ^ n := by
      have : ((r % 2 ^ n).toNat : Int) < ((2 ^ n : Nat) : Int) := by rw [Int.toNat_of_nonneg h1]; push_cast; exact h3
      exact_mod_cast this
    rw [Nat.mod_eq_of_lt h4]
    push_cast
    rfl
  rw [he, BitVec.toInt_signExtend_of_le hn, BitVec.toInt_ofInt]
  have hp : (2 : Int) ^ n = 2 * 2 ^ (n - 1) := by
    obtain ⟨m, rfl⟩ : ∃ m, n = m + 1 := ⟨n - 1, by omega⟩
    rw [Int.pow_succ]; simp; omega
  rw [Int.bmod_def]
  push_cast
  rw [hp]
  by_cases hr : 0 ≤ r
  · rw [Int.emod_eq_of_lt hr (by omega)]
    rw [if_pos (by omega)]
  · have : r % (2 * 2 ^ (n - 1)) = r + 2 * 2 ^ (n - 1) := by
      rw [← Int.add_emod_right]
      exact Int.emod_eq_of_lt (by omega) (by omega)
    rw [this, if_neg (by omega)]
    omega

/-- The field of type `t` that holds `r`, read back and widened to 64 bits, is `r`. -/
theorem wire_back {t : Ty} {r : Int} (h : t.holds r) (h63 : r < 2 ^ 63) :
    t.wire r < 2 ^ (8 * t.size) ∧ (t.toI64 (BitVec.ofNat 64 (t.wire r))).toInt = r := by
  unfold Ty.holds at h
  unfold Ty.wire
  cases t <;> simp only [Ty.signed, Ty.size, Bool.false_eq_true, if_false, if_true] at h ⊢
  all_goals refine ⟨by omega, ?_⟩
  case u8 | u16 | u32 | u64 =>
    simp only [Ty.toI64, Ty.signed, Bool.false_eq_true, if_false, BitVec.toInt_eq_toNat_cond, BitVec.toNat_ofNat]
    split <;> omega
  case i8 => exact toInt_sext r (by omega) (by omega) (by omega) (by omega)
  case i16 => exact toInt_sext r (by omega) (by omega) (by omega) (by omega)
  case i32 => exact toInt_sext r (by omega) (by omega) (by omega) (by omega)
  case i64 =>
    refine (congrArg BitVec.toInt ?_).trans (toInt_sext (n := 64) r (by omega) (by omega) (by omega) (by omega))
    simp [Ty.toI64, Ty.signed, sextB, Ty.size]

/-! ### Encoding and decoding invert each other -/

/-- What a transform means: engineering value `e`, wire value `r`, constant `c`, over the integers. -/
def ITrans.rel : ITrans → (c e r : Int) → Prop
  | .add, c, e, r => e = r + c
  | .sub, c, e, r => e = r - c
  | .mul, c, e, r => c ≠ 0 ∧ e = r * c
  | .div, c, e, r => c ≠ 0 ∧ r = e * c

theorem i64?_eq {x : Int} (h : -(2 ^ 63 : Int) ≤ x) (h2 : x < 2 ^ 63) : i64? x = some (BitVec.ofInt 64 x) :=
  if_pos ⟨h, h2⟩

theorem toInt_ofInt64 {x : Int} (h : -(2 ^ 63 : Int) ≤ x) (h2 : x < 2 ^ 63) : (BitVec.ofInt 64 x).toInt = x := by
  rw [BitVec.toInt_ofInt, Int.bmod_def]
  split <;> omega

theorem toInt_inj {a : Word} {x : Int} (h : a.toInt = x) : a = BitVec.ofInt 64 x := by
  rw [← h, BitVec.ofInt_toInt]

theorem wne {c : Word} (h : c.toInt ≠ 0) : c ≠ 0 := fun e => h (by rw [e]; rfl)

theorem to_raw {x : ITrans} {c : Word} {e r : Int} (h : x.rel c.toInt e r) (he : -(2 ^ 63 : Int) ≤ e) (he2 : e < 2 ^ 63)
    (hr : -(2 ^ 63 : Int) ≤ r) (hr2 : r < 2 ^ 63) :
    intToRaw x.tr c (BitVec.ofInt 64 e) = some (BitVec.ofInt 64 r) := by
  cases x <;> simp only [ITrans.rel, ITrans.tr, intToRaw, toInt_ofInt64 he he2] at h ⊢
  · rw [show e - c.toInt = r by omega, i64?_eq hr hr2]
  · rw [show e + c.toInt = r by omega, i64?_eq hr hr2]
  · rw [if_pos (wne h.1), h.2, Int.mul_tdiv_cancel _ h.1, i64?_eq hr hr2]
  · rw [← h.2, i64?_eq hr hr2]

theorem to_eng {x : ITrans} {c w : Word} {e r : Int} (h : x.rel c.toInt e r) (he : -(2 ^ 63 : Int) ≤ e) (he2 : e < 2 ^ 63)
    (hw : w.toInt = r) : intToEng x.tr c w = some (BitVec.ofInt 64 e) := by
  cases x <;> simp only [ITrans.rel, ITrans.tr, intToEng, hw] at h ⊢
  · rw [← h, i64?_eq he he2]
  · rw [← h, i64?_eq he he2]
  · rw [← h.2, i64?_eq he he2]
  · rw [if_pos (wne h.1), h.2, Int.mul_tdiv_cancel _ h.1, i64?_eq he he2]

theorem wire_ofInt (t : Ty) (r : Int) : (BitVec.ofInt 64 r).toNat % 2 ^ (8 * t.size) = t.wire r := by
  unfold Ty.wire
  rw [BitVec.toNat_ofInt]
  cases t <;> simp only [Ty.size] <;> omega

theorem FieldAt.mod {be : Bool} {b : List Byte} {p n v : Nat} (h : FieldAt be b p n v) :
    FieldAt be b p n (v % 2 ^ (8 * n)) := by
  intro i hi
  rw [h i hi]
  congr 2
  have e : 2 ^ (8 * n) = 256 ^ i * 256 ^ (n - i) := by
    rw [← Nat.pow_add, Nat.add_sub_cancel' (by omega), Nat.pow_mul]
  rw [e, Nat.mod_mul_right_div_self, Nat.mod_mod_of_dvd]
  exact Nat.pow_dvd_pow 256 (show 1 ≤ n - i by omega)

/-- **C26** (round trip). A host value `e` in front of whose field stands an integer transform is written as the
wire value `r` that the transform assigns to it, and whoever decodes that field is handed exactly `e`; in both
directions the transform is gone afterwards. `r` must fit the wire type, and an `int64_t` (which matters for u64). -/
theorem C26_int_round_trip {τ : Type} {E : Env σ} {D : Env τ} (henc : E.enc = true) (hdec : D.enc = false)
    (hprog : D.prog = E.prog) {s : St σ} {x : ITrans} {c : Word} {t : Ty} {k0 k1 : Byte} {e r : Int} {h : σ}
    (hat : At E.prog s.ip (transCode x c t k0 k1)) (hroom : s.fieldPos + t.size ≤ s.buf.length)
    (hrel : x.rel c.toInt e r) (hholds : t.holds r) (hr : r < 2 ^ 63) (he : -(2 ^ 63 : Int) ≤ e) (he2 : e < 2 ^ 63)
    (hhost : E.host.scalar s.host (keyNum k0 k1) 0x17 0 = (true, BitVec.ofInt 64 e, h)) :
    ∃ b, b.length = s.buf.length ∧ FieldAt s.be b s.fieldPos t.size (t.wire r) ∧
      exec E 2 s = .run { s with ip := s.ip + 12, buf := b, cursor := s.fieldPos + t.size, bit := 0, opt := false,
                                 trans := .none, iVal := c, host := h } ∧
      ∀ d : St τ, d.ip = s.ip → d.be = s.be → d.fieldPos = s.fieldPos → d.buf = b →
        exec D 2 d =
          if (D.host.scalar d.host (keyNum k0 k1) 0x17 (BitVec.ofInt 64 e)).1 then
            .run { d with ip := s.ip + 12, cursor := s.fieldPos + t.size, bit := 0, opt := false, trans := .none,
                          iVal := c, host := (D.host.scalar d.host (keyNum k0 k1) 0x17 (BitVec.ofInt 64 e)).2.2 }
          else .stop .callback { d with ip := s.ip + 12, cursor := s.fieldPos, bit := 0, trans := x.tr, iVal := c,
                                        host := (D.host.scalar d.host (keyNum k0 k1) 0x17 (BitVec.ofInt 64 e)).2.2 } := by
  have hr0 : -(2 ^ 63 : Int) ≤ r := by
    unfold Ty.holds at hholds
    cases t <;> simp only [Ty.signed, Ty.size, Bool.false_eq_true, if_false, if_true] at hholds <;> omega
  have hl : ([x.op] ++ leBytes 8 c).length = 9 := by simp
  have hat1 : At E.prog s.ip ([x.op] ++ leBytes 8 c) := hat.left
  have hat2 : At E.prog (s.ip + 9) [t.tag, k0, k1] := hl ▸ hat.right
  have hst : store s.buf s.fieldPos (wrBytes s.be t.size (BitVec.ofInt 64 r)) =
      some (splice s.buf s.fieldPos (wrBytes s.be t.size (BitVec.ofInt 64 r))) :=
    store_eq_some.2 ⟨by simpa using hroom, rfl⟩
  refine ⟨_, store_length hst, ?_, ?_, ?_⟩
  · rw [← wire_ofInt]
    exact (fieldAt_store hst).mod
  · rw [exec_run_succ (trans_step hat1)]
    have := prim_trans_enc (E := E) (s := { s with ip := s.ip + 9, trans := x.tr, iVal := c }) henc (x := x) (t := t)
      hat2 rfl hroom hhost
    rw [to_raw hrel he he2 hr0 hr] at this
    rw [exec_run_succ this, exec_zero]
    rfl
  · intro d h1 h2 h3 h4
    obtain ⟨hw, hb⟩ := wire_back hholds hr
    have hat1' : At D.prog d.ip ([x.op] ++ leBytes 8 c) := by rw [hprog, h1]; exact hat1
    rw [exec_run_succ (trans_step hat1')]
    have hsz : t.size ≤ 8 := t.size_le
    have hwn : (BitVec.ofNat 64 (t.wire r)).toNat = t.wire r := by
      rw [BitVec.toNat_ofNat]
      refine Nat.mod_eq_of_lt (Nat.lt_of_lt_of_le hw (Nat.pow_le_pow_right (by omega) (by omega)))
    have := prim_trans_dec (E := D) (s := { d with ip := d.ip + 9, trans := x.tr, iVal := c }) hdec (x := x) (t := t)
      (k0 := k0) (k1 := k1) (v := BitVec.ofNat 64 (t.wire r)) (by rw [hprog]; show At _ (d.ip + 9) _; rw [h1]; exact hat2) rfl
      (by show d.fieldPos + _ ≤ d.buf.length; rw [h3, h4, store_length hst]; exact hroom)
      (by rw [hwn]; exact hw)
      (by
        show FieldAt d.be d.buf d.fieldPos t.size _
        rw [hwn, h2, h3, h4, ← wire_ofInt]
        exact (fieldAt_store hst).mod)
    rw [to_eng hrel he he2 hb] at this
    dsimp only at this
    rw [exec_succ, this]
    have e3 : St.fieldPos { d with ip := d.ip + 9, trans := x.tr, iVal := c } = s.fieldPos := h3
    rw [e3, h1]
    cases hq : (D.host.scalar d.host (keyNum k0 k1) 0x17 (BitVec.ofInt 64 e)).1
    · simp only [hq, Bool.false_eq_true, if_false]
    · simp only [hq, if_true, exec_zero]

/-- Encoder and decoder agree on a concrete packet: host value 1300, "add 1000" in front of a u16. -/
example :
    Demo.obs (exec (Demo.env (transCode .add 1000 .u16 7 0) true) 3 (Demo.start [0, 0, 0] { inp := [BitVec.ofInt 64 1300] })) =
      .stopped .ok [0x2C, 1, 0] 2 0 { log := [(7, 0x17, 1300)] } ∧
    Demo.obs (exec (Demo.env (transCode .add 1000 .u16 7 0) false) 3 (Demo.start [0x2C, 1, 0] {})) =
      .stopped .ok [0x2C, 1, 0] 2 0 { log := [(7, 0x17, 1300)] } ∧
    ITrans.rel .add 1000 1300 300 ∧ Ty.holds .u16 300 := by
  refine ⟨by decide +kernel, by decide +kernel, rfl, ?_⟩
  unfold Ty.holds
  decide

/-- **C26** (scope), for integer and floating-point fields that are present: once the field has been written or
read, no transform is pending. Missing: fields of other kinds, and optional fields that are missing, which do leave
it pending (`C26_false_leak`). -/
theorem C26_consumed_partial (E : Env σ) (s s1 : St σ) (op : Byte) (rest : List Byte)
    (hat : At E.prog s.ip (op :: rest)) (hop : 0x10 ≤ op.toNat ∧ op.toNat ≤ 0x19) (hs : step E s = .run s1)
    (hadv : s1.cursor ≠ s.fieldPos) : s1.trans = .none := by
  have key : ∀ i : Fin 256, (0x10 ≤ (BitVec.ofFin i : Byte).toNat ∧ (BitVec.ofFin i : Byte).toNat ≤ 0x19) →
      aligns (BitVec.ofFin i) = true ∧
      ((∃ t ∈ [Ty.u8, .u16, .u32, .u64, .i8, .i16, .i32, .i64], decodeOp (BitVec.ofFin i) = .io t) ∨
      decodeOp (BitVec.ofFin i) = .ioF32 ∨ decodeOp (BitVec.ofFin i) = .ioF64) := by decide +kernel
  obtain ⟨hal, hk⟩ := key op.toFin hop
  rw [step_pre hat, pre_aligned _ s hal] at hs
  generalize hf : s.fieldPos = fp at *
  unfold execOp at hs
  rcases hk with ⟨t, _, hd⟩ | hd | hd <;> (change decodeOp op = _ at hd; rw [hd] at hs; dsimp only at hs)
  · unfold handlePrim fet callScalar rdAt wrAt at hs
    dsimp only at hs
    (repeat' split at hs) <;> (cases hs <;> first | rfl | exact absurd rfl hadv)
  · unfold handleFloat fet callScalar rdAt wrAt at hs
    dsimp only at hs
    (repeat' split at hs) <;> (cases hs <;> first | rfl | exact absurd rfl hadv)
  · unfold handleFloat fet callScalar rdAt wrAt at hs
    dsimp only at hs
    (repeat' split at hs) <;> (cases hs <;> first | rfl | exact absurd rfl hadv)

/-- **C26** is false as stated: a transform on an optional field that is missing, or on a bool, is applied to the
next field instead; and in an array only the first element is transformed. -/
theorem C26_false_leak :
    -- optional u16 "add 100" missing from a one-byte packet; the u8 after it is decoded as 105
    Demo.obs (exec (Demo.env ([0x4A] ++ transCode .add 100 .u16 1 0 ++ [0x10, 2, 0]) false) 5 (Demo.start [5] {})) =
      .stopped .ok [5] 1 0 { log := [(1, 0x11, 0), (2, 0x17, 105)] } ∧
    -- "add 100" on a bool
    Demo.obs (exec (Demo.env ([0x45] ++ leBytes 8 100 ++ [0x1A, 1, 0] ++ [0x10, 2, 0]) false) 5 (Demo.start [1, 5] {})) =
      .stopped .ok [1, 5] 2 0 { log := [(1, 0x1A, 1), (2, 0x17, 105)] } ∧
    -- "add 100" on u16[2]
    Demo.obs (exec (Demo.env ([0x45] ++ leBytes 8 100 ++ ([0x34, 1, 0] ++ leBytes 4 2) ++ [0x11, 2, 0] ++ [0x38]) false)
        9 (Demo.start [5, 0, 5, 0] {})) =
      .stopped .ok [5, 0, 5, 0] 4 0 { log := [(1, 0x34, 2), (2, 0x17, 105), (2, 0x11, 5), (0, 0x38, 0)] } := by
  decide +kernel

/-! ### C27: overflow -/

/-- The exact result of a transform, without any bound. -/
def ITrans.engOf : ITrans → (c r : Int) → Int
  | .add, c, r => r + c
  | .sub, c, r => r - c
  | .mul, c, r => r * c
  | .div, c, r => if c = 0 then r else r.tdiv c

def ITrans.rawOf : ITrans → (c e : Int) → Int
  | .add, c, e => e - c
  | .sub, c, e => e + c
  | .mul, c, e => if c = 0 then e else e.tdiv c
  | .div, c, e => e * c

def fits64 (x : Int) : Prop := -(2 ^ 63 : Int) ≤ x ∧ x < 2 ^ 63

theorem i64?_none {x : Int} : i64? x = none ↔ ¬ fits64 x := by
  unfold i64? fits64
  split <;> simp_all

theorem toInt_fits (w : Word) : fits64 w.toInt := by
  have h1 := BitVec.toInt_lt (x := w)
  have h2 := BitVec.le_toInt (x := w)
  unfold fits64
  omega

theorem weq {c : Word} : c.toInt = 0 ↔ c = 0 :=
  ⟨fun h => by simpa using toInt_inj h, fun h => by rw [h]; rfl⟩

theorem eng_none {x : ITrans} {c w : Word} : intToEng x.tr c w = none ↔ ¬ fits64 (x.engOf c.toInt w.toInt) := by
  cases x <;> simp only [ITrans.tr, intToEng, ITrans.engOf, i64?_none]
  by_cases h : c = 0
  · subst h
    simp [toInt_fits]
  · have := mt weq.1 h
    rw [if_pos h, if_neg this, i64?_none]

theorem raw_none {x : ITrans} {c w : Word} : intToRaw x.tr c w = none ↔ ¬ fits64 (x.rawOf c.toInt w.toInt) := by
  cases x <;> simp only [ITrans.tr, intToRaw, ITrans.rawOf, i64?_none]
  by_cases h : c = 0
  · subst h
    simp [toInt_fits]
  · have := mt weq.1 h
    rw [if_pos h, if_neg this, i64?_none]

/-- **C27** is false as stated. Encoding: the host supplies INT64_MIN to a field with "add 1"; decoding: a packet
supplies INT64_MAX to an i64 with "add 1", and INT64_MIN to an i64 with "div -1" (which traps on common hardware). -/
theorem C27_false :
    Demo.obs (exec (Demo.env (transCode .add 1 .u8 1 0) true) 3 (Demo.start [0] { inp := [0x8000000000000000] })) = .undef .overflow ∧
    Demo.obs (exec (Demo.env (transCode .add 1 .i64 1 0) false) 3
      (Demo.start [0xFF, 0xFF, 0xFF, 0xFF, 0xFF, 0xFF, 0xFF, 0x7F] {})) = .undef .overflow ∧
    Demo.obs (exec (Demo.env (transCode .div 0xFFFFFFFFFFFFFFFF .i64 1 0) false) 3
      (Demo.start [0, 0, 0, 0, 0, 0, 0, 0x80] {})) = .undef .overflow := by
  decide +kernel

/-- **C27** (encoding, exactly): a transformed field is undefined behaviour precisely when the exact result
does not fit `int64_t`. -/
theorem C27_encode_iff_partial {E : Env σ} {s : St σ} (henc : E.enc = true) {x : ITrans} {t : Ty} {k0 k1 : Byte} {w : Word}
    {h : σ} (hat : At E.prog s.ip [t.tag, k0, k1]) (htr : s.trans = x.tr)
    (hroom : s.fieldPos + t.size ≤ s.buf.length)
    (hhost : E.host.scalar s.host (keyNum k0 k1) 0x17 0 = (true, w, h)) :
    (∃ u, step E s = .ub u) ↔ ¬ fits64 (x.rawOf s.iVal.toInt w.toInt) := by
  rw [prim_trans_enc henc hat htr hroom hhost, ← raw_none]
  cases intToRaw x.tr s.iVal w <;> simp

/-- **C27** (decoding, exactly). -/
theorem C27_decode_iff_partial {E : Env σ} {s : St σ} (henc : E.enc = false) {x : ITrans} {t : Ty} {k0 k1 : Byte} {v : Word}
    (hat : At E.prog s.ip [t.tag, k0, k1]) (htr : s.trans = x.tr)
    (hroom : s.fieldPos + t.size ≤ s.buf.length)
    (hv : v.toNat < 2 ^ (8 * t.size)) (hf : FieldAt s.be s.buf s.fieldPos t.size v.toNat) :
    (∃ u, step E s = .ub u) ↔ ¬ fits64 (x.engOf s.iVal.toInt (t.toI64 v).toInt) := by
  rw [prim_trans_dec henc hat htr hroom hv hf, ← eng_none]
  cases intToEng x.tr s.iVal (t.toI64 v)
  · simp
  · dsimp only
    split <;> simp

theorem small_toInt {t : Ty} (ht : t.size ≤ 4) {v : Word} (hv : v.toNat < 2 ^ (8 * t.size)) :
    (t.toI64 v).toInt.natAbs ≤ 2 ^ 32 := by
  cases t <;> simp only [Ty.size] at ht hv <;> try omega
  all_goals simp only [Ty.toI64, Ty.signed, Bool.false_eq_true, if_false, if_true]
  case u8 | u16 | u32 =>
    rw [BitVec.toInt_eq_toNat_cond]
    split <;> omega
  all_goals simp only [sextB, Ty.size]
  case i8 =>
    show ((v.setWidth 8).signExtend 64).toInt.natAbs ≤ _
    rw [BitVec.toInt_signExtend_of_le (by omega)]
    have h1 := BitVec.toInt_lt (x := v.setWidth 8)
    have h2 := BitVec.le_toInt (x := v.setWidth 8)
    omega
  case i16 =>
    show ((v.setWidth 16).signExtend 64).toInt.natAbs ≤ _
    rw [BitVec.toInt_signExtend_of_le (by omega)]
    have h1 := BitVec.toInt_lt (x := v.setWidth 16)
    have h2 := BitVec.le_toInt (x := v.setWidth 16)
    omega
  case i32 =>
    show ((v.setWidth 32).signExtend 64).toInt.natAbs ≤ _
    rw [BitVec.toInt_signExtend_of_le (by omega)]
    have h1 := BitVec.toInt_lt (x := v.setWidth 32)
    have h2 := BitVec.le_toInt (x := v.setWidth 32)
    omega

/-- **C27** (decoding, sufficient): no packet can cause overflow in a field of at most four bytes under a transform
whose constant has magnitude at most 2^30. Missing: 8-byte fields, larger constants, and encoding, where the host's value
is arbitrary (`C27_false`). -/
theorem C27_decode_small_partial {E : Env σ} {s : St σ} (henc : E.enc = false) {x : ITrans} {t : Ty} {k0 k1 : Byte}
    (hat : At E.prog s.ip [t.tag, k0, k1]) (htr : s.trans = x.tr) (ht : t.size ≤ 4)
    (hroom : s.fieldPos + t.size ≤ s.buf.length) (hc : s.iVal.toInt.natAbs ≤ 2 ^ 30) :
    ∀ u, step E s ≠ .ub u := by
  obtain ⟨v, hf, hv⟩ := fieldAt_exists s.be s.buf s.fieldPos t.size t.size_pos t.size_le hroom
  intro u hu
  refine (C27_decode_iff_partial henc hat htr hroom hv hf).1 ⟨u, hu⟩ ?_
  have hr := small_toInt ht hv
  generalize (t.toI64 v).toInt = r at hr
  generalize s.iVal.toInt = c at hc
  unfold fits64
  cases x <;> simp only [ITrans.engOf]
  · omega
  · omega
  · have := Nat.mul_le_mul hr hc
    rw [← Int.natAbs_mul] at this
    omega
  · split
    · omega
    · have : (r.tdiv c).natAbs ≤ r.natAbs := by rw [Int.natAbs_tdiv]; exact Nat.div_le_self _ _
      omega

end Cnd
