import Verif.Spec
import Verif.Demo
/-
  C01 (scalar round trip), C02 (byte order on the wire), C22 (booleans).
-/

namespace Cnd
variable {σ τ : Type}

/-- Width in bytes of the scalar field opcodes (concordia.h 28-39): u8 u16 u32 u64, i8 i16 i32 i64, f32, f64,
bool. -/
def scalarWidth : Nat → Option Nat
  | 0x10 => some 1 | 0x11 => some 2 | 0x12 => some 4 | 0x13 => some 8
  | 0x14 => some 1 | 0x15 => some 2 | 0x16 => some 4 | 0x17 => some 8
  | 0x18 => some 4 | 0x19 => some 8 | 0x1A => some 1
  | _ => none

/-- The values a scalar field can hold: anything of its width, and only 0 and 1 for a boolean. -/
def ScalarVal (op : Byte) (n : Nat) (v : Word) : Prop :=
  v.toNat < 2 ^ (8 * n) ∧ (op = 0x1A → v.toNat ≤ 1)

/-- How the opcode byte of a scalar is dispatched. -/
theorem scalar_dispatch (op : Byte) (n : Nat) (h : scalarWidth op.toNat = some n) :
    aligns op = true ∧ 0 < n ∧ n ≤ 8 ∧
    ((∃ t, decodeOp op = .io t ∧ t.size = n ∧ op ≠ 0x1A) ∨ (decodeOp op = .ioF32 ∧ n = 4 ∧ op ≠ 0x1A) ∨
     (decodeOp op = .ioF64 ∧ n = 8 ∧ op ≠ 0x1A) ∨ (decodeOp op = .ioBool ∧ n = 1 ∧ op = 0x1A)) := by
  have key : ∀ i : Fin 256, ∀ n ∈ scalarWidth i.val,
      aligns (BitVec.ofFin i) = true ∧ 0 < n ∧ n ≤ 8 ∧
      ((∃ t ∈ [Ty.u8, .u16, .u32, .u64, .i8, .i16, .i32, .i64],
          decodeOp (BitVec.ofFin i) = .io t ∧ t.size = n ∧ BitVec.ofFin i ≠ (0x1A : Byte)) ∨
       (decodeOp (BitVec.ofFin i) = .ioF32 ∧ n = 4 ∧ BitVec.ofFin i ≠ (0x1A : Byte)) ∨
       (decodeOp (BitVec.ofFin i) = .ioF64 ∧ n = 8 ∧ BitVec.ofFin i ≠ (0x1A : Byte)) ∨
       (decodeOp (BitVec.ofFin i) = .ioBool ∧ n = 1 ∧ BitVec.ofFin i = (0x1A : Byte))) := by
    decide +kernel
  obtain ⟨h1, h2, h3, h4⟩ := key op.toFin n h
  refine ⟨h1, h2, h3, ?_⟩
  rcases h4 with ⟨t, _, h⟩ | h
  · exact .inl ⟨t, h⟩
  · exact .inr h

/-- One encoding step on a scalar field without a pending transform. -/
theorem scalar_enc {E : Env σ} (henc : E.enc = true) {s : St σ} {op k0 k1 : Byte} {n : Nat} {v : Word} {h : σ}
    (hop : scalarWidth op.toNat = some n) (hat : At E.prog s.ip [op, k0, k1]) (htr : s.trans = .none)
    (hroom : s.fieldPos + n ≤ s.buf.length) (hv : ScalarVal op n v)
    (hhost : E.host.scalar s.host (keyNum k0 k1) op 0 = (true, v, h)) :
    ∃ b, store s.buf s.fieldPos (wrBytes s.be n v) = some b ∧
      step E s = .run { s with ip := s.ip + 3, buf := b, cursor := s.fieldPos + n, bit := 0, opt := false,
                               host := h } := by
  obtain ⟨hal, hn0, hn8, hcase⟩ := scalar_dispatch op n hop
  have hf : fetch E.prog (s.ip + 1) 2 = (leWord [k0, k1], s.ip + 1 + 2) := hat.tail.fetch rfl (by omega)
  have hst : store s.buf s.fieldPos (wrBytes s.be n v) = some (splice s.buf s.fieldPos (wrBytes s.be n v)) :=
    store_eq_some.2 ⟨by simpa using hroom, rfl⟩
  have htv : truncB n v = v := truncB_of_lt _ _ hv.1
  refine ⟨_, hst, ?_⟩
  rw [step_eq hat.head]
  show execOp E op (pre op s) = _
  rw [pre_aligned op s hal]
  unfold execOp
  rcases hcase with ⟨t, hd, ht, hne⟩ | ⟨hd, rfl, hne⟩ | ⟨hd, rfl, hne⟩ | ⟨hd, rfl, he⟩
  · subst ht
    rw [hd]
    unfold handlePrim fet
    simp only [hf, leWord_key, htr, henc, if_true]
    refine (if_neg (by omega)).trans ?_
    refine callScalar_ok hhost ?_
    refine wrAt_ok (b := splice s.buf s.fieldPos (wrBytes s.be t.size v)) (by rw [htv]; exact hst) rfl
  · rw [hd]
    unfold handleFloat fet
    simp only [hf, leWord_key, htr, henc, if_true]
    refine (if_neg (by simp; omega)).trans ?_
    refine callScalar_ok hhost ?_
    exact wrAt_ok (b := splice s.buf s.fieldPos (wrBytes s.be 4 v)) (by simp only [Bool.false_eq_true, if_false]; rw [htv]; exact hst) rfl
  · rw [hd]
    unfold handleFloat fet
    simp only [hf, leWord_key, htr, henc, if_true]
    refine (if_neg (by omega)).trans ?_
    refine callScalar_ok hhost ?_
    exact wrAt_ok (b := splice s.buf s.fieldPos (wrBytes s.be 8 v)) (by rw [htv]; exact hst) rfl
  · rw [hd]
    unfold handleBool fet
    simp only [hf, leWord_key, henc, if_true]
    refine (if_neg (by omega)).trans ?_
    refine callScalar_ok hhost ?_
    have := hv.2 he
    refine (if_neg (by rw [htv]; omega)).trans ?_
    exact wrAt_ok (b := splice s.buf s.fieldPos (wrBytes s.be 1 v)) (by rw [htv]; exact hst)
      (by cases s; simp_all)

/-- One decoding step on a scalar field without a pending transform: the host's answer to the call with the
stored value decides, and nothing else. -/
theorem scalar_dec {E : Env σ} (henc : E.enc = false) {s : St σ} {op k0 k1 : Byte} {n : Nat} {v : Word}
    (hop : scalarWidth op.toNat = some n) (hat : At E.prog s.ip [op, k0, k1]) (htr : s.trans = .none)
    (hv : ScalarVal op n v) (hpk : slice s.buf s.fieldPos n = some (wrBytes s.be n v)) :
    let r := E.host.scalar s.host (keyNum k0 k1) op v
    step E s = if r.1 then .run { s with ip := s.ip + 3, cursor := s.fieldPos + n, bit := 0, opt := false,
                                         host := r.2.2 }
      else .stop .callback { s with ip := s.ip + 3, cursor := s.fieldPos, bit := 0, host := r.2.2 } := by
  obtain ⟨hal, hn0, hn8, hcase⟩ := scalar_dispatch op n hop
  have hf : fetch E.prog (s.ip + 1) 2 = (leWord [k0, k1], s.ip + 1 + 2) := hat.tail.fetch rfl (by omega)
  have hrd : rdWord s.be (wrBytes s.be n v) = v := by
    rw [rdWord_wrBytes _ _ _ hn8, truncB_of_lt _ _ hv.1]
  have hroom := (slice_eq_some.1 hpk).1
  intro r
  rw [step_eq hat.head]
  show execOp E op (pre op s) = _
  rw [pre_aligned op s hal]
  unfold execOp
  rcases hcase with ⟨t, hd, ht, hne⟩ | ⟨hd, rfl, hne⟩ | ⟨hd, rfl, hne⟩ | ⟨hd, rfl, he⟩
  · subst ht
    rw [hd]
    unfold handlePrim fet
    simp only [hf, leWord_key, htr, henc, Bool.false_eq_true, if_false]
    refine (if_neg (by omega)).trans ?_
    refine rdAt_ok hpk ?_
    simp only [hrd]
    unfold callScalar
    cases hr : r.1 <;> simp only [r] at hr ⊢ <;> simp [hr]
  · rw [hd]
    unfold handleFloat fet
    simp only [hf, leWord_key, htr, henc, Bool.false_eq_true, if_false]
    refine (if_neg (by omega)).trans ?_
    refine rdAt_ok hpk ?_
    simp only [hrd]
    unfold callScalar
    cases hr : r.1 <;> simp only [r] at hr ⊢ <;> simp [hr]
  · rw [hd]
    unfold handleFloat fet
    simp only [hf, leWord_key, htr, henc, Bool.false_eq_true, if_false]
    refine (if_neg (by simp; omega)).trans ?_
    refine rdAt_ok hpk ?_
    simp only [hrd]
    unfold callScalar
    cases hr : r.1 <;> simp only [r] at hr ⊢ <;> simp [hr]
  · rw [hd]
    unfold handleBool fet
    simp only [hf, leWord_key, henc, Bool.false_eq_true, if_false]
    refine (if_neg (by omega)).trans ?_
    refine rdAt_ok hpk ?_
    simp only [hrd]
    have := hv.2 he
    refine (if_neg (by omega)).trans ?_
    unfold callScalar
    cases hr : r.1 <;> simp only [r] at hr ⊢ <;> simp [hr, htr]

/-- C01. A scalar field of any type, encoded by an encoder whose host supplies `v` and decoded at the same
position by any decoder: both continue with the cursor one field further on, and the decoder's host gets exactly
`v` (its state and verdict are those of the call with `v`). -/
theorem C01_scalar_roundtrip (E : Env σ) (F : Env τ) (henc : E.enc = true) (hdec : F.enc = false)
    (s : St σ) (d : St τ) (op k0 k1 : Byte) (n : Nat) (v : Word) (h : σ)
    (hop : scalarWidth op.toNat = some n)
    (hat : At E.prog s.ip [op, k0, k1]) (hatd : At F.prog d.ip [op, k0, k1])
    (htr : s.trans = .none) (htrd : d.trans = .none)
    (hroom : s.fieldPos + n ≤ s.buf.length) (hv : ScalarVal op n v)
    (hhost : E.host.scalar s.host (keyNum k0 k1) op 0 = (true, v, h)) :
    ∃ s1, step E s = .run s1 ∧ s1.cursor = s.fieldPos + n ∧ s1.bit = 0 ∧ s1.ip = s.ip + 3 ∧ s1.host = h ∧
      (d.buf = s1.buf → d.be = s.be → d.fieldPos = s.fieldPos →
        let r := F.host.scalar d.host (keyNum k0 k1) op v
        (r.1 = true → ∃ d1, step F d = .run d1 ∧ d1.cursor = d.fieldPos + n ∧ d1.bit = 0 ∧
          d1.ip = d.ip + 3 ∧ d1.host = r.2.2) ∧
        (r.1 = false → ∃ d1, step F d = .stop .callback d1 ∧ d1.host = r.2.2)) := by
  obtain ⟨b, hb, hs⟩ := scalar_enc henc hop hat htr hroom hv hhost
  refine ⟨_, hs, rfl, rfl, rfl, rfl, ?_⟩
  intro hbuf hbe hpos r
  have hpk : slice d.buf d.fieldPos n = some (wrBytes d.be n v) := by
    rw [hbuf, hbe, hpos]
    have := slice_store_same hb
    simpa using this
  have hd := scalar_dec hdec hop hatd htrd hv hpk
  constructor
  · intro hr
    exact ⟨_, hd.trans (if_pos hr), rfl, rfl, rfl, rfl⟩
  · intro hr
    exact ⟨_, hd.trans (if_neg (by simp [r] at hr; simp [hr])), rfl⟩

/-- C01 meets a real case: a big-endian i16 with value -2, in the middle of a packet. -/
example :
    Demo.obs (exec (Demo.env [0x02, 0x10, 1, 0, 0x15, 7, 1] true) 10
      (Demo.start [9, 9, 9, 9] { inp := [5, 0xFFFE] })) =
      .stopped .ok [5, 0xFF, 0xFE, 9] 3 0 { log := [(1, 0x10, 5), (263, 0x15, 0xFFFE)] } ∧
    Demo.obs (exec (Demo.env [0x02, 0x10, 1, 0, 0x15, 7, 1] false) 10
      (Demo.start [5, 0xFF, 0xFE, 9] {})) =
      .stopped .ok [5, 0xFF, 0xFE, 9] 3 0 { log := [(1, 0x10, 5), (263, 0x15, 0xFFFE)] } := by
  decide +kernel

/-- C02. Encoding a scalar puts byte `i` of the value at position `p + i` (little-endian) or `p + n - 1 - i`
(big-endian), and changes nothing else. -/
theorem C02_wire_layout (E : Env σ) (henc : E.enc = true) (s : St σ) (op k0 k1 : Byte) (n : Nat) (v : Word)
    (h : σ) (hop : scalarWidth op.toNat = some n) (hat : At E.prog s.ip [op, k0, k1]) (htr : s.trans = .none)
    (hroom : s.fieldPos + n ≤ s.buf.length) (hv : ScalarVal op n v)
    (hhost : E.host.scalar s.host (keyNum k0 k1) op 0 = (true, v, h)) :
    ∃ s1, step E s = .run s1 ∧ s1.buf.length = s.buf.length ∧
      (∀ i, i < n → s1.buf[s.fieldPos + (if s.be then n - 1 - i else i)]? =
        some (BitVec.ofNat 8 (v.toNat / 256 ^ i % 256))) ∧
      (∀ j, j < s.fieldPos ∨ s.fieldPos + n ≤ j → s1.buf[j]? = s.buf[j]?) := by
  obtain ⟨b, hb, hs⟩ := scalar_enc henc hop hat htr hroom hv hhost
  refine ⟨_, hs, store_length hb, ?_, ?_⟩
  · intro i hi
    obtain ⟨hl, rfl⟩ := store_eq_some.1 hb
    have hmod : BitVec.ofNat 8 (v.toNat / 256 ^ i % 256) = BitVec.ofNat 8 (v.toNat / 256 ^ i) := by
      apply BitVec.eq_of_toNat_eq
      simp
    rw [hmod]
    cases hbe : s.be with
    | false =>
      simp only [Bool.false_eq_true, if_false]
      rw [hbe] at hl
      rw [getElem?_splice_mid hl (by simpa using hi)]
      simp only [wrBytes, Bool.false_eq_true, if_false]
      exact leBytes_getElem? n v i hi
    | true =>
      simp only [if_true]
      rw [hbe] at hl
      rw [getElem?_splice_mid hl (by simp; omega)]
      simp only [wrBytes, if_true]
      rw [List.getElem?_reverse (by simp; omega)]
      rw [← leBytes_getElem? n v i hi]
      congr 1
      simp only [leBytes_length]
      omega
  · intro j hj
    obtain ⟨hl, rfl⟩ := store_eq_some.1 hb
    rcases hj with hj | hj
    · exact getElem?_splice_lt hl hj
    · exact getElem?_splice_ge hl (by simpa using hj)

/-- C02 meets a real case: 0x01020304 in both byte orders. -/
example :
    Demo.obs (exec (Demo.env [0x12, 0, 0] true) 5 (Demo.start [9, 9, 9, 9, 9] { inp := [0x01020304] })) =
      .stopped .ok [4, 3, 2, 1, 9] 4 0 { log := [(0, 0x12, 0x01020304)] } ∧
    Demo.obs (exec (Demo.env [0x02, 0x12, 0, 0] true) 5 (Demo.start [9, 9, 9, 9, 9] { inp := [0x01020304] })) =
      .stopped .ok [1, 2, 3, 4, 9] 4 0 { log := [(0, 0x12, 0x01020304)] } := by
  decide +kernel

/-- C22, decoding: the byte of a boolean field is handed to the host exactly when it is 0 or 1; any other byte
stops the run with the validation error and the host is not called. -/
theorem C22_bool_decode (E : Env σ) (hdec : E.enc = false) (s : St σ) (k0 k1 b : Byte)
    (hat : At E.prog s.ip [0x1A, k0, k1]) (hb : s.buf[s.fieldPos]? = some b) :
    (b.toNat ≤ 1 →
      let r := E.host.scalar s.host (keyNum k0 k1) 0x1A (b.setWidth 64)
      (r.1 = true → ∃ s1, step E s = .run s1 ∧ s1.cursor = s.fieldPos + 1 ∧ s1.host = r.2.2) ∧
      (r.1 = false → ∃ s1, step E s = .stop .callback s1)) ∧
    (1 < b.toNat → ∃ s1, step E s = .stop .validation s1 ∧ s1.buf = s.buf ∧ s1.host = s.host) := by
  have hf : fetch E.prog (s.ip + 1) 2 = (leWord [k0, k1], s.ip + 1 + 2) := hat.tail.fetch rfl (by omega)
  have hlen : s.fieldPos < s.buf.length := by
    rcases Nat.lt_or_ge s.fieldPos s.buf.length with h | h
    · exact h
    · rw [List.getElem?_eq_none h] at hb; cases hb
  have hsl : slice s.buf s.fieldPos 1 = some [b] := by
    rw [slice_eq_some]
    refine ⟨by omega, ?_⟩
    rw [List.drop_eq_getElem_cons hlen]
    rw [List.getElem?_eq_getElem hlen] at hb
    injection hb with hb
    simp [hb]
  have hrd : rdWord s.be [b] = b.setWidth 64 := by
    cases s.be <;> simp [rdWord, leWord]
  have hnat : (b.setWidth 64 : Word).toNat = b.toNat := by
    rw [BitVec.toNat_setWidth]; exact Nat.mod_eq_of_lt (by have := b.isLt; omega)
  have key : step E s = if 1 < b.toNat then .stop .validation
      { s with ip := s.ip + 3, cursor := s.fieldPos, bit := 0 }
      else callScalar E { s with ip := s.ip + 3, cursor := s.fieldPos, bit := 0 } (keyNum k0 k1) 0x1A 1
        (b.setWidth 64) fun s _ => .run { s with cursor := s.cursor + 1, opt := false } := by
    rw [step_eq hat.head]
    show execOp E 0x1A (pre 0x1A s) = _
    rw [pre_aligned 0x1A s rfl]
    have hd : decodeOp 0x1A = .ioBool := rfl
    unfold execOp
    rw [hd]
    unfold handleBool fet
    simp only [hf, leWord_key, hdec, Bool.false_eq_true, if_false]
    refine (if_neg (by omega)).trans ?_
    refine rdAt_ok hsl ?_
    simp only [hrd, hnat]
  constructor
  · intro hle r
    rw [if_neg (by omega)] at key
    rw [key]
    unfold callScalar
    constructor
    · intro hr
      exact ⟨_, if_pos hr, rfl, rfl⟩
    · intro hr
      exact ⟨_, if_neg (by exact fun h => by rw [hr] at h; cases h)⟩
  · intro hgt
    rw [if_pos hgt] at key
    exact ⟨_, key, rfl, rfl⟩

/-- C22, encoding: the host's byte is written exactly when it is 0 or 1; otherwise the run stops with the
validation error and the packet is unchanged. -/
theorem C22_bool_encode (E : Env σ) (henc : E.enc = true) (s : St σ) (k0 k1 : Byte) (v : Word) (h : σ)
    (hat : At E.prog s.ip [0x1A, k0, k1]) (hroom : s.fieldPos + 1 ≤ s.buf.length)
    (hhost : E.host.scalar s.host (keyNum k0 k1) 0x1A 0 = (true, v, h)) :
    (v.toNat % 256 ≤ 1 → ∃ s1, step E s = .run s1 ∧ s1.cursor = s.fieldPos + 1 ∧
      s1.buf[s.fieldPos]? = some (BitVec.ofNat 8 (v.toNat % 256)) ∧
      ∀ j, j ≠ s.fieldPos → s1.buf[j]? = s.buf[j]?) ∧
    (1 < v.toNat % 256 → ∃ s1, step E s = .stop .validation s1 ∧ s1.buf = s.buf) := by
  have hf : fetch E.prog (s.ip + 1) 2 = (leWord [k0, k1], s.ip + 1 + 2) := hat.tail.fetch rfl (by omega)
  have hst : store s.buf s.fieldPos (wrBytes s.be 1 (truncB 1 v)) =
      some (splice s.buf s.fieldPos (wrBytes s.be 1 (truncB 1 v))) :=
    store_eq_some.2 ⟨by simpa using hroom, rfl⟩
  have hnat : (truncB 1 v).toNat = v.toNat % 256 := by rw [toNat_truncB]
  have key : step E s = if 1 < v.toNat % 256 then .stop .validation
      { s with ip := s.ip + 3, cursor := s.fieldPos, bit := 0, host := h }
      else .run { s with ip := s.ip + 3, cursor := s.fieldPos + 1, bit := 0, host := h, opt := false,
                         buf := splice s.buf s.fieldPos (wrBytes s.be 1 (truncB 1 v)) } := by
    rw [step_eq hat.head]
    show execOp E 0x1A (pre 0x1A s) = _
    rw [pre_aligned 0x1A s rfl]
    have hd : decodeOp 0x1A = .ioBool := rfl
    unfold execOp
    rw [hd]
    unfold handleBool fet
    simp only [hf, leWord_key, henc, if_true]
    refine (if_neg (by omega)).trans ?_
    refine callScalar_ok hhost ?_
    simp only [hnat]
    by_cases hgt : 1 < v.toNat % 256
    · rw [if_pos hgt, if_pos hgt]
    · rw [if_neg hgt, if_neg hgt]
      exact wrAt_ok (by exact hst) rfl
  have hl : s.fieldPos + (wrBytes s.be 1 (truncB 1 v)).length ≤ s.buf.length := by simpa using hroom
  constructor
  · intro hle
    rw [if_neg (by omega)] at key
    refine ⟨_, key, rfl, ?_, ?_⟩
    · have := getElem?_splice_mid hl (i := 0) (by simp)
      rw [Nat.add_zero] at this
      show (splice _ _ _)[_]? = _
      rw [this]
      have e : wrBytes s.be 1 (truncB 1 v) = [(truncB 1 v).setWidth 8] := by
        cases s.be <;> simp [wrBytes, leBytes]
      rw [e]
      simp only [List.getElem?_cons_zero, Option.some.injEq]
      apply BitVec.eq_of_toNat_eq
      rw [BitVec.toNat_setWidth, hnat, BitVec.toNat_ofNat]
    · intro j hj
      rcases Nat.lt_or_ge j s.fieldPos with h1 | h1
      · exact getElem?_splice_lt hl h1
      · exact getElem?_splice_ge hl (by simp; omega)
  · intro hgt
    rw [if_pos hgt] at key
    exact ⟨_, key, rfl⟩

/-- C22 meets real cases: 2 is rejected both ways. -/
example :
    Demo.obs (exec (Demo.env [0x1A, 3, 0] false) 5 (Demo.start [2, 9] {})) = .stopped .validation [2, 9] 0 0 {} ∧
    Demo.obs (exec (Demo.env [0x1A, 3, 0] true) 5 (Demo.start [7, 9] { inp := [2] })) =
      .stopped .validation [7, 9] 0 0 { log := [(3, 0x1A, 2)] } ∧
    Demo.obs (exec (Demo.env [0x1A, 3, 0] false) 5 (Demo.start [1, 9] {})) =
      .stopped .ok [1, 9] 1 0 { log := [(3, 0x1A, 1)] } := by
  decide +kernel

end Cnd
