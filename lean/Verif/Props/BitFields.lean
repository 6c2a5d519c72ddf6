import Verif.Run
import Verif.Demo
/-
  Bit fields: C09-C13.  The specification view of a packet is `bitAt be buf k`: the k-th bit of the
  stream (least significant bit first in each byte when little-endian, most significant first when
  big-endian).
-/

namespace Cnd
variable {σ : Type}

/-- C09. An n-bit field (n ≤ 64) written at any bit position with n bits of room is read back as the
value modulo 2^n, and both directions end exactly n bits further on. -/
theorem C09_bits_roundtrip (be : Bool) (buf : List Byte) (cur bit : Nat) (val : Word) (n : Nat)
    (hb : bit < 8) (hn : n ≤ 64) (hr : 8 * cur + bit + n ≤ 8 * buf.length) :
    ∃ buf' c o v, writeBits buf be cur bit val n = some (buf', c, o) ∧
      readBits buf' be cur bit n = some (v, c, o) ∧
      8 * c + o = 8 * cur + bit + n ∧ o < 8 ∧ v.toNat = val.toNat % 2 ^ n := by
  cases hw : writeBits buf be cur bit val n with
  | none => exact absurd hw (writeBits_defined be val n buf cur bit hn)
  | some r =>
    obtain ⟨buf', c, o⟩ := r
    obtain ⟨h1, h2, h3, h4⟩ := writeBits_spec be val n buf cur bit hb hw
    have hroom : room buf.length (8 * cur + bit) n = n := by simp only [room]; omega
    rw [hroom] at h3 h4
    obtain ⟨v, c', o', e1, e2, e3, e4⟩ := readBits_spec be n buf' cur bit hb hn (by rw [h1]; exact hr)
    have : c' = c ∧ o' = o := by omega
    obtain ⟨rfl, rfl⟩ := this
    refine ⟨buf', c', o', v, rfl, e1, h3, h2, ?_⟩
    apply Nat.eq_of_testBit_eq
    intro t
    rw [Nat.testBit_mod_two_pow]
    by_cases ht : t < 64
    · have := e4 t ht
      rw [BitVec.getLsbD] at this
      rw [this]
      by_cases htn : t < n
      · have hj : 8 * cur + bit ≤ 8 * cur + bit + (if be then n - 1 - t else t) ∧
            8 * cur + bit + (if be then n - 1 - t else t) < 8 * cur + bit + n := by
          cases be <;> simp <;> omega
        rw [h4, if_pos hj]
        have hk : (if be then n - 1 - (8 * cur + bit + (if be then n - 1 - t else t) - (8 * cur + bit))
            else 8 * cur + bit + (if be then n - 1 - t else t) - (8 * cur + bit)) = t := by
          cases be <;> simp <;> omega
        rw [hk]
        simp [htn, BitVec.getLsbD]
      · simp [htn]
    · have h1 : v.toNat.testBit t = false := by
        apply Nat.testBit_lt_two_pow
        exact Nat.lt_of_lt_of_le v.isLt (Nat.pow_le_pow_right (by omega) (by omega))
      have : ¬ t < n := by omega
      rw [h1]; simp [this]

example : writeBits [0xFF, 0, 0] true 0 5 0x155 9 = some ([0xFD, 0x54, 0], 1, 6) ∧
    readBits [0xFD, 0x54, 0] true 0 5 9 = some (0x155, 1, 6) := by decide +kernel

/-- C10. A bit-field write changes no stream bit outside the n bits starting at its position (whether
or not the field fits), and not the length of the packet. -/
theorem C10_bits_frame (be : Bool) (buf : List Byte) (cur bit : Nat) (val : Word) (n : Nat)
    (hb : bit < 8) (buf' : List Byte) (c o : Nat)
    (h : writeBits buf be cur bit val n = some (buf', c, o)) :
    buf'.length = buf.length ∧
    ∀ k, k < 8 * cur + bit ∨ 8 * cur + bit + n ≤ k → bitAt be buf' k = bitAt be buf k := by
  obtain ⟨h1, _, _, h4⟩ := writeBits_spec be val n buf cur bit hb h
  refine ⟨h1, fun k hk => ?_⟩
  rw [h4, if_neg]
  simp only [room]; omega

/-- C10 together with what the written bits are: big-endian fields are stored most significant bit
first, little-endian fields least significant bit first. -/
theorem C10_bits_layout (be : Bool) (buf : List Byte) (cur bit : Nat) (val : Word) (n : Nat)
    (hb : bit < 8) (hr : 8 * cur + bit + n ≤ 8 * buf.length) (buf' : List Byte) (c o : Nat)
    (h : writeBits buf be cur bit val n = some (buf', c, o)) (i : Nat) (hi : i < n) :
    bitAt be buf' (8 * cur + bit + i) = some (val.getLsbD (if be then n - 1 - i else i)) := by
  obtain ⟨_, _, _, h4⟩ := writeBits_spec be val n buf cur bit hb h
  rw [h4, if_pos (by simp only [room]; omega)]
  have : 8 * cur + bit + i - (8 * cur + bit) = i := by omega
  rw [this]

example : writeBits [0xFF, 0xFF] false 0 3 0 6 = some ([0x07, 0xFE], 1, 1) := by decide +kernel

/-- C11 (writes). The aligned fast path gives what the bit loop gives. -/
theorem C11_write_fast_path (be : Bool) (buf : List Byte) (cur : Nat) (val : Word) (n : Nat)
    (hn : n = 8 ∨ n = 16 ∨ n = 32 ∨ n = 64) (hr : cur + n / 8 ≤ buf.length) :
    writeBits buf be cur 0 val n = writeLoop be val n n 0 buf cur 0 := by
  have hfast : writeBits buf be cur 0 val n =
      some (splice buf cur (wrBytes be (n / 8) val), cur + n / 8, 0) := by
    unfold writeBits
    simp only
    rw [if_pos]
    rcases hn with rfl | rfl | rfl | rfl <;> simp at hr ⊢ <;> exact hr
  cases hl : writeLoop be val n n 0 buf cur 0 with
  | none => exact absurd hl (writeLoop_defined be val n n 0 buf cur 0 (by omega) (by omega))
  | some r =>
    obtain ⟨b, c, o⟩ := r
    have h1 := writeLoop_spec be val n n 0 buf cur 0 (by omega) hl
    have h2 := writeBits_spec be val n buf cur 0 (by omega) hfast
    have hb : b = splice buf cur (wrBytes be (n / 8) val) := by
      apply ext_bitAt be
      · rw [h1.1, h2.1]
      · intro j
        rw [h1.2.2.2, h2.2.2.2]
        simp
    have hp := h1.2.2.1
    have hq := h2.2.2.1
    have ho := h1.2.1
    have : c = cur + n / 8 ∧ o = 0 := by omega
    rw [hfast, hb, this.1, this.2]

/-- C11 (reads). -/
theorem C11_read_fast_path (be : Bool) (buf : List Byte) (cur n : Nat)
    (hn : n = 8 ∨ n = 16 ∨ n = 32 ∨ n = 64) (hr : cur + n / 8 ≤ buf.length) :
    readBits buf be cur 0 n = readLoop buf be n 0 cur 0 0 := by
  obtain ⟨v, c, o, e1, e2, e3, e4⟩ := readBits_spec be n buf cur 0 (by omega) (by omega) (by omega)
  rw [e1]
  have hroom : room buf.length (8 * cur + 0) n = n := by simp only [room]; omega
  cases be with
  | true =>
    obtain ⟨v', c', o', f1, f2, f3, f4⟩ := readLoop_be buf n 0 cur 0 0 (by omega)
    rw [hroom] at f3 f4
    rw [f1]
    have : c = c' ∧ o = o' := by omega
    obtain ⟨rfl, rfl⟩ := this
    have : v = v' := by
      apply BitVec.eq_of_getLsbD_eq
      intro t ht
      rw [e4 t ht, f4 t ht]
      by_cases htn : t < n
      · simp [htn]
      · simp [htn]
    rw [this]
  | false =>
    cases hl : readLoop buf false n 0 cur 0 0 with
    | none => exact absurd hl (readLoop_le_defined buf n 0 cur 0 0 (by omega))
    | some r =>
      obtain ⟨v', c', o'⟩ := r
      obtain ⟨f2, f3, f4⟩ := readLoop_le buf n 0 cur 0 0 (by omega) hl
      rw [hroom] at f3 f4
      have : c = c' ∧ o = o' := by omega
      obtain ⟨rfl, rfl⟩ := this
      have : v = v' := by
        apply BitVec.eq_of_getLsbD_eq
        intro t ht
        rw [e4 t ht, f4 t ht]
        simp
      rw [this]

example : writeBits [1, 2, 3, 4, 5] true 1 0 0x12345678 32 = some ([1, 0x12, 0x34, 0x56, 0x78], 5, 0) ∧
    writeLoop true 0x12345678 32 32 0 [1, 2, 3, 4, 5] 1 0 = some ([1, 0x12, 0x34, 0x56, 0x78], 5, 0) := by
  decide +kernel

theorem xor_two_pow (a m : Nat) (ha : a < 2 ^ (m + 1)) :
    a ^^^ 2 ^ m = if a < 2 ^ m then a + 2 ^ m else a - 2 ^ m := by
  rw [Nat.pow_succ] at ha
  split
  · rename_i h
    have h2 : 2 ^ m + a = 2 ^ m ||| a := by
      have := Nat.two_pow_add_eq_or_of_lt h 1
      simpa using this
    rw [Nat.add_comm, h2]
    apply Nat.eq_of_testBit_eq
    intro i
    rw [Nat.testBit_xor, Nat.testBit_or, Nat.testBit_two_pow]
    by_cases hi : m = i
    · subst hi; simp [Nat.testBit_lt_two_pow h]
    · simp [hi]
  · rename_i h
    have hb : a - 2 ^ m < 2 ^ m := by omega
    have h2 : 2 ^ m + (a - 2 ^ m) = 2 ^ m ||| (a - 2 ^ m) := by
      have := Nat.two_pow_add_eq_or_of_lt hb 1
      simpa using this
    have ha : a = 2 ^ m ||| (a - 2 ^ m) := by omega
    apply Nat.eq_of_testBit_eq
    intro i
    rw [Nat.testBit_xor, Nat.testBit_two_pow]
    conv => lhs; rw [ha]
    rw [Nat.testBit_or, Nat.testBit_two_pow]
    by_cases hi : m = i
    · subst hi; simp [Nat.testBit_lt_two_pow hb]
    · simp [hi]

/-- C12. sign_extend of an n-bit raw value is the unique integer in [-2^(n-1), 2^(n-1)) congruent to it
modulo 2^n. -/
theorem C12_sign_extend (n : Nat) (h0 : 0 < n) (hn : n ≤ 64) (raw : Word) (hraw : raw.toNat < 2 ^ n) :
    ∃ w, signExtendBits raw n = some w ∧
      -(2 ^ (n - 1) : Int) ≤ w.toInt ∧ w.toInt < 2 ^ (n - 1) ∧
      ∃ q : Int, w.toInt = raw.toNat + 2 ^ n * q := by
  obtain ⟨m, rfl⟩ : ∃ m, n = m + 1 := ⟨n - 1, by omega⟩
  simp only [Nat.add_sub_cancel]
  unfold signExtendBits
  have hpow : (2 : Int) ^ (m + 1) = 2 * 2 ^ m := by rw [Int.pow_succ]; omega
  have hpowN : 2 ^ (m + 1) = 2 * 2 ^ m := by rw [Nat.pow_succ]; omega
  have hcast : ((2 ^ m : Nat) : Int) = 2 ^ m := by simp
  by_cases h64 : 64 ≤ m + 1
  · have hm : m = 63 := by omega
    subst hm
    rw [if_pos (by omega)]
    refine ⟨raw, rfl, ?_, ?_, ?_⟩
    · have := BitVec.le_toInt raw; omega
    · have := @BitVec.toInt_lt 64 raw; omega
    · rw [BitVec.toInt_eq_toNat_cond]
      split
      · exact ⟨0, by omega⟩
      · exact ⟨-1, by omega⟩
  · rw [if_neg h64, if_neg (by omega)]
    simp only [Nat.add_sub_cancel]
    refine ⟨_, rfl, ?_⟩
    have hm63 : 2 ^ m ≤ 2 ^ 62 := Nat.pow_le_pow_right (by omega) (by omega)
    have hshift : ((1 : Word) <<< m).toNat = 2 ^ m := by
      rw [BitVec.toNat_shiftLeft, Nat.shiftLeft_eq]
      have h1 : (1 : Word).toNat = 1 := rfl
      rw [h1]
      omega
    generalize hM : (1 : Word) <<< m = M at hshift
    have hxor : (raw ^^^ M).toNat = if raw.toNat < 2 ^ m then raw.toNat + 2 ^ m else raw.toNat - 2 ^ m := by
      rw [BitVec.toNat_xor, hshift]
      generalize raw.toNat = a at hraw
      exact xor_two_pow a m hraw
    have hsub : ((raw ^^^ M) - M).toInt = if raw.toNat < 2 ^ m then (raw.toNat : Int) else (raw.toNat : Int) - 2 ^ (m + 1) := by
      rw [BitVec.toInt_eq_toNat_cond, BitVec.toNat_sub, hxor, hshift]
      have := raw.isLt
      split <;> split <;> omega
    rw [hsub]
    by_cases hlt : raw.toNat < 2 ^ m
    · simp only [hlt, if_true]
      refine ⟨by omega, by omega, 0, by omega⟩
    · simp only [hlt, if_false]
      refine ⟨by omega, by omega, -1, by omega⟩

/-- C12, consequence: a signed value that fits n bits survives truncation to n bits followed by
sign extension. -/
theorem C12_signed_roundtrip (n : Nat) (h0 : 0 < n) (hn : n ≤ 64) (w : Word)
    (hlo : -(2 ^ (n - 1) : Int) ≤ w.toInt) (hhi : w.toInt < 2 ^ (n - 1)) (raw : Word)
    (hraw : raw.toNat = w.toNat % 2 ^ n) : signExtendBits raw n = some w := by
  obtain ⟨w', e1, e2, e3, q, e4⟩ := C12_sign_extend n h0 hn raw (by rw [hraw]; exact Nat.mod_lt _ (Nat.two_pow_pos n))
  rw [e1]
  congr 1
  apply BitVec.eq_of_toInt_eq
  obtain ⟨q2, hq2⟩ : ∃ q2 : Int, w.toInt = raw.toNat + 2 ^ n * q2 := by
    have hd := Nat.div_add_mod w.toNat (2 ^ n)
    have hle : (2 : Nat) ^ 64 = 2 ^ n * 2 ^ (64 - n) := by
      rw [← Nat.pow_add]; congr 1; omega
    rw [← hraw] at hd
    have hdc : (w.toNat : Int) = (2 ^ n : Nat) * (w.toNat / 2 ^ n : Nat) + raw.toNat := by
      exact_mod_cast hd.symm
    have hc : ((2 ^ n : Nat) : Int) = 2 ^ n := by simp
    rw [hc] at hdc
    rw [BitVec.toInt_eq_toNat_cond]
    split
    · exact ⟨(w.toNat / 2 ^ n : Nat), by rw [hdc]; exact Int.add_comm _ _⟩
    · refine ⟨(w.toNat / 2 ^ n : Nat) - (2 ^ (64 - n) : Nat), ?_⟩
      rw [hle]
      have : ((2 ^ n * 2 ^ (64 - n) : Nat) : Int) = 2 ^ n * (2 ^ (64 - n) : Nat) := by
        rw [Int.natCast_mul, hc]
      rw [this, hdc, Int.mul_sub]
      omega
  obtain ⟨m, rfl⟩ : ∃ m, n = m + 1 := ⟨n - 1, by omega⟩
  simp only [Nat.add_sub_cancel] at *
  have hpow : (2 : Int) ^ (m + 1) = 2 * 2 ^ m := by rw [Int.pow_succ]; omega
  have hpos : (0 : Int) < 2 ^ m := Int.pow_pos (by omega)
  rw [hpow] at e4 hq2
  generalize (2 : Int) ^ m = P at *
  have : q = q2 := by
    have h1 : 2 * P * (q - q2) < 2 * P * 1 := by rw [Int.mul_sub]; omega
    have h2 : 2 * P * (-1) < 2 * P * (q - q2) := by rw [Int.mul_sub]; omega
    have h3 := Int.lt_of_mul_lt_mul_left h1 (by omega)
    have h4 := Int.lt_of_mul_lt_mul_left h2 (by omega)
    omega
  rw [e4, hq2, this]

example : signExtendBits 0x1D 5 = some (BitVec.ofInt 64 (-3)) := by decide +kernel

/-! ### C13 -/

/-- C13 is false when encoding: a 12-bit field into a one-byte packet succeeds and loses four bits. -/
theorem C13_false_encode : ∃ (E : Env Demo.Tape) (s : St Demo.Tape), E.enc = true ∧
    8 * s.buf.length < 8 * s.cursor + s.bit + 12 ∧
    Demo.obs (exec E 2 s) = .stopped .ok [0xFF] 1 0 { log := [(0, 0x20, 0xFFF)] } :=
  ⟨Demo.env [0x20, 0, 0, 12] true, Demo.start [0] { inp := [0xFFF] }, rfl, by decide, by decide +kernel⟩

/-- C13 is false when decoding: a 12-bit field of a one-byte packet is reported as 8 bits. -/
theorem C13_false_decode : ∃ (E : Env Demo.Tape) (s : St Demo.Tape), E.enc = false ∧
    8 * s.buf.length < 8 * s.cursor + s.bit + 12 ∧
    Demo.obs (exec E 2 s) = .stopped .ok [0xFF] 1 0 { log := [(0, 0x20, 0xFF)] } :=
  ⟨Demo.env [0x20, 0, 0, 12] false, Demo.start [0xFF] {}, rfl, by decide, by decide +kernel⟩

/-- C13, the part that holds: a bit-field access never leaves the packet, and it ends n bits further
on exactly when the field fits; a field that does not fit ends at the end of the packet.
Missing: that the truncation is reported as an error (false, see above). -/
theorem C13_truncation_partial (be : Bool) (buf : List Byte) (cur bit n : Nat) (hb : bit < 8)
    (hn : n ≤ 64) (hin : 8 * cur + bit ≤ 8 * buf.length) :
    (∀ val, ∃ b c o, writeBits buf be cur bit val n = some (b, c, o) ∧ b.length = buf.length ∧
      (8 * c + o = 8 * cur + bit + n ↔ 8 * cur + bit + n ≤ 8 * buf.length) ∧
      (8 * buf.length < 8 * cur + bit + n → 8 * c + o = 8 * buf.length)) ∧
    (∃ v c o, readBits buf be cur bit n = some (v, c, o) ∧
      (8 * c + o = 8 * cur + bit + n ↔ 8 * cur + bit + n ≤ 8 * buf.length) ∧
      (8 * buf.length < 8 * cur + bit + n → 8 * c + o = 8 * buf.length)) := by
  constructor
  · intro val
    cases hw : writeBits buf be cur bit val n with
    | none => exact absurd hw (writeBits_defined be val n buf cur bit hn)
    | some r =>
      obtain ⟨b, c, o⟩ := r
      obtain ⟨h1, _, h3, _⟩ := writeBits_spec be val n buf cur bit hb hw
      simp only [room] at h3
      exact ⟨b, c, o, rfl, h1, by omega, by omega⟩
  · have hdef : readBits buf be cur bit n ≠ none := by
      unfold readBits
      simp only
      split
      · simp
      · cases be
        · exact readLoop_le_defined buf n 0 cur bit 0 (by omega)
        · obtain ⟨v, c, o, e, _⟩ := readLoop_be buf n 0 cur bit 0 hb
          rw [e]; simp
    cases hw : readBits buf be cur bit n with
    | none => exact absurd hw hdef
    | some r =>
      obtain ⟨v, c, o⟩ := r
      obtain ⟨_, h3⟩ := readBits_pos be n buf cur bit hb hw
      simp only [room] at h3
      exact ⟨v, c, o, rfl, by omega, by omega⟩

end Cnd
