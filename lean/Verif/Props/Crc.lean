import Verif.CrcLemmas
import Verif.Props.Checks
/-
  C23 (a packet's own checksum verifies), C24 (single-byte corruption is detected), C25 (table path),
  C55 (bursts), C56 (textbook definition).
-/

namespace Cnd
variable {σ : Type}

/-! ### The instruction -/

/-- Parameters of a checksum instruction. -/
structure CrcPar where
  w32 : Bool
  poly : Word
  init : Word
  xorout : Word
  flags : Byte

def CrcPar.size (c : CrcPar) : Nat := if c.w32 then 4 else 2

/-- The operands are numbers of the instruction's width. -/
def CrcPar.ok (c : CrcPar) : Prop :=
  c.poly.toNat < 2 ^ (8 * c.size) ∧ c.init.toNat < 2 ^ (8 * c.size) ∧ c.xorout.toNat < 2 ^ (8 * c.size)

/-- The instruction as emitted (cnd_parser.c, @crc / @crc32 decorators). -/
def crcCode (c : CrcPar) : List Byte :=
  [if c.w32 then 0x49 else 0x44] ++ (leBytes c.size c.poly ++ (leBytes c.size c.init ++ (leBytes c.size c.xorout ++ [c.flags])))

def CrcPar.calc (c : CrcPar) (data : List Byte) : BitVec 32 :=
  calcCrc data (c.poly.setWidth 32) (c.init.setWidth 32) (c.xorout.setWidth 32) c.flags c.w32

theorem crc_dispatch (E : Env σ) (w32 : Bool) (s : St σ) :
    execOp E (if w32 then 0x49 else 0x44) s = handleCrc E w32 s := by cases w32 <;> rfl

theorem flags_cast (f : Byte) : (leWord [f]).setWidth 8 = f := by
  have key : ∀ f : Fin 256, (leWord [(BitVec.ofFin f : Byte)]).setWidth 8 = BitVec.ofFin f := by decide +kernel
  exact key f.toFin

attribute [local irreducible] calcCrc in
theorem crc_step {E : Env σ} {s : St σ} {c : CrcPar} (hok : c.ok) (hat : At E.prog s.ip (crcCode c))
    (hpos : s.fieldPos ≤ s.buf.length) :
    let p : St σ := { s with ip := s.ip + (crcCode c).length, cursor := s.fieldPos, bit := 0 }
    step E s = if s.fieldPos + c.size > s.buf.length then .stop .oob p
      else if E.enc then
        wrAt p p.cursor c.size ((c.calc (s.buf.take s.fieldPos)).setWidth 64) fun s =>
          .run { s with cursor := s.cursor + c.size }
      else rdAt p p.cursor c.size fun actual =>
        if actual ≠ truncB c.size ((c.calc (s.buf.take s.fieldPos)).setWidth 64) then .stop .crcMismatch p
        else .run { p with cursor := p.cursor + c.size } := by
  intro p
  obtain ⟨ho1, ho2, ho3⟩ := hok
  have hsz : (if c.w32 = true then 4 else 2) = c.size := rfl
  have h0 : 0 < c.size := by unfold CrcPar.size; split <;> omega
  have h8 : c.size ≤ 8 := by unfold CrcPar.size; split <;> omega
  have a1 : At E.prog (s.ip + 1) _ := hat.right
  have a2 := a1.right
  have a3 := a2.right
  have a4 := a3.right
  simp only [leBytes_length] at a2 a3 a4
  have hlen : s.ip + 1 + c.size + c.size + c.size + 1 = s.ip + (crcCode c).length := by
    simp [crcCode]; omega
  have hal : aligns (if c.w32 then 0x49 else 0x44) = true := by cases c.w32 <;> rfl
  rw [step_pre (op := if c.w32 then 0x49 else 0x44) hat, pre_aligned _ s hal]
  rw [crc_dispatch]
  unfold handleCrc fet
  have f1 := a1.left.fetch (leBytes_length _ _) h0
  have f2 := a2.left.fetch (leBytes_length _ _) h0
  have f3 := a3.left.fetch (leBytes_length _ _) h0
  have f4 := a4.fetch (n := 1) rfl (by omega)
  rw [leWord_leBytes_lt h8 ho1] at f1
  rw [leWord_leBytes_lt h8 ho2] at f2
  rw [leWord_leBytes_lt h8 ho3] at f3
  rw [hsz]
  simp only [f1, f2, f3, f4, flags_cast]
  have hsl : slice s.buf 0 s.fieldPos = some (s.buf.take s.fieldPos) :=
    slice_eq_some.2 ⟨by omega, by simp⟩
  rw [hsl, hlen]
  rfl

/-- C23, encoding: the checksum instruction appends a number; what the host says plays no part. -/
theorem C23_crc_encode (E : Env σ) (henc : E.enc = true) (s : St σ) (c : CrcPar) (hok : c.ok)
    (hat : At E.prog s.ip (crcCode c)) (hroom : s.fieldPos + c.size ≤ s.buf.length) :
    ∃ s1, step E s = .run s1 ∧
      FieldAt s.be s1.buf s.fieldPos c.size (c.calc (s.buf.take s.fieldPos)).toNat ∧ s1.host = s.host ∧
      s1.cursor = s.fieldPos + c.size ∧ s1.bit = 0 ∧ s1.ip = s.ip + (crcCode c).length ∧
      ∀ j, j < s.fieldPos ∨ s.fieldPos + c.size ≤ j → s1.buf[j]? = s.buf[j]? := by
  have hs := crc_step hok hat (by omega)
  dsimp only at hs
  rw [if_neg (by omega), henc, if_pos rfl] at hs
  have hl : ∀ w, s.fieldPos + (wrBytes s.be c.size w).length ≤ s.buf.length := by intro w; simpa using hroom
  have hst : ∀ w, store s.buf s.fieldPos (wrBytes s.be c.size w) =
      some (splice s.buf s.fieldPos (wrBytes s.be c.size w)) := fun w => store_eq_some.2 ⟨hl w, rfl⟩
  rw [hs]
  refine ⟨_, wrAt_ok (hst _) rfl, ?_, rfl, rfl, rfl, rfl, ?_⟩
  · have := fieldAt_store (hst ((c.calc (s.buf.take s.fieldPos)).setWidth 64))
    rw [BitVec.toNat_setWidth_of_le (by omega)] at this
    exact this
  intro j hj
  rcases hj with hj | hj
  · exact getElem?_splice_lt (hl _) hj
  · exact getElem?_splice_ge (hl _) (by simpa using hj)

theorem calc_lt (c : CrcPar) (data : List Byte) : (c.calc data).toNat < 2 ^ (8 * c.size) := by
  unfold CrcPar.calc CrcPar.size
  cases hw : c.w32
  · unfold calcCrc crcGeneric
    simp only [Bool.false_eq_true, false_and, if_false]
    rw [BitVec.toNat_and]
    exact Nat.lt_of_le_of_lt Nat.and_le_right (by decide)
  · simp only [if_true]
    exact BitVec.isLt _

/-- C23, decoding: accepted exactly when the packet holds the checksum of the bytes before it. -/
theorem C23_crc_decode (E : Env σ) (hdec : E.enc = false) (s : St σ) (c : CrcPar) (hok : c.ok)
    (hat : At E.prog s.ip (crcCode c)) (hroom : s.fieldPos + c.size ≤ s.buf.length) :
    (FieldAt s.be s.buf s.fieldPos c.size (c.calc (s.buf.take s.fieldPos)).toNat →
      ∃ s1, step E s = .run s1 ∧ s1.host = s.host ∧ s1.buf = s.buf ∧ s1.cursor = s.fieldPos + c.size ∧ s1.bit = 0 ∧
        s1.ip = s.ip + (crcCode c).length) ∧
    (¬ FieldAt s.be s.buf s.fieldPos c.size (c.calc (s.buf.take s.fieldPos)).toNat →
      ∃ s1, step E s = .stop .crcMismatch s1 ∧ s1.host = s.host ∧ s1.buf = s.buf) := by
  have h0 : 0 < c.size := by unfold CrcPar.size; split <;> omega
  have h8 : c.size ≤ 8 := by unfold CrcPar.size; split <;> omega
  have hs := crc_step hok hat (by omega)
  dsimp only at hs
  rw [if_neg (by omega), hdec, if_neg (by simp)] at hs
  obtain ⟨w, hw, hwlt⟩ := fieldAt_exists s.be s.buf s.fieldPos c.size h0 h8 hroom
  have hc := calc_lt c (s.buf.take s.fieldPos)
  generalize hk : c.calc (s.buf.take s.fieldPos) = k at *
  have hk64 : (k.setWidth 64 : Word).toNat = k.toNat := BitVec.toNat_setWidth_of_le (by omega)
  have htr : truncB c.size (k.setWidth 64) = k.setWidth 64 := truncB_of_lt _ _ (by rw [hk64]; exact hc)
  replace hs := hs.trans (rdAt_field h0 h8 hwlt hw rfl)
  rw [htr] at hs
  constructor
  · intro hf
    rw [← hk64] at hf
    have e : w = k.setWidth 64 := fieldAt_unique h0 h8 hwlt (by rw [hk64]; exact hc) hw hf
    rw [if_neg (by simp [e])] at hs
    exact ⟨_, hs, rfl, rfl, rfl, rfl, rfl⟩
  · intro hf
    rw [if_pos (by intro e; apply hf; rw [← hk64, ← e]; exact hw)] at hs
    exact ⟨_, hs, rfl, rfl⟩

/-- C23: run the instruction while encoding; a decoder at the same place of a packet with the same bytes up to
and including the checksum accepts, and one whose stored checksum is any other number reports the CRC error. -/
theorem C23_crc_roundtrip {τ : Type} (E : Env σ) (D : Env τ) (henc : E.enc = true) (hdec : D.enc = false)
    (s s1 : St σ) (d : St τ) (c : CrcPar) (hok : c.ok) (hat : At E.prog s.ip (crcCode c))
    (hatD : At D.prog d.ip (crcCode c)) (hroom : s.fieldPos + c.size ≤ s.buf.length) (hs : step E s = .run s1)
    (hpos : d.fieldPos = s.fieldPos) (hbe : d.be = s.be) (hlen : s.fieldPos + c.size ≤ d.buf.length)
    (hpre : ∀ j, j < s.fieldPos → d.buf[j]? = s1.buf[j]?) :
    ((∀ j, s.fieldPos ≤ j → j < s.fieldPos + c.size → d.buf[j]? = s1.buf[j]?) →
      ∃ d1, step D d = .run d1 ∧ d1.host = d.host ∧ d1.cursor = s1.cursor ∧ d1.bit = s1.bit) ∧
    ((∃ j, s.fieldPos ≤ j ∧ j < s.fieldPos + c.size ∧ d.buf[j]? ≠ s1.buf[j]?) →
      ∃ d1, step D d = .stop .crcMismatch d1) := by
  obtain ⟨s1', h1, h2, h3, h4, h5, h6, h7⟩ := C23_crc_encode E henc s c hok hat hroom
  rw [hs] at h1
  injection h1 with h1
  subst h1
  have hD := C23_crc_decode D hdec d c hok hatD (by omega)
  have hdata : d.buf.take d.fieldPos = s.buf.take s.fieldPos := by
    rw [hpos]
    apply List.ext_getElem?
    intro i
    by_cases hi : i < s.fieldPos
    · rw [List.getElem?_take_of_lt hi, List.getElem?_take_of_lt hi, hpre i hi, h7 i (Or.inl hi)]
    · rw [List.getElem?_take_eq_none (by omega), List.getElem?_take_eq_none (by omega)]
  rw [hdata, hpos, hbe] at hD
  constructor
  · intro hj
    obtain ⟨d1, e1, e2, e3, e4, e5, _⟩ := hD.1 (by
      intro i hi
      have := h2 i hi
      rw [← hj _ (by split <;> omega) (by split <;> omega)] at this
      exact this)
    exact ⟨d1, e1, e2, by rw [e4, h4], by rw [e5, h5]⟩
  · rintro ⟨j, hj1, hj2, hne⟩
    obtain ⟨d1, e1, _⟩ := hD.2 (by
      intro hf
      apply hne
      by_cases hb : s.be = true
      · have a := hf (s.fieldPos + c.size - 1 - j) (by omega)
        have b := h2 (s.fieldPos + c.size - 1 - j) (by omega)
        rw [hb] at a b
        simp only [if_true] at a b
        have e : s.fieldPos + (c.size - 1 - (s.fieldPos + c.size - 1 - j)) = j := by omega
        rw [e] at a b
        rw [a, b]
      · rw [Bool.not_eq_true] at hb
        have a := hf (j - s.fieldPos) (by omega)
        have b := h2 (j - s.fieldPos) (by omega)
        rw [hb] at a b
        simp only [Bool.false_eq_true, if_false] at a b
        have e : s.fieldPos + (j - s.fieldPos) = j := by omega
        rw [e] at a b
        rw [a, b])
    exact ⟨d1, e1⟩

/-- CCITT-style checksum of a two-byte packet, both modes; then a wrong checksum, then a corrupted packet. -/
example :
    let c : CrcPar := ⟨false, 0x1021, 0xFFFF, 0, 0⟩
    let prog := [(0x11 : Byte), 1, 0] ++ crcCode c
    Demo.obs (exec (Demo.env prog true) 5 (Demo.start [0, 0, 0, 0] { inp := [0x3231] })) =
      .stopped .ok [0x31, 0x32, 0xBA, 0x3D] 4 0 { log := [(1, 0x11, 0x3231)] } ∧
    Demo.obs (exec (Demo.env prog false) 5 (Demo.start [0x31, 0x32, 0xBA, 0x3D] {})) =
      .stopped .ok [0x31, 0x32, 0xBA, 0x3D] 4 0 { log := [(1, 0x11, 0x3231)] } ∧
    Demo.obs (exec (Demo.env prog false) 5 (Demo.start [0x31, 0x32, 0xBB, 0x3D] {})) =
      .stopped .crcMismatch [0x31, 0x32, 0xBB, 0x3D] 2 0 { log := [(1, 0x11, 0x3231)] } ∧
    Demo.obs (exec (Demo.env prog false) 5 (Demo.start [0x31, 0x33, 0xBA, 0x3D] {})) =
      .stopped .crcMismatch [0x31, 0x33, 0xBA, 0x3D] 2 0 { log := [(1, 0x11, 0x3331)] } := by
  decide +kernel

/-! ### The table-driven path -/

/-- The parameter sets for which calc_crc takes the table-driven path. -/
def CrcPar.fast (c : CrcPar) : Bool :=
  c.w32 && decide (c.poly.setWidth 32 = (0x04C11DB7 : BitVec 32)) && c.flags.getLsbD 0 && c.flags.getLsbD 1

/-- The table-driven loop computes what the bitwise loop computes from the bit-reversed initial value. -/
theorem crcFast_eq (data : List Byte) (init xorout : BitVec 32) :
    crcFast data init xorout = crcGeneric data 0x04C11DB7 (reflect init 32) xorout true true true := by
  have := fold_reflect data (reflect init 32)
  rw [reflect_reflect] at this
  unfold crcGeneric
  simp only [if_true]
  rw [this, show (0xFFFFFFFF : BitVec 32) = BitVec.allOnes 32 from rfl, BitVec.and_allOnes]
  rfl

/-- Every checksum is one of the bitwise algorithm. -/
theorem calc_generic (c : CrcPar) (data : List Byte) :
    c.calc data = crcGeneric data (c.poly.setWidth 32)
      (if c.fast then reflect (c.init.setWidth 32) 32 else c.init.setWidth 32) (c.xorout.setWidth 32)
      (c.flags.getLsbD 0) (c.flags.getLsbD 1) c.w32 := by
  unfold CrcPar.calc calcCrc
  dsimp only
  by_cases h : c.w32 = true ∧ c.poly.setWidth 32 = (0x04C11DB7 : BitVec 32) ∧ c.flags.getLsbD 0 = true ∧ c.flags.getLsbD 1 = true
  · have hf : c.fast = true := by
      unfold CrcPar.fast
      rw [h.1, h.2.2.1, h.2.2.2, decide_eq_true h.2.1]
      rfl
    rw [if_pos h, if_pos hf, crcFast_eq, h.1, h.2.1, h.2.2.1, h.2.2.2]
  · have hf : ¬ c.fast = true := by
      unfold CrcPar.fast
      simpa [and_assoc] using h
    rw [if_neg h, if_neg hf]

/-- C25 as stated is false: with initial value 1 the two algorithms differ already on the empty message. -/
theorem C25_false : ∃ (data : List Byte) (init xorout : BitVec 32),
    calcCrc data 0x04C11DB7 init xorout 3 true ≠ crcGeneric data 0x04C11DB7 init xorout true true true :=
  ⟨[], 1, 0, by decide +kernel⟩

/-- C25, what holds: for every message and every xor-out the two algorithms agree exactly when the initial value
reads the same in both directions (as the customary 0xFFFFFFFF and 0 do). Missing from the full statement: all
other initial values, for which it is false. -/
theorem C25_table_partial (data : List Byte) (init xorout : BitVec 32) (flags : Byte) (hin : flags.getLsbD 0 = true)
    (hout : flags.getLsbD 1 = true) :
    calcCrc data 0x04C11DB7 init xorout flags true = crcGeneric data 0x04C11DB7 init xorout true true true ↔
      ∀ i, i < 32 → init.getLsbD i = init.getLsbD (31 - i) := by
  have h1 : calcCrc data 0x04C11DB7 init xorout flags true =
      crcGeneric data 0x04C11DB7 (reflect init 32) xorout true true true := by
    unfold calcCrc
    dsimp only
    rw [if_pos ⟨rfl, rfl, hin, hout⟩, crcFast_eq]
  rw [h1]
  constructor
  · intro h i hi
    have h2 := crcFold_inj (w32 := true) (by decide) data (crcFinish_inj (w32 := true) (refout := true) h)
    have := h2 i hi
    rw [getLsbD_reflect _ _ (by omega)] at this
    rw [← this]
    simp [hi]
  · intro h
    have : reflect init 32 = init := by
      apply BitVec.eq_of_getLsbD_eq
      intro i hi
      rw [getLsbD_reflect _ _ (by omega), h i hi]
      simp [hi]
    rw [this]

/-- The customary initial value satisfies the condition; 1 does not. The check value of "123456789". -/
example : (∀ i, i < 32 → (0xFFFFFFFF : BitVec 32).getLsbD i = (0xFFFFFFFF : BitVec 32).getLsbD (31 - i)) ∧
    ¬ (∀ i, i < 32 → (1 : BitVec 32).getLsbD i = (1 : BitVec 32).getLsbD (31 - i)) ∧
    calcCrc [0x31, 0x32, 0x33, 0x34, 0x35, 0x36, 0x37, 0x38, 0x39] 0x04C11DB7 0xFFFFFFFF 0xFFFFFFFF 3 true = 0xCBF43926 := by
  decide +kernel

/-! ### Corruption -/

/-- C55: two messages that differ only within a window of at most two bytes (CRC-16) or four bytes (CRC-32) have
different checksums, whatever comes before and after the window. -/
theorem C55_burst (c : CrcPar) (hodd : c.poly.getLsbD 0 = true) (before a b after : List Byte)
    (hl : a.length = b.length) (hw : a.length ≤ c.size) (hne : a ≠ b) :
    c.calc (before ++ a ++ after) ≠ c.calc (before ++ b ++ after) := by
  intro h
  rw [calc_generic, calc_generic] at h
  have hodd' : (c.poly.setWidth 32 : BitVec 32).getLsbD 0 = true := by rw [BitVec.getLsbD_setWidth, hodd]; rfl
  have h1 := crcFinish_inj h
  simp only [List.foldl_append] at h1
  have h2 := crcFold_inj hodd' after h1
  refine hne ((burst_back hodd' a b hl ?_ h2).2 (fun _ _ => rfl))
  unfold crcWidth
  unfold CrcPar.size at hw
  split <;> simp_all <;> omega

/-- C24: changing exactly one byte of a message changes its checksum. -/
theorem C24_one_byte (c : CrcPar) (hodd : c.poly.getLsbD 0 = true) (data : List Byte) (i : Nat) (hi : i < data.length)
    (x : Byte) (hx : data[i]? ≠ some x) : c.calc (data.set i x) ≠ c.calc data := by
  have e1 : data = data.take i ++ [data[i]] ++ data.drop (i + 1) := by simp
  have e2 : data.set i x = data.take i ++ [x] ++ data.drop (i + 1) := by
    rw [List.set_eq_take_append_cons_drop, if_pos hi]; simp
  rw [e2]
  intro h
  refine C55_burst c hodd (data.take i) [x] [data[i]] (data.drop (i + 1)) rfl
    (by unfold CrcPar.size; split <;> simp) ?_ (by rw [h, ← e1])
  intro he
  apply hx
  rw [List.getElem?_eq_getElem hi]
  injection he with he
  rw [he]

/-- C24 and C55 in the decoder: a packet the checksum instruction accepts is rejected with the CRC error if the
protected bytes are changed within a window as wide as the checksum. -/
theorem C24_corruption_rejected (D : Env σ) (hdec : D.enc = false) (d d' d1 : St σ) (c : CrcPar) (hok : c.ok)
    (hodd : c.poly.getLsbD 0 = true) (hat : At D.prog d.ip (crcCode c)) (hip : d'.ip = d.ip)
    (before a b after rest : List Byte) (hl : a.length = b.length) (hw : a.length ≤ c.size) (hne : a ≠ b)
    (hbuf : d.buf = before ++ a ++ after ++ rest) (hbuf' : d'.buf = before ++ b ++ after ++ rest)
    (hpos : d.fieldPos = (before ++ a ++ after).length) (hpos' : d'.fieldPos = d.fieldPos) (hbe : d'.be = d.be)
    (hs : step D d = .run d1) : ∃ d2, step D d' = .stop .crcMismatch d2 := by
  have hroom : d.fieldPos + c.size ≤ d.buf.length := by
    apply Decidable.byContradiction
    intro hc
    have := crc_step hok hat (by rw [hpos, hbuf]; simp)
    dsimp only at this
    rw [if_pos (by omega), hs] at this
    cases this
  have hd := C23_crc_decode D hdec d c hok hat hroom
  have hd' := C23_crc_decode D hdec d' c hok (by rw [hip]; exact hat)
    (by rw [hpos', hbuf']; rw [hbuf] at hroom; simp at hroom ⊢; omega)
  have hf : FieldAt d.be d.buf d.fieldPos c.size (c.calc (d.buf.take d.fieldPos)).toNat := by
    apply Classical.byContradiction
    intro hn
    obtain ⟨s1, e, _⟩ := hd.2 hn
    rw [hs] at e
    cases e
  have hdata : d.buf.take d.fieldPos = before ++ a ++ after := by rw [hpos, hbuf, List.take_left]
  have hdata' : d'.buf.take d'.fieldPos = before ++ b ++ after := by
    rw [hpos', hpos, hbuf']
    rw [show (before ++ a ++ after).length = (before ++ b ++ after).length by simp [hl], List.take_left]
  have hcd := C55_burst c hodd before a b after hl hw hne
  rw [hdata] at hf
  obtain ⟨d2, e, _⟩ := hd'.2 (by
    rw [hdata', hbe, hpos']
    intro hf'
    have hf2 : FieldAt d.be d.buf d.fieldPos c.size (c.calc (before ++ b ++ after)).toNat := by
      intro i hi
      have := hf' i hi
      rw [← this, hbuf, hbuf']
      generalize hq : (if d.be = true then c.size - 1 - i else i) = q
      rw [hpos]
      rw [List.getElem?_append_right (by omega), List.getElem?_append_right (by simp [hl])]
      simp [hl]
    have h0 : 0 < c.size := by unfold CrcPar.size; split <;> omega
    have h8 : c.size ≤ 8 := by unfold CrcPar.size; split <;> omega
    have k1 : ∀ k : BitVec 32, (k.setWidth 64 : Word).toNat = k.toNat := fun k => BitVec.toNat_setWidth_of_le (by omega)
    rw [← k1] at hf hf2
    have := fieldAt_unique h0 h8 (by rw [k1]; exact calc_lt c _) (by rw [k1]; exact calc_lt c _) hf hf2
    apply hcd
    have := congrArg BitVec.toNat this
    rw [k1, k1] at this
    exact BitVec.eq_of_toNat_eq this)
  exact ⟨d2, e⟩

/-- With an even polynomial a one-byte change can go unnoticed, so the hypothesis matters. -/
example : (⟨false, 0x8000, 0, 0, 0⟩ : CrcPar).calc [3, 0, 0] = (⟨false, 0x8000, 0, 0, 0⟩ : CrcPar).calc [0, 0, 0] := by
  decide +kernel

/-- The CCITT polynomial is odd; a two-byte burst is seen. -/
example : let c : CrcPar := ⟨false, 0x1021, 0xFFFF, 0, 0⟩
    c.poly.getLsbD 0 = true ∧ c.calc [7, 1, 2, 9] = 0x1596 ∧ c.calc [7, 3, 4, 9] = 0xD150 := by
  decide +kernel

/-! ### The textbook definition -/

/-- A number of `w` bits read backwards. -/
def revBits (w r : Nat) : Nat := (List.range w).foldl (fun acc i => 2 * acc + (r.testBit i).toNat) 0

/-- The checksum as defined in the literature: polynomial division of the message bits, one at a time. -/
def textbookCrc (w poly init xorout : Nat) (refin refout : Bool) (data : List Byte) : Nat :=
  let r := (data.flatMap (byteBits refin)).foldl (serialStep w poly) init
  (if refout then revBits w r else r) ^^^ xorout

theorem testBit_revBits (w r j : Nat) : (revBits w r).testBit j = (decide (j < w) && r.testBit (w - 1 - j)) := by
  unfold revBits
  induction w generalizing j with
  | zero => simp
  | succ w ih =>
    rw [List.range_succ, List.foldl_append]
    simp only [List.foldl_cons, List.foldl_nil]
    cases j with
    | zero =>
      rw [Nat.testBit_zero]
      have e : w + 1 - 1 - 0 = w := by omega
      rw [e]
      cases r.testBit w <;> simp [Nat.add_mod]
    | succ j =>
      rw [Nat.testBit_succ]
      have : (2 * (List.range w).foldl (fun acc i => 2 * acc + (r.testBit i).toNat) 0 + (r.testBit w).toNat) / 2 =
          (List.range w).foldl (fun acc i => 2 * acc + (r.testBit i).toNat) 0 := by
        cases r.testBit w <;> simp <;> omega
      rw [this, ih]
      have e : w + 1 - 1 - (j + 1) = w - 1 - j := by omega
      rw [e]
      by_cases hj : j < w
      · simp [hj]
      · simp [hj]

theorem foldl_serial_lt (w poly : Nat) (hp : poly < 2 ^ w) (bits : List Bool) (r : Nat) (hr : r < 2 ^ w) :
    bits.foldl (serialStep w poly) r < 2 ^ w := by
  induction bits generalizing r with
  | nil => exact hr
  | cons b bs ih => exact ih _ (serialStep_lt w poly r b hp)

/-- The initial value the code works with: the table-driven path takes it with its bits reversed. -/
def CrcPar.start (c : CrcPar) : Nat := if c.fast then revBits 32 c.init.toNat else c.init.toNat

/-- C56, for every initial value: the checksum is the textbook one of the initial value the code works with. -/
theorem C56_textbook (c : CrcPar) (hok : c.ok) (data : List Byte) :
    (c.calc data).toNat = textbookCrc (8 * c.size) c.poly.toNat c.start c.xorout.toNat (c.flags.getLsbD 0)
      (c.flags.getLsbD 1) data := by
  obtain ⟨ho1, ho2, ho3⟩ := hok
  have hsz : 8 * c.size = crcWidth c.w32 := by unfold CrcPar.size crcWidth; split <;> omega
  have hw32 : crcWidth c.w32 ≤ 32 := by unfold crcWidth; split <;> omega
  rw [hsz] at ho1 ho2 ho3 ⊢
  have hle : (2 : Nat) ^ crcWidth c.w32 ≤ 2 ^ 32 := Nat.pow_le_pow_right (by omega) hw32
  have hlow : ∀ w : Word, w.toNat < 2 ^ crcWidth c.w32 → (w.setWidth 32 : BitVec 32).toNat = w.toNat := by
    intro w hw
    rw [BitVec.toNat_setWidth]
    exact Nat.mod_eq_of_lt (by omega)
  have hstart : ∀ i, i < 32 → (if c.fast then reflect (c.init.setWidth 32) 32 else c.init.setWidth 32 : BitVec 32).getLsbD i =
      c.start.testBit i := by
    intro i hi
    unfold CrcPar.start
    split
    · rw [getLsbD_reflect _ _ (by omega), testBit_revBits]
      unfold BitVec.getLsbD
      rw [hlow _ ho2]
    · unfold BitVec.getLsbD
      rw [hlow _ ho2]
  have hstartlt : c.start < 2 ^ crcWidth c.w32 := by
    unfold CrcPar.start
    split
    · rename_i hf
      have hw : c.w32 = true := by
        cases h : c.w32 with
        | true => rfl
        | false => simp [CrcPar.fast, h] at hf
      have : crcWidth c.w32 = 32 := by rw [hw]; rfl
      rw [this]
      apply Nat.lt_pow_two_of_testBit
      intro i hi
      rw [testBit_revBits]
      simp; omega
    · exact ho2
  have hlt := calc_lt c data
  rw [hsz] at hlt
  have hrev : ∀ r, revBits (crcWidth c.w32) r < 2 ^ crcWidth c.w32 := by
    intro r
    apply Nat.lt_pow_two_of_testBit
    intro i hi
    rw [testBit_revBits]
    simp; omega
  have hser := foldl_serial_lt (crcWidth c.w32) c.poly.toNat ho1 (data.flatMap (byteBits (c.flags.getLsbD 0))) c.start hstartlt
  apply Nat.eq_of_testBit_eq
  intro i
  by_cases hi : i < crcWidth c.w32
  · have hfold := crcFold_serial c.w32 (c.flags.getLsbD 0) (c.poly.setWidth 32) data
      (if c.fast then reflect (c.init.setWidth 32) 32 else c.init.setWidth 32) c.start (fun i hi => hstart i (by omega))
    rw [hlow _ ho1] at hfold
    have : (c.calc data).toNat.testBit i = (c.calc data).getLsbD i := rfl
    rw [this, calc_generic]
    unfold crcGeneric textbookCrc
    dsimp only
    have hmask : (if c.w32 then (0xFFFFFFFF : BitVec 32) else 0xFFFF).getLsbD i = true := by
      unfold crcWidth at hi
      cases hw : c.w32
      · rw [hw] at hi
        simp only [Bool.false_eq_true, if_false] at hi ⊢
        rw [ffff_bit]; simpa using hi
      · rw [hw] at hi
        simp only [if_true] at hi ⊢
        have key : ∀ j : Fin 32, (0xFFFFFFFF : BitVec 32).getLsbD j.val = true := by decide
        exact key ⟨i, hi⟩
    rw [BitVec.getLsbD_and, hmask, Bool.and_true, BitVec.getLsbD_xor, Nat.testBit_xor]
    have hx : (c.xorout.setWidth 32 : BitVec 32).getLsbD i = c.xorout.toNat.testBit i := by
      unfold BitVec.getLsbD; rw [hlow _ ho3]
    rw [hx]
    congr 1
    cases hro : c.flags.getLsbD 1
    · simp only [Bool.false_eq_true, if_false]
      exact hfold i hi
    · simp only [if_true]
      rw [show (if c.w32 = true then 32 else 16) = crcWidth c.w32 from rfl, getLsbD_reflect _ _ hw32, testBit_revBits,
        hfold _ (by omega)]
  · rw [Nat.testBit_lt_two_pow (Nat.lt_of_lt_of_le hlt (Nat.pow_le_pow_right (by omega) (by omega)))]
    symm
    apply Nat.testBit_lt_two_pow
    refine Nat.lt_of_lt_of_le (m := 2 ^ crcWidth c.w32) ?_ (Nat.pow_le_pow_right (by omega) (by omega))
    unfold textbookCrc
    dsimp only
    apply Nat.xor_lt_two_pow _ ho3
    split
    · exact hrev _
    · exact hser

/-- C56: the checksum is the textbook one, provided the table-driven path is not used with an initial value that
changes when its bits are reversed. -/
theorem C56_textbook_partial (c : CrcPar) (hok : c.ok) (hfast : c.fast = true → revBits 32 c.init.toNat = c.init.toNat)
    (data : List Byte) :
    (c.calc data).toNat = textbookCrc (8 * c.size) c.poly.toNat c.init.toNat c.xorout.toNat (c.flags.getLsbD 0)
      (c.flags.getLsbD 1) data := by
  rw [C56_textbook c hok]
  unfold CrcPar.start
  split
  · rename_i hf; rw [hfast hf]
  · rfl

/-- C56 in the encoder: the bytes appended to the packet are the textbook checksum of the bytes before them. -/
theorem C56_encode_partial (E : Env σ) (henc : E.enc = true) (s : St σ) (c : CrcPar) (hok : c.ok)
    (hfast : c.fast = true → revBits 32 c.init.toNat = c.init.toNat)
    (hat : At E.prog s.ip (crcCode c)) (hroom : s.fieldPos + c.size ≤ s.buf.length) :
    ∃ s1, step E s = .run s1 ∧
      FieldAt s.be s1.buf s.fieldPos c.size
        (textbookCrc (8 * c.size) c.poly.toNat c.init.toNat c.xorout.toNat (c.flags.getLsbD 0) (c.flags.getLsbD 1)
          (s.buf.take s.fieldPos)) := by
  obtain ⟨s1, h1, h2, _⟩ := C23_crc_encode E henc s c hok hat hroom
  exact ⟨s1, h1, by rw [← C56_textbook_partial c hok hfast]; exact h2⟩

/-- Published check values of "123456789": CRC-16/CCITT-FALSE, CRC-16/ARC, CRC-32/BZIP2. -/
example :
    let m : List Byte := [0x31, 0x32, 0x33, 0x34, 0x35, 0x36, 0x37, 0x38, 0x39]
    textbookCrc 16 0x1021 0xFFFF 0 false false m = 0x29B1 ∧ textbookCrc 16 0x8005 0 0 true true m = 0xBB3D ∧
    textbookCrc 32 0x04C11DB7 0xFFFFFFFF 0xFFFFFFFF false false m = 0xFC891918 ∧
    textbookCrc 32 0x04C11DB7 0xFFFFFFFF 0xFFFFFFFF true true m = 0xCBF43926 := by
  decide +kernel

end Cnd
