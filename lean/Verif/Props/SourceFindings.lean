/-
  C60: what a source text says about a field is in the image.
-/
import Verif.Props.SourceMain
import Verif.Props.Checks
import Verif.Props.Names

namespace Cnd

/-! ### Ranges -/

/-- A literal with an optional minus sign. -/
def litText (x : Bool × Numeral) : List Byte := if x.1 then 0x2D :: x.2.text else x.2.text
def litVal (x : Bool × Numeral) : Int := if x.1 then -(x.2.value : Int) else x.2.value

/-- A number is a value of an integer type. -/
def Ty.has (t : Ty) (x : Int) : Prop :=
  if t.signed then -(2 : Int) ^ (8 * t.size - 1) ≤ x ∧ x < (2 : Int) ^ (8 * t.size - 1) else 0 ≤ x ∧ x < (2 : Int) ^ (8 * t.size)

/-- The type as the compiler's table has it. -/
def Ty.nty (t : Ty) : NTy := ⟨if t.signed then .signed else .unsigned, t.size, t.tag⟩

theorem nty_mem (t : Ty) : t.nty ∈ numTypes.map (·.2) := by cases t <;> decide

theorem bound_word (t : Ty) (a : Word) (x : Int) (hx : t.has x) (h : (a.toNat : Int) = x ∨ a.toInt = x) :
    ∃ a' : Word, a'.toNat < 2 ^ (8 * t.size) ∧ leBytes t.size a' = leBytes t.size a ∧ t.val a'.toNat = x := by
  refine ⟨BitVec.ofNat 64 (a.toNat % 256 ^ t.size), ?_, ?_, ?_⟩
  · rw [BitVec.toNat_ofNat, show 2 ^ (8 * t.size) = 256 ^ t.size by rw [Nat.pow_mul]]
    exact Nat.lt_of_le_of_lt (Nat.mod_le _ _) (Nat.mod_lt _ (Nat.pow_pos (by decide)))
  · refine leBytes_congr _ _ _ ?_
    have : a.toNat % 256 ^ t.size < 2 ^ 64 := Nat.lt_of_le_of_lt (Nat.mod_le _ _) a.isLt
    rw [BitVec.toNat_ofNat, Nat.mod_eq_of_lt this, Nat.mod_mod]
  · have hl := a.isLt
    have : a.toNat % 256 ^ t.size < 2 ^ 64 := Nat.lt_of_le_of_lt (Nat.mod_le _ _) a.isLt
    rw [BitVec.toNat_ofNat, Nat.mod_eq_of_lt this]
    rw [BitVec.toInt_eq_toNat_cond] at h
    cases t <;> simp [Ty.has, Ty.signed, Ty.size] at hx <;> simp [Ty.val, Ty.signed, Ty.size] <;> omega

theorem lit_signed (x : Bool × Numeral) (hk : x.2.ok) (h1 : -(2 : Int) ^ 63 < litVal x) (h2 : litVal x < (2 : Int) ^ 63) :
    ∃ r, parseI64 (litText x) = some r ∧ r.toInt = litVal x := by
  obtain ⟨b, n⟩ := x
  cases b
  · simp only [litVal, Bool.false_eq_true, if_false] at h1 h2
    obtain ⟨r, e1, _, e3⟩ := C46_plain n hk (by omega)
    exact ⟨r, e1, e3 (by omega)⟩
  · simp only [litVal, if_true] at h1 h2
    exact (C46_signed_partial n hk).2 (by omega)

/-- The bound of a range, as a word, with the meaning of the literal. -/
theorem range_bound (C : Ctx) (t : Ty) (lo hi : Bool × Numeral) (hk : lo.2.ok ∧ hi.2.ok) (hlo : t.has (litVal lo)) (hhi : t.has (litVal hi))
    (hle : litVal lo ≤ litVal hi) (hs : t.signed = false → lo.1 = false ∧ hi.1 = false) (hm : litVal lo ≠ -(2 : Int) ^ 63 ∧ litVal hi ≠ -(2 : Int) ^ 63) :
    ∃ a b : Word, rangeGen C t.nty (some (tNum (litText lo), tNum (litText hi))) = some ([0x42, t.tag] ++ leBytes t.size a ++ leBytes t.size b) ∧
      ((a.toNat : Int) = litVal lo ∨ a.toInt = litVal lo) ∧ ((b.toNat : Int) = litVal hi ∨ b.toInt = litVal hi) := by
  by_cases hS : t.signed = true
  · have hb : ∀ x : Bool × Numeral, t.has (litVal x) → litVal x ≠ -(2 : Int) ^ 63 → -(2 : Int) ^ 63 < litVal x ∧ litVal x < (2 : Int) ^ 63 := by
      intro x hx hn
      cases t <;> simp [Ty.has, Ty.signed, Ty.size] at hx hS <;> omega
    obtain ⟨a, ha, ha'⟩ := lit_signed lo hk.1 (hb lo hlo hm.1).1 (hb lo hlo hm.1).2
    obtain ⟨b, hb1, hb'⟩ := lit_signed hi hk.2 (hb hi hhi hm.2).1 (hb hi hhi hm.2).2
    refine ⟨a, b, ?_, .inr ha', .inr hb'⟩
    simp only [rangeGen, Ty.nty, hS, if_true, tNum, tk, ha, hb1]
    rw [← ha', ← hb'] at hle
    simp [req, hle]
  · have hS' : t.signed = false := by simpa using hS
    obtain ⟨h1, h2⟩ := hs hS'
    obtain ⟨_, lo⟩ := lo
    obtain ⟨_, hi⟩ := hi
    dsimp only at h1 h2 hk
    subst h1 h2
    simp only [litVal, Bool.false_eq_true, if_false] at hlo hhi hle hm
    by_cases h8 : t.size < 8
    · have hb : ∀ n : Numeral, t.has n.value → n.value < 2 ^ 32 := by
        intro n hx
        cases t <;> simp [Ty.has, Ty.signed, Ty.size] at hx hS h8 <;> omega
      refine ⟨BitVec.ofNat 64 (parseU32 lo.text).toNat, BitVec.ofNat 64 (parseU32 hi.text).toNat, ?_, .inl ?_, .inl ?_⟩
      · simp only [rangeGen, Ty.nty, hS', Bool.false_eq_true, if_false, tNum, tk, litText, h8, if_true]
        have : (parseU32 lo.text).toNat ≤ (parseU32 hi.text).toNat := by
          rw [C46_u32 lo hk.1 (hb lo hlo), C46_u32 hi hk.2 (hb hi hhi)]
          omega
        simp [req, this]
      · rw [C46_u32 lo hk.1 (hb lo hlo), BitVec.toNat_ofNat, Nat.mod_eq_of_lt (by have := hb lo hlo; omega)]
        simp [litVal]
      · rw [C46_u32 hi hk.2 (hb hi hhi), BitVec.toNat_ofNat, Nat.mod_eq_of_lt (by have := hb hi hhi; omega)]
        simp [litVal]
    · have hb : ∀ n : Numeral, t.has n.value → n.value < 2 ^ 64 := by
        intro n hx
        cases t <;> simp [Ty.has, Ty.signed, Ty.size] at hx hS h8 <;> omega
      obtain ⟨a, ha, ha', _⟩ := C46_plain lo hk.1 (hb lo hlo)
      obtain ⟨b, hb1, hb', _⟩ := C46_plain hi hk.2 (hb hi hhi)
      refine ⟨a, b, ?_, .inl (by simp [litVal, ha']), .inl (by simp [litVal, hb'])⟩
      simp only [rangeGen, Ty.nty, hS', Bool.false_eq_true, if_false, tNum, tk, litText, h8, ha, hb1]
      have : a.toNat ≤ b.toNat := by omega
      simp [req, this]

/-- **C60 for ranges.** If the bounds of `@range(lo, hi)` are values of the field's integer type (and not −2^63), then the code
in the image lets pass exactly the fields from `lo` to `hi`, as the literals read. -/
theorem C60_range_partial (C : Ctx) (t : Ty) (lo hi : Bool × Numeral) (hk : lo.2.ok ∧ hi.2.ok) (hlo : t.has (litVal lo)) (hhi : t.has (litVal hi))
    (hle : litVal lo ≤ litVal hi) (hs : t.signed = false → lo.1 = false ∧ hi.1 = false) (hm : litVal lo ≠ -(2 : Int) ^ 63 ∧ litVal hi ≠ -(2 : Int) ^ 63) :
    ∃ c, rangeGen C t.nty (some (tNum (litText lo), tNum (litText hi))) = some c ∧
      ∀ {σ : Type} (E : Env σ) (s : St σ) (v : Word), At E.prog s.ip c → v.toNat < 2 ^ (8 * t.size) → t.size ≤ s.cursor →
        FieldAt s.be s.buf (s.cursor - t.size) t.size v.toNat →
        step E s = if litVal lo ≤ t.val v.toNat ∧ t.val v.toNat ≤ litVal hi then .run { s with ip := s.ip + c.length }
          else .stop .validation { s with ip := s.ip + c.length } := by
  obtain ⟨a, b, e, ha, hb⟩ := range_bound C t lo hi hk hlo hhi hle hs hm
  obtain ⟨a', a1, a2, a3⟩ := bound_word t a _ hlo ha
  obtain ⟨b', b1, b2, b3⟩ := bound_word t b _ hhi hb
  rw [← a2, ← b2] at e
  refine ⟨_, e, ?_⟩
  intro σ E s v hat hv hc hf
  rw [List.append_assoc] at hat
  have := C20_range_check E s t a' b' v hat a1 b1 hv hc hf
  rw [this, a3, b3]
  have el : ([0x42, t.tag] ++ leBytes t.size a' ++ leBytes t.size b').length = 2 + t.size + t.size := by simp; omega
  rw [el, ← Nat.add_assoc, ← Nat.add_assoc]

/-- Such a range: −1 to 0x10 for i16. -/
example (C : Ctx) : ∃ c, rangeGen C Ty.i16.nty (some (tNum (litText (true, .dec [1])), tNum (litText (false, .hex false [(false, 1), (false, 0)])))) = some c ∧
    litText (true, .dec [1]) = [0x2D, 0x31] ∧ litVal (false, .hex false [(false, 1), (false, 0)]) = 16 := by
  obtain ⟨c, h, _⟩ := C60_range_partial C .i16 (true, .dec [1]) (false, .hex false [(false, 1), (false, 0)])
    ⟨⟨by simp, by decide⟩, ⟨by simp, by decide⟩⟩ (by unfold Ty.has; decide) (by unfold Ty.has; decide) (by decide) (by decide) (by decide)
  exact ⟨c, h, by decide, by decide⟩

/-! ### What is lost -/

/-- Both texts are accepted, with one and the same image. -/
def sameImage (a b : String) : Prop := ∃ bs, compile demoP 2000 (word a) = .image bs ∧ compile demoP 2000 (word b) = .image bs

def sameImageB (a b : String) : Bool :=
  match compile demoP 2000 (word a) with
  | .image bs => compile demoP 2000 (word b) = .image bs
  | _ => false

theorem sameImage_of {a b : String} (h : sameImageB a b = true) : sameImage a b := by
  unfold sameImageB at h
  cases e : compile demoP 2000 (word a) with
  | image bs =>
    rw [e] at h
    exact ⟨bs, e, by simpa using h⟩
  | refused => rw [e] at h; cases h
  | ub => rw [e] at h; cases h
  | imports => rw [e] at h; cases h
  | stuck => rw [e] at h; cases h

/-- **C60 is false:** bounds that do not fit the type are cut off (300 becomes 44, so that 100 is refused). -/
theorem C60_false_range : sameImage "packet P { @range(0, 300) u8 x; }" "packet P { @range(0, 44) u8 x; }" :=
  sameImage_of (by decide +kernel)

/-- Values of an enum that do not fit its type are cut off. -/
theorem C60_false_enum : sameImage "enum E : u8 { A = 257 } packet P { E x; }" "enum E : u8 { A = 1 } packet P { E x; }" :=
  sameImage_of (by decide +kernel)

/-- Ranges of bit fields are dropped. -/
theorem C60_false_bits : sameImage "packet P { @range(0, 1) u8 x : 3; }" "packet P { u8 x : 3; }" :=
  sameImage_of (by decide +kernel)

/-- The terminator of a string is ignored. -/
theorem C60_false_until : sameImage "packet P { string s until 7; }" "packet P { string s until 0; }" :=
  sameImage_of (by decide +kernel)

/-- The maximal length of a string is cut to 16 bits. -/
theorem C60_false_max : sameImage "packet P { string s max 65536; }" "packet P { string s max 0; }" :=
  sameImage_of (by decide +kernel)

/-- Widths of bit fields are cut to 8 bits. -/
theorem C60_false_width : sameImage "packet P { u64 x : 257; }" "packet P { u64 x : 1; }" :=
  sameImage_of (by decide +kernel)

/-- A field with an unknown CRC width disappears. -/
theorem C60_false_crc : sameImage "packet P { @crc(8) u16 x; }" "packet P { }" :=
  sameImage_of (by decide +kernel)

/-- `@be` in front of a packet, and any unknown decorator there, is ignored. -/
theorem C60_false_be : sameImage "@be packet P { u16 x; }" "packet P { u16 x; }" ∧ sameImage "@foo packet P { u16 x; }" "packet P { u16 x; }" :=
  ⟨sameImage_of (by decide +kernel), sameImage_of (by decide +kernel)⟩

/-- `@le` in a big-endian file is ignored. -/
theorem C60_false_le : sameImage "@big_endian packet P { @le u16 x; }" "@big_endian packet P { u16 x; }" :=
  sameImage_of (by decide +kernel)

/-- In a big-endian file the field behind a field with `@be` is little-endian: 0001 is read as 1, the following 0002 as 0x200. -/
theorem C60_false_reset :
    let code : List Byte := [0x02, 0x07, 2, 0, 0x02, 0x11, 0, 0, 0x01, 0x11, 1, 0]
    compile demoP 2000 (word "@big_endian packet P { @be u16 x; u16 y; }") = .image (writeImage [word "x", word "y", word "P"] code) ∧
    Demo.obs (exec (Demo.env code false) 9 (Demo.start [0, 1, 0, 2] {})) =
      .stopped .ok [0, 1, 0, 2] 4 0 { log := [(0, 0x11, 1), (1, 0x11, 0x200)] } := by
  decide +kernel

/-- An array without a length is accepted; its code is one element followed by the end of a loop that was never begun. -/
theorem C60_false_array :
    compile demoP 2000 (word "packet P { u8 x[]; }") = .image (writeImage [word "x", word "P"] [0x07, 1, 0, 0x10, 0, 0, 0x38]) := by
  decide +kernel

/-- The check of a range of a bool has no bounds in the code: the instruction is cut off (or takes the next instructions for its
bounds), and the VM refuses it. -/
theorem C60_false_bool :
    let code : List Byte := [0x07, 1, 0, 0x1A, 0, 0, 0x42, 0x1A]
    compile demoP 2000 (word "packet P { @range(0, 1) bool x; }") = .image (writeImage [word "x", word "P"] code) ∧
    ∃ s, exec (Demo.env code false) 9 (Demo.start [1] {}) = .stop .invalidOp s := by
  refine ⟨by decide +kernel, ?_⟩
  exact ⟨_, rfl⟩

end Cnd
