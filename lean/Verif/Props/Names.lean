/-
  C45, C46: the compiler's string table and number literals.
-/
import Verif.CompUtil
import Verif.Props.Image

namespace Cnd

/-! ### C45 -/

theorem strtabAdd_cases (tab : List (List Byte)) (name : List Byte) :
    (∃ i, i < tab.length ∧ tab[i]? = some name ∧ (∀ j, j < i → tab[j]? ≠ some name) ∧
      strtabAdd tab name = (tab, i % 65536)) ∨
    (name ∉ tab ∧ strtabAdd tab name = (tab ++ [name], tab.length % 65536)) := by
  unfold strtabAdd nameIdx
  cases h : tab.findIdx? (· = name) with
  | none =>
    right
    refine ⟨?_, rfl⟩
    rw [List.findIdx?_eq_none_iff] at h
    intro hm
    simpa using h name hm
  | some i =>
    left
    rw [List.findIdx?_eq_some_iff_getElem] at h
    obtain ⟨hi, h1, h2⟩ := h
    refine ⟨i, hi, ?_, ?_, rfl⟩
    · rw [List.getElem?_eq_getElem hi]; simpa using h1
    · intro j hj hc
      have := h2 j hj
      rw [List.getElem?_eq_getElem (by omega)] at hc
      simp at hc this
      exact this hc

/-- **C45, one step.** Interning a name keeps every id given out before, adds at most the new name,
never stores a name twice, and while at most 65536 names are in the table the id returned is the
place where the name is. -/
theorem C45_intern (tab : List (List Byte)) (name : List Byte) (hd : tab.Nodup) :
    tab <+: (strtabAdd tab name).1 ∧
    (strtabAdd tab name).1.Nodup ∧
    (∀ x, x ∈ (strtabAdd tab name).1 ↔ x ∈ tab ∨ x = name) ∧
    ((strtabAdd tab name).1.length ≤ 65536 →
      (strtabAdd tab name).1[(strtabAdd tab name).2]? = some name) := by
  rcases strtabAdd_cases tab name with ⟨i, hi, h1, _, h2⟩ | ⟨h1, h2⟩
  · rw [h2]
    refine ⟨List.prefix_refl _, hd, ?_, ?_⟩
    · intro x
      constructor
      · exact Or.inl
      · rintro (h | h)
        · exact h
        · subst h; exact List.mem_of_getElem? h1
    · intro hl
      simp only at hl ⊢
      rw [Nat.mod_eq_of_lt (by omega)]
      exact h1
  · rw [h2]
    refine ⟨List.prefix_append _ _, ?_, ?_, ?_⟩
    · rw [List.nodup_append]
      refine ⟨hd, by simp, ?_⟩
      intro a ha b hb e
      simp at hb
      exact h1 (hb ▸ e ▸ ha)
    · intro x; simp
    · intro hl
      simp at hl ⊢
      rw [Nat.mod_eq_of_lt (by omega)]
      simp

/-- A sequence of names interned one after the other into an empty table (as the parser does), with
the ids handed out. -/
def internAll : List (List Byte) → List (List Byte) → List (List Byte) × List Nat
  | tab, [] => (tab, [])
  | tab, n :: ns =>
    let r := strtabAdd tab n
    let q := internAll r.1 ns
    (q.1, r.2 :: q.2)

theorem internAll_spec (tab ns : List (List Byte)) (hd : tab.Nodup)
    (hl : (internAll tab ns).1.length ≤ 65536) :
    tab <+: (internAll tab ns).1 ∧ (internAll tab ns).1.Nodup ∧
    (internAll tab ns).2.length = ns.length ∧
    (∀ k (h : k < ns.length) (h' : k < (internAll tab ns).2.length),
      (internAll tab ns).1[(internAll tab ns).2[k]]? = some ns[k]) ∧
    (∀ x, x ∈ (internAll tab ns).1 ↔ x ∈ tab ∨ x ∈ ns) := by
  induction ns generalizing tab with
  | nil => simp [internAll, hd]
  | cons n ns ih =>
    simp only [internAll] at hl ⊢
    obtain ⟨g1, g2, g3, g4⟩ := C45_intern tab n hd
    obtain ⟨i1, i2, i3, i4, i5⟩ := ih _ g2 hl
    refine ⟨g1.trans i1, i2, by simp [i3], ?_, ?_⟩
    · intro k hk hk'
      cases k with
      | zero =>
        have := g4 (Nat.le_trans i1.length_le hl)
        simp only [List.getElem_cons_zero]
        obtain ⟨t, ht⟩ := i1
        rw [← ht]
        rw [List.getElem?_append_left (List.getElem?_eq_some_iff.1 this).1]
        exact this
      | succ k => simpa using i4 k (by simpa using hk) (by simpa using hk')
    · intro x
      rw [i5, g3]; simp; grind

theorem nodup_inj {l : List (List Byte)} (h : l.Nodup) {i j : Nat} (hi : i < l.length)
    (hj : j < l.length) (e : l[i] = l[j]) : i = j := by
  have hp := List.pairwise_iff_getElem.1 h
  rcases Nat.lt_trichotomy i j with g | g | g
  · exact absurd e (hp i j hi hj g)
  · exact g
  · exact absurd e.symm (hp j i hj hi g)

/-- **C45.** Whatever names the parser interns, in whatever order: while there are at most 65536
different ones, the ids point to their names, equal names have equal ids and different names
different ids; no name is stored twice. -/
theorem C45_ids (ns : List (List Byte)) (hl : (internAll [] ns).1.length ≤ 65536) :
    (internAll [] ns).1.Nodup ∧
    (∀ x, x ∈ (internAll [] ns).1 ↔ x ∈ ns) ∧
    ∀ j k (hj : j < ns.length) (hk : k < ns.length),
      ∃ a b, (internAll [] ns).2[j]? = some a ∧ (internAll [] ns).2[k]? = some b ∧
        (internAll [] ns).1[a]? = some ns[j] ∧ (a = b ↔ ns[j] = ns[k]) := by
  obtain ⟨_, h2, h3, h4, h5⟩ := internAll_spec [] ns List.nodup_nil hl
  refine ⟨h2, by simpa using h5, ?_⟩
  intro j k hj hk
  have hj' : j < (internAll [] ns).2.length := by omega
  have hk' : k < (internAll [] ns).2.length := by omega
  refine ⟨_, _, List.getElem?_eq_getElem hj', List.getElem?_eq_getElem hk', h4 j hj hj', ?_⟩
  have ej := h4 j hj hj'
  have ek := h4 k hk hk'
  constructor
  · intro e; rw [e, ek] at ej; exact (Option.some.inj ej).symm
  · intro e
    obtain ⟨p1, p2⟩ := List.getElem?_eq_some_iff.1 ej
    obtain ⟨q1, q2⟩ := List.getElem?_eq_some_iff.1 ek
    exact nodup_inj h2 p1 q1 (by rw [p2, q2, e])

example : (internAll [] [[0x61], [0x62], [0x61], [0x62, 0x61]]).2 = [0, 1, 0, 2] := by decide +kernel

/-- **C45 without the bound is false**: the 65537th name gets the id of the first one. -/
theorem C45_false (tab : List (List Byte)) (name : List Byte) (hl : tab.length = 65536)
    (hn : name ∉ tab) :
    (strtabAdd tab name).2 = 0 ∧ (strtabAdd tab name).1[0]? = tab[0]? ∧ tab[0]? ≠ some name ∧
      (strtabAdd tab (tab.getD 0 [])).2 = 0 := by
  rcases strtabAdd_cases tab name with ⟨i, hi, h1, _, _⟩ | ⟨_, h2⟩
  · exact absurd (List.mem_of_getElem? h1) hn
  · have h0 : 0 < tab.length := by omega
    refine ⟨by rw [h2]; simp [hl], ?_, ?_, ?_⟩
    · rw [h2]; simp only; rw [List.getElem?_append_left h0]
    · intro h; exact hn (List.mem_of_getElem? h)
    · cases tab with
      | nil => simp at h0
      | cons a t => simp [strtabAdd, nameIdx, List.findIdx?_cons]

/-- There are 65536 different names to fill the table with, and another one. -/
example : ∃ (tab : List (List Byte)) (name : List Byte), tab.length = 65536 ∧ tab.Nodup ∧
    name ∉ tab := by
  refine ⟨(List.range 65536).map (fun i => leBytes 2 (BitVec.ofNat 64 i)), [], by simp, ?_, ?_⟩
  · rw [List.nodup_iff_pairwise_ne, List.pairwise_map]
    refine (List.pairwise_lt_range (n := 65536)).imp_of_mem ?_
    intro a b ha hb hab e
    have ha := List.mem_range.1 ha
    have hb := List.mem_range.1 hb
    have e1 := congrArg leNat e
    rw [leNat_leBytes, leNat_leBytes, BitVec.toNat_ofNat, BitVec.toNat_ofNat] at e1
    omega
  · intro h
    obtain ⟨i, _, h⟩ := List.mem_map.1 h
    have := congrArg List.length h
    simp at this

/-- **C45 and C35 together**: the names a compiler run interned, written into an image, are looked up
to the ids used in its bytecode and back. -/
theorem C45_image (ns : List (List Byte)) (code : List Byte) (hf : ∀ n ∈ ns, NulFree n)
    (hl : (internAll [] ns).1.length < 65536)
    (hs : 16 + (strBytes (internAll [] ns).1).length < 2 ^ 32) :
    ∃ P, loadIl (writeImage (internAll [] ns).1 code) = .ok P ∧ P.code = code ∧
      ∀ k (hk : k < ns.length), ∃ id q, (internAll [] ns).2[k]? = some id ∧
        keyName P id = .found q ∧ cstrAt P.image q = some ns[k] ∧ keyId P ns[k] = .found id := by
  obtain ⟨h1, h2, h3⟩ := C45_ids ns (by omega)
  obtain ⟨P, p1, p2, p3, _, _⟩ := C35_round_trip_partial (internAll [] ns).1 code
    (fun n hn => hf n ((h2 n).1 hn)) h1 hl hs
  refine ⟨P, p1, p2, ?_⟩
  intro k hk
  obtain ⟨a, _, ha, _, hn, _⟩ := h3 k k hk hk
  obtain ⟨hlt, he⟩ := List.getElem?_eq_some_iff.1 hn
  obtain ⟨⟨q, q1, q2⟩, q3⟩ := p3 a hlt
  exact ⟨a, q, ha, q1, by rw [q2, he], by rw [← he]; exact q3⟩

/-! ### C46 -/

/-- Digits in base `b`, most significant first, as a number. -/
def digitsVal (b : Nat) : List Nat → Nat
  | [] => 0
  | d :: ds => d * b ^ ds.length + digitsVal b ds

/-- The character of a decimal digit, and of a hexadecimal digit in either case. -/
def decChar (d : Nat) : Byte := BitVec.ofNat 8 (0x30 + d)
def hexChar (upper : Bool) (d : Nat) : Byte :=
  if d < 10 then BitVec.ofNat 8 (0x30 + d)
  else if upper then BitVec.ofNat 8 (0x41 + d - 10) else BitVec.ofNat 8 (0x61 + d - 10)

theorem hexVal_hexChar (u : Bool) (d : Nat) (h : d < 16) : hexVal (hexChar u d) = d := by
  have : ∀ u : Bool, ∀ d : Fin 16, hexVal (hexChar u d) = d := by decide +kernel
  exact this u ⟨d, h⟩

theorem isDigit_decChar (d : Nat) (h : d < 10) : isDigit (decChar d) = true ∧
    (decChar d).toNat - 0x30 = d := by
  have : ∀ d : Fin 10, isDigit (decChar d) = true ∧ (decChar d).toNat - 0x30 = d := by decide +kernel
  exact this ⟨d, h⟩

theorem decLoop_spec (w : Nat) (ds : List Nat) (hd : ∀ d ∈ ds, d < 10) (r : Nat) :
    decLoop w (BitVec.ofNat w r) (ds.map decChar) =
      BitVec.ofNat w (r * 10 ^ ds.length + digitsVal 10 ds) := by
  induction ds generalizing r with
  | nil => simp [decLoop, digitsVal]
  | cons d ds ih =>
    obtain ⟨h1, h2⟩ := isDigit_decChar d (hd d (by simp))
    simp only [List.map_cons, decLoop, h1, if_true, h2]
    have : BitVec.ofNat w r * 10 + BitVec.ofNat w d = BitVec.ofNat w (r * 10 + d) := by
      rw [BitVec.ofNat_add, BitVec.ofNat_mul]; rfl
    rw [this, ih (fun x hx => hd x (by simp [hx]))]
    congr 1
    simp only [digitsVal, List.length_cons, Nat.pow_succ]
    rw [Nat.add_mul, Nat.mul_assoc, Nat.mul_comm 10]
    omega

theorem hexLoop_spec (w : Nat) (cs : List (Bool × Nat)) (hd : ∀ c ∈ cs, c.2 < 16) (r : Nat) :
    hexLoop w (BitVec.ofNat w r) (cs.map fun c => hexChar c.1 c.2) =
      BitVec.ofNat w (r * 16 ^ cs.length + digitsVal 16 (cs.map (·.2))) := by
  induction cs generalizing r with
  | nil => simp [hexLoop, digitsVal]
  | cons c cs ih =>
    have hc : c.2 < 16 := hd c (by simp)
    simp only [List.map_cons, hexLoop, hexVal_hexChar _ _ hc]
    have : (BitVec.ofNat w r <<< 4) ||| BitVec.ofNat w c.2 = BitVec.ofNat w (r * 16 + c.2) := by
      apply BitVec.eq_of_toNat_eq
      rw [BitVec.toNat_or, BitVec.toNat_shiftLeft, BitVec.toNat_ofNat, BitVec.toNat_ofNat,
        BitVec.toNat_ofNat]
      have e1 : (r % 2 ^ w) <<< 4 % 2 ^ w = (r <<< 4) % 2 ^ w := by
        rw [Nat.shiftLeft_eq, Nat.shiftLeft_eq, Nat.mod_mul_mod]
      rw [e1, ← Nat.or_mod_two_pow, ← Nat.shiftLeft_add_eq_or_of_lt (i := 4) hc, Nat.shiftLeft_eq]
    rw [this, ih (fun x hx => hd x (by simp [hx]))]
    congr 1
    simp only [digitsVal, List.length_cons, List.length_map, Nat.pow_succ]
    rw [Nat.add_mul, Nat.mul_assoc, Nat.mul_comm 16]
    omega

theorem decChar_ne (d : Nat) (h : d < 10) : decChar d ≠ 0x2D ∧ decChar d ≠ 0x2B ∧
    decChar d ≠ 0x78 ∧ decChar d ≠ 0x58 := by
  have : ∀ d : Fin 10, decChar d ≠ 0x2D ∧ decChar d ≠ 0x2B ∧ decChar d ≠ 0x78 ∧
    decChar d ≠ 0x58 := by decide +kernel
  exact this ⟨d, h⟩

theorem magnitude_dec (w : Nat) (ds : List Nat) (hd : ∀ d ∈ ds, d < 10) :
    magnitude w (ds.map decChar) = BitVec.ofNat w (digitsVal 10 ds) := by
  have hb : hexBody (ds.map decChar) = none := by
    match ds, hd with
    | [], _ => rfl
    | [_], _ => rfl
    | [_, _], _ => rfl
    | a :: b :: c :: r, hd =>
      have := decChar_ne b (hd b (by simp))
      simp only [List.map_cons, hexBody]
      rw [if_neg]
      rintro ⟨_, h | h⟩
      · exact this.2.2.1 h
      · exact this.2.2.2 h
  unfold magnitude
  rw [hb]
  simpa using decLoop_spec w ds hd 0

theorem magnitude_hex (w : Nat) (x : Byte) (hx : x = 0x78 ∨ x = 0x58) (cs : List (Bool × Nat))
    (hc : cs ≠ []) (hd : ∀ c ∈ cs, c.2 < 16) :
    magnitude w (0x30 :: x :: cs.map fun c => hexChar c.1 c.2) =
      BitVec.ofNat w (digitsVal 16 (cs.map (·.2))) := by
  have hb : hexBody (0x30 :: x :: cs.map fun c => hexChar c.1 c.2) =
      some (cs.map fun c => hexChar c.1 c.2) := by
    cases cs with
    | nil => exact absurd rfl hc
    | cons c cs =>
      simp only [List.map_cons, hexBody]
      rw [if_pos ⟨trivial, hx⟩]
  unfold magnitude
  rw [hb]
  simpa using hexLoop_spec w cs hd 0

/-- How a literal is written: decimal digits, or `0x`/`0X` and hexadecimal digits of either case. -/
inductive Numeral
  | dec (ds : List Nat)
  | hex (upX : Bool) (cs : List (Bool × Nat))

/-- At least one digit, every digit smaller than the base. -/
def Numeral.ok : Numeral → Prop
  | .dec ds => ds ≠ [] ∧ ∀ d ∈ ds, d < 10
  | .hex _ cs => cs ≠ [] ∧ ∀ c ∈ cs, c.2 < 16

/-- The text of the literal. -/
def Numeral.text : Numeral → List Byte
  | .dec ds => ds.map decChar
  | .hex u cs => 0x30 :: (if u then 0x58 else 0x78) :: cs.map fun c => hexChar c.1 c.2

/-- The number it denotes. -/
def Numeral.value : Numeral → Nat
  | .dec ds => digitsVal 10 ds
  | .hex _ cs => digitsVal 16 (cs.map (·.2))

theorem Numeral.magnitude_text (w : Nat) (n : Numeral) (h : n.ok) :
    magnitude w n.text = BitVec.ofNat w n.value := by
  cases n with
  | dec ds => exact magnitude_dec w ds h.2
  | hex u cs => exact magnitude_hex w _ (by cases u <;> simp) cs h.1 h.2

theorem Numeral.text_head (n : Numeral) (h : n.ok) :
    ∃ c cs, n.text = c :: cs ∧ c ≠ 0x2D ∧ c ≠ 0x2B := by
  cases n with
  | dec ds =>
    cases ds with
    | nil => exact absurd rfl h.1
    | cons d ds =>
      have := decChar_ne d (h.2 d (by simp))
      exact ⟨_, _, rfl, this.1, this.2.1⟩
  | hex u cs => exact ⟨_, _, rfl, by decide, by decide⟩

/-- **C46, unsigned.** A literal without sign is read as its value, for every value that fits in 64
bits (as an unsigned number; `int64_t` holds the same bits). -/
theorem C46_plain (n : Numeral) (h : n.ok) (hv : n.value < 2 ^ 64) :
    ∃ r, parseI64 n.text = some r ∧ r.toNat = n.value ∧
      (n.value < 2 ^ 63 → r.toInt = (n.value : Int)) := by
  obtain ⟨c, cs, e, h1, h2⟩ := n.text_head h
  refine ⟨BitVec.ofNat 64 n.value, ?_, ?_, ?_⟩
  · rw [← n.magnitude_text 64 h]
    rw [e]
    simp only [parseI64, if_neg h1, if_neg h2]
  · rw [BitVec.toNat_ofNat, Nat.mod_eq_of_lt hv]
  · intro h3
    rw [BitVec.toInt_eq_toNat_cond, BitVec.toNat_ofNat]; split <;> omega

/-- **C46, with a sign.** `+` changes nothing; `-` negates, for every value up to 2^63 - 1. -/
theorem C46_signed_partial (n : Numeral) (h : n.ok) :
    (∀ (_ : n.value < 2 ^ 64), ∃ r, parseI64 (0x2B :: n.text) = some r ∧ r.toNat = n.value) ∧
    (∀ (_ : n.value < 2 ^ 63), ∃ r, parseI64 (0x2D :: n.text) = some r ∧
      r.toInt = -(n.value : Int)) := by
  constructor
  · intro hv
    refine ⟨BitVec.ofNat 64 n.value, ?_, ?_⟩
    · simp only [parseI64, n.magnitude_text 64 h]
      rw [if_neg (by decide), if_pos trivial]
    · rw [BitVec.toNat_ofNat, Nat.mod_eq_of_lt hv]
  · intro hv
    refine ⟨-BitVec.ofNat 64 n.value, ?_, ?_⟩
    · simp only [parseI64, n.magnitude_text 64 h, if_true]
      rw [if_neg]
      intro e
      have := congrArg BitVec.toNat e
      rw [BitVec.toNat_ofNat, BitVec.toNat_intMin] at this
      omega
    · rw [BitVec.toInt_neg, BitVec.toInt_eq_toNat_cond, BitVec.toNat_ofNat]
      rw [if_pos (by omega), Nat.mod_eq_of_lt (by omega)]
      rw [Int.bmod_eq_of_le] <;> omega

/-- "-9223372036854775808": the smallest 64-bit number. -/
def minLiteral : Numeral := .dec [9, 2, 2, 3, 3, 7, 2, 0, 3, 6, 8, 5, 4, 7, 7, 5, 8, 0, 8]

/-- **C46 is false for the smallest number**: its literal is well formed and denotes -2^63, but
reading it overflows (undefined behaviour). -/
theorem C46_false : minLiteral.ok ∧ minLiteral.value = 2 ^ 63 ∧
    parseI64 (0x2D :: minLiteral.text) = none := by
  refine ⟨?_, by decide +kernel, by decide +kernel⟩
  exact ⟨by simp, by decide +kernel⟩

/-- **C46 for 32-bit operands** (array counts, bit widths, CRC parameters): literals below 2^32. -/
theorem C46_u32 (n : Numeral) (h : n.ok) (hv : n.value < 2 ^ 32) :
    (parseU32 n.text).toNat = n.value := by
  unfold parseU32
  rw [n.magnitude_text 32 h, BitVec.toNat_ofNat, Nat.mod_eq_of_lt hv]

/-- A sign is not understood there: `-3` is read as 3 (and a fraction's digits are run together:
"1.5" is 15, in the 64-bit function too). -/
theorem C46_false_u32 : parseU32 [0x2D, 0x33] = 3 ∧ parseI64 [0x31, 0x2E, 0x35] = some 15 := by
  decide +kernel

example : (Numeral.hex false [(false, 15), (true, 10)]).ok ∧
    (Numeral.hex false [(false, 15), (true, 10)]).text = [0x30, 0x78, 0x66, 0x41] ∧
    (Numeral.hex false [(false, 15), (true, 10)]).value = 250 :=
  ⟨⟨by simp, by decide +kernel⟩, by decide +kernel, by decide +kernel⟩

/-- Every number has such a literal. -/
theorem Numeral.exists_dec (v : Nat) : ∃ n : Numeral, n.ok ∧ n.value = v := by
  suffices H : ∀ v, ∃ ds : List Nat, ds ≠ [] ∧ (∀ d ∈ ds, d < 10) ∧ digitsVal 10 ds = v by
    obtain ⟨ds, h1, h2, h3⟩ := H v
    exact ⟨.dec ds, ⟨h1, h2⟩, h3⟩
  have app : ∀ (a : List Nat) (d : Nat), digitsVal 10 (a ++ [d]) = digitsVal 10 a * 10 + d := by
    intro a d
    induction a with
    | nil => simp [digitsVal]
    | cons x a ih =>
      simp only [List.cons_append, digitsVal, ih, List.length_append, List.length_cons,
        List.length_nil, Nat.pow_succ]
      rw [Nat.add_mul, Nat.mul_assoc]; omega
  intro v
  induction v using Nat.strongRecOn with
  | _ v ih =>
    by_cases hv : v < 10
    · exact ⟨[v], by simp, by simpa using hv, by simp [digitsVal]⟩
    · obtain ⟨ds, h1, h2, h3⟩ := ih (v / 10) (by omega)
      refine ⟨ds ++ [v % 10], by simp, ?_, ?_⟩
      · intro d hd
        rcases List.mem_append.1 hd with h | h
        · exact h2 d h
        · simp at h; omega
      · rw [app, h3]; omega

end Cnd
