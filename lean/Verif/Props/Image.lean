/-
  C35, C36, C37: the compiled image.
-/
import Verif.Image
import Verif.BytesLemmas
import Verif.Spec
import Verif.Props.Strings

namespace Cnd

/-! ### Walking the string table -/

theorem afterNul_app {n : List Byte} (h : NulFree n) (rest : List Byte) (p : Nat) :
    afterNul (n ++ 0 :: rest) p = some (p + n.length + 1) := by
  induction n generalizing p with
  | nil => simp [afterNul]
  | cons b bs ih =>
    have hb : b ≠ 0 := h b (by simp)
    simp only [List.cons_append, afterNul, if_neg hb]
    rw [ih (fun x hx => h x (by simp [hx]))]
    simp; omega

/-- The walk succeeds exactly if a NUL is left; it then stands just after the first one. -/
theorem afterNul_spec (l : List Byte) (p : Nat) :
    (afterNul l p = none ∧ l.count 0 = 0) ∨
    (∃ q, afterNul l p = some (p + q) ∧ 0 < q ∧ q ≤ l.length ∧
      (l.drop q).count 0 + 1 = l.count 0 ∧ (0 : Byte) ∈ l) := by
  induction l generalizing p with
  | nil => left; simp [afterNul]
  | cons b bs ih =>
    by_cases hb : b = 0
    · right; refine ⟨1, ?_⟩; simp [afterNul, hb]
    · have hc : (b :: bs).count 0 = bs.count 0 := by
        have hb' : ¬ b = 0#8 := hb
        rw [List.count_cons]; simp [hb']
      simp only [afterNul, if_neg hb, hc]
      rcases ih (p + 1) with ⟨h1, h2⟩ | ⟨q, h1, h2, h3, h4, h5⟩
      · left; exact ⟨h1, h2⟩
      · right
        refine ⟨q + 1, ?_, by omega, by simpa using h3, by simpa using h4, List.mem_cons_of_mem _ h5⟩
        rw [h1]; congr 1; omega

/-- Skipping `n` names succeeds exactly if `n` NULs are left, and then ends inside the image (or
one past its end) with the other NULs still to come. -/
theorem skipNames_spec (img : List Byte) (n p : Nat) (hp : p ≤ img.length) :
    (skipNames img n p = none ∧ (img.drop p).count 0 < n) ∨
    (∃ q, skipNames img n p = some q ∧ p ≤ q ∧ q ≤ img.length ∧
      (img.drop q).count 0 + n = (img.drop p).count 0) := by
  induction n generalizing p with
  | zero => right; exact ⟨p, rfl, Nat.le_refl _, hp, by simp⟩
  | succ n ih =>
    simp only [skipNames]
    rcases afterNul_spec (img.drop p) p with ⟨h1, h2⟩ | ⟨q, h1, h2, h3, h4, _⟩
    · left; rw [h1]; exact ⟨rfl, by omega⟩
    · rw [h1]
      rw [List.length_drop] at h3
      rw [List.drop_drop] at h4
      simp only [Option.bind_some]
      rcases ih (p + q) (by omega) with ⟨g1, g2⟩ | ⟨r, g1, g2, g3, g4⟩
      · left; exact ⟨g1, by omega⟩
      · right; exact ⟨r, g1, by omega, g3, by omega⟩

theorem strEq_none {l name : List Byte} (hn : NulFree name) (h : (0 : Byte) ∈ l) :
    strEq l name ≠ none := by
  induction l generalizing name with
  | nil => simp at h
  | cons b bs ih =>
    cases name with
    | nil => simp [strEq]
    | cons c cs =>
      simp only [strEq]
      split
      · rename_i e
        refine ih (fun x hx => hn x (by simp [hx])) ?_
        have : c ≠ 0 := hn c (by simp)
        rcases List.mem_cons.1 h with h | h
        · exact absurd (e ▸ h.symm) this
        · exact h
      · simp

/-- Comparing the string `m` (followed by its NUL) with the C string `name`. -/
theorem strEq_app {m name : List Byte} (hm : NulFree m) (hn : NulFree name) (rest : List Byte) :
    strEq (m ++ 0 :: rest) name = some (decide (m = name)) := by
  induction m generalizing name with
  | nil =>
    cases name with
    | nil => simp [strEq]
    | cons c cs =>
      have : ¬ (0#8) = c := Ne.symm (hn c (by simp))
      simp [strEq, this]
  | cons b bs ih =>
    cases name with
    | nil =>
      have : ¬ b = 0#8 := hm b (by simp)
      simp [strEq, this]
    | cons c cs =>
      simp only [List.cons_append, strEq]
      split
      · rename_i e
        rw [ih (fun x hx => hm x (by simp [hx])) (fun x hx => hn x (by simp [hx]))]
        subst e; simp
      · rename_i e; simp [e]

/-! ### C36: loading -/

/-- The 16-bit or 32-bit little-endian number made of the given bytes, in arithmetic. -/
def le2 (a b : Byte) : Nat := a.toNat + 256 * b.toNat
def le4 (a b c d : Byte) : Nat := a.toNat + 256 * b.toNat + 65536 * c.toNat + 16777216 * d.toNat

/-- What the format document asks of an image: the sixteen header bytes, with the two offsets
pointing inside. -/
structure GoodHeader (img : List Byte) (count so bo : Nat) : Prop where
  header : ∃ n0 n1 s0 s1 s2 s3 b0 b1 b2 b3 : Byte, ∃ rest,
    img = [0x43, 0x4E, 0x44, 0x49, 0x4C, 1, n0, n1, s0, s1, s2, s3, b0, b1, b2, b3] ++ rest ∧
    count = le2 n0 n1 ∧ so = le4 s0 s1 s2 s3 ∧ bo = le4 b0 b1 b2 b3
  strIn : so ≤ img.length
  codeIn : bo ≤ img.length

theorem leWord_two (a b : Byte) : (leWord [a, b]).toNat = le2 a b := by
  have := toNat_leWord [a, b] (by simp)
  rw [this]; simp [leNat, le2]

theorem leWord_four (a b c d : Byte) : (leWord [a, b, c, d]).toNat = le4 a b c d := by
  have := toNat_leWord [a, b, c, d] (by simp)
  rw [this]; simp [leNat, le4]; omega

theorem sixteen {img : List Byte} (h : 16 ≤ img.length) :
    ∃ m0 m1 m2 m3 m4 v n0 n1 s0 s1 s2 s3 b0 b1 b2 b3 : Byte, ∃ rest,
      img = m0 :: m1 :: m2 :: m3 :: m4 :: v :: n0 :: n1 :: s0 :: s1 :: s2 :: s3 :: b0 :: b1 ::
        b2 :: b3 :: rest := by
  match img, h with
  | m0 :: m1 :: m2 :: m3 :: m4 :: v :: n0 :: n1 :: s0 :: s1 :: s2 :: s3 :: b0 :: b1 ::
        b2 :: b3 :: rest, _ =>
    exact ⟨m0, m1, m2, m3, m4, v, n0, n1, s0, s1, s2, s3, b0, b1, b2, b3, rest, rfl⟩

/-- **C36.** Loading succeeds exactly for images with a good header, and then gives the bytes from
the bytecode offset on as the program. -/
theorem C36_accepts (img : List Byte) (P : Program) :
    loadIl img = .ok P ↔
      ∃ count so bo, GoodHeader img count so bo ∧ P = ⟨img, so, count, img.drop bo⟩ := by
  constructor
  · intro h
    unfold loadIl at h
    split at h
    · simp at h
    rename_i hlen
    obtain ⟨m0, m1, m2, m3, m4, v, n0, n1, s0, s1, s2, s3, b0, b1, b2, b3, rest, e⟩ :=
      sixteen (Nat.le_of_not_lt hlen)
    split at h
    · simp at h
    rename_i hm
    split at h
    · simp at h
    rename_i hv
    simp only at h
    split at h
    · simp at h
    rename_i ho
    have hm' : m0 :: m1 :: m2 :: m3 :: m4 :: [] = magic := by
      have := Decidable.not_not.1 hm; rw [e] at this; simpa using this
    have hv' : v = 1 := by
      have := Decidable.not_not.1 hv; rw [e] at this; simpa using this
    have e1 : (img.drop 6).take 2 = [n0, n1] := by rw [e]; rfl
    have e2 : (img.drop 8).take 4 = [s0, s1, s2, s3] := by rw [e]; rfl
    have e3 : (img.drop 12).take 4 = [b0, b1, b2, b3] := by rw [e]; rfl
    rw [e1, e2, e3, leWord_two, leWord_four, leWord_four] at h
    rw [e2, e3, leWord_four, leWord_four] at ho
    refine ⟨le2 n0 n1, le4 s0 s1 s2 s3, le4 b0 b1 b2 b3, ⟨⟨n0, n1, s0, s1, s2, s3, b0, b1, b2, b3,
      rest, ?_, rfl, rfl, rfl⟩, by omega, by omega⟩, (Loaded.ok.inj h).symm⟩
    simp [magic] at hm'
    rw [e, hv', hm'.1, hm'.2.1, hm'.2.2.1, hm'.2.2.2.1, hm'.2.2.2.2]; rfl
  · rintro ⟨count, so, bo, ⟨⟨n0, n1, s0, s1, s2, s3, b0, b1, b2, b3, rest, e, hc, hs, hb⟩, h1, h2⟩, rfl⟩
    unfold loadIl
    rw [if_neg (by rw [e]; simp)]
    rw [if_neg (by rw [e]; simp [magic])]
    rw [if_neg (by rw [e]; simp)]
    have e1 : (img.drop 6).take 2 = [n0, n1] := by rw [e]; rfl
    have e2 : (img.drop 8).take 4 = [s0, s1, s2, s3] := by rw [e]; rfl
    have e3 : (img.drop 12).take 4 = [b0, b1, b2, b3] := by rw [e]; rfl
    simp only [e1, e2, e3, leWord_two, leWord_four, ← hc, ← hs, ← hb]
    rw [if_neg (by omega)]

/-- **C36, the errors.** A refused image gets OOB if it is shorter than its header or an offset
points outside, and INVALID_OP if the magic or the version is wrong — nothing else. -/
theorem C36_refuses (img : List Byte) (e : Err) (h : loadIl img = .error e) :
    (e = .oob ∧ img.length < 16) ∨
    (e = .invalidOp ∧ 16 ≤ img.length ∧ img.take 6 ≠ [0x43, 0x4E, 0x44, 0x49, 0x4C, 1]) ∨
    (e = .oob ∧ 16 ≤ img.length ∧ img.take 6 = [0x43, 0x4E, 0x44, 0x49, 0x4C, 1] ∧
      ∃ s0 s1 s2 s3 b0 b1 b2 b3 : Byte, (img.drop 8).take 8 = [s0, s1, s2, s3, b0, b1, b2, b3] ∧
        (img.length < le4 s0 s1 s2 s3 ∨ img.length < le4 b0 b1 b2 b3)) := by
  unfold loadIl at h
  split at h
  · left; exact ⟨(Loaded.error.inj h).symm, by assumption⟩
  rename_i hlen
  obtain ⟨m0, m1, m2, m3, m4, v, n0, n1, s0, s1, s2, s3, b0, b1, b2, b3, rest, ei⟩ :=
    sixteen (Nat.le_of_not_lt hlen)
  right
  split at h
  · rename_i hm
    left
    refine ⟨(Loaded.error.inj h).symm, by omega, ?_⟩
    intro h6; apply hm
    have : (img.take 6).take 5 = magic := by rw [h6]; rfl
    rwa [List.take_take] at this
  rename_i hm
  split at h
  · rename_i hv
    left
    refine ⟨(Loaded.error.inj h).symm, by omega, ?_⟩
    intro h6; apply hv
    rw [ei] at h6 ⊢; simp at h6 ⊢; exact h6.2.2.2.2.2
  rename_i hv
  simp only at h
  split at h
  · rename_i ho
    right
    refine ⟨(Loaded.error.inj h).symm, by omega, ?_, s0, s1, s2, s3, b0, b1, b2, b3, by rw [ei]; rfl, ?_⟩
    · have hm := Decidable.not_not.1 hm
      have hv := Decidable.not_not.1 hv
      rw [ei] at hm hv ⊢; simp [magic] at hm hv ⊢
      exact ⟨hm.1, hm.2.1, hm.2.2.1, hm.2.2.2.1, hm.2.2.2.2, hv⟩
    · have e2 : (img.drop 8).take 4 = [s0, s1, s2, s3] := by rw [ei]; rfl
      have e3 : (img.drop 12).take 4 = [b0, b1, b2, b3] := by rw [ei]; rfl
      rw [e2, e3, leWord_four, leWord_four] at ho
      exact ho
  · simp at h

/-- The bytecode of an accepted image is a suffix of it. -/
theorem C36_suffix (img : List Byte) (P : Program) (h : loadIl img = .ok P) :
    P.image = img ∧ P.code <:+ img ∧ P.strOff ≤ img.length ∧ P.count < 65536 := by
  obtain ⟨c, so, bo, g, rfl⟩ := (C36_accepts img P).1 h
  refine ⟨rfl, List.drop_suffix _ _, g.strIn, ?_⟩
  obtain ⟨n0, n1, _, _, _, _, _, _, _, _, _, _, hc, _⟩ := g.header
  show c < 65536
  rw [hc]; unfold le2; have := n0.isLt; have := n1.isLt; omega

/-- A sixteen-byte image with two names announced and no strings, no code: accepted. -/
def bareImage : List Byte :=
  [0x43, 0x4E, 0x44, 0x49, 0x4C, 1, 2, 0, 16, 0, 0, 0, 16, 0, 0, 0]

example : loadIl bareImage = .ok ⟨bareImage, 16, 2, []⟩ := by decide +kernel
example : loadIl (bareImage.set 8 17) = .error .oob := by decide +kernel
example : loadIl (bareImage.set 5 2) = .error .invalidOp := by decide +kernel
example : loadIl [0x43] = .error .oob := by decide +kernel

/-! ### C35: what the compiler writes loads back -/

/-- `x` as a four-byte little-endian operand and back. -/
theorem le_back (n x : Nat) (hn : n ≤ 8) (hx : x < 256 ^ n) :
    (leWord (leBytes n (BitVec.ofNat 64 x))).toNat = x := by
  rw [toNat_leWord _ (by simpa using hn), leNat_leBytes]
  have h8 : 256 ^ n ≤ 256 ^ 8 := Nat.pow_le_pow_right (by omega) hn
  have : x < 2 ^ 64 := Nat.lt_of_lt_of_le hx (by simpa using h8)
  rw [BitVec.toNat_ofNat, Nat.mod_eq_of_lt this, Nat.mod_eq_of_lt hx]

/-- The header the compiler writes. -/
def headBytes (names : List (List Byte)) : List Byte :=
  magic ++ 1 :: leBytes 2 (BitVec.ofNat 64 names.length) ++ leBytes 4 16 ++
    leBytes 4 (BitVec.ofNat 64 (16 + (strBytes names).length))

theorem headBytes_length (names : List (List Byte)) : (headBytes names).length = 16 := by
  simp [headBytes, magic]

theorem writeImage_eq (names : List (List Byte)) (code : List Byte) :
    writeImage names code = headBytes names ++ (strBytes names ++ code) := by
  simp [writeImage, headBytes]

theorem load_writeImage (names : List (List Byte)) (code : List Byte)
    (hs : 16 + (strBytes names).length < 2 ^ 32) :
    loadIl (writeImage names code) =
      .ok ⟨writeImage names code, 16, names.length % 65536, code⟩ := by
  have hb := le_back 4 (16 + (strBytes names).length) (by omega) (by omega)
  have hz := le_back 4 16 (by omega) (by omega)
  have hcn : (leWord (leBytes 2 (BitVec.ofNat 64 names.length))).toNat = names.length % 65536 := by
    rw [toNat_leWord _ (by simp), leNat_leBytes, BitVec.toNat_ofNat]; omega
  unfold loadIl
  have hlen : (writeImage names code).length = 16 + (strBytes names).length + code.length := by
    rw [writeImage_eq, List.length_append, List.length_append, headBytes_length]; omega
  have e0 : (writeImage names code).take 5 = magic := by simp [writeImage, magic]
  have e4 : (writeImage names code).getD 5 0 = 1 := by simp [writeImage, magic]
  have e1 : ((writeImage names code).drop 6).take 2 = leBytes 2 (BitVec.ofNat 64 names.length) := by
    simp [writeImage, magic, leBytes]
  have e2 : ((writeImage names code).drop 8).take 4 = leBytes 4 (BitVec.ofNat 64 16) := by
    simp [writeImage, magic, leBytes]
  have e3 : ((writeImage names code).drop 12).take 4 =
      leBytes 4 (BitVec.ofNat 64 (16 + (strBytes names).length)) := by
    simp [writeImage, magic, leBytes]
  rw [if_neg (by omega), if_neg (by simp [e0]), if_neg (by rw [e4]; simp)]
  simp only [e1, e2, e3, hb, hz, hcn]
  rw [if_neg (by omega)]
  congr 2
  rw [writeImage_eq, ← List.append_assoc]
  rw [List.drop_append_of_le_length (by simp [headBytes_length]), List.drop_of_length_le
    (by simp [headBytes_length])]
  rfl

theorem skipNames_app (img rest : List Byte) (names : List (List Byte))
    (hf : ∀ n ∈ names, NulFree n) (k p : Nat) (hk : k ≤ names.length)
    (h : img.drop p = strBytes names ++ rest) :
    ∃ q, skipNames img k p = some q ∧ img.drop q = strBytes (names.drop k) ++ rest := by
  induction k generalizing p names with
  | zero => exact ⟨p, rfl, by simpa using h⟩
  | succ k ih =>
    cases names with
    | nil => simp at hk
    | cons n ns =>
      simp only [strBytes, List.append_assoc, List.cons_append] at h
      simp only [skipNames, h, afterNul_app (hf n (by simp)), Option.bind_some]
      have h2 : img.drop (p + n.length + 1) = strBytes ns ++ rest := by
        rw [show p + n.length + 1 = p + (n.length + 1) by omega, ← List.drop_drop, h,
          ← List.drop_drop, List.drop_left]
        rfl
      exact ih ns (fun x hx => hf x (by simp [hx])) _ (by simpa using hk) h2

theorem takeWhile_nul {n : List Byte} (hn : NulFree n) (rest : List Byte) :
    (n ++ 0 :: rest).takeWhile (· ≠ 0) = n := by
  induction n with
  | nil => simp
  | cons b bs ih =>
    have hb : b ≠ 0 := hn b (by simp)
    simp only [List.cons_append, List.takeWhile_cons, hb, ne_eq, not_false_eq_true, decide_true,
      if_true]
    rw [ih (fun x hx => hn x (by simp [hx]))]

theorem cstrAt_app {img : List Byte} {q : Nat} {n rest : List Byte} (hn : NulFree n)
    (h : img.drop q = n ++ 0 :: rest) : cstrAt img q = some n := by
  unfold cstrAt
  rw [h, if_pos (by simp)]
  rw [takeWhile_nul hn]

theorem findName_app (img rest name : List Byte) (hname : NulFree name)
    (names : List (List Byte)) (hf : ∀ n ∈ names, NulFree n) (i p : Nat)
    (h : img.drop p = strBytes names ++ rest) :
    findName img name names.length i p =
      match names.findIdx? (· = name) with
      | some j => .found (i + j)
      | none => .none := by
  induction names generalizing p i with
  | nil => rfl
  | cons n ns ih =>
    simp only [strBytes, List.append_assoc, List.cons_append] at h
    have h2 : img.drop (p + n.length + 1) = strBytes ns ++ rest := by
      rw [show p + n.length + 1 = p + (n.length + 1) by omega, ← List.drop_drop, h,
        ← List.drop_drop, List.drop_left]
      rfl
    simp only [List.length_cons, findName, h, strEq_app (hf n (by simp)) hname,
      afterNul_app (hf n (by simp)), List.findIdx?_cons]
    by_cases e : n = name
    · simp [e]
    · simp only [e, decide_false]
      rw [ih (fun x hx => hf x (by simp [hx])) _ _ h2]
      cases ns.findIdx? (· = name) with
      | none => simp
      | some j => simp; omega

/-- **C35.** The image written for a table of at most 65535 different NUL-free names loads; the
program's code is the compiler's; id `k` is looked up to the `k`-th name, and that name to id `k`;
a name not in the table is reported as unknown. -/
theorem C35_round_trip_partial (names : List (List Byte)) (code : List Byte)
    (hf : ∀ n ∈ names, NulFree n) (hd : names.Nodup) (hc : names.length < 65536)
    (hs : 16 + (strBytes names).length < 2 ^ 32) :
    ∃ P, loadIl (writeImage names code) = .ok P ∧ P.code = code ∧
      (∀ k (hk : k < names.length),
        (∃ q, keyName P k = .found q ∧ cstrAt P.image q = some names[k]) ∧
        keyId P names[k] = .found k) ∧
      (∀ k, names.length ≤ k → keyName P k = .none) ∧
      (∀ name, NulFree name → name ∉ names → keyId P name = .none) := by
  refine ⟨_, load_writeImage names code hs, rfl, ?_, ?_, ?_⟩
  · intro k hk
    have hdrop : (writeImage names code).drop 16 = strBytes names ++ code := by
      rw [writeImage_eq, List.drop_append_of_le_length (by simp [headBytes_length]),
        List.drop_of_length_le (by simp [headBytes_length])]
      rfl
    constructor
    · obtain ⟨q, h1, h2⟩ := skipNames_app (writeImage names code) code names hf k 16
        (Nat.le_of_lt hk) hdrop
      refine ⟨q, ?_, ?_⟩
      · simp only [keyName, Nat.mod_eq_of_lt hc, h1]
        rw [if_neg (by omega)]
      · rw [List.drop_eq_getElem_cons hk] at h2
        simp only [strBytes, List.append_assoc, List.cons_append] at h2
        exact cstrAt_app (hf _ (List.getElem_mem hk)) h2
    · simp only [keyId, Nat.mod_eq_of_lt hc]
      rw [findName_app _ code _ (hf _ (List.getElem_mem hk)) names hf 0 16 hdrop]
      have : names.findIdx? (· = names[k]) = some k := by
        rw [List.findIdx?_eq_some_iff_getElem]
        refine ⟨hk, by simp, ?_⟩
        intro j hj
        have := (List.pairwise_iff_getElem.1 hd) j k (by omega) hk hj
        simpa using this
      rw [this]; simp
  · intro k hk
    simp only [keyName, Nat.mod_eq_of_lt hc]
    rw [if_pos hk]
  · intro name hn hnot
    have hdrop : (writeImage names code).drop 16 = strBytes names ++ code := by
      rw [writeImage_eq, List.drop_append_of_le_length (by simp [headBytes_length]),
        List.drop_of_length_le (by simp [headBytes_length])]
      rfl
    simp only [keyId, Nat.mod_eq_of_lt hc]
    rw [findName_app _ code _ hn names hf 0 16 hdrop]
    have : names.findIdx? (· = name) = none := by
      rw [List.findIdx?_eq_none_iff]
      intro x hx
      have : x ≠ name := fun e => hnot (e ▸ hx)
      simpa using this
    rw [this]

/-- **C35 needs its bound.** With 65536 names (the most ids a 16-bit key can tell apart) the count
in the header is 0: no id has a name any more. -/
theorem C35_false (names : List (List Byte)) (code : List Byte) (h : names.length = 65536)
    (hs : 16 + (strBytes names).length < 2 ^ 32) :
    ∃ P, loadIl (writeImage names code) = .ok P ∧
      (∀ k, keyName P k = .none) ∧ (∀ name, keyId P name = .none) := by
  refine ⟨_, load_writeImage names code hs, ?_, ?_⟩
  · intro k; simp [keyName, h]
  · intro name; simp [keyId, h, findName]

/-- Such tables exist. -/
example : ∃ names : List (List Byte), names.length = 65536 ∧
    16 + (strBytes names).length < 2 ^ 32 := by
  refine ⟨List.replicate 65536 [], List.length_replicate, ?_⟩
  have : ∀ n, (strBytes (List.replicate n [])).length = n := by
    intro n; induction n with
    | zero => rfl
    | succ n ih => simp [List.replicate_succ, strBytes, ih]
  rw [this]; omega

/-- "id", "len" and the empty name, followed by two bytes of code. -/
def threeNames : List (List Byte) := [[0x69, 0x64], [0x6C, 0x65, 0x6E], []]

example : ∃ P, loadIl (writeImage threeNames [0x10, 0]) = .ok P ∧ P.code = [0x10, 0] ∧
    keyName P 1 = .found 19 ∧ cstrAt P.image 19 = some [0x6C, 0x65, 0x6E] ∧
    keyId P [0x6C, 0x65, 0x6E] = .found 1 ∧ keyId P [0x6C] = .none :=
  ⟨_, rfl, by decide +kernel, by decide +kernel, by decide +kernel, by decide +kernel,
    by decide +kernel⟩

example : (∀ n ∈ threeNames, ∀ b ∈ n, b ≠ 0) ∧ threeNames.Nodup ∧ threeNames.length < 65536 ∧
    16 + (strBytes threeNames).length < 2 ^ 32 := by decide +kernel

/-! ### C37: lookups and the bounds of the image -/

/-- **C37 is false.** An accepted image for which looking up the name of id 1, or the id of any
name, reads past its end: the loader never checks that the announced strings are there. -/
theorem C37_false : ∃ img P, loadIl img = .ok P ∧ keyName P 1 = .ub ∧
    (∀ name, keyId P name = .ub) ∧
    ∃ q, keyName P 0 = .found q ∧ q = img.length := by
  refine ⟨bareImage, ⟨bareImage, 16, 2, []⟩, by decide +kernel, by decide +kernel, ?_, 16,
    by decide +kernel, by decide +kernel⟩
  intro name
  show findName bareImage name 2 0 16 = .ub
  have : bareImage.drop 16 = [] := by decide +kernel
  simp [findName, this, strEq]

/-- **C37, exactly when.** For an accepted image, looking up the name of id `k` stays inside the
image if and only if `k` NUL bytes follow the start of the string table, and the name it returns
is a string lying inside the image if and only if there are more than `k`. -/
theorem C37_name_partial (img : List Byte) (P : Program) (h : loadIl img = .ok P) (k : Nat) :
    (keyName P k = .ub ↔ k < P.count ∧ (img.drop P.strOff).count 0 < k) ∧
    (∀ q, keyName P k = .found q → P.strOff ≤ q ∧ q ≤ img.length ∧
      (cstrAt img q ≠ none ↔ k < (img.drop P.strOff).count 0)) := by
  obtain ⟨himg, _, hso, _⟩ := C36_suffix img P h
  have hs := skipNames_spec img k P.strOff hso
  unfold keyName
  rw [himg]
  generalize hz : (img.drop P.strOff).count 0 = z at *
  by_cases hk : k ≥ P.count
  · rw [if_pos hk]
    refine ⟨⟨fun h => by simp at h, fun h => by omega⟩, fun q hq => by simp at hq⟩
  rw [if_neg hk]
  rcases hs with ⟨h1, h2⟩ | ⟨q, h1, h2, h3, h4⟩
  · rw [h1]
    refine ⟨⟨fun _ => ⟨by omega, h2⟩, fun _ => rfl⟩, fun q hq => by simp at hq⟩
  · rw [h1]
    refine ⟨⟨fun h => by simp at h, fun h => by omega⟩, ?_⟩
    intro r hr
    cases hr
    refine ⟨h2, h3, ?_⟩
    unfold cstrAt
    have hc : (0 : Byte) ∈ img.drop q ↔ 0 < (img.drop q).count 0 := List.count_pos_iff.symm
    by_cases hm : (0 : Byte) ∈ img.drop q
    · rw [if_pos hm]
      refine ⟨fun _ => ?_, fun _ h => by simp at h⟩
      have := hc.1 hm; omega
    · rw [if_neg hm]
      refine ⟨fun h => absurd rfl h, fun h => ?_⟩
      have := mt hc.2 hm; omega

theorem findName_safe (img name : List Byte) (hn : NulFree name) (n i p : Nat)
    (hp : p ≤ img.length) (h : n ≤ (img.drop p).count 0) : findName img name n i p ≠ .ub := by
  induction n generalizing i p with
  | zero => simp [findName]
  | succ n ih =>
    simp only [findName]
    have hm : (0 : Byte) ∈ img.drop p := List.count_pos_iff.1 (by omega)
    have hse := strEq_none hn hm
    cases hq : strEq (img.drop p) name with
    | none => exact absurd hq hse
    | some b =>
      cases b with
      | true => simp
      | false =>
        dsimp only
        rcases afterNul_spec (img.drop p) p with ⟨h1, h2⟩ | ⟨q, h1, h2, h3, h4, _⟩
        · omega
        · rw [h1]; dsimp only
          rw [List.length_drop] at h3
          rw [List.drop_drop] at h4
          exact ih _ _ (by omega) (by omega)

/-- **C37 for images that carry the strings they announce** (as every image of C35 does): no lookup
of a name or of an id leaves the image. -/
theorem C37_lookup_partial (img : List Byte) (P : Program) (h : loadIl img = .ok P)
    (hz : P.count ≤ (img.drop P.strOff).count 0) :
    (∀ k, keyName P k ≠ .ub) ∧
    (∀ k q, keyName P k = .found q → cstrAt img q ≠ none) ∧
    (∀ name, NulFree name → keyId P name ≠ .ub) := by
  obtain ⟨himg, _, hso, _⟩ := C36_suffix img P h
  refine ⟨?_, ?_, ?_⟩
  · intro k hk
    have := ((C37_name_partial img P h k).1).1 hk
    omega
  · intro k q hk
    refine (((C37_name_partial img P h k).2 q hk).2.2).2 ?_
    unfold keyName at hk
    split at hk
    · simp at hk
    · omega
  · intro name hn
    unfold keyId
    rw [himg]
    exact findName_safe _ _ hn _ _ _ hso hz

/-- The images the compiler writes carry their strings. -/
theorem C37_compiled (names : List (List Byte)) (code : List Byte)
    (hs : 16 + (strBytes names).length < 2 ^ 32) :
    ∃ P, loadIl (writeImage names code) = .ok P ∧
      P.count ≤ ((writeImage names code).drop P.strOff).count 0 := by
  refine ⟨_, load_writeImage names code hs, ?_⟩
  have hdrop : (writeImage names code).drop 16 = strBytes names ++ code := by
    rw [writeImage_eq, List.drop_append_of_le_length (by simp [headBytes_length]),
      List.drop_of_length_le (by simp [headBytes_length])]
    rfl
  show names.length % 65536 ≤ _
  rw [hdrop, List.count_append]
  have : names.length ≤ (strBytes names).count 0 := by
    clear hs hdrop
    induction names with
    | nil => simp
    | cons n ns ih => simp only [strBytes, List.count_append, List.count_cons_self,
        List.length_cons]; omega
  omega

end Cnd
