import Verif.GenBind
/-
  C86: the constants generated for other languages have the values and the names of those in the header.
-/

namespace Cnd

/-! ### What a header says -/

/-- A digit of a base. -/
def baseDigit (base : Nat) (c : Byte) : Option Nat :=
  ((List.range base).find? fun d => (c.toNat = if d < 10 then 0x30 + d else 0x41 + (d - 10)) ∨ (10 ≤ d ∧ c.toNat = 0x61 + (d - 10)))

/-- The number digits stand for. -/
def readDigits (base : Nat) (l : List Byte) : Option Nat :=
  l.foldl (fun acc c => acc.bind fun a => (baseDigit base c).map fun d => base * a + d) (some 0)

/-- A number as C, Go, Python and TypeScript read it: decimal without leading zeros or hexadecimal, possibly negative. -/
def numLit (l : List Byte) : Option Int :=
  let nat : List Byte → Option Nat := fun t =>
    match t with
    | [] => none
    | [c] => readDigits 10 [c]
    | a :: b :: r =>
      if a = 0x30 then (if b = 0x78 ∧ r ≠ [] then readDigits 16 r else none)
      else readDigits 10 (a :: b :: r)
  match l with
  | [] => none
  | a :: r => if a = 0x2D then (nat r).map fun (n : Nat) => -(n : Int) else (nat (a :: r)).map fun (n : Nat) => (n : Int)

/-- What a line of the header says. -/
inductive HItem
  /-- An opcode `OP_name` with its value. -/
  | op (name value : List Byte)
  /-- A new enumeration begins. -/
  | begin
  /-- The next enumerator, with or without a value. -/
  | member (name : List Byte) (value : Option (List Byte))
  /-- Nothing of interest. -/
  | skip
  deriving DecidableEq, Repr

/-- The constants C sees, in order; `next` is the value of the next enumerator without one. -/
def cMeaning : Int → List HItem → List (List Byte × Int)
  | _, [] => []
  | next, .op n v :: r => (word "OP_" ++ n, (numLit v).getD 0) :: cMeaning next r
  | _, .begin :: r => cMeaning 0 r
  | _, .member n (some v) :: r => (n, (numLit v).getD 0) :: cMeaning ((numLit v).getD 0 + 1) r
  | next, .member n none :: r => (n, next) :: cMeaning (next + 1) r
  | next, .skip :: r => cMeaning next r

/-- White space within a line. -/
def Blanks (l : List Byte) : Prop := ∀ b ∈ l, b = 0x20 ∨ b = 0x09

/-- An identifier. -/
def Ident (l : List Byte) : Prop := ∀ b ∈ l, gAlnum b = true ∨ b = 0x5F

/-- The rest of a line: blanks, then possibly a comment. -/
def TailOf (l : List Byte) : Prop := ∃ s c, Blanks s ∧ (c = [] ∨ ∃ t, c = 0x2F :: 0x2F :: t) ∧ l = s ++ c

/-- The lines, without the newline, that say an item. -/
def LineOf (l : List Byte) : HItem → Prop
  | .op n v => ∃ s1 s2 t, Blanks s1 ∧ s1 ≠ [] ∧ Blanks s2 ∧ s2 ≠ [] ∧ TailOf t ∧ Ident n ∧ n ≠ [] ∧ n.length ≤ 250 ∧ v.length ≤ 250 ∧
      (numLit v).isSome = true ∧ l = word "#define" ++ s1 ++ word "OP_" ++ n ++ s2 ++ v ++ t
  | .member n v => ∃ s1 s2 e t, Blanks s1 ∧ Blanks s2 ∧ TailOf t ∧ Ident n ∧ n.length ≤ 250 ∧ (word "CND_").isPrefixOf n = true ∧
      (match v with
        | none => e = []
        | some v => (numLit v).isSome = true ∧ v.length ≤ 250 ∧ ∃ s3 s4, Blanks s3 ∧ Blanks s4 ∧ e = [0x3D] ++ s3 ++ v ++ s4) ∧
      (∃ comma, (comma = [] ∨ comma = [0x2C]) ∧ l = s1 ++ n ++ s2 ++ e ++ comma ++ t)
  | _ => (∀ s r, (∀ b ∈ s, gSpace b = true) → l ≠ word "#define" ++ s ++ word "OP_" ++ r) ∧
      (∀ s r, (∀ b ∈ s, gSpace b = true) → l ≠ s ++ word "CND_" ++ r)

/-- A header: lines that say the items one after the other. -/
inductive Header : List Byte → List HItem → Prop
  | nil : Header [] []
  | line {l : List Byte} {i : HItem} {rest : List Byte} {is : List HItem} (hl : LineOf l i) (hn : ∀ b ∈ l, b ≠ 0x0A ∧ b ≠ 0)
      (hlen : l.length ≤ 1000) (hr : Header rest is) : Header (l ++ [0x0A] ++ rest) (i :: is)

/-- Every enumeration gives its first member a value. -/
def firstGiven : Bool → List HItem → Bool
  | _, [] => true
  | _, .begin :: r => firstGiven true r
  | b, .member _ none :: r => !b && firstGiven false r
  | _, .member _ (some _) :: r => firstGiven false r
  | b, .op _ _ :: r => firstGiven b r
  | b, .skip :: r => firstGiven b r

/-! ### What the constants are called -/

/-- The words between underscores. -/
def splitWords : List Byte → List (List Byte)
  | [] => [[]]
  | c :: r =>
    if c = 0x5F then [] :: splitWords r
    else
      match splitWords r with
      | [] => [[c]]
      | w :: ws => (c :: w) :: ws

/-- A word in the name of a constant: known abbreviations stay as they are, others get one capital letter. -/
def capWord (w : List Byte) : List Byte :=
  if w ∈ ["OOB", "CRC", "ID", "VM"].map word then w
  else (w.take 1).map gToUpper ++ (w.drop 1).map gToLower

/-- SCREAMING_SNAKE_CASE to PascalCase. -/
def pascal (l : List Byte) : List Byte := (splitWords l).flatMap capWord

/-- The kinds of constants. -/
inductive GKind
  | op
  | err
  | mode
  | trans
  | order
  deriving DecidableEq, Repr

/-- How the names of a kind begin in the header, how much of that is dropped and what is put there instead. -/
def GKind.kindOf (n : List Byte) : Option GKind :=
  if (word "OP_") <+: n then some .op
  else if (word "CND_ERR_") <+: n then some .err
  else if (word "CND_MODE_") <+: n then some .mode
  else if (word "CND_TRANS_") <+: n then some .trans
  else if (word "CND_LE") <+: n ∨ (word "CND_BE") <+: n then some .order
  else none

def GKind.rename (n : List Byte) : GKind → List Byte
  | .op => word "Op" ++ pascal (n.drop 3)
  | .err => word "Err" ++ pascal (n.drop 8)
  | .mode => word "Mode" ++ pascal (n.drop 9)
  | .trans => word "Trans" ++ pascal (n.drop 10)
  | .order => pascal (n.drop 4)

/-- The constants of a kind a header should give: new name and value. -/
def wanted (k : GKind) (l : List (List Byte × Int)) : List (List Byte × Option Int) :=
  (l.filter fun c => GKind.kindOf c.1 = some k).map fun c => (k.rename c.1, some c.2)

def GTab.kind (g : GTab) : GKind → List GConst
  | .op => g.ops
  | .err => g.errs
  | .mode => g.modes
  | .trans => g.trans
  | .order => g.others

/-- Names with the values the texts stand for. -/
def valued (t : List GConst) : List (List Byte × Option Int) := t.map fun c => (c.1, numLit c.2)


/-! ### Names -/

theorem flushPart_cap (w : List Byte) : flushPart w = capWord w := by
  unfold flushPart capWord
  by_cases h : keepUpper.contains w = true
  · rw [if_pos h, if_pos (by simpa [keepUpper] using h)]
  · rw [if_neg h, if_neg (by simpa [keepUpper] using h)]
    cases w <;> rfl

theorem capWord_length (w : List Byte) : (capWord w).length = w.length := by
  unfold capWord
  split
  · rfl
  · simp only [List.length_append, List.length_map, List.length_take, List.length_drop]
    omega

theorem splitWords_ne (l : List Byte) : splitWords l ≠ [] := by
  cases l with
  | nil => simp [splitWords]
  | cons c r =>
    unfold splitWords
    split
    · simp
    · split <;> simp

/-- The words with something already read of the first. -/
def wordsFrom (buf l : List Byte) : List (List Byte) :=
  match splitWords l with
  | [] => [buf]
  | w :: ws => (buf ++ w) :: ws

theorem pascalLoop_eq (l buf out : List Byte) (h : out.length + buf.length + l.length < 256) :
    pascalLoop l buf out = some (out ++ (wordsFrom buf l).flatMap capWord) := by
  induction l generalizing buf out with
  | nil =>
    unfold pascalLoop
    rw [if_neg]
    · simp [wordsFrom, splitWords, flushPart_cap]
    · rw [flushPart_cap, List.length_append, capWord_length]
      simp only [List.length_nil] at h
      omega
  | cons c r ih =>
    simp only [List.length_cons] at h
    unfold pascalLoop
    split
    · rename_i hc
      rw [if_neg (by omega), ih _ _ (by rw [List.length_append, flushPart_cap, capWord_length]; simp only [List.length_nil]; omega)]
      have hs := splitWords_ne r
      cases hr : splitWords r with
      | nil => exact absurd hr hs
      | cons w ws => simp [wordsFrom, splitWords, hc, hr, flushPart_cap]
    · rename_i hc
      rw [if_neg (by omega), ih _ _ (by simp only [List.length_append, List.length_cons, List.length_nil]; omega)]
      have hs := splitWords_ne r
      cases hr : splitWords r with
      | nil => exact absurd hr hs
      | cons w ws =>
        have hc' : ¬ c = 95#8 := hc
        simp [wordsFrom, splitWords, hc', hr]

theorem toPascal_eq (rest strip add : List Byte) (h : add.length + rest.length < 256) :
    toPascal (strip ++ rest) strip add = some (add ++ pascal rest) := by
  unfold toPascal
  rw [if_pos (by simp), List.drop_left, pascalLoop_eq _ _ _ (by simpa using h)]
  have hs := splitWords_ne rest
  cases hr : splitWords rest with
  | nil => exact absurd hr hs
  | cons w ws => simp [wordsFrom, pascal, hr]

/-! ### Numbers -/

theorem baseDigit_eq (c : Byte) : baseDigit 10 c = gDigVal 10 c ∧ baseDigit 16 c = gDigVal 16 c := by
  revert c
  decide +kernel

theorem foldl_none {base : Nat} (l : List Byte) :
    l.foldl (fun acc c => acc.bind fun a => (baseDigit base c).map fun d => base * a + d) none = none := by
  induction l with
  | nil => rfl
  | cons c r ih => exact ih

theorem gVal_eq {base : Nat} (hb : ∀ c, baseDigit base c = gDigVal base c) (l : List Byte) (acc n : Nat)
    (h : l.foldl (fun acc c => acc.bind fun a => (baseDigit base c).map fun d => base * a + d) (some acc) = some n) :
    gVal base (gDigVal base) l acc = n := by
  induction l generalizing acc with
  | nil => simpa [gVal] using h
  | cons c r ih =>
    simp only [List.foldl_cons, Option.bind_some] at h
    unfold gVal
    rw [← hb c]
    cases hd : baseDigit base c with
    | none =>
      rw [hd, Option.map_none, foldl_none] at h
      cases h
    | some d =>
      rw [hd, Option.map_some] at h
      dsimp only
      rw [Nat.mul_comm]
      exact ih _ h

/-- The digits of such a text. -/
theorem readDigits_mem {base : Nat} (l : List Byte) {acc n : Option Nat}
    (h : l.foldl (fun acc c => acc.bind fun a => (baseDigit base c).map fun d => base * a + d) acc = n) (hn : n.isSome = true) :
    ∀ c ∈ l, (baseDigit base c).isSome = true := by
  induction l generalizing acc with
  | nil => simp
  | cons c r ih =>
    intro x hx
    rcases List.mem_cons.1 hx with rfl | hx
    · simp only [List.foldl_cons] at h
      cases hd : baseDigit base x with
      | some d => rfl
      | none =>
        rw [hd] at h
        rw [show (acc.bind fun a => Option.map (fun d => base * a + d) none) = none from by cases acc <;> rfl, foldl_none] at h
        rw [← h] at hn
        cases hn
    · exact ih h x hx

/-- A number without its sign. -/
def natLit (t : List Byte) : Option Nat :=
  match t with
  | [] => none
  | [c] => readDigits 10 [c]
  | a :: b :: r =>
    if a = 0x30 then (if b = 0x78 ∧ r ≠ [] then readDigits 16 r else none)
    else readDigits 10 (a :: b :: r)

theorem numLit_eq (l : List Byte) : numLit l = match l with
    | [] => none
    | a :: r => if a = 0x2D then (natLit r).map fun (n : Nat) => -(n : Int) else (natLit (a :: r)).map fun (n : Nat) => (n : Int) := rfl

/-- What strtol makes of the text behind the sign. -/
def strtolNat (t : List Byte) : Nat :=
  if t.head? = some 0x30 ∧ (t.tail.head? = some 0x78 ∨ t.tail.head? = some 0x58) ∧ (t.tail.tail.head?.bind (gDigVal 16)).isSome then gVal 16 (gDigVal 16) t.tail.tail 0
  else if t.head? = some 0x30 then gVal 8 (gDigVal 8) t 0
  else gVal 10 (gDigVal 10) t 0

theorem strtolNat_eq {t : List Byte} {n : Nat} (h : natLit t = some n) : strtolNat t = n := by
  unfold natLit at h
  split at h
  · cases h
  · rename_i c
    have h10 := gVal_eq (fun c => (baseDigit_eq c).1) [c] 0 n h
    unfold strtolNat
    rw [if_neg (fun h => by simp at h)]
    split
    · rename_i h0
      have : c = 0x30 := by simpa using h0
      subst this
      have : n = 0 := by
        have : readDigits 10 [0x30] = some 0 := by decide +kernel
        rw [this] at h
        exact (Option.some.inj h).symm
      subst this
      decide +kernel
    · exact h10
  · rename_i a b r
    split at h
    · rename_i ha
      split at h
      · rename_i hb
        obtain ⟨rfl, hr⟩ := hb
        subst ha
        have hx := gVal_eq (fun c => (baseDigit_eq c).2) r 0 n h
        unfold strtolNat
        rw [if_pos]
        · exact hx
        · refine ⟨rfl, .inl rfl, ?_⟩
          cases r with
          | nil => exact absurd rfl hr
          | cons x r =>
            have := readDigits_mem (x :: r) h rfl x (List.mem_cons_self ..)
            rw [(baseDigit_eq x).2] at this
            simpa using this
      · cases h
    · rename_i ha
      unfold strtolNat
      rw [if_neg (fun h => ha (by simpa using h.1)), if_neg (fun h => ha (by simpa using h))]
      exact gVal_eq (fun c => (baseDigit_eq c).1) _ 0 n h

theorem strtol0_eq {l : List Byte} {x : Int} (h : numLit l = some x) (h1 : -(2 ^ 31) ≤ x) (h2 : x < 2 ^ 31) : toInt32 (strtol0 l) = x := by
  have key : strtol0 l = x := by
    rw [numLit_eq] at h
    have hs : strtol0 l = if l.head? = some 0x2D then max (-(strtolNat (if l.head? = some 0x2D then l.tail else l) : Int)) (-(2 ^ 63))
        else min (strtolNat (if l.head? = some 0x2D then l.tail else l) : Int) (2 ^ 63 - 1) := by
      unfold strtol0 strtolNat
      by_cases hh : l.head? = some 0x2D <;> simp [hh]
    rw [hs]
    cases l with
    | nil => cases h
    | cons a r =>
      dsimp only at h
      split at h
      · rename_i ha
        subst ha
        cases hn : natLit r with
        | none => rw [hn] at h; cases h
        | some n =>
          rw [hn] at h
          have hx : x = -(n : Int) := by simpa using h.symm
          have hh : ((0x2D : Byte) :: r).head? = some 0x2D := rfl
          rw [if_pos hh, if_pos hh, List.tail_cons, strtolNat_eq hn]
          omega
      · rename_i ha
        cases hn : natLit (a :: r) with
        | none => rw [hn] at h; cases h
        | some n =>
          rw [hn] at h
          have hx : x = (n : Int) := by simpa using h.symm
          have hne : ¬ (a :: r).head? = some 0x2D := fun hh => ha (by simpa using hh)
          rw [if_neg hne, if_neg hne, strtolNat_eq hn]
          omega
  rw [key]
  unfold toInt32
  omega

theorem foldDigits_append (base : Nat) (l : List Byte) (c : Byte) :
    readDigits base (l ++ [c]) = (readDigits base l).bind fun a => (baseDigit base c).map fun d => base * a + d := by
  unfold readDigits
  rw [List.foldl_append]
  rfl

theorem decDigit (k : Nat) (hk : k < 10) : baseDigit 10 (BitVec.ofNat 8 (0x30 + k)) = some k ∧ BitVec.ofNat 8 (0x30 + k) ≠ 0x2D ∧
    (BitVec.ofNat 8 (0x30 + k) = 0x30 → k = 0) := by
  have : ∀ k : Fin 10, baseDigit 10 (BitVec.ofNat 8 (0x30 + k.val)) = some k.val ∧ BitVec.ofNat 8 (0x30 + k.val) ≠ (0x2D : Byte) ∧
    (BitVec.ofNat 8 (0x30 + k.val) = (0x30 : Byte) → k.val = 0) := by decide +kernel
  exact this ⟨k, hk⟩

theorem decRev_read (n : Nat) : readDigits 10 (decRev n).reverse = some n := by
  induction n using Nat.strongRecOn with
  | ind n ih =>
    unfold decRev
    split
    · rename_i h
      rw [show ([BitVec.ofNat 8 (0x30 + n)] : List Byte).reverse = [] ++ [BitVec.ofNat 8 (0x30 + n)] from rfl, foldDigits_append, (decDigit n h).1]
      simp [readDigits]
    · rename_i h
      rw [List.reverse_cons, foldDigits_append, ih (n / 10) (by omega), (decDigit (n % 10) (by omega)).1]
      simp only [Option.bind_some, Option.map_some, Option.some.injEq]
      omega

theorem decRev_head (n : Nat) : ∃ a r, (decRev n).reverse = a :: r ∧ a ≠ 0x2D ∧ (0 < n → a ≠ 0x30) ∧ (10 ≤ n → r ≠ []) := by
  induction n using Nat.strongRecOn with
  | ind n ih =>
    unfold decRev
    split
    · rename_i h
      have := decDigit n h
      exact ⟨_, [], rfl, this.2.1, fun hn he => by have := this.2.2 he; omega, fun h' => by omega⟩
    · rename_i h
      obtain ⟨a, r, h1, h2, h3, _⟩ := ih (n / 10) (by omega)
      rw [List.reverse_cons, h1]
      exact ⟨a, r ++ [_], rfl, h2, fun _ => h3 (by omega), fun _ => by simp⟩

theorem natLit_dec (n : Nat) : natLit (decRev n).reverse = some n := by
  obtain ⟨a, r, h1, h2, h3, h4⟩ := decRev_head n
  have hr := decRev_read n
  rw [h1] at hr ⊢
  unfold natLit
  cases r with
  | nil => exact hr
  | cons b r =>
    dsimp only
    rw [if_neg]
    · exact hr
    · by_cases hn : n < 10
      · unfold decRev at h1
        rw [if_pos hn] at h1
        simp at h1
      · exact h3 (by omega)

theorem numLit_fmt (x : Int) : numLit (fmtD x) = some x := by
  rw [numLit_eq]
  unfold fmtD
  split
  · rename_i h
    split at h
    · cases h
    · obtain ⟨a, r, h1, _⟩ := decRev_head x.natAbs
      rw [h1] at h
      cases h
  · rename_i a r h
    split at h
    · rename_i hx
      simp only [List.cons.injEq] at h
      obtain ⟨rfl, rfl⟩ := h
      rw [if_pos rfl, natLit_dec]
      simp only [Option.map_some, Option.some.injEq]
      omega
    · rename_i hx
      obtain ⟨a', r', h1, h2, _⟩ := decRev_head x.natAbs
      have h' := h
      rw [h1] at h'
      simp only [List.cons.injEq] at h'
      rw [if_neg (by rw [← h'.1]; exact h2), ← h, natLit_dec]
      simp only [Option.map_some, Option.some.injEq]
      omega


/-! ### Lines -/

theorem blank_space {l : List Byte} (h : Blanks l) : ∀ b ∈ l, gSpace b = true := by
  intro b hb
  rcases h b hb with rfl | rfl <;> decide

/-- A byte of an identifier or a number: no white space, no comma and so on. -/
def Solid (b : Byte) : Prop := gSpace b = false ∧ b ≠ 0x2F ∧ b ≠ 0x3D ∧ b ≠ 0x2C ∧ b ≠ 0x0A

theorem alnum_solid : ∀ b : Byte, (gAlnum b = true ∨ b = 0x5F ∨ b = 0x2D) → Solid b := by
  unfold Solid
  decide +kernel

theorem ident_solid {l : List Byte} (h : Ident l) : ∀ b ∈ l, Solid b := fun b hb =>
  alnum_solid b ((h b hb).imp_right .inl)

theorem digit_alnum : ∀ b : Byte, ((baseDigit 10 b).isSome = true ∨ (baseDigit 16 b).isSome = true) → gAlnum b = true := by decide +kernel

theorem natLit_chars {t : List Byte} {n : Nat} (h : natLit t = some n) : ∀ b ∈ t, gAlnum b = true := by
  unfold natLit at h
  intro b hb
  split at h
  · cases h
  · exact digit_alnum b (.inl (readDigits_mem _ h rfl b hb))
  · rename_i x y r
    split at h
    · rename_i hx
      split at h
      · rename_i hy
        rcases List.mem_cons.1 hb with rfl | hb
        · rw [hx]; decide
        · rcases List.mem_cons.1 hb with rfl | hb
          · rw [hy.1]; decide
          · exact digit_alnum b (.inr (readDigits_mem _ h rfl b hb))
      · cases h
    · exact digit_alnum b (.inl (readDigits_mem _ h rfl b hb))

theorem numLit_chars {t : List Byte} (h : (numLit t).isSome = true) : t ≠ [] ∧ ∀ b ∈ t, (gAlnum b = true ∨ b = 0x2D) := by
  rw [numLit_eq] at h
  cases t with
  | nil => cases h
  | cons a r =>
    refine ⟨by simp, fun b hb => ?_⟩
    dsimp only at h
    split at h
    · rename_i ha
      cases hn : natLit r with
      | none => rw [hn] at h; cases h
      | some n =>
        rcases List.mem_cons.1 hb with rfl | hb
        · exact .inr ha
        · exact .inl (natLit_chars hn b hb)
    · cases hn : natLit (a :: r) with
      | none => rw [hn] at h; cases h
      | some n => exact .inl (natLit_chars hn b hb)

theorem numLit_solid {t : List Byte} (h : (numLit t).isSome = true) : ∀ b ∈ t, Solid b := fun b hb =>
  alnum_solid b (((numLit_chars h).2 b hb).imp_right .inr)

theorem cut_plain (l r : List Byte) (h : ∀ b ∈ l, b ≠ 0x2F) : cutComment (l ++ r) = l ++ cutComment r := by
  induction l with
  | nil => rfl
  | cons a l ih =>
    rw [List.cons_append, cutComment, if_neg (fun hh => h a (List.mem_cons_self ..) hh.1), ih (fun b hb => h b (List.mem_cons_of_mem _ hb))]
    rfl

/-- What is left of a line when the comment is cut off. -/
theorem cut_line (body t : List Byte) (hb : ∀ b ∈ body, b ≠ 0x2F) (ht : TailOf t) :
    ∃ w, (∀ b ∈ w, gSpace b = true) ∧ cutComment (body ++ t ++ [0x0A]) = body ++ w := by
  obtain ⟨s, c, hs, hc, rfl⟩ := ht
  have hs2 : ∀ b ∈ s, b ≠ 0x2F := by
    intro b hb
    rcases hs b hb with rfl | rfl <;> decide
  rcases hc with rfl | ⟨t, rfl⟩
  · refine ⟨s ++ [0x0A], ?_, ?_⟩
    · intro b hb
      rcases List.mem_append.1 hb with hb | hb
      · exact blank_space hs b hb
      · rw [List.mem_singleton.1 hb]; decide
    · rw [show body ++ (s ++ []) ++ [0x0A] = body ++ (s ++ [0x0A]) from by simp, cut_plain _ _ hb, cut_plain _ _ hs2]
      rfl
  · refine ⟨s, blank_space hs, ?_⟩
    rw [show body ++ (s ++ 0x2F :: 0x2F :: t) ++ [0x0A] = body ++ (s ++ (0x2F :: 0x2F :: (t ++ [0x0A]))) from by simp, cut_plain _ _ hb, cut_plain _ _ hs2]
    simp [cutComment]

theorem drop_head {p : Byte → Bool} {a r : List Byte} (ha : ∀ b ∈ a, p b = true) (hr : ∀ b r', r = b :: r' → p b = false) : (a ++ r).dropWhile p = r := by
  rw [List.dropWhile_append_of_pos ha]
  cases r with
  | nil => rfl
  | cons b r' => rw [List.dropWhile_cons, hr b r' rfl]; rfl

theorem take_head {p : Byte → Bool} {a r : List Byte} (ha : ∀ b ∈ a, p b = true) (hr : ∀ b r', r = b :: r' → p b = false) : (a ++ r).takeWhile p = a := by
  rw [List.takeWhile_append_of_pos ha]
  cases r with
  | nil => simp
  | cons b r' => rw [List.takeWhile_cons, hr b r' rfl]; simp

theorem afterWord_append (w l : List Byte) : afterWord w (w ++ l) = some l := by
  unfold afterWord
  rw [if_pos (by simp), List.drop_left]

theorem scanWord_eq {s w r : List Byte} (hs : ∀ b ∈ s, gSpace b = true) (hw : ∀ b ∈ w, Solid b) (hne : w ≠ [])
    (hr : ∀ b ∈ r, gSpace b = true) {r' : List Byte} (hr' : r ≠ [] ∨ r' = []) : scanWord (s ++ w ++ r ++ r') = (w, r ++ r') := by
  have h1 : (s ++ w ++ r ++ r').dropWhile gSpace = w ++ (r ++ r') := by
    rw [show s ++ w ++ r ++ r' = s ++ (w ++ (r ++ r')) from by simp]
    refine drop_head hs fun b r' h => ?_
    cases w with
    | nil => exact absurd rfl hne
    | cons x w =>
      rw [List.cons_append, List.cons.injEq] at h
      exact h.1 ▸ (hw x (List.mem_cons_self ..)).1
  have h2 : ∀ b q, r ++ r' = b :: q → (!gSpace b) = false := by
    intro b q h
    cases r with
    | nil =>
      rcases hr' with h' | rfl
      · exact absurd rfl h'
      · cases h
    | cons x r =>
      rw [List.cons_append, List.cons.injEq] at h
      rw [← h.1, hr x (List.mem_cons_self ..)]
      rfl
  unfold scanWord
  rw [h1, take_head (fun b hb => by simp [(hw b hb).1]) h2, drop_head (fun b hb => by simp [(hw b hb).1]) h2]

theorem word_define : ∀ b ∈ word "#define", b ≠ 0x2F := by decide
theorem word_op : ∀ b ∈ word "OP_", b ≠ 0x2F := by decide

/-- A line with an opcode. -/
theorem process_op {l n v : List Byte} (h : LineOf l (.op n v)) (g : GTab) (hg : g.ops.length < 256) :
    processLine g (l ++ [0x0A]) = some { g with ops := g.ops ++ [(word "Op" ++ pascal n, v)] } := by
  obtain ⟨s1, s2, t, hs1, _, hs2, hne2, ht, hn, hnn, hnl, hvl, hv, rfl⟩ := h
  have hvs := numLit_solid hv
  have hvn := (numLit_chars hv).1
  have hns := ident_solid hn
  obtain ⟨w, hw, hcut⟩ := cut_line (word "#define" ++ s1 ++ word "OP_" ++ n ++ s2 ++ v) t (by
    intro b hb
    simp only [List.mem_append] at hb
    rcases hb with ((((hb | hb) | hb) | hb) | hb) | hb
    · exact word_define b hb
    · rcases hs1 b hb with rfl | rfl <;> decide
    · exact word_op b hb
    · exact (hns b hb).2.1
    · rcases hs2 b hb with rfl | rfl <;> decide
    · exact (hvs b hb).2.1) ht
  have hscan : scanDefine (word "#define" ++ s1 ++ word "OP_" ++ n ++ s2 ++ v ++ w) = some (n, v) := by
    unfold scanDefine
    rw [show word "#define" ++ s1 ++ word "OP_" ++ n ++ s2 ++ v ++ w = word "#define" ++ (s1 ++ (word "OP_" ++ (n ++ s2 ++ v ++ w))) from by simp,
      afterWord_append]
    simp only [Option.bind_eq_bind, Option.bind_some]
    rw [drop_head (blank_space hs1) (fun b r' h => by
      rw [show word "OP_" = 0x4F :: word "P_" from by decide, List.cons_append, List.cons.injEq] at h
      rw [← h.1]; decide), afterWord_append]
    simp only [Option.bind_some]
    have e1 := scanWord_eq (s := []) (fun b hb => by cases hb) hns hnn (blank_space hs2) (r' := v ++ w) (.inl hne2)
    have e2 := scanWord_eq (blank_space hs2) hvs hvn hw (r' := []) (.inr rfl)
    simp only [List.nil_append, List.append_nil, ← List.append_assoc] at e1 e2 ⊢
    rw [e1]
    dsimp only
    rw [e2]
  unfold processLine
  rw [hcut]
  dsimp only
  rw [hscan]
  dsimp only
  rw [if_neg (by omega), if_pos ⟨hnn, hvn⟩, toPascal_eq n (word "OP_") (word "Op") (by rw [show (word "Op").length = 2 from by decide]; omega)]
  simp only [Option.bind_eq_bind, Option.bind_some]
  rw [putEntry, if_neg (by omega)]
  rfl


/-- What `cutComment` leaves is the beginning of the line. -/
theorem cut_prefix (l : List Byte) : cutComment l <+: l := by
  induction l with
  | nil => exact List.prefix_refl _
  | cons a l ih =>
    unfold cutComment
    split
    · exact List.nil_prefix
    · exact List.prefix_cons_iff.2 (.inr ⟨_, rfl, ih⟩)

theorem before_newline {l x r : List Byte} {a : Byte} (h : x ++ [a] ++ r = l ++ [0x0A]) (ha : a ≠ 0x0A) : ∃ r', l = x ++ [a] ++ r' := by
  rcases List.eq_nil_or_concat r with rfl | ⟨r', b, rfl⟩
  · rw [List.append_nil] at h
    exact absurd (List.cons.inj (List.append_inj' h rfl).2).1 ha
  · rw [List.concat_eq_append, ← List.append_assoc] at h
    exact ⟨r', (List.append_inj' h rfl).1.symm⟩

theorem drop_split (l : List Byte) : ∃ s, (∀ b ∈ s, gSpace b = true) ∧ l = s ++ l.dropWhile gSpace := by
  refine ⟨l.takeWhile gSpace, fun b hb => ?_, List.takeWhile_append_dropWhile.symm⟩
  exact List.all_eq_true.1 (List.all_takeWhile (p := gSpace) (l := l)) b hb

theorem afterWord_some {w l r : List Byte} (h : afterWord w l = some r) : l = w ++ r := by
  unfold afterWord at h
  split at h
  · rename_i hp
    obtain ⟨t, rfl⟩ := List.isPrefixOf_iff_prefix.1 hp
    rw [List.drop_left] at h
    rw [Option.some.inj h]
  · cases h

/-- A line of no interest. -/
theorem process_quiet {l : List Byte} (h1 : ∀ s r, (∀ b ∈ s, gSpace b = true) → l ≠ word "#define" ++ s ++ word "OP_" ++ r)
    (h2 : ∀ s r, (∀ b ∈ s, gSpace b = true) → l ≠ s ++ word "CND_" ++ r) (g : GTab) : processLine g (l ++ [0x0A]) = some g := by
  obtain ⟨rest, hrest⟩ := cut_prefix (l ++ [0x0A])
  unfold processLine
  dsimp only
  have hsc : scanDefine (cutComment (l ++ [0x0A])) = none := by
    cases hs : scanDefine (cutComment (l ++ [0x0A])) with
    | none => rfl
    | some x =>
      exfalso
      unfold scanDefine at hs
      simp only [Option.bind_eq_bind] at hs
      cases ha : afterWord (word "#define") (cutComment (l ++ [0x0A])) with
      | none => rw [ha] at hs; cases hs
      | some r =>
        rw [ha] at hs
        simp only [Option.bind_some] at hs
        cases hb : afterWord (word "OP_") (r.dropWhile gSpace) with
        | none => rw [hb] at hs; cases hs
        | some r2 =>
          obtain ⟨s, hsp, hr⟩ := drop_split r
          rw [afterWord_some hb] at hr
          rw [afterWord_some ha, hr] at hrest
          obtain ⟨r', hl⟩ := before_newline (x := word "#define" ++ s ++ word "OP") (a := 0x5F) (r := r2 ++ rest) (l := l) (by
            rw [← hrest, show word "OP_" = word "OP" ++ [0x5F] from by decide]
            simp) (by decide)
          refine h1 s r' hsp ?_
          rw [hl, show word "OP_" = word "OP" ++ [0x5F] from by decide]
          simp
  rw [hsc]
  dsimp only
  rw [if_neg]
  intro hp
  obtain ⟨t, ht⟩ := List.isPrefixOf_iff_prefix.1 hp
  obtain ⟨s, hsp, hr⟩ := drop_split (cutComment (l ++ [0x0A]))
  rw [← ht] at hr
  rw [hr] at hrest
  obtain ⟨r', hl⟩ := before_newline (x := s ++ word "CND") (a := 0x5F) (r := t ++ rest) (l := l) (by
    rw [← hrest, show word "CND_" = word "CND" ++ [0x5F] from by decide]
    simp) (by decide)
  refine h2 s r' hsp ?_
  rw [hl, show word "CND_" = word "CND" ++ [0x5F] from by decide]
  simp

/-- The table for a name. -/
theorem enterName_eq (g : GTab) (n v : List Byte) (hn : (word "CND_").isPrefixOf n = true) (hl : n.length ≤ 250) (hg : ∀ k, (g.kind k).length < 256) :
    ∃ g', enterName g n v = some g' ∧ g'.last = g.last ∧
      ∀ k, g'.kind k = g.kind k ++ (if GKind.kindOf n = some k then [(k.rename n, v)] else []) := by
  have hop : ¬ word "OP_" <+: n := by
    intro h
    obtain ⟨a, rfl⟩ := List.isPrefixOf_iff_prefix.1 hn
    obtain ⟨b, hb⟩ := h
    exact absurd (congrArg List.head? hb) (by simp [word])
  unfold enterName GKind.kindOf
  rw [if_neg hop]
  simp only [List.isPrefixOf_iff_prefix]
  have he := hg .err
  have hm := hg .mode
  have ht := hg .trans
  have ho := hg .order
  simp only [GTab.kind] at he hm ht ho
  split
  · rename_i h
    obtain ⟨r, rfl⟩ := h
    have hr : r.length ≤ 250 := by rw [List.length_append] at hl; omega
    rw [toPascal_eq r _ (word "Err") (by rw [show (word "Err").length = 3 from by decide]; omega)]
    simp only [Option.bind_eq_bind, Option.bind_some]
    rw [putEntry, if_neg (by omega)]
    refine ⟨_, rfl, rfl, fun k => ?_⟩
    cases k <;> simp [GTab.kind, GKind.rename]
    rw [show (8 : Nat) = (word "CND_ERR_").length from by decide, List.drop_left]
  split
  · rename_i h
    obtain ⟨r, rfl⟩ := h
    have hr : r.length ≤ 250 := by rw [List.length_append] at hl; omega
    rw [toPascal_eq r _ (word "Mode") (by rw [show (word "Mode").length = 4 from by decide]; omega)]
    simp only [Option.bind_eq_bind, Option.bind_some]
    rw [putEntry, if_neg (by omega)]
    refine ⟨_, rfl, rfl, fun k => ?_⟩
    cases k <;> simp [GTab.kind, GKind.rename]
    rw [show (9 : Nat) = (word "CND_MODE_").length from by decide, List.drop_left]
  split
  · rename_i h
    obtain ⟨r, rfl⟩ := h
    have hr : r.length ≤ 250 := by rw [List.length_append] at hl; omega
    rw [toPascal_eq r _ (word "Trans") (by rw [show (word "Trans").length = 5 from by decide]; omega)]
    simp only [Option.bind_eq_bind, Option.bind_some]
    rw [putEntry, if_neg (by omega)]
    refine ⟨_, rfl, rfl, fun k => ?_⟩
    cases k <;> simp [GTab.kind, GKind.rename]
    rw [show (10 : Nat) = (word "CND_TRANS_").length from by decide, List.drop_left]
  split
  · rename_i h
    obtain ⟨r, rfl⟩ := List.isPrefixOf_iff_prefix.1 hn
    have hr : r.length ≤ 250 := by rw [List.length_append] at hl; omega
    rw [toPascal_eq r _ [] (by simp only [List.length_nil]; omega)]
    simp only [Option.bind_eq_bind, Option.bind_some]
    rw [putEntry, if_neg (by omega)]
    refine ⟨_, rfl, rfl, fun k => ?_⟩
    cases k <;> simp [GTab.kind, GKind.rename]
    rw [show (4 : Nat) = (word "CND_").length from by decide, List.drop_left]
  · exact ⟨_, rfl, rfl, fun k => by simp⟩

/-- The value a line gives its member. -/
def memberText (last : Int) : Option (List Byte) → List Byte
  | some t => t
  | none => fmtD (last + 1)

/-- The value C gives the member. -/
def MemberHas (last : Int) (v : Option (List Byte)) (x : Int) : Prop :=
  match v with
  | some t => numLit t = some x
  | none => x = last + 1

/-- A line with an enumerator. -/
theorem process_member {l n : List Byte} {v : Option (List Byte)} (h : LineOf l (.member n v)) (g : GTab) (x : Int)
    (hx : MemberHas g.last v x) (h1 : -(2 ^ 31) ≤ x) (h2 : x < 2 ^ 31) :
    processLine g (l ++ [0x0A]) = enterName { g with last := x } n (memberText g.last v) := by
  obtain ⟨s1, s2, e, t, hs1, hs2, ht, hn, hnl, hpre, he, comma, hcomma, rfl⟩ := h
  have hns := ident_solid hn
  have hbl : ∀ s, Blanks s → ∀ b ∈ s, b ≠ (0x2F : Byte) := by
    intro s hs b hb
    rcases hs b hb with rfl | rfl <;> decide
  have hes : ∀ b ∈ e, b ≠ 0x2F := by
    intro b hb
    cases v with
    | none => rw [show e = [] from he] at hb; cases hb
    | some v =>
      obtain ⟨hv, _, s3, s4, hs3, hs4, rfl⟩ := he
      simp only [List.mem_append] at hb
      rcases hb with ((hb | hb) | hb) | hb
      · rw [List.mem_singleton.1 hb]; decide
      · exact hbl s3 hs3 b hb
      · exact (numLit_solid hv b hb).2.1
      · exact hbl s4 hs4 b hb
  have hcs : ∀ b ∈ comma, b ≠ 0x2F := by
    rcases hcomma with rfl | rfl
    · intro b hb; cases hb
    · decide
  obtain ⟨w, hw, hcut⟩ := cut_line (s1 ++ n ++ s2 ++ e ++ comma) t (by
    intro b hb
    simp only [List.mem_append] at hb
    rcases hb with (((hb | hb) | hb) | hb) | hb
    · exact hbl s1 hs1 b hb
    · exact (hns b hb).2.1
    · exact hbl s2 hs2 b hb
    · exact hes b hb
    · exact hcs b hb) ht
  obtain ⟨n', hn'⟩ := List.isPrefixOf_iff_prefix.1 hpre
  have hhead : n = 0x43 :: (word "ND_" ++ n') := by
    rw [← hn', show word "CND_" = 0x43 :: word "ND_" from by decide]
    rfl
  have hp : (s1 ++ n ++ s2 ++ e ++ comma ++ w).dropWhile gSpace = n ++ (s2 ++ e ++ comma ++ w) := by
    rw [show s1 ++ n ++ s2 ++ e ++ comma ++ w = s1 ++ (n ++ (s2 ++ e ++ comma ++ w)) from by simp]
    refine drop_head (blank_space hs1) fun b r' h => ?_
    rw [hhead, List.cons_append, List.cons.injEq] at h
    rw [← h.1]; decide
  have hscan : scanDefine (s1 ++ n ++ s2 ++ e ++ comma ++ w) = none := by
    unfold scanDefine
    have : afterWord (word "#define") (s1 ++ n ++ s2 ++ e ++ comma ++ w) = none := by
      unfold afterWord
      rw [if_neg]
      intro hh
      obtain ⟨r, hr⟩ := List.isPrefixOf_iff_prefix.1 hh
      have := congrArg List.head? hr
      rw [show word "#define" = 0x23 :: word "define" from by decide] at this
      cases s1 with
      | nil => rw [hhead] at this; exact absurd this (by simp)
      | cons a s1 =>
        rcases hs1 a (List.mem_cons_self ..) with rfl | rfl <;> exact absurd this (by simp)
    rw [this]
    rfl
  -- what may follow the name or the value
  have hsep : ∀ b r', s2 ++ e ++ comma ++ w = b :: r' → (gAlnum b || b = 0x5F) = false := by
    have hsp : ∀ b : Byte, gSpace b = true → (gAlnum b || b = 0x5F) = false := by decide +kernel
    intro b r' h
    cases s2 with
    | cons a s2 =>
      rw [List.cons_append, List.cons_append, List.cons_append, List.cons.injEq] at h
      exact hsp b (h.1 ▸ blank_space hs2 a (List.mem_cons_self ..))
    | nil =>
      cases e with
      | cons a e =>
        rw [List.nil_append, List.cons_append, List.cons_append, List.cons.injEq] at h
        cases v with
        | none => cases he
        | some v =>
          obtain ⟨_, _, s3, s4, _, _, he⟩ := he
          rw [show ([0x3D] ++ s3 ++ v ++ s4 : List Byte) = 0x3D :: (s3 ++ v ++ s4) from by simp, List.cons.injEq] at he
          rw [← h.1, he.1]; decide
      | nil =>
        rw [List.nil_append, List.nil_append] at h
        rcases hcomma with rfl | rfl
        · rw [List.nil_append] at h
          exact hsp b (hw b (by rw [h]; exact List.mem_cons_self ..))
        · rw [List.cons_append, List.cons.injEq] at h
          rw [← h.1]; decide
  have hname : (n ++ (s2 ++ e ++ comma ++ w)).takeWhile (fun b => gAlnum b || b = 0x5F) = n :=
    take_head (fun b hb => by simpa using hn b hb) hsep
  have hval : memberValue g.last (n ++ (s2 ++ e ++ comma ++ w)) = some (memberText g.last v, x) := by
    have hbl2 : ∀ b ∈ n ++ s2, b ≠ 0x3D := by
      intro b hb
      rcases List.mem_append.1 hb with hb | hb
      · exact (hns b hb).2.2.1
      · rcases hs2 b hb with rfl | rfl <;> decide
    have hw2 : ∀ b ∈ comma ++ w, b ≠ 0x3D ∧ (gAlnum b || b = 0x2D) = false := by
      have hsp : ∀ b : Byte, gSpace b = true → b ≠ 0x3D ∧ (gAlnum b || b = 0x2D) = false := by decide +kernel
      intro b hb
      rcases List.mem_append.1 hb with hb | hb
      · rcases hcomma with rfl | rfl
        · cases hb
        · rw [List.mem_singleton.1 hb]; decide
      · exact hsp b (hw b hb)
    unfold memberValue
    cases v with
    | none =>
      subst he
      rw [if_neg]
      · have hx' : x = g.last + 1 := hx
        rw [if_neg (by omega)]
        rw [hx']
        rfl
      · intro hc
        have hc := List.contains_iff_mem.1 hc
        rw [show n ++ (s2 ++ [] ++ comma ++ w) = (n ++ s2) ++ (comma ++ w) from by simp] at hc
        rcases List.mem_append.1 hc with hc | hc
        · exact hbl2 _ hc rfl
        · exact (hw2 _ hc).1 rfl
    | some v =>
      obtain ⟨hv, hvl, s3, s4, hs3, hs4, rfl⟩ := he
      have hx' : numLit v = some x := hx
      rw [show n ++ (s2 ++ ([0x3D] ++ s3 ++ v ++ s4) ++ comma ++ w) = (n ++ s2) ++ (0x3D :: (s3 ++ (v ++ (s4 ++ (comma ++ w))))) from by simp]
      rw [if_pos (by simp)]
      rw [drop_head (fun b hb => by simpa using hbl2 b hb) (fun b r' h => by rw [List.cons.injEq] at h; simp [← h.1]), List.tail_cons]
      obtain ⟨hvn, hvc⟩ := numLit_chars hv
      rw [drop_head (blank_space hs3) (fun b r' h => by
        cases v with
        | nil => exact absurd rfl hvn
        | cons a v =>
          rw [List.cons_append, List.cons.injEq] at h
          exact h.1 ▸ (numLit_solid hv a (List.mem_cons_self ..)).1)]
      rw [take_head (fun b hb => by simpa using hvc b hb) (fun b r' h => by
        cases s4 with
        | nil => exact (hw2 b (by rw [List.nil_append] at h; rw [h]; exact List.mem_cons_self ..)).2
        | cons a s4 =>
          rw [List.cons_append, List.cons.injEq] at h
          rcases hs4 a (List.mem_cons_self ..) with h' | h' <;> (rw [← h.1, h']; decide))]
      dsimp only
      rw [if_neg (by omega), strtol0_eq hx' h1 h2]
      rfl
  unfold processLine
  rw [hcut]
  dsimp only
  rw [hscan]
  dsimp only
  rw [hp, if_pos (by rw [← hn']; simp), hname, if_neg (by omega), hval]
  rfl


/-! ### Files -/

theorem getLine_eq (l rest : List Byte) (m : Nat) (hn : ∀ b ∈ l, b ≠ 0x0A) (hm : l.length < m) : getLine m (l ++ [0x0A] ++ rest) = (l ++ [0x0A], rest) := by
  induction l generalizing m with
  | nil =>
    obtain ⟨m, rfl⟩ : ∃ m', m = m' + 1 := ⟨m - 1, by simp only [List.length_nil] at hm; omega⟩
    simp [getLine]
  | cons a l ih =>
    obtain ⟨m, rfl⟩ : ∃ m', m = m' + 1 := ⟨m - 1, by simp only [List.length_cons] at hm; omega⟩
    have := ih m (fun b hb => hn b (List.mem_cons_of_mem _ hb)) (by simp only [List.length_cons] at hm; omega)
    simp only [List.cons_append, getLine]
    rw [if_neg (hn a (List.mem_cons_self ..)), this]

/-- A text that can stand between blanks. -/
def Token (w : List Byte) : Prop := w ≠ [] ∧ ∀ b ∈ w, Solid b

def GTab.Tidy (g : GTab) : Prop := ∀ k, ∀ c ∈ g.kind k, Token c.1 ∧ Token c.2

theorem case_ident : ∀ b : Byte, (gAlnum b = true ∨ b = 0x5F) → Solid (gToUpper b) ∧ Solid (gToLower b) := by
  unfold Solid
  decide +kernel

theorem capWord_solid {w : List Byte} (h : Ident w) : ∀ b ∈ capWord w, Solid b := by
  unfold capWord
  split
  · exact ident_solid h
  · intro b hb
    rcases List.mem_append.1 hb with hb | hb
    · obtain ⟨c, hc, rfl⟩ := List.mem_map.1 hb
      exact (case_ident c (h c (List.mem_of_mem_take hc))).1
    · obtain ⟨c, hc, rfl⟩ := List.mem_map.1 hb
      exact (case_ident c (h c (List.mem_of_mem_drop hc))).2

theorem splitWords_mem {l w : List Byte} (h : w ∈ splitWords l) : ∀ b ∈ w, b ∈ l := by
  induction l generalizing w with
  | nil =>
    simp only [splitWords, List.mem_singleton] at h
    subst h
    intro b hb; cases hb
  | cons c r ih =>
    unfold splitWords at h
    split at h
    · rcases List.mem_cons.1 h with rfl | h
      · intro b hb; cases hb
      · exact fun b hb => List.mem_cons_of_mem _ (ih h b hb)
    · split at h
      · rename_i hr; exact absurd hr (splitWords_ne r)
      · rename_i x xs hr
        rcases List.mem_cons.1 h with rfl | h
        · intro b hb
          rcases List.mem_cons.1 hb with rfl | hb
          · exact List.mem_cons_self ..
          · exact List.mem_cons_of_mem _ (ih (by rw [hr]; exact List.mem_cons_self ..) b hb)
        · exact fun b hb => List.mem_cons_of_mem _ (ih (by rw [hr]; exact List.mem_cons_of_mem _ h) b hb)

theorem pascal_solid {l : List Byte} (h : Ident l) : ∀ b ∈ pascal l, Solid b := by
  intro b hb
  obtain ⟨w, hw, hb⟩ := List.mem_flatMap.1 hb
  exact capWord_solid (fun c hc => h c (splitWords_mem hw c hc)) b hb

theorem pascal_head (c : Byte) (r : List Byte) (hc : c ≠ 0x5F) : pascal (c :: r) ≠ [] := by
  intro h
  have hs := splitWords_ne r
  cases hr : splitWords r with
  | nil => exact hs hr
  | cons w ws =>
    have : (pascal (c :: r)).length = (c :: w).length + (ws.flatMap capWord).length := by
      have hc' : ¬ c = 95#8 := hc
      simp [pascal, splitWords, hc', hr, capWord_length]
    rw [h] at this
    simp only [List.length_nil, List.length_cons] at this
    omega

/-- The names and values of a line can be printed. -/
theorem rename_token {n : List Byte} {k : GKind} (hi : Ident n) (hk : GKind.kindOf n = some k) : Token (k.rename n) := by
  have hd : ∀ m, Ident (n.drop m) := fun m b hb => hi b (List.mem_of_mem_drop hb)
  have pre : ∀ w : List Byte, w ≠ [] → (∀ b ∈ w, Solid b) → ∀ m, Token (w ++ pascal (n.drop m)) := by
    intro w hw hs m
    refine ⟨by simp [hw], fun b hb => ?_⟩
    rcases List.mem_append.1 hb with hb | hb
    · exact hs b hb
    · exact pascal_solid (hd m) b hb
  have so : ∀ w ∈ [word "Op", word "Err", word "Mode", word "Trans"], w ≠ [] ∧ ∀ b ∈ w, Solid b := by
    unfold Solid
    decide +kernel
  cases k with
  | op => exact pre _ (so (word "Op") (by simp)).1 (so (word "Op") (by simp)).2 3
  | err => exact pre _ (so (word "Err") (by simp)).1 (so (word "Err") (by simp)).2 8
  | mode => exact pre _ (so (word "Mode") (by simp)).1 (so (word "Mode") (by simp)).2 9
  | trans => exact pre _ (so (word "Trans") (by simp)).1 (so (word "Trans") (by simp)).2 10
  | order =>
    refine ⟨?_, pascal_solid (hd 4)⟩
    unfold GKind.kindOf at hk
    split at hk
    · cases hk
    split at hk
    · cases hk
    split at hk
    · cases hk
    split at hk
    · cases hk
    split at hk
    · rename_i h
      rcases h with ⟨r, rfl⟩ | ⟨r, rfl⟩
      · rw [GKind.rename, show word "CND_LE" = word "CND_" ++ [0x4C, 0x45] from by decide, List.append_assoc,
          show (4 : Nat) = (word "CND_").length from by decide, List.drop_left]
        exact pascal_head _ _ (by decide)
      · rw [GKind.rename, show word "CND_BE" = word "CND_" ++ [0x42, 0x45] from by decide, List.append_assoc,
          show (4 : Nat) = (word "CND_").length from by decide, List.drop_left]
        exact pascal_head _ _ (by decide)
    · cases hk

theorem fmtD_token (x : Int) : Token (fmtD x) := by
  have := numLit_fmt x
  have h : (numLit (fmtD x)).isSome = true := by rw [this]; rfl
  exact ⟨(numLit_chars h).1, numLit_solid h⟩

theorem kindOf_op (n : List Byte) : GKind.kindOf (word "OP_" ++ n) = some .op := by
  unfold GKind.kindOf
  rw [if_pos (List.prefix_append _ _)]

/-- All lines of a header. -/
theorem process_header {text : List Byte} {items : List HItem} (h : Header text items) :
    ∀ (fuel : Nat) (g : GTab) (next : Int) (b : Bool), text.length ≤ fuel → firstGiven b items = true → (b = false → g.last + 1 = next) →
      (∀ c ∈ cMeaning next items, -(2 ^ 31) ≤ c.2 ∧ c.2 < 2 ^ 31) → (∀ k, (g.kind k).length + (cMeaning next items).length ≤ 256) → g.Tidy →
      ∃ g', processFile fuel g text = some g' ∧ g'.Tidy ∧ ∀ k, valued (g'.kind k) = valued (g.kind k) ++ wanted k (cMeaning next items) := by
  induction h with
  | nil =>
    intro fuel g next b _ _ _ _ _ ht
    refine ⟨g, ?_, ht, fun k => by simp [cMeaning, wanted]⟩
    cases fuel <;> simp [processFile]
  | @line l i rest is hl hn hlen _ ih =>
    intro fuel g next b hf hfirst hlast hrange hcount ht
    obtain ⟨fuel, rfl⟩ : ∃ f, fuel = f + 1 := ⟨fuel - 1, by simp only [List.length_append, List.length_cons] at hf; omega⟩
    have hf' : rest.length ≤ fuel := by simp only [List.length_append, List.length_cons, List.length_nil] at hf; omega
    have hline : ∀ g1 g2, processLine g (l ++ [0x0A]) = some g1 → processFile fuel g1 rest = some g2 → processFile (fuel + 1) g (l ++ [0x0A] ++ rest) = some g2 := by
      intro g1 g2 e1 e2
      unfold processFile
      rw [if_neg (by simp), getLine_eq l rest 1023 (fun b hb => (hn b hb).1) (by omega)]
      dsimp only
      have htw : (l ++ [0x0A] : List Byte).takeWhile (fun b => decide (b ≠ 0)) = l ++ [0x0A] := by
        rw [List.takeWhile_append_of_pos (fun b hb => by simpa using (hn b hb).2)]
        rfl
      rw [htw, e1]
      exact e2
    cases i with
    | op n v =>
      have hops := hcount .op
      simp only [cMeaning, List.length_cons] at hops hcount hrange
      have hp := process_op hl g (by simp only [GTab.kind] at hops; omega)
      obtain ⟨s1, s2, t, _, _, _, _, _, hid, hne, _, _, hv, _⟩ := hl
      obtain ⟨x, hx⟩ := Option.isSome_iff_exists.1 hv
      obtain ⟨g', e1, e2, e3⟩ := ih fuel { g with ops := g.ops ++ [(word "Op" ++ pascal n, v)] } next b hf' hfirst hlast
        (fun c hc => hrange c (List.mem_cons_of_mem _ hc)) (by
          intro k
          have := hcount k
          cases k <;> simp only [GTab.kind, List.length_append, List.length_cons, List.length_nil] at this ⊢ <;> omega) (by
          intro k c hc
          cases k with
          | op =>
            rcases List.mem_append.1 hc with hc | hc
            · exact ht .op c hc
            · rw [List.mem_singleton.1 hc]
              have := rename_token (n := word "OP_" ++ n) (k := .op) (by
                intro b hb
                rcases List.mem_append.1 hb with hb | hb
                · exact (by decide : ∀ b ∈ word "OP_", gAlnum b = true ∨ b = 0x5F) b hb
                · exact hid b hb) (kindOf_op n)
              rw [GKind.rename, show (3 : Nat) = (word "OP_").length from by decide, List.drop_left] at this
              exact ⟨this, (numLit_chars hv).1, numLit_solid hv⟩
          | err => exact ht .err c hc
          | mode => exact ht .mode c hc
          | trans => exact ht .trans c hc
          | order => exact ht .order c hc)
      refine ⟨g', hline _ _ hp e1, e2, fun k => ?_⟩
      rw [e3 k]
      simp only [cMeaning, wanted, List.filter_cons, kindOf_op]
      cases k <;> simp [GTab.kind, valued, GKind.rename, hx]
      rw [show (3 : Nat) = (word "OP_").length from by decide, List.drop_left]
    | begin =>
      obtain ⟨g', e1, e2, e3⟩ := ih fuel g 0 true hf' hfirst (fun h => by cases h) hrange hcount ht
      exact ⟨g', hline _ _ (process_quiet hl.1 hl.2 g) e1, e2, e3⟩
    | skip =>
      obtain ⟨g', e1, e2, e3⟩ := ih fuel g next b hf' hfirst hlast hrange hcount ht
      exact ⟨g', hline _ _ (process_quiet hl.1 hl.2 g) e1, e2, e3⟩
    | member n v =>
      obtain ⟨x, hx, hxv, hxn⟩ : ∃ x, MemberHas g.last v x ∧ cMeaning next (.member n v :: is) = (n, x) :: cMeaning (x + 1) is ∧ numLit (memberText g.last v) = some x := by
        cases v with
        | none =>
          have : g.last + 1 = next := hlast (by
            simp only [firstGiven, Bool.and_eq_true, Bool.not_eq_true'] at hfirst
            exact hfirst.1)
          exact ⟨next, this.symm, rfl, by rw [← this]; exact numLit_fmt _⟩
        | some t =>
          obtain ⟨_, _, _, _, _, _, _, _, _, _, he, _⟩ := hl
          obtain ⟨x, hx⟩ := Option.isSome_iff_exists.1 he.1
          exact ⟨x, hx, by simp [cMeaning, hx], hx⟩
      rw [hxv] at hrange hcount ⊢
      simp only [List.length_cons] at hcount
      have hb := hrange (n, x) (List.mem_cons_self ..)
      have hp := process_member hl g x hx hb.1 hb.2
      obtain ⟨_, _, _, _, _, _, _, hid, hnl, hpre, hev, _⟩ := hl
      obtain ⟨g1, p1, p2, p3⟩ := enterName_eq { g with last := x } n (memberText g.last v) hpre hnl (by
        intro k
        have := hcount k
        cases k <;> simp only [GTab.kind] at this ⊢ <;> omega)
      have hk : ∀ k, ({ g with last := x } : GTab).kind k = g.kind k := by intro k; cases k <;> rfl
      simp only [hk] at p3
      have hvt : (numLit (memberText g.last v)).isSome = true := by rw [hxn]; rfl
      obtain ⟨g', e1, e2, e3⟩ := ih fuel g1 (x + 1) false hf' (by cases v <;> simp_all [firstGiven]) (fun _ => by rw [p2])
        (fun c hc => hrange c (List.mem_cons_of_mem _ hc)) (by
          intro k
          have := hcount k
          rw [p3 k, List.length_append]
          split <;> simp only [List.length_cons, List.length_nil] <;> omega) (by
          intro k c hc
          rw [p3 k] at hc
          rcases List.mem_append.1 hc with hc | hc
          · exact ht k c hc
          · split at hc
            · rename_i hkk
              rw [List.mem_singleton.1 hc]
              exact ⟨rename_token hid hkk, (numLit_chars hvt).1, numLit_solid hvt⟩
            · cases hc)
      refine ⟨g', hline _ _ (hp.trans p1) e1, e2, fun k => ?_⟩
      rw [e3 k, p3 k]
      unfold valued wanted
      rw [List.filter_cons]
      by_cases hkk : GKind.kindOf n = some k
      · simp [hkk, hxn]
      · simp [hkk]

/-- **C86.** For every header whose lines are of the usual forms and whose enumerations give their first members values, the tables hold
exactly the constants C sees, in the same order, with texts that stand for the same values, under the names of their kinds. -/
theorem C86_tables_partial (text : List Byte) (items : List HItem) (h : Header text items) (hfirst : firstGiven false items = true)
    (hrange : ∀ c ∈ cMeaning 0 items, -(2 ^ 31) ≤ c.2 ∧ c.2 < 2 ^ 31) (hcount : (cMeaning 0 items).length ≤ 256) :
    ∃ g, genTables text = some g ∧ ∀ k, valued (g.kind k) = wanted k (cMeaning 0 items) := by
  obtain ⟨g, h1, _, h3⟩ := process_header h text.length GTab.start 0 false (Nat.le_refl _) hfirst (fun _ => rfl) hrange
    (by intro k; cases k <;> simpa [GTab.kind, GTab.start] using hcount) (by intro k c hc; cases k <;> cases hc)
  refine ⟨g, h1, fun k => ?_⟩
  rw [h3 k]
  cases k <;> rfl

end Cnd
