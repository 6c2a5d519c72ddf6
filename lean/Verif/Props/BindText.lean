import Verif.Props.Bindings
/-
  C86, the printed files: reading the constants back from the generated Go, Python and TypeScript; names that stay different.
-/

namespace Cnd

/-! ### Reading the generated files -/

/-- The pieces of a text between separators. -/
def pieces (p : Byte → Bool) : List Byte → List (List Byte)
  | [] => [[]]
  | c :: r =>
    if p c then [] :: pieces p r
    else
      match pieces p r with
      | [] => [[c]]
      | w :: ws => (c :: w) :: ws

/-- The words of a line. -/
def lineWords (l : List Byte) : List (List Byte) := (pieces gSpace l).filter (· ≠ [])

/-- A value without the comma behind it. -/
def noComma (v : List Byte) : List Byte := if v.getLast? = some 0x2C then v.dropLast else v

/-- What a line of a generated file declares: `Name Type = value`, or `Name = value` where the type is that of the enumeration or class
around it, which other lines announce. -/
def readLine (cur l : List Byte) : List Byte × Option (List Byte × List Byte × List Byte) :=
  match lineWords l with
  | [n, e, v] => if e = word "=" then (cur, some (cur, n, noComma v)) else (cur, none)
  | [n, t, e, v] => if e = word "=" then (cur, some (t, n, noComma v)) else if n = word "export" then (e, none) else (cur, none)
  | [c, d] => if c = word "class" then (d.takeWhile (· ≠ 0x28), none) else (cur, none)
  | _ => (cur, none)

def readLines : List Byte → List (List Byte) → List (List Byte × List Byte × List Byte)
  | _, [] => []
  | cur, l :: ls => (readLine cur l).2.toList ++ readLines (readLine cur l).1 ls

/-- The constants in a generated file: type, name, value. -/
def readText (cur text : List Byte) : List (List Byte × List Byte × List Byte) := readLines cur (pieces (· = 0x0A) text)

theorem pieces_ne (p : Byte → Bool) (l : List Byte) : pieces p l ≠ [] := by
  cases l with
  | nil => simp [pieces]
  | cons c r =>
    unfold pieces
    split
    · simp
    · split <;> simp

theorem pieces_append {p : Byte → Bool} (a : List Byte) {c : Byte} (r : List Byte) (ha : ∀ b ∈ a, p b = false) (hc : p c = true) :
    pieces p (a ++ c :: r) = a :: pieces p r := by
  induction a with
  | nil => simp [pieces, hc]
  | cons x a ih =>
    rw [List.cons_append, pieces, ih (fun b hb => ha b (List.mem_cons_of_mem _ hb)), ha x (List.mem_cons_self ..)]
    rfl

theorem pieces_one {p : Byte → Bool} (a : List Byte) (ha : ∀ b ∈ a, p b = false) : pieces p a = [a] := by
  induction a with
  | nil => rfl
  | cons x a ih =>
    rw [pieces, ih (fun b hb => ha b (List.mem_cons_of_mem _ hb)), ha x (List.mem_cons_self ..)]
    rfl

theorem read_line {cur l : List Byte} (rest : List Byte) (hl : ∀ b ∈ l, b ≠ 0x0A) :
    readText cur (l ++ nl ++ rest) = (readLine cur l).2.toList ++ readText (readLine cur l).1 rest := by
  unfold readText nl
  rw [List.append_assoc, List.singleton_append, pieces_append l rest (fun b hb => by simpa using hl b hb) (by decide)]
  rfl

theorem words_next {a : List Byte} {r : List Byte} (hn : a ≠ []) (ha : ∀ b ∈ a, gSpace b = false) : lineWords (a ++ 0x20 :: r) = a :: lineWords r := by
  unfold lineWords
  rw [pieces_append a r ha (by decide)]
  simp [hn]

theorem words_cons {a : List Byte} {r : List Byte} (ha : Token a) : lineWords (a ++ 0x20 :: r) = a :: lineWords r :=
  words_next ha.1 fun b hb => (ha.2 b hb).1

theorem words_blank {c : Byte} {r : List Byte} (hc : gSpace c = true) : lineWords (c :: r) = lineWords r := by
  unfold lineWords
  rw [show c :: r = [] ++ c :: r from rfl, pieces_append [] r (fun b hb => by cases hb) hc]
  simp

theorem words_one {a : List Byte} (ha : Token a) : lineWords a = [a] := by
  unfold lineWords
  rw [pieces_one a (fun b hb => (ha.2 b hb).1)]
  simp [ha.1]

theorem noComma_token {v : List Byte} (hv : Token v) : noComma v = v := by
  unfold noComma
  rw [if_neg]
  intro h
  exact (hv.2 _ (List.mem_of_getLast? h)).2.2.2.1 rfl

theorem noComma_comma (v : List Byte) : noComma (v ++ word ",") = v := by
  unfold noComma
  rw [show word "," = [0x2C] from by decide, if_pos (by simp)]
  simp

theorem solid_line {w : List Byte} (h : Token w) : ∀ b ∈ w, b ≠ 0x0A := fun b hb => (h.2 b hb).2.2.2.2

/-- A word without white space and so on. -/
theorem token_of {w : List Byte} (h : w ≠ [] ∧ ∀ b ∈ w, gSpace b = false ∧ b ≠ 0x2F ∧ b ≠ 0x3D ∧ b ≠ 0x2C ∧ b ≠ 0x0A) : Token w := h

/-- A group: what is printed before it, its entries and what is printed behind it. -/
theorem read_group (t : List GConst) {before behind : List Byte} {entry : GConst → List Byte} {ty : List Byte} (cur cur' : List Byte)
    (hb : ∀ R, readText cur (before ++ R) = readText cur' R) (he : ∀ c ∈ t, ∀ R, readText cur' (entry c ++ R) = (ty, c.1, c.2) :: readText cur' R)
    (hz : ∀ R, readText cur' (behind ++ R) = readText cur' R) (R : List Byte) :
    readText cur (printGroup t before behind entry ++ R) = t.map (fun c => (ty, c.1, c.2)) ++ readText (if t = [] then cur else cur') R := by
  unfold printGroup
  by_cases ht : t = []
  · simp [ht]
  · rw [if_neg ht, if_neg ht, List.append_assoc, List.append_assoc, hb]
    have key : ∀ t : List GConst, (∀ c ∈ t, ∀ R, readText cur' (entry c ++ R) = (ty, c.1, c.2) :: readText cur' R) → ∀ R,
        readText cur' (t.flatMap entry ++ R) = t.map (fun c => (ty, c.1, c.2)) ++ readText cur' R := by
      intro t
      induction t with
      | nil => intro _ R; rfl
      | cons c t ih =>
        intro he R
        rw [List.flatMap_cons, List.append_assoc, he c (List.mem_cons_self ..), ih (fun c hc => he c (List.mem_cons_of_mem _ hc))]
        rfl
    rw [key t he, hz]

theorem words_equals (r : List Byte) : lineWords (word "=" ++ 0x20 :: r) = word "=" :: lineWords r := words_next (by decide) (by decide)

/-- An entry in Go, with a type. -/
theorem read_go (cur ty : List Byte) (hty : Token ty) {c : GConst} (hc : Token c.1 ∧ Token c.2) (R : List Byte) :
    readText cur ([0x09] ++ c.1 ++ ([0x20] ++ ty ++ word " = ") ++ c.2 ++ nl ++ R) = (ty, c.1, c.2) :: readText cur R := by
  have hl : ∀ b ∈ [0x09] ++ c.1 ++ ([0x20] ++ ty ++ word " = ") ++ c.2, b ≠ 0x0A := by
    intro b hb
    simp only [List.mem_append] at hb
    rcases hb with ((hb | hb) | (hb | hb) | hb) | hb
    · rw [List.mem_singleton.1 hb]; decide
    · exact solid_line hc.1 b hb
    · rw [List.mem_singleton.1 hb]; decide
    · exact solid_line hty b hb
    · exact (by decide : ∀ b ∈ word " = ", b ≠ 0x0A) b hb
    · exact solid_line hc.2 b hb
  have hw : lineWords ([0x09] ++ c.1 ++ ([0x20] ++ ty ++ word " = ") ++ c.2) = [c.1, ty, word "=", c.2] := by
    rw [show [0x09] ++ c.1 ++ ([0x20] ++ ty ++ word " = ") ++ c.2 = 0x09 :: (c.1 ++ 0x20 :: (ty ++ 0x20 :: (word "=" ++ 0x20 :: c.2))) from by
      rw [show word " = " = [0x20] ++ word "=" ++ [0x20] from by decide]; simp]
    rw [words_blank (by decide), words_cons hc.1, words_cons hty, words_equals, words_one hc.2]
  rw [read_line R hl]
  unfold readLine
  rw [hw]
  simp [noComma_token hc.2]

/-- An entry without a type: Go's byte orders, Python; TypeScript with a comma. -/
theorem read_untyped (cur pre : List Byte) (hpre : ∀ b ∈ pre, gSpace b = true ∧ b ≠ 0x0A) {c : GConst} (hc : Token c.1 ∧ Token c.2) (comma : List Byte)
    (hcomma : comma = [] ∨ comma = word ",") (R : List Byte) :
    readText cur (pre ++ c.1 ++ word " = " ++ c.2 ++ comma ++ nl ++ R) = (cur, c.1, c.2) :: readText cur R := by
  have hl : ∀ b ∈ pre ++ c.1 ++ word " = " ++ c.2 ++ comma, b ≠ 0x0A := by
    intro b hb
    simp only [List.mem_append] at hb
    rcases hb with (((hb | hb) | hb) | hb) | hb
    · exact (hpre b hb).2
    · exact solid_line hc.1 b hb
    · exact (by decide : ∀ b ∈ word " = ", b ≠ 0x0A) b hb
    · exact solid_line hc.2 b hb
    · rcases hcomma with rfl | rfl
      · cases hb
      · exact (by decide : ∀ b ∈ word ",", b ≠ 0x0A) b hb
  have hskip : ∀ pre : List Byte, (∀ b ∈ pre, gSpace b = true ∧ b ≠ 0x0A) → ∀ r, lineWords (pre ++ r) = lineWords r := by
    intro pre hpre r
    induction pre with
    | nil => rfl
    | cons a pre ih =>
      rw [List.cons_append, words_blank (hpre a (List.mem_cons_self ..)).1, ih (fun b hb => hpre b (List.mem_cons_of_mem _ hb))]
  have hlast : lineWords (c.2 ++ comma) = [c.2 ++ comma] := by
    unfold lineWords
    rw [pieces_one]
    · simp [hc.2.1]
    · intro b hb
      rcases List.mem_append.1 hb with hb | hb
      · exact (hc.2.2 b hb).1
      · rcases hcomma with rfl | rfl
        · cases hb
        · exact (by decide : ∀ b ∈ word ",", gSpace b = false) b hb
  have hw : lineWords (pre ++ c.1 ++ word " = " ++ c.2 ++ comma) = [c.1, word "=", c.2 ++ comma] := by
    rw [show pre ++ c.1 ++ word " = " ++ c.2 ++ comma = pre ++ (c.1 ++ 0x20 :: (word "=" ++ 0x20 :: (c.2 ++ comma))) from by
      rw [show word " = " = [0x20] ++ word "=" ++ [0x20] from by decide]; simp]
    rw [hskip pre hpre, words_cons hc.1, words_equals, hlast]
  rw [read_line R hl]
  unfold readLine
  rw [hw]
  have : noComma (c.2 ++ comma) = c.2 := by
    rcases hcomma with rfl | rfl
    · rw [List.append_nil, noComma_token hc.2]
    · exact noComma_comma _
  simp [this]

/-- A line that declares nothing. -/
theorem read_other {cur l : List Byte} (rest : List Byte) (hl : ∀ b ∈ l, b ≠ 0x0A) (ws : List (List Byte)) (hw : lineWords l = ws) (cur' : List Byte)
    (h : ∀ x, lineWords x = ws → readLine cur x = (cur', none)) : readText cur (l ++ nl ++ rest) = readText cur' rest := by
  rw [read_line rest hl, h l hw]
  rfl

theorem read_empty (cur rest : List Byte) : readText cur (nl ++ rest) = readText cur rest := by
  have := read_line (cur := cur) (l := []) rest (fun b hb => by cases hb)
  rw [List.nil_append] at this
  rw [this]
  rfl


/-- The type of the constants of a kind. -/
def GKind.typeName : GKind → List Byte
  | .op => word "OpCode"
  | .err => word "Error"
  | .mode => word "Mode"
  | .trans => word "Trans"
  | .order => []

/-- A table as declarations. -/
def declared (k : GKind) (t : List GConst) : List (List Byte × List Byte × List Byte) := t.map fun c => (k.typeName, c.1, c.2)

theorem words_const : lineWords (word "const (") = [word "const", word "("] := by decide +kernel

theorem go_before (cur R : List Byte) : readText cur (word "const (" ++ nl ++ R) = readText cur R :=
  read_other R (by decide) [word "const", word "("] words_const cur (fun x hx => by
    unfold readLine
    rw [hx]
    exact if_neg (by decide))

theorem read_close (cur R : List Byte) (l : List Byte) (hl : l = word ")" ∨ l = word "}") : readText cur (l ++ nl ++ R) = readText cur R := by
  have hw : lineWords l = [l] ∧ ∀ b ∈ l, b ≠ 0x0A := by
    rcases hl with rfl | rfl <;> exact ⟨by decide +kernel, by decide⟩
  exact read_other R hw.2 [l] hw.1 cur (fun x hx => by
    unfold readLine
    rw [hx])

theorem go_group (cur : List Byte) (k : GKind) (t : List GConst) (ht : ∀ c ∈ t, Token c.1 ∧ Token c.2) (hk : Token k.typeName) (entry : GConst → List Byte)
    (he : ∀ c, entry c = [0x09] ++ c.1 ++ ([0x20] ++ k.typeName ++ word " = ") ++ c.2 ++ nl) (R : List Byte) :
    readText cur (printGroup t (word "const (" ++ nl) (word ")" ++ nl ++ nl) entry ++ R) = declared k t ++ readText cur R := by
  have := read_group t (ty := k.typeName) (entry := entry) cur cur (go_before cur) (fun c hc R => by rw [he]; exact read_go cur _ hk (ht c hc) R)
    (fun R => by rw [List.append_assoc (word ")" ++ nl), read_close _ _ _ (.inl rfl), read_empty]) R
  rw [this, ite_self]
  rfl

theorem token_types : Token (word "Error") ∧ Token (word "Mode") ∧ Token (word "Trans") ∧ Token (word "OpCode") :=
  ⟨token_of (by decide +kernel), token_of (by decide +kernel), token_of (by decide +kernel), token_of (by decide +kernel)⟩

/-- A line that is neither a declaration nor the beginning of a type. -/
theorem read_plain (cur l R : List Byte) (hl : ∀ b ∈ l, b ≠ 0x0A) (h : (lineWords l).length > 4 ∨ (∃ a b c, lineWords l = [a, b, c] ∧ b ≠ word "=") ∨
    (∃ a b c d, lineWords l = [a, b, c, d] ∧ c ≠ word "=" ∧ a ≠ word "export") ∨ ∃ a b, lineWords l = [a, b] ∧ a ≠ word "class") :
    readText cur (l ++ nl ++ R) = readText cur R := by
  rw [read_line R hl]
  have : readLine cur l = (cur, none) := by
    unfold readLine
    rcases h with h | ⟨a, b, c, h, h1⟩ | ⟨a, b, c, d, h, h1, h2⟩ | ⟨a, b, h, h1⟩
    · split
      · rename_i h'; rw [h'] at h; simp at h
      · rename_i h'; rw [h'] at h; simp at h
      · rename_i h'; rw [h'] at h; simp at h
      · rfl
    · rw [h]; exact if_neg h1
    · rw [h]; dsimp only; rw [if_neg h1, if_neg h2]
    · rw [h]; exact if_neg h1
  rw [this]
  rfl

/-- What the Go file declares. -/
theorem read_generateGo (g : GTab) (hg : g.Tidy) : readText [] (generateGo g) =
    declared .err g.errs ++ declared .mode g.modes ++ declared .trans g.trans ++ declared .op g.ops ++ declared .order g.others := by
  have ty := token_types
  unfold generateGo
  rw [← List.append_nil (printGroup g.others _ _ _)]
  simp only [List.append_assoc]
  have e1 := fun R => read_plain [] (word "// Code generated by gen_bindings.c; DO NOT EDIT.") R (by decide +kernel) (.inl (by decide +kernel))
  have e2 := fun R => read_plain [] (word "package concordia") R (by decide +kernel) (.inr (.inr (.inr ⟨word "package", word "concordia", by decide +kernel, by decide +kernel⟩)))
  have e3 := fun R => read_plain [] (word "type Error int") R (by decide +kernel) (.inr (.inl ⟨word "type", word "Error", word "int", by decide +kernel, by decide +kernel⟩))
  have e4 := fun R => read_plain [] (word "type Mode int") R (by decide +kernel) (.inr (.inl ⟨word "type", word "Mode", word "int", by decide +kernel, by decide +kernel⟩))
  have e5 := fun R => read_plain [] (word "type Trans int") R (by decide +kernel) (.inr (.inl ⟨word "type", word "Trans", word "int", by decide +kernel, by decide +kernel⟩))
  have e6 := fun R => read_plain [] (word "type OpCode uint8") R (by decide +kernel) (.inr (.inl ⟨word "type", word "OpCode", word "uint8", by decide +kernel, by decide +kernel⟩))
  have g1 := fun R => go_group [] .err g.errs (hg .err) ty.1 (fun c => [0x09] ++ c.1 ++ word " Error = " ++ c.2 ++ nl)
    (fun c => by rw [show word " Error = " = [0x20] ++ GKind.err.typeName ++ word " = " from by decide]) R
  have g2 := fun R => go_group [] .mode g.modes (hg .mode) ty.2.1 (fun c => [0x09] ++ c.1 ++ word " Mode = " ++ c.2 ++ nl)
    (fun c => by rw [show word " Mode = " = [0x20] ++ GKind.mode.typeName ++ word " = " from by decide]) R
  have g3 := fun R => go_group [] .trans g.trans (hg .trans) ty.2.2.1 (fun c => [0x09] ++ c.1 ++ word " Trans = " ++ c.2 ++ nl)
    (fun c => by rw [show word " Trans = " = [0x20] ++ GKind.trans.typeName ++ word " = " from by decide]) R
  have g4 := fun R => go_group [] .op g.ops (hg .op) ty.2.2.2 (fun c => [0x09] ++ c.1 ++ word " OpCode = " ++ c.2 ++ nl)
    (fun c => by rw [show word " OpCode = " = [0x20] ++ GKind.op.typeName ++ word " = " from by decide]) R
  have g5 := fun R => read_group g.others (ty := []) (before := word "const (" ++ nl) (behind := word ")" ++ nl)
    (entry := fun c => [0x09] ++ c.1 ++ word " = " ++ c.2 ++ nl) [] [] (go_before [])
    (fun c hc R => by
      have := read_untyped [] [0x09] (by decide +kernel) (hg .order c hc) [] (.inl rfl) R
      rw [List.append_nil] at this
      exact this)
    (fun R => read_close _ _ _ (.inl rfl)) R
  simp only [List.append_assoc] at e1 e2 e3 e4 e5 e6 g1 g2 g3 g4 g5
  rw [e1, e2, read_empty, e3, e4, e5, e6, read_empty, g1, g2, g3, g4, g5, ite_self]
  simp [declared, readText, readLines, readLine, lineWords, pieces, GKind.typeName]

/-- A group of a Python file or a TypeScript file. -/
theorem class_group (cur : List Byte) (k : GKind) (t : List GConst) (ht : ∀ c ∈ t, Token c.1 ∧ Token c.2) (before behind comma : List Byte)
    (hb : ∀ R, readText cur (before ++ R) = readText k.typeName R) (hz : ∀ R, readText k.typeName (behind ++ R) = readText k.typeName R)
    (hcomma : comma = [] ∨ comma = word ",") (entry : GConst → List Byte) (he : ∀ c, entry c = word "    " ++ c.1 ++ word " = " ++ c.2 ++ comma ++ nl) (R : List Byte) :
    readText cur (printGroup t before behind entry ++ R) = declared k t ++ readText (if t = [] then cur else k.typeName) R :=
  read_group t (ty := k.typeName) (entry := entry) cur k.typeName hb
    (fun c hc R => by rw [he]; exact read_untyped k.typeName (word "    ") (by decide +kernel) (ht c hc) comma hcomma R) hz R

theorem py_before (cur ty l : List Byte) (hl : lineWords l = [word "class", ty ++ word "(IntEnum):"]) (hn : ∀ b ∈ l, b ≠ 0x0A) (hty : ∀ b ∈ ty, b ≠ 0x28)
    (R : List Byte) : readText cur (l ++ nl ++ R) = readText ty R :=
  read_other R hn _ hl ty (fun x hx => by
    unfold readLine
    rw [hx]
    dsimp only
    rw [if_pos rfl, take_head (fun b hb => by simpa using hty b hb) (fun b r' h => by
      rw [show word "(IntEnum):" = 0x28 :: word "IntEnum):" from by decide +kernel, List.cons.injEq] at h
      simp [← h.1])])

theorem ts_before (cur ty l : List Byte) (hl : lineWords l = [word "export", word "enum", ty, word "{"]) (hn : ∀ b ∈ l, b ≠ 0x0A) (hty : ty ≠ word "=")
    (R : List Byte) : readText cur (l ++ nl ++ R) = readText ty R :=
  read_other R hn _ hl ty (fun x hx => by
    unfold readLine
    rw [hx]
    dsimp only
    rw [if_neg hty, if_pos rfl])

theorem read_generatePy (g : GTab) (hg : g.Tidy) : readText [] (generatePy g) =
    declared .err g.errs ++ declared .mode g.modes ++ declared .trans g.trans ++ declared .op g.ops := by
  unfold generatePy
  rw [← List.append_nil (printGroup g.ops _ _ _)]
  simp only [List.append_assoc]
  have e1 := fun R => read_plain [] (word "# Code generated by gen_bindings.c; DO NOT EDIT.") R (by decide +kernel) (.inl (by decide +kernel))
  have e2 := fun R => read_plain [] (word "from enum import IntEnum") R (by decide +kernel)
    (.inr (.inr (.inl ⟨word "from", word "enum", word "import", word "IntEnum", by decide +kernel, by decide +kernel, by decide +kernel⟩)))
  have b1 := fun cur => py_before cur (word "Error") (word "class Error(IntEnum):") (by decide +kernel) (by decide +kernel) (by decide +kernel)
  have b2 := fun cur => py_before cur (word "Mode") (word "class Mode(IntEnum):") (by decide +kernel) (by decide +kernel) (by decide +kernel)
  have b3 := fun cur => py_before cur (word "Trans") (word "class Trans(IntEnum):") (by decide +kernel) (by decide +kernel) (by decide +kernel)
  have b4 := fun cur => py_before cur (word "OpCode") (word "class OpCode(IntEnum):") (by decide +kernel) (by decide +kernel) (by decide +kernel)
  have g1 := fun cur R => class_group cur .err g.errs (hg .err) _ nl [] (b1 cur) (read_empty _) (.inl rfl)
    (fun c => word "    " ++ c.1 ++ word " = " ++ c.2 ++ nl) (fun c => by rw [List.append_nil]) R
  have g2 := fun cur R => class_group cur .mode g.modes (hg .mode) _ nl [] (b2 cur) (read_empty _) (.inl rfl)
    (fun c => word "    " ++ c.1 ++ word " = " ++ c.2 ++ nl) (fun c => by rw [List.append_nil]) R
  have g3 := fun cur R => class_group cur .trans g.trans (hg .trans) _ nl [] (b3 cur) (read_empty _) (.inl rfl)
    (fun c => word "    " ++ c.1 ++ word " = " ++ c.2 ++ nl) (fun c => by rw [List.append_nil]) R
  have g4 := fun cur R => class_group cur .op g.ops (hg .op) _ nl [] (b4 cur) (read_empty _) (.inl rfl)
    (fun c => word "    " ++ c.1 ++ word " = " ++ c.2 ++ nl) (fun c => by rw [List.append_nil]) R
  simp only [List.append_assoc] at e1 e2 g1 g2 g3 g4
  rw [e1, e2, read_empty, g1, g2, g3, g4]
  simp [readText, readLines, readLine, lineWords, pieces]

theorem read_generateTs (g : GTab) (hg : g.Tidy) : readText [] (generateTs g) =
    declared .err g.errs ++ declared .mode g.modes ++ declared .trans g.trans ++ declared .op g.ops := by
  unfold generateTs
  rw [← List.append_nil (printGroup g.ops _ _ _)]
  simp only [List.append_assoc]
  have e1 := fun R => read_plain [] (word "// Code generated by gen_bindings.c; DO NOT EDIT.") R (by decide +kernel) (.inl (by decide +kernel))
  have b1 := fun cur => ts_before cur (word "Error") (word "export enum Error {") (by decide +kernel) (by decide +kernel) (by decide +kernel)
  have b2 := fun cur => ts_before cur (word "Mode") (word "export enum Mode {") (by decide +kernel) (by decide +kernel) (by decide +kernel)
  have b3 := fun cur => ts_before cur (word "Trans") (word "export enum Trans {") (by decide +kernel) (by decide +kernel) (by decide +kernel)
  have b4 := fun cur => ts_before cur (word "OpCode") (word "export enum OpCode {") (by decide +kernel) (by decide +kernel) (by decide +kernel)
  have z : ∀ cur R, readText cur (word "}" ++ nl ++ nl ++ R) = readText cur R := fun cur R => by
    rw [List.append_assoc (word "}" ++ nl), read_close _ _ _ (.inr rfl), read_empty]
  have g1 := fun cur R => class_group cur .err g.errs (hg .err) _ _ (word ",") (b1 cur) (z _) (.inr rfl)
    (fun c => word "    " ++ c.1 ++ word " = " ++ c.2 ++ word "," ++ nl) (fun c => rfl) R
  have g2 := fun cur R => class_group cur .mode g.modes (hg .mode) _ _ (word ",") (b2 cur) (z _) (.inr rfl)
    (fun c => word "    " ++ c.1 ++ word " = " ++ c.2 ++ word "," ++ nl) (fun c => rfl) R
  have g3 := fun cur R => class_group cur .trans g.trans (hg .trans) _ _ (word ",") (b3 cur) (z _) (.inr rfl)
    (fun c => word "    " ++ c.1 ++ word " = " ++ c.2 ++ word "," ++ nl) (fun c => rfl) R
  have g4 := fun cur R => class_group cur .op g.ops (hg .op) _ _ (word ",") (b4 cur) (z _) (.inr rfl)
    (fun c => word "    " ++ c.1 ++ word " = " ++ c.2 ++ word "," ++ nl) (fun c => rfl) R
  simp only [List.append_assoc] at e1 g1 g2 g3 g4
  rw [e1, read_empty, g1, g2, g3, g4]
  simp [readText, readLines, readLine, lineWords, pieces]

end Cnd
