import Verif.Props.BindText
/-
  C86, end to end, and names that stay different.
-/

namespace Cnd

/-- The declarations wanted of a kind: type, name and value. -/
def wantedDecl (k : GKind) (l : List (List Byte × Int)) : List (List Byte × List Byte × Option Int) := (wanted k l).map fun c => (k.typeName, c.1, c.2)

/-- Declarations with the values their texts stand for. -/
def declVals (l : List (List Byte × List Byte × List Byte)) : List (List Byte × List Byte × Option Int) := l.map fun d => (d.1, d.2.1, numLit d.2.2)

theorem declVals_declared (k : GKind) (t : List GConst) (l : List (List Byte × Int)) (h : valued t = wanted k l) : declVals (declared k t) = wantedDecl k l := by
  unfold wantedDecl
  rw [← h]
  simp [declVals, declared, valued, Function.comp_def]

/-- **C86, the files.** Reading the generated Go, Python and TypeScript gives the constants C sees in the header: types, names and values;
the byte orders in Go only. -/
theorem C86_files_partial (text : List Byte) (items : List HItem) (h : Header text items) (hfirst : firstGiven false items = true)
    (hrange : ∀ c ∈ cMeaning 0 items, -(2 ^ 31) ≤ c.2 ∧ c.2 < 2 ^ 31) (hcount : (cMeaning 0 items).length ≤ 256) :
    ∃ g, genTables text = some g ∧
      declVals (readText [] (generateGo g)) = [GKind.err, .mode, .trans, .op, .order].flatMap (fun k => wantedDecl k (cMeaning 0 items)) ∧
      declVals (readText [] (generatePy g)) = [GKind.err, .mode, .trans, .op].flatMap (fun k => wantedDecl k (cMeaning 0 items)) ∧
      declVals (readText [] (generateTs g)) = [GKind.err, .mode, .trans, .op].flatMap (fun k => wantedDecl k (cMeaning 0 items)) := by
  obtain ⟨g, h1, h2, h3⟩ := process_header h text.length GTab.start 0 false (Nat.le_refl _) hfirst (fun _ => rfl) hrange
    (by intro k; cases k <;> simpa [GTab.kind, GTab.start] using hcount) (by intro k c hc; cases k <;> cases hc)
  have hk : ∀ k, valued (g.kind k) = wanted k (cMeaning 0 items) := by
    intro k
    rw [h3 k]
    cases k <;> rfl
  have d := fun k => declVals_declared k _ _ (hk k)
  have app : ∀ a b, declVals (a ++ b) = declVals a ++ declVals b := fun a b => List.map_append
  have d1 := d .err
  have d2 := d .mode
  have d3 := d .trans
  have d4 := d .op
  have d5 := d .order
  simp only [GTab.kind] at d1 d2 d3 d4 d5
  refine ⟨g, h1, ?_, ?_, ?_⟩
  · rw [read_generateGo g h2]
    simp only [app, d1, d2, d3, d4, d5, List.flatMap_cons, List.flatMap_nil, List.append_nil, List.append_assoc]
  · rw [read_generatePy g h2]
    simp only [app, d1, d2, d3, d4, List.flatMap_cons, List.flatMap_nil, List.append_nil, List.append_assoc]
  · rw [read_generateTs g h2]
    simp only [app, d1, d2, d3, d4, List.flatMap_cons, List.flatMap_nil, List.append_nil, List.append_assoc]

/-! ### Names -/

/-- The abbreviations. -/
def KeptWord (w : List Byte) : Prop := w ∈ ["OOB", "CRC", "ID", "VM"].map word

instance (w : List Byte) : Decidable (KeptWord w) := inferInstanceAs (Decidable (w ∈ _))

/-- Words from which the name can be told: capital letters and digits; digits in front only behind an abbreviation; single letters only at
the end. -/
def PlainWords : Bool → List (List Byte) → Prop
  | _, [] => True
  | k, w :: ws => (∀ b ∈ w, gUpper b = true ∨ gDigit b = true) ∧ w ≠ [] ∧ (k = false → ∀ b, w.head? = some b → gUpper b = true) ∧
      (w.length = 1 → ws = []) ∧ PlainWords (decide (KeptWord w)) ws

instance : (k : Bool) → (l : List (List Byte)) → Decidable (PlainWords k l)
  | _, [] => inferInstanceAs (Decidable True)
  | k, w :: ws =>
    have := instDecidablePlainWords (decide (KeptWord w)) ws
    have : Decidable (k = false → ∀ b, w.head? = some b → gUpper b = true) := match w with
      | [] => isTrue (fun _ b h => by cases h)
      | a :: r => decidable_of_iff (k = false → gUpper a = true) ⟨fun h hk b hb => by cases hb; exact h hk, fun h hk => h hk a rfl⟩
    inferInstanceAs (Decidable (_ ∧ _ ∧ _ ∧ _ ∧ _))

def lowDig (b : Byte) : Bool := gLower b || gDigit b

theorem plain_case : ∀ b : Byte, (gUpper b = true ∨ gDigit b = true) → gToUpper b = b ∧ lowDig (gToLower b) = true := by decide +kernel

theorem lower_inj : ∀ a b : Byte, (gUpper a = true ∨ gDigit a = true) → (gUpper b = true ∨ gDigit b = true) → gToLower a = gToLower b → a = b := by
  intro a b ha hb h
  have key : ∀ x : Byte, (gUpper x = true ∨ gDigit x = true) → gToUpper (gToLower x) = x := by decide +kernel
  rw [← key a ha, ← key b hb, h]

theorem map_lower_inj {a b : List Byte} (ha : ∀ x ∈ a, gUpper x = true ∨ gDigit x = true) (hb : ∀ x ∈ b, gUpper x = true ∨ gDigit x = true)
    (h : a.map gToLower = b.map gToLower) : a = b := by
  induction a generalizing b with
  | nil => cases b with
    | nil => rfl
    | cons y b => cases h
  | cons x a ih => cases b with
    | nil => cases h
    | cons y b =>
      rw [List.map_cons, List.map_cons, List.cons.injEq] at h
      rw [lower_inj x y (ha x (List.mem_cons_self ..)) (hb y (List.mem_cons_self ..)) h.1,
        ih (fun z hz => ha z (List.mem_cons_of_mem _ hz)) (fun z hz => hb z (List.mem_cons_of_mem _ hz)) h.2]

/-- The first letters and the second of the abbreviations. -/
theorem kept_shape {w : List Byte} (h : KeptWord w) : ∃ a b r, w = a :: b :: r ∧ gUpper a = true ∧ lowDig b = false := by
  have : ∀ w ∈ ["OOB", "CRC", "ID", "VM"].map word, (match w with
    | a :: b :: _ => gUpper a && !lowDig b
    | _ => false) = true := by decide +kernel
  have := this w h
  split at this
  · rename_i a b r
    rw [Bool.and_eq_true, Bool.not_eq_true'] at this
    exact ⟨a, b, r, rfl, this.1, this.2⟩
  · cases this

theorem kept_first {w w' : List Byte} (h : KeptWord w) (h' : KeptWord w') (he : w.head? = w'.head?) : w = w' := by
  have : ∀ w ∈ ["OOB", "CRC", "ID", "VM"].map word, ∀ w' ∈ ["OOB", "CRC", "ID", "VM"].map word, w.head? = w'.head? → w = w' := by decide +kernel
  exact this w h w' h' he

theorem upper_not : ∀ b : Byte, gUpper b = true → lowDig b = false := by decide +kernel

/-- What comes behind a word that is no abbreviation. -/
theorem next_upper {ws : List (List Byte)} (h : PlainWords false ws) : ∀ b r, ws.flatMap capWord = b :: r → lowDig b = false := by
  intro b r he
  cases ws with
  | nil => cases he
  | cons w ws =>
    obtain ⟨h1, h2, h3, _⟩ := h
    cases w with
    | nil => exact absurd rfl h2
    | cons a w =>
      have hu := h3 rfl a rfl
      have hc : ∃ t, capWord (a :: w) = a :: t := by
        unfold capWord
        split
        · exact ⟨w, rfl⟩
        · exact ⟨w.map gToLower, by simp [(plain_case a (.inl hu)).1]⟩
      obtain ⟨t, ht⟩ := hc
      rw [List.flatMap_cons, ht, List.cons_append, List.cons.injEq] at he
      rw [← he.1]
      exact upper_not a hu

theorem cap_ordinary {a : Byte} {w : List Byte} (h : ¬ KeptWord (a :: w)) (ha : gUpper a = true ∨ gDigit a = true) :
    capWord (a :: w) = a :: w.map gToLower := by
  have h' : ¬ (a :: w ∈ ["OOB", "CRC", "ID", "VM"].map word) := h
  unfold capWord
  rw [if_neg h']
  simp [(plain_case a ha).1]

theorem cap_kept {w : List Byte} (h : KeptWord w) : capWord w = w := by
  have h' : w ∈ ["OOB", "CRC", "ID", "VM"].map word := h
  unfold capWord
  rw [if_pos h']

/-- An abbreviation against an ordinary word. -/
theorem kept_ordinary {w w' : List Byte} {ws ws' : List (List Byte)} (hk : KeptWord w) (ho : ¬ KeptWord w') {b : Bool} (hp : PlainWords b (w' :: ws')) {X : List Byte}
    (he : capWord w ++ X = capWord w' ++ ws'.flatMap capWord) (hX : X = ws.flatMap capWord) : False := by
  obtain ⟨x, y, r, rfl, hx, hy⟩ := kept_shape hk
  obtain ⟨h1, h2, h3, h4, h5⟩ := hp
  cases w' with
  | nil => exact h2 rfl
  | cons a w' =>
    rw [cap_kept hk, cap_ordinary ho (h1 a (List.mem_cons_self ..))] at he
    simp only [List.cons_append, List.cons.injEq] at he
    cases w' with
    | nil =>
      rw [h4 rfl] at he
      cases he.2
    | cons c w' =>
      simp only [List.map_cons, List.cons_append, List.cons.injEq] at he
      have := (plain_case c (h1 c (by simp))).2
      rw [← he.2.1, hy] at this
      cases this

theorem flat_inj : ∀ (ws ws' : List (List Byte)) (k : Bool), PlainWords k ws → PlainWords k ws' → ws.flatMap capWord = ws'.flatMap capWord → ws = ws'
  | [], [], _, _, _, _ => rfl
  | [], w' :: ws', _, _, h', he => by
    have := congrArg List.length he
    rw [List.flatMap_cons, List.length_append, capWord_length] at this
    have hl := List.length_pos_iff.2 h'.2.1
    simp only [List.flatMap_nil, List.length_nil] at this
    omega
  | w :: ws, [], _, h, _, he => by
    have := congrArg List.length he
    rw [List.flatMap_cons, List.length_append, capWord_length] at this
    have hl := List.length_pos_iff.2 h.2.1
    simp only [List.flatMap_nil, List.length_nil] at this
    omega
  | w :: ws, w' :: ws', k, h, h', he => by
    have hh := h
    have hh' := h'
    obtain ⟨h1, h2, h3, h4, h5⟩ := h
    obtain ⟨h1', h2', h3', h4', h5'⟩ := h'
    rw [List.flatMap_cons, List.flatMap_cons] at he
    by_cases hk : KeptWord w
    · by_cases hk' : KeptWord w'
      · have : w = w' := by
          refine kept_first hk hk' ?_
          rw [cap_kept hk, cap_kept hk'] at he
          have := congrArg List.head? he
          cases w with
          | nil => exact absurd rfl h2
          | cons a w => cases w' with
            | nil => exact absurd rfl h2'
            | cons a' w' => simpa using this
        subst this
        rw [flat_inj ws ws' _ h5 h5' (List.append_cancel_left he)]
      · exact (kept_ordinary (ws := ws) hk hk' hh' he rfl).elim
    · by_cases hk' : KeptWord w'
      · exact (kept_ordinary (ws := ws') hk' hk hh he.symm rfl).elim
      · rw [decide_eq_false hk] at h5
        rw [decide_eq_false hk'] at h5'
        cases w with
        | nil => exact absurd rfl h2
        | cons a w => cases w' with
          | nil => exact absurd rfl h2'
          | cons a' w' =>
            rw [cap_ordinary hk (h1 a (List.mem_cons_self ..)), cap_ordinary hk' (h1' a' (List.mem_cons_self ..))] at he
            simp only [List.cons_append, List.cons.injEq] at he
            obtain ⟨rfl, he⟩ := he
            have hw : ∀ b ∈ w, gUpper b = true ∨ gDigit b = true := fun b hb => h1 b (List.mem_cons_of_mem _ hb)
            have hw' : ∀ b ∈ w', gUpper b = true ∨ gDigit b = true := fun b hb => h1' b (List.mem_cons_of_mem _ hb)
            have hl : ∀ b ∈ w.map gToLower, lowDig b = true := fun b hb => by
              obtain ⟨c, hc, rfl⟩ := List.mem_map.1 hb
              exact (plain_case c (hw c hc)).2
            have hl' : ∀ b ∈ w'.map gToLower, lowDig b = true := fun b hb => by
              obtain ⟨c, hc, rfl⟩ := List.mem_map.1 hb
              exact (plain_case c (hw' c hc)).2
            have e1 := take_head hl (next_upper h5)
            have e2 := take_head hl' (next_upper h5')
            rw [he, e2] at e1
            have hww : w = w' := map_lower_inj hw hw' e1.symm
            subst hww
            rw [flat_inj ws ws' false h5 h5' (List.append_cancel_left he)]

theorem splitWords_inj {a b : List Byte} (h : splitWords a = splitWords b) : a = b := by
  have key : ∀ l : List Byte, ((splitWords l).map (fun w => 0x5F :: w)).flatten = 0x5F :: l := by
    intro l
    induction l with
    | nil => rfl
    | cons c r ih =>
      have hs := splitWords_ne r
      cases hr : splitWords r with
      | nil => exact absurd hr hs
      | cons w ws =>
        rw [hr] at ih
        simp only [List.map_cons, List.flatten_cons, List.cons_append, List.cons.injEq, true_and] at ih
        by_cases hc : c = 0x5F
        · rw [splitWords, if_pos hc, hr]
          simp only [List.map_cons, List.flatten_cons, List.cons_append, List.nil_append, ih, hc]
        · rw [splitWords, if_neg hc, hr]
          simp only [List.map_cons, List.flatten_cons, List.cons_append, ih]
  have ha := key a
  rw [h, key b] at ha
  exact (List.cons.inj ha).2.symm

/-- How much of a name is dropped. -/
def GKind.dropped : GKind → Nat
  | .op => 3
  | .err => 8
  | .mode => 9
  | .trans => 10
  | .order => 4

/-- **C86, names.** Two constants of a kind with different names in the header have different names in the generated files. -/
theorem C86_names_partial (k : GKind) (n n' : List Byte) (hk : GKind.kindOf n = some k) (hk' : GKind.kindOf n' = some k)
    (hp : PlainWords false (splitWords (n.drop k.dropped))) (hp' : PlainWords false (splitWords (n'.drop k.dropped))) (h : k.rename n = k.rename n') : n = n' := by
  have hpas : pascal (n.drop k.dropped) = pascal (n'.drop k.dropped) := by
    cases k <;> first | exact List.append_cancel_left h | exact h
  have hd := splitWords_inj (flat_inj _ _ false hp hp' hpas)
  have ht : n.take k.dropped = n'.take k.dropped := by
    have tk : ∀ (w r : List Byte), (w ++ r).take w.length = w := fun w r => List.take_left
    unfold GKind.kindOf at hk hk'
    have pre : ∀ (k : GKind) (n : List Byte), (if word "OP_" <+: n then some GKind.op else if word "CND_ERR_" <+: n then some GKind.err
        else if word "CND_MODE_" <+: n then some GKind.mode else if word "CND_TRANS_" <+: n then some GKind.trans
        else if word "CND_LE" <+: n ∨ word "CND_BE" <+: n then some GKind.order else none) = some k →
        n.take k.dropped = (match k with
          | .op => word "OP_"
          | .err => word "CND_ERR_"
          | .mode => word "CND_MODE_"
          | .trans => word "CND_TRANS_"
          | .order => word "CND_") := by
      intro k n hk
      split at hk
      · rename_i h; obtain ⟨r, rfl⟩ := h; cases hk; exact tk (word "OP_") r
      split at hk
      · rename_i h; obtain ⟨r, rfl⟩ := h; cases hk; exact tk (word "CND_ERR_") r
      split at hk
      · rename_i h; obtain ⟨r, rfl⟩ := h; cases hk; exact tk (word "CND_MODE_") r
      split at hk
      · rename_i h; obtain ⟨r, rfl⟩ := h; cases hk; exact tk (word "CND_TRANS_") r
      split at hk
      · rename_i h
        cases hk
        rcases h with ⟨r, rfl⟩ | ⟨r, rfl⟩
        · exact tk (word "CND_") (word "LE" ++ r)
        · exact tk (word "CND_") (word "BE" ++ r)
      · cases hk
    rw [pre k n hk, pre k n' hk']
  rw [← List.take_append_drop k.dropped n, ht, hd, List.take_append_drop]


/-! ### A header, and headers for which the generator is wrong -/

theorem quiet_of {l : List Byte} (h1 : (word "#define").isPrefixOf l = false ∨ (word "OP_").isPrefixOf ((l.drop 7).dropWhile gSpace) = false)
    (h2 : (word "CND_").isPrefixOf (l.dropWhile gSpace) = false) :
    (∀ s r, (∀ b ∈ s, gSpace b = true) → l ≠ word "#define" ++ s ++ word "OP_" ++ r) ∧
    (∀ s r, (∀ b ∈ s, gSpace b = true) → l ≠ s ++ word "CND_" ++ r) := by
  constructor
  · rintro s r hs rfl
    rcases h1 with h1 | h1
    · rw [show word "#define" ++ s ++ word "OP_" ++ r = word "#define" ++ (s ++ word "OP_" ++ r) from by simp] at h1
      rw [List.isPrefixOf_iff_prefix.2 (List.prefix_append _ _)] at h1
      cases h1
    · rw [show word "#define" ++ s ++ word "OP_" ++ r = word "#define" ++ (s ++ (word "OP_" ++ r)) from by simp,
        show (7 : Nat) = (word "#define").length from by decide, List.drop_left, drop_head hs (fun b r' h => by
          rw [show word "OP_" = 0x4F :: word "P_" from by decide, List.cons_append, List.cons.injEq] at h
          rw [← h.1]; decide)] at h1
      rw [List.isPrefixOf_iff_prefix.2 (List.prefix_append _ _)] at h1
      cases h1
  · rintro s r hs rfl
    rw [List.append_assoc, drop_head hs (fun b r' h => by
      rw [show word "CND_" = 0x43 :: word "ND_" from by decide, List.cons_append, List.cons.injEq] at h
      rw [← h.1]; decide)] at h2
    rw [List.isPrefixOf_iff_prefix.2 (List.prefix_append _ _)] at h2
    cases h2

namespace Demo

/-- Some lines of concordia.h. -/
def hdrText : List Byte :=
  word "#define OP_CRC_16           0x44" ++ [0x0A] ++ (word "typedef enum {" ++ [0x0A] ++
  (word "    CND_ERR_OOB = 1,           // Out of bounds (IL or Data)" ++ [0x0A] ++ (word "    CND_ERR_INVALID_OP = 2" ++ [0x0A] ++
  (word "} cnd_error_t;" ++ [0x0A] ++ (word "typedef enum {" ++ [0x0A] ++ (word "    CND_LE = 0, // Little Endian" ++ [0x0A] ++
  (word "    CND_BE = 1  // Big Endian" ++ [0x0A] ++ (word "#define CND_MAX_LOOP_DEPTH 8" ++ [0x0A] ++ (word "typedef enum {" ++ [0x0A] ++
  (word "    CND_TRANS_NONE = 0," ++ [0x0A] ++ (word "    CND_TRANS_SCALE_F64, // Linear Float Scale (y = mx + c)" ++ [0x0A] ++
  (word "    CND_TRANS_POLY" ++ [0x0A] ++ []))))))))))))

def hdrItems : List HItem :=
  [.op (word "CRC_16") (word "0x44"), .begin, .member (word "CND_ERR_OOB") (some (word "1")), .member (word "CND_ERR_INVALID_OP") (some (word "2")), .skip,
   .begin, .member (word "CND_LE") (some (word "0")), .member (word "CND_BE") (some (word "1")), .skip, .begin,
   .member (word "CND_TRANS_NONE") (some (word "0")), .member (word "CND_TRANS_SCALE_F64") none, .member (word "CND_TRANS_POLY") none]

theorem tail_none : TailOf [] := ⟨[], [], fun b hb => (by cases hb), .inl rfl, rfl⟩

theorem tail_comment (n : Nat) (t : List Byte) : TailOf (List.replicate n 0x20 ++ 0x2F :: 0x2F :: t) :=
  ⟨List.replicate n 0x20, 0x2F :: 0x2F :: t, fun b hb => .inl (List.eq_of_mem_replicate hb), .inr ⟨t, rfl⟩, rfl⟩

theorem given {l n v : List Byte} (t comma : List Byte) (ht : TailOf t) (hn : Ident n) (hl : n.length ≤ 250) (hp : (word "CND_").isPrefixOf n = true)
    (hv : (numLit v).isSome = true) (hvl : v.length ≤ 250) (hc : comma = [] ∨ comma = [0x2C])
    (h : l = word "    " ++ n ++ word " = " ++ v ++ comma ++ t) : LineOf l (.member n (some v)) :=
  ⟨word "    ", word " ", [0x3D] ++ word " " ++ v ++ [], t, (by unfold Blanks; decide), (by unfold Blanks; decide), ht, hn, hl, hp,
    ⟨hv, hvl, word " ", [], (by unfold Blanks; decide), (by unfold Blanks; decide), rfl⟩, comma, hc,
    by rw [h, show word " = " = word " " ++ [0x3D] ++ word " " from by decide]; simp⟩

theorem notGiven {l n : List Byte} (t comma : List Byte) (ht : TailOf t) (hn : Ident n) (hl : n.length ≤ 250) (hp : (word "CND_").isPrefixOf n = true)
    (hc : comma = [] ∨ comma = [0x2C]) (h : l = word "    " ++ n ++ comma ++ t) : LineOf l (.member n none) :=
  ⟨word "    ", [], [], t, (by unfold Blanks; decide), (by unfold Blanks; decide), ht, hn, hl, hp, rfl, comma, hc, by rw [h]; simp⟩

theorem hdr : Header hdrText hdrItems := by
  unfold hdrText hdrItems
  refine .line ⟨word " ", word "           ", [], by unfold Blanks; decide, by decide, by unfold Blanks; decide, by decide, tail_none, by unfold Ident; decide +kernel,
    by decide, by decide, by decide, by decide +kernel, by decide +kernel⟩ (by decide +kernel) (by decide) ?_
  refine .line (quiet_of (by decide +kernel) (by decide +kernel)) (by decide +kernel) (by decide) ?_
  refine .line (given (List.replicate 11 0x20 ++ 0x2F :: 0x2F :: word " Out of bounds (IL or Data)") [0x2C] (tail_comment 11 _) (by unfold Ident; decide +kernel) (by decide)
    (by decide +kernel) (by decide +kernel) (by decide) (.inr rfl) (by decide +kernel)) (by decide +kernel) (by decide +kernel) ?_
  refine .line (given [] [] tail_none (by unfold Ident; decide +kernel) (by decide) (by decide +kernel) (by decide +kernel) (by decide) (.inl rfl) (by decide +kernel))
    (by decide +kernel) (by decide +kernel) ?_
  refine .line (quiet_of (by decide +kernel) (by decide +kernel)) (by decide +kernel) (by decide) ?_
  refine .line (quiet_of (by decide +kernel) (by decide +kernel)) (by decide +kernel) (by decide) ?_
  refine .line (given (List.replicate 1 0x20 ++ 0x2F :: 0x2F :: word " Little Endian") [0x2C] (tail_comment 1 _) (by unfold Ident; decide +kernel) (by decide)
    (by decide +kernel) (by decide +kernel) (by decide) (.inr rfl) (by decide +kernel)) (by decide +kernel) (by decide +kernel) ?_
  refine .line (given (List.replicate 2 0x20 ++ 0x2F :: 0x2F :: word " Big Endian") [] (tail_comment 2 _) (by unfold Ident; decide +kernel) (by decide)
    (by decide +kernel) (by decide +kernel) (by decide) (.inl rfl) (by decide +kernel)) (by decide +kernel) (by decide +kernel) ?_
  refine .line (quiet_of (by decide +kernel) (by decide +kernel)) (by decide +kernel) (by decide) ?_
  refine .line (quiet_of (by decide +kernel) (by decide +kernel)) (by decide +kernel) (by decide) ?_
  refine .line (given [] [0x2C] tail_none (by unfold Ident; decide +kernel) (by decide) (by decide +kernel) (by decide +kernel) (by decide) (.inr rfl) (by decide +kernel))
    (by decide +kernel) (by decide +kernel) ?_
  refine .line (notGiven (List.replicate 1 0x20 ++ 0x2F :: 0x2F :: word " Linear Float Scale (y = mx + c)") [0x2C] (tail_comment 1 _) (by unfold Ident; decide +kernel) (by decide)
    (by decide +kernel) (.inr rfl) (by decide +kernel)) (by decide +kernel) (by decide +kernel) ?_
  refine .line (notGiven [] [] tail_none (by unfold Ident; decide +kernel) (by decide) (by decide +kernel) (.inl rfl) (by decide +kernel))
    (by decide +kernel) (by decide +kernel) ?_
  exact .nil

end Demo

/-- The hypotheses of `C86_tables_partial` and `C86_files_partial` hold of it, and these are its constants. -/
example : Header Demo.hdrText Demo.hdrItems ∧ firstGiven false Demo.hdrItems = true ∧ (∀ c ∈ cMeaning 0 Demo.hdrItems, -(2 ^ 31) ≤ c.2 ∧ c.2 < 2 ^ 31) ∧
    (cMeaning 0 Demo.hdrItems).length ≤ 256 ∧
    cMeaning 0 Demo.hdrItems = [(word "OP_CRC_16", 0x44), (word "CND_ERR_OOB", 1), (word "CND_ERR_INVALID_OP", 2), (word "CND_LE", 0), (word "CND_BE", 1),
      (word "CND_TRANS_NONE", 0), (word "CND_TRANS_SCALE_F64", 1), (word "CND_TRANS_POLY", 2)] ∧
    [GKind.err, .mode, .trans, .op, .order].flatMap (fun k => wantedDecl k (cMeaning 0 Demo.hdrItems)) =
      [(word "Error", word "ErrOOB", some 1), (word "Error", word "ErrInvalidOp", some 2), (word "Trans", word "TransNone", some 0),
       (word "Trans", word "TransScaleF64", some 1), (word "Trans", word "TransPoly", some 2), (word "OpCode", word "OpCRC16", some 0x44),
       ([], word "Le", some 0), ([], word "Be", some 1)] :=
  ⟨Demo.hdr, by decide +kernel, by decide +kernel, by decide +kernel, by decide +kernel, by decide +kernel⟩

/-- The hypotheses of `C86_names_partial` hold of the opcodes of concordia.h; these are those with the most unusual names. -/
example : ∀ n ∈ ["OP_NOOP", "OP_IO_U8", "OP_IO_BIT_U", "OP_IO_BIT_BOOL", "OP_STR_PRE_U16", "OP_CRC_16", "OP_CRC_32", "OP_EQ_F", "OP_SWITCH_TABLE"].map word,
    GKind.kindOf n = some .op ∧ PlainWords false (splitWords (n.drop GKind.op.dropped)) := by decide +kernel

/-- The tables a header gives. -/
def tablesB (ops errs modes trans others : List (String × String)) : Option GTab → Bool
  | some g => decide (g.ops = ops.map (fun c => (word c.1, word c.2)) ∧ g.errs = errs.map (fun c => (word c.1, word c.2)) ∧
      g.modes = modes.map (fun c => (word c.1, word c.2)) ∧ g.trans = trans.map (fun c => (word c.1, word c.2)) ∧ g.others = others.map (fun c => (word c.1, word c.2)))
  | none => false

/-- Lines. -/
def hdrLines (l : List String) : List Byte := l.flatMap fun s => word s ++ [0x0A]

/-- **An enumeration that leaves its first value to C** goes on where the enumeration before it ended. -/
theorem C86_false_first :
    cMeaning 0 [.begin, .member (word "CND_MODE_ENCODE") (some (word "0")), .member (word "CND_MODE_DECODE") (some (word "1")), .skip, .begin,
      .member (word "CND_TRANS_NONE") none] = [(word "CND_MODE_ENCODE", 0), (word "CND_MODE_DECODE", 1), (word "CND_TRANS_NONE", 0)] ∧
    tablesB [] [] [("ModeEncode", "0"), ("ModeDecode", "1")] [("TransNone", "2")] []
      (genTables (hdrLines ["enum {", "CND_MODE_ENCODE = 0,", "CND_MODE_DECODE = 1", "};", "enum {", "CND_TRANS_NONE", "};"])) = true := by decide +kernel

/-- **Two enumerators on a line, other comments, sums.** The first gets the value of the second, which is lost; a value in a comment of the
other kind counts; of `1 + 2` only the 1. -/
theorem C86_false_lines :
    tablesB [] [] [] [] [("Le", "7")] (genTables (hdrLines ["CND_LE, CND_BE = 7,"])) = true ∧
    tablesB [] [("ErrOk", "5")] [] [] [] (genTables (hdrLines ["CND_ERR_OK, /* not = 5 */"])) = true ∧
    tablesB [("OpA", "(1")] [("ErrOk", "1")] [] [] [] (genTables (hdrLines ["#define OP_A (1 + 2)", "CND_ERR_OK = 1 + 2,"])) = true := by decide +kernel

/-- **Different names become the same.** -/
theorem C86_false_names :
    word "OP_A_1" ≠ word "OP_A1" ∧ GKind.op.rename (word "OP_A_1") = GKind.op.rename (word "OP_A1") ∧
    word "OP_I_D" ≠ word "OP_ID" ∧ GKind.op.rename (word "OP_I_D") = GKind.op.rename (word "OP_ID") := by decide +kernel

/-- **More than 256 opcodes** are written behind the end of the table. -/
theorem C86_false_many : genTables (List.replicate 256 (word "#define OP_A 1" ++ [0x0A])).flatten ≠ none ∧
    genTables (List.replicate 257 (word "#define OP_A 1" ++ [0x0A])).flatten = none := by decide +kernel

end Cnd
