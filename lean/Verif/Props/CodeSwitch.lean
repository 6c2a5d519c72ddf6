import Verif.Props.CodeStmt
/-
  C80, switches and blocks.
-/
set_option linter.unusedVariables false
set_option linter.unusedSimpArgs false

namespace Cnd

/-- The cases before their jumps are fixed up. -/
def rawCases : List (List Byte) → List Byte
  | [] => []
  | p :: ps => p ++ (0x52 :: ([0, 0, 0, 0] ++ rawCases ps))

/-- Where the jumps are. -/
def jumpLocs : Nat → List (List Byte) → List Nat
  | _, [] => []
  | k, p :: ps => (k + p.length) :: jumpLocs (k + p.length + 5) ps

theorem rawCases_snoc (ps : List (List Byte)) (p : List Byte) : rawCases (ps ++ [p]) = rawCases ps ++ (p ++ [0x52, 0, 0, 0, 0]) := by
  induction ps with
  | nil => simp [rawCases]
  | cons x ps ih => simp [rawCases, ih]

theorem caseStarts_snoc (k : Nat) (ps : List (List Byte)) (p : List Byte) :
    caseStarts k (ps ++ [p]) = caseStarts k ps ++ [k + (rawCases ps).length] := by
  induction ps generalizing k with
  | nil => simp [caseStarts, rawCases]
  | cons x ps ih =>
    simp only [List.cons_append, caseStarts, ih, rawCases, List.length_append, List.length_cons, List.length_nil]
    congr 3; omega

theorem jumpLocs_snoc (k : Nat) (ps : List (List Byte)) (p : List Byte) :
    jumpLocs k (ps ++ [p]) = jumpLocs k ps ++ [k + (rawCases ps).length + p.length] := by
  induction ps generalizing k with
  | nil => simp [jumpLocs, rawCases]
  | cons x ps ih =>
    simp only [List.cons_append, jumpLocs, ih, rawCases, List.length_append, List.length_cons, List.length_nil]
    congr 3; omega

theorem caseCode_length (tl : Nat) (ps : List (List Byte)) : (caseCode tl ps).length = (rawCases ps).length := by
  induction ps with
  | nil => rfl
  | cons p ps ih => simp only [caseCode, rawCases, List.length_append, List.length_cons, u32le_length, ih, List.length_nil]

/-- Fixing up the jumps. -/
theorem fix_jumps (ps : List (List Byte)) (A T : List Byte) (stop : Nat) (s : CSt) (ho : s.out = A ++ (rawCases ps ++ T))
    (hs : stop = A.length + (rawCases ps).length + T.length) :
    ((jumpLocs A.length ps).foldl (fun s j => s.patch (j + 1) (u32le (stop - (j + 5)))) s).out = A ++ (caseCode T.length ps ++ T) := by
  induction ps generalizing A s with
  | nil => exact ho
  | cons p ps ih =>
    simp only [jumpLocs, List.foldl_cons]
    have h1 := patch_mid (s := s) (A := A ++ (p ++ [0x52])) (x := [0, 0, 0, 0]) (B := rawCases ps ++ T) (u32le (stop - (A.length + p.length + 5)))
      (n := A.length + p.length + 1) (by rw [ho]; simp [rawCases]) (by simp; omega) (by simp)
    have e : A.length + p.length + 5 = (A ++ (p ++ [0x52]) ++ u32le (stop - (A.length + p.length + 5))).length := by
      simp only [List.length_append, u32le_length, List.length_cons, List.length_nil]; omega
    have h2 := ih (A ++ (p ++ [0x52]) ++ u32le (stop - (A.length + p.length + 5))) (s.patch (A.length + p.length + 1) (u32le (stop - (A.length + p.length + 5))))
      (by rw [h1]; simp) (by
        rw [← e, hs]
        simp only [rawCases, List.length_append, List.length_cons, List.length_nil]; omega)
    rw [← e] at h2
    rw [h2]
    have e2 : stop - (A.length + p.length + 5) = (caseCode T.length ps).length + T.length := by
      rw [hs, caseCode_length]
      simp only [rawCases, List.length_append, List.length_cons, List.length_nil]; omega
    rw [e2]
    simp only [caseCode, List.append_assoc, List.cons_append, List.nil_append]

theorem fix_keeps (l : List Nat) (f : Nat → List Byte) (s : CSt) :
    let t := l.foldl (fun s j => s.patch (j + 1) (f j)) s
    t.cur = s.cur ∧ t.toks = s.toks ∧ t.errs = s.errs ∧ t.structs = s.structs ∧ t.ep = s.ep := by
  induction l generalizing s with
  | nil => exact ⟨rfl, rfl, rfl, rfl, rfl⟩
  | cons j l ih => exact ih (s.patch (j + 1) (f j))

/-! ### The table -/

/-- Where a value goes. -/
def caseTo (cs : List (Word × Nat)) (d : Nat) (v : Word) : Nat :=
  match cs.find? (fun c => c.1 == v) with
  | some c => c.2
  | none => d

theorem goesTo_mem (cs : List (Word × Nat)) (d : Nat) (v : Word) : caseTo cs d v = d ∨ ∃ c ∈ cs, caseTo cs d v = c.2 := by
  unfold caseTo
  split
  · rename_i c h; exact .inr ⟨c, List.mem_of_find?_eq_some h, rfl⟩
  · exact .inl rfl

theorem caseTarget_goes (cs : List (Word × Nat)) (d : Nat) (v : Word) :
    leBytes 4 (caseTarget (cs.map offOf) (BitVec.ofNat 64 (d % 2 ^ 32)) v) = u32le (caseTo cs d v) := by
  unfold caseTarget caseTo
  induction cs with
  | nil => exact u32_mod d
  | cons c cs ih =>
    simp only [List.map_cons, List.find?_cons]
    rw [show (offOf c).1 = c.1 from rfl]
    by_cases h : (c.1 == v) = true
    · rw [h]; exact u32_mod c.2
    · rw [Bool.not_eq_true] at h
      rw [h]; exact ih

theorem sparse_length (d : Nat) (cs : List (Word × Nat)) : (sparse d cs).length = 6 + cs.length * 12 := by
  unfold sparse
  simp only [List.length_append, u16le_length, u32le_length]
  rw [flat_len _ 12 (fun a => by simp [leBytes_length])]
  omega

theorem dense_length (d : Nat) (mn mx : Word) (ts : List Nat) : (dense d mn mx ts).length = 20 + ts.length * 4 := by
  unfold dense
  simp only [List.length_append, leBytes_length, u32le_length]
  rw [flat_len _ 4 (fun a => u32le_length a)]
  omega

/-- The table: a list of labels or a jump table. -/
theorem table_shape (sw : Sw) (size base : Nat) :
    (∃ d, tableEmit sw (base + size) base = (0x51, sparse d sw.cases) ∧ (sw.dflt = some d ∨ (sw.dflt = none ∧ d = size + (6 + sw.cases.length * 12)))) ∨
    (∃ d mn mx ts, tableEmit sw (base + size) base = (0x53, dense d mn mx ts) ∧ mn.toNat ≤ mx.toNat ∧ ts.length = mx.toNat - mn.toNat + 1 ∧
      (∀ t ∈ ts, t = d ∨ ∃ c ∈ sw.cases, t = c.2) ∧ (sw.dflt = some d ∨ (sw.dflt = none ∧ d = size + (20 + ts.length * 4)))) := by
  unfold tableEmit
  have hoff : (fun c : Word × Nat => (c.1, BitVec.ofNat 64 (c.2 % 2 ^ 32))) = offOf := rfl
  simp only [hoff]
  split
  · rename_i hj
    cases hc : sw.cases with
    | nil => rw [hc] at hj; cases hj
    | cons c cs =>
      simp only [List.map_cons]
      generalize hmn : minCase (offOf c).1 (cs.map offOf) = mn
      generalize hmx : maxCase (offOf c).1 (cs.map offOf) = mx
      have hle : mn.toNat ≤ mx.toNat := by
        rw [← hmn, ← hmx, fold_min, fold_max]
        exact Nat.le_trans (fold_min_le _ _) (le_fold_max _ _)
      have hr : (mx - mn).toNat = mx.toNat - mn.toNat := by
        rw [BitVec.toNat_sub_of_le (BitVec.le_def.mpr hle)]
      refine .inr ⟨sw.dflt.getD (base + size + (20 + ((mx - mn).toNat + 1) * 4) - base), mn, mx,
        (List.range ((mx - mn).toNat + 1)).map fun i => caseTo (c :: cs) (sw.dflt.getD (base + size + (20 + ((mx - mn).toNat + 1) * 4) - base)) (mn + BitVec.ofNat 64 i), ?_, hle, ?_, ?_, ?_⟩
      · unfold dense tableOffsets
        rw [u32_mod, List.map_map, List.map_map]
        simp only [List.append_assoc]
        congr 5
        apply List.map_congr_left
        intro i _
        exact caseTarget_goes (c :: cs) _ _
      · simp only [List.length_map, List.length_range, hr]
      · intro t ht
        simp only [List.mem_map] at ht
        obtain ⟨i, _, rfl⟩ := ht
        exact goesTo_mem _ _ _
      · cases sw.dflt with
        | some d => exact .inl rfl
        | none =>
          refine .inr ⟨rfl, ?_⟩
          simp only [Option.getD_none, List.length_map, List.length_range]
          omega
  · refine .inl ⟨sw.dflt.getD (base + size + (6 + (sw.cases.map offOf).length * 12) - base), ?_, ?_⟩
    · unfold sparse
      rw [u32_mod, List.map_map, List.length_map]
      simp only [List.append_assoc]
      congr 4
      apply List.map_congr_left
      intro c _
      show leBytes 8 c.1 ++ leBytes 4 (BitVec.ofNat 64 (c.2 % 2 ^ 32)) = _
      rw [u32_mod]
    · cases sw.dflt with
      | some d => exact .inl rfl
      | none =>
        refine .inr ⟨rfl, ?_⟩
        simp only [Option.getD_none, List.length_map]
        omega

/-! ### The loop over the cases -/

/-- The cases `ps` have been written behind `A`. -/
structure SwInv (q : Bool) (A : List Byte) (sw : Sw) (s : CSt) (ps : List (List Byte)) : Prop where
  out : s.out = A ++ rawCases ps
  blk : ∀ p ∈ ps, Blk q true p
  cases : ∀ c ∈ sw.cases, c.2 ∈ caseStarts 0 ps
  fix : sw.fix = jumpLocs A.length ps
  dflt : ∀ d, sw.dflt = some d → d ∈ caseStarts 0 ps

structure SwR (q : Bool) (A : List Byte) (sw : Sw) (s : CSt) (r : Sw × CSt) : Prop extends Go s.toPSt r.2.toPSt where
  structs : r.2.structs = s.structs
  enums : r.2.ep = s.ep
  inv : r.2.errs = 0 → Before q true s → (∃ ps, SwInv q A sw s ps) → ∃ ps, SwInv q A r.1 r.2 ps

theorem SwR.trans {q : Bool} {A : List Byte} {sw : Sw} {s t : CSt} {sw' : Sw} {r : Sw × CSt} (h : SwR q A sw s (sw', t)) (g : SwR q A sw' t r) : SwR q A sw s r := by
  refine ⟨h.toGo.trans g.toGo, g.structs.trans h.structs, g.enums.trans h.enums, fun e hp hi => ?_⟩
  have et := g.errs e
  refine g.inv e ⟨?_, fun hq => h.nice et _ (hp.2 hq)⟩ (h.inv et hp hi)
  unfold Known
  rw [show t.structs = s.structs from h.structs, show t.enums = s.enums from congrArg Prod.fst h.enums]
  exact hp.1

/-- One case: `s` is where its code starts, `t` behind it. -/
theorem sw_case {q : Bool} {A : List Byte} {sw sw' : Sw} {s0 s t : CSt} (h0 : R q true True s0 s) (ho : s.out = s0.out) (h : R q true True s t)
    (hc : ∀ c ∈ sw'.cases, c ∈ sw.cases ∨ c.2 = s.out.length - A.length) (hf : sw'.fix = sw.fix ++ [t.out.length])
    (hd : ∀ d, sw'.dflt = some d → sw.dflt = some d ∨ d = s.out.length - A.length) : SwR q A sw s0 (sw', t.put [0x52, 0, 0, 0, 0]) := by
  refine ⟨(h0.toGo.trans h.toGo).trans (.same rfl rfl rfl), h.structs.trans h0.structs, h.enums.trans h0.enums, fun e hp hi => ?_⟩
  obtain ⟨ps, hi⟩ := hi
  have et : t.errs = 0 := e
  obtain ⟨b, eb, bb⟩ := h.code et trivial (h0.next (h.errs et) hp)
  have o : s.out = A ++ rawCases ps := by rw [ho, hi.out]
  have l : s.out.length - A.length = (rawCases ps).length := by rw [o, List.length_append]; omega
  have hin : (rawCases ps).length ∈ caseStarts 0 (ps ++ [b]) := by rw [caseStarts_snoc]; simp
  have hsub : ∀ n ∈ caseStarts 0 ps, n ∈ caseStarts 0 (ps ++ [b]) := fun n hn => by rw [caseStarts_snoc]; exact List.mem_append_left _ hn
  refine ⟨ps ++ [b], ?_, ?_, ?_, ?_, ?_⟩
  · show t.out ++ _ = _
    rw [eb, o, rawCases_snoc]; simp
  · intro p hp
    rcases List.mem_append.mp hp with hp | hp
    · exact hi.blk p hp
    · rw [List.mem_singleton] at hp; rw [hp]; exact bb
  · intro c hcm
    rcases hc c hcm with hx | hx
    · exact hsub _ (hi.cases c hx)
    · rw [hx, l]; exact hin
  · rw [hf, hi.fix, jumpLocs_snoc, eb, o]
    simp only [List.length_append]
  · intro d hdm
    rcases hd d hdm with hx | hx
    · exact hsub _ (hi.dflt d hx)
    · rw [hx, l]; exact hin

theorem eat_keeps (s : CSt) (ty : TT) : (s.eat ty).out = s.out ∧ (s.eat ty).structs = s.structs ∧ (s.eat ty).ep = s.ep := by
  unfold CSt.eat PSt.consume
  split <;> exact ⟨rfl, rfl, rfl⟩

/-- The end of a switch. -/
theorem r_switchEnd {q : Bool} {s0 : CSt} {key : Nat} {sw : Sw} {s : CSt}
    (h : SwR q (s0.out ++ 0x51 :: (u16le key ++ [0, 0, 0, 0])) {} (s0.put (0x51 :: (u16le key ++ [0, 0, 0, 0]))) (sw, s)) :
    R q true True s0 (switchEnd sw s0.out.length s) := by
  unfold switchEnd
  extract_lets s1 start t s2 s3 s4
  obtain ⟨k1, k2, k3⟩ := eat_keeps s .rbrace
  have g1 : Go s.toPSt s1.toPSt := go_consume (by decide) (by decide)
  have hs2 : s2.cur = s1.cur ∧ s2.toks = s1.toks ∧ s2.errs = s1.errs ∧ s2.structs = s1.structs ∧ s2.ep = s1.ep := by
    have : s2 = if t.1 = 0x53 then s1.patch s0.out.length [0x53] else s1 := rfl
    rw [this]
    split <;> exact ⟨rfl, rfl, rfl, rfl, rfl⟩
  have hs4 := fix_keeps sw.fix (fun j => u32le (start + t.2.length - (j + 5))) s3
  have hs4 : s4.cur = s3.cur ∧ s4.toks = s3.toks ∧ s4.errs = s3.errs ∧ s4.structs = s3.structs ∧ s4.ep = s3.ep := hs4
  have g4 : Go s1.toPSt s4.toPSt := .same (hs4.1.trans hs2.1) (hs4.2.1.trans hs2.2.1) (hs4.2.2.1.trans hs2.2.2.1)
  refine ⟨((Go.same rfl rfl rfl : Go s0.toPSt (s0.put (0x51 :: (u16le key ++ [0, 0, 0, 0]))).toPSt).trans ((h.toGo.trans g1).trans g4)).trans (patch_go _ _ _),
    ((hs4.2.2.2.1.trans hs2.2.2.2.1).trans k2).trans h.structs, ((hs4.2.2.2.2.trans hs2.2.2.2.2).trans k3).trans h.enums, fun e _ hp => ?_⟩
  have e4 : s4.errs = 0 := e
  have es : s.errs = 0 := g1.errs (g4.errs e4)
  obtain ⟨ps, hi⟩ := h.inv es hp ⟨[], ⟨by simp [rawCases]; rfl, fun p hx => (by cases hx), fun c hx => (by cases hx), rfl, fun d hx => (by cases hx)⟩⟩
  have o1 : s1.out = s0.out ++ 0x51 :: (u16le key ++ [0, 0, 0, 0]) ++ rawCases ps := k1.trans hi.out
  have lA : (s0.out ++ 0x51 :: (u16le key ++ [0, 0, 0, 0])).length = s0.out.length + 7 := by simp
  have lst : start = s0.out.length + 7 + (rawCases ps).length := by
    show s1.out.length = _
    rw [o1, List.length_append, lA]
  have ht : t = tableEmit sw (s0.out.length + 7 + (rawCases ps).length) (s0.out.length + 7) := by rw [← lst]
  obtain ⟨k0, k1', ek⟩ := leBytes_two (BitVec.ofNat 64 key)
  have ek : u16le key = [k0, k1'] := ek
  have hop : t.1 = 0x51 ∨ t.1 = 0x53 := by
    rw [ht]
    rcases table_shape sw (rawCases ps).length (s0.out.length + 7) with ⟨d, x, _⟩ | ⟨d, mn, mx, ts, x, _⟩
    · rw [x]; exact .inl rfl
    · rw [x]; exact .inr rfl
  have o2 : s2.out = s0.out ++ t.1 :: (u16le key ++ [0, 0, 0, 0]) ++ rawCases ps := by
    have : s2 = if t.1 = 0x53 then s1.patch s0.out.length [0x53] else s1 := rfl
    rw [this]
    rcases hop with hop | hop
    · rw [if_neg (by rw [hop]; decide), hop]; exact o1
    · rw [if_pos hop, hop]
      have := patch_mid (s := s1) (A := s0.out) (x := [0x51]) (B := u16le key ++ [0, 0, 0, 0] ++ rawCases ps) [0x53] (n := s0.out.length)
        (by rw [o1]; simp) rfl rfl
      rw [this]; simp
  have lA2 : (s0.out ++ t.1 :: (u16le key ++ [0, 0, 0, 0])).length = s0.out.length + 7 := by simp
  have o4 : s4.out = (s0.out ++ t.1 :: (u16le key ++ [0, 0, 0, 0])) ++ (caseCode t.2.length ps ++ t.2) := by
    have := fix_jumps ps (s0.out ++ t.1 :: (u16le key ++ [0, 0, 0, 0])) t.2 (start + t.2.length) s3
      (by show s2.out ++ t.2 = _; rw [o2, List.append_assoc]) (by rw [lA2, lst])
    rw [lA2, ← lA, ← hi.fix] at this
    exact this
  have o5 := patch_mid (s := s4) (A := s0.out ++ [t.1, k0, k1']) (x := [0, 0, 0, 0]) (B := caseCode t.2.length ps ++ t.2) (u32le (start - (s0.out.length + 7)))
    (n := s0.out.length + 3) (by rw [o4, ek]; simp) (by simp) (by simp)
  have l5 : start - (s0.out.length + 7) = (caseCode t.2.length ps).length := by rw [lst, caseCode_length]; omega
  refine ⟨t.1 :: k0 :: k1' :: (u32le (caseCode t.2.length ps).length ++ (caseCode t.2.length ps ++ t.2)), ?_, ?_⟩
  · rw [o5, l5]; simp
  · rcases table_shape sw (rawCases ps).length (s0.out.length + 7) with ⟨d, x, y⟩ | ⟨d, mn, mx, ts, x, h1, h2, h3, y⟩
    · rw [ht, x]
      refine .switch hi.blk hi.cases ?_
      rcases y with y | ⟨_, y⟩
      · exact .inl (hi.dflt d y)
      · rw [caseCode_length, sparse_length]; exact .inr y
    · rw [ht, x]
      refine .table hi.blk h1 h2 (fun t ht => ?_) ?_
      · rcases h3 t ht with h | ⟨c, hc, h⟩
        · exact .inr h
        · rw [h]; exact .inl (hi.cases c hc)
      · rcases y with y | ⟨_, y⟩
        · exact .inl (hi.dflt d y)
        · rw [caseCode_length, dense_length]; exact .inr y

/-! ### Statements -/

theorem label_out {s : CSt} {v : Word} {t : CSt} (hl : caseLabel s = some (v, t)) : t.out = s.out := by
  unfold caseLabel at hl
  split at hl
  · simp only [Option.map_eq_some_iff] at hl
    obtain ⟨_, _, e⟩ := hl
    cases e; rfl
  · split at hl
    · dsimp only at hl
      split at hl
      · split at hl
        · cases hl; exact (eat_keeps _ _).1
        · split at hl <;> cases hl <;> exact (eat_keeps _ _).1
      · cases hl; rfl
    · cases hl; rfl

theorem errs_out {α : Type} (l : List α) (s : CSt) : (l.foldl (fun s _ => s.err) s).out = s.out := by
  induction l generalizing s with
  | nil => rfl
  | cons x l ih => exact ih s.err

theorem sw_same {q : Bool} {A : List Byte} {sw : Sw} {s t : CSt} (h : R q true True s t) (ho : t.out = s.out) : SwR q A sw s (sw, t) :=
  ⟨h.toGo, h.structs, h.enums, fun _ _ ⟨ps, hi⟩ => ⟨ps, ho.trans hi.out, hi.blk, hi.cases, hi.fix, hi.dflt⟩⟩

theorem stmt_r (P : PEnv) (q : Bool) (f : Nat) :
    (∀ w, (q = true → w = true) → ∀ s, (parseIf P f s).Ok (R q w True s)) ∧
    (∀ s, (parseSwitch P f s).Ok (R q true True s)) ∧
    (∀ A sw s, (switchLoop P f A.length sw s).Ok (SwR q A sw s)) ∧
    (∀ w, (q = true → w = true) → ∀ s, (caseBody P f s).Ok (R q w True s)) ∧
    (∀ w, (q = true → w = true) → ∀ s, (parseField P f s).Ok (R q w True s)) ∧
    (∀ w, (q = true → w = true) → ∀ s, (parseBlock P f s).Ok (R q w True s)) ∧
    (∀ w, (q = true → w = true) → ∀ s, (blockLoop P f s).Ok (R q w True s)) := by
  induction f with
  | zero =>
    refine ⟨?_, ?_, ?_, ?_, ?_, ?_, ?_⟩ <;> intros <;>
      first | (unfold parseIf; trivial) | (unfold parseSwitch; trivial) | (unfold switchLoop; trivial) | (unfold caseBody; trivial) |
        (unfold parseField; trivial) | (unfold parseBlock; trivial) | (unfold blockLoop; trivial)
  | succ f ih =>
    obtain ⟨i1, i2, i3, i4, i5, i6, i7⟩ := ih
    refine ⟨?_, ?_, ?_, ?_, ?_, ?_, ?_⟩
    · intro w hw s
      unfold parseIf
      refine (r_expr (q := q) (w := w) (c := True) P f (r_eat (.refl s))).bind fun s1 h1 => ?_
      refine (i6 w hw _).bind fun s3 h3 => ?_
      dsimp only
      refine CRes.Ok.bind (p := R q w True ((s3.put [0x52, 0, 0, 0, 0]).patch ((s1.eat .rparen).out.length + 1) (u32le ((s3.put [0x52, 0, 0, 0, 0]).out.length - ((s1.eat .rparen).out.length + 5))))) ?_
        fun s6 h6 => r_cond (r_eat h1) h3 h6
      refine Ok_ite (fun he => ?_) fun _ => .refl _
      refine Ok_ite (fun hi => ?_) fun _ => ?_
      · exact (i1 w hw _).mono fun t ht => (r_adv' (r_adv' (.refl _) he) hi).trans ht
      · exact (i6 w hw _).mono fun t ht => (r_adv' (.refl _) he).trans ht
    · intro s
      unfold parseSwitch
      extract_lets s1 r s2 loc
      have h2 : R q true True s s2 := r_eat (r_eat (r_intern (r_eat (r_eat (.refl s)))))
      have := i3 (s2.out ++ 0x51 :: (u16le r.2 ++ [0, 0, 0, 0])) {} (s2.put (0x51 :: (u16le r.2 ++ [0, 0, 0, 0])))
      have hl : (s2.out ++ 0x51 :: (u16le r.2 ++ [0, 0, 0, 0])).length = loc + 7 := by simp [loc]
      rw [hl] at this
      exact this.bind fun x hx => h2.trans (r_switchEnd hx)
    · intro A sw s
      unfold switchLoop
      refine Ok_ite (fun _ => sw_same (.refl _) rfl) fun _ => ?_
      refine Ok_ite (fun hk => ?_) fun _ => Ok_ite (fun hk => ?_) fun _ => ?_
      · split
        · trivial
        · rename_i v s1 hl
          extract_lets s2 s3 sw1
          have h1 : R q true True s s1 := r_label (r_adv' (.refl _) hk) v s1 hl
          have h3 : R q true True s s3 := r_errs _ (r_eat h1)
          have o3 : s3.out = s.out := (errs_out _ _).trans ((eat_keeps _ _).1.trans (show s1.out = s.out from label_out (s := s.adv) hl))
          refine (i4 true (fun _ => rfl) s3).bind fun t ht => ?_
          refine (i3 A _ _).mono fun r hr => SwR.trans (sw_case h3 o3 ht ?_ rfl ?_) hr
          · intro c hc
            rcases List.mem_append.mp hc with hc | hc
            · exact .inl hc
            · rw [List.mem_singleton] at hc; rw [hc]; exact .inr rfl
          · exact fun d hd => .inl hd
      · extract_lets s1 sw1
        have h1 : R q true True s s1 := r_eat (r_adv' (.refl _) hk)
        refine (i4 true (fun _ => rfl) s1).bind fun t ht => ?_
        refine (i3 A _ _).mono fun r hr => SwR.trans (sw_case h1 (eat_keeps _ _).1 ht ?_ rfl ?_) hr
        · exact fun c hc => .inl hc
        · intro d hd
          cases hd
          exact .inr rfl
      · refine (i3 A sw s.err.adv).mono fun r hr => ?_
        refine ⟨⟨fun e => ?_, fun e => ?_, fun e => ?_⟩, hr.structs, hr.enums, fun e => ?_⟩
        all_goals exact absurd (adv_ahead (hr.errs e)).1 (Nat.succ_ne_zero _)
    · intro w hw s
      unfold caseBody
      exact Ok_ite (fun _ => i6 w hw s) fun _ => i5 w hw s
    · intro w hw s
      unfold parseField
      refine Ok_ite (fun _ => .refl _) fun _ => ?_
      refine (r_docs (q := q) (w := w) (c := True) f (.refl s)).bind fun s1 h1 => ?_
      refine Ok_ite (fun hk => ?_) fun _ => Ok_ite (fun hk => ?_) fun _ => ?_
      · refine (i2 s1.adv).mono fun t ht => ?_
        cases w with
        | true => exact (r_adv' h1 hk).trans ht
        | false =>
          have h2 : R q true True s1 s1.adv := r_adv' (.refl _) hk
          refine h1.trans ⟨h2.toGo.trans ht.toGo, ht.structs, ht.enums, fun e _ hp => ?_⟩
          cases q with
          | true => exact absurd (hw rfl) (by decide)
          | false => exact absurd hk (nice_switch (hp.2 rfl))
      · exact (i1 w hw _).mono fun t ht => (r_adv' h1 hk).trans ht
      · refine (r_decLoop P f {} s1 h1 ⟨by decide, by decide, by decide⟩).bind fun r hr => ?_
        exact (r_fieldDecl P hw r.1 r.2 hr.2).mono fun t ht => hr.1.trans ht
    · intro w hw s
      unfold parseBlock
      exact (i7 w hw _).bind fun t ht => r_eat ((r_eat (.refl s)).trans ht)
    · intro w hw s
      unfold blockLoop
      refine Ok_ite (fun _ => .refl _) fun _ => ?_
      refine Ok_ite (fun hk => (i7 w hw _).mono fun t ht => (r_adv' (.refl _) hk).trans ht) fun _ => ?_
      exact (i5 w hw s).bind fun t ht => (i7 w hw t).mono fun u hu => ht.trans hu

end Cnd
