/-
  C59, statements: fields, padding, `if`, `switch`, blocks.
-/
import Verif.Props.SourceSwitch

namespace Cnd

/-! ### Fields and padding -/

theorem decos_head (xs : List Deco) (ks : List Tok) :
    ((xs.flatMap Deco.toks ++ ks).headD eofTok).type = .at ∨ xs = [] := by
  cases xs with
  | nil => exact .inr rfl
  | cons y ys =>
    refine .inl ?_
    cases y with
    | fill v => cases v <;> rfl
    | _ => rfl

/-- parse_field in front of decorators or a type. -/
theorem field_start (C : Ctx) (k : Bool × Nat) (xs : List Deco) (g g1 g' : Gen) (o c c' : List Byte) (a : Dec) (p : Tok) (ts ks : List Tok)
    (h : decosGen C xs {} g = some (c, a, g1)) (hne : NoErr (xs.flatMap Deco.toks ++ ts))
    (hhd : xs = [] → (ts.headD eofTok).type = .identifier)
    (hlp : (ts.headD eofTok).type ≠ .lparen) (hat : (ts.headD eofTok).type ≠ .at)
    (hd : ∀ q, ∃ p', fieldDecl C.P a (cst C k g1 (o ++ c) q ts) = .ok (cst C k g' (o ++ c ++ c') p' ks)) :
    ∃ p', Gets (fun F => parseField C.P F (cst C k g o p (xs.flatMap Deco.toks ++ ts))) (cst C k g' (o ++ (c ++ c')) p' ks) := by
  obtain ⟨p1, q1⟩ := decos_step C k xs g g1 o c {} a p ts h hne hlp hat
  have hcur : (cst C k g o p (xs.flatMap Deco.toks ++ ts)).cur.type = .at ∨ (cst C k g o p (xs.flatMap Deco.toks ++ ts)).cur.type = .identifier := by
    rcases decos_head xs ts with hh | hh
    · exact .inl hh
    · subst hh; exact .inr (hhd rfl)
  rw [← List.append_assoc o c c']
  obtain ⟨p', hd⟩ := hd p1
  refine ⟨p', ?_⟩
  have hsk : Gets (fun F => skipDocs F (cst C k g o p (xs.flatMap Deco.toks ++ ts))) (cst C k g o p (xs.flatMap Deco.toks ++ ts)) := by
    refine (Gets.const _).succ fun F => ?_
    unfold skipDocs
    rw [if_neg (by rcases hcur with hc | hc <;> (rw [hc]; decide))]
  refine (hsk.bind (q := fun F s => if s.cur.type = .kwSwitch then parseSwitch C.P F s.adv
      else if s.cur.type = .kwIf then parseIf C.P F s.adv
      else (decLoopS C.P F {} s).bind fun r => fieldDecl C.P r.1 r.2) ?_).succ fun F => ?_
  · refine (q1.bind (q := fun F r => fieldDecl C.P r.1 r.2) ((Gets.const _).of_eq fun F => hd)).of_eq fun F => ?_
    rw [if_neg (by rcases hcur with hc | hc <;> (rw [hc]; decide)), if_neg (by rcases hcur with hc | hc <;> (rw [hc]; decide))]
  · conv => lhs; unfold parseField
    rw [if_neg (by simp)]

theorem field_step (C : Ctx) (k : Bool × Nat) (d : FieldD) (g g' : Gen) (o c : List Byte) (p : Tok) (ks : List Tok)
    (h : d.gen C g = some (c, g')) (hne : NoErr (d.toks ++ ks)) :
    ∃ p', Gets (fun F => parseField C.P F (cst C k g o p (d.toks ++ ks))) (cst C k g' (o ++ c) p' ks) := by
  unfold FieldD.gen at h
  simp only [bind_some, Option.some.injEq, Prod.mk.injEq] at h
  obtain ⟨⟨c1, a, g1⟩, h1, ⟨c2, g2⟩, h2, rfl, rfl⟩ := h
  have e : d.toks ++ ks = d.decs.flatMap Deco.toks ++ (tId d.type :: tId d.name :: ((match d.width with
        | some n => [tColon, tNum n]
        | none => []) ++ d.dims.toks ++ d.mods.toks ++ tSemi :: ks)) := by
    unfold FieldD.toks
    simp only [List.append_assoc, List.cons_append, List.nil_append]
    cases d.width <;> rfl
  rw [e] at hne ⊢
  have hks : NoErr ks := by
    rw [NoErr_append, NoErr_cons, NoErr_cons, NoErr_append, NoErr_cons] at hne
    exact hne.2.2.2.2.2
  refine field_start C k d.decs g g1 g2 o c1 c2 a p _ ks h1 hne (fun _ => rfl) (by simp) (by simp) fun q => ?_
  exact body_step C k d a g1 g2 (o ++ c1) c2 q ks hks h2

theorem alone_step (C : Ctx) (k : Bool × Nat) (xs : List Deco) (g g' : Gen) (o c : List Byte) (a : Dec) (p : Tok) (t : Tok) (ks : List Tok)
    (h : decosGen C xs {} g = some (c, a, g')) (ha : a.alone = true) (hne : NoErr (xs.flatMap Deco.toks ++ t :: ks))
    (ht : t = tSemi ∨ t = tRb) :
    ∃ p', Gets (fun F => parseField C.P F (cst C k g o p (xs.flatMap Deco.toks ++ t :: ks)))
      (cst C k g' (o ++ c) p' (if t.type = .semicolon then ks else t :: ks)) := by
  have hks : NoErr ks := by rw [NoErr_append, NoErr_cons] at hne; exact hne.2.2
  have hxs : xs ≠ [] := by
    rintro rfl
    simp only [decosGen, Option.some.injEq, Prod.mk.injEq] at h
    rw [← h.2.1] at ha
    simp at ha
  have := field_start C k xs g g' g' o c [] a p (t :: ks) (if t.type = .semicolon then ks else t :: ks) h hne (fun q => absurd q hxs)
    (by rcases ht with ht | ht <;> (subst ht; simp)) (by rcases ht with ht | ht <;> (subst ht; simp)) fun q => ?_
  · simpa using this
  · unfold fieldDecl
    simp only [cst_cur, List.append_nil]
    rcases ht with ht | ht
    · subst ht
      refine ⟨tSemi, ?_⟩
      simp only [ha, tSemi_type, true_or, and_self, if_true]
      rw [cst_adv hks]
    · subst ht
      exact ⟨q, by simp [ha]⟩

/-! ### `if` -/

/-- What follows the first branch of an `if`. -/
def elsePart (P : PEnv) (F : Nat) (s : CSt) : CRes CSt :=
  if s.cur.type = .kwElse then
    if s.adv.cur.type = .kwIf then parseIf P F s.adv.adv else parseBlock P F s.adv
  else .ok s

theorem block_step (C : Ctx) (k : Bool × Nat) (g g' : Gen) (o c : List Byte) (p : Tok) (ts ks : List Tok) (hne : NoErr (ts ++ tRb :: ks))
    (h : ∀ q, ∃ p', Gets (fun F => blockLoop C.P F (cst C k g o q (ts ++ tRb :: ks))) (cst C k g' (o ++ c) p' (tRb :: ks))) :
    Gets (fun F => parseBlock C.P F (cst C k g o p (tLb :: (ts ++ tRb :: ks)))) (cst C k g' (o ++ c) tRb ks) := by
  obtain ⟨p', h⟩ := h tLb
  have hks : NoErr ks := by rw [NoErr_append, NoErr_cons] at hne; exact hne.2.2
  refine (h.bind (q := fun _ s => .ok (s.eat .rbrace)) ((Gets.const _).of_eq fun F => ?_)).succ fun F => ?_
  · rw [cst_eat .rbrace rfl hks]
  · conv => lhs; unfold parseBlock
    rw [cst_eat .lbrace rfl hne]

theorem if_step (C : Ctx) (k : Bool × Nat) (e : ETree) (g g1 g2 : Gen) (o ec tc fc : List Byte) (tab : List (List Byte)) (p : Tok)
    (tt es ks : List Tok) (he : exprGen C e g.tab = some (ec, tab))
    (hne : NoErr (tLp :: (e.flat ++ tRp :: tLb :: (tt ++ tRb :: es))))
    (ht : ∀ o q, ∃ p', Gets (fun F => blockLoop C.P F (cst C k { g with tab := tab } o q (tt ++ tRb :: es))) (cst C k g1 (o ++ tc) p' (tRb :: es)))
    (hf : ∀ o q, ∃ p', Gets (fun F => elsePart C.P F (cst C k g1 o q es)) (cst C k g2 (o ++ fc) p' ks)) :
    ∃ p', Gets (fun F => parseIf C.P F (cst C k g o p (tLp :: (e.flat ++ tRp :: tLb :: (tt ++ tRb :: es)))))
      (cst C k g2 (o ++ iteCode ec tc fc) p' ks) := by
  rw [NoErr_cons] at hne
  have n1 := hne.2
  have n2 : NoErr (tLb :: (tt ++ tRb :: es)) := by rw [NoErr_append, NoErr_cons] at n1; exact n1.2.2
  have n3 : NoErr (tt ++ tRb :: es) := by rw [NoErr_cons] at n2; exact n2.2
  obtain ⟨p1, q1⟩ := expr_gets C k e g o tLp tRp (tLb :: (tt ++ tRb :: es)) ec tab he rfl
  have q2 := block_step C k { g with tab := tab } g1 (o ++ ec ++ [0x50, 0, 0, 0, 0]) tc tRp tt es n3 (ht _)
  obtain ⟨p3, q3⟩ := hf (o ++ ec ++ [0x50] ++ u32le (tc.length + 5) ++ tc ++ [0x52, 0, 0, 0, 0]) tRb
  refine ⟨p3, ?_⟩
  refine (q1.bind (q := fun F s =>
    let s := s.eat .rparen
    let jf := s.out.length
    (parseBlock C.P F (s.put [0x50, 0, 0, 0, 0])).bind fun s =>
    let je := s.out.length
    let s := s.put [0x52, 0, 0, 0, 0]
    let s := s.patch (jf + 1) (u32le (s.out.length - (jf + 5)))
    (elsePart C.P F s).bind fun s =>
    .ok (s.patch (je + 1) (u32le (s.out.length - (je + 5))))) ?_).succ fun F => ?_
  · dsimp only
    rw [cst_eat .rparen rfl n2]
    simp only [cst_out, cst_put]
    refine q2.bind (q := fun F s =>
      let je := s.out.length
      let s := s.put [0x52, 0, 0, 0, 0]
      let s := s.patch ((o ++ ec).length + 1) (u32le (s.out.length - ((o ++ ec).length + 5)))
      (elsePart C.P F s).bind fun s =>
      .ok (s.patch (je + 1) (u32le (s.out.length - (je + 5))))) ?_
    dsimp only
    have e1 : o ++ ec ++ [0x50, 0, 0, 0, 0] ++ tc ++ [0x52, 0, 0, 0, 0] =
        (o ++ ec ++ [0x50]) ++ ([0, 0, 0, 0] ++ (tc ++ [0x52, 0, 0, 0, 0])) := by simp
    simp only [cst_out, cst_put]
    rw [e1]
    have e2 : ((o ++ ec ++ [0x50]) ++ ([0, 0, 0, 0] ++ (tc ++ [0x52, 0, 0, 0, 0]))).length - ((o ++ ec).length + 5) = tc.length + 5 := by
      simp only [List.length_append, List.length_cons, List.length_nil]
      omega
    rw [e2, cst_patch C k g1 tRb es (o ++ ec ++ [0x50]) [0, 0, 0, 0] (u32le (tc.length + 5)) _ _ (by simp; omega) (by simp)]
    have e3 : (o ++ ec ++ [0x50]) ++ (u32le (tc.length + 5) ++ (tc ++ [0x52, 0, 0, 0, 0])) =
        o ++ ec ++ [0x50] ++ u32le (tc.length + 5) ++ tc ++ [0x52, 0, 0, 0, 0] := by simp
    rw [e3]
    refine q3.bind (q := fun _ s => .ok (s.patch ((o ++ ec ++ [0x50, 0, 0, 0, 0] ++ tc).length + 1)
      (u32le (s.out.length - ((o ++ ec ++ [0x50, 0, 0, 0, 0] ++ tc).length + 5))))) ((Gets.const _).of_eq fun F => ?_)
    congr 1
    have e4 : o ++ ec ++ [0x50] ++ u32le (tc.length + 5) ++ tc ++ [0x52, 0, 0, 0, 0] ++ fc =
        (o ++ ec ++ [0x50] ++ u32le (tc.length + 5) ++ tc ++ [0x52]) ++ ([0, 0, 0, 0] ++ fc) := by simp
    simp only [cst_out]
    rw [e4]
    have e5 : ((o ++ ec ++ [0x50] ++ u32le (tc.length + 5) ++ tc ++ [0x52]) ++ ([0, 0, 0, 0] ++ fc)).length -
        ((o ++ ec ++ [0x50, 0, 0, 0, 0] ++ tc).length + 5) = fc.length := by
      simp only [List.length_append, List.length_cons, List.length_nil, u32le_length]
      omega
    rw [e5, cst_patch C k g2 p3 ks (o ++ ec ++ [0x50] ++ u32le (tc.length + 5) ++ tc ++ [0x52]) [0, 0, 0, 0] (u32le fc.length) _ _
      (by simp; omega) (by simp)]
    congr 1
    unfold iteCode
    simp
  · conv => lhs; unfold parseIf
    rw [cst_eat .lparen rfl n1]
    rfl

/-! ### Cases -/

theorem label_step (C : Ctx) (k : Bool × Nat) (l : Label) (v : Word) (g : Gen) (o : List Byte) (p : Tok) (ts : List Tok)
    (h : l.value C = some (some v)) (hne : NoErr (l.toks ++ ts)) :
    ∃ p', (cst C k g o p (l.toks ++ ts)).cur.type = .kwCase ∧
      caseLabel (cst C k g o p (l.toks ++ ts)).adv = some (v, cst C k g o p' (tColon :: ts)) := by
  have hts : NoErr ts := by rw [NoErr_append] at hne; exact hne.2
  cases l with
  | default => cases h
  | num n =>
    simp only [Label.value, Option.map_eq_some_iff, Option.some.injEq, exists_eq_right] at h
    refine ⟨tNum n, rfl, ?_⟩
    simp only [Label.toks, List.cons_append, List.nil_append]
    rw [cst_adv (by simpa using hts)]
    unfold caseLabel
    simp only [cst_cur, tNum_type, if_true, tNum_text, h, Option.map_some]
    rw [cst_adv (by simpa using hts)]
  | enum e w =>
    simp only [Label.value, bind_some, Option.some.injEq] at h
    obtain ⟨d, hd, x, hx, rfl⟩ := h
    refine ⟨tId w, rfl, ?_⟩
    simp only [Label.toks, List.cons_append, List.nil_append]
    rw [cst_adv (by simpa using hts)]
    unfold caseLabel
    simp only [cst_cur, tId_type, reduceCtorEq, if_false, if_true, tId_text]
    rw [cst_adv (by simpa using hts)]
    simp only [cst_cur, tDot_type, if_true]
    rw [cst_adv (by simpa using hts)]
    simp only [cst_cur, tId_text]
    rw [cst_eat .identifier rfl (by simpa using hts), cst_findEnum, hd]
    simp only [hx]

theorem armsAt_none (l : List (Option Word × List Byte)) (n : Nat) (h : ∀ x ∈ l, x.1 ≠ none) : (armsAt n l).lookup none = none := by
  induction l generalizing n with
  | nil => rfl
  | cons x xs ih =>
    obtain ⟨v, c⟩ := x
    have hv : v ≠ none := h (v, c) (by simp)
    have hb : ((none : Option Word) == v) = false := by
      cases v with
      | none => exact absurd rfl hv
      | some v => rfl
    simp only [armsAt, List.lookup, hb]
    exact ih _ fun y hy => h y (by simp [hy])

/-- One case. -/
theorem arm_step (C : Ctx) (k : Bool × Nat) (lab : Label) (v : Option Word) (g g1 g2 : Gen) (o c : List Byte) (p : Tok) (bt rs ks : List Tok)
    (w : Sw) (base : Nat) (l : List (Option Word × List Byte))
    (hv : lab.value C = some v) (hne : NoErr (lab.toks ++ (bt ++ rs))) (hbase : base ≤ o.length)
    (hfresh : ∀ x ∈ w.cases, v ≠ some x.1) (hd : v = none → ∀ x ∈ l, x.1 ≠ none)
    (hb : ∀ q, ∃ p', Gets (fun F => caseBody C.P F (cst C k g o q (bt ++ rs))) (cst C k g1 (o ++ c) p' rs))
    (hr : ∀ q w', (∀ x ∈ w'.cases, x ∈ w.cases ∨ v = some x.1) → ∃ p', Gets (fun F => switchLoop C.P F base w' (cst C k g1 (o ++ c ++ [0x52, 0, 0, 0, 0]) q rs))
      (⟨w'.cases ++ caseAt (armsAt ((o ++ c ++ [0x52, 0, 0, 0, 0]).length - base) l), w'.fix ++ fixAt (o ++ c ++ [0x52, 0, 0, 0, 0]).length l,
        ((armsAt ((o ++ c ++ [0x52, 0, 0, 0, 0]).length - base) l).lookup none).or w'.dflt⟩,
       cst C k g2 (o ++ c ++ [0x52, 0, 0, 0, 0] ++ rawArms l) p' (tRb :: ks))) :
    ∃ p', Gets (fun F => switchLoop C.P F base w (cst C k g o p (lab.toks ++ (bt ++ rs))))
      (⟨w.cases ++ caseAt (armsAt (o.length - base) ((v, c) :: l)), w.fix ++ fixAt o.length ((v, c) :: l),
        ((armsAt (o.length - base) ((v, c) :: l)).lookup none).or w.dflt⟩,
       cst C k g2 (o ++ rawArms ((v, c) :: l)) p' (tRb :: ks)) := by
  have n1 : NoErr (bt ++ rs) := by rw [NoErr_append] at hne; exact hne.2
  have hlen : (o ++ c ++ [0x52, 0, 0, 0, 0]).length = o.length + c.length + 5 := by simp; omega
  have hlen2 : (o ++ c ++ [0x52, 0, 0, 0, 0]).length - base = o.length - base + c.length + 5 := by rw [hlen]; omega
  have eo : o ++ c ++ [0x52, 0, 0, 0, 0] ++ rawArms l = o ++ rawArms ((v, c) :: l) := by simp [rawArms]
  obtain ⟨p1, q1⟩ := hb tColon
  cases v with
  | some v =>
    obtain ⟨p0, l1, l2⟩ := label_step C k lab v g o p (bt ++ rs) hv hne
    obtain ⟨p2, q2⟩ := hr p1 { cases := w.cases ++ [(v, o.length - base)], fix := w.fix ++ [(o ++ c).length], dflt := w.dflt } (by
      intro x hx
      rcases List.mem_append.mp hx with hx | hx
      · exact .inl hx
      · rw [List.mem_singleton] at hx; subst hx; exact .inr rfl)
    refine ⟨p2, ?_⟩
    have hgoal : (⟨w.cases ++ [(v, o.length - base)] ++ caseAt (armsAt ((o ++ c ++ [0x52, 0, 0, 0, 0]).length - base) l),
        w.fix ++ [(o ++ c).length] ++ fixAt (o ++ c ++ [0x52, 0, 0, 0, 0]).length l,
        ((armsAt ((o ++ c ++ [0x52, 0, 0, 0, 0]).length - base) l).lookup none).or w.dflt⟩ : Sw) =
        ⟨w.cases ++ caseAt (armsAt (o.length - base) ((some v, c) :: l)), w.fix ++ fixAt o.length ((some v, c) :: l),
        ((armsAt (o.length - base) ((some v, c) :: l)).lookup none).or w.dflt⟩ := by
      rw [hlen2, hlen]
      simp [caseAt, armsAt, fixAt, List.lookup]
    rw [← hgoal, ← eo]
    refine (q1.bind (q := fun F s => switchLoop C.P F base
      { cases := w.cases ++ [(v, o.length - base)], fix := w.fix ++ [s.out.length], dflt := w.dflt } (s.put [0x52, 0, 0, 0, 0])) q2).succ fun F => ?_
    conv => lhs; unfold switchLoop
    have hbad : ¬ ((cst C k g o p (lab.toks ++ (bt ++ rs))).cur.type = .rbrace ∨ (cst C k g o p (lab.toks ++ (bt ++ rs))).cur.type = .eof ∨
        (cst C k g o p (lab.toks ++ (bt ++ rs))).bad = true) := by
      rw [l1]; simp
    rw [if_neg hbad, if_pos l1, l2]
    dsimp only
    rw [cst_eat .colon rfl n1]
    have hfil : w.cases.filter (fun c => decide (c.1 = v)) = [] := by
      rw [List.filter_eq_nil_iff]
      intro x hx
      simp only [decide_eq_true_eq]
      rintro rfl
      exact hfresh x hx rfl
    rw [hfil]
    rfl
  | none =>
    cases lab with
    | num n => simp [Label.value] at hv
    | enum e x =>
      exfalso
      simp only [Label.value, bind_some] at hv
      obtain ⟨_, _, _, _, hv⟩ := hv
      cases hv
    | default =>
    obtain ⟨p2, q2⟩ := hr p1 { cases := w.cases, fix := w.fix ++ [(o ++ c).length], dflt := some (o.length - base) } (fun x hx => .inl hx)
    refine ⟨p2, ?_⟩
    have hgoal : (⟨w.cases ++ caseAt (armsAt ((o ++ c ++ [0x52, 0, 0, 0, 0]).length - base) l),
        w.fix ++ [(o ++ c).length] ++ fixAt (o ++ c ++ [0x52, 0, 0, 0, 0]).length l,
        ((armsAt ((o ++ c ++ [0x52, 0, 0, 0, 0]).length - base) l).lookup none).or (some (o.length - base))⟩ : Sw) =
        ⟨w.cases ++ caseAt (armsAt (o.length - base) ((none, c) :: l)), w.fix ++ fixAt o.length ((none, c) :: l),
        ((armsAt (o.length - base) ((none, c) :: l)).lookup none).or w.dflt⟩ := by
      rw [armsAt_none l _ (hd rfl), hlen2, hlen]
      simp [caseAt, armsAt, fixAt, List.lookup]
    rw [← hgoal, ← eo]
    refine (q1.bind (q := fun F s => switchLoop C.P F base
      { cases := w.cases, fix := w.fix ++ [s.out.length], dflt := some (o.length - base) } (s.put [0x52, 0, 0, 0, 0])) q2).succ fun F => ?_
    conv => lhs; unfold switchLoop
    simp only [Label.toks, List.cons_append, List.nil_append, cst_cur, cst_bad, tDefault_type, reduceCtorEq, Bool.false_eq_true, or_self, if_false, if_true]
    rw [cst_adv (by simpa using n1), cst_eat .colon rfl n1]
    rfl

/-! ### All statements -/

theorem stmt_head (s : Stmt) (ks : List Tok) :
    ((s.toks ++ ks).headD eofTok).type ∈ [TT.at, .identifier, .kwIf, .kwSwitch, .semicolon] := by
  cases s with
  | field d =>
    simp only [Stmt.toks, FieldD.toks, List.append_assoc]
    rcases decos_head d.decs _ with h | h
    · rw [h]; decide
    · rw [h]
      exact (by decide : TT.identifier ∈ [TT.at, .identifier, .kwIf, .kwSwitch, .semicolon])
  | lone xs =>
    simp only [Stmt.toks, List.append_assoc]
    rcases decos_head xs ([tSemi] ++ ks) with h | h
    · rw [h]; decide
    · rw [h]
      exact (by decide : TT.semicolon ∈ [TT.at, .identifier, .kwIf, .kwSwitch, .semicolon])
  | ite c a b => simp [Stmt.toks]
  | switch key arms => simp [Stmt.toks]

theorem body_head (b : Body) (ks : List Tok) : ((b.toks ++ tRb :: ks).headD eofTok).type ≠ .kwElse := by
  cases b with
  | done => simp [Body.toks]
  | tail xs =>
    simp only [Body.toks]
    rcases decos_head xs (tRb :: ks) with h | h
    · rw [h]; decide
    · rw [h]; simp
  | doc t rest => simp [Body.toks]
  | stmt s rest =>
    simp only [Body.toks, List.append_assoc]
    have := stmt_head s (rest.toks ++ tRb :: ks)
    intro h
    rw [h] at this
    revert this
    decide

theorem arms_head (b : Arms) (ks : List Tok) : ((b.toks ++ tRb :: ks).headD eofTok).type ≠ .kwElse := by
  cases b with
  | done => simp [Arms.toks]
  | block l b rest => cases l <;> simp [Arms.toks, Label.toks]
  | stmt l s rest => cases l <;> simp [Arms.toks, Label.toks]

theorem arms_seen (C : Ctx) (arms : Arms) (seen : List (Option Word)) (g g' : Gen) (l : List (Option Word × List Byte))
    (h : arms.gen C seen g = some (l, g')) : ∀ x ∈ l, x.1 ∉ seen := by
  match arms with
  | .done =>
    simp only [Arms.gen, Option.some.injEq, Prod.mk.injEq] at h
    rw [← h.1]
    simp
  | .block lab b rest =>
    simp only [Arms.gen, bind_some, req_eq, exists_const, Option.some.injEq, Prod.mk.injEq] at h
    obtain ⟨v, hv, hs, ⟨c, g1⟩, h1, ⟨l2, g2⟩, h2, rfl, rfl⟩ := h
    have ih := arms_seen C rest _ _ _ _ h2
    intro x hx
    rcases List.mem_cons.mp hx with rfl | hx
    · exact hs
    · exact fun q => ih x hx (List.mem_append_left _ q)
  | .stmt lab b rest =>
    simp only [Arms.gen, bind_some, req_eq, exists_const, Option.some.injEq, Prod.mk.injEq] at h
    obtain ⟨v, hv, hs, ⟨c, g1⟩, h1, ⟨l2, g2⟩, h2, rfl, rfl⟩ := h
    have ih := arms_seen C rest _ _ _ _ h2
    intro x hx
    rcases List.mem_cons.mp hx with rfl | hx
    · exact hs
    · exact fun q => ih x hx (List.mem_append_left _ q)

mutual

theorem body_ok (C : Ctx) (k : Bool × Nat) (b : Body) (g g' : Gen) (o c : List Byte) (p : Tok) (ks : List Tok)
    (h : b.gen C g = some (c, g')) (hne : NoErr (b.toks ++ tRb :: ks)) :
    ∃ p', Gets (fun F => blockLoop C.P F (cst C k g o p (b.toks ++ tRb :: ks))) (cst C k g' (o ++ c) p' (tRb :: ks)) := by
  have hend : ∀ (g : Gen) (o : List Byte) (q : Tok), Gets (fun F => blockLoop C.P F (cst C k g o q (tRb :: ks))) (cst C k g o q (tRb :: ks)) := by
    intro g o q
    refine (Gets.const _).succ fun F => ?_
    unfold blockLoop
    rw [if_pos (.inl rfl)]
  match b with
  | .done =>
    simp only [Body.gen, Option.some.injEq, Prod.mk.injEq] at h
    obtain ⟨rfl, rfl⟩ := h
    refine ⟨p, ?_⟩
    simpa [Body.toks] using hend g o p
  | .tail xs =>
    simp only [Body.gen, bind_some, req_eq, exists_const, Option.some.injEq, Prod.mk.injEq] at h
    obtain ⟨⟨c1, a, g1⟩, h1, ha, rfl, rfl⟩ := h
    simp only [Body.toks] at hne ⊢
    obtain ⟨p', q⟩ := alone_step C k xs g g1 o c1 a p tRb ks h1 ha hne (.inr rfl)
    refine ⟨p', ?_⟩
    refine (q.bind (q := fun F s => blockLoop C.P F s) (hend _ _ _)).succ fun F => ?_
    have hxs : xs ≠ [] := by
      rintro rfl
      simp only [decosGen, Option.some.injEq, Prod.mk.injEq] at h1
      dsimp only at ha
      rw [← h1.2.1] at ha
      simp at ha
    have hc : (cst C k g o p (xs.flatMap Deco.toks ++ tRb :: ks)).cur.type = .at := (decos_head xs (tRb :: ks)).resolve_right hxs
    conv => lhs; unfold blockLoop
    rw [if_neg (by rw [hc]; simp), if_neg (by rw [hc]; decide)]
  | .doc t rest =>
    simp only [Body.gen] at h
    simp only [Body.toks, List.cons_append, NoErr_cons] at hne ⊢
    obtain ⟨p', q⟩ := body_ok C k rest g g' o c (tDoc t) ks h hne.2
    refine ⟨p', q.succ fun F => ?_⟩
    conv => lhs; unfold blockLoop
    rw [if_neg (by simp), if_pos (by simp), cst_adv hne.2]
  | .stmt s rest =>
    simp only [Body.gen, bind_some, Option.some.injEq, Prod.mk.injEq] at h
    obtain ⟨⟨c1, g1⟩, h1, ⟨c2, g2⟩, h2, rfl, rfl⟩ := h
    simp only [Body.toks, List.append_assoc] at hne ⊢
    have n2 : NoErr (rest.toks ++ tRb :: ks) := by rw [NoErr_append] at hne; exact hne.2
    obtain ⟨p1, q1⟩ := stmt_ok C k s g g1 o c1 p (rest.toks ++ tRb :: ks) h1 hne (body_head rest ks)
    obtain ⟨p2, q2⟩ := body_ok C k rest g1 g2 (o ++ c1) c2 p1 ks h2 n2
    refine ⟨p2, ?_⟩
    rw [← List.append_assoc o c1 c2]
    refine (q1.bind (q := fun F s => blockLoop C.P F s) q2).succ fun F => ?_
    have hc := stmt_head s (rest.toks ++ tRb :: ks)
    have hc2 : ∀ ty : TT, ty ∉ [TT.at, .identifier, .kwIf, .kwSwitch, .semicolon] → (cst C k g o p (s.toks ++ (rest.toks ++ tRb :: ks))).cur.type ≠ ty := by
      rintro ty hty rfl
      exact hty hc
    conv => lhs; unfold blockLoop
    rw [if_neg (by
      rintro (q | q | q)
      · exact hc2 .rbrace (by decide) q
      · exact hc2 .eof (by decide) q
      · simp at q), if_neg (hc2 .doc (by decide))]

theorem stmt_ok (C : Ctx) (k : Bool × Nat) (s : Stmt) (g g' : Gen) (o c : List Byte) (p : Tok) (ks : List Tok)
    (h : s.gen C g = some (c, g')) (hne : NoErr (s.toks ++ ks)) (hels : (ks.headD eofTok).type ≠ .kwElse) :
    ∃ p', Gets (fun F => parseField C.P F (cst C k g o p (s.toks ++ ks))) (cst C k g' (o ++ c) p' ks) := by
  match s with
  | .field d => exact field_step C k d g g' o c p ks h hne
  | .lone xs =>
    simp only [Stmt.gen, bind_some, req_eq, exists_const, Option.some.injEq, Prod.mk.injEq] at h
    obtain ⟨⟨c1, a, g1⟩, h1, ha, rfl, rfl⟩ := h
    simp only [Stmt.toks, List.append_assoc, List.cons_append, List.nil_append] at hne ⊢
    simpa using alone_step C k xs g g1 o c1 a p tSemi ks h1 ha hne (.inl rfl)
  | .ite e thn els =>
    simp only [Stmt.gen, bind_some, Option.some.injEq, Prod.mk.injEq] at h
    obtain ⟨⟨ec, tab⟩, h1, ⟨tc, g1⟩, h2, ⟨fc, g2⟩, h3, rfl, rfl⟩ := h
    have e1 : (Stmt.ite e thn els).toks ++ ks = tIf :: tLp :: (e.flat ++ tRp :: tLb :: (thn.toks ++ tRb :: (els.toks ++ ks))) := by
      simp [Stmt.toks]
    rw [e1, NoErr_cons] at hne
    have n1 := hne.2
    have n2 : NoErr (thn.toks ++ tRb :: (els.toks ++ ks)) := by
      rw [NoErr_cons, NoErr_append, NoErr_cons, NoErr_cons] at n1; exact n1.2.2.2.2
    have n3 : NoErr (els.toks ++ ks) := by rw [NoErr_append, NoErr_cons] at n2; exact n2.2.2
    obtain ⟨p', q⟩ := if_step C k e g g1 g2 o ec tc fc tab tIf thn.toks (els.toks ++ ks) ks h1 n1
      (fun o q => body_ok C k thn _ g1 o tc q (els.toks ++ ks) h2 n2)
      (fun o q => els_ok C k els g1 g2 o fc q ks h3 n3 hels)
    refine ⟨p', ?_⟩
    rw [e1]
    have hsk : Gets (fun F => skipDocs F (cst C k g o p (tIf :: tLp :: (e.flat ++ tRp :: tLb :: (thn.toks ++ tRb :: (els.toks ++ ks))))))
        (cst C k g o p (tIf :: tLp :: (e.flat ++ tRp :: tLb :: (thn.toks ++ tRb :: (els.toks ++ ks))))) := by
      refine (Gets.const _).succ fun F => ?_
      unfold skipDocs
      rw [if_neg (by simp)]
    refine (hsk.bind (q := fun F s => if s.cur.type = .kwSwitch then parseSwitch C.P F s.adv
        else if s.cur.type = .kwIf then parseIf C.P F s.adv
        else (decLoopS C.P F {} s).bind fun r => fieldDecl C.P r.1 r.2) ?_).succ fun F => ?_
    · refine q.of_eq fun F => ?_
      rw [if_neg (by simp), if_pos (by simp), cst_adv n1]
    · conv => lhs; unfold parseField
      rw [if_neg (by simp)]
  | .switch key arms =>
    simp only [Stmt.gen, bind_some, Option.some.injEq, Prod.mk.injEq] at h
    obtain ⟨⟨l, g1⟩, h1, rfl, rfl⟩ := h
    have e1 : (Stmt.switch key arms).toks ++ ks = tSwitch :: tLp :: tId key :: tRp :: tLb :: (arms.toks ++ tRb :: ks) := by
      simp [Stmt.toks]
    rw [e1] at hne ⊢
    have n1 : NoErr (arms.toks ++ tRb :: ks) := by
      rw [NoErr_cons, NoErr_cons, NoErr_cons, NoErr_cons, NoErr_cons] at hne; exact hne.2.2.2.2.2
    have hks : NoErr ks := by rw [NoErr_append, NoErr_cons] at n1; exact n1.2.2
    obtain ⟨p', q⟩ := arms_ok C k arms [] { g with tab := (strtabAdd g.tab key).1 } g1
      (o ++ 0x51 :: (u16le (strtabAdd g.tab key).2 ++ [0, 0, 0, 0])) l tLb ks {} (o.length + 7) h1 n1 (by simp) (by simp)
    refine ⟨tRb, ?_⟩
    have hsk : Gets (fun F => skipDocs F (cst C k g o p (tSwitch :: tLp :: tId key :: tRp :: tLb :: (arms.toks ++ tRb :: ks))))
        (cst C k g o p (tSwitch :: tLp :: tId key :: tRp :: tLb :: (arms.toks ++ tRb :: ks))) := by
      refine (Gets.const _).succ fun F => ?_
      unfold skipDocs
      rw [if_neg (by simp)]
    refine (hsk.bind (q := fun F s => if s.cur.type = .kwSwitch then parseSwitch C.P F s.adv
        else if s.cur.type = .kwIf then parseIf C.P F s.adv
        else (decLoopS C.P F {} s).bind fun r => fieldDecl C.P r.1 r.2) ?_).succ fun F => ?_
    · have hq : Gets (fun F => parseSwitch C.P F (cst C k g o tSwitch (tLp :: tId key :: tRp :: tLb :: (arms.toks ++ tRb :: ks))))
          (cst C k g1 (o ++ switchCode (strtabAdd g.tab key).2 l) tRb ks) := by
        refine (q.bind (q := fun F r => .ok (switchEnd r.1 o.length r.2)) ((Gets.const _).of_eq fun F => ?_)).succ fun F => ?_
        · have e2 : (o ++ 0x51 :: (u16le (strtabAdd g.tab key).2 ++ [0, 0, 0, 0])).length = o.length + 7 := by simp
          rw [e2, Nat.sub_self]
          simp only [List.nil_append, Option.or_none]
          rw [switchEnd_step C k g1 p' ks _ l o hks]
        · conv => lhs; unfold parseSwitch
          rw [cst_eat .lparen rfl (by simpa using n1)]
          simp only [cst_cur, tId_text]
          rw [cst_eat .identifier rfl (by simpa using n1)]
          simp only [cst_intern]
          rw [cst_eat .rparen rfl (by simpa using n1), cst_eat .lbrace rfl n1]
          rfl
      refine hq.of_eq fun F => ?_
      rw [if_pos (by simp), cst_adv (by simpa using n1)]
    · conv => lhs; unfold parseField
      rw [if_neg (by simp)]

theorem els_ok (C : Ctx) (k : Bool × Nat) (b : Els) (g g' : Gen) (o c : List Byte) (p : Tok) (ks : List Tok)
    (h : b.gen C g = some (c, g')) (hne : NoErr (b.toks ++ ks)) (hels : (ks.headD eofTok).type ≠ .kwElse) :
    ∃ p', Gets (fun F => elsePart C.P F (cst C k g o p (b.toks ++ ks))) (cst C k g' (o ++ c) p' ks) := by
  match b with
  | .none =>
    simp only [Els.gen, Option.some.injEq, Prod.mk.injEq] at h
    obtain ⟨rfl, rfl⟩ := h
    refine ⟨p, (Gets.const _).of_eq fun F => ?_⟩
    unfold elsePart
    simp only [Els.toks, List.nil_append, List.append_nil]
    exact if_neg (show (cst C k g o p ks).cur.type ≠ .kwElse from hels)
  | .block b =>
    simp only [Els.gen] at h
    have e1 : (Els.block b).toks ++ ks = tElse :: tLb :: (b.toks ++ tRb :: ks) := by simp [Els.toks]
    rw [e1] at hne ⊢
    rw [NoErr_cons, NoErr_cons] at hne
    have q := block_step C k g g' o c tElse b.toks ks hne.2.2 (fun q => body_ok C k b g g' o c q ks h hne.2.2)
    refine ⟨tRb, q.of_eq fun F => ?_⟩
    unfold elsePart
    rw [if_pos (by simp), cst_adv (by simpa using hne.2.2), if_neg (by simp)]
  | .elif e thn els =>
    simp only [Els.gen, bind_some, Option.some.injEq, Prod.mk.injEq] at h
    obtain ⟨⟨ec, tab⟩, h1, ⟨tc, g1⟩, h2, ⟨fc, g2⟩, h3, rfl, rfl⟩ := h
    have e1 : (Els.elif e thn els).toks ++ ks =
        tElse :: tIf :: tLp :: (e.flat ++ tRp :: tLb :: (thn.toks ++ tRb :: (els.toks ++ ks))) := by
      simp [Els.toks]
    rw [e1] at hne ⊢
    rw [NoErr_cons, NoErr_cons] at hne
    have n1 := hne.2.2
    have n2 : NoErr (thn.toks ++ tRb :: (els.toks ++ ks)) := by
      rw [NoErr_cons, NoErr_append, NoErr_cons, NoErr_cons] at n1; exact n1.2.2.2.2
    have n3 : NoErr (els.toks ++ ks) := by rw [NoErr_append, NoErr_cons] at n2; exact n2.2.2
    obtain ⟨p', q⟩ := if_step C k e g g1 g2 o ec tc fc tab tIf thn.toks (els.toks ++ ks) ks h1 n1
      (fun o q => body_ok C k thn _ g1 o tc q (els.toks ++ ks) h2 n2)
      (fun o q => els_ok C k els g1 g2 o fc q ks h3 n3 hels)
    refine ⟨p', q.of_eq fun F => ?_⟩
    unfold elsePart
    rw [if_pos (by simp), cst_adv (by rw [NoErr_cons]; exact hne.2), if_pos (by simp), cst_adv n1]

theorem arms_ok (C : Ctx) (k : Bool × Nat) (arms : Arms) (seen : List (Option Word)) (g g' : Gen) (o : List Byte) (l : List (Option Word × List Byte))
    (p : Tok) (ks : List Tok) (w : Sw) (base : Nat) (h : arms.gen C seen g = some (l, g')) (hne : NoErr (arms.toks ++ tRb :: ks))
    (hbase : base ≤ o.length) (hseen : ∀ x ∈ w.cases, some x.1 ∈ seen) :
    ∃ p', Gets (fun F => switchLoop C.P F base w (cst C k g o p (arms.toks ++ tRb :: ks)))
      (⟨w.cases ++ caseAt (armsAt (o.length - base) l), w.fix ++ fixAt o.length l, ((armsAt (o.length - base) l).lookup none).or w.dflt⟩,
       cst C k g' (o ++ rawArms l) p' (tRb :: ks)) := by
  match arms with
  | .done =>
    simp only [Arms.gen, Option.some.injEq, Prod.mk.injEq] at h
    obtain ⟨rfl, rfl⟩ := h
    refine ⟨p, (Gets.const _).succ fun F => ?_⟩
    unfold switchLoop
    simp [Arms.toks, caseAt, armsAt, fixAt, rawArms]
  | .block lab b rest =>
    simp only [Arms.gen, bind_some, req_eq, exists_const, Option.some.injEq, Prod.mk.injEq] at h
    obtain ⟨v, hv, hs, ⟨c, g1⟩, h1, ⟨l2, g2⟩, h2, rfl, rfl⟩ := h
    have e1 : (Arms.block lab b rest).toks ++ tRb :: ks = lab.toks ++ (tLb :: (b.toks ++ [tRb]) ++ (rest.toks ++ tRb :: ks)) := by
      simp [Arms.toks]
    rw [e1] at hne ⊢
    have n1 : NoErr (b.toks ++ tRb :: (rest.toks ++ tRb :: ks)) := by
      rw [NoErr_append] at hne
      simpa [and_assoc] using hne.2
    have n2 : NoErr (rest.toks ++ tRb :: ks) := by rw [NoErr_append, NoErr_cons] at n1; exact n1.2.2
    refine arm_step C k lab v g g1 g2 o c p _ (rest.toks ++ tRb :: ks) ks w base l2 hv hne hbase ?_ ?_ ?_ ?_
    · intro x hx hvx
      exact hs (hvx ▸ hseen x hx)
    · intro hn x hx hx2
      have := arms_seen C rest _ _ _ _ h2 x hx
      rw [hx2, ← hn] at this
      exact this (by simp)
    · intro q
      have q1 := block_step C k g g1 o c q b.toks (rest.toks ++ tRb :: ks) n1 (fun q => body_ok C k b g g1 o c q (rest.toks ++ tRb :: ks) h1 n1)
      refine ⟨tRb, ?_⟩
      have e2 : tLb :: (b.toks ++ [tRb]) ++ (rest.toks ++ tRb :: ks) = tLb :: (b.toks ++ tRb :: (rest.toks ++ tRb :: ks)) := by simp
      rw [e2]
      refine q1.succ fun F => ?_
      conv => lhs; unfold caseBody
      rw [if_pos (by simp)]
    · intro q w' hw'
      refine arms_ok C k rest _ g1 g2 _ l2 q ks w' base h2 n2 (by simp; omega) ?_
      intro x hx
      rcases hw' x hx with hx | hx
      · exact List.mem_append_left _ (hseen x hx)
      · rw [← hx]; simp
  | .stmt lab b rest =>
    simp only [Arms.gen, bind_some, req_eq, exists_const, Option.some.injEq, Prod.mk.injEq] at h
    obtain ⟨v, hv, hs, ⟨c, g1⟩, h1, ⟨l2, g2⟩, h2, rfl, rfl⟩ := h
    have e1 : (Arms.stmt lab b rest).toks ++ tRb :: ks = lab.toks ++ (b.toks ++ (rest.toks ++ tRb :: ks)) := by
      simp [Arms.toks]
    rw [e1] at hne ⊢
    have n1 : NoErr (b.toks ++ (rest.toks ++ tRb :: ks)) := by rw [NoErr_append] at hne; exact hne.2
    have n2 : NoErr (rest.toks ++ tRb :: ks) := by rw [NoErr_append] at n1; exact n1.2
    refine arm_step C k lab v g g1 g2 o c p _ (rest.toks ++ tRb :: ks) ks w base l2 hv hne hbase ?_ ?_ ?_ ?_
    · intro x hx hvx
      exact hs (hvx ▸ hseen x hx)
    · intro hn x hx hx2
      have := arms_seen C rest _ _ _ _ h2 x hx
      rw [hx2, ← hn] at this
      exact this (by simp)
    · intro q
      obtain ⟨p1, q1⟩ := stmt_ok C k b g g1 o c q (rest.toks ++ tRb :: ks) h1 n1 (arms_head rest ks)
      refine ⟨p1, q1.succ fun F => ?_⟩
      have hc := stmt_head b (rest.toks ++ tRb :: ks)
      conv => lhs; unfold caseBody
      rw [if_neg]
      intro hq
      rw [show ((b.toks ++ (rest.toks ++ tRb :: ks)).headD eofTok).type = .lbrace from hq] at hc
      revert hc
      decide
    · intro q w' hw'
      refine arms_ok C k rest _ g1 g2 _ l2 q ks w' base h2 n2 (by simp; omega) ?_
      intro x hx
      rcases hw' x hx with hx | hx
      · exact List.mem_append_left _ (hseen x hx)
      · rw [← hx]; simp

end

end Cnd
