/-
  For C62: the keys of the description of a program are in its string table, and the names in the table have no zero bytes.
-/
import Verif.Props.OptSch
import Verif.Props.SourceMain

namespace Cnd

/-- From one string table to the next: no name goes away, new names have no zero bytes if those of the source have none, and the
keys `ks` are in the table; no name is there twice. -/
structure Steps (tab tab' : List (List Byte)) (ks : List Nat) : Prop where
  len : tab.length ≤ tab'.length
  nodup : tab.Nodup → tab'.Nodup
  nul : (∀ x ∈ tab, NulFree x) → ∀ x ∈ tab', NulFree x
  keys : ∀ k ∈ ks, k < tab'.length

theorem Steps.nil (tab : List (List Byte)) : Steps tab tab [] := ⟨Nat.le_refl _, id, id, fun _ h => by simp at h⟩

theorem Steps.old {tab : List (List Byte)} {ks : List Nat} (h : ∀ k ∈ ks, k < tab.length) : Steps tab tab ks :=
  ⟨Nat.le_refl _, id, id, h⟩

theorem Steps.seq {t1 t2 t3 : List (List Byte)} {ks ks' : List Nat} (h : Steps t1 t2 ks) (h' : Steps t2 t3 ks') :
    Steps t1 t3 (ks ++ ks') := by
  refine ⟨Nat.le_trans h.len h'.len, fun hn => h'.nodup (h.nodup hn), fun hn => h'.nul (h.nul hn), fun k hk => ?_⟩
  rcases List.mem_append.1 hk with hk | hk
  · exact Nat.lt_of_lt_of_le (h.keys k hk) h'.len
  · exact h'.keys k hk

theorem Steps.sub {t1 t2 : List (List Byte)} {ks ks' : List Nat} (h : Steps t1 t2 ks) (hs : ∀ k ∈ ks', k ∈ ks) : Steps t1 t2 ks' :=
  ⟨h.len, h.nodup, h.nul, fun k hk => h.keys k (hs k hk)⟩

theorem strtabAdd_in (tab : List (List Byte)) (n : List Byte) : (strtabAdd tab n).2 < (strtabAdd tab n).1.length := by
  rcases strtabAdd_cases tab n with ⟨i, hi, _, _, e⟩ | ⟨_, e⟩
  · rw [e]; show i % 65536 < _; exact Nat.lt_of_le_of_lt (Nat.mod_le _ _) hi
  · rw [e]
    show tab.length % 65536 < (tab ++ [n]).length
    have := Nat.mod_le tab.length 65536
    simp; omega

/-- Adding a name. -/
theorem Steps.add (tab : List (List Byte)) (n : List Byte) (hn : NulFree n ∨ ¬ ∀ x ∈ tab, NulFree x) :
    Steps tab (strtabAdd tab n).1 [keyNum (keyLo (strtabAdd tab n).2) (keyHi (strtabAdd tab n).2)] := by
  refine ⟨?_, fun h => (C45_intern tab n h).2.1, fun h => ?_, fun k hk => ?_⟩
  · rcases strtabAdd_cases tab n with ⟨i, hi, _, _, e⟩ | ⟨_, e⟩ <;> rw [e] <;> simp
  · have hn := hn.resolve_right (fun h' => h' h)
    rcases strtabAdd_cases tab n with ⟨i, hi, _, _, e⟩ | ⟨_, e⟩ <;> rw [e]
    · exact h
    · intro x hx
      rcases List.mem_append.1 hx with hx | hx
      · exact h x hx
      · simp at hx; rw [hx]; exact hn
  · simp at hk
    rw [hk, keyNum_lohi _ (strtabAdd_lt _ _)]
    exact strtabAdd_in _ _

theorem NulFree.dot {a b : List Byte} (ha : NulFree a) (hb : NulFree b) : NulFree (a ++ 0x2E :: b) := by
  intro c hc
  simp only [List.mem_append, List.mem_cons] at hc
  rcases hc with hc | rfl | hc
  · exact ha c hc
  · decide
  · exact hb c hc

/-! ### Struct bodies under a prefix -/

theorem underKey_steps {pre : List Byte} (hpre : NulFree pre) {tab : List (List Byte)} {k0 k1 : Byte}
    {r : (Byte × Byte) × List (List Byte)} (h : underKey pre tab k0 k1 = some r) : Steps tab r.2 [keyNum r.1.1 r.1.2] := by
  unfold underKey at h
  obtain ⟨name, hn, h⟩ := Option.bind_some_iff h
  cases h
  refine Steps.add tab name ?_
  unfold prefixedName at hn
  dsimp only at hn
  split at hn
  · cases hn
    by_cases ht : ∀ x ∈ tab, NulFree x
    · refine .inl (hpre.dot ?_)
      rw [List.getD_eq_getElem?_getD]
      cases hk : tab[keyNum k0 k1]? with
      | none => intro b hb; simp at hb
      | some x => exact ht x (List.mem_of_getElem? hk)
    · exact .inr ht
  · cases hn

theorem iexpr_under_steps {pre : List Byte} (hpre : NulFree pre) : ∀ (e : IExpr) (tab : List (List Byte)) (r : IExpr × List (List Byte)),
    e.under pre tab = some r → Steps tab r.2 r.1.keys
  | .lit w, tab, r, h => by simp only [IExpr.under] at h; cases h; exact .nil tab
  | .fld k0 k1, tab, r, h => by
    simp only [IExpr.under] at h
    obtain ⟨k, hk, h⟩ := Option.bind_some_iff h
    cases h
    exact underKey_steps hpre hk
  | .un o e, tab, r, h => by
    simp only [IExpr.under] at h
    obtain ⟨k, hk, h⟩ := Option.bind_some_iff h
    cases h
    exact iexpr_under_steps hpre e tab k hk
  | .bin o a b, tab, r, h => by
    simp only [IExpr.under] at h
    obtain ⟨ra, ha, h⟩ := Option.bind_some_iff h
    obtain ⟨rb, hb, h⟩ := Option.bind_some_iff h
    cases h
    exact (iexpr_under_steps hpre a tab ra ha).seq (iexpr_under_steps hpre b _ rb hb)

theorem fld_under_steps {pre : List Byte} (hpre : NulFree pre) (f : Fld) (tab : List (List Byte)) (r : Fld × List (List Byte) × Bool)
    (hin : ∀ k ∈ f.keys, k < tab.length) (h : f.under pre tab = some r) : Steps tab r.2.1 r.1.keys := by
  unfold Fld.under at h
  split at h
  all_goals first
    | (cases h; done)
    | (cases h; exact .old hin)
    | (obtain ⟨k, hk, h⟩ := Option.bind_some_iff h
       cases h
       exact underKey_steps hpre hk)
    | (obtain ⟨_, _, h⟩ := Option.bind_some_iff h
       obtain ⟨k, hk, h⟩ := Option.bind_some_iff h
       cases h
       exact underKey_steps hpre hk)

mutual

theorem sch_under_steps {pre : List Byte} (hpre : NulFree pre) : ∀ (f : Sch) (tab : List (List Byte)) (r : Sch × List (List Byte) × Bool),
    (∀ k ∈ f.keys, k < tab.length) → f.under pre tab = some r → Steps tab r.2.1 r.1.keys
  | .fld f, tab, r, hin, h => by
    simp only [Sch.under] at h
    obtain ⟨k, hk, h⟩ := Option.bind_some_iff h
    cases h
    exact fld_under_steps hpre f tab k hin hk
  | .seq a b, tab, r, hin, h => by
    simp only [Sch.keys, List.mem_append] at hin
    simp only [Sch.under] at h
    obtain ⟨ra, ha, h⟩ := Option.bind_some_iff h
    have sa := sch_under_steps hpre a tab ra (fun k hk => hin k (.inl hk)) ha
    split at h
    · obtain ⟨rb, hb, h⟩ := Option.bind_some_iff h
      cases h
      exact sa.seq (sch_under_steps hpre b _ rb (fun k hk => Nat.lt_of_lt_of_le (hin k (.inr hk)) sa.len) hb)
    · cases h
      exact sa.seq (.old fun k hk => Nat.lt_of_lt_of_le (hin k (.inr hk)) sa.len)
  | .struct k0 k1 f, tab, r, hin, h => by
    simp only [Sch.keys, List.mem_cons] at hin
    simp only [Sch.under] at h
    obtain ⟨k, hk, h⟩ := Option.bind_some_iff h
    obtain ⟨q, hq, h⟩ := Option.bind_some_iff h
    cases h
    have s1 := underKey_steps hpre hk
    exact s1.seq (sch_under_steps hpre f _ q (fun k hk => Nat.lt_of_lt_of_le (hin k (.inr hk)) s1.len) hq)
  | .arrFixed k0 k1 n f, tab, r, hin, h => by
    simp only [Sch.keys, List.mem_cons] at hin
    simp only [Sch.under] at h
    obtain ⟨k, hk, h⟩ := Option.bind_some_iff h
    obtain ⟨q, hq, h⟩ := Option.bind_some_iff h
    cases h
    have s1 := underKey_steps hpre hk
    exact s1.seq (sch_under_steps hpre f _ q (fun k hk => Nat.lt_of_lt_of_le (hin k (.inr hk)) s1.len) hq)
  | .arrPre p k0 k1 f, tab, r, hin, h => by
    simp only [Sch.keys, List.mem_cons] at hin
    simp only [Sch.under] at h
    obtain ⟨k, hk, h⟩ := Option.bind_some_iff h
    obtain ⟨q, hq, h⟩ := Option.bind_some_iff h
    cases h
    have s1 := underKey_steps hpre hk
    exact s1.seq (sch_under_steps hpre f _ q (fun k hk => Nat.lt_of_lt_of_le (hin k (.inr hk)) s1.len) hq)
  | .arrDyn k0 k1 r0 r1 f, tab, r, hin, h => by
    simp only [Sch.keys, List.mem_cons] at hin
    simp only [Sch.under] at h
    obtain ⟨k, hk, h⟩ := Option.bind_some_iff h
    obtain ⟨q, hq, h⟩ := Option.bind_some_iff h
    cases h
    have s1 := underKey_steps hpre hk
    have s2 : Steps k.2 k.2 [keyNum r0 r1] := .old fun x hx => by
      simp at hx
      exact Nat.lt_of_lt_of_le (hin x (.inr (.inl hx))) s1.len
    exact s1.seq (s2.seq (sch_under_steps hpre f _ q (fun k hk => Nat.lt_of_lt_of_le (hin k (.inr (.inr hk))) s1.len) hq))
  | .opt, tab, r, hin, h => by simp only [Sch.under] at h; cases h; exact .nil tab
  | .trans .., tab, r, hin, h => by simp only [Sch.under] at h; cases h; exact .old hin
  | .curve .., tab, r, hin, h => by simp only [Sch.under] at h; cases h; exact .old hin
  | .calc e big tag k0 k1, tab, r, hin, h => by
    simp only [Sch.under] at h
    obtain ⟨re, he, h⟩ := Option.bind_some_iff h
    obtain ⟨k, hk, h⟩ := Option.bind_some_iff h
    cases h
    exact (iexpr_under_steps hpre e tab re he).seq (underKey_steps hpre hk)
  | .ite c a b, tab, r, hin, h => by
    simp only [Sch.keys, List.mem_append] at hin
    simp only [Sch.under] at h
    obtain ⟨re, he, h⟩ := Option.bind_some_iff h
    obtain ⟨ra, ha, h⟩ := Option.bind_some_iff h
    have s1 := iexpr_under_steps hpre c tab re he
    have sa := sch_under_steps hpre a _ ra (fun k hk => Nat.lt_of_lt_of_le (hin k (.inr (.inl hk))) s1.len) ha
    have hb' : ∀ k ∈ b.keys, k < ra.2.1.length := fun k hk =>
      Nat.lt_of_lt_of_le (hin k (.inr (.inr hk))) (Nat.le_trans s1.len sa.len)
    split at h
    · obtain ⟨rb, hb, h⟩ := Option.bind_some_iff h
      cases h
      exact s1.seq (sa.seq (sch_under_steps hpre b _ rb hb' hb))
    · cases h
      exact s1.seq (sa.seq (.old hb'))
  | .switch k0 k1 cs, tab, r, hin, h => by
    simp only [Sch.under] at h
    split at h
    · cases h
      exact .old hin
    · simp only [Sch.keys, List.mem_cons] at hin
      obtain ⟨k, hk, h⟩ := Option.bind_some_iff h
      obtain ⟨q, hq, h⟩ := Option.bind_some_iff h
      obtain ⟨_, _, h⟩ := Option.bind_some_iff h
      cases h
      have s1 := underKey_steps hpre hk
      exact s1.seq (cases_under_steps hpre cs _ q (fun k hk => Nat.lt_of_lt_of_le (hin k (.inr hk)) s1.len) hq)

theorem cases_under_steps {pre : List Byte} (hpre : NulFree pre) : ∀ (cs : Cases) (tab : List (List Byte)) (r : Cases × List (List Byte) × Bool),
    (∀ k ∈ cs.keys, k < tab.length) → cs.under pre tab = some r → Steps tab r.2.1 r.1.keys
  | .nil, tab, r, hin, h => by simp only [Cases.under] at h; cases h; exact .nil tab
  | .cons l f rest, tab, r, hin, h => by
    simp only [Cases.keys, List.mem_append] at hin
    simp only [Cases.under] at h
    obtain ⟨ra, ha, h⟩ := Option.bind_some_iff h
    have sa := sch_under_steps hpre f tab ra (fun k hk => hin k (.inl hk)) ha
    split at h
    · obtain ⟨rb, hb, h⟩ := Option.bind_some_iff h
      cases h
      exact sa.seq (cases_under_steps hpre rest _ rb (fun k hk => Nat.lt_of_lt_of_le (hin k (.inr hk)) sa.len) hb)
    · cases h
      exact sa.seq (.old fun k hk => Nat.lt_of_lt_of_le (hin k (.inr hk)) sa.len)

end

/-! ### Fields -/

/-- The tokens have no zero bytes. -/
def Clean (l : List Tok) : Prop := ∀ t ∈ l, NulFree t.text

theorem Clean.left {a b : List Tok} (h : Clean (a ++ b)) : Clean a := fun t ht => h t (List.mem_append_left _ ht)
theorem Clean.right {a b : List Tok} (h : Clean (a ++ b)) : Clean b := fun t ht => h t (List.mem_append_right _ ht)
theorem Clean.head {t : Tok} {b : List Tok} (h : Clean (t :: b)) : NulFree t.text := h t (by simp)
theorem Clean.tail {t : Tok} {b : List Tok} (h : Clean (t :: b)) : Clean b := fun x hx => h x (by simp [hx])

theorem toInt_steps : ∀ (e : ETree) (tab : List (List Byte)) (r : IExpr × List (List Byte)), Clean e.flat → e.toInt tab = some r →
    Steps tab r.2 r.1.keys
  | .leaf first subs, tab, r, hc, h => by
    simp only [ETree.toInt] at h
    split at h
    · split at h
      · cases h
      · cases hp : parseI64 first.text with
        | none => rw [hp] at h; cases h
        | some w => rw [hp] at h; cases h; exact .nil tab
    · cases h; exact .nil tab
    · cases h; exact .nil tab
    · cases h
      refine Steps.add tab _ (.inl ?_)
      have : ∀ (subs : List (Tok × Tok)) (acc : List Byte), NulFree acc → Clean (subToks subs) →
          NulFree (subs.foldl (fun n p => n ++ 0x2E :: p.2.text) acc) := by
        intro subs
        induction subs with
        | nil => exact fun acc h _ => h
        | cons p ps ih =>
          intro acc ha hc
          simp only [subToks, List.flatMap_cons] at hc
          refine ih _ (ha.dot ?_) ?_
          · exact hc p.2 (by simp)
          · exact hc.right
      exact this subs first.text hc.head hc.tail
    · cases h
  | .node l op r', tab, r, hc, h => by
    simp only [ETree.flat] at hc
    simp only [ETree.toInt] at h
    split at h
    · cases h
    · next a t1 ha =>
      split at h
      · next b t2 o hb _ =>
        cases h
        exact (toInt_steps l tab _ hc.left ha).seq (toInt_steps r' t1 _ hc.right.tail hb)
      · cases h
  | .call _ _ _ _, _, _, _, h => by cases h
  | .call2 _ _ _ _ _ _, _, _, _, h => by cases h
  | .paren _ _ _ _, _, _, _, h => by cases h
  | .unary _ _ _, _, _, _, h => by cases h

theorem exprSch_steps {e : ETree} {tab : List (List Byte)} {r : IExpr × List (List Byte)} (hc : Clean e.flat)
    (h : exprSch e tab = some r) : Steps tab r.2 r.1.keys := by
  unfold exprSch at h
  obtain ⟨_, _, h⟩ := Option.bind_some_iff h
  exact toInt_steps e tab r hc h

/-- The field with the count of an array. -/
def RefIn (a : Dec) (tab : List (List Byte)) : Prop := ∀ r, a.ref = some r → r < 65536 ∧ r < tab.length

theorem RefIn.mono {a : Dec} {tab tab' : List (List Byte)} (h : RefIn a tab) (hl : tab.length ≤ tab'.length) : RefIn a tab' :=
  fun r hr => ⟨(h r hr).1, Nat.lt_of_lt_of_le (h r hr).2 hl⟩

theorem decoGen_steps {C : Ctx} {x : Deco} {a : Dec} {g : Gen} {r : List Byte × Dec × Gen} (hx : ∀ e, x ≠ .expr e) (hc : Clean x.toks)
    (ha : RefIn a g.tab) (h : x.gen C a g = some r) : Steps g.tab r.2.2.tab [] ∧ RefIn r.2.1 r.2.2.tab := by
  cases x with
  | expr e => exact absurd rfl (hx e)
  | countOf long n =>
    simp only [Deco.gen] at h
    cases h
    have hn : NulFree n := hc (tId n) (by simp [Deco.toks, called])
    refine ⟨(Steps.add g.tab n (.inl hn)).sub (fun k hk => by simp at hk), fun r hr => ?_⟩
    cases hr
    exact ⟨strtabAdd_lt _ _, strtabAdd_in _ _⟩
  | fill v =>
    simp only [Deco.gen] at h
    obtain ⟨_, _, h⟩ := Option.bind_some_iff h
    cases h
    have e : ∀ g' : Gen, g'.tab = g.tab → Steps g.tab g'.tab [] ∧ RefIn { a with alone := true } g'.tab := by
      intro g' hg; rw [hg]; exact ⟨.nil _, ha⟩
    exact e _ (by dsimp only; cases C.inBit <;> rfl)
  | pad n =>
    simp only [Deco.gen] at h
    cases h
    have e : ∀ g' : Gen, g'.tab = g.tab → Steps g.tab g'.tab [] ∧ RefIn { a with alone := true } g'.tab := by
      intro g' hg; rw [hg]; exact ⟨.nil _, ha⟩
    exact e _ (by dsimp only; cases C.inBit <;> rfl)
  | crc n =>
    simp only [Deco.gen] at h
    split at h
    · cases h; exact ⟨.nil _, ha⟩
    · split at h
      · cases h; exact ⟨.nil _, ha⟩
      · cases h
  | _ =>
    simp only [Deco.gen] at h
    first
      | (cases h; exact ⟨.nil _, ha⟩)
      | (obtain ⟨_, _, h⟩ := Option.bind_some_iff h
         cases h
         exact ⟨.nil _, ha⟩)

/-- The keys of an optional expression. -/
def optKeys (e : Option IExpr) : List Nat := (e.map IExpr.keys).getD []

theorem deco_steps {C : SCtx} {x : Deco} {a : Dec} {g : Gen} {r : List Sch × Option IExpr × Dec × Gen} (hc : Clean x.toks)
    (ha : RefIn a g.tab) (h : x.sch C a g = some r) :
    Steps g.tab r.2.2.2.tab (optKeys r.2.1) ∧ RefIn r.2.2.1 r.2.2.2.tab ∧ ∀ p ∈ r.1, p.keys = [] := by
  by_cases hx : ∃ e, x = .expr e
  · obtain ⟨e, rfl⟩ := hx
    simp only [Deco.sch] at h
    obtain ⟨k, hk, h⟩ := Option.bind_some_iff h
    cases h
    have hce : Clean e.flat := fun t ht => hc t (by simp [Deco.toks, called, ht])
    have := exprSch_steps hce hk
    exact ⟨this, ha.mono this.len, fun p hp => by simp at hp⟩
  · have hx : ∀ e, x ≠ .expr e := fun e he => hx ⟨e, he⟩
    unfold Deco.sch at h
    split at h
    · exact absurd rfl (hx _)
    · obtain ⟨k, hk, h⟩ := Option.bind_some_iff h
      cases h
      obtain ⟨h1, h2⟩ := decoGen_steps hx hc ha hk
      refine ⟨h1, h2, fun p hp => ?_⟩
      dsimp only at hp
      split at hp
      all_goals first
        | (simp at hp; done)
        | (simp at hp; rw [hp]; rfl)

theorem decos_steps {C : SCtx} : ∀ (l : List Deco) (a : Dec) (g : Gen) (r : List Sch × Option IExpr × Dec × Gen),
    Clean (l.flatMap Deco.toks) → RefIn a g.tab → decosSch C l a g = some r →
    Steps g.tab r.2.2.2.tab (optKeys r.2.1) ∧ RefIn r.2.2.1 r.2.2.2.tab ∧ ∀ p ∈ r.1, p.keys = []
  | [], a, g, r, hc, ha, h => by
    simp only [decosSch] at h
    cases h
    exact ⟨.nil _, ha, fun p hp => by simp at hp⟩
  | x :: xs, a, g, r, hc, ha, h => by
    simp only [List.flatMap_cons] at hc
    simp only [decosSch] at h
    obtain ⟨k, hk, h⟩ := Option.bind_some_iff h
    obtain ⟨q, hq, h⟩ := Option.bind_some_iff h
    obtain ⟨s1, a1, p1⟩ := deco_steps hc.left ha hk
    obtain ⟨s2, a2, p2⟩ := decos_steps xs _ _ q hc.right a1 hq
    split at h
    · next hn =>
      cases h
      refine ⟨(s1.seq s2).sub fun k hk => by simp [hk], a2, fun p hp => ?_⟩
      rcases List.mem_append.1 hp with hp | hp
      · exact p1 p hp
      · exact p2 p hp
    · next e he =>
      obtain ⟨_, _, h⟩ := Option.bind_some_iff h
      cases h
      rw [he] at s1
      exact ⟨(s1.seq s2).sub fun k hk => List.mem_append_left _ hk, a2, p1⟩

/-- The keys of the structs seen so far. -/
def StructsIn (structs : List (List Byte × Sch)) (tab : List (List Byte)) : Prop := ∀ x ∈ structs, ∀ k ∈ x.2.keys, k < tab.length

theorem StructsIn.mono {l : List (List Byte × Sch)} {tab tab' : List (List Byte)} (h : StructsIn l tab) (hl : tab.length ≤ tab'.length) :
    StructsIn l tab' := fun x hx k hk => Nat.lt_of_lt_of_le (h x hx k hk) hl

/-- What a part with the key `key` of a field may use. -/
def KeysOf (f : Sch) (key : Nat) (tab : List (List Byte)) : Prop := key < 65536 → key < tab.length → ∀ k ∈ f.keys, k < tab.length

theorem number_steps {C : SCtx} {d : FieldD} {a : Dec} {key : Nat} {t : NTy} {g : Gen} {r : Sch × Gen}
    (h : numberSch C d a key t g = some r) : r.2.tab = g.tab ∧ KeysOf r.1 key g.tab := by
  have one : ∀ f : Sch, f.keys = [keyNum (keyLo key) (keyHi key)] → KeysOf f key g.tab := by
    intro f hf h1 h2 k hk
    rw [hf] at hk
    simp at hk
    rw [hk, keyNum_lohi _ h1]
    exact h2
  have none' : ∀ f : Sch, f.keys = [] → KeysOf f key g.tab := by
    intro f hf h1 h2 k hk
    rw [hf] at hk
    simp at hk
  unfold numberSch at h
  split at h
  · obtain ⟨_, _, h⟩ := Option.bind_some_iff h
    obtain ⟨f, hf, h⟩ := Option.bind_some_iff h
    cases h
    refine ⟨?_, ?_⟩
    · dsimp only; split <;> rfl
    · unfold bitSch at hf
      split at hf
      · cases hf; exact one _ rfl
      · cases hf; exact one _ rfl
      · split at hf
        · cases hf; exact one _ rfl
        · cases hf
      · cases hf
  · split at h
    · split at h
      · cases h; exact ⟨rfl, none' _ rfl⟩
      · split at h
        · cases h; exact ⟨rfl, none' _ rfl⟩
        · cases h
    · split at h
      · cases h
      · split at h
        · cases h; exact ⟨rfl, one _ rfl⟩
        · obtain ⟨_, _, h⟩ := Option.bind_some_iff h
          obtain ⟨_, _, h⟩ := Option.bind_some_iff h
          obtain ⟨_, _, h⟩ := Option.bind_some_iff h
          cases h
          exact ⟨rfl, one _ rfl⟩

theorem value_steps {C : SCtx} {d : FieldD} {a : Dec} {key : Nat} {g : Gen} {r : Sch × Gen} (hd : NulFree d.name)
    (hs : StructsIn C.structs g.tab) (h1 : key < 65536) (h2 : key < g.tab.length) (h : valueSch C d a key g = some r) :
    Steps g.tab r.2.tab r.1.keys := by
  have one : ∀ f : Sch, f.keys = [keyNum (keyLo key) (keyHi key)] → Steps g.tab g.tab f.keys := by
    intro f hf
    rw [hf, keyNum_lohi _ h1]
    exact .old fun k hk => by simp at hk; rw [hk]; exact h2
  unfold valueSch at h
  split at h
  · obtain ⟨_, _, h⟩ := Option.bind_some_iff h
    obtain ⟨_, _, h⟩ := Option.bind_some_iff h
    obtain ⟨_, _, h⟩ := Option.bind_some_iff h
    obtain ⟨_, _, h⟩ := Option.bind_some_iff h
    cases h
    exact one _ rfl
  · obtain ⟨_, _, h⟩ := Option.bind_some_iff h
    split at h
    · obtain ⟨_, _, h⟩ := Option.bind_some_iff h
      split at h
      · obtain ⟨_, _, h⟩ := Option.bind_some_iff h
        obtain ⟨_, _, h⟩ := Option.bind_some_iff h
        cases h
        exact one _ rfl
      · obtain ⟨_, _, h⟩ := Option.bind_some_iff h
        cases h
        exact one _ rfl
    · split at h
      · next f hf =>
        obtain ⟨_, _, h⟩ := Option.bind_some_iff h
        obtain ⟨q, hq, h⟩ := Option.bind_some_iff h
        cases h
        have hpre : NulFree (d.name.take 255) := fun b hb => hd b (List.mem_of_mem_take hb)
        have := sch_under_steps hpre f g.tab q (fun k hk => hs _ (lookup_mem hf) k hk) hq
        refine ⟨this.len, this.nodup, this.nul, fun k hk => ?_⟩
        simp only [Sch.keys, List.mem_cons] at hk
        rcases hk with rfl | hk
        · rw [keyNum_lohi _ h1]
          exact Nat.lt_of_lt_of_le h2 this.len
        · exact this.keys k hk
      · split at h
        · obtain ⟨_, _, h⟩ := Option.bind_some_iff h
          obtain ⟨_, _, h⟩ := Option.bind_some_iff h
          obtain ⟨_, _, h⟩ := Option.bind_some_iff h
          obtain ⟨_, _, h⟩ := Option.bind_some_iff h
          cases h
          exact one _ rfl
        · obtain ⟨t, _, h⟩ := Option.bind_some_iff h
          obtain ⟨e, hk⟩ := number_steps h
          rw [e]
          exact .old (hk h1 h2)

theorem elem_steps {d : FieldD} {a : Dec} {key : Nat} {f f' : Sch} {tab : List (List Byte)} (ha : RefIn a tab)
    (h1 : key < 65536) (h2 : key < tab.length) (hf : ∀ k ∈ f.keys, k < tab.length) (h : elemSch d a key f = some f') :
    ∀ k ∈ f'.keys, k < tab.length := by
  have hk : keyNum (keyLo key) (keyHi key) < tab.length := by rw [keyNum_lohi _ h1]; exact h2
  have cons : ∀ k ∈ keyNum (keyLo key) (keyHi key) :: f.keys, k < tab.length := by
    intro k hk'
    rcases List.mem_cons.1 hk' with rfl | hk'
    · exact hk
    · exact hf k hk'
  unfold elemSch at h
  split at h
  · cases h; exact hf
  · split at h
    · obtain ⟨_, _, h⟩ := Option.bind_some_iff h
      obtain ⟨_, _, h⟩ := Option.bind_some_iff h
      cases h
      exact cons
    · split at h
      · cases h
      · split at h
        · next r hr =>
          cases h
          intro k hk'
          simp only [Sch.keys, List.mem_cons] at hk'
          rcases hk' with rfl | rfl | hk'
          · exact hk
          · rw [keyNum_lohi _ (ha r hr).1]; exact (ha r hr).2
          · exact hf k hk'
        · split at h
          · cases h; exact cons
          · cases h

theorem trans_steps {a : Dec} {key : Nat} {n : Num} {f : Sch} (h : transSch a key n = some f) :
    f.keys = [keyNum (keyLo key) (keyHi key)] := by
  unfold transSch at h
  split at h <;> first | (cases h; rfl) | cases h

theorem all_keys (l : List Sch) : (Sch.all l).keys = l.flatMap Sch.keys := by
  induction l with
  | nil => rfl
  | cons x xs ih => simp only [Sch.all, Sch.keys, ih, List.flatMap_cons]

theorem attrs_ref (d : FieldD) (a : Dec) : (d.attrs a).ref = a.ref := by
  unfold FieldD.attrs
  split <;> rfl

theorem body_steps {C : SCtx} {d : FieldD} {e : Option IExpr} {a : Dec} {g : Gen} {r : List Sch × Gen} (hd : NulFree d.name)
    (hs : StructsIn C.structs g.tab) (ha : RefIn a g.tab) (he : ∀ k ∈ optKeys e, k < g.tab.length)
    (h : d.bodySch C e a g = some r) : Steps g.tab r.2.tab (r.1.flatMap Sch.keys) := by
  unfold FieldD.bodySch at h
  obtain ⟨_, _, h⟩ := Option.bind_some_iff h
  obtain ⟨_, _, h⟩ := Option.bind_some_iff h
  have s1 := Steps.add g.tab d.name (.inl hd)
  have hk1 := strtabAdd_lt g.tab d.name
  have hk2 := strtabAdd_in g.tab d.name
  have hle : ∀ b : Bool, (if b = true then [Sch.fld .setLE] else []).flatMap Sch.keys = [] := by intro b; cases b <;> rfl
  have hbe : ∀ b : Bool, (if b = true then [Sch.fld .setBE] else []).flatMap Sch.keys = [] := by intro b; cases b <;> rfl
  cases e with
  | some e =>
    dsimp only at h
    obtain ⟨_, _, h⟩ := Option.bind_some_iff h
    obtain ⟨_, _, h⟩ := Option.bind_some_iff h
    cases h
    refine ⟨s1.len, s1.nodup, s1.nul, fun k hk => ?_⟩
    simp only [List.flatMap_cons, hle, Sch.keys, List.append_nil, List.mem_append] at hk
    rcases hk with hk | hk
    · exact Nat.lt_of_lt_of_le (he k hk) s1.len
    · exact s1.keys k hk
  | none =>
    dsimp only at h
    obtain ⟨_, _, h⟩ := Option.bind_some_iff h
    split at h
    · obtain ⟨v, hv, h⟩ := Option.bind_some_iff h
      obtain ⟨f, hf, h⟩ := Option.bind_some_iff h
      cases h
      have s2 := value_steps hd (hs.mono s1.len) hk1 hk2 hv
      have s3 := s1.seq s2
      refine ⟨s3.len, s3.nodup, s3.nul, fun k hk => ?_⟩
      simp only [List.flatMap_append, List.flatMap_cons, hle, hbe, List.append_nil, List.nil_append] at hk
      refine elem_steps (fun r hr => ?_) hk1 (Nat.lt_of_lt_of_le hk2 s2.len) s2.keys hf k hk
      rw [attrs_ref] at hr
      exact (ha.mono s3.len) r hr
    · obtain ⟨_, _, h⟩ := Option.bind_some_iff h
      obtain ⟨_, _, h⟩ := Option.bind_some_iff h
      obtain ⟨f, hf, h⟩ := Option.bind_some_iff h
      cases h
      refine ⟨s1.len, s1.nodup, s1.nul, fun k hk => ?_⟩
      simp only [List.flatMap_cons, hle, List.append_nil, trans_steps hf] at hk
      exact s1.keys k hk

theorem no_keys {l : List Sch} (h : ∀ p ∈ l, p.keys = []) : l.flatMap Sch.keys = [] := by
  rw [List.flatMap_eq_nil_iff]
  exact h

theorem field_steps {C : SCtx} {d : FieldD} {g : Gen} {r : Sch × Gen} (hc : Clean d.toks) (hs : StructsIn C.structs g.tab)
    (h : d.sch C g = some r) : Steps g.tab r.2.tab r.1.keys := by
  unfold FieldD.sch at h
  obtain ⟨k, hk, h⟩ := Option.bind_some_iff h
  obtain ⟨q, hq, h⟩ := Option.bind_some_iff h
  cases h
  obtain ⟨s1, a1, p1⟩ := decos_steps d.decs {} g k hc.left (fun r hr => by cases hr) hk
  have s2 := body_steps (hc (tId d.name) (by simp [FieldD.toks])) (hs.mono s1.len) a1 s1.keys hq
  refine (s1.seq s2).sub fun x hx => ?_
  rw [all_keys, List.flatMap_append, no_keys p1, List.nil_append] at hx
  exact List.mem_append_right _ hx

theorem lone_steps {C : SCtx} {decs : List Deco} {g : Gen} {r : Sch × Gen} (hc : Clean (decs.flatMap Deco.toks))
    (h : loneSch C decs g = some r) : Steps g.tab r.2.tab r.1.keys := by
  unfold loneSch at h
  obtain ⟨k, hk, h⟩ := Option.bind_some_iff h
  obtain ⟨_, _, h⟩ := Option.bind_some_iff h
  cases h
  obtain ⟨s1, _, p1⟩ := decos_steps decs {} g k hc (fun r hr => by cases hr) hk
  refine s1.sub fun x hx => ?_
  rw [all_keys, no_keys p1] at hx
  simp at hx

mutual

theorem bodyS_steps (C : SCtx) : ∀ (b : Body) (g : Gen) (r : Sch × Gen), Clean b.toks → StructsIn C.structs g.tab → b.sch C g = some r →
    Steps g.tab r.2.tab r.1.keys
  | .done, g, r, _, _, h => by simp only [Body.sch] at h; cases h; exact .nil _
  | .tail decs, g, r, hc, _, h => by simp only [Body.sch] at h; exact lone_steps hc h
  | .doc t rest, g, r, hc, hs, h => by simp only [Body.sch] at h; exact bodyS_steps C rest g r hc.tail hs h
  | .stmt s rest, g, r, hc, hs, h => by
    simp only [Body.sch] at h
    obtain ⟨k, hk, h⟩ := Option.bind_some_iff h
    obtain ⟨q, hq, h⟩ := Option.bind_some_iff h
    cases h
    have s1 := stmtS_steps C s g k hc.left hs hk
    exact s1.seq (bodyS_steps C rest _ q hc.right (hs.mono s1.len) hq)

theorem stmtS_steps (C : SCtx) : ∀ (s : Stmt) (g : Gen) (r : Sch × Gen), Clean s.toks → StructsIn C.structs g.tab → s.sch C g = some r →
    Steps g.tab r.2.tab r.1.keys
  | .field d, g, r, hc, hs, h => by simp only [Stmt.sch] at h; exact field_steps hc hs h
  | .lone decs, g, r, hc, _, h => by simp only [Stmt.sch] at h; exact lone_steps hc.left h
  | .ite c thn els, g, r, hc, hs, h => by
    simp only [Stmt.sch] at h
    simp only [Stmt.toks] at hc
    obtain ⟨e, he, h⟩ := Option.bind_some_iff h
    obtain ⟨t, ht, h⟩ := Option.bind_some_iff h
    obtain ⟨f, hf, h⟩ := Option.bind_some_iff h
    cases h
    have s1 := exprSch_steps hc.tail.tail.left he
    have s2 := bodyS_steps C thn _ t hc.tail.tail.right.tail.tail.left (hs.mono s1.len) ht
    exact s1.seq (s2.seq (elsS_steps C els _ f hc.tail.tail.right.tail.tail.right.tail ((hs.mono s1.len).mono s2.len) hf))
  | .switch key arms, g, r, hc, hs, h => by
    simp only [Stmt.sch] at h
    simp only [Stmt.toks] at hc
    obtain ⟨q, hq, h⟩ := Option.bind_some_iff h
    cases h
    have s1 := Steps.add g.tab key (.inl hc.tail.tail.head)
    exact s1.seq (armsS_steps C arms _ _ q hc.tail.tail.tail.tail.tail.left (hs.mono s1.len) hq)

theorem elsS_steps (C : SCtx) : ∀ (s : Els) (g : Gen) (r : Sch × Gen), Clean s.toks → StructsIn C.structs g.tab → s.sch C g = some r →
    Steps g.tab r.2.tab r.1.keys
  | .none, g, r, _, _, h => by simp only [Els.sch] at h; cases h; exact .nil _
  | .block b, g, r, hc, hs, h => by
    simp only [Els.sch] at h
    simp only [Els.toks] at hc
    exact bodyS_steps C b g r hc.tail.tail.left hs h
  | .elif c thn els, g, r, hc, hs, h => by
    simp only [Els.sch] at h
    simp only [Els.toks] at hc
    obtain ⟨e, he, h⟩ := Option.bind_some_iff h
    obtain ⟨t, ht, h⟩ := Option.bind_some_iff h
    obtain ⟨f, hf, h⟩ := Option.bind_some_iff h
    cases h
    have hc := hc.tail
    have s1 := exprSch_steps hc.tail.tail.left he
    have s2 := bodyS_steps C thn _ t hc.tail.tail.right.tail.tail.left (hs.mono s1.len) ht
    exact s1.seq (s2.seq (elsS_steps C els _ f hc.tail.tail.right.tail.tail.right.tail ((hs.mono s1.len).mono s2.len) hf))

theorem armsS_steps (C : SCtx) : ∀ (s : Arms) (seen : List (Option Word)) (g : Gen) (r : Cases × Gen), Clean s.toks →
    StructsIn C.structs g.tab → s.sch C seen g = some r → Steps g.tab r.2.tab r.1.keys
  | .done, seen, g, r, _, _, h => by simp only [Arms.sch] at h; cases h; exact .nil _
  | .block l b rest, seen, g, r, hc, hs, h => by
    simp only [Arms.sch] at h
    simp only [Arms.toks] at hc
    obtain ⟨_, _, h⟩ := Option.bind_some_iff h
    obtain ⟨_, _, h⟩ := Option.bind_some_iff h
    obtain ⟨k, hk, h⟩ := Option.bind_some_iff h
    obtain ⟨q, hq, h⟩ := Option.bind_some_iff h
    cases h
    have s1 := bodyS_steps C b g k hc.right.tail.left hs hk
    exact s1.seq (armsS_steps C rest _ _ q hc.right.tail.right.tail (hs.mono s1.len) hq)
  | .stmt l s rest, seen, g, r, hc, hs, h => by
    simp only [Arms.sch] at h
    simp only [Arms.toks] at hc
    obtain ⟨_, _, h⟩ := Option.bind_some_iff h
    obtain ⟨_, _, h⟩ := Option.bind_some_iff h
    obtain ⟨k, hk, h⟩ := Option.bind_some_iff h
    obtain ⟨q, hq, h⟩ := Option.bind_some_iff h
    cases h
    have s1 := stmtS_steps C s g k hc.left.right hs hk
    exact s1.seq (armsS_steps C rest _ _ q hc.right (hs.mono s1.len) hq)

end

/-! ### Files -/

/-- All keys so far are in the table, whose names are different and have no zero bytes. -/
structure TopIn (t : STop) : Prop where
  nodup : t.tab.Nodup
  nul : ∀ x ∈ t.tab, NulFree x
  structs : StructsIn t.structs t.tab
  code : ∀ k ∈ (Sch.all t.code).keys, k < t.tab.length

theorem topDec_in (x : TopDec) (t : STop) (h : TopIn t) : TopIn (x.sch t) := by
  have app : ∀ p : Sch, p.keys = [] → TopIn { t with code := t.code ++ [p] } := by
    intro p hp
    refine ⟨h.nodup, h.nul, h.structs, fun k hk => ?_⟩
    rw [all_keys, List.flatMap_append, List.flatMap_cons, hp] at hk
    rw [List.flatMap_nil, List.append_nil, List.append_nil, ← all_keys] at hk
    exact h.code k hk
  cases x with
  | version n => exact app _ rfl
  | bigEndian => exact app _ rfl
  | littleEndian => exact app _ rfl
  | unaligned => exact ⟨h.nodup, h.nul, h.structs, h.code⟩

theorem decl_in {dbl : List Byte → Word} {fl : FloatOps} (x : Decl) (t t' : STop) (hc : Clean x.toks) (ht : TopIn t)
    (h : x.sch dbl fl t = some t') : TopIn t' := by
  cases x with
  | enum name ty vs =>
    simp only [Decl.sch] at h
    obtain ⟨_, _, h⟩ := Option.bind_some_iff h
    obtain ⟨_, _, h⟩ := Option.bind_some_iff h
    obtain ⟨_, _, h⟩ := Option.bind_some_iff h
    cases h
    exact ⟨ht.nodup, ht.nul, ht.structs, ht.code⟩
  | struct name b =>
    simp only [Decl.sch] at h
    obtain ⟨_, _, h⟩ := Option.bind_some_iff h
    obtain ⟨r, hr, h⟩ := Option.bind_some_iff h
    obtain ⟨_, _, h⟩ := Option.bind_some_iff h
    cases h
    have s := bodyS_steps _ b _ r hc.tail.tail.tail.left ht.structs hr
    refine ⟨s.nodup ht.nodup, s.nul ht.nul, fun x hx k hk => ?_, fun k hk => Nat.lt_of_lt_of_le (ht.code k hk) s.len⟩
    rcases List.mem_append.1 hx with hx | hx
    · exact (ht.structs.mono s.len) x hx k hk
    · simp only [List.mem_singleton] at hx
      subst hx
      dsimp only at hk
      split at hk
      · rw [all_keys] at hk
        simp only [List.flatMap_cons, List.flatMap_nil, Sch.keys, Fld.keys, List.nil_append, List.append_nil] at hk
        exact s.keys k hk
      · exact s.keys k hk
  | packet name b =>
    simp only [Decl.sch] at h
    obtain ⟨_, _, h⟩ := Option.bind_some_iff h
    obtain ⟨r, hr, h⟩ := Option.bind_some_iff h
    cases h
    have s1 := bodyS_steps _ b _ r hc.tail.tail.tail.left ht.structs hr
    have s2 := Steps.add r.2.tab name (.inl hc.tail.head)
    have s := s1.seq s2
    refine ⟨s.nodup ht.nodup, s.nul ht.nul, ht.structs.mono s.len, fun k hk => ?_⟩
    rw [all_keys, List.flatMap_append] at hk
    simp only [List.flatMap_cons, List.flatMap_nil, Sch.keys, Fld.keys, List.append_nil, List.mem_append] at hk
    rcases hk with hk | hk | hk
    · exact Nat.lt_of_lt_of_le (ht.code k (by rw [all_keys]; exact hk)) s.len
    · exact s2.keys k hk
    · exact s.keys k (List.mem_append_left _ hk)
  | packetOf name st =>
    simp only [Decl.sch] at h
    obtain ⟨_, _, h⟩ := Option.bind_some_iff h
    obtain ⟨f, hf, h⟩ := Option.bind_some_iff h
    cases h
    have s := Steps.add t.tab name (.inl hc.tail.head)
    refine ⟨s.nodup ht.nodup, s.nul ht.nul, ht.structs.mono s.len, fun k hk => ?_⟩
    rw [all_keys, List.flatMap_append] at hk
    simp only [List.flatMap_cons, List.flatMap_nil, Sch.keys, Fld.keys, List.append_nil, List.mem_append] at hk
    rcases hk with hk | hk | hk
    · exact Nat.lt_of_lt_of_le (ht.code k (by rw [all_keys]; exact hk)) s.len
    · exact s.keys k hk
    · exact Nat.lt_of_lt_of_le (ht.structs _ (lookup_mem hf) k hk) s.len
  | empty => simp only [Decl.sch] at h; cases h; exact ht

theorem topDecs_in (l : List TopDec) : ∀ t : STop, TopIn t → TopIn (l.foldl (fun t x => x.sch t) t) := by
  induction l with
  | nil => exact fun t h => h
  | cons x xs ih => exact fun t h => ih _ (topDec_in x t h)

theorem prog_in {dbl : List Byte → Word} {fl : FloatOps} : ∀ (prog : List Item) (t t' : STop), Clean (prog.flatMap Item.toks) → TopIn t →
    progSchFrom dbl fl prog t = some t' → TopIn t'
  | [], t, t', _, ht, h => by simp only [progSchFrom] at h; cases h; exact ht
  | .doc _ :: xs, t, t', hc, ht, h => by
    simp only [progSchFrom] at h
    exact prog_in xs t t' hc.right ht h
  | .decl decs d :: xs, t, t', hc, ht, h => by
    simp only [progSchFrom] at h
    obtain ⟨t1, h1, h⟩ := Option.bind_some_iff h
    simp only [List.flatMap_cons, Item.toks] at hc
    exact prog_in xs t1 t' hc.right (decl_in d _ t1 hc.left.right (topDecs_in decs t ht) h1) h

/-- The string table of a program: all keys of its description are in it, and its names have no zero bytes. -/
theorem progSch_keys {dbl : List Byte → Word} {fl : FloatOps} {prog : List Item} {tab : List (List Byte)} {f : Sch}
    (hc : Clean (prog.flatMap Item.toks)) (h : progSch dbl fl prog = some (tab, f)) :
    tab.Nodup ∧ (∀ x ∈ tab, NulFree x) ∧ ∀ k ∈ f.keys, k < tab.length := by
  unfold progSch at h
  obtain ⟨t, ht, h⟩ := Option.bind_some_iff h
  obtain ⟨_, _, h⟩ := Option.bind_some_iff h
  cases h
  have := prog_in prog {} t hc ⟨List.nodup_nil, fun x hx => by simp at hx, fun x hx => by simp at hx,
    fun k hk => by simp [Sch.all, Sch.keys, Fld.keys] at hk⟩ ht
  exact ⟨this.nodup, this.nul, this.code⟩

/-! ### The tokens of a text -/

theorem isTok_nulFree {raw s : List Byte} {ty : TT} {text : List Byte} (h : IsTok raw s ty text) (hn : NoNul raw) : NulFree text := by
  cases h with
  | str h => exact fun b hb => hn b (by simp [hb])
  | openStr h => exact fun b hb => hn b (by simp [hb])
  | doc _ _ _ => exact fun b hb => hn b (by simp [hb])
  | _ => exact hn

theorem lexes_clean {s : List Byte} {line : Nat} {toks : List Tok} (h : Lexes s line toks) (hn : NoNul s) : Clean toks := by
  induction h with
  | eof => intro t ht; simp at ht; subst ht; exact fun b hb => by simp at hb
  | tok _ h1 _ ih =>
    intro t ht
    rcases List.mem_cons.1 ht with rfl | ht
    · exact isTok_nulFree h1 fun b hb => hn b (by simp [hb])
    · exact ih hn.right.right t ht

/-- The tokens of a program that are those of a text. -/
theorem source_clean {src : List Byte} {toks l : List Tok} {e : Tok} (h : Lexes (upToNul src) 1 toks) (ht : toks.map Tok.bare = l ++ [e]) :
    Clean l := by
  have hc := lexes_clean h (upToNul_split src).1
  intro t hm
  have : t ∈ toks.map Tok.bare := by rw [ht]; exact List.mem_append_left _ hm
  obtain ⟨t', h1, rfl⟩ := List.mem_map.1 this
  exact hc t' h1

end Cnd
