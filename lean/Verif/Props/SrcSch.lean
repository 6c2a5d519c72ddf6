/-
  For C62: what the compiler's renaming of struct bodies and its dead-string elimination do to the byte code of a description,
  and that the code of a program is the code of its description.
-/
import Verif.SrcSch
import Verif.Props.OptStr
import Verif.Props.Sch

namespace Cnd

theorem key_two (n : Nat) : leBytes 2 (BitVec.ofNat 64 n) = [keyLo n, keyHi n] := by
  simp only [leBytes, keyLo, keyHi]
  congr 1
  · apply BitVec.eq_of_toNat_eq; simp
  · congr 1
    apply BitVec.eq_of_toNat_eq
    simp [Nat.shiftRight_eq_div_pow]
    omega

theorem u16le_two (n : Nat) : u16le n = [keyLo n, keyHi n] := key_two n

theorem keyNum_lohi (n : Nat) (h : n < 65536) : keyNum (keyLo n) (keyHi n) = n := by
  unfold keyNum keyLo keyHi
  simp
  omega

theorem lohi_keyNum (k0 k1 : Byte) : (keyLo (keyNum k0 k1), keyHi (keyNum k0 k1)) = (k0, k1) := by
  have h0 := k0.isLt
  have h1 := k1.isLt
  unfold keyNum keyLo keyHi
  congr 1
  · apply BitVec.eq_of_toNat_eq; simp; omega
  · apply BitVec.eq_of_toNat_eq; simp; omega

theorem all_code (l : List Sch) : (Sch.all l).code = l.flatMap Sch.code := by
  induction l with
  | nil => rfl
  | cons x xs ih => simp only [Sch.all, Sch.code, ih, List.flatMap_cons]

/-! ### Renaming struct bodies -/

theorem inlineSize_ge (op : Byte) (n : Nat) (b : Bool) (h : inlineSize op = some (n, b)) : 0 < n ∧ (b = true → 3 ≤ n) := by
  have key : ∀ m : Fin 256, ∀ x, inlineSize (BitVec.ofFin m) = some x → 0 < x.1 ∧ (x.2 = true → 3 ≤ x.1) := by
    have : ∀ m : Fin 256, ((inlineSize (BitVec.ofFin m)).all fun x => decide (0 < x.1 ∧ (x.2 = true → 3 ≤ x.1))) = true := by
      decide +kernel
    intro m x hx
    have := this m
    rw [hx] at this
    exact of_decide_eq_true this
  exact key op.toFin _ h

theorem inlineCode_fuel (pre : List Byte) : ∀ (fuel : Nat) (tab : List (List Byte)) (src : List Byte), src.length ≤ fuel →
    inlineCode pre fuel tab src = inlineCode pre src.length tab src := by
  intro fuel
  induction fuel using Nat.strongRecOn with
  | ind fuel ih =>
    intro tab src h
    cases src with
    | nil =>
      cases fuel with
      | zero => rfl
      | succ f => rfl
    | cons op l =>
      cases fuel with
      | zero => simp at h
      | succ f =>
        simp only [List.length_cons, inlineCode]
        cases hs : inlineSize op with
        | none => rfl
        | some x =>
          obtain ⟨n, b⟩ := x
          obtain ⟨h0, h3⟩ := inlineSize_ge op n b hs
          dsimp only
          have hd : ((op :: l).drop n).length ≤ l.length := by simp; omega
          have e : ∀ t, inlineCode pre f t ((op :: l).drop n) = inlineCode pre l.length t ((op :: l).drop n) := by
            intro t
            have hl : l.length ≤ f := by simpa using h
            rw [ih f (by omega) t _ (by omega), ← ih l.length (by omega) t _ hd]
          simp only [e]

/-- Renaming a body, with enough steps. -/
def inl (pre : List Byte) (tab : List (List Byte)) (src : List Byte) : Option (List Byte × List (List Byte)) :=
  inlineCode pre src.length tab src

theorem inl_nil (pre : List Byte) (tab : List (List Byte)) : inl pre tab [] = some ([], tab) := rfl

/-- With the bytes `a` in front. -/
def withFront (a : List Byte) (r : Option (List Byte × List (List Byte))) : Option (List Byte × List (List Byte)) :=
  r.map fun q => (a ++ q.1, q.2)

theorem withFront_append (a b : List Byte) (r : Option (List Byte × List (List Byte))) :
    withFront a (withFront b r) = withFront (a ++ b) r := by
  cases r <;> simp [withFront]

theorem inl_stop (pre : List Byte) (tab : List (List Byte)) (op : Byte) (l : List Byte) (h : inlineSize op = none) :
    inl pre tab (op :: l) = some (op :: l, tab) := by
  simp [inl, inlineCode, h]

theorem inl_plain (pre : List Byte) (tab : List (List Byte)) (op : Byte) (args l : List Byte)
    (h : inlineSize op = some (args.length + 1, false)) :
    inl pre tab (op :: (args ++ l)) = withFront (op :: args) (inl pre tab l) := by
  unfold inl
  simp only [List.length_cons, List.length_append, inlineCode, h]
  rw [if_neg (by omega)]
  simp only [Bool.false_eq_true, if_false, withFront, List.drop_succ_cons, List.take_succ_cons, List.drop_left, List.take_left]
  rw [inlineCode_fuel pre _ tab l (by omega)]

theorem inl_key (pre : List Byte) (tab : List (List Byte)) (op k0 k1 : Byte) (args l : List Byte) (k : (Byte × Byte) × List (List Byte))
    (h : inlineSize op = some (args.length + 3, true)) (hk : underKey pre tab k0 k1 = some k) :
    inl pre tab (op :: k0 :: k1 :: (args ++ l)) = withFront (op :: k.1.1 :: k.1.2 :: args) (inl pre k.2 l) := by
  unfold underKey at hk
  cases hp : prefixedName pre tab (keyNum k0 k1) with
  | none => rw [hp] at hk; cases hk
  | some name =>
    rw [hp] at hk
    simp only [Option.bind_eq_bind, Option.bind_some, Option.some.injEq] at hk
    subst hk
    have e : ∀ f, l.length ≤ f → inlineCode pre (f + 1) tab (op :: k0 :: k1 :: (args ++ l)) =
        withFront (op :: keyLo (strtabAdd tab name).2 :: keyHi (strtabAdd tab name).2 :: args) (inl pre (strtabAdd tab name).1 l) := by
      intro f hf
      simp only [inlineCode, h]
      rw [if_neg (by simp only [List.length_cons, List.length_append]; omega)]
      simp only [if_true, List.drop_succ_cons, List.drop_zero, List.take_succ_cons, List.take_zero, leWord_key, hp, withFront,
        List.drop_left, List.take_left, key_two, Nat.add_sub_cancel]
      rw [inlineCode_fuel pre f _ l hf]
      simp [inl]
    refine (?_ : inl pre tab _ = inlineCode pre (args.length + l.length + 2 + 1) tab _).trans (e _ (by omega))
    unfold inl
    simp only [List.length_cons, List.length_append]

/-- The statement for a part of a body. -/
def Renames (pre : List Byte) (tab : List (List Byte)) (code code' : List Byte) (tab' : List (List Byte)) (go : Bool) : Prop :=
  code'.length = code.length ∧ ∀ l, inl pre tab (code ++ l) = if go then withFront code' (inl pre tab' l) else some (code' ++ l, tab')

theorem Renames.nil (pre : List Byte) (tab : List (List Byte)) : Renames pre tab [] [] tab true := by
  refine ⟨rfl, fun l => ?_⟩
  simp only [List.nil_append, if_true, withFront]
  cases inl pre tab l <;> rfl

theorem Renames.seq {pre : List Byte} {tab tab1 tab2 : List (List Byte)} {a a' b b' : List Byte} {go : Bool}
    (h1 : Renames pre tab a a' tab1 true) (h2 : Renames pre tab1 b b' tab2 go) : Renames pre tab (a ++ b) (a' ++ b') tab2 go := by
  refine ⟨by simp [h1.1, h2.1], fun l => ?_⟩
  rw [List.append_assoc, h1.2, if_pos rfl, h2.2]
  cases go
  · simp [withFront]
  · simp only [if_true]
    exact withFront_append _ _ _

theorem Renames.rest {pre : List Byte} {tab tab1 : List (List Byte)} {a a' : List Byte} (b : List Byte)
    (h1 : Renames pre tab a a' tab1 false) : Renames pre tab (a ++ b) (a' ++ b) tab1 false := by
  refine ⟨by simp [h1.1], fun l => ?_⟩
  rw [List.append_assoc, h1.2]
  simp

theorem Renames.stop {pre : List Byte} {tab : List (List Byte)} (op : Byte) (l : List Byte) (h : inlineSize op = none) :
    Renames pre tab (op :: l) (op :: l) tab false := by
  refine ⟨rfl, fun x => ?_⟩
  simp only [List.cons_append, inl_stop pre tab op _ h, Bool.false_eq_true, if_false]

theorem Renames.plain {pre : List Byte} {tab : List (List Byte)} (op : Byte) (args : List Byte)
    (h : inlineSize op = some (args.length + 1, false)) : Renames pre tab (op :: args) (op :: args) tab true := by
  refine ⟨rfl, fun x => ?_⟩
  simp only [List.cons_append, inl_plain pre tab op args _ h, if_true]

theorem Renames.key {pre : List Byte} {tab : List (List Byte)} (op k0 k1 : Byte) (args : List Byte) {k : (Byte × Byte) × List (List Byte)}
    (h : inlineSize op = some (args.length + 3, true)) (hk : underKey pre tab k0 k1 = some k) :
    Renames pre tab (op :: k0 :: k1 :: args) (op :: k.1.1 :: k.1.2 :: args) k.2 true := by
  refine ⟨rfl, fun x => ?_⟩
  simp only [List.cons_append, inl_key pre tab op k0 k1 args _ k h hk, if_true]

theorem Option.bind_some_iff {α β : Type} {o : Option α} {f : α → Option β} {b : β} (h : (o >>= f) = some b) :
    ∃ a, o = some a ∧ f a = some b := by
  cases o with
  | none => cases h
  | some a => exact ⟨a, rfl, h⟩

theorem req_ok {c : Prop} [Decidable c] {u : Unit} (h : req c = some u) : c := by
  unfold req at h
  split at h
  · assumption
  · cases h

theorem iexpr_under (pre : List Byte) (e : IExpr) : ∀ (tab : List (List Byte)) (r : IExpr × List (List Byte)),
    e.under pre tab = some r → Renames pre tab e.code r.1.code r.2 true := by
  induction e with
  | lit w =>
    rintro tab r h
    simp only [IExpr.under, Option.some.injEq] at h
    subst h
    exact .plain _ _ (by simp; rfl)
  | fld k0 k1 =>
    rintro tab r h
    obtain ⟨k, hk, h⟩ := Option.bind_some_iff h
    cases h
    exact .key 0x60 k0 k1 [] rfl hk
  | un o e ih =>
    rintro tab r h
    obtain ⟨k, hk, h⟩ := Option.bind_some_iff h
    cases h
    refine (ih _ _ hk).seq (.plain _ [] ?_)
    cases o <;> rfl
  | bin o a b iha ihb =>
    rintro tab r h
    obtain ⟨k, hk, h⟩ := Option.bind_some_iff h
    obtain ⟨q, hq, h⟩ := Option.bind_some_iff h
    cases h
    refine (iha _ _ hk).seq ((ihb _ _ hq).seq (.plain _ [] ?_))
    cases o <;> rfl

theorem inlineSize_num (op : Byte) (h : 0x10 ≤ op.toNat ∧ op.toNat ≤ 0x1A) : inlineSize op = some (3, true) := by
  have key : ∀ m : Fin 256, 0x10 ≤ m.val ∧ m.val ≤ 0x1A → inlineSize (BitVec.ofFin m) = some (3, true) := by decide +kernel
  exact key op.toFin h

theorem fld_under (pre : List Byte) (f : Fld) (tab : List (List Byte)) (r : Fld × List (List Byte) × Bool)
    (h : f.under pre tab = some r) : Renames pre tab f.code r.1.code r.2.1 r.2.2 := by
  cases f <;> simp only [Fld.under] at h
  case empty => cases h; exact .nil _ _
  case scalar op k0 k1 =>
    obtain ⟨_, h0, h⟩ := Option.bind_some_iff h
    obtain ⟨k, hk, h⟩ := Option.bind_some_iff h
    cases h
    exact .key op k0 k1 [] (inlineSize_num op (req_ok h0)) hk
  case range t k0 k1 lo hi =>
    obtain ⟨k, hk, h⟩ := Option.bind_some_iff h
    cases h
    exact (Renames.key t.tag k0 k1 [] (by cases t <;> rfl) hk).seq (.stop 0x42 _ rfl)
  case enum t k0 k1 vals =>
    obtain ⟨k, hk, h⟩ := Option.bind_some_iff h
    cases h
    exact (Renames.key t.tag k0 k1 [] (by cases t <;> rfl) hk).seq (.stop 0x4B _ rfl)
  case const t k0 k1 c => cases h; exact .stop 0x40 _ rfl
  case strNull k0 k1 m0 m1 =>
    obtain ⟨k, hk, h⟩ := Option.bind_some_iff h
    cases h
    exact .key 0x30 k0 k1 [m0, m1] rfl hk
  case strPre p k0 k1 =>
    obtain ⟨k, hk, h⟩ := Option.bind_some_iff h
    cases h
    exact .key p.strOp k0 k1 [] (by cases p <;> rfl) hk
  case bitU k0 k1 n =>
    obtain ⟨k, hk, h⟩ := Option.bind_some_iff h
    cases h
    exact .key 0x20 k0 k1 [n] rfl hk
  case bitI k0 k1 n =>
    obtain ⟨k, hk, h⟩ := Option.bind_some_iff h
    cases h
    exact .key 0x21 k0 k1 [n] rfl hk
  case bitBool k0 k1 =>
    obtain ⟨k, hk, h⟩ := Option.bind_some_iff h
    cases h
    exact .key 0x22 k0 k1 [] rfl hk
  case pad n => cases h; exact .plain 0x23 [n] rfl
  case fill n => cases h; exact .plain 0x24 [n] rfl
  case setLE => cases h; exact .plain 0x01 [] rfl
  case setBE => cases h; exact .plain 0x02 [] rfl
  case nop => cases h; exact .plain 0x00 [] rfl
  case enterBit => cases h; exact .plain 0x25 [] rfl
  case exitBit => cases h; exact .plain 0x26 [] rfl
  case crc c =>
    cases h
    refine .stop _ _ ?_
    cases c.w32 <;> rfl
  all_goals cases h

/-! Switches: places and table depend on labels and lengths only. -/

/-- Labels and lengths. -/
def shape (l : List (Option Word × List Byte)) : List (Option Word × Nat) := l.map fun x => (x.1, x.2.length)

theorem shape_size {l l' : List (Option Word × List Byte)} (h : shape l' = shape l) : armsSize l' = armsSize l := by
  have e : ∀ l : List (Option Word × List Byte), armsSize l = ((shape l).map fun x => x.2 + 5).sum := by
    intro l; simp [armsSize, shape, Function.comp_def]
  rw [e, e, h]

theorem shape_at {l l' : List (Option Word × List Byte)} (h : shape l' = shape l) (n : Nat) : armsAt n l' = armsAt n l := by
  induction l generalizing l' n with
  | nil =>
    cases l' with
    | nil => rfl
    | cons => simp [shape] at h
  | cons x xs ih =>
    cases l' with
    | nil => simp [shape] at h
    | cons y ys =>
      simp only [shape, List.map_cons, List.cons.injEq, Prod.mk.injEq] at h
      simp only [armsAt, h.1.1, h.1.2]
      rw [ih (l' := ys) h.2]

/-- The cases up to a point where renaming goes on, or not. -/
theorem Renames.jump {pre : List Byte} {tab : List (List Byte)} (op : Byte) (n : Nat) (h : inlineSize op = some (5, false)) :
    Renames pre tab ([op] ++ u32le n) ([op] ++ u32le n) tab true := .plain op (u32le n) (by simpa [u32le] using h)

mutual

theorem sch_under (pre : List Byte) : ∀ (f : Sch) (tab : List (List Byte)) (r : Sch × List (List Byte) × Bool),
    f.under pre tab = some r → Renames pre tab f.code r.1.code r.2.1 r.2.2
  | .fld f, tab, r, h => by
    simp only [Sch.under] at h
    obtain ⟨k, hk, h⟩ := Option.bind_some_iff h
    cases h
    exact fld_under pre f tab k hk
  | .seq a b, tab, r, h => by
    simp only [Sch.under] at h
    obtain ⟨⟨a', t1, go⟩, hk, h⟩ := Option.bind_some_iff h
    have ha := sch_under pre a tab _ hk
    cases go
    · cases h
      exact ha.rest b.code
    · obtain ⟨q, hq, h⟩ := Option.bind_some_iff h
      cases h
      exact ha.seq (sch_under pre b _ _ hq)
  | .struct k0 k1 f, tab, r, h => by
    simp only [Sch.under] at h
    obtain ⟨k, hk, h⟩ := Option.bind_some_iff h
    obtain ⟨⟨f', t1, go⟩, hr, h⟩ := Option.bind_some_iff h
    cases h
    have hf := sch_under pre f _ _ hr
    refine (Renames.key 0x03 k0 k1 [] rfl hk).seq ?_
    cases go
    · exact hf.rest [0x04]
    · exact hf.seq (.plain 0x04 [] rfl)
  | .arrFixed k0 k1 n f, tab, r, h => by
    simp only [Sch.under] at h
    obtain ⟨k, hk, h⟩ := Option.bind_some_iff h
    obtain ⟨⟨f', t1, go⟩, hr, h⟩ := Option.bind_some_iff h
    cases h
    have hf := sch_under pre f _ _ hr
    refine (Renames.key 0x34 k0 k1 (leBytes 4 n) (by simp; rfl) hk).seq ?_
    cases go
    · exact hf.rest [0x38]
    · exact hf.seq (.plain 0x38 [] rfl)
  | .arrPre p k0 k1 f, tab, r, h => by
    simp only [Sch.under] at h
    obtain ⟨k, hk, h⟩ := Option.bind_some_iff h
    obtain ⟨⟨f', t1, go⟩, hr, h⟩ := Option.bind_some_iff h
    cases h
    have hf := sch_under pre f _ _ hr
    refine (Renames.key p.arrOp k0 k1 [] (by cases p <;> rfl) hk).seq ?_
    cases go
    · exact hf.rest [0x38]
    · exact hf.seq (.plain 0x38 [] rfl)
  | .arrDyn k0 k1 r0 r1 f, tab, r, h => by
    simp only [Sch.under] at h
    obtain ⟨k, hk, h⟩ := Option.bind_some_iff h
    obtain ⟨⟨f', t1, go⟩, hr, h⟩ := Option.bind_some_iff h
    cases h
    have hf := sch_under pre f _ _ hr
    refine (Renames.key 0x3B k0 k1 [r0, r1] rfl hk).seq ?_
    cases go
    · exact hf.rest [0x38]
    · exact hf.seq (.plain 0x38 [] rfl)
  | .opt, tab, r, h => by
    simp only [Sch.under] at h
    cases h
    exact .stop 0x4A [] rfl
  | .trans x c big t k0 k1, tab, r, h => by
    simp only [Sch.under] at h
    cases h
    exact .stop x.op _ (by cases x <;> rfl)
  | .curve c big n k0 k1, tab, r, h => by
    simp only [Sch.under] at h
    cases h
    cases c with
    | scale a b => exact .stop 0x43 _ rfl
    | poly cs => exact .stop 0x4C _ rfl
    | spline ps => exact .stop 0x4D _ rfl
  | .calc e big tag k0 k1, tab, r, h => by
    simp only [Sch.under] at h
    obtain ⟨e', he, h⟩ := Option.bind_some_iff h
    obtain ⟨k, hk, h⟩ := Option.bind_some_iff h
    cases h
    refine (iexpr_under pre e _ _ he).seq (Renames.seq (tab1 := e'.2) ?_ ((Renames.plain 0x64 [] rfl).seq
      ((Renames.key 0x78 k0 k1 [] rfl hk).seq (.plain 0x65 [tag] rfl))))
    cases big
    · exact .nil _ _
    · exact .plain 0x02 [] rfl
  | .ite c a b, tab, r, h => by
    simp only [Sch.under] at h
    obtain ⟨e, he, h⟩ := Option.bind_some_iff h
    obtain ⟨⟨a', t1, go⟩, hk, h⟩ := Option.bind_some_iff h
    have hc := iexpr_under pre c _ _ he
    have ha := sch_under pre a _ _ hk
    have hj := Renames.jump (pre := pre) (tab := e.2) 0x50 (a.code.length + 5) rfl
    cases go
    · cases h
      show Renames pre tab (iteCode c.code a.code b.code) (iteCode e.1.code a'.code b.code) t1 false
      have := hc.seq (hj.seq (ha.rest ([0x52] ++ u32le b.code.length ++ b.code)))
      unfold iteCode
      rw [ha.1]
      simpa only [List.append_assoc] using this
    · obtain ⟨⟨b', t2, go2⟩, hq, h⟩ := Option.bind_some_iff h
      cases h
      have hb := sch_under pre b _ _ hq
      show Renames pre tab (iteCode c.code a.code b.code) (iteCode e.1.code a'.code b'.code) t2 go2
      have := hc.seq (hj.seq (ha.seq ((Renames.jump (pre := pre) (tab := t1) 0x52 b.code.length rfl).seq hb)))
      unfold iteCode
      rw [ha.1, hb.1]
      simpa only [List.append_assoc] using this
  | .switch k0 k1 cs, tab, r, h => by
    simp only [Sch.under] at h
    split at h
    · next ht =>
      cases h
      show Renames pre tab (switchCode _ _) (switchCode _ _) tab false
      unfold switchCode
      simp only [ht]
      exact .stop 0x53 _ rfl
    · next ht =>
      obtain ⟨k, hk, h⟩ := Option.bind_some_iff h
      obtain ⟨⟨cs', t1, go⟩, hr, h⟩ := Option.bind_some_iff h
      obtain ⟨_, hgo, h⟩ := Option.bind_some_iff h
      have hgo : go = false := req_ok hgo
      subst hgo
      cases h
      have h51 : (tableOf (armsAt 0 cs.codes) (armsSize cs.codes)).1 = 0x51 := by
        unfold tableOf at ht ⊢
        dsimp only at ht ⊢
        split <;> rename_i hc
        · rw [if_pos hc] at ht; exact absurd rfl ht
        · rfl
      obtain ⟨hsh, hcs⟩ := cases_under pre (tableOf (armsAt 0 cs.codes) (armsSize cs.codes)).2.length cs _ _ hr
      show Renames pre tab (switchCode _ _) (switchCode _ _) t1 false
      unfold switchCode
      simp only [shape_at hsh, shape_size hsh, h51]
      rw [u16le_two, u16le_two, (Prod.mk.injEq ..).mp (lohi_keyNum k0 k1) |>.1, (Prod.mk.injEq ..).mp (lohi_keyNum k0 k1) |>.2,
        (Prod.mk.injEq ..).mp (lohi_keyNum k.1.1 k.1.2) |>.1, (Prod.mk.injEq ..).mp (lohi_keyNum k.1.1 k.1.2) |>.2]
      have := (Renames.key 0x51 k0 k1 (u32le (armsSize cs.codes)) (by simp [u32le]; rfl) hk).seq
        (hcs.rest (tableOf (armsAt 0 cs.codes) (armsSize cs.codes)).2)
      simpa only [List.append_assoc, List.cons_append, List.nil_append] using this

theorem cases_under (pre : List Byte) (t : Nat) : ∀ (cs : Cases) (tab : List (List Byte)) (r : Cases × List (List Byte) × Bool),
    cs.under pre tab = some r → shape r.1.codes = shape cs.codes ∧
      Renames pre tab (armsCode t cs.codes) (armsCode t r.1.codes) r.2.1 r.2.2
  | .nil, tab, r, h => by
    simp only [Cases.under] at h
    cases h
    exact ⟨rfl, .nil _ _⟩
  | .cons l f rest, tab, r, h => by
    simp only [Cases.under] at h
    obtain ⟨⟨f', t1, go⟩, hk, h⟩ := Option.bind_some_iff h
    have hf := sch_under pre f _ _ hk
    cases go
    · cases h
      refine ⟨?_, ?_⟩
      · simp only [Cases.codes, shape, List.map_cons, hf.1]
      · simp only [Cases.codes, armsCode]
        have := hf.rest ([0x52] ++ u32le (armsSize rest.codes + t) ++ armsCode t rest.codes)
        simpa only [List.append_assoc] using this
    · obtain ⟨⟨rest', t2, go2⟩, hq, h⟩ := Option.bind_some_iff h
      cases h
      obtain ⟨h1, h2⟩ := cases_under pre t rest _ _ hq
      refine ⟨?_, ?_⟩
      · have h1' : List.map (fun x => (x.1, x.2.length)) rest'.codes = List.map (fun x => (x.1, x.2.length)) rest.codes := h1
        simp only [Cases.codes, shape, List.map_cons, hf.1, h1']
      · simp only [Cases.codes, armsCode]
        rw [shape_size h1]
        have := hf.seq ((Renames.jump (pre := pre) (tab := t1) 0x52 (armsSize rest.codes + t) rfl).seq h2)
        simpa only [List.append_assoc] using this

end

/-- Renaming a struct body: the code of the renamed description. -/
theorem inline_under (pre : List Byte) (f : Sch) (tab : List (List Byte)) (r : Sch × List (List Byte) × Bool)
    (h : f.under pre tab = some r) : inlineCode pre f.code.length tab f.code = some (r.1.code, r.2.1) := by
  have := (sch_under pre f tab r h).2 []
  rw [List.append_nil] at this
  refine this.trans ?_
  split
  · simp [inl_nil, withFront]
  · simp

/-! ### The code of a program is the code of its description -/

theorem req_true {c : Prop} [Decidable c] (h : c) : req c = some () := if_pos h

theorem tyOf_tag {op : Byte} {t : Ty} (h : tyOf op = some t) : t.tag = op := by
  have := List.find?_some h
  simpa using this

theorem leBytes_same (n : Nat) (w : Word) : leBytes n (truncB n w) = leBytes n w := by
  apply leBytes_congr
  rw [toNat_truncB, show 2 ^ (8 * n) = 256 ^ n by rw [Nat.pow_mul], Nat.mod_mod]

theorem exprSch_gen {C : Ctx} {e : ETree} {tab : List (List Byte)} {r : IExpr × List (List Byte)} (h : exprSch e tab = some r) :
    exprGen C e tab = some (r.1.code, r.2) := by
  obtain ⟨_, h0, h⟩ := Option.bind_some_iff h
  obtain ⟨h1, _⟩ := toInt_code C.dbl e tab r.1 r.2 h
  unfold exprGen
  rw [req_true (req_ok h0), ← h1]
  rfl

@[simp] def exprPart : Option IExpr → List Byte
  | none => []
  | some e => e.code

/-- Parts, and the expression behind them. -/
def frontCode (l : List Sch) (e : Option IExpr) : List Byte := l.flatMap Sch.code ++ exprPart e

theorem deco_gen {C : SCtx} {x : Deco} {a : Dec} {g : Gen} {r : List Sch × Option IExpr × Dec × Gen} (h : x.sch C a g = some r) :
    x.gen C.ctx a g = some (frontCode r.1 r.2.1, r.2.2) := by
  unfold Deco.sch at h
  split at h
  · next e =>
    obtain ⟨q, hq, h⟩ := Option.bind_some_iff h
    cases h
    simp only [Deco.gen, exprSch_gen hq, frontCode, exprPart]
    rfl
  · obtain ⟨q, hq, h⟩ := Option.bind_some_iff h
    simp only [Option.some.injEq] at h
    rw [hq]
    subst h
    cases x
    case expr => simp_all
    case fill v _ =>
      simp only [Deco.gen] at hq
      obtain ⟨_, h0, hq⟩ := Option.bind_some_iff hq
      cases v <;> (cases hq; rfl)
    case crc =>
      simp only [Deco.gen] at hq
      split at hq
      · cases hq; rfl
      · split at hq
        · cases hq; rfl
        · cases hq
    all_goals
      simp only [Deco.gen] at hq
      first
      | (cases hq; rfl)
      | (obtain ⟨_, h0, hq⟩ := Option.bind_some_iff hq; cases hq; rfl)

theorem decos_gen {C : SCtx} {l : List Deco} : ∀ {a : Dec} {g : Gen} {r : List Sch × Option IExpr × Dec × Gen},
    decosSch C l a g = some r → decosGen C.ctx l a g = some (frontCode r.1 r.2.1, r.2.2) := by
  induction l with
  | nil =>
    intro a g r h
    cases h
    rfl
  | cons x xs ih =>
    intro a g r h
    simp only [decosSch] at h
    obtain ⟨p, hp, h⟩ := Option.bind_some_iff h
    obtain ⟨q, hq, h⟩ := Option.bind_some_iff h
    simp only [decosGen, deco_gen hp, ih hq, Option.bind_eq_bind, Option.bind_some]
    obtain ⟨p1, p2, p3⟩ := p
    cases p2 with
    | none =>
      cases h
      simp [frontCode]
    | some e =>
      obtain ⟨_, h0, h⟩ := Option.bind_some_iff h
      have h0 := req_ok h0
      cases h
      obtain ⟨q1, q2, q3⟩ := q
      simp only [List.isEmpty_iff, Option.isNone_iff_eq_none] at h0
      obtain ⟨rfl, rfl⟩ := h0
      simp [frontCode]

theorem range_gen {C : Ctx} {t : NTy} {ty : Ty} {lo hi : Tok} {b : Word × Word} (hty : tyOf t.op = some ty) (hsz : ty.size = t.size)
    (h : intBounds t lo hi = some b) :
    rangeGen C t (some (lo, hi)) = some (rangeCode ty (truncB ty.size b.1) (truncB ty.size b.2)) := by
  unfold rangeCode
  rw [leBytes_same, leBytes_same, tyOf_tag hty, hsz]
  unfold intBounds at h
  unfold rangeGen
  dsimp only
  split at h
  · next hk =>
    rw [hk]
    dsimp only
    split at h
    · next hs =>
      rw [if_pos hs]
      obtain ⟨_, h0, h⟩ := Option.bind_some_iff h
      rw [req_true (req_ok h0)]
      cases h
      rfl
    · next hs =>
      rw [if_neg hs]
      obtain ⟨a, ha, h⟩ := Option.bind_some_iff h
      obtain ⟨b, hb, h⟩ := Option.bind_some_iff h
      obtain ⟨_, h0, h⟩ := Option.bind_some_iff h
      cases h
      simp only [ha, hb, Option.bind_eq_bind, Option.bind_some, req_true (req_ok h0), List.append_assoc]
  · next hk =>
    rw [hk]
    dsimp only
    obtain ⟨a, ha, h⟩ := Option.bind_some_iff h
    obtain ⟨b, hb, h⟩ := Option.bind_some_iff h
    obtain ⟨_, h0, h⟩ := Option.bind_some_iff h
    cases h
    simp only [ha, hb, Option.bind_eq_bind, Option.bind_some, req_true (req_ok h0), List.append_assoc]
  · cases h

theorem number_gen {C : SCtx} {d : FieldD} {a : Dec} {key : Nat} {t : NTy} {g : Gen} {r : Sch × Gen}
    (h : numberSch C d a key t g = some r) : numberCode C.ctx d a key t g = some (r.1.code, r.2) := by
  unfold numberSch at h
  unfold numberCode
  split at h
  · next w hw =>
    rw [hw]
    dsimp only
    obtain ⟨_, h0, h⟩ := Option.bind_some_iff h
    obtain ⟨f, hf, h⟩ := Option.bind_some_iff h
    rw [req_true (req_ok h0)]
    cases h
    unfold bitSch at hf
    unfold NTy.bitOp
    split at hf
    · next hk => rw [hk]; cases hf; simp [Sch.code, Fld.code, u16le_two]; rfl
    · next hk => rw [hk]; cases hf; simp [Sch.code, Fld.code, u16le_two]; rfl
    · next hk =>
      rw [hk]
      split at hf
      · next h1 => cases hf; subst h1; simp [Sch.code, Fld.code, u16le_two]; rfl
      · cases hf
    · cases hf
  · next hw =>
    rw [hw]
    dsimp only
    split at h
    · next hc =>
      rw [if_pos hc]
      split at h
      · next h16 =>
        rw [if_pos h16]
        cases h
        have e : ∀ n : Nat, leBytes 2 (BitVec.ofNat 64 (n % 65536)) = u16le n := by
          intro n
          rw [u16le_two, key_two]
          unfold keyLo keyHi
          congr 1
          · apply BitVec.eq_of_toNat_eq; simp
          · congr 1
            apply BitVec.eq_of_toNat_eq; simp; omega
        simp [Sch.code, Fld.code, crcCode, CrcPar.size, e]
      · next h16 =>
        rw [if_neg h16]
        split at h
        · next h32 =>
          rw [if_pos h32]
          cases h
          simp [Sch.code, Fld.code, crcCode, CrcPar.size, u32le]
        · cases h
    · next hc =>
      rw [if_neg hc]
      split at h
      · cases h
      · next he =>
        rw [if_neg he]
        split at h
        · next hr =>
          cases h
          rw [hr]
          simp [rangeGen, Sch.code, Fld.code, u16le_two]
        · next lo hi hr =>
          obtain ⟨ty, hty, h⟩ := Option.bind_some_iff h
          obtain ⟨_, h0, h⟩ := Option.bind_some_iff h
          obtain ⟨b, hb, h⟩ := Option.bind_some_iff h
          cases h
          rw [hr, range_gen hty (req_ok h0) hb, ← tyOf_tag hty]
          simp [Sch.code, Fld.code, u16le_two]

theorem lookup_code (l : List (List Byte × Sch)) (k : List Byte) :
    (l.map fun x => (x.1, x.2.code)).lookup k = (l.lookup k).map Sch.code := by
  induction l with
  | nil => rfl
  | cons x xs ih =>
    rw [List.map_cons, List.lookup_cons, List.lookup_cons]
    cases k == x.1
    · exact ih
    · rfl

theorem value_gen {C : SCtx} {d : FieldD} {a : Dec} {key : Nat} {g : Gen} {r : Sch × Gen}
    (h : valueSch C d a key g = some r) : valueCode C.ctx d a key g = some (r.1.code, r.2) := by
  unfold valueSch at h
  unfold valueCode
  have hst : C.ctx.structs.lookup d.type = (C.structs.lookup d.type).map Sch.code := lookup_code _ _
  split at h
  · next v hv =>
    rw [hv]
    dsimp only
    obtain ⟨t, ht, h⟩ := Option.bind_some_iff h
    obtain ⟨_, h0, h⟩ := Option.bind_some_iff h
    obtain ⟨ty, hty, h⟩ := Option.bind_some_iff h
    obtain ⟨_, h1, h⟩ := Option.bind_some_iff h
    have h0 := req_ok h0
    have h1 := req_ok h1
    cases h
    rw [ht, h0.2.2]
    simp only [Option.bind_eq_bind, Option.bind_some, req_true (⟨h0.1, h0.2.1⟩ : t.isInt = true ∧ t.fits v = true), rangeGen]
    simp [Sch.code, Fld.code, constCode, leBytes_same, tyOf_tag hty, u16le_two, h1]
  · next hv =>
    rw [hv]
    dsimp only
    obtain ⟨_, h0, h⟩ := Option.bind_some_iff h
    have h0 := req_ok h0
    simp only [Option.bind_eq_bind, req_true (show C.ctx.self ≠ some d.type from h0), Option.bind_some]
    split at h
    · next hs =>
      rw [if_pos hs]
      obtain ⟨_, h1, h⟩ := Option.bind_some_iff h
      have h1 := req_ok h1
      rw [req_true (⟨by rw [hst, Option.isNone_iff_eq_none.mp h1.1]; rfl, h1.2⟩)]
      unfold stringCode
      split at h
      · next ty hm =>
        obtain ⟨p, hp, h⟩ := Option.bind_some_iff h
        obtain ⟨q, hq, h⟩ := Option.bind_some_iff h
        cases h
        rw [hm]
        have : q.strOp = p.2 := by simpa using List.find?_some hq
        simp [hp, Sch.code, Fld.code, u16le_two, this]
      · next u m hm =>
        obtain ⟨_, h2, h⟩ := Option.bind_some_iff h
        cases h
        rw [hm]
        simp only [Option.bind_eq_bind, req_true (req_ok h2), Option.bind_some]
        cases m <;> simp [Sch.code, Fld.code, strNullCode, u16le_two]
    · next hs =>
      rw [if_neg hs]
      split at h
      · next f hf =>
        rw [hst, hf]
        obtain ⟨_, h1, h⟩ := Option.bind_some_iff h
        obtain ⟨q, hq, h⟩ := Option.bind_some_iff h
        cases h
        simp only [Option.map_some, req_true (req_ok h1), Option.bind_some, inline_under _ f _ _ hq]
        simp [Sch.code, u16le_two]
      · next hf =>
        rw [hst, hf]
        dsimp only [Option.map_none]
        split at h
        · next e he =>
          rw [he]
          obtain ⟨_, h1, h⟩ := Option.bind_some_iff h
          obtain ⟨t, ht, h⟩ := Option.bind_some_iff h
          obtain ⟨ty, hty, h⟩ := Option.bind_some_iff h
          obtain ⟨_, h2, h⟩ := Option.bind_some_iff h
          have h1 := req_ok h1
          have h2 := req_ok h2
          cases h
          simp only [req_true (⟨h1.1, h1.2.1, h1.2.2.1⟩ : a.trans = .none ∧ a.crc = false ∧ d.width = none), Option.bind_some, ht,
            h1.2.2.2, rangeGen]
          simp [Sch.code, Fld.code, enumCode, tyOf_tag hty, u16le_two, key_two, List.flatMap_map, leBytes_same, h2]
        · next he =>
          rw [he]
          obtain ⟨t, ht, h⟩ := Option.bind_some_iff h
          simp only [ht, Option.bind_some, number_gen h]

theorem elem_gen {d : FieldD} {a : Dec} {key : Nat} {f f' : Sch} (h : elemSch d a key f = some f') :
    ∃ head, arrayHead d a key = some head ∧ f'.code = head ++ f.code ++ (if d.dims = .none then [] else [0x38]) := by
  unfold elemSch at h
  unfold arrayHead
  split at h
  · next hd =>
    cases h
    exact ⟨[], by rw [hd], by simp [hd]⟩
  · next hd =>
    have hd' : d.dims ≠ .none := by simpa using hd
    rw [if_neg hd']
    split at h
    · next ty hm =>
      obtain ⟨p, hp, h⟩ := Option.bind_some_iff h
      obtain ⟨q, hq, h⟩ := Option.bind_some_iff h
      cases h
      have hq : q.arrOp = p.1 := by simpa using List.find?_some hq
      refine ⟨p.1 :: u16le key, ?_, by simp [Sch.code, u16le_two, hq]⟩
      rw [hm]
      cases hdd : d.dims
      · exact absurd hdd hd'
      · simp [hp]
      · simp [hp]
    · next u m hm =>
      rw [hm]
      split at h
      · cases h
      · next he =>
        split at h
        · next r hr =>
          cases h
          refine ⟨0x3B :: (u16le key ++ u16le r), ?_, by simp [Sch.code, u16le_two]⟩
          cases hdd : d.dims
          · exact absurd hdd hd'
          · simp [he, hr]
          · simp [he, hr]
        · next hr =>
          split at h
          · next n hn =>
            cases h
            refine ⟨0x34 :: (u16le key ++ u32le n.toNat), ?_, by simp [Sch.code, u16le_two, u32le]⟩
            cases hdd : d.dims
            · exact absurd hdd hd'
            · simp [he, hr, hn]
            · simp [he, hr, hn]
          · cases h

theorem plain_gen {C : SCtx} {d : FieldD} {a : Dec} {t : NTy} (h : plainNumber C d a = some t) :
    d.dims = .none ∧ ∀ (key : Nat) (g : Gen), valueCode C.ctx d a key g =
      if a.expr then some ([0x64, 0x78] ++ u16le key ++ [0x65, t.op], g) else some ([t.op] ++ u16le key, g) := by
  obtain ⟨_, h0, h⟩ := Option.bind_some_iff h
  obtain ⟨t', ht, h⟩ := Option.bind_some_iff h
  obtain ⟨_, h1, h⟩ := Option.bind_some_iff h
  have h0 := req_ok h0
  have h1 := req_ok h1
  cases h
  refine ⟨h0.1, fun key g => ?_⟩
  have hst : C.ctx.structs.lookup d.type = none := by
    refine (lookup_code _ _).trans ?_
    rw [Option.isNone_iff_eq_none.mp h0.2.2.2.2.1]
    rfl
  unfold valueCode
  rw [h0.2.1]
  simp only [Option.bind_eq_bind, req_true (show C.ctx.self ≠ some d.type from h0.2.2.1), Option.bind_some]
  rw [if_neg h0.2.2.2.1, hst, Option.isNone_iff_eq_none.mp h0.2.2.2.2.2]
  dsimp only
  rw [ht, Option.bind_some]
  unfold numberCode
  rw [h1.1]
  simp only [h1.2.1, h1.2.2, Bool.false_eq_true, if_false, rangeGen]
  split <;> simp

theorem numOf_tag {op : Byte} {n : Num} (h : numOf op = some n) : n.tag = op := by
  unfold numOf at h
  split at h
  · next e => cases h; exact e.symm
  split at h
  · next e => cases h; exact e.symm
  cases ht : tyOf op with
  | none => rw [ht] at h; cases h
  | some t => rw [ht] at h; cases h; exact tyOf_tag ht

theorem trans_gen {a : Dec} {key : Nat} {n : Num} {f : Sch} (h : transSch a key n = some f) :
    f.code = transPart a ++ (if a.be then [0x02] else []) ++ [n.tag, keyLo key, keyHi key] := by
  unfold transSch at h
  unfold transPart
  split at h
  all_goals first
    | (rename_i ht; rw [ht]; cases h; simp [Sch.code, Curve.code, ITrans.op, Num.tag])
    | cases h

theorem body_gen {C : SCtx} {d : FieldD} {e : Option IExpr} {a : Dec} {g : Gen} {r : List Sch × Gen}
    (h : d.bodySch C e a g = some r) :
    ∃ c, d.body C.ctx a g = some (c, r.2) ∧ exprPart e ++ c = r.1.flatMap Sch.code := by
  unfold FieldD.bodySch at h
  unfold FieldD.body
  obtain ⟨_, h0, h⟩ := Option.bind_some_iff h
  obtain ⟨_, h1, h⟩ := Option.bind_some_iff h
  simp only [Option.bind_eq_bind, req_true (req_ok h0), req_true (req_ok h1), Option.bind_some]
  have hle : (if a.be then [Sch.fld .setLE] else []).flatMap Sch.code = if a.be then [(0x01 : Byte)] else [] := by
    cases a.be <;> rfl
  have hbe : (if a.be then [Sch.fld .setBE] else []).flatMap Sch.code = if a.be then [(0x02 : Byte)] else [] := by
    cases a.be <;> rfl
  have hat : d.dims = .none → d.attrs a = a := by
    intro hd
    unfold FieldD.attrs
    rw [hd]
  cases e with
  | some e =>
    obtain ⟨_, h2, h⟩ := Option.bind_some_iff h
    obtain ⟨t, ht, h⟩ := Option.bind_some_iff h
    have h2 := req_ok h2
    cases h
    obtain ⟨hd, hv⟩ := plain_gen ht
    rw [hat hd, hv, if_pos h2.2]
    refine ⟨_, by rw [arrayHead, hd]; rfl, ?_⟩
    simp only [List.flatMap_cons, hle, if_pos hd, transPart, h2.1, Sch.code, u16le_two]
    simp
  | none =>
    obtain ⟨_, h2, h⟩ := Option.bind_some_iff h
    have h2 := req_ok h2
    split at h
    · next ht =>
      obtain ⟨v, hv, h⟩ := Option.bind_some_iff h
      obtain ⟨f, hf, h⟩ := Option.bind_some_iff h
      cases h
      obtain ⟨head, e1, e2⟩ := elem_gen hf
      refine ⟨_, by rw [e1, value_gen hv]; rfl, ?_⟩
      simp only [List.flatMap_cons, List.flatMap_append, hle, hbe, e2, transPart, ht]
      simp
    · next ht =>
      obtain ⟨t, hp, h⟩ := Option.bind_some_iff h
      obtain ⟨ty, hty, h⟩ := Option.bind_some_iff h
      obtain ⟨f, hf, h⟩ := Option.bind_some_iff h
      cases h
      obtain ⟨hd, hv⟩ := plain_gen hp
      rw [hat hd, hv, h2]
      refine ⟨_, by rw [arrayHead, hd]; rfl, ?_⟩
      simp only [List.flatMap_cons, hle, trans_gen hf, if_pos hd, numOf_tag hty, u16le_two]
      simp

theorem field_gen {C : SCtx} {d : FieldD} {g : Gen} {r : Sch × Gen} (h : d.sch C g = some r) :
    d.gen C.ctx g = some (r.1.code, r.2) := by
  obtain ⟨p, hp, h⟩ := Option.bind_some_iff h
  obtain ⟨q, hq, h⟩ := Option.bind_some_iff h
  cases h
  obtain ⟨c, e1, e2⟩ := body_gen hq
  unfold FieldD.gen
  simp only [decos_gen hp, Option.bind_eq_bind, Option.bind_some, e1, all_code, List.flatMap_append, ← e2, frontCode]
  simp

theorem lone_gen {C : SCtx} {decs : List Deco} {g : Gen} {r : Sch × Gen} (h : loneSch C decs g = some r) :
    ∃ p, decosGen C.ctx decs {} g = some p ∧ p.2.1.alone = true ∧ (p.1, p.2.2) = (r.1.code, r.2) := by
  obtain ⟨p, hp, h⟩ := Option.bind_some_iff h
  obtain ⟨_, h0, h⟩ := Option.bind_some_iff h
  have h0 := req_ok h0
  cases h
  refine ⟨_, decos_gen hp, h0.1, ?_⟩
  rw [Option.isNone_iff_eq_none.mp h0.2]
  simp [frontCode, all_code]

mutual

theorem bodySch_gen {C : SCtx} : ∀ (b : Body) (g : Gen) (r : Sch × Gen), b.sch C g = some r → b.gen C.ctx g = some (r.1.code, r.2)
  | .done, g, r, h => by
    simp only [Body.sch] at h
    cases h
    rfl
  | .tail decs, g, r, h => by
    simp only [Body.sch] at h
    obtain ⟨p, h1, h2, h3⟩ := lone_gen h
    simp only [Body.gen, h1, Option.bind_eq_bind, Option.bind_some, req_true h2, h3]
  | .doc t rest, g, r, h => by
    simp only [Body.sch] at h
    simp only [Body.gen]
    exact bodySch_gen rest g r h
  | .stmt s rest, g, r, h => by
    simp only [Body.sch] at h
    obtain ⟨p, hp, h⟩ := Option.bind_some_iff h
    obtain ⟨q, hq, h⟩ := Option.bind_some_iff h
    cases h
    simp only [Body.gen, stmtSch_gen s g p hp, Option.bind_eq_bind, Option.bind_some, bodySch_gen rest _ _ hq, Sch.code]

theorem stmtSch_gen {C : SCtx} : ∀ (s : Stmt) (g : Gen) (r : Sch × Gen), s.sch C g = some r → s.gen C.ctx g = some (r.1.code, r.2)
  | .field d, g, r, h => by
    simp only [Stmt.sch] at h
    simp only [Stmt.gen]
    exact field_gen h
  | .lone decs, g, r, h => by
    simp only [Stmt.sch] at h
    obtain ⟨p, h1, h2, h3⟩ := lone_gen h
    simp only [Stmt.gen, h1, Option.bind_eq_bind, Option.bind_some, req_true h2, h3]
  | .ite c thn els, g, r, h => by
    simp only [Stmt.sch] at h
    obtain ⟨e, he, h⟩ := Option.bind_some_iff h
    obtain ⟨p, hp, h⟩ := Option.bind_some_iff h
    obtain ⟨q, hq, h⟩ := Option.bind_some_iff h
    cases h
    simp only [Stmt.gen, exprSch_gen he, Option.bind_eq_bind, Option.bind_some, bodySch_gen thn _ _ hp, elsSch_gen els _ _ hq, Sch.code]
  | .switch key arms, g, r, h => by
    simp only [Stmt.sch] at h
    obtain ⟨p, hp, h⟩ := Option.bind_some_iff h
    cases h
    simp only [Stmt.gen, Option.bind_eq_bind, armsSch_gen arms _ _ _ hp, Option.bind_some, Sch.code,
      keyNum_lohi _ (strtabAdd_lt g.tab key)]

theorem elsSch_gen {C : SCtx} : ∀ (s : Els) (g : Gen) (r : Sch × Gen), s.sch C g = some r → s.gen C.ctx g = some (r.1.code, r.2)
  | .none, g, r, h => by
    simp only [Els.sch] at h
    cases h
    rfl
  | .block b, g, r, h => by
    simp only [Els.sch] at h
    simp only [Els.gen]
    exact bodySch_gen b g r h
  | .elif c thn els, g, r, h => by
    simp only [Els.sch] at h
    obtain ⟨e, he, h⟩ := Option.bind_some_iff h
    obtain ⟨p, hp, h⟩ := Option.bind_some_iff h
    obtain ⟨q, hq, h⟩ := Option.bind_some_iff h
    cases h
    simp only [Els.gen, exprSch_gen he, Option.bind_eq_bind, Option.bind_some, bodySch_gen thn _ _ hp, elsSch_gen els _ _ hq, Sch.code]

theorem armsSch_gen {C : SCtx} : ∀ (s : Arms) (seen : List (Option Word)) (g : Gen) (r : Cases × Gen), s.sch C seen g = some r →
    s.gen C.ctx seen g = some (r.1.codes, r.2)
  | .done, seen, g, r, h => by
    simp only [Arms.sch] at h
    cases h
    rfl
  | .block l b rest, seen, g, r, h => by
    simp only [Arms.sch] at h
    obtain ⟨v, hv, h⟩ := Option.bind_some_iff h
    obtain ⟨_, h0, h⟩ := Option.bind_some_iff h
    obtain ⟨p, hp, h⟩ := Option.bind_some_iff h
    obtain ⟨q, hq, h⟩ := Option.bind_some_iff h
    cases h
    simp only [Arms.gen, hv, Option.bind_eq_bind, Option.bind_some, req_true (req_ok h0), bodySch_gen b _ _ hp,
      armsSch_gen rest _ _ _ hq, Cases.codes]
  | .stmt l s rest, seen, g, r, h => by
    simp only [Arms.sch] at h
    obtain ⟨v, hv, h⟩ := Option.bind_some_iff h
    obtain ⟨_, h0, h⟩ := Option.bind_some_iff h
    obtain ⟨p, hp, h⟩ := Option.bind_some_iff h
    obtain ⟨q, hq, h⟩ := Option.bind_some_iff h
    cases h
    simp only [Arms.gen, hv, Option.bind_eq_bind, Option.bind_some, req_true (req_ok h0), stmtSch_gen s _ _ hp,
      armsSch_gen rest _ _ _ hq, Cases.codes]

end

theorem all_append (a b : List Sch) : (Sch.all (a ++ b)).code = (Sch.all a).code ++ (Sch.all b).code := by
  simp [all_code]

theorem topDec_gen (x : TopDec) (t : STop) : x.gen t.top = (x.sch t).top := by
  cases x <;> simp only [TopDec.gen, TopDec.sch, STop.top, all_append] <;> rfl

theorem topDecs_gen (l : List TopDec) : ∀ (t : STop), l.foldl (fun t x => x.gen t) t.top = (l.foldl (fun t x => x.sch t) t).top := by
  induction l with
  | nil => intro t; rfl
  | cons x xs ih => intro t; simp only [List.foldl_cons, topDec_gen, ih]

theorem decl_gen {dbl : List Byte → Word} {fl : FloatOps} {x : Decl} {t t' : STop} (h : x.sch dbl fl t = some t') :
    x.gen dbl fl t.top = some t'.top := by
  have hctx : ∀ self b, (t.ctx dbl fl self b).ctx = t.top.ctx dbl fl self b := fun _ _ => rfl
  cases x with
  | enum name ty vs =>
    simp only [Decl.sch] at h
    obtain ⟨_, h0, h⟩ := Option.bind_some_iff h
    obtain ⟨op, h1, h⟩ := Option.bind_some_iff h
    obtain ⟨l, h2, h⟩ := Option.bind_some_iff h
    cases h
    simp only [Decl.gen, req_true (req_ok h0), h1, h2, Option.bind_eq_bind, Option.bind_some]
    rfl
  | struct name b =>
    simp only [Decl.sch] at h
    obtain ⟨_, h0, h⟩ := Option.bind_some_iff h
    obtain ⟨p, h1, h⟩ := Option.bind_some_iff h
    obtain ⟨_, h2, h⟩ := Option.bind_some_iff h
    cases h
    have hb := bodySch_gen b _ _ h1
    rw [hctx] at hb
    have hu : t.top.unaligned = t.unaligned := rfl
    have ht : t.top.tab = t.tab := rfl
    simp only [Decl.gen, req_true (req_ok h0), Option.bind_eq_bind, Option.bind_some, hu, ht, hb, req_true (req_ok h2)]
    simp only [STop.top, List.map_append, List.map_cons, List.map_nil]
    cases t.unaligned <;> simp [all_code, Sch.code, Fld.code]
  | packet name b =>
    simp only [Decl.sch] at h
    obtain ⟨_, h0, h⟩ := Option.bind_some_iff h
    obtain ⟨p, h1, h⟩ := Option.bind_some_iff h
    cases h
    have hb := bodySch_gen b _ _ h1
    rw [hctx] at hb
    have ht : t.top.tab = t.tab := rfl
    simp only [Decl.gen, Option.bind_eq_bind, req_true (show t.top.free name = true ∧ t.top.packets = 0 from req_ok h0),
      Option.bind_some, ht, hb]
    simp [STop.top, all_code, Sch.code, Fld.code, u16le_two]
  | packetOf name s =>
    simp only [Decl.sch] at h
    obtain ⟨_, h0, h⟩ := Option.bind_some_iff h
    obtain ⟨p, h1, h⟩ := Option.bind_some_iff h
    cases h
    have ht : t.top.tab = t.tab := rfl
    have hs : t.top.structs.lookup s = some p.code := (lookup_code _ _).trans (by rw [h1]; rfl)
    simp only [Decl.gen, Option.bind_eq_bind, req_true (show t.top.free name = true ∧ t.top.packets = 0 from req_ok h0),
      Option.bind_some, ht, hs]
    simp [STop.top, all_code, Sch.code, Fld.code, u16le_two]
  | empty =>
    simp only [Decl.sch] at h
    cases h
    rfl

theorem prog_gen {dbl : List Byte → Word} {fl : FloatOps} : ∀ {prog : List Item} {t t' : STop}, progSchFrom dbl fl prog t = some t' →
    progGen dbl fl prog t.top = some t'.top := by
  intro prog
  induction prog with
  | nil => intro t t' h; cases h; rfl
  | cons x xs ih =>
    intro t t' h
    cases x with
    | doc _ => exact ih h
    | decl decs d =>
      simp only [progSchFrom] at h
      obtain ⟨p, h1, h⟩ := Option.bind_some_iff h
      simp only [progGen, topDecs_gen, decl_gen h1, Option.bind_eq_bind, Option.bind_some]
      exact ih h

/-- The byte code the specification of C59 gives for a program is the byte code of its description. -/
theorem progSch_code {dbl : List Byte → Word} {fl : FloatOps} {prog : List Item} {tab : List (List Byte)} {f : Sch}
    (h : progSch dbl fl prog = some (tab, f)) : progCode dbl fl prog = some (tab, f.code) := by
  obtain ⟨t, h1, h⟩ := Option.bind_some_iff h
  obtain ⟨_, h2, h⟩ := Option.bind_some_iff h
  cases h
  have := prog_gen h1
  unfold progCode
  rw [show ({} : Top) = ({} : STop).top from rfl, this]
  simp only [Option.bind_eq_bind, Option.bind_some, req_true (show t.top.packets = 1 from req_ok h2)]
  rfl

end Cnd
