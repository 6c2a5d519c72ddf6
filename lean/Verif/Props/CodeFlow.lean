import Verif.CodeFlow
import Verif.Props.CodeTop
import Verif.Props.Term
import Verif.Props.Image
/-
  C82: control in compiled programs.
-/
set_option linter.unusedVariables false
set_option linter.unusedSimpArgs false

namespace Cnd
theorem opArgs_more (o : Op) (r x : List Byte) (n : Nat) (h : opArgs o r = some n) (hn : n ≤ r.length) : opArgs o (r ++ x) = some n := by
  have tk : ∀ m : Nat, m ≤ r.length → (r ++ x).take m = r.take m := fun m hm => List.take_append_of_le_length hm
  have dt : ∀ k m : Nat, k + m ≤ r.length → ((r ++ x).drop k).take m = (r.drop k).take m := by
    intro k m hm
    rw [List.drop_append_of_le_length (by omega), List.take_append_of_le_length (by simp; omega)]
  cases o <;> simp only [opArgs] at h ⊢ <;> try exact h
  case constCheck =>
    obtain ⟨t, h1, h2⟩ := Option.map_eq_some_iff.mp h
    rw [dt 2 1 (by omega)]; exact h
  case constWrite =>
    cases ht : tyTag (leWord (r.take 1)) with
    | none => rw [ht] at h; cases h
    | some t =>
      rw [ht] at h
      dsimp only at h
      split at h
      · cases h
      · rename_i hs
        injection h with h
        rw [tk 1 (by omega), ht]
        simp only [hs, Bool.false_eq_true, if_false, Option.some.injEq]
        exact h
  case rangeCheck =>
    have hk : 1 ≤ n := by
      cases ht : tyTag (leWord (r.take 1)) with
      | some t => rw [ht] at h; injection h with h; omega
      | none =>
        rw [ht] at h
        dsimp only at h
        split at h
        · injection h with h; omega
        · split at h
          · injection h with h; omega
          · cases h
    rw [tk 1 (by omega)]; exact h
  case enumCheck =>
    obtain ⟨t, h1, h2⟩ := Option.map_eq_some_iff.mp h
    rw [tk 1 (by omega), dt 1 2 (by omega)]; exact h
  case transPoly =>
    injection h with h
    rw [tk 1 (by omega), h]
  case transSpline =>
    injection h with h
    rw [tk 1 (by omega), h]

theorem vmLen_more {i : List Byte} {n : Nat} (hv : vmLen i = some n) (x : List Byte) : vmLen (i ++ x) = some n := by
  cases i with
  | nil => cases hv
  | cons op r =>
    simp only [vmLen, List.cons_append] at hv ⊢
    cases ho : opArgs (decodeOp op) r with
    | none => rw [ho] at hv; cases hv
    | some k =>
      rw [ho] at hv
      dsimp only at hv
      split at hv
      · rename_i hk
        rw [opArgs_more _ _ x _ ho hk]
        dsimp only
        rw [if_pos (by simp; omega)]
        exact hv
      · cases hv

theorem vmLen_at {prog i : List Byte} {p n : Nat} (h : At prog p i) (hv : vmLen i = some n) : vmLen (prog.drop p) = some n := by
  obtain ⟨rest, hr⟩ := h
  rw [hr]
  exact vmLen_more hv rest

/-! ### One instruction and its place -/

/-- What is known of an instruction whose successors are to lie in `D`. -/
structure OkAt (prog : List Byte) (D : Nat → Prop) (p : Nat) : Prop where
  whole : (∃ n, vmLen (prog.drop p) = some n) ∨ Dud prog p
  step : ∀ n op, vmLen (prog.drop p) = some n → prog[p]? = some op → (decodeOp op).leaves = false → D (p + n)
  fits : tableFits prog p
  jumps : ∀ o ∈ jumps prog p, ∃ t, o = some t ∧ p < t ∧ D t

theorem OkAt.mono {prog : List Byte} {D D' : Nat → Prop} {p : Nat} (h : OkAt prog D p) (hd : ∀ t, D t → D' t) : OkAt prog D' p :=
  ⟨h.whole, fun n op h1 h2 h3 => hd _ (h.step n op h1 h2 h3), h.fits, fun o ho => let ⟨t, a, b, c⟩ := h.jumps o ho; ⟨t, a, b, hd _ c⟩⟩

/-- A set of instructions between `lo` and `hi`, the bytes of each its own. -/
structure Part (prog : List Byte) (lo hi : Nat) (D B : Nat → Prop) : Prop where
  le : lo ≤ hi
  inn : ∀ p, B p → lo ≤ p ∧ p < hi
  ok : ∀ p, B p → OkAt prog D p
  fit : ∀ p x, B p → owns prog p x → lo ≤ x ∧ x < hi
  apart : ∀ p x, B p → B x → p ≠ x → ¬ owns prog p x

theorem Part.mono {prog : List Byte} {lo hi : Nat} {D D' B : Nat → Prop} (h : Part prog lo hi D B) (hd : ∀ t, D t → D' t) :
    Part prog lo hi D' B := ⟨h.le, h.inn, fun p hp => (h.ok p hp).mono hd, h.fit, h.apart⟩

theorem Part.none {prog : List Byte} {lo : Nat} {D : Nat → Prop} : Part prog lo lo D (fun _ => False) :=
  ⟨Nat.le_refl _, fun _ h => h.elim, fun _ h => h.elim, fun _ _ h => h.elim, fun _ _ h => h.elim⟩

theorem Part.union {prog : List Byte} {lo mid hi : Nat} {D A B : Nat → Prop} (h : Part prog lo mid D A) (g : Part prog mid hi D B) :
    Part prog lo hi D (fun t => A t ∨ B t) := by
  have hl := h.le
  have gl := g.le
  refine ⟨by omega, ?_, ?_, ?_, ?_⟩
  · rintro p (hp | hp)
    · have := h.inn p hp; omega
    · have := g.inn p hp; omega
  · rintro p (hp | hp)
    · exact h.ok p hp
    · exact g.ok p hp
  · rintro p x (hp | hp) ho
    · have := h.fit p x hp ho; omega
    · have := g.fit p x hp ho; omega
  · rintro p x (hp | hp) (hx | hx) hne ho
    · exact h.apart p x hp hx hne ho
    · have := h.fit p x hp ho; have := g.inn x hx; omega
    · have := g.fit p x hp ho; have := h.inn x hx; omega
    · exact g.apart p x hp hx hne ho

/-- The instructions of `code`, wherever it stands. -/
def CSeg (prog : List Byte) (lo : Nat) (code : List Byte) : Prop :=
  ∃ B : Nat → Prop, (code = [] ∨ B lo) ∧ Part prog lo (lo + code.length) (fun t => B t ∨ t = lo + code.length) B

theorem CSeg.append {prog : List Byte} {lo : Nat} {a b : List Byte} (ha : CSeg prog lo a) (hb : CSeg prog (lo + a.length) b) :
    CSeg prog lo (a ++ b) := by
  obtain ⟨A, ha1, ha2⟩ := ha
  obtain ⟨B, hb1, hb2⟩ := hb
  have hlen : lo + (a ++ b).length = lo + a.length + b.length := by simp; omega
  have hmid : B (lo + a.length) ∨ lo + a.length = lo + (a ++ b).length := by
    rcases hb1 with rfl | hb1
    · right; simp
    · left; exact hb1
  refine ⟨fun t => A t ∨ B t, ?_, ?_⟩
  · rcases ha1 with rfl | ha1
    · rcases hb1 with rfl | hb1
      · left; rfl
      · right; right; simpa using hb1
    · right; left; exact ha1
  · rw [hlen] at hmid ⊢
    refine (ha2.mono ?_).union (hb2.mono ?_)
    · rintro t (h | rfl)
      · exact Or.inl (Or.inl h)
      · rcases hmid with h | h
        · exact Or.inl (Or.inr h)
        · exact Or.inr h
    · rintro t (h | rfl)
      · exact Or.inl (Or.inr h)
      · exact Or.inr rfl

theorem seg_nil {prog : List Byte} {lo : Nat} : CSeg prog lo [] := ⟨_, Or.inl rfl, Part.none⟩

/-- No switch, no jump. -/
def Op.still (o : Op) : Bool := !(o.jumps)

theorem jumps_still {prog : List Byte} {p : Nat} {op : Byte} (ho : prog[p]? = some op) (h : (decodeOp op).jumps = false) :
    jumps prog p = [] ∧ tableFits prog p ∧ ∀ x, ¬ inTable prog p x := by
  unfold jumps tableFits inTable
  rw [ho]
  cases hd : decodeOp op <;> simp [hd, Op.jumps] at h ⊢

/-- A single instruction without jumps. -/
theorem seg_one {prog i : List Byte} {lo : Nat} {op : Byte} {r : List Byte} (hat : At prog lo i) (hi : i = op :: r)
    (hv : vmLen i = some i.length) (hj : (decodeOp op).jumps = false) : CSeg prog lo i := by
  have ho : prog[lo]? = some op := (hi ▸ hat : At prog lo (op :: r)).head
  have hv' := vmLen_at hat hv
  obtain ⟨j1, j2, j3⟩ := jumps_still ho hj
  have hpos : 0 < i.length := by rw [hi]; simp
  refine ⟨fun t => t = lo, Or.inr rfl, by omega, ?_, ?_, ?_, ?_⟩
  · rintro p rfl; omega
  · rintro p rfl
    refine ⟨Or.inl ⟨_, hv'⟩, ?_, j2, ?_⟩
    · intro n op' h1 _ _
      rw [hv'] at h1; injection h1 with h1
      right; omega
    · rw [j1]; intro o ho; cases ho
  · rintro p x rfl (⟨n, h1, h2, h3⟩ | h)
    · rw [hv'] at h1; injection h1 with h1; omega
    · exact absurd h (j3 x)
  · rintro p x rfl rfl hne; exact absurd rfl hne

theorem seg_dud {prog : List Byte} {lo : Nat} (hat : At prog lo [0x42, 0x1A]) : CSeg prog lo [0x42, 0x1A] := by
  have ho : prog[lo]? = some 0x42 := hat.head
  have hv' : vmLen (prog.drop lo) = none := by
    obtain ⟨rest, hr⟩ := hat
    have e : opArgs .rangeCheck (0x1A :: rest) = none := by
      have e0 : leWord ((0x1A :: rest).take 1) = 0x1A := by
        rw [List.take_succ_cons, List.take_zero]; decide +kernel
      simp only [opArgs, e0]
      rfl
    rw [hr]
    show (match opArgs .rangeCheck (0x1A :: rest) with | none => none | some n => if n ≤ (0x1A :: rest).length then some (n + 1) else none) = none
    rw [e]
  obtain ⟨j1, j2, j3⟩ := jumps_still ho (by decide)
  refine ⟨fun t => t = lo, Or.inr rfl, by omega, ?_, ?_, ?_, ?_⟩
  · rintro p rfl; simp
  · rintro p rfl
    refine ⟨Or.inr hat, ?_, j2, ?_⟩
    · intro n op' h1 _ _
      rw [hv'] at h1; cases h1
    · rw [j1]; intro o ho; cases ho
  · rintro p x rfl (⟨n, h1, h2, h3⟩ | h)
    · rw [hv'] at h1; cases h1
    · exact absurd h (j3 x)
  · rintro p x rfl rfl hne; exact absurd rfl hne

theorem fetch_u32 {prog : List Byte} {p n : Nat} (h : At prog p (u32le n)) (hn : n < 2 ^ 32) :
    (fetch prog p 4).1.toNat = n := by
  rw [h.fetch (n := 4) (by simp) (by omega)]
  show (leWord (leBytes 4 (BitVec.ofNat 64 n))).toNat = n
  rw [leWord_leBytes_lt (by omega) (by rw [BitVec.toNat_ofNat, Nat.mod_eq_of_lt (by omega)]; omega)]
  rw [BitVec.toNat_ofNat, Nat.mod_eq_of_lt (by omega)]

theorem branch_at {len base : Nat} {off : Word} (h : off.toNat < 2 ^ 31) (hl : base + off.toNat ≤ len) :
    branch len base off = some (base + off.toNat) := by
  have e : (off.setWidth 32).toInt = (off.toNat : Int) := by
    rw [BitVec.toInt_eq_toNat_cond, BitVec.toNat_setWidth, Nat.mod_eq_of_lt (by omega), if_pos (by omega)]
  unfold branch
  simp only [e]
  rw [if_neg (by omega)]
  simp only [Int.toNat_natCast]
  rw [if_neg (by omega)]

/-- The first five bytes of a jump at `p` over `n` bytes. -/
theorem jump_at {prog : List Byte} {p n : Nat} {op : Byte} (hat : At prog p (op :: u32le n)) (hop : op = 0x50 ∨ op = 0x52)
    (hn : p + 5 + n ≤ prog.length) (hl : prog.length < 2 ^ 31) :
    vmLen (prog.drop p) = some 5 ∧ jumps prog p = [some (p + 5 + n)] ∧ tableFits prog p ∧ ∀ x, ¬ inTable prog p x := by
  have ho : prog[p]? = some op := hat.head
  have hf := fetch_u32 hat.tail (by omega)
  have hb := branch_at (len := prog.length) (base := p + 5) (off := (fetch prog (p + 1) 4).1) (by rw [hf]; omega) (by rw [hf]; omega)
  rw [hf] at hb
  have hv : vmLen (prog.drop p) = some 5 := by
    refine vmLen_at hat ?_
    rcases hop with rfl | rfl <;> rfl
  refine ⟨hv, ?_, ?_, ?_⟩
  · unfold jumps
    rw [ho]
    rcases hop with rfl | rfl
    · simp only [Option.map_some, show decodeOp 0x50 = .jumpIfNot from rfl, hb]
    · simp only [Option.map_some, show decodeOp 0x52 = .jump from rfl, hb]
  · unfold tableFits
    rw [ho]
    rcases hop with rfl | rfl
    · simp only [Option.map_some, show decodeOp 0x50 = .jumpIfNot from rfl]
    · simp only [Option.map_some, show decodeOp 0x52 = .jump from rfl]
  · unfold inTable
    rw [ho]
    rcases hop with rfl | rfl
    · simp only [Option.map_some, show decodeOp 0x50 = .jumpIfNot from rfl]; exact fun _ h => h
    · simp only [Option.map_some, show decodeOp 0x52 = .jump from rfl]; exact fun _ h => h

theorem part_jump {prog : List Byte} {p n : Nat} {D : Nat → Prop} {op : Byte} (hat : At prog p (op :: u32le n)) (hop : op = 0x50 ∨ op = 0x52)
    (hn : p + 5 + n ≤ prog.length) (hl : prog.length < 2 ^ 31) (hd : D (p + 5 + n)) (hs : op = 0x50 → D (p + 5)) :
    Part prog p (p + 5) D (fun t => t = p) := by
  obtain ⟨h1, h2, h3, h4⟩ := jump_at hat hop hn hl
  have ho : prog[p]? = some op := hat.head
  refine ⟨by omega, ?_, ?_, ?_, ?_⟩
  · rintro _ rfl; omega
  · rintro _ rfl
    refine ⟨Or.inl ⟨_, h1⟩, ?_, h3, ?_⟩
    · intro m op' e1 e2 e3
      rw [h1] at e1; injection e1 with e1; subst e1
      rw [ho] at e2; injection e2 with e2; subst e2
      rcases hop with rfl | rfl
      · exact hs rfl
      · exact absurd e3 (by decide)
    · rw [h2]; intro o ho
      rw [List.mem_singleton.mp ho]
      exact ⟨_, rfl, by omega, hd⟩
  · rintro _ x rfl (⟨m, e1, e2, e3⟩ | h)
    · rw [h1] at e1; injection e1 with e1; omega
    · exact absurd h (h4 x)
  · rintro p x rfl rfl hne; exact absurd rfl hne

theorem At.more {prog : List Byte} {p : Nat} {a b c : List Byte} (h : At prog p (a ++ b)) (hc : ∃ d, b = c ++ d) : At prog p (a ++ c) := by
  obtain ⟨d, rfl⟩ := hc
  rw [← List.append_assoc] at h
  exact h.left

theorem At.len {prog : List Byte} {p : Nat} {a : List Byte} (h : At prog p a) (hp : p ≤ prog.length) : p + a.length ≤ prog.length := by
  by_cases ha : a = []
  · subst ha; simpa using hp
  · exact h.le ha

/-! ### Conditionals -/

theorem seg_cond {prog : List Byte} {lo : Nat} {a b : List Byte} (hl : prog.length < 2 ^ 31)
    (hat : At prog lo (0x50 :: (u32le (a.length + 5) ++ (a ++ 0x52 :: (u32le b.length ++ b)))))
    (ha : CSeg prog (lo + 5) a) (hb : CSeg prog (lo + 5 + a.length + 5) b) :
    CSeg prog lo (0x50 :: (u32le (a.length + 5) ++ (a ++ 0x52 :: (u32le b.length ++ b)))) := by
  have hle := hat.le (by simp)
  simp only [List.length_cons, List.length_append, u32le_length] at hle
  have h1 : At prog lo (0x50 :: u32le (a.length + 5)) := by
    have : At prog lo ((0x50 :: u32le (a.length + 5)) ++ (a ++ 0x52 :: (u32le b.length ++ b))) := hat
    exact this.left
  have h2 : At prog (lo + 5 + a.length) (0x52 :: u32le b.length) := by
    have h : At prog lo ((0x50 :: u32le (a.length + 5)) ++ (a ++ 0x52 :: (u32le b.length ++ b))) := hat
    have h := h.right
    simp only [List.length_cons, u32le_length] at h
    have h := h.right
    have h : At prog (lo + 5 + a.length) ((0x52 :: u32le b.length) ++ b) := h
    exact h.left
  obtain ⟨A, ha1, ha2⟩ := ha
  obtain ⟨B, hb1, hb2⟩ := hb
  have hlen : lo + (0x50 :: (u32le (a.length + 5) ++ (a ++ 0x52 :: (u32le b.length ++ b)))).length = lo + 5 + a.length + 5 + b.length := by
    simp; omega
  have hA : A (lo + 5) ∨ lo + 5 = lo + 5 + a.length := by
    rcases ha1 with rfl | h
    · right; simp
    · exact Or.inl h
  have hB : B (lo + 5 + a.length + 5) ∨ lo + 5 + a.length + 5 = lo + 5 + a.length + 5 + b.length := by
    rcases hb1 with rfl | h
    · right; simp
    · exact Or.inl h
  unfold CSeg
  rw [hlen]
  refine ⟨fun t => t = lo ∨ (A t ∨ (t = lo + 5 + a.length ∨ B t)), Or.inr (Or.inl rfl), ?_⟩
  refine Part.union (mid := lo + 5) (part_jump h1 (Or.inl rfl) (by omega) hl ?_ ?_) ?_
  · rw [show lo + 5 + (a.length + 5) = lo + 5 + a.length + 5 by omega]
    rcases hB with h | h
    · exact Or.inl (Or.inr (Or.inr (Or.inr h)))
    · exact Or.inr h
  · intro _
    rcases hA with h | h
    · exact Or.inl (Or.inr (Or.inl h))
    · exact Or.inl (Or.inr (Or.inr (Or.inl h)))
  refine (ha2.mono ?_).union (Part.union (mid := lo + 5 + a.length + 5) (part_jump h2 (Or.inr rfl) (by omega) hl ?_ ?_) (hb2.mono ?_))
  · rintro t (h | h)
    · exact Or.inl (Or.inr (Or.inl h))
    · exact Or.inl (Or.inr (Or.inr (Or.inl h)))
  · exact Or.inr rfl
  · intro h; exact absurd h (by decide)
  · rintro t (h | h)
    · exact Or.inl (Or.inr (Or.inr (Or.inr h)))
    · exact Or.inr h

/-! ### Switches -/

/-- The cases of a switch whose table has `tl` bytes. -/
theorem part_cases {prog : List Byte} {tl : Nat} (hl : prog.length < 2 ^ 31) (ps : List (List Byte)) :
    ∀ (lo k0 : Nat), (∀ p ∈ ps, ∀ lo, At prog lo p → CSeg prog lo p) → At prog lo (caseCode tl ps) →
      lo + (caseCode tl ps).length + tl ≤ prog.length →
      ∃ B, Part prog lo (lo + (caseCode tl ps).length) (fun t => B t ∨ t = lo + (caseCode tl ps).length + tl) B ∧
        ∀ k ∈ caseStarts k0 ps, k0 ≤ k ∧ B (lo + (k - k0)) := by
  induction ps with
  | nil => intro lo k0 _ _ _; exact ⟨_, Part.none, fun k hk => by cases hk⟩
  | cons p ps ih =>
    intro lo k0 hp hat hle
    simp only [caseCode] at hat hle ⊢
    have e : (p ++ 0x52 :: (u32le ((caseCode tl ps).length + tl) ++ caseCode tl ps)).length = p.length + 5 + (caseCode tl ps).length := by
      simp; omega
    rw [e] at hle ⊢
    have h2 : At prog (lo + p.length) ((0x52 :: u32le ((caseCode tl ps).length + tl)) ++ caseCode tl ps) := hat.right
    have h3 := h2.right
    simp only [List.length_cons, u32le_length] at h3
    obtain ⟨B, hb1, hb2⟩ := ih (lo + p.length + 5) (k0 + p.length + 5) (fun q hq => hp q (List.mem_cons_of_mem _ hq)) h3 (by omega)
    obtain ⟨A, ha1, ha2⟩ := hp p List.mem_cons_self lo hat.left
    have hA : A lo ∨ lo = lo + p.length := by
      rcases ha1 with rfl | h
      · right; simp
      · exact Or.inl h
    have hend : lo + (p.length + 5 + (caseCode tl ps).length) = lo + p.length + 5 + (caseCode tl ps).length := by omega
    rw [hend]
    refine ⟨fun t => A t ∨ (t = lo + p.length ∨ B t), (ha2.mono ?_).union (Part.union (mid := lo + p.length + 5)
      (part_jump h2.left (Or.inr rfl) (by omega) hl ?_ ?_) (hb1.mono ?_)), ?_⟩
    · rintro t (h | h)
      · exact Or.inl (Or.inl h)
      · exact Or.inl (Or.inr (Or.inl h))
    · exact Or.inr (by omega)
    · intro h; exact absurd h (by decide)
    · rintro t (h | h)
      · exact Or.inl (Or.inr (Or.inr h))
      · exact Or.inr h
    · intro k hk
      simp only [caseStarts, List.mem_cons] at hk
      rcases hk with rfl | hk
      · refine ⟨Nat.le_refl _, ?_⟩
        rw [Nat.sub_self, Nat.add_zero]
        rcases hA with h | h
        · exact Or.inl h
        · exact Or.inr (Or.inl h)
      · obtain ⟨g1, g2⟩ := hb2 k hk
        refine ⟨by omega, Or.inr (Or.inr ?_)⟩
        rw [show lo + (k - k0) = lo + p.length + 5 + (k - (k0 + p.length + 5)) by omega]
        exact g2

theorem part_switch {prog : List Byte} {lo tbl hi : Nat} {op : Byte} {D B : Nat → Prop} (ho : prog[lo]? = some op)
    (hop : (decodeOp op).leaves = true) (hv : vmLen (prog.drop lo) = some 7) (hb : Part prog (lo + 7) tbl D B) (hh : tbl ≤ hi)
    (hf : tableFits prog lo) (ht : ∀ x, inTable prog lo x → tbl ≤ x ∧ x < hi)
    (hj : ∀ o ∈ jumps prog lo, ∃ t, o = some t ∧ lo < t ∧ D t) : Part prog lo hi D (fun t => t = lo ∨ B t) := by
  have hl := hb.le
  refine ⟨by omega, ?_, ?_, ?_, ?_⟩
  · rintro p (rfl | hp)
    · omega
    · have := hb.inn p hp; omega
  · rintro p (rfl | hp)
    · refine ⟨Or.inl ⟨_, hv⟩, ?_, hf, hj⟩
      intro n op' _ e2 e3
      rw [ho] at e2; injection e2 with e2; subst e2
      rw [hop] at e3; cases e3
    · exact hb.ok p hp
  · rintro p x (rfl | hp) h
    · rcases h with ⟨n, h1, h2, h3⟩ | h
      · rw [hv] at h1; injection h1 with h1; omega
      · have := ht x h; omega
    · have := hb.fit p x hp h; omega
  · rintro p x (rfl | hp) (rfl | hx) hne h
    · exact hne rfl
    · have := hb.inn x hx
      rcases h with ⟨n, h1, h2, h3⟩ | h
      · rw [hv] at h1; injection h1 with h1; omega
      · have := ht x h; omega
    · have := hb.fit p x hp h; omega
    · exact hb.apart p x hp hx hne h

theorem at_entries {prog : List Byte} (cs : List (Word × Nat)) : ∀ (q : Nat),
    At prog q (cs.map fun c => leBytes 8 c.1 ++ u32le c.2).flatten → ∀ i c, cs[i]? = some c → At prog (q + 12 * i + 8) (u32le c.2) := by
  induction cs with
  | nil => intro q _ i c h; simp at h
  | cons c cs ih =>
    intro q hat i d h
    simp only [List.map_cons, List.flatten_cons] at hat
    cases i with
    | zero =>
      simp only [List.getElem?_cons_zero, Option.some.injEq] at h
      subst h
      simpa using hat.left.right
    | succ i =>
      simp only [List.getElem?_cons_succ] at h
      have h1 := hat.right
      simp only [List.length_append, leBytes_length, u32le_length] at h1
      have := ih _ h1 i d h
      rw [show q + 12 * (i + 1) + 8 = q + (8 + 4) + 12 * i + 8 by omega]
      exact this

theorem at_places {prog : List Byte} (ts : List Nat) : ∀ (q : Nat),
    At prog q (ts.map u32le).flatten → ∀ i t, ts[i]? = some t → At prog (q + 4 * i) (u32le t) := by
  induction ts with
  | nil => intro q _ i c h; simp at h
  | cons c ts ih =>
    intro q hat i d h
    simp only [List.map_cons, List.flatten_cons] at hat
    cases i with
    | zero =>
      simp only [List.getElem?_cons_zero, Option.some.injEq] at h
      subst h
      simpa using hat.left
    | succ i =>
      simp only [List.getElem?_cons_succ] at h
      have h1 := hat.right
      simp only [u32le_length] at h1
      have := ih _ h1 i d h
      rw [show q + 4 * (i + 1) = q + 4 + 4 * i by omega]
      exact this

theorem entries_length (cs : List (Word × Nat)) : (cs.map fun c => leBytes 8 c.1 ++ u32le c.2).flatten.length = 12 * cs.length := by
  induction cs with
  | nil => rfl
  | cons c cs ih => simp [ih] at *; omega

theorem places_length (ts : List Nat) : (ts.map u32le).flatten.length = 4 * ts.length := by
  induction ts with
  | nil => rfl
  | cons c cs ih => simp [ih] at *; omega

theorem fetch_word {prog : List Byte} {p : Nat} {w : Word} (h : At prog p (leBytes 8 w)) : (fetch prog p 8).1 = w := by
  rw [h.fetch (n := 8) (by simp) (by omega)]
  show leWord (leBytes 8 w) = w
  exact leWord_leBytes_lt (by omega) (by omega)

theorem fetch_u16 {prog : List Byte} {p n : Nat} (h : At prog p (u16le n)) : (fetch prog p 2).1.toNat ≤ n := by
  rw [h.fetch (n := 2) (by simp [u16le]) (by omega)]
  show (leWord (leBytes 2 (BitVec.ofNat 64 n))).toNat ≤ n
  rw [leWord_leBytes _ _ (by omega)]
  unfold truncB
  simp only [BitVec.toNat_setWidth, BitVec.toNat_ofNat]
  have := Nat.mod_le n (2 ^ 64)
  have h2 := Nat.mod_le (n % 2 ^ 64) (2 ^ (8 * 2))
  have h3 := Nat.mod_le (n % 2 ^ 64 % 2 ^ (8 * 2)) (2 ^ 64)
  omega

/-- Head of a switch instruction. -/
theorem switch_head {prog : List Byte} {lo n : Nat} {op k0 k1 : Byte} {r : List Byte} (hat : At prog lo (op :: k0 :: k1 :: (u32le n ++ r)))
    (hop : op = 0x51 ∨ op = 0x53) (hn : n < 2 ^ 32) :
    prog[lo]? = some op ∧ vmLen (prog.drop lo) = some 7 ∧ (decodeOp op).leaves = true ∧ (fetch prog (lo + 3) 4).1.toNat = n ∧ At prog (lo + 7) r := by
  have h1 : At prog lo ((op :: k0 :: k1 :: u32le n) ++ r) := hat
  refine ⟨hat.head, ?_, ?_, ?_, ?_⟩
  · refine vmLen_at h1.left ?_
    rcases hop with rfl | rfl <;> rfl
  · rcases hop with rfl | rfl <;> rfl
  · have := hat.tail.tail.tail.left
    exact fetch_u32 this hn
  · have := h1.right
    simpa using this

theorem seg_sparse {prog : List Byte} {lo : Nat} {k0 k1 : Byte} {ps : List (List Byte)} {d : Nat} {cs : List (Word × Nat)} (hl : prog.length < 2 ^ 31)
    (hps : ∀ p ∈ ps, ∀ lo, At prog lo p → CSeg prog lo p) (hcs : ∀ c ∈ cs, c.2 ∈ caseStarts 0 ps)
    (hd : d ∈ caseStarts 0 ps ∨ d = (caseCode (sparse d cs).length ps).length + (sparse d cs).length)
    (hat : At prog lo (0x51 :: k0 :: k1 :: (u32le (caseCode (sparse d cs).length ps).length ++
        (caseCode (sparse d cs).length ps ++ sparse d cs)))) :
    CSeg prog lo (0x51 :: k0 :: k1 :: (u32le (caseCode (sparse d cs).length ps).length ++
        (caseCode (sparse d cs).length ps ++ sparse d cs))) := by
  have hle := hat.le (by simp)
  generalize hcl : (caseCode (sparse d cs).length ps).length = cl at *
  simp only [List.length_cons, List.length_append, u32le_length, hcl] at hle
  have hsl := sparse_length d cs
  obtain ⟨ho, hv, hop, hfe, hat7⟩ := switch_head hat (Or.inl rfl) (by omega)
  have hatT := hat7.right
  rw [hcl] at hatT
  obtain ⟨B, hB, hst⟩ := part_cases hl ps (lo + 7) 0 hps hat7.left (by rw [hcl]; omega)
  rw [hcl] at hB
  have hlen : lo + (0x51 :: k0 :: k1 :: (u32le cl ++ (caseCode (sparse d cs).length ps ++ sparse d cs))).length =
      lo + 7 + cl + (sparse d cs).length := by
    simp [hcl]; omega
  unfold CSeg
  rw [hlen]
  have hdest : ∀ k, k ∈ caseStarts 0 ps ∨ k = cl + (sparse d cs).length → k < 2 ^ 31 ∧ lo + 7 + k ≤ prog.length ∧
      (B (lo + 7 + k) ∨ lo + 7 + k = lo + 7 + cl + (sparse d cs).length) := by
    rintro k (hk | rfl)
    · have h := (hst k hk).2
      rw [Nat.sub_zero] at h
      have := (hB.inn _ h).2
      exact ⟨by omega, by omega, Or.inl h⟩
    · exact ⟨by omega, by omega, Or.inr (by omega)⟩
  unfold sparse at hatT
  have hcnt := fetch_u16 hatT.left
  have hr2 := hatT.right
  simp only [u16le, leBytes_length] at hr2
  have hdf := fetch_u32 hr2.left (by have := (hdest d hd).1; omega)
  have hr6 := hr2.right
  simp only [u32le_length] at hr6
  refine ⟨fun t => t = lo ∨ B t, Or.inr (Or.inl rfl), part_switch ho hop hv (hB.mono ?_) (by omega) ?_ ?_ ?_⟩
  · rintro t (h | h)
    · exact Or.inl (Or.inr h)
    · exact Or.inr h
  · unfold tableFits
    simp only [ho, Option.map_some, show decodeOp 0x51 = .switch from rfl, hfe]
    right; omega
  · unfold inTable
    simp only [ho, Option.map_some, show decodeOp 0x51 = .switch from rfl, hfe]
    intro x hx; omega
  · unfold jumps
    simp only [ho, Option.map_some, show decodeOp 0x51 = .switch from rfl, hfe]
    intro o ho
    obtain ⟨off, h1, rfl⟩ := List.mem_map.mp ho
    have hoff : off.toNat ∈ caseStarts 0 ps ∨ off.toNat = cl + (sparse d cs).length := by
      unfold switchOffs at h1
      rcases List.mem_cons.mp h1 with rfl | h1
      · rw [hdf]; exact hd
      · obtain ⟨i, hi, rfl⟩ := List.mem_map.mp h1
        have hi := List.mem_range.mp hi
        have hi' : i < cs.length := by omega
        have hci := List.getElem?_eq_getElem hi'
        have hm := List.getElem_mem hi'
        have := at_entries cs _ hr6 i _ hci
        have hc := hcs _ hm
        rw [show lo + 7 + cl + 6 + 12 * i + 8 = lo + 7 + cl + 2 + 4 + 12 * i + 8 by omega,
          fetch_u32 this (by have := (hdest _ (Or.inl hc)).1; omega)]
        exact Or.inl hc
    obtain ⟨g1, g2, g3⟩ := hdest _ hoff
    refine ⟨_, branch_at g1 g2, by omega, ?_⟩
    rcases g3 with h | h
    · exact Or.inl (Or.inr h)
    · exact Or.inr h

theorem seg_dense {prog : List Byte} {lo : Nat} {k0 k1 : Byte} {ps : List (List Byte)} {d : Nat} {mn mx : Word} {ts : List Nat} (hl : prog.length < 2 ^ 31)
    (hps : ∀ p ∈ ps, ∀ lo, At prog lo p → CSeg prog lo p) (hmn : mn.toNat ≤ mx.toNat) (htl : ts.length = mx.toNat - mn.toNat + 1)
    (hts : ∀ t ∈ ts, t ∈ caseStarts 0 ps ∨ t = d)
    (hd : d ∈ caseStarts 0 ps ∨ d = (caseCode (dense d mn mx ts).length ps).length + (dense d mn mx ts).length)
    (hat : At prog lo (0x53 :: k0 :: k1 :: (u32le (caseCode (dense d mn mx ts).length ps).length ++
        (caseCode (dense d mn mx ts).length ps ++ dense d mn mx ts)))) :
    CSeg prog lo (0x53 :: k0 :: k1 :: (u32le (caseCode (dense d mn mx ts).length ps).length ++
        (caseCode (dense d mn mx ts).length ps ++ dense d mn mx ts))) := by
  have hle := hat.le (by simp)
  generalize hcl : (caseCode (dense d mn mx ts).length ps).length = cl at *
  simp only [List.length_cons, List.length_append, u32le_length, hcl] at hle
  have hsl := dense_length d mn mx ts
  obtain ⟨ho, hv, hop, hfe, hat7⟩ := switch_head hat (Or.inr rfl) (by omega)
  have hatT := hat7.right
  rw [hcl] at hatT
  obtain ⟨B, hB, hst⟩ := part_cases hl ps (lo + 7) 0 hps hat7.left (by rw [hcl]; omega)
  rw [hcl] at hB
  have hlen : lo + (0x53 :: k0 :: k1 :: (u32le cl ++ (caseCode (dense d mn mx ts).length ps ++ dense d mn mx ts))).length =
      lo + 7 + cl + (dense d mn mx ts).length := by
    simp [hcl]; omega
  unfold CSeg
  rw [hlen]
  have hdest : ∀ k, k ∈ caseStarts 0 ps ∨ k = cl + (dense d mn mx ts).length → k < 2 ^ 31 ∧ lo + 7 + k ≤ prog.length ∧
      (B (lo + 7 + k) ∨ lo + 7 + k = lo + 7 + cl + (dense d mn mx ts).length) := by
    rintro k (hk | rfl)
    · have h := (hst k hk).2
      rw [Nat.sub_zero] at h
      have := (hB.inn _ h).2
      exact ⟨by omega, by omega, Or.inl h⟩
    · exact ⟨by omega, by omega, Or.inr (by omega)⟩
  unfold dense at hatT
  have hf1 := fetch_word hatT.left
  have hr8 := hatT.right
  simp only [leBytes_length] at hr8
  have hf2 := fetch_word hr8.left
  have hr16 := hr8.right
  simp only [leBytes_length] at hr16
  have hdf := fetch_u32 hr16.left (by have := (hdest d hd).1; omega)
  have hr20 := hr16.right
  simp only [u32le_length] at hr20
  refine ⟨fun t => t = lo ∨ B t, Or.inr (Or.inl rfl), part_switch ho hop hv (hB.mono ?_) (by omega) ?_ ?_ ?_⟩
  · rintro t (h | h)
    · exact Or.inl (Or.inr h)
    · exact Or.inr h
  · unfold tableFits
    simp only [ho, Option.map_some, show decodeOp 0x53 = .switchTable from rfl, hfe, hf1, hf2]
    refine ⟨Or.inr ?_, by omega⟩
    omega
  · unfold inTable
    simp only [ho, Option.map_some, show decodeOp 0x53 = .switchTable from rfl, hfe, hf1, hf2]
    intro x hx; omega
  · unfold jumps
    simp only [ho, Option.map_some, show decodeOp 0x53 = .switchTable from rfl, hfe]
    intro o ho
    obtain ⟨off, h1, rfl⟩ := List.mem_map.mp ho
    have hoff : off.toNat ∈ caseStarts 0 ps ∨ off.toNat = cl + (dense d mn mx ts).length := by
      unfold tableOffs at h1
      rw [hf1, hf2] at h1
      rcases List.mem_cons.mp h1 with rfl | h1
      · rw [show lo + 7 + cl + 16 = lo + 7 + cl + 8 + 8 by omega, hdf]; exact hd
      · obtain ⟨i, hi, rfl⟩ := List.mem_map.mp h1
        have hi := List.mem_range.mp hi
        have hi' : i < ts.length := by omega
        have hci := List.getElem?_eq_getElem hi'
        have hm := List.getElem_mem hi'
        have := at_places ts _ hr20 i _ hci
        have hc : ts[i] ∈ caseStarts 0 ps ∨ ts[i] = cl + (dense d mn mx ts).length := by
          rcases hts _ hm with h | h
          · exact Or.inl h
          · rw [h]; exact hd
        rw [show lo + 7 + cl + 20 + 4 * i = lo + 7 + cl + 8 + 8 + 4 + 4 * i by omega,
          fetch_u32 this (by have := (hdest _ hc).1; omega)]
        exact hc
    obtain ⟨g1, g2, g3⟩ := hdest _ hoff
    refine ⟨_, branch_at g1 g2, by omega, ?_⟩
    rcases g3 with h | h
    · exact Or.inl (Or.inr h)
    · exact Or.inr h

theorem plain_jumps {op : Byte} (h : (decodeOp op).plain = true ∨ op = 0x63) : (decodeOp op).jumps = false := by
  rcases h with h | rfl
  · cases hd : decodeOp op <;> simp_all [Op.plain, Op.jumps]
  · decide

theorem arr_jumps {op : Byte} (h : (decodeOp op).arr = true) : (decodeOp op).jumps = false := by
  cases hd : decodeOp op <;> simp_all [Op.arr, Op.jumps]

theorem seg_blk {prog : List Byte} (hl : prog.length < 2 ^ 31) {w : Bool} {code : List Byte} (h : Blk false w code) :
    ∀ lo, At prog lo code → CSeg prog lo code := by
  induction h with
  | nil => intro lo _; exact seg_nil
  | seq _ _ iha ihb => intro lo hat; exact (iha lo hat.left).append (ihb _ hat.right)
  | instr h =>
    intro lo hat
    obtain ⟨hv, op, r, he, hp⟩ := h
    exact seg_one hat he hv (plain_jumps hp)
  | dud => intro lo hat; exact seg_dud hat
  | loop ho _ iha =>
    intro lo hat
    obtain ⟨hv, op, r, he, hp⟩ := ho
    exact (seg_one hat.left he hv (arr_jumps hp)).append ((iha _ hat.right.left).append
      (seg_one (op := 0x38) (r := []) hat.right.right rfl rfl rfl))
  | stray => intro lo hat; exact seg_one (op := 0x38) (r := []) hat rfl rfl rfl
  | @cond _ a b _ _ iha ihb =>
    intro lo hat
    have h : At prog lo ((0x50 :: u32le (a.length + 5)) ++ (a ++ ((0x52 :: u32le b.length) ++ b))) := hat
    have h1 := h.right
    simp only [List.length_cons, u32le_length] at h1
    have h2 := h1.right.right
    simp only [List.length_cons, u32le_length] at h2
    exact seg_cond hl hat (iha _ h1.left) (ihb _ h2)
  | switch _ hcs hd ih => intro lo hat; exact seg_sparse hl ih hcs hd hat
  | table _ hmn htl hts hd ih => intro lo hat; exact seg_dense hl ih hmn htl hts hd hat
  | flag hq => cases hq
  | big hq => cases hq
  | inlined hq => cases hq

theorem seg_heads {prog : List Byte} {code : List Byte} (h : Heads code) : ∀ lo, At prog lo code → CSeg prog lo code := by
  induction h with
  | nil => intro lo _; exact seg_nil
  | @version c n _ ih => intro lo hat; exact (ih lo hat.left).append (seg_one (op := 0x05) (r := [n]) hat.right rfl rfl rfl)
  | little _ ih => intro lo hat; exact (ih lo hat.left).append (seg_one (op := 0x01) (r := []) hat.right rfl rfl rfl)
  | big _ ih => intro lo hat; exact (ih lo hat.left).append (seg_one (op := 0x02) (r := []) hat.right rfl rfl rfl)

theorem seg_whole {prog : List Byte} (hl : prog.length < 2 ^ 31) (h : Whole false prog) : CSeg prog 0 prog := by
  have hat : At prog 0 prog := ⟨[], by simp⟩
  obtain ⟨a, k0, k1, b, c, he, ha, hb, hc⟩ := h
  rw [show a ++ 0x07 :: k0 :: k1 :: (b ++ c) = a ++ ([0x07, k0, k1] ++ (b ++ c)) from rfl] at he
  have hat' : At prog 0 (a ++ ([0x07, k0, k1] ++ (b ++ c))) := by
    rw [← he]; exact hat
  have := (seg_heads ha 0 hat'.left).append ((seg_one (op := 0x07) (r := [k0, k1]) hat'.right.left rfl rfl rfl).append
    ((seg_blk hl hb _ hat'.right.right.left).append (seg_heads hc _ hat'.right.right.right)))
  rw [← he] at this
  exact this

/-! ### The theorems -/

/-- **C82**, the program alone. In a program of the shape of C80, control can come only to complete instructions (or to one the VM
refuses, or to the end), every jump and every entry of a table leads forward and stays inside the program, and so does every table. -/
theorem C82_static (prog : List Byte) (hl : prog.length < 2 ^ 31) (hw : Whole false prog) (p : Nat) (hp : Flow prog p) :
    p = prog.length ∨ (((∃ n, vmLen (prog.drop p) = some n ∧ p + n ≤ prog.length) ∨ Dud prog p) ∧ tableFits prog p ∧
      ∀ o ∈ jumps prog p, ∃ t, o = some t ∧ p < t ∧ t ≤ prog.length) := by
  obtain ⟨B, h1, h2⟩ := seg_whole hl hw
  rw [Nat.zero_add] at h2
  have key : B p ∨ p = prog.length := by
    induction hp with
    | start =>
      rcases h1 with h | h
      · right; rw [h]; rfl
      · exact Or.inl h
    | @next p n op _ ho hv hlv ih =>
      rcases ih with h | h
      · exact (h2.ok p h).step n op hv ho hlv
      · rw [h, List.getElem?_eq_none (Nat.le_refl _)] at ho; cases ho
    | @goes p t _ ht ih =>
      rcases ih with h | h
      · obtain ⟨t', e, _, hd⟩ := (h2.ok p h).jumps _ ht
        injection e with e; subst e
        exact hd
      · rw [h] at ht
        unfold jumps at ht
        rw [List.getElem?_eq_none (Nat.le_refl _)] at ht
        cases ht
  rcases key with h | h
  · right
    obtain ⟨g1, g2, g3, g4⟩ := h2.ok p h
    refine ⟨?_, g3, ?_⟩
    · rcases g1 with ⟨n, hn⟩ | hd
      · left
        refine ⟨n, hn, ?_⟩
        by_cases h0 : n = 0
        · have := h2.inn p h; omega
        · have := h2.fit p (p + n - 1) h (Or.inl ⟨n, hn, by omega, by omega⟩)
          omega
      · exact Or.inr hd
    · intro o ho
      obtain ⟨t, e, e1, e2⟩ := g4 o ho
      refine ⟨t, e, e1, ?_⟩
      rcases e2 with e2 | e2
      · have := h2.inn t e2; omega
      · omega
  · exact Or.inl h

/-- **C82**, no byte is used twice. A byte that belongs to an instruction control can come to, as an operand or in the table of a switch,
is not the start of another one. -/
theorem C82_apart (prog : List Byte) (hl : prog.length < 2 ^ 31) (hw : Whole false prog) (p x : Nat) (hp : Flow prog p) (hx : Flow prog x)
    (hne : p ≠ x) : ¬ owns prog p x := by
  obtain ⟨B, h1, h2⟩ := seg_whole hl hw
  rw [Nat.zero_add] at h2
  have key : ∀ p, Flow prog p → B p ∨ p = prog.length := by
    intro p hp
    induction hp with
    | start =>
      rcases h1 with h | h
      · right; rw [h]; rfl
      · exact Or.inl h
    | @next p n op _ ho hv hlv ih =>
      rcases ih with h | h
      · exact (h2.ok p h).step n op hv ho hlv
      · rw [h, List.getElem?_eq_none (Nat.le_refl _)] at ho; cases ho
    | @goes p t _ ht ih =>
      rcases ih with h | h
      · obtain ⟨t', e, _, hd⟩ := (h2.ok p h).jumps _ ht
        injection e with e; subst e
        exact hd
      · rw [h] at ht
        unfold jumps at ht
        rw [List.getElem?_eq_none (Nat.le_refl _)] at ht
        cases ht
  rcases key p hp with h | h
  · rcases key x hx with g | g
    · exact h2.apart p x h g hne
    · intro ho
      have := h2.fit p x h ho
      omega
  · subst h
    rintro (⟨n, hn, _⟩ | ht)
    · rw [List.drop_length] at hn; cases hn
    · unfold inTable at ht
      rw [List.getElem?_eq_none (Nat.le_refl _)] at ht
      exact ht

theorem targets_jumps {prog : List Byte} {p t : Nat} (h : t ∈ targets prog p) : some t ∈ jumps prog p := by
  unfold targets at h
  unfold jumps
  cases ho : (prog[p]?).map decodeOp with
  | none => rw [ho] at h; cases h
  | some o =>
    rw [ho] at h
    cases o <;> simp only [List.not_mem_nil] at h ⊢
    case jump => rw [Option.mem_toList] at h; rw [List.mem_singleton]; exact h.symm
    case jumpIfNot => rw [Option.mem_toList] at h; rw [List.mem_singleton]; exact h.symm
    case switch =>
      obtain ⟨off, h1, h2⟩ := List.mem_filterMap.mp h
      exact List.mem_map.mpr ⟨off, h1, h2⟩
    case switchTable =>
      obtain ⟨off, h1, h2⟩ := List.mem_filterMap.mp h
      exact List.mem_map.mpr ⟨off, h1, h2⟩

theorem arr_leaves {op : Byte} (h : (decodeOp op).arr = true) : (decodeOp op).leaves = false := by
  cases hd : decodeOp op <;> simp_all [Op.arr, Op.leaves]

variable {σ : Type}

/-- The VM does not get past a range check of a boolean. -/
theorem step_dud (E : Env σ) (s s' : St σ) (h : Dud E.prog s.ip) : step E s ≠ .run s' := by
  have h0 : E.prog[s.ip]? = some 0x42 := At.head h
  have h1 : At E.prog (s.ip + 1) [0x1A] := At.tail h
  rw [step_eq h0]
  intro hr
  have hf := h1.fetch (n := 1) rfl (by omega)
  have hip : (alignSt (0x42 : Byte) { s with ip := s.ip + 1 }).ip = s.ip + 1 := by unfold alignSt; split <;> rfl
  simp only [execOp, show decodeOp 0x42 = .rangeCheck from rfl, handleRange, fet, hip, hf] at hr
  rw [show leWord [0x1A] = 0x1A by decide +kernel] at hr
  rw [show tyTag 0x1A = none from rfl] at hr
  dsimp only at hr
  rw [if_neg (by decide), if_neg (by decide)] at hr
  cases hr

theorem step_leaves (E : Env σ) (s s' : St σ) {op : Byte} {n : Nat} (ho : E.prog[s.ip]? = some op) (hlv : (decodeOp op).leaves = true)
    (hv : vmLen (E.prog.drop s.ip) = some n) (ht : tableFits E.prog s.ip) (h : step E s = .run s') : s'.ip ∈ targets E.prog s.ip := by
  have hlt : s.ip < E.prog.length := by
    rcases Nat.lt_or_ge s.ip E.prog.length with h | h
    · exact h
    · rw [List.getElem?_eq_none h] at ho; cases ho
  have hd := List.drop_eq_getElem_cons hlt
  have hop : E.prog[s.ip] = op := by rw [List.getElem?_eq_getElem hlt] at ho; injection ho
  rw [hd, hop] at hv
  rw [step_eq ho] at h
  have hip : (alignSt op { s with ip := s.ip + 1 }).ip = s.ip + 1 := by unfold alignSt; split <;> rfl
  generalize alignSt op { s with ip := s.ip + 1 } = s1 at *
  have hlen : ∀ k, opArgs (decodeOp op) (E.prog.drop (s.ip + 1)) = some k → s.ip + 1 + k ≤ E.prog.length := by
    intro k hk
    unfold vmLen at hv
    dsimp only at hv
    rw [hk] at hv
    dsimp only at hv
    split at hv
    · rename_i h; rw [List.length_drop] at h; omega
    · cases hv
  cases hdo : decodeOp op <;> rw [hdo] at hlv <;> simp only [Op.leaves, Bool.false_eq_true] at hlv
  case jump =>
    have hk := hlen 4 (by rw [hdo]; rfl)
    simp only [execOp, hdo] at h
    have := handleJump_tgt E s1 (by omega)
    rw [h] at this
    obtain ⟨h1, _⟩ := this
    rw [hip] at h1
    simp only [targets, ho, Option.map_some, hdo]
    rw [show s.ip + 5 = s.ip + 1 + 4 by omega, h1]; simp
  case switch =>
    have hk := hlen 6 (by rw [hdo]; rfl)
    simp only [execOp, hdo] at h
    simp only [tableFits, ho, Option.map_some, hdo] at ht
    have := handleSwitch_tgt E s1 (by omega) (by rw [hip]; exact ht)
    rw [h] at this
    obtain ⟨⟨off, h0, h1⟩, _⟩ := this
    rw [hip] at h0 h1
    simp only [targets, ho, Option.map_some, hdo]
    exact List.mem_filterMap.2 ⟨off, h0, h1⟩
  case switchTable =>
    have hk := hlen 6 (by rw [hdo]; rfl)
    simp only [execOp, hdo] at h
    simp only [tableFits, ho, Option.map_some, hdo] at ht
    have := handleSwitchTable_tgt E s1 (by omega) (by rw [hip]; exact ht.1) ht.2
    rw [h] at this
    obtain ⟨⟨off, h0, h1⟩, _⟩ := this
    rw [hip] at h0 h1
    simp only [targets, ho, Option.map_some, hdo]
    exact List.mem_filterMap.2 ⟨off, h0, h1⟩

theorem vmLen_end {prog : List Byte} {p : Nat} (h : prog[p]? = some 0x38) : vmLen (prog.drop p) = some 1 := by
  have hlt : p < prog.length := by
    rcases Nat.lt_or_ge p prog.length with h' | h'
    · exact h'
    · rw [List.getElem?_eq_none h'] at h; cases h
  rw [List.getElem?_eq_getElem hlt] at h; injection h with h
  exact vmLen_at (i := [0x38]) ⟨prog.drop (p + 1), by rw [List.drop_eq_getElem_cons hlt, h]; rfl⟩ rfl

theorem byteField_next {prog : List Byte} {p : Nat} {b : Byte} (hl : prog.length < 2 ^ 31) (hw : Whole false prog) (hp : Flow prog p)
    (hb : prog[p]? = some b) (hb' : b = 0x10 ∨ b = 0x14) : Flow prog (p + 3) := by
  rcases C82_static prog hl hw p hp with h | ⟨h | h, _, _⟩
  · rw [h, List.getElem?_eq_none (Nat.le_refl _)] at hb; cases hb
  · obtain ⟨n, hv, _⟩ := h
    have hlt : p < prog.length := by
      rcases Nat.lt_or_ge p prog.length with h' | h'
      · exact h'
      · rw [List.getElem?_eq_none h'] at hb; cases hb
    have hn : n = 3 := by
      rw [List.drop_eq_getElem_cons hlt] at hv
      rw [List.getElem?_eq_getElem hlt] at hb; injection hb with hb
      rw [hb] at hv
      unfold vmLen at hv
      have e : ∀ r, opArgs (decodeOp b) r = some 2 := by
        intro r; rcases hb' with rfl | rfl <;> rfl
      dsimp only at hv
      rw [e] at hv
      dsimp only at hv
      split at hv
      · injection hv with hv; omega
      · cases hv
    subst hn
    exact .next hp hb hv (by rcases hb' with rfl | rfl <;> decide)
  · have := At.head h
    rw [hb] at this; injection this with this
    rcases hb' with rfl | rfl <;> cases this

/-- **C82**, runs. Whatever the host and the data, the VM executes instructions of `Flow` only. The hypothesis on empty arrays cannot be
left out (finding 6, `C18_false_key`). -/
theorem C82_run_partial (E : Env σ) (old : St σ) (buf : List Byte) (user : σ) (hl : E.prog.length < 2 ^ 31) (hw : Whole false E.prog)
    (hsk : SkipsWell E.prog) (s : St σ) (hr : Reach E (initSt old buf user) s) :
    (s.ip = E.prog.length ∨ Flow E.prog s.ip) ∧ ∀ f ∈ s.loops, Flow E.prog f.start := by
  obtain ⟨m, hm⟩ := hr
  induction m generalizing s with
  | zero =>
    rw [exec_zero] at hm; injection hm with hm; subst hm
    exact ⟨Or.inr .start, fun f hf => by simp [initSt] at hf⟩
  | succ m ih =>
    rw [exec_add] at hm
    cases h1 : exec E m (initSt old buf user) with
    | stop e s1 => rw [h1] at hm; cases hm
    | ub u => rw [h1] at hm; cases hm
    | run s1 =>
      rw [h1] at hm
      obtain ⟨i1, i2⟩ := ih s1 h1
      simp only [exec_succ, exec_zero] at hm
      cases hs : step E s1 with
      | stop e s2 => rw [hs] at hm; cases hm
      | ub u => rw [hs] at hm; cases hm
      | run s2 =>
        rw [hs] at hm
        injection hm with hm
        subst hm
        have hlt : s1.ip < E.prog.length := by
          rcases Nat.lt_or_ge s1.ip E.prog.length with h | h
          · exact h
          · rw [step_end (List.getElem?_eq_none h)] at hs; cases hs
        have i1 : Flow E.prog s1.ip := i1.resolve_left (by omega)
        rcases C82_static E.prog hl hw s1.ip i1 with h | ⟨h, hf, hj⟩
        · omega
        rcases h with ⟨n, hv, _⟩ | hd
        · have hn := step_next E s1 s2 n hv hf hs
          have hend : ∀ {op : Byte}, E.prog[s1.ip]? = some op → decodeOp op = .arrEnd → Flow E.prog (s1.ip + 1) := by
            intro op ho ha
            have : vmLen (E.prog.drop s1.ip) = some 1 := by
              rw [List.drop_eq_getElem_cons hlt]
              rw [List.getElem?_eq_getElem hlt] at ho; injection ho with ho
              rw [ho]
              simp [vmLen, ha, opArgs]
            exact .next i1 ho this (by rw [ha]; rfl)
          have hnx : ∀ {op : Byte}, E.prog[s1.ip]? = some op → (decodeOp op).arr = true → ∀ {k : Nat}, vmLen (E.prog.drop s1.ip) = some k →
              Flow E.prog (s1.ip + k) := fun {_} ho ha {_} hk => .next i1 ho hk (arr_leaves ha)
          have hlv : ∀ op, E.prog[s1.ip]? = some op → (decodeOp op).leaves = false ∨ s2.ip ∈ targets E.prog s1.ip := by
            intro op ho
            cases h : (decodeOp op).leaves
            · exact Or.inl rfl
            · exact Or.inr (step_leaves E s1 s2 ho h hv hf hs)
          generalize s2.ip = ip2 at *
          generalize s2.loops = L2 at *
          generalize hL : s1.loops = L1 at *
          cases hn with
          | seq h =>
            obtain ⟨op, ho⟩ : ∃ op, E.prog[s1.ip]? = some op := ⟨_, List.getElem?_eq_getElem hlt⟩
            rcases hlv op ho with hlv | hlv
            · exact ⟨Or.inr (.next i1 ho h hlv), i2⟩
            · exact ⟨Or.inr (.goes i1 (targets_jumps hlv)), i2⟩
          | enter ho ha h =>
            refine ⟨Or.inr (hnx ho ha h), ?_⟩
            intro f hf
            rcases List.mem_cons.mp hf with rfl | hf
            · exact hnx ho ha h
            · exact i2 f hf
          | skip ho ha h hL' =>
            refine ⟨hsk _ _ _ i1 ho ha h, ?_⟩
            rcases hL' with rfl | ⟨c, rfl⟩
            · exact i2
            · intro f hf
              rcases List.mem_cons.mp hf with rfl | hf
              · exact hnx ho ha h
              · exact i2 f hf
          | @bulk _ n _ _ ho ha h hb hb' he =>
            have g1 := hnx ho ha h
            have g2 := byteField_next hl hw g1 hb hb'
            have g3 : Flow E.prog (s1.ip + n + 3 + 1) := .next g2 he (vmLen_end he) (by decide)
            exact ⟨Or.inr g3, i2⟩
          | again ho ha =>
            refine ⟨Or.inr (i2 _ List.mem_cons_self), ?_⟩
            have hh := i2 _ List.mem_cons_self
            intro f hf
            rcases List.mem_cons.mp hf with rfl | hf
            · exact hh
            · exact i2 f (List.mem_cons_of_mem _ hf)
          | leave ho ha => exact ⟨Or.inr (hend ho ha), fun f hf => i2 f (List.mem_cons_of_mem _ hf)⟩
          | jump h => exact ⟨Or.inr (.goes i1 (targets_jumps h)), i2⟩
        · exact absurd hs (step_dud E s1 s2 hd)

/-- The scan over an empty array stops at the end of the program or behind a byte 0x38. -/
theorem skipScan_stop (l : List Byte) : ∀ d, skipScan l (d + 1) = l.length ∨ ∃ k, skipScan l (d + 1) = k + 1 ∧ l[k]? = some 0x38 := by
  induction l with
  | nil => intro d; left; rfl
  | cons b bs ih =>
    intro d
    simp only [skipScan, List.length_cons]
    have keep : ∀ d, (1 + skipScan bs (d + 1) = bs.length + 1 ∨ ∃ k, 1 + skipScan bs (d + 1) = k + 1 ∧ (b :: bs)[k]? = some 0x38) := by
      intro d
      rcases ih d with h | ⟨k, h1, h2⟩
      · left; omega
      · right; exact ⟨k + 1, by omega, by simpa using h2⟩
    split
    · exact keep (d + 1)
    · split
      · rename_i hb
        have hb : b = 0x38 := by simpa using hb
        cases d with
        | zero =>
          right
          refine ⟨0, ?_, by simp [hb]⟩
          cases bs <;> simp [skipScan]
        | succ d => exact keep d
      · exact keep d

/-- Empty arrays are skipped well if no operand has the byte 0x38: every such byte is an array's end. -/
theorem C82_skips (prog : List Byte) (h : ∀ x, prog[x]? = some 0x38 → Flow prog x) : SkipsWell prog := by
  intro p op n hp ho ha hv
  unfold skipBody
  have hle : p + n ≤ prog.length := by
    have hlt : p < prog.length := by
      rcases Nat.lt_or_ge p prog.length with h' | h'
      · exact h'
      · rw [List.getElem?_eq_none h'] at ho; cases ho
    rw [List.drop_eq_getElem_cons hlt] at hv
    unfold vmLen at hv
    dsimp only at hv
    split at hv
    · cases hv
    · split at hv
      · injection hv with hv
        rename_i hk
        rw [List.length_drop] at hk
        omega
      · cases hv
  rcases skipScan_stop (prog.drop (p + n)) 0 with h1 | ⟨k, h1, h2⟩
  · left; rw [h1, List.length_drop]; omega
  · right
    rw [h1]
    rw [List.getElem?_drop] at h2
    have h3 : Flow prog (p + n + k + 1) := .next (h _ h2) h2 (vmLen_end h2) (by decide)
    exact h3

/-- **C82**, termination. A compiled program without read-to-end arrays, run with a host that never gives the count 0xFFFFFFFF, is over after a number of
instructions that depends on its length only. -/
theorem C82_ends_partial (E : Env σ) (old : St σ) (buf : List Byte) (user : σ) (hl : E.prog.length < 2 ^ 31) (hw : Whole false E.prog)
    (hsk : SkipsWell E.prog) (hh : CountsOk E.host) (hE : ∀ p, Flow E.prog p → (E.prog[p]?).map decodeOp ≠ some .arrEof)
    (n : Nat) (hn : stepBound E.prog.length ≤ n) (s' : St σ) : exec E n (initSt old buf user) ≠ .run s' := by
  have hrun := C82_run_partial E old buf user hl hw hsk
  have hcur : ∀ s, Reach E (initSt old buf user) s → curOp E s ≠ some .arrEof := by
    intro s hr h
    rcases (hrun s hr).1 with h1 | h1
    · unfold curOp at h; rw [h1, List.getElem?_eq_none (Nat.le_refl _)] at h; cases h
    · exact hE _ h1 h
  refine C32_ends_partial E old buf user ⟨?_, fun s hr f hf => Nat.ne_of_lt (counts_run E old buf user hh hcur s hr f hf)⟩ n hn s'
  intro s s2 hr hs hj
  have hlt : s.ip < E.prog.length := by
    rcases Nat.lt_or_ge s.ip E.prog.length with h | h
    · exact h
    · rw [step_end (List.getElem?_eq_none h)] at hs; cases hs
  have i1 : Flow E.prog s.ip := (hrun s hr).1.resolve_left (by omega)
  obtain ⟨op, ho⟩ : ∃ op, E.prog[s.ip]? = some op := ⟨_, List.getElem?_eq_getElem hlt⟩
  rw [curOp, ho] at hj
  simp only [Option.map_some, Option.any_some] at hj
  rcases C82_static E.prog hl hw s.ip i1 with h | ⟨h | h, hf, hjs⟩
  · omega
  · obtain ⟨k, hv, _⟩ := h
    have hn := step_next E s s2 k hv hf hs
    have hpos : ∀ {k : Nat}, vmLen (E.prog.drop s.ip) = some k → 0 < k := by
      intro k hk
      unfold vmLen at hk
      split at hk
      · cases hk
      · split at hk
        · cases hk
        · split at hk
          · injection hk with hk; omega
          · cases hk
    have hna : ∀ {o : Byte}, E.prog[s.ip]? = some o → (decodeOp o).arr = true → False := by
      intro o h1 h2
      rw [ho] at h1; injection h1 with h1; subst h1
      rw [arr_jumps h2] at hj; cases hj
    have hne : ∀ {o : Byte}, E.prog[s.ip]? = some o → decodeOp o = .arrEnd → False := by
      intro o h1 h2
      rw [ho] at h1; injection h1 with h1; subst h1
      rw [h2] at hj; cases hj
    generalize s2.ip = ip2 at *
    generalize s2.loops = L2 at *
    generalize s.loops = L1 at *
    cases hn with
    | seq h => have := hpos h; omega
    | enter ho ha h => exact (hna ho ha).elim
    | skip ho ha h hL' => exact (hna ho ha).elim
    | bulk ho ha h hb hb' he => exact (hna ho ha).elim
    | again ho ha => exact (hne ho ha).elim
    | leave ho ha => exact (hne ho ha).elim
    | jump h =>
      obtain ⟨t, e, h1, _⟩ := hjs _ (targets_jumps h)
      injection e with e; subst e
      exact h1
  · exact absurd hs (step_dud E s s2 h)

/-- **C82**, source texts. What the VM loads of the image of an accepted text is such a program, if the text passes the token check and the string
optimiser has nothing to do (which may change operands it should not, C48). -/
theorem C82_source_partial (P : PEnv) (fuel : Nat) (src bs : List Byte) (toks : List Tok) (hlen : src.length < 65535)
    (hl : lexAll (src.length + 1) (src ++ [0]) 1 = some toks) (hn : Nice false (toks.map Tok.bare) = true)
    (hopt : ∀ s, parseTop P fuel (parseStart (toks.map Tok.bare)).adv = .ok s → optimizeStrings s.tab s.out = (s.tab, s.out))
    (h : compile P fuel src = .image bs) (hbs : bs.length < 2 ^ 31) :
    ∃ I, loadIl bs = .ok I ∧ I.code.length < 2 ^ 31 ∧ Whole false I.code := by
  unfold compile at h
  rw [hl] at h
  obtain ⟨s, h1, h2, h3⟩ := image_parse h
  rw [hopt s h1] at h3
  have hw : Whole false s.out := by
    refine parse_shape P fuel _ s h1 h2 (fun _ => hn) (fun _ e he => ?_)
    have h4 := parse_small P fuel _ s h1 h2 e he
    have h5 := lexAll_length _ _ _ _ hl
    rw [List.length_map] at h4
    omega
  subst h3
  have hlen : (writeImage s.tab s.out).length = 16 + (strBytes s.tab).length + s.out.length := by
    rw [writeImage_eq, List.length_append, List.length_append, headBytes_length]; omega
  dsimp only at hbs ⊢
  rw [hlen] at hbs
  exact ⟨_, load_writeImage s.tab s.out (by omega), by dsimp only; omega, hw⟩

/-! ### Examples -/

/-- The places of `Flow`, found by walking. -/
def flowWalk (prog : List Byte) : Nat → List Nat → List Nat → List Nat
  | 0, _, seen => seen
  | _ + 1, [], seen => seen
  | f + 1, p :: todo, seen =>
    if p ∈ seen then flowWalk prog f todo seen
    else
      let next := match prog[p]?, vmLen (prog.drop p) with
        | some op, some n => if (decodeOp op).leaves then [] else [p + n]
        | _, _ => []
      flowWalk prog f (next ++ ((jumps prog p).filterMap id ++ todo)) (p :: seen)

theorem flowWalk_sound (prog : List Byte) (f : Nat) : ∀ (todo seen : List Nat), (∀ p ∈ todo, Flow prog p) → (∀ p ∈ seen, Flow prog p) →
    ∀ p ∈ flowWalk prog f todo seen, Flow prog p := by
  induction f with
  | zero => intro todo seen _ h p hp; exact h p hp
  | succ f ih =>
    intro todo seen ht hs p hp
    cases todo with
    | nil => exact hs p hp
    | cons q todo =>
      have hq := ht q List.mem_cons_self
      unfold flowWalk at hp
      split at hp
      · exact ih _ _ (fun x hx => ht x (List.mem_cons_of_mem _ hx)) hs p hp
      · refine ih _ _ ?_ ?_ p hp
        · intro x hx
          rcases List.mem_append.mp hx with hx | hx
          · split at hx
            · rename_i op n ho hv
              split at hx
              · cases hx
              · rename_i hlv
                rw [List.mem_singleton.mp hx]
                exact .next hq ho hv (by simpa using hlv)
            · cases hx
          · rcases List.mem_append.mp hx with hx | hx
            · obtain ⟨o, h1, h2⟩ := List.mem_filterMap.mp hx
              simp only [id] at h2
              subst h2
              exact .goes hq h1
            · exact ht x (List.mem_cons_of_mem _ hx)
        · intro x hx
          rcases List.mem_cons.mp hx with rfl | hx
          · exact hq
          · exact hs x hx

/-- A text with a conditional, a switch, an array and a range check of a boolean. -/
def exSrc82 : List Byte := word "packet P { u8 n; if (n > 2) { u8 a; } else { u16 b; }
  switch (n) { case 1: { u8 c; } case 900: { i8 e; } default: { string z until 0; } } u8 list[3]; @range(0, 1) bool q; }"

def exCode82 : List Byte :=
  [7, 8, 0, 16, 0, 0, 96, 0, 0, 97, 2, 0, 0, 0, 0, 0, 0, 0, 107, 80, 8, 0, 0, 0, 16, 1, 0, 82, 3, 0, 0, 0, 17, 2, 0, 81, 0, 0, 26, 0, 0, 0, 16, 3,
   0, 82, 48, 0, 0, 0, 20, 4, 0, 82, 40, 0, 0, 0, 48, 5, 0, 255, 0, 82, 30, 0, 0, 0, 2, 0, 16, 0, 0, 0, 1, 0, 0, 0, 0, 0, 0, 0, 0, 0, 0, 0, 132, 3,
   0, 0, 0, 0, 0, 0, 8, 0, 0, 0, 52, 6, 0, 3, 0, 0, 0, 16, 6, 0, 56, 26, 7, 0, 66, 26]

def exNames82 : List (List Byte) := [word "n", word "a", word "b", word "c", word "e", word "z", word "list", word "q", word "P"]

theorem ex82_compile : compile demoP 1000 exSrc82 = .image (writeImage exNames82 exCode82) := by decide +kernel
theorem ex82_load : (match loadIl (writeImage exNames82 exCode82) with | .ok I => I.code | _ => []) = exCode82 := by decide +kernel
theorem ex82_check : (lexAll (exSrc82.length + 1) (exSrc82 ++ [0]) 1).map (fun toks => Nice false (toks.map Tok.bare) &&
    (match parseTop demoP 1000 (parseStart (toks.map Tok.bare)).adv with
      | .ok s => decide (optimizeStrings s.tab s.out = (s.tab, s.out))
      | _ => true)) = some true := by decide +kernel

theorem ex82_whole : Whole false exCode82 := by
  obtain ⟨toks, h1, h2⟩ := Option.map_eq_some_iff.mp ex82_check
  rw [Bool.and_eq_true] at h2
  obtain ⟨I, g1, _, g2⟩ := C82_source_partial demoP 1000 exSrc82 _ toks (by decide +kernel) h1 h2.1 (fun s hs => by
    have h3 := h2.2
    rw [hs] at h3
    exact of_decide_eq_true h3) ex82_compile (by decide +kernel)
  have := ex82_load
  rw [g1] at this
  dsimp only at this
  rwa [this] at g2

theorem ex82_skips : SkipsWell exCode82 := by
  refine C82_skips _ fun x hx => ?_
  have hlt : x < exCode82.length := by
    rcases Nat.lt_or_ge x exCode82.length with h | h
    · exact h
    · rw [List.getElem?_eq_none h] at hx; cases hx
  have key : ∀ x : Fin 114, exCode82[x.val]? = some 0x38 → x.val ∈ flowWalk exCode82 100 [0] [] := by decide +kernel
  exact flowWalk_sound _ _ _ _ (fun p hp => by rw [List.mem_singleton.mp hp]; exact .start) (fun p hp => by cases hp) x (key ⟨x, hlt⟩ hx)

/-- Every run of it stays on its instructions, and is over at some time. -/
example (buf : List Byte) (s : St Demo.Tape) (h : Reach (Demo.env exCode82 false) (initSt Demo.blank buf {}) s) :
    s.ip = 114 ∨ Flow exCode82 s.ip :=
  (C82_run_partial (Demo.env exCode82 false) Demo.blank buf {} (by decide +kernel) ex82_whole ex82_skips s h).1
example (buf : List Byte) (t : Demo.Tape) (s' : St Demo.Tape) :
    exec { Demo.env exCode82 true with host := Demo.modest } (stepBound 114) (initSt Demo.blank buf t) ≠ .run s' := by
  refine C82_ends_partial _ Demo.blank buf t (by decide +kernel) ex82_whole ex82_skips Demo.modest_counts ?_ _ (Nat.le_refl _) s'
  intro p _ h
  obtain ⟨op, h1, h2⟩ := Option.map_eq_some_iff.mp h
  have key : ∀ op ∈ exCode82, decodeOp op ≠ .arrEof := by decide +kernel
  exact key op (List.mem_of_getElem? h1) h2
/-- The table of its switch, from 68 on, is not executed. -/
example (x : Nat) (h1 : 68 ≤ x) (h2 : x < 98) : ¬ Flow exCode82 x := by
  intro h
  have h35 : Flow exCode82 35 := flowWalk_sound exCode82 100 [0] [] (fun p hp => by rw [List.mem_singleton.mp hp]; exact .start)
    (fun p hp => by cases hp) 35 (by decide +kernel)
  refine C82_apart exCode82 (by decide +kernel) ex82_whole 35 x h35 h (by omega) (Or.inr ?_)
  have e : exCode82[35]? = some 0x51 := by decide +kernel
  have e1 : (fetch exCode82 38 4).1.toNat = 26 := by decide +kernel
  have e2 : (fetch exCode82 68 2).1.toNat = 2 := by decide +kernel
  unfold inTable
  simp only [e, Option.map_some, show decodeOp 0x51 = .switch from rfl, e1, e2]
  omega

/-- **The check on tokens is needed.** `bool b : 82` makes the VM execute the width, 0x52: a jump, whose offset is the field behind it and
a byte that is not there. -/
theorem C82_false_width :
    compile demoP 1000 (word "packet P { bool b : 82; u8 x; }") =
      .image (writeImage [word "b", word "x", word "P"] [7, 2, 0, 0x22, 0, 0, 82, 0x10, 1, 0]) ∧
    Flow [7, 2, 0, 0x22, 0, 0, 82, 0x10, 1, 0] 6 ∧ vmLen ([7, 2, 0, 0x22, 0, 0, 82, 0x10, 1, 0].drop 6) = none := by
  refine ⟨by decide +kernel, ?_, by decide +kernel⟩
  exact flowWalk_sound _ 10 [0] [] (fun p hp => by rw [List.mem_singleton.mp hp]; exact .start) (fun p hp => by cases hp) 6 (by decide +kernel)

/-- **A one-bit boolean changes the byte order.** Its width, 1, is executed too, as the instruction that selects little endian: in a file marked
`@big_endian` the bytes 12 34 behind it are read as 0x3412. -/
theorem C82_flag_order :
    compile demoP 1000 (word "@big_endian packet P { bool f : 1; u16 x; }") =
      .image (writeImage [word "f", word "x", word "P"] [2, 7, 2, 0, 0x22, 0, 0, 1, 0x11, 1, 0]) ∧
    Demo.obs (exec (Demo.env [2, 7, 2, 0, 0x22, 0, 0, 1, 0x11, 1, 0] false) 99 (Demo.start [0x80, 0x12, 0x34] {})) =
      .stopped .ok [0x80, 0x12, 0x34] 3 0 { log := [(0, 0x22, 1), (1, 0x11, 0x3412)] } := by
  refine ⟨by decide +kernel, by decide +kernel⟩

end Cnd
