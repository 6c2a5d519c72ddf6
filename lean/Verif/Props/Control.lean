import Verif.Props.Checks
import Verif.SwitchGen
/-
  C29 (sparse switch), C30 (jump-table switch).
-/

namespace Cnd
variable {σ : Type}

/-- A 32-bit offset as a signed number. -/
def offInt (w : Word) : Int :=
  if w.toNat % 2 ^ 32 < 2 ^ 31 then (w.toNat % 2 ^ 32 : Int) else (w.toNat % 2 ^ 32 : Int) - 2 ^ 32

/-- Where a relative branch must lead: the target if it lies in the program (its end included), else the
out-of-bounds error. -/
def Lands (len base : Nat) (off : Word) (s : St σ) (r : Res σ) : Prop :=
  let t := (base : Int) + offInt off
  (0 ≤ t ∧ t ≤ len → r = .run { s with ip := t.toNat }) ∧
  (¬ (0 ≤ t ∧ t ≤ len) → r = .stop .oob s)

theorem toInt_off (w : Word) : (w.setWidth 32 : BitVec 32).toInt = offInt w := by
  rw [BitVec.toInt_eq_toNat_cond, BitVec.toNat_setWidth]
  unfold offInt
  split <;> split <;> omega

theorem goto_lands (E : Env σ) (s : St σ) (base : Nat) (off : Word) :
    Lands E.prog.length base off s (goto E s base off) := by
  unfold Lands goto branch
  rw [toInt_off]
  generalize offInt off = o
  dsimp only
  constructor
  · intro h
    by_cases ho : o < 0
    · rw [if_pos ho]
      have e : ((base : Int) + o).toNat = base - o.natAbs := by omega
      rw [e]
      have h1 : ¬ base < o.natAbs := by omega
      have h2 : ¬ base - o.natAbs > E.prog.length := by omega
      rw [if_neg h1]
      dsimp only
      rw [if_neg h2]
    · rw [if_neg ho]
      have e : ((base : Int) + o).toNat = base + o.toNat := by omega
      rw [e]
      have h2 : ¬ base + o.toNat > E.prog.length := by omega
      dsimp only
      rw [if_neg h2]
  · intro h
    by_cases ho : o < 0
    · rw [if_pos ho]
      by_cases h1 : base < o.natAbs
      · rw [if_pos h1]
      · have h2 : base - o.natAbs > E.prog.length := by omega
        rw [if_neg h1]
        dsimp only
        rw [if_pos h2]
    · rw [if_neg ho]
      have h2 : base + o.toNat > E.prog.length := by omega
      dsimp only
      rw [if_pos h2]

/-- The case table of a sparse switch (cnd_parser.c 693-710): number of cases, default offset, then value and
offset of each case. -/
def switchTable (dflt : Word) (cases : List (Word × Word)) : List Byte :=
  leBytes 2 (BitVec.ofNat 64 cases.length) ++ (leBytes 4 dflt ++
    cases.flatMap fun c => leBytes 8 c.1 ++ leBytes 4 c.2)

/-- The offset a switch must select: that of the first case with the discriminator's value, else the default. -/
def selectCase (disc dflt : Word) : List (Word × Word) → Word
  | [] => dflt
  | (v, off) :: cs => if v = disc then off else selectCase disc dflt cs

theorem switchScan_spec (prog : List Byte) (disc : Word) (cs : List (Word × Word))
    (hcs : ∀ c ∈ cs, c.2.toNat < 2 ^ 32) (ip : Nat) (found : Bool) (target : Word)
    (hat : At prog ip (cs.flatMap fun c => leBytes 8 c.1 ++ leBytes 4 c.2)) :
    switchScan prog disc cs.length ip found target = if found then target else selectCase disc target cs := by
  induction cs generalizing ip found target with
  | nil => simp [switchScan, selectCase]
  | cons c cs ih =>
    rw [List.flatMap_cons] at hat
    have h3 := hat.right
    have h1 := hat.left.left
    have h2 := hat.left.right
    simp only [List.length_append, leBytes_length] at h3 h2
    simp only [List.length_cons, switchScan]
    rw [h1.fetch (by simp) (by omega)]
    dsimp only
    rw [h2.fetch (by simp) (by omega)]
    dsimp only
    rw [leWord_leBytes_lt (by omega) (by have := c.1.isLt; omega),
      leWord_leBytes_lt (by omega) (by have := hcs c (by simp); omega)]
    rw [ih (fun x hx => hcs x (by simp [hx])) _ _ _ (by rw [Nat.add_assoc]; exact h3),
      ih (fun x hx => hcs x (by simp [hx])) _ _ _ (by rw [Nat.add_assoc]; exact h3)]
    obtain ⟨cv, co⟩ := c
    simp only [selectCase]
    cases found with
    | true => simp
    | false =>
      by_cases hd : cv = disc
      · subst hd; simp
      · have : ¬ (disc = cv) := fun e => hd e.symm
        simp [hd, this]

/-- C29. A sparse switch asks the host for the discriminator and lands at the offset of the first matching case,
else at the default offset; a target outside the program is an out-of-bounds error. -/
theorem C29_switch (E : Env σ) (s : St σ) (k0 k1 : Byte) (rel dflt : Word) (cases : List (Word × Word))
    (hat : At E.prog s.ip ([0x51, k0, k1] ++ leBytes 4 rel)) (hrel : rel.toNat < 2 ^ 32)
    (htab : At E.prog (s.ip + 7 + rel.toNat) (switchTable dflt cases)) (hlen : cases.length < 2 ^ 16)
    (hd : dflt.toNat < 2 ^ 32) (hcs : ∀ c ∈ cases, c.2.toNat < 2 ^ 32)
    (disc : Word) (h : σ) (hhost : E.host.scalar s.host (keyNum k0 k1) 0x06 0 = (true, disc, h)) :
    Lands E.prog.length (s.ip + 7) (selectCase disc dflt cases) { s with ip := s.ip + 7, host := h } (step E s) := by
  have key : step E s = goto E { s with ip := s.ip + 7, host := h } (s.ip + 7) (selectCase disc dflt cases) := by
    have h1 : At E.prog (s.ip + 1) [k0, k1] := hat.left.tail
    have h2 : At E.prog (s.ip + 1 + 2) (leBytes 4 rel) := hat.right
    have ht1 := htab.left
    have ht2 := htab.right.left
    have ht3 := htab.right.right
    simp only [leBytes_length] at ht2 ht3
    have hne : switchTable dflt cases ≠ [] := by
      intro e
      have := congrArg List.length e
      simp [switchTable] at this
    have hle := htab.le hne
    have hcnt : (BitVec.ofNat 64 cases.length : Word).toNat = cases.length := by
      rw [BitVec.toNat_ofNat, Nat.mod_eq_of_lt (by omega)]
    rw [step_pre hat, pre_unaligned 0x51 s rfl]
    show handleSwitch E _ = _
    unfold handleSwitch
    refine fet_ok h1 rfl (by omega) ?_
    refine fet_ok h2 (by simp) (by omega) ?_
    rw [leWord_key, leWord_leBytes_lt (by omega) (by omega)]
    dsimp only
    refine (if_neg (by omega)).trans ?_
    rw [show s.ip + 1 + 2 + 4 = s.ip + 7 from rfl]
    rw [ht1.fetch (by simp) (by omega)]
    dsimp only
    rw [ht2.fetch (by simp) (by omega)]
    refine callScalar_ok hhost ?_
    rw [leWord_leBytes_lt (by omega) (by rw [hcnt]; omega), leWord_leBytes_lt (by omega) (by omega), hcnt,
      truncB_eight, switchScan_spec E.prog disc cases hcs _ _ _ ht3]
    rfl
  rw [key]
  exact goto_lands E _ _ _

/-- C29: if the host refuses the query, the run stops with the callback error. -/
theorem C29_switch_callback (E : Env σ) (s : St σ) (k0 k1 : Byte) (rel : Word)
    (hat : At E.prog s.ip ([0x51, k0, k1] ++ leBytes 4 rel)) (hrel : rel.toNat < 2 ^ 32)
    (htab : s.ip + 7 + rel.toNat ≤ E.prog.length) (w : Word) (h : σ)
    (hhost : E.host.scalar s.host (keyNum k0 k1) 0x06 0 = (false, w, h)) :
    step E s = .stop .callback { s with ip := s.ip + 7, host := h } := by
  have h1 : At E.prog (s.ip + 1) [k0, k1] := hat.left.tail
  have h2 : At E.prog (s.ip + 1 + 2) (leBytes 4 rel) := hat.right
  rw [step_pre hat, pre_unaligned 0x51 s rfl]
  show handleSwitch E _ = _
  unfold handleSwitch
  refine fet_ok h1 rfl (by omega) ?_
  refine fet_ok h2 (by simp) (by omega) ?_
  rw [leWord_key, leWord_leBytes_lt (by omega) (by omega)]
  dsimp only
  refine (if_neg (by omega)).trans ?_
  unfold callScalar
  rw [show E.host.scalar _ (keyNum k0 k1) 0x06 0 = _ from hhost]
  rfl

/-- The body of a jump table (cnd_parser.c 664-691): smallest and largest value, default offset, one offset per
value. -/
def jumpTable (mn mx dflt : Word) (offs : List Word) : List Byte :=
  leBytes 8 mn ++ (leBytes 8 mx ++ (leBytes 4 dflt ++ offs.flatMap (leBytes 4)))

/-- The sparse cases a jump table stands for: values `mn, mn+1, ...`. -/
def denseCases (mn : Word) : List Word → List (Word × Word)
  | [] => []
  | o :: os => (mn, o) :: denseCases (mn + 1) os

theorem denseCases_length (mn : Word) (offs : List Word) : (denseCases mn offs).length = offs.length := by
  induction offs generalizing mn with
  | nil => rfl
  | cons o os ih => simp [denseCases, ih]

theorem denseCases_mem (mn : Word) (offs : List Word) (c : Word × Word) (hc : c ∈ denseCases mn offs) :
    c.2 ∈ offs := by
  induction offs generalizing mn with
  | nil => simp [denseCases] at hc
  | cons o os ih =>
    simp only [denseCases, List.mem_cons] at hc
    rcases hc with rfl | hc
    · simp
    · simp [ih _ hc]

theorem at_flatMap4 {prog : List Byte} {ip : Nat} {offs : List Word} (h : At prog ip (offs.flatMap (leBytes 4)))
    (i : Nat) (o : Word) (ho : offs[i]? = some o) : At prog (ip + i * 4) (leBytes 4 o) := by
  induction offs generalizing ip i with
  | nil => simp at ho
  | cons x xs ih =>
    rw [List.flatMap_cons] at h
    cases i with
    | zero =>
      simp only [List.getElem?_cons_zero, Option.some.injEq] at ho
      subst ho
      simpa using h.left
    | succ i =>
      simp only [List.getElem?_cons_succ] at ho
      have h2 := h.right
      rw [leBytes_length] at h2
      have := ih h2 i ho
      rw [Nat.succ_mul]
      rw [show ip + (i * 4 + 4) = ip + 4 + i * 4 by omega]
      exact this

theorem selectCase_dense (disc dflt : Word) (offs : List Word) (mn : Word)
    (hno : mn.toNat + offs.length ≤ 2 ^ 64) :
    selectCase disc dflt (denseCases mn offs) =
      if mn.toNat ≤ disc.toNat then (offs[disc.toNat - mn.toNat]?).getD dflt else dflt := by
  induction offs generalizing mn with
  | nil => simp [denseCases, selectCase]
  | cons o os ih =>
    simp only [List.length_cons] at hno
    simp only [denseCases, selectCase]
    by_cases hd : mn = disc
    · subst hd; simp
    · rw [if_neg hd]
      have hne : mn.toNat ≠ disc.toNat := fun e => hd (BitVec.eq_of_toNat_eq e)
      have hdl := disc.isLt
      cases os with
      | nil =>
        simp only [denseCases, selectCase]
        by_cases hle : mn.toNat ≤ disc.toNat
        · rw [if_pos hle, List.getElem?_eq_none (by simp; omega)]; rfl
        · rw [if_neg hle]
      | cons o' os' =>
        simp only [List.length_cons] at hno
        have h1 : (mn + 1).toNat = mn.toNat + 1 := by
          rw [BitVec.toNat_add]
          simp only [BitVec.reduceToNat]
          apply Nat.mod_eq_of_lt
          omega
        rw [ih (mn + 1) (by rw [h1]; simp; omega), h1]
        by_cases hle : mn.toNat ≤ disc.toNat
        · rw [if_pos hle, if_pos (by omega)]
          have : disc.toNat - mn.toNat = (disc.toNat - (mn.toNat + 1)) + 1 := by omega
          rw [this, List.getElem?_cons_succ]
        · rw [if_neg hle, if_neg (by omega)]

/-- C30, first half: a jump table with an entry for every value from `mn` to `mx` lands exactly where the sparse
switch with one case per entry would. -/
theorem C30_jump_table (E : Env σ) (s : St σ) (k0 k1 : Byte) (rel mn mx dflt : Word) (offs : List Word)
    (hat : At E.prog s.ip ([0x53, k0, k1] ++ leBytes 4 rel)) (hrel : rel.toNat < 2 ^ 32)
    (htab : At E.prog (s.ip + 7 + rel.toNat) (jumpTable mn mx dflt offs))
    (hmx : mn.toNat + offs.length = mx.toNat + 1) (hsz : E.prog.length < 2 ^ 63)
    (hd : dflt.toNat < 2 ^ 32) (hoffs : ∀ o ∈ offs, o.toNat < 2 ^ 32)
    (disc : Word) (h : σ) (hhost : E.host.scalar s.host (keyNum k0 k1) 0x06 0 = (true, disc, h)) :
    Lands E.prog.length (s.ip + 7) (selectCase disc dflt (denseCases mn offs))
      { s with ip := s.ip + 7, host := h } (step E s) := by
  have key : step E s = goto E { s with ip := s.ip + 7, host := h } (s.ip + 7)
      (selectCase disc dflt (denseCases mn offs)) := by
    have h1 : At E.prog (s.ip + 1) [k0, k1] := hat.left.tail
    have h2 : At E.prog (s.ip + 1 + 2) (leBytes 4 rel) := hat.right
    have ht1 := htab.left
    have ht2 := htab.right.left
    have ht3 := htab.right.right.left
    have ht4 := htab.right.right.right
    simp only [leBytes_length] at ht2 ht3 ht4
    have hne : jumpTable mn mx dflt offs ≠ [] := by
      intro e
      have := congrArg List.length e
      simp [jumpTable] at this
    have hle := htab.le hne
    have hjl : (jumpTable mn mx dflt offs).length = 20 + offs.length * 4 := by
      simp only [jumpTable, List.length_append, leBytes_length, flatMap_leBytes_length]; omega
    rw [hjl] at hle
    have hml := mx.isLt
    rw [step_pre hat, pre_unaligned 0x53 s rfl]
    show handleSwitchTable E _ = _
    unfold handleSwitchTable
    refine fet_ok h1 rfl (by omega) ?_
    refine fet_ok h2 (by simp) (by omega) ?_
    rw [leWord_key, leWord_leBytes_lt (by omega) (by omega)]
    dsimp only
    refine (if_neg (by omega)).trans ?_
    rw [show s.ip + 1 + 2 + 4 = s.ip + 7 from rfl]
    rw [ht1.fetch (by simp) (by omega), ht2.fetch (by simp) (by omega),
      show s.ip + 7 + rel.toNat + 16 = s.ip + 7 + rel.toNat + 8 + 8 from rfl, ht3.fetch (by simp) (by omega)]
    refine callScalar_ok hhost ?_
    rw [leWord_leBytes_lt (by omega) (by have := mn.isLt; omega), leWord_leBytes_lt (by omega) (by omega),
      leWord_leBytes_lt (by omega) (by omega), truncB_eight, selectCase_dense disc dflt offs mn (by omega)]
    dsimp only
    by_cases hin : mn.toNat ≤ disc.toNat ∧ disc.toNat ≤ mx.toNat
    · rw [if_pos hin, if_pos hin.1]
      have hi : disc.toNat - mn.toNat < offs.length := by omega
      obtain ⟨o, ho⟩ : ∃ o, offs[disc.toNat - mn.toNat]? = some o := ⟨_, List.getElem?_eq_getElem hi⟩
      have hmem : o ∈ offs := List.mem_of_getElem? ho
      have hat4 := at_flatMap4 ht4 _ _ ho
      have e1 : (disc.toNat - mn.toNat) * 4 % 2 ^ 64 = (disc.toNat - mn.toNat) * 4 := Nat.mod_eq_of_lt (by omega)
      have e2 : (s.ip + 7 + rel.toNat + 20 + (disc.toNat - mn.toNat) * 4) % 2 ^ 64 =
          s.ip + 7 + rel.toNat + 20 + (disc.toNat - mn.toNat) * 4 := Nat.mod_eq_of_lt (by omega)
      have e3 : (s.ip + 7 + rel.toNat + 20 + (disc.toNat - mn.toNat) * 4 + 4) % 2 ^ 64 =
          s.ip + 7 + rel.toNat + 20 + (disc.toNat - mn.toNat) * 4 + 4 := Nat.mod_eq_of_lt (by omega)
      rw [e1, e2, e3, if_neg (by omega), if_pos (by omega), ho]
      have hat5 : At E.prog (s.ip + 7 + rel.toNat + 20 + (disc.toNat - mn.toNat) * 4) (leBytes 4 o) := by
        simpa [Nat.add_assoc] using hat4
      rw [hat5.fetch (by simp) (by omega), leWord_leBytes_lt (by omega) (by have := hoffs o hmem; omega)]
      rfl
    · rw [if_neg hin]
      by_cases hlo : mn.toNat ≤ disc.toNat
      · rw [if_pos hlo, List.getElem?_eq_none (by omega)]
        rfl
      · rw [if_neg hlo]
  rw [key]
  exact goto_lands E _ _ _

/-- C30. A jump table and the sparse switch with one case per table slot have the same effect, for every
discriminator the host may answer, when all targets lie inside both programs. -/
theorem C30_table_eq_switch (E F : Env σ) (hsame : E.host = F.host) (s : St σ) (k0 k1 : Byte)
    (rel rel' mn mx dflt : Word) (offs : List Word)
    (hatE : At E.prog s.ip ([0x53, k0, k1] ++ leBytes 4 rel)) (hrel : rel.toNat < 2 ^ 32)
    (htabE : At E.prog (s.ip + 7 + rel.toNat) (jumpTable mn mx dflt offs))
    (hatF : At F.prog s.ip ([0x51, k0, k1] ++ leBytes 4 rel')) (hrel' : rel'.toNat < 2 ^ 32)
    (htabF : At F.prog (s.ip + 7 + rel'.toNat) (switchTable dflt (denseCases mn offs)))
    (hmx : mn.toNat + offs.length = mx.toNat + 1) (hn : offs.length < 2 ^ 16) (hsz : E.prog.length < 2 ^ 63)
    (hd : dflt.toNat < 2 ^ 32) (hoffs : ∀ o ∈ offs, o.toNat < 2 ^ 32)
    (hin : ∀ o, o = dflt ∨ o ∈ offs → 0 ≤ ((s.ip + 7 : Nat) : Int) + offInt o ∧
      ((s.ip + 7 : Nat) : Int) + offInt o ≤ E.prog.length ∧ ((s.ip + 7 : Nat) : Int) + offInt o ≤ F.prog.length)
    (disc : Word) (h : σ) (hhost : E.host.scalar s.host (keyNum k0 k1) 0x06 0 = (true, disc, h)) :
    step E s = step F s := by
  have hml := mx.isLt
  have l1 := C30_jump_table E s k0 k1 rel mn mx dflt offs hatE hrel htabE hmx hsz hd hoffs disc h hhost
  have l2 := C29_switch F s k0 k1 rel' dflt (denseCases mn offs) hatF hrel' htabF (by rw [denseCases_length]; exact hn) hd
    (fun c hc => hoffs _ (denseCases_mem _ _ c hc)) disc h (by rw [← hsame]; exact hhost)
  have hsel : selectCase disc dflt (denseCases mn offs) = dflt ∨ selectCase disc dflt (denseCases mn offs) ∈ offs := by
    rw [selectCase_dense disc dflt offs mn (by omega)]
    split
    · cases ho : offs[disc.toNat - mn.toNat]? with
      | none => left; rfl
      | some o => right; exact List.mem_of_getElem? ho
    · left; rfl
  have hb := hin _ hsel
  rw [l1.1 ⟨hb.1, hb.2.1⟩, l2.1 ⟨hb.1, hb.2.2⟩]

/-- C29 and C30 meet a real case: values 5 and 6 select a u8 and a u16 field, everything else nothing; as sparse
switch and as jump table. The table follows the code it selects. -/
example :
    let body : List Byte := [0x10, 1, 0, 0x52, 3, 0, 0, 0, 0x11, 2, 0]
    let tail : List Byte := [0x52]
    let sw := fun t : List Byte => body ++ (tail ++ leBytes 4 (BitVec.ofNat 64 t.length)) ++ t
    let p1 := [(0x51 : Byte), 9, 0] ++ leBytes 4 16 ++ sw (switchTable 11 [(5, 0), (6, 8)])
    let p2 := [(0x53 : Byte), 9, 0] ++ leBytes 4 16 ++ sw (jumpTable 5 6 11 [0, 8])
    (∀ p ∈ [p1, p2], ∀ dr ∈ [((5 : Word), (1, [(1, 0x10, 7)])), (6, (2, [(2, 0x11, 0x807)])), (8, (0, []))],
      Demo.obs (exec (Demo.env p false) 9 (Demo.start [7, 8, 9] { inp := [dr.1] })) =
        .stopped .ok [7, 8, 9] dr.2.1 0 { log := dr.2.2 }) := by
  decide +kernel

/-! ### The compiler's choice between the two encodings -/

theorem caseTarget_eq (cases : List (Word × Word)) (dflt v : Word) :
    caseTarget cases dflt v = selectCase v dflt cases := by
  induction cases with
  | nil => rfl
  | cons c cs ih =>
    obtain ⟨cv, co⟩ := c
    unfold caseTarget at ih ⊢
    simp only [List.find?_cons, selectCase]
    by_cases h : cv = v
    · simp [h]
    · have : (cv == v) = false := by simp [h]
      rw [this, if_neg h]
      exact ih

theorem foldl_min_le (cs : List (Word × Word)) (m : Word) :
    (minCase m cs).toNat ≤ m.toNat ∧ ∀ c ∈ cs, (minCase m cs).toNat ≤ c.1.toNat := by
  induction cs generalizing m with
  | nil => simp [minCase]
  | cons c cs ih =>
    have e : minCase m (c :: cs) = minCase (if c.1.ult m then c.1 else m) cs := rfl
    rw [e]
    obtain ⟨h1, h2⟩ := ih (if c.1.ult m then c.1 else m)
    have h3 : (if c.1.ult m then c.1 else m).toNat ≤ m.toNat ∧ (if c.1.ult m then c.1 else m).toNat ≤ c.1.toNat := by
      split
      · rename_i h; simp [BitVec.ult] at h; omega
      · rename_i h; simp [BitVec.ult] at h; omega
    refine ⟨by omega, ?_⟩
    intro d hd
    rcases List.mem_cons.1 hd with rfl | hd
    · omega
    · exact h2 d hd

theorem foldl_max_ge (cs : List (Word × Word)) (m : Word) :
    m.toNat ≤ (maxCase m cs).toNat ∧ ∀ c ∈ cs, c.1.toNat ≤ (maxCase m cs).toNat := by
  induction cs generalizing m with
  | nil => simp [maxCase]
  | cons c cs ih =>
    have e : maxCase m (c :: cs) = maxCase (if m.ult c.1 then c.1 else m) cs := rfl
    rw [e]
    obtain ⟨h1, h2⟩ := ih (if m.ult c.1 then c.1 else m)
    have h3 : m.toNat ≤ (if m.ult c.1 then c.1 else m).toNat ∧ c.1.toNat ≤ (if m.ult c.1 then c.1 else m).toNat := by
      split
      · rename_i h; simp [BitVec.ult] at h; omega
      · rename_i h; simp [BitVec.ult] at h; omega
    refine ⟨by omega, ?_⟩
    intro d hd
    rcases List.mem_cons.1 hd with rfl | hd
    · omega
    · exact h2 d hd

theorem selectCase_none (disc dflt : Word) (cases : List (Word × Word)) (h : ∀ c ∈ cases, c.1 ≠ disc) :
    selectCase disc dflt cases = dflt := by
  induction cases with
  | nil => rfl
  | cons c cs ih =>
    obtain ⟨cv, co⟩ := c
    simp only [selectCase]
    rw [if_neg (h (cv, co) (by simp)), ih (fun c hc => h c (by simp [hc]))]

/-- C30 for the compiler: the jump table the compiler fills in for any list of cases (any order, duplicates,
gaps) selects, for every discriminator, the same offset as the sparse table it would otherwise have emitted. -/
theorem C30_compiled_table (c : Word × Word) (cs : List (Word × Word)) (dflt disc : Word) :
    let mn := minCase c.1 cs
    let mx := maxCase c.1 cs
    let offs := tableOffsets (c :: cs) dflt mn (mx.toNat - mn.toNat)
    mn.toNat + offs.length = mx.toNat + 1 ∧
    selectCase disc dflt (denseCases mn offs) = selectCase disc dflt (c :: cs) := by
  intro mn mx offs
  have hmn := foldl_min_le cs c.1
  have hmx := foldl_max_ge cs c.1
  have hlen : offs.length = mx.toNat - mn.toNat + 1 := by simp [offs, tableOffsets]
  have hml := mx.isLt
  have hle : mn.toNat ≤ mx.toNat := Nat.le_trans hmn.1 hmx.1
  refine ⟨by omega, ?_⟩
  rw [selectCase_dense disc dflt offs mn (by omega)]
  have hout : ∀ d : Word, (d.toNat < mn.toNat ∨ mx.toNat < d.toNat) → selectCase d dflt (c :: cs) = dflt := by
    intro d hd
    apply selectCase_none
    intro x hx e
    have hx' : mn.toNat ≤ x.1.toNat ∧ x.1.toNat ≤ mx.toNat := by
      rcases List.mem_cons.1 hx with rfl | hx
      · exact ⟨hmn.1, hmx.1⟩
      · exact ⟨hmn.2 x hx, hmx.2 x hx⟩
    rw [e] at hx'
    omega
  by_cases h1 : mn.toNat ≤ disc.toNat
  · rw [if_pos h1]
    by_cases h2 : disc.toNat ≤ mx.toNat
    · have hi : disc.toNat - mn.toNat < mx.toNat - mn.toNat + 1 := by omega
      have hget : offs[disc.toNat - mn.toNat]? = some (caseTarget (c :: cs) dflt disc) := by
        simp only [offs, tableOffsets, List.getElem?_map]
        rw [List.getElem?_range hi]
        simp only [Option.map_some, Option.some.injEq]
        congr 1
        apply BitVec.eq_of_toNat_eq
        have hdl := disc.isLt
        rw [BitVec.toNat_add, BitVec.toNat_ofNat, Nat.mod_eq_of_lt (show disc.toNat - mn.toNat < 2 ^ 64 by omega),
          Nat.mod_eq_of_lt (by omega)]
        omega
      rw [hget, Option.getD_some, caseTarget_eq]
    · rw [List.getElem?_eq_none (by omega), hout disc (by omega)]
      rfl
  · rw [if_neg h1, hout disc (by omega)]

/-- Four cases out of order with a gap: the compiler uses a jump table with five entries. -/
example :
    let cases : List (Word × Word) := [(12, 7), (10, 0), (14, 20), (11, 30)]
    useJumpTable cases = true ∧ tableOffsets cases 99 10 4 = [0, 30, 7, 99, 20] := by decide +kernel

/-- C31, tables that are not there: a jump table whose 20-byte header does not lie inside the program, and a
switch table that starts outside it, stop the run with the out-of-bounds error before the host is asked. -/
theorem C31_truncated_table (E : Env σ) (s : St σ) (k0 k1 : Byte) (rel : Word)
    (hat : At E.prog s.ip ([0x53, k0, k1] ++ leBytes 4 rel)) (hrel : rel.toNat < 2 ^ 32)
    (hout : E.prog.length < s.ip + 7 + rel.toNat + 20) :
    step E s = .stop .oob { s with ip := s.ip + 7 } := by
  have h1 : At E.prog (s.ip + 1) [k0, k1] := hat.left.tail
  have h2 : At E.prog (s.ip + 1 + 2) (leBytes 4 rel) := hat.right
  rw [step_pre hat, pre_unaligned 0x53 s rfl]
  show handleSwitchTable E _ = _
  unfold handleSwitchTable
  refine fet_ok h1 rfl (by omega) ?_
  refine fet_ok h2 (by simp) (by omega) ?_
  rw [leWord_leBytes_lt (by omega) (by omega)]
  dsimp only
  exact if_pos (by omega)

theorem C31_truncated_switch (E : Env σ) (s : St σ) (k0 k1 : Byte) (rel : Word)
    (hat : At E.prog s.ip ([0x51, k0, k1] ++ leBytes 4 rel)) (hrel : rel.toNat < 2 ^ 32)
    (hout : E.prog.length < s.ip + 7 + rel.toNat) :
    step E s = .stop .oob { s with ip := s.ip + 7 } := by
  have h1 : At E.prog (s.ip + 1) [k0, k1] := hat.left.tail
  have h2 : At E.prog (s.ip + 1 + 2) (leBytes 4 rel) := hat.right
  rw [step_pre hat, pre_unaligned 0x51 s rfl]
  show handleSwitch E _ = _
  unfold handleSwitch
  refine fet_ok h1 rfl (by omega) ?_
  refine fet_ok h2 (by simp) (by omega) ?_
  rw [leWord_leBytes_lt (by omega) (by omega)]
  dsimp only
  exact if_pos (by omega)

/-- A header cut off after eight of its twenty bytes. -/
example : At (prog := [0x53, 1, 0, 0, 0, 0, 0, 1, 2, 3, 4, 5, 6, 7, 8]) 0 ([0x53, 1, 0] ++ leBytes 4 0) ∧
    (15 : Nat) < 0 + 7 + (0 : Word).toNat + 20 := ⟨⟨[1, 2, 3, 4, 5, 6, 7, 8], rfl⟩, by decide⟩

end Cnd
