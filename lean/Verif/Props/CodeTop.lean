import Verif.Props.CodeSwitch
import Verif.Props.ParseTerm
/-
  C80, declarations and whole files.
-/
set_option linter.unusedVariables false
set_option linter.unusedSimpArgs false

namespace Cnd

/-- Nothing is written and nothing is declared. -/
structure Still (s t : CSt) : Prop extends Go s.toPSt t.toPSt where
  out : t.out = s.out
  structs : t.structs = s.structs
  ep : t.ep = s.ep

theorem Still.refl (s : CSt) : Still s s := ⟨.refl _, rfl, rfl, rfl⟩
theorem Still.trans {a b c : CSt} (h : Still a b) (g : Still b c) : Still a c :=
  ⟨h.toGo.trans g.toGo, g.out.trans h.out, g.structs.trans h.structs, g.ep.trans h.ep⟩

section
variable {a s : CSt}
theorem st_adv (h : Still a s) {ty : TT} (he : s.cur.type = ty) (h1 : ty ≠ .kwStruct := by decide) (h2 : ty ≠ .kwPacket := by decide) : Still a s.adv :=
  h.trans ⟨go_advance (he ▸ h1) (he ▸ h2), rfl, rfl, rfl⟩
theorem st_err (h : Still a s) : Still a s.err := h.trans ⟨go_error _, rfl, rfl, rfl⟩
theorem st_errIf {b : Bool} (h : Still a s) : Still a (s.errIf b) := by
  unfold CSt.errIf
  split
  · exact st_err h
  · exact h
theorem st_eat {ty : TT} (h : Still a s) (h1 : ty ≠ .kwStruct := by decide) (h2 : ty ≠ .kwPacket := by decide) : Still a (s.eat ty) :=
  h.trans ⟨go_consume h1 h2, (eat_keeps s ty).1, (eat_keeps s ty).2.1, (eat_keeps s ty).2.2⟩
theorem st_errs {α : Type} (l : List α) (h : Still a s) : Still a (l.foldl (fun s _ => s.err) s) := by
  induction l generalizing s with
  | nil => exact h
  | cons x l ih => exact ih (st_err h)
end

theorem enumLoop_still (f : Nat) (vals : List (List Byte × Word)) (names : List (List Byte)) (next : Word) (s : CSt) :
    (enumLoop f vals names next s).Ok fun r => Still s r.2 ∧ (r.2.errs = 0 → r.1.length + r.2.left ≤ vals.length + s.left) := by
  induction f generalizing vals names next s with
  | zero => trivial
  | succ f ih =>
    unfold enumLoop
    refine Ok_ite (fun _ => ⟨.refl s, fun _ => Nat.le_refl _⟩) fun hne => Ok_ite (fun hd => ?_) fun _ => ?_
    · have hs : Still s s.adv := st_adv (.refl s) hd
      exact (ih _ _ _ s.adv).mono fun r hr => ⟨hs.trans hr.1, fun e => by
        have := hr.2 e; have := hs.ahead (hr.1.errs e); omega⟩
    extract_lets name s1 names' s2 sx r
    have h1 : Still s s1 := st_eat (.refl s)
    have h2 : Still s1 s2 := st_errIf (.refl s1)
    have hlt : s1.errs = 0 → s1.left + 1 ≤ s.left := by
      intro e
      have : s1.toPSt = s.toPSt.consume .identifier := rfl
      rw [this] at e ⊢
      unfold PSt.consume at e ⊢
      split at e
      · rename_i hc
        rw [if_pos hc]
        have := left_adv e
        unfold PSt.left at this ⊢
        rw [if_neg (by rw [hc]; decide : ¬ s.cur.type = .eof)]
        omega
      · exact absurd e (Nat.succ_ne_zero _)
    have hr : ∀ x t, r = some (x, t) → Still s2 t := by
      intro x t e
      have : r = if s2.cur.type = .equals then (parseI64 s2.adv.number.1).map fun v => (v, s2.adv.number.2) else some (next, s2) := rfl
      rw [this] at e
      split at e
      · rename_i he
        simp only [Option.map_eq_some_iff] at e
        obtain ⟨_, _, e⟩ := e
        cases e
        exact st_eat (st_adv (.refl s2) he)
      · cases e; exact .refl s2
    clear_value r
    cases r with
    | none => trivial
    | some vt =>
      obtain ⟨v, t⟩ := vt
      dsimp only
      have h3 := st_errs (vals.filter fun c => c.2 = v) (hr v t rfl)
      refine Ok_ite (fun _ => trivial) fun _ => ?_
      generalize List.foldl (fun s x => s.err) t (List.filter (fun c => decide (c.snd = v)) vals) = u at h3 ⊢
      have h4 : Still s1 (if u.cur.type = .comma then u.adv else u) := by
        split
        · rename_i hc; exact st_adv (h2.trans h3) hc
        · exact h2.trans h3
      refine (ih _ _ _ _).mono fun r hr => ⟨h1.trans (h4.trans hr.1), fun e => ?_⟩
      have e4 := hr.1.errs e
      have := hr.2 e
      have := h4.ahead e4
      have := hlt (h4.errs e4)
      simp only [List.length_append, List.length_cons, List.length_nil] at *
      omega

/-! ### The invariant of the loop over declarations -/

/-- The state between two declarations. -/
structure TInv (q : Bool) (s : CSt) : Prop where
  known : Known q s
  nice : q = false → ∃ b, Nice b (s.cur :: s.toks) = true
  code : (s.packets = 0 ∧ Heads s.out) ∨ (s.packets = 1 ∧ Whole q s.out)

/-- Enumerations of ordinary size. -/
def Small (q : Bool) (s : CSt) : Prop := q = false → ∀ e ∈ s.enums, e.values.length < 65536

/-- No more than `n` tokens ahead, and no enumeration of more than `n` values. -/
def CSt.Within (s : CSt) (n : Nat) : Prop := s.left ≤ n ∧ ∀ e ∈ s.enums, e.values.length ≤ n

structure T (q : Bool) (s t : CSt) : Prop where
  errs : t.errs = 0 → s.errs = 0
  enums : ∀ e ∈ s.enums, e ∈ t.enums
  inv : t.errs = 0 → Small q t → TInv q s → TInv q t
  left : t.errs = 0 → ∀ n, s.Within n → t.Within n

theorem T.refl {q : Bool} (s : CSt) : T q s s := ⟨id, fun _ h => h, fun _ _ h => h, fun _ _ h => h⟩
theorem T.trans {q : Bool} {a b c : CSt} (h : T q a b) (g : T q b c) : T q a c :=
  ⟨fun e => h.errs (g.errs e), fun e he => g.enums e (h.enums e he), fun e hs ha =>
    g.inv e hs (h.inv (g.errs e) (fun hq x hx => hs hq x (g.enums x hx)) ha),
    fun e n hn => g.left e n (h.left (g.errs e) n hn)⟩

theorem T.still {q : Bool} {s t : CSt} (h : Still s t) : T q s t := by
  have h1 : t.enums = s.enums := congrArg Prod.fst h.ep
  have h2 : t.packets = s.packets := congrArg Prod.snd h.ep
  refine ⟨h.errs, fun e he => by rw [h1]; exact he, fun e _ hi => ⟨?_, fun hq => ?_, ?_⟩, fun e n hn =>
    ⟨Nat.le_trans (h.ahead e) hn.1, by rw [h1]; exact hn.2⟩⟩
  · unfold Known; rw [h.structs, h1]; exact hi.known
  · obtain ⟨b, hb⟩ := hi.nice hq
    exact ⟨b, h.nice e b hb⟩
  · rw [h2, h.out]; exact hi.code

theorem T.dead {q : Bool} {s t : CSt} (h : t.errs ≠ 0) (h1 : ∀ e ∈ s.enums, e ∈ t.enums) : T q s t :=
  ⟨fun e => absurd e h, h1, fun e => absurd e h, fun e => absurd e h⟩

theorem whole_snoc {q : Bool} {c x : List Byte} (h : Whole q c) (hx : ∀ d, Heads d → Heads (d ++ x)) : Whole q (c ++ x) := by
  obtain ⟨a, k0, k1, b, d, e, h1, h2, h3⟩ := h
  exact ⟨a, k0, k1, b, d ++ x, by rw [e]; simp, h1, h2, hx d h3⟩

/-- A file-level instruction. -/
theorem t_put {q : Bool} {s : CSt} {x : List Byte} (hx : ∀ d, Heads d → Heads (d ++ x)) : T q s (s.put x) := by
  refine ⟨id, fun _ h => h, fun _ _ hi => ⟨hi.known, hi.nice, ?_⟩, fun _ _ h => h⟩
  rcases hi.code with ⟨h1, h2⟩ | ⟨h1, h2⟩
  · exact .inl ⟨h1, hx _ h2⟩
  · exact .inr ⟨h1, whole_snoc h2 hx⟩

/-- Skipping a token of any kind. -/
theorem nice_drop {b : Bool} {t : Tok} {ts : List Tok} (h : Nice b (t :: ts) = true) : ∃ b', Nice b' ts = true := by
  unfold Nice at h
  simp only [Bool.and_eq_true] at h
  exact ⟨_, h.2⟩

theorem t_adv {q : Bool} (s : CSt) : T q s s.adv := by
  refine ⟨fun e => (adv_ahead e).1, fun _ h => h, fun e _ hi => ⟨hi.known, fun hq => ?_, hi.code⟩, fun e n hn =>
    ⟨Nat.le_trans (left_adv' (s := s.toPSt) e) hn.1, hn.2⟩⟩
  obtain ⟨b, hb⟩ := hi.nice hq
  obtain ⟨b', hb'⟩ := nice_drop hb
  exact ⟨b', nice_ahead e hb'⟩

theorem t_skip {q : Bool} (f : Nat) (s : CSt) : (skipToParen f s).Ok (T q s) := by
  induction f generalizing s with
  | zero => trivial
  | succ f ih =>
    unfold skipToParen
    exact Ok_ite (fun _ => .refl s) fun _ => (ih s.adv).mono fun t ht => (t_adv s).trans ht

theorem t_topDec {q : Bool} (f : Nat) (s : CSt) : (topDec f s).Ok (T q s) := by
  unfold topDec
  extract_lets t s1
  have h1 : T q s s1 := .still (st_eat (.refl s))
  refine Ok_ite (fun _ => ?_) fun _ => Ok_ite (fun _ => trivial) fun _ => ?_
  · have h2 : T q s1 (s1.eat .lparen).number.2 := .still (st_eat (st_eat (.refl s1)))
    exact (h1.trans h2).trans ((t_put fun d hd => .version hd).trans (.still (st_eat (.refl _))))
  refine Ok_ite (fun _ => h1.trans (t_put fun d hd => .big hd)) fun _ => ?_
  refine Ok_ite (fun _ => h1.trans (t_put fun d hd => .little hd)) fun _ => ?_
  refine Ok_ite (fun _ => h1.trans (.still ⟨.same rfl rfl rfl, rfl, rfl, rfl⟩)) fun _ => ?_
  refine Ok_ite (fun _ => ?_) fun _ => h1
  exact (t_skip f _).bind fun u hu => h1.trans ((T.still (st_eat (.refl s1))).trans (hu.trans (.still (st_eat (.refl u)))))

theorem t_topDecs {q : Bool} (f : Nat) (s : CSt) : (topDecs f s).Ok (T q s) := by
  induction f generalizing s with
  | zero => trivial
  | succ f ih =>
    unfold topDecs
    refine Ok_ite (fun _ => ?_) fun _ => .refl s
    exact (t_topDec f s.adv).bind fun t ht => (ih t).mono fun u hu => ((t_adv s).trans ht).trans hu

/-! ### Enumerations -/

theorem t_enum {q : Bool} (f : Nat) (s : CSt) : (parseEnum f s).Ok (T q s) := by
  unfold parseEnum
  extract_lets name s1 s2 s3 sa ta sb r
  have h3 : Still s s3 := st_errIf (st_errIf (st_eat (.refl s)))
  have hr : Still s r.2 ∧ isIntOp r.1 = true := by
    have : r = if s3.cur.type = .colon then
        (match s3.adv.cur.find enumTypes with | some op => (op, s3.adv.eat .identifier) | none => (0x12, (s3.adv.eat .identifier).err))
        else (0x12, s3) := rfl
    rw [this]
    split
    · rename_i hc
      have h4 : Still s (s3.adv.eat .identifier) := st_eat (st_adv h3 hc)
      split
      · rename_i op ho
        exact ⟨h4, find_all isIntOp ho (by decide +kernel)⟩
      · exact ⟨st_err h4, rfl⟩
    · exact ⟨h3, rfl⟩
  refine (enumLoop_still f [] [] 0 (r.2.eat .lbrace)).bind fun x hx' => ?_
  have h4 : Still s (r.2.eat .lbrace) := st_eat hr.1
  have hx := h4.trans hx'.1
  have h5 : Still s (x.2.eat .rbrace) := st_eat hx
  have h1 : (x.2.eat .rbrace).enums = s.enums := congrArg Prod.fst h5.ep
  have h2 : (x.2.eat .rbrace).packets = s.packets := congrArg Prod.snd h5.ep
  refine ⟨h5.errs, fun e he => ?_, fun e hs hi => ⟨⟨?_, ?_⟩, fun hq => ?_, ?_⟩, fun e n hn => ⟨Nat.le_trans (h5.ahead e) hn.1, fun y hy => ?_⟩⟩
  · show e ∈ (x.2.eat .rbrace).enums ++ _
    rw [h1]; exact List.mem_append_left _ he
  · show ∀ y ∈ (x.2.eat .rbrace).structs, _
    rw [h5.structs]; exact hi.known.1
  · intro y hy
    refine ⟨?_, fun hq => hs hq y hy⟩
    rcases List.mem_append.mp (show y ∈ (x.2.eat .rbrace).enums ++ _ from hy) with hy | hy
    · rw [h1] at hy; exact (hi.known.2 y hy).1
    · rw [List.mem_singleton] at hy; rw [hy]; exact hr.2
  · obtain ⟨b, hb⟩ := hi.nice hq
    exact ⟨b, h5.nice e b hb⟩
  · show (((x.2.eat .rbrace).packets = 0 ∧ Heads (x.2.eat .rbrace).out) ∨ ((x.2.eat .rbrace).packets = 1 ∧ Whole q (x.2.eat .rbrace).out))
    rw [h2, h5.out]; exact hi.code
  · rcases List.mem_append.mp (show y ∈ (x.2.eat .rbrace).enums ++ _ from hy) with hy | hy
    · rw [h1] at hy; exact hn.2 y hy
    · rw [List.mem_singleton] at hy
      rw [hy]
      show x.1.length ≤ n
      have e2 : x.2.errs = 0 := (st_eat (ty := .rbrace) (.refl x.2)).errs e
      have h6 := hx'.2 e2
      have h7 := h4.ahead (hx'.1.errs e2)
      have h8 := hn.1
      simp only [List.length_nil] at h6
      omega

/-! ### Structs -/

theorem setLast_snoc (l : List (List Byte × List Byte)) (x : List Byte × List Byte) (code : List Byte) : setLast (l ++ [x]) code = l ++ [(x.1, code)] := by
  induction l with
  | nil => rfl
  | cons y l ih =>
    cases l with
    | nil => rfl
    | cons z l => exact congrArg (y :: ·) ih

/-- Behind a keyword. -/
theorem key_nice {q : Bool} {s : CSt} (hi : TInv q s) (hq : q = false) (e : s.adv.errs = 0) (hk : s.cur.type = .kwStruct ∨ s.cur.type = .kwPacket) :
    Nice (decide (s.cur.type = .kwStruct)) (s.adv.cur :: s.adv.toks) = true := by
  obtain ⟨b, hb⟩ := hi.nice hq
  refine nice_ahead e ?_
  unfold Nice at hb
  simp only [Bool.and_eq_true] at hb
  rcases hk with hk | hk
  · rw [if_pos hk] at hb; rw [hk]; exact hb.2
  · rw [if_neg (by rw [hk]; decide), if_pos hk] at hb; rw [hk]; exact hb.2

theorem t_struct {q : Bool} (P : PEnv) (f : Nat) (s : CSt) (hk : s.cur.type = .kwStruct) : (parseStruct P f s.adv).Ok (T q s) := by
  unfold parseStruct
  extract_lets name s1 s2 s3 outer s4 src s5
  have h3 : Still s.adv s3 := st_errIf (st_errIf (st_eat (.refl _)))
  have h5 : R q q True s4 s5 := by
    have : s5 = if s4.pending then { s4.put [0x25, 0x02] with inBit := true, pending := false, bitCount := 0, bitValid := true } else s4 := rfl
    rw [this]
    split
    · exact r_set (r_put (bs := [0x25, 0x02]) (.refl _) fun _ _ => blk_ones _ (by decide +kernel))
    · exact .refl _
  refine ((stmt_r P q f).2.2.2.2.2.1 q id s5).bind fun s6 h6 => ?_
  extract_lets s7
  have h7 : R q q True s4 s7 := by
    have h := h5.trans h6
    have : s7 = if s6.inBit = true ∧ ¬ outer.inBit = true then (s6.errIf (s6.bitValid = true ∧ s6.bitCount.toNat % 8 ≠ 0)).put [0x26] else s6 := rfl
    rw [this]
    split
    · exact r_put (r_errIf h) fun _ _ => blk_one (by decide +kernel)
    · exact h
  have e7 : s7.enums = s.enums := (congrArg Prod.fst h7.enums : s7.enums = s3.enums).trans (congrArg Prod.fst h3.ep)
  have p7 : s7.packets = s.packets := (congrArg Prod.snd h7.enums : s7.packets = s3.packets).trans (congrArg Prod.snd h3.ep)
  have es : s7.errs = 0 → s3.errs = 0 := fun e => h7.errs e
  refine ⟨fun e => (adv_ahead (h3.errs (es e))).1, fun e he => ?_, fun e hs hi => ?_, fun e n hn => ⟨?_, ?_⟩⟩
  · show e ∈ s7.enums
    rw [e7]; exact he
  rotate_left
  · have e : s7.errs = 0 := e
    exact Nat.le_trans (Nat.le_trans (h7.ahead e) (h3.ahead (es e))) (Nat.le_trans (left_adv' (s := s.toPSt) (h3.errs (es e))) hn.1)
  · show ∀ x ∈ s7.enums, _
    rw [e7]; exact hn.2
  have e : s7.errs = 0 := e
  have ea : s.adv.errs = 0 := h3.errs (es e)
  have hst : s3.structs = s.structs := h3.structs
  have hk4 : Known q s4 := by
    refine ⟨fun x hx => ?_, fun x hx => ?_⟩
    · rcases List.mem_append.mp (show x ∈ s3.structs ++ [(name, [])] from hx) with hx | hx
      · rw [hst] at hx; exact hi.known.1 x hx
      · rw [List.mem_singleton] at hx; rw [hx]; exact .nil
    · exact hi.known.2 x (by rw [← show s3.enums = s.enums from congrArg Prod.fst h3.ep]; exact hx)
  have hb4 : Before q q s4 := by
    refine ⟨hk4, fun hq => ?_⟩
    have := h3.nice (es e) _ (key_nice hi hq ea (.inl hk))
    rw [hk] at this
    subst hq
    exact this
  obtain ⟨b, eb, bb⟩ := h7.code e trivial hb4
  have eb : s7.out = b := eb
  have hn := h7.next e hb4
  refine ⟨⟨?_, ?_⟩, fun hq => ⟨_, hn.2 hq⟩, ?_⟩
  · show ∀ x ∈ setLast s7.structs s7.out, _
    rw [h7.structs, show s4.structs = s3.structs ++ [(name, [])] from rfl, setLast_snoc]
    intro x hx
    rcases List.mem_append.mp hx with hx | hx
    · rw [hst] at hx; exact hi.known.1 x hx
    · rw [List.mem_singleton] at hx; rw [hx, eb]; exact bb
  · show ∀ x ∈ s7.enums, _
    rw [e7]; exact hi.known.2
  · show (s7.packets = 0 ∧ Heads s3.out) ∨ (s7.packets = 1 ∧ Whole q s3.out)
    rw [p7, h3.out]; exact hi.code

/-! ### Packets -/

theorem t_packet {q : Bool} (P : PEnv) (f : Nat) (s s' : CSt) (hk : s.cur.type = .kwPacket)
    (hs : s' = { (s.errIf (s.packets > 0)).adv with packets := (s.errIf (s.packets > 0)).packets + 1 }) : (parsePacket P f s').Ok (T q s) := by
  unfold parsePacket
  extract_lets name s1 s2 s3 loc s4
  have h3 : Still s' s3 := st_errIf (st_errIf (st_eat (.refl _)))
  have hbody : CRes.Ok (fun t => R q true True s4 t) (if s4.cur.type = .equals then
      (match ((s4.adv.eat .identifier).eat .semicolon).findStruct s4.adv.cur.text with
        | none => .ok ((s4.adv.eat .identifier).eat .semicolon).err
        | some code => .ok (((s4.adv.eat .identifier).eat .semicolon).put code))
      else (parseBlock P f { s4 with fields := [] }).bind fun s => .ok { s with fields := [] }) := by
    refine Ok_ite (fun he => ?_) fun _ => ?_
    · have h6 : R q true True s4 ((s4.adv.eat .identifier).eat .semicolon) := r_eat (r_eat (r_adv' (.refl _) he))
      split
      · exact r_err h6
      · rename_i code hc
        exact r_put h6 fun _ hp => (hp.1.1 _ (lookup_mem hc)).mono
    · refine ((stmt_r P q f).2.2.2.2.2.1 true (fun _ => rfl) _).bind fun t ht => ?_
      exact r_set ((r_set (.refl s4)).trans ht)
  refine hbody.bind fun s5 h5 => ?_
  dsimp only
  have hp : (s.errIf (s.packets > 0)).packets = s.packets := by unfold CSt.errIf; split <;> rfl
  have he : (s.errIf (s.packets > 0)).enums = s.enums := by unfold CSt.errIf; split <;> rfl
  have e5 : s5.enums = s.enums := (congrArg Prod.fst h5.enums : s5.enums = s3.enums).trans ((congrArg Prod.fst h3.ep : s3.enums = s'.enums).trans (by rw [hs]; exact he))
  have p5 : s5.packets = s.packets + 1 := (congrArg Prod.snd h5.enums : s5.packets = s3.packets).trans ((congrArg Prod.snd h3.ep : s3.packets = s'.packets).trans (by rw [hs]; exact congrArg (· + 1) hp))
  have es : s5.errs = 0 → s.adv.errs = 0 ∧ s.packets = 0 ∧ s' = { s.adv with packets := s.packets + 1 } := by
    intro e
    have e' : s'.errs = 0 := h3.errs (h5.errs e)
    rw [hs] at e' ⊢
    unfold CSt.errIf at e' ⊢
    split at e'
    · exact absurd (adv_ahead (s := s.err.toPSt) e').1 (Nat.succ_ne_zero _)
    · rename_i hc
      rw [if_neg hc]
      exact ⟨e', by simp at hc; omega, rfl⟩
  refine ⟨fun e => (adv_ahead (es e).1).1, fun e hx => ?_, fun e hsm hi => ?_, fun e n hn => ⟨?_, ?_⟩⟩
  · show e ∈ s5.enums
    rw [e5]; exact hx
  rotate_left
  · have e : s5.errs = 0 := e
    refine Nat.le_trans (Nat.le_trans (h5.ahead e) (h3.ahead (h5.errs e))) ?_
    rw [(es e).2.2]
    exact Nat.le_trans (left_adv' (s := s.toPSt) (es e).1) hn.1
  · show ∀ x ∈ s5.enums, _
    rw [e5]; exact hn.2
  have e : s5.errs = 0 := e
  obtain ⟨ea, hp0, hs'⟩ := es e
  have hk3 : Known q s3 := by
    unfold Known
    rw [h3.structs, show s3.enums = s'.enums from congrArg Prod.fst h3.ep, hs']
    exact hi.known
  have hb : Before q true s4 := by
    refine ⟨hk3, fun hq => ?_⟩
    have := h3.nice (h5.errs e) false (by
      have := key_nice hi hq ea (.inr hk)
      rw [hk] at this
      rw [hs']
      exact this)
    exact this
  obtain ⟨b, eb, bb⟩ := h5.code e trivial hb
  have hn := h5.next e hb
  have o3 : s3.out = s.out := h3.out.trans (by rw [hs']; rfl)
  have ho : s5.out = s.out ++ [0x07, 0xFF, 0xFF] ++ b := by rw [eb]; show s3.out ++ _ ++ _ = _; rw [o3]
  have hh : Heads s.out := by
    rcases hi.code with ⟨_, h⟩ | ⟨h, _⟩
    · exact h
    · omega
  refine ⟨⟨?_, ?_⟩, fun hq => ⟨_, hn.2 hq⟩, .inr ⟨?_, ?_⟩⟩
  · show ∀ x ∈ s5.structs, _
    rw [h5.structs]; exact hk3.1
  · show ∀ x ∈ s5.enums, _
    rw [e5]; exact hi.known.2
  · show s5.packets = 1
    rw [p5, hp0]
  · obtain ⟨k0, k1, ek⟩ := leBytes_two (BitVec.ofNat 64 (s5.intern name).2)
    have := patch_mid (s := (s5.intern name).1) (A := s.out ++ [0x07]) (x := [0xFF, 0xFF]) (B := b) (u16le (s5.intern name).2) (n := loc + 1)
      (by show s5.out = _; rw [ho]; simp) (by show s3.out.length + 1 = _; rw [o3]; simp) (by simp)
    rw [this, show u16le (s5.intern name).2 = [k0, k1] from ek]
    exact ⟨s.out, k0, k1, b, [], by simp, hh, bb, .nil⟩

/-! ### Whole files -/

theorem t_top {q : Bool} (P : PEnv) (f : Nat) (s : CSt) : (topLoop P f s).Ok (T q s) := by
  induction f generalizing s with
  | zero => trivial
  | succ f ih =>
    unfold topLoop
    refine Ok_ite (fun _ => .refl s) fun _ => Ok_ite (fun _ => (ih s.adv).mono fun t ht => (t_adv s).trans ht) fun _ => ?_
    refine (t_topDecs (q := q) f s).bind fun s1 h1 => ?_
    refine CRes.Ok.bind (p := T q s) ?_ fun s2 h2 => (ih s2).mono fun t ht => h2.trans ht
    split
    · rename_i hk; exact (t_struct P f s1 hk).mono fun t ht => h1.trans ht
    · exact (t_enum f s1.adv).mono fun t ht => (h1.trans (t_adv s1)).trans ht
    · rename_i hk
      exact (t_packet P f s1 _ hk rfl).mono fun t ht => h1.trans ht
    · exact h1.trans (t_adv s1)
    · exact h1
    · exact h1.trans (.still (st_err (.refl _)))

theorem parse_ok {P : PEnv} {f : Nat} {u s : CSt} (h : parseTop P f u = .ok s) (he : s.errs = 0) : topLoop P f u = .ok s ∧ s.packets ≠ 0 := by
  unfold parseTop at h
  cases ht : topLoop P f u with
  | ok t =>
    rw [ht] at h
    have h : t.errIf (t.packets = 0) = s := by cases h; rfl
    unfold CSt.errIf at h
    split at h
    · subst h; exact absurd he (Nat.succ_ne_zero _)
    · rename_i hp
      subst h
      exact ⟨rfl, by simpa using hp⟩
  | ub => rw [ht] at h; cases h
  | imports => rw [ht] at h; cases h
  | stuck => rw [ht] at h; cases h

theorem parse_shape {q : Bool} (P : PEnv) (f : Nat) (toks : List Tok) (s : CSt) (h : parseTop P f (parseStart toks).adv = .ok s) (he : s.errs = 0)
    (hn : q = false → Nice false toks = true) (hs : Small q s) : Whole q s.out := by
  obtain ⟨h1, h2⟩ := parse_ok h he
  have ht := t_top (q := q) P f (parseStart toks).adv
  rw [h1] at ht
  have ht : T q (parseStart toks).adv s := ht
  have h0 : TInv q (parseStart toks).adv := by
    refine ⟨⟨fun x hx => (by cases hx), fun x hx => (by cases hx)⟩, fun hq => ⟨false, ?_⟩, .inl ⟨rfl, .nil⟩⟩
    exact nice_ahead (s := (parseStart toks).toPSt) (ht.errs he) (hn hq)
  rcases (ht.inv he hs h0).code with ⟨h3, _⟩ | ⟨_, h3⟩
  · exact absurd h3 h2
  · exact h3

/-- An enumeration has no more values than the text has tokens. -/
theorem parse_small (P : PEnv) (f : Nat) (toks : List Tok) (s : CSt) (h : parseTop P f (parseStart toks).adv = .ok s) (he : s.errs = 0) :
    ∀ e ∈ s.enums, e.values.length ≤ toks.length := by
  obtain ⟨h1, h2⟩ := parse_ok h he
  have ht := t_top (q := true) P f (parseStart toks).adv
  rw [h1] at ht
  have ht : T true (parseStart toks).adv s := ht
  exact (ht.left he toks.length ⟨left_adv (s := (parseStart toks).toPSt) (ht.errs he), fun x hx => (by cases hx)⟩).2

/-! ### The theorems -/

/-- The compiler on tokens: an image is the image of what the parser wrote, without messages. -/
theorem image_parse {P : PEnv} {f : Nat} {toks : List Tok} {bs : List Byte} (h : compileToks P f toks = .image bs) :
    ∃ s, parseTop P f (parseStart toks).adv = .ok s ∧ s.errs = 0 ∧ bs = writeImage (optimizeStrings s.tab s.out).1 (optimizeStrings s.tab s.out).2 := by
  unfold compileToks at h
  split at h
  · rename_i s hs
    refine ⟨s, hs, ?_⟩
    split at h
    · cases h
    · rename_i hb
      refine ⟨?_, by injection h with h; exact h.symm⟩
      unfold CSt.bad at hb
      simpa using hb
  · cases h
  · cases h
  · cases h

/-- **C80**, every accepted source text. Whatever the text is, if the compiler gives an image then what it generated (the image holds it
with renumbered names, see C48) is file-level instructions, one packet's name, structured code, file-level instructions. Every piece of
structured code is complete instructions of the VM, bracketed arrays, conditionals and switches whose jumps lead to the ends and
starts of their own parts, or one of the pieces marked with `q` in `Blk`. -/
theorem C80_shape (P : PEnv) (fuel : Nat) (src bs : List Byte) (h : compile P fuel src = .image bs) :
    ∃ tab code, Whole true code ∧ bs = writeImage (optimizeStrings tab code).1 (optimizeStrings tab code).2 := by
  unfold compile at h
  split at h
  · cases h
  · obtain ⟨s, h1, h2, h3⟩ := image_parse h
    exact ⟨s.tab, s.out, parse_shape P fuel _ s h1 h2 (fun hq => by cases hq) (fun hq => by cases hq), h3⟩

/-- **C80**, texts that pass a check on their tokens: no bit width over 1 on a boolean, no switch in a struct, and no enumeration of 65536 values
or more. Then none of the marked pieces occurs. -/
theorem C80_strict_any (P : PEnv) (fuel : Nat) (src bs : List Byte) (toks : List Tok)
    (hl : lexAll (src.length + 1) (src ++ [0]) 1 = some toks) (hn : Nice false (toks.map Tok.bare) = true)
    (hs : ∀ s, parseTop P fuel (parseStart (toks.map Tok.bare)).adv = .ok s → ∀ e ∈ s.enums, e.values.length < 65536)
    (h : compile P fuel src = .image bs) :
    ∃ tab code, Whole false code ∧ bs = writeImage (optimizeStrings tab code).1 (optimizeStrings tab code).2 := by
  unfold compile at h
  rw [hl] at h
  obtain ⟨s, h1, h2, h3⟩ := image_parse h
  exact ⟨s.tab, s.out, parse_shape P fuel _ s h1 h2 (fun _ => hn) (fun _ => hs s h1), h3⟩

/-- The same for texts of less than 65535 bytes, which have no such enumeration. -/
theorem C80_strict (P : PEnv) (fuel : Nat) (src bs : List Byte) (toks : List Tok) (hlen : src.length < 65535)
    (hl : lexAll (src.length + 1) (src ++ [0]) 1 = some toks) (hn : Nice false (toks.map Tok.bare) = true)
    (h : compile P fuel src = .image bs) :
    ∃ tab code, Whole false code ∧ bs = writeImage (optimizeStrings tab code).1 (optimizeStrings tab code).2 := by
  unfold compile at h
  rw [hl] at h
  obtain ⟨s, h1, h2, h3⟩ := image_parse h
  refine ⟨s.tab, s.out, parse_shape P fuel _ s h1 h2 (fun _ => hn) (fun _ e he => ?_), h3⟩
  have h4 := parse_small P fuel _ s h1 h2 e he
  have h5 := lexAll_length _ _ _ _ hl
  rw [List.length_map] at h4
  omega

/-! ### Examples -/

/-- A text that is not in the grammar of C59: stray documentation, a semicolon behind a declaration, unknown decorators with arguments. -/
def exSrc80 : List Byte := word "@version(2)
enum Kind : u8 { A = 1, B, C };
@note(anything 1 2 3 { at all)
struct S { u8 a; if (a > 2) { @be u16 b; } }
packet P {
  u8 n;
  Kind k;
  S list[3];
  bool f : 1;
  switch (k) {
    case Kind.A: { u16 x[2]; }
    case Kind.B: { @range(1, 9) u8 y; }
    default: { string z until 0; }
  }
}
@big_endian
"

def exImg80 : List Byte :=
  [67, 78, 68, 73, 76, 1, 11, 0, 16, 0, 0, 0, 51, 0, 0, 0, 97, 0, 110, 0, 107, 0, 108, 105, 115, 116, 0, 108, 105, 115, 116, 46, 97, 0, 108,
   105, 115, 116, 46, 98, 0, 102, 0, 120, 0, 121, 0, 122, 0, 80, 0, 5, 2, 7, 10, 0, 16, 1, 0, 16, 2, 0, 75, 16, 3, 0, 1, 2, 3, 52, 3, 0, 3,
   0, 0, 0, 3, 3, 0, 16, 4, 0, 96, 4, 0, 97, 2, 0, 0, 0, 0, 0, 0, 0, 107, 80, 10, 0, 0, 0, 2, 17, 5, 0, 1, 82, 0, 0, 0, 0, 4, 56, 34, 6, 0,
   1, 81, 2, 0, 38, 0, 0, 0, 52, 7, 0, 2, 0, 0, 0, 17, 7, 0, 56, 82, 52, 0, 0, 0, 16, 8, 0, 66, 16, 1, 9, 82, 40, 0, 0, 0, 48, 9, 0, 255, 0,
   82, 30, 0, 0, 0, 2, 0, 28, 0, 0, 0, 1, 0, 0, 0, 0, 0, 0, 0, 0, 0, 0, 0, 2, 0, 0, 0, 0, 0, 0, 0, 16, 0, 0, 0, 2]

theorem ex80_compile : compile demoP 1000 exSrc80 = .image exImg80 := by decide +kernel
theorem ex80_nice : (lexAll (exSrc80.length + 1) (exSrc80 ++ [0]) 1).map (fun l => Nice false (l.map Tok.bare)) = some true := by decide +kernel

/-- The text meets the hypotheses of both theorems. -/
example : ∃ tab code, Whole true code ∧ exImg80 = writeImage (optimizeStrings tab code).1 (optimizeStrings tab code).2 :=
  C80_shape demoP 1000 exSrc80 exImg80 ex80_compile
example : ∃ tab code, Whole false code ∧ exImg80 = writeImage (optimizeStrings tab code).1 (optimizeStrings tab code).2 := by
  have h := ex80_nice
  obtain ⟨toks, h1, h2⟩ := Option.map_eq_some_iff.mp h
  exact C80_strict demoP 1000 exSrc80 exImg80 toks (by decide +kernel) h1 h2 ex80_compile

/-- A text with each of the marked pieces, which the check refuses: a wide boolean, and a struct with a switch. -/
def exSrc80q : List Byte := word "struct S { u8 k; switch (k) { case 7: u8 a; } } packet P { bool b : 82; S s; }"
theorem ex80q_nice : (lexAll (exSrc80q.length + 1) (exSrc80q ++ [0]) 1).map (fun l => Nice false (l.map Tok.bare)) = some false := by decide +kernel

end Cnd
