import Verif.Props.CodeShape
/-
  C80, statements: what fields, conditionals, switches and blocks write.
-/
set_option linter.unusedVariables false
set_option linter.unusedSimpArgs false

namespace Cnd

/-! ### The instructions the parser writes -/

theorem blk_fixed {q w : Bool} {op : Byte} {r : List Byte} (n : Nat) (h : ∀ r, opArgs (decodeOp op) r = some n) (hp : (decodeOp op).plain = true)
    (hl : r.length = n) : Blk q w (op :: r) := .instr (plain_of_args (by rw [h, hl]) (.inl hp))

/-- Codes of integer types. -/
def isIntOp (op : Byte) : Bool := 0x10 ≤ op.toNat && op.toNat ≤ 0x17

theorem intOp_tag (op : Byte) (h : isIntOp op = true) : ∃ t, tyTag (leWord [op]) = some t ∧ t.size = intSize op := by
  have : ∀ op : Byte, isIntOp op = true → (tyTag (leWord [op])).map Ty.size = some (intSize op) := by decide +kernel
  have h := this op h
  simp only [Option.map_eq_some_iff] at h
  exact h

theorem intOp_len (op : Byte) (h : isIntOp op = true) (r : List Byte) : opArgs (decodeOp op) r = some 2 ∧ (decodeOp op).plain = true := by
  have : ∀ op : Byte, isIntOp op = true → (decodeOp op).plain = true ∧ ∃ t, decodeOp op = .io t := by
    intro op h
    have : ∀ op : Byte, isIntOp op = true → (match decodeOp op with | .io _ => true | _ => false) = true := by decide +kernel
    have h := this op h
    split at h
    · rename_i t e; rw [e]; exact ⟨rfl, t, rfl⟩
    · cases h
  obtain ⟨h1, t, h2⟩ := this op h
  exact ⟨by rw [h2]; rfl, h1⟩

/-- Codes of plain types. -/
def isPlainOp (op : Byte) : Bool := 0x10 ≤ op.toNat && op.toNat ≤ 0x1A

theorem plainOp_len (op : Byte) (h : isPlainOp op = true) (r : List Byte) : opArgs (decodeOp op) r = some 2 ∧ (decodeOp op).plain = true := by
  have : ∀ op : Byte, isPlainOp op = true → isIntOp op = true ∨ op = 0x18 ∨ op = 0x19 ∨ op = 0x1A := by decide +kernel
  rcases this op h with h | rfl | rfl | rfl
  · exact intOp_len op h r
  all_goals exact ⟨rfl, rfl⟩

theorem blk_value {q w : Bool} {op : Byte} (h : isPlainOp op = true) (key : Nat) : Blk q w (op :: u16le key) :=
  .instr (plain_of_args (by rw [(plainOp_len op h _).1, u16le_length]) (.inl (plainOp_len op h []).2))

theorem intOp_plain {op : Byte} (h : isIntOp op = true) : isPlainOp op = true := by
  simp only [isIntOp, isPlainOp, Bool.and_eq_true, decide_eq_true_eq] at h ⊢
  omega

theorem blk_const {q w : Bool} {op : Byte} (h : isIntOp op = true) (key : Nat) (v : Word) :
    Blk q w (0x40 :: (u16le key ++ op :: leBytes (intSize op) v)) := by
  obtain ⟨t, h1, h2⟩ := intOp_tag op h
  refine .instr (plain_of_args ?_ (.inl rfl))
  obtain ⟨a, b, e⟩ := leBytes_two (BitVec.ofNat 64 key)
  rw [show u16le key = [a, b] from e]
  show (tyTag (leWord [op])).map _ = _
  rw [h1, Option.map_some, h2]
  simp [leBytes_length]; omega

theorem range_args_f32 (r : List Byte) : opArgs (decodeOp 0x42) (0x18 :: r) = some 9 := by
  have h0 : (0x18 :: r : List Byte).take 1 = [0x18] := rfl
  have h1 : tyTag (leWord [0x18]) = none := by decide +kernel
  have h2 : leWord [0x18] = 0x18 := by decide +kernel
  have h3 : decodeOp 0x42 = .rangeCheck := by decide +kernel
  rw [h3]
  unfold opArgs
  dsimp only
  rw [h0, h1, h2]
  rfl

theorem range_args_f64 (r : List Byte) : opArgs (decodeOp 0x42) (0x19 :: r) = some 17 := by
  have h0 : (0x19 :: r : List Byte).take 1 = [0x19] := rfl
  have h1 : tyTag (leWord [0x19]) = none := by decide +kernel
  have h2 : leWord [0x19] = 0x19 := by decide +kernel
  have h3 : decodeOp 0x42 = .rangeCheck := by decide +kernel
  rw [h3]
  unfold opArgs
  dsimp only
  rw [h0, h1, h2]
  rfl

theorem blk_range {q w : Bool} (P : PEnv) {op : Byte} (h : isPlainOp op = true) (lo hi a b : List Byte) (sw : Bool)
    (hr : rangeBounds P op lo hi = some (a, b, sw)) : Blk q w ([0x42, op] ++ a ++ b) := by
  have cases : ∀ op : Byte, isPlainOp op = true → isIntOp op = true ∨ op = 0x18 ∨ op = 0x19 ∨ op = 0x1A := by decide +kernel
  rcases cases op h with hi | rfl | rfl | rfl
  · obtain ⟨t, h1, h2⟩ := intOp_tag op hi
    have hl : a.length = intSize op ∧ b.length = intSize op := by
      unfold rangeBounds at hr
      split at hr
      · cases hr; simp [leBytes_length]
      · cases hr; simp [leBytes_length]
      · cases hr; simp [leBytes_length]
      · split at hr <;> cases hr; simp [leBytes_length]
      · split at hr <;> cases hr; simp [leBytes_length]
      · split at hr <;> cases hr; simp [leBytes_length]
      · split at hr <;> cases hr; simp [leBytes_length]
      · rename_i e
        split at hr <;> cases hr
        simp only [leBytes_length, intSize, e, and_self]
      · rename_i e; simp only [isIntOp, e] at hi; cases hi
      · rename_i e; simp only [isIntOp, e] at hi; cases hi
      · exfalso
        simp only [isIntOp, Bool.and_eq_true, decide_eq_true_eq] at hi
        have hx : op.toNat = 0x10 ∨ op.toNat = 0x11 ∨ op.toNat = 0x12 ∨ op.toNat = 0x13 ∨ op.toNat = 0x14 ∨ op.toNat = 0x15 ∨
            op.toNat = 0x16 ∨ op.toNat = 0x17 := by omega
        rcases hx with hx | hx | hx | hx | hx | hx | hx | hx <;> contradiction
    refine .instr (plain_of_args (op := 0x42) (r := op :: (a ++ b)) ?_ (.inl rfl))
    show (match tyTag (leWord [op]) with | some t => _ | none => _) = _
    rw [h1]
    simp only [List.length_cons, List.length_append, hl.1, hl.2, h2]
    congr 1; omega
  · cases hr
    exact .instr (plain_of_args (op := 0x42) (r := 0x18 :: (_ ++ _)) (by rw [range_args_f32]; simp [leBytes_length]) (.inl rfl))
  · cases hr
    exact .instr (plain_of_args (op := 0x42) (r := 0x19 :: (_ ++ _)) (by rw [range_args_f64]; simp [leBytes_length]) (.inl rfl))
  · cases hr
    exact .dud

theorem flat_len {α : Type} (f : α → List Byte) (n : Nat) (h : ∀ a, (f a).length = n) (l : List α) : (l.map f).flatten.length = l.length * n := by
  induction l with
  | nil => simp
  | cons a l ih =>
    simp only [List.map_cons, List.flatten_cons, List.length_append, ih, h, List.length_cons, Nat.add_mul, Nat.one_mul]
    omega

theorem blk_enum {q w : Bool} {op : Byte} (h : isIntOp op = true) {α : Type} (vs : List α) (f : α → Word) (hq : q = false → vs.length < 65536) :
    Blk q w ([0x4B, op] ++ u16le vs.length ++ (vs.map fun v => leBytes (intSize op) (f v)).flatten) := by
  by_cases hv : vs.length < 65536
  · obtain ⟨t, h1, h2⟩ := intOp_tag op h
    have hk : (leWord (u16le vs.length)).toNat = vs.length := by
      unfold u16le
      rw [leWord_leBytes_lt (by omega) (by simp only [BitVec.toNat_ofNat]; omega)]
      simp only [BitVec.toNat_ofNat]
      omega
    refine .instr (plain_of_args (op := 0x4B) (r := op :: (u16le vs.length ++ _)) ?_ (.inl rfl))
    have e1 : ((op :: (u16le vs.length ++ (vs.map fun v => leBytes (intSize op) (f v)).flatten)).drop 1).take 2 = u16le vs.length := by
      rw [List.drop_one, List.tail_cons, List.take_append_of_le_length (by rw [u16le_length]; omega)]
      exact List.take_of_length_le (by rw [u16le_length]; omega)
    show (tyTag (leWord [op])).map _ = _
    rw [h1, Option.map_some]
    rw [e1, hk, h2]
    simp only [List.length_cons, List.length_append, u16le_length]
    rw [flat_len _ (intSize op) (fun a => leBytes_length _ _)]
    congr 1; omega
  · cases q with
    | false => exact absurd (hq rfl) hv
    | true =>
      refine .big rfl ?_ rfl
      simp only [List.length_append, u16le_length, List.length_cons]
      rw [flat_len _ (intSize op) (fun a => leBytes_length _ _)]
      have : 1 ≤ intSize op := by
        have : ∀ op : Byte, isIntOp op = true → 1 ≤ intSize op := by decide +kernel
        exact this op h
      have := Nat.mul_le_mul_left vs.length this
      omega

/-- Decorators whose lists fit into an instruction. -/
def DecOk (d : Dec) : Prop := d.poly.length ≤ 16 ∧ d.spline.length ≤ 32 ∧ d.spline.length % 2 = 0

theorem blk_trans {q w : Bool} {d : Dec} (h : DecOk d) : Blk q w (transEmit d) := by
  obtain ⟨h1, h2, h3⟩ := h
  have hb : ∀ n : Nat, n < 256 → (leWord [BitVec.ofNat 8 n]).toNat = n := by
    intro n hn
    rw [show leWord [BitVec.ofNat 8 n] = (BitVec.ofNat 8 n).setWidth 64 from by simp [leWord]]
    simp only [BitVec.toNat_setWidth, BitVec.toNat_ofNat]
    omega
  unfold transEmit
  split
  · exact .nil
  · exact blk_fixed 16 (fun _ => rfl) rfl (by simp [leBytes_length])
  · exact blk_fixed 8 (fun _ => rfl) rfl (leBytes_length _ _)
  · exact blk_fixed 8 (fun _ => rfl) rfl (leBytes_length _ _)
  · exact blk_fixed 8 (fun _ => rfl) rfl (leBytes_length _ _)
  · exact blk_fixed 8 (fun _ => rfl) rfl (leBytes_length _ _)
  · refine .instr (plain_of_args ?_ (.inl rfl))
    show some (1 + (leWord [BitVec.ofNat 8 d.poly.length]).toNat * 8) = _
    rw [hb _ (by omega)]
    simp only [List.length_cons]
    rw [flat_len _ 8 (fun a => leBytes_length _ _)]
    congr 1; omega
  · refine .instr (plain_of_args ?_ (.inl rfl))
    show some (1 + (leWord [BitVec.ofNat 8 (d.spline.length / 2)]).toNat * 16) = _
    rw [hb _ (by omega)]
    simp only [List.length_cons]
    rw [flat_len _ 8 (fun a => leBytes_length _ _)]
    congr 1; omega

theorem blk_crc {q w : Bool} (d : Dec) : Blk q w (crcEmit d) := by
  unfold crcEmit
  split
  · exact blk_fixed 7 (fun _ => rfl) rfl (by simp [leBytes_length])
  · split
    · exact blk_fixed 13 (fun _ => rfl) rfl (by simp [leBytes_length])
    · exact .nil

/-! ### The relation between the states before and after -/

/-- What the parser knows of structs and enumerations. -/
def Known (q : Bool) (s : CSt) : Prop :=
  (∀ x ∈ s.structs, Blk q q x.2) ∧ ∀ e ∈ s.enums, isIntOp e.type = true ∧ (q = false → e.values.length < 65536)

def Before (q w : Bool) (s : CSt) : Prop := Known q s ∧ (q = false → Nice (!w) (s.cur :: s.toks) = true)

/-- Enumerations and the number of packets. -/
def CSt.ep (s : CSt) : List EnumD × Nat := (s.enums, s.packets)

/-- Structured code is written, if `c` and unless there is a message. -/
structure R (q w : Bool) (c : Prop) (s s' : CSt) : Prop extends Go s.toPSt s'.toPSt where
  structs : s'.structs = s.structs
  enums : s'.ep = s.ep
  code : s'.errs = 0 → c → Before q w s → ∃ b, s'.out = s.out ++ b ∧ Blk q w b

theorem R.next {q w : Bool} {c : Prop} {s s' : CSt} (h : R q w c s s') (e : s'.errs = 0) (hb : Before q w s) : Before q w s' := by
  refine ⟨?_, fun hq => h.nice e _ (hb.2 hq)⟩
  unfold Known
  rw [h.structs, show s'.enums = s.enums from congrArg Prod.fst h.enums]
  exact hb.1

theorem R.trans {q w : Bool} {c : Prop} {a b d : CSt} (h : R q w c a b) (g : R q w c b d) : R q w c a d := by
  refine ⟨h.toGo.trans g.toGo, g.structs.trans h.structs, g.enums.trans h.enums, fun e hc hp => ?_⟩
  obtain ⟨c1, e1, b1⟩ := h.code (g.errs e) hc hp
  obtain ⟨c2, e2, b2⟩ := g.code e hc (h.next (g.errs e) hp)
  exact ⟨c1 ++ c2, by rw [e2, e1, List.append_assoc], .seq b1 b2⟩

theorem R.weaken {q w : Bool} {c d : Prop} {s s' : CSt} (h : R q w c s s') (hd : d → c) : R q w d s s' :=
  ⟨h.toGo, h.structs, h.enums, fun e hc => h.code e (hd hc)⟩

theorem R.of {q w : Bool} {c : Prop} {s t : CSt} (h : RP s.toPSt t.toPSt) (h1 : t.structs = s.structs) (h2 : t.ep = s.ep) : R q w c s t :=
  ⟨h.toGo, h1, h2, fun e _ _ => (h.code e).imp fun b hb => ⟨hb.1, hb.2 q w⟩⟩

theorem R.same {q w : Bool} {c : Prop} {s t : CSt} (h : t.toPSt = s.toPSt) (h1 : t.structs = s.structs) (h2 : t.ep = s.ep) : R q w c s t :=
  .of (by rw [h]; exact .refl _) h1 h2

theorem R.refl {q w : Bool} {c : Prop} (s : CSt) : R q w c s s := .same rfl rfl rfl

/-- Behind a message nothing matters. -/
theorem R.dead {q w : Bool} {c : Prop} {s t : CSt} (h : t.errs ≠ 0) (h1 : t.structs = s.structs) (h2 : t.ep = s.ep) : R q w c s t :=
  ⟨⟨fun e => absurd e h, fun e => absurd e h, fun e => absurd e h⟩, h1, h2, fun e => absurd e h⟩

section
variable {q w : Bool} {c : Prop} {a s : CSt}

theorem r_adv (h : R q w c a s) (h1 : s.cur.type ≠ .kwStruct) (h2 : s.cur.type ≠ .kwPacket) : R q w c a s.adv :=
  h.trans (.of (rp_advance h1 h2) rfl rfl)
theorem r_err (h : R q w c a s) : R q w c a s.err := h.trans (.of (rp_error _) rfl rfl)
theorem r_eat {ty : TT} (h : R q w c a s) (h1 : ty ≠ .kwStruct := by decide) (h2 : ty ≠ .kwPacket := by decide) : R q w c a (s.eat ty) :=
  h.trans (.of (rp_consume h1 h2) rfl rfl)
theorem r_errIf {b : Bool} (h : R q w c a s) : R q w c a (s.errIf b) := by
  unfold CSt.errIf
  split
  · exact r_err h
  · exact h
theorem r_put {bs : List Byte} (h : R q w c a s) (hb : c → Before q w s → Blk q w bs) : R q w c a (s.put bs) :=
  h.trans ⟨.same rfl rfl rfl, rfl, rfl, fun _ hc hp => ⟨bs, rfl, hb hc hp⟩⟩
theorem r_intern {n : List Byte} (h : R q w c a s) : R q w c a (s.intern n).1 := h.trans (.of (.of (.same rfl rfl rfl) rfl) rfl rfl)
theorem r_set {t : CSt} (h : R q w c a s) (e : t.toPSt = s.toPSt := by rfl) (h1 : t.structs = s.structs := by rfl)
    (h2 : t.ep = s.ep := by rfl) : R q w c a t := h.trans (.same e h1 h2)
theorem r_tab (tab : List (List Byte)) (h : R q w c a s) : R q w c a { s with tab := tab } := h.trans (.of (.of (.same rfl rfl rfl) rfl) rfl rfl)
theorem r_number (h : R q w c a s) : R q w c a s.number.2 := r_eat h
theorem r_errs {α : Type} (l : List α) (h : R q w c a s) : R q w c a (l.foldl (fun s _ => s.err) s) := by
  induction l generalizing s with
  | nil => exact h
  | cons x l ih => exact ih (r_err h)

end

/-- The outcome, if it is a state, is one with `p`. -/
def CRes.Ok {α : Type} (p : α → Prop) : CRes α → Prop
  | .ok a => p a
  | _ => True

theorem CRes.Ok.bind {α β : Type} {p : α → Prop} {q : β → Prop} {r : CRes α} {f : α → CRes β} (h : r.Ok p) (g : ∀ a, p a → (f a).Ok q) :
    (r.bind f).Ok q := by
  cases r with
  | ok a => exact g a h
  | ub => trivial
  | imports => trivial
  | stuck => trivial

theorem CRes.Ok.mono {α : Type} {p q : α → Prop} {r : CRes α} (h : r.Ok p) (g : ∀ a, p a → q a) : r.Ok q := by
  cases r <;> first | exact g _ h | exact h

theorem Ok_ite {α : Type} {p : α → Prop} {c : Prop} [Decidable c] {x y : CRes α} (h : c → x.Ok p) (g : ¬ c → y.Ok p) : (if c then x else y).Ok p := by
  split
  · exact h ‹_›
  · exact g ‹_›

/-! ### Decorators -/

section
variable {q w : Bool} {c : Prop} {a : CSt}

theorem r_expr (P : PEnv) (f : Nat) {s : CSt} (h : R q w c a s) : (s.expr P f).Ok (R q w c a) := by
  unfold CSt.expr parseExpr
  have := (expr_rp P.dbl f).1 1 s.toPSt (Nat.le_refl _)
  revert this
  cases parsePrec P.dbl f 1 s.toPSt with
  | ok t p => exact fun hp => h.trans (.of hp rfl rfl)
  | ub => exact fun _ => trivial
  | stuck => exact fun _ => trivial

theorem ne_of_eq {s : CSt} {ty : TT} (h : s.cur.type = ty) (h1 : ty ≠ .kwStruct := by decide) (h2 : ty ≠ .kwPacket := by decide) :
    s.cur.type ≠ .kwStruct ∧ s.cur.type ≠ .kwPacket := by rw [h]; exact ⟨h1, h2⟩

theorem r_adv' {s : CSt} {ty : TT} (h : R q w c a s) (he : s.cur.type = ty) (h1 : ty ≠ .kwStruct := by decide) (h2 : ty ≠ .kwPacket := by decide) :
    R q w c a s.adv := r_adv h (he ▸ h1) (he ▸ h2)

theorem r_poly (P : PEnv) (f : Nat) (cs : List Word) (s : CSt) (h : R q w c a s) (hl : cs.length ≤ 16) :
    (polyLoop P f cs s).Ok fun r => R q w c a r.2 ∧ r.1.length ≤ 16 := by
  induction f generalizing cs s with
  | zero => trivial
  | succ f ih =>
    unfold polyLoop
    dsimp only
    have key : R q w c a (if s.cur.type = .number then (if cs.length < 16 then (cs ++ [P.dbl s.cur.text], s.adv) else (cs, s.adv.err)) else (cs, s.eat .number)).2 ∧
        (if s.cur.type = .number then (if cs.length < 16 then (cs ++ [P.dbl s.cur.text], s.adv) else (cs, s.adv.err)) else (cs, s.eat .number)).1.length ≤ 16 := by
      split
      · rename_i hn
        split
        · exact ⟨r_adv' h hn, by simp; omega⟩
        · exact ⟨r_err (r_adv' h hn), hl⟩
      · exact ⟨r_eat h, hl⟩
    refine Ok_ite (fun hc => ih _ _ (r_adv' key.1 hc) key.2) (fun _ => key)

theorem r_spline (P : PEnv) (f : Nat) (cs : List Word) (s : CSt) (h : R q w c a s) (hl : cs.length ≤ 32 ∧ cs.length % 2 = 0) :
    (splineLoop P f cs s).Ok fun r => R q w c a r.2 ∧ r.1.length ≤ 32 ∧ r.1.length % 2 = 0 := by
  induction f generalizing cs s with
  | zero => trivial
  | succ f ih =>
    unfold splineLoop
    dsimp only
    generalize hr : (if s.cur.type = .number then (if cs.length < 32 then (cs ++ [P.dbl s.cur.text, P.dbl (s.adv.eat .comma).cur.text], (s.adv.eat .comma).eat .number) else (cs, s.adv.err)) else (cs, s.eat .number) : List Word × CSt) = r
    have key : R q w c a r.2 ∧ r.1.length ≤ 32 ∧ r.1.length % 2 = 0 := by
      subst hr
      split
      · rename_i hn
        split
        · exact ⟨r_eat (r_eat (r_adv' h hn)), by simp; omega⟩
        · exact ⟨r_err (r_adv' h hn), hl⟩
      · exact ⟨r_eat h, hl⟩
    refine Ok_ite (fun hc => ih _ _ (r_adv' key.1 hc) key.2) (fun _ => key)

theorem skip_keeps (f : Nat) (s : CSt) : (skipToParen f s).Ok fun t => (t.errs = 0 → s.errs = 0) ∧ t.structs = s.structs ∧ t.ep = s.ep := by
  induction f generalizing s with
  | zero => trivial
  | succ f ih =>
    unfold skipToParen
    refine Ok_ite (fun _ => ⟨id, rfl, rfl⟩) fun _ => (ih s.adv).mono fun t ht => ⟨fun e => (adv_ahead (ht.1 e)).1, ht.2⟩

theorem r_decInt {t : Trans} {d : Dec} {s : CSt} (h : R q w c a s) (hd : DecOk d) : (decInt t d s).Ok fun r => R q w c a r.2 ∧ DecOk r.1 := by
  unfold decInt
  split
  · trivial
  · exact ⟨r_number h, hd⟩

theorem r_decArgs (P : PEnv) (f : Nat) (t : Tok) (d : Dec) (s : CSt) (h : R q w c a s) (hd : DecOk d) :
    (decArgs P f t d s).Ok fun r => R q w c a r.2 ∧ DecOk r.1 := by
  unfold decArgs
  refine Ok_ite (fun _ => Ok_ite (fun hi => ⟨r_intern (r_adv' h hi), hd⟩) fun _ => Ok_ite (fun hn => ⟨r_adv' h hn, hd⟩) fun _ => ⟨r_err h, hd⟩) fun _ => ?_
  refine Ok_ite (fun _ => ?_) fun _ => ?_
  · split
    · trivial
    · exact ⟨r_number h, hd⟩
  refine Ok_ite (fun _ => ?_) fun _ => ?_
  · have : R q w c a (s.number.2.put [0x23, (parseU32 s.number.1).setWidth 8]) :=
      r_put (r_number h) fun _ _ => blk_fixed 1 (fun _ => rfl) rfl rfl
    refine ⟨?_, hd⟩
    dsimp only
    split
    · exact r_set this
    · exact this
  refine Ok_ite (fun _ => ⟨r_eat (r_eat (r_eat h)), hd⟩) fun _ => ?_
  refine Ok_ite (fun _ => ⟨r_number h, ?_⟩) fun _ => ?_
  · dsimp only
    split
    · exact hd
    · split <;> exact hd
  refine Ok_ite (fun _ => ⟨r_number h, hd⟩) fun _ => ?_
  refine Ok_ite (fun _ => ⟨r_number h, hd⟩) fun _ => ?_
  refine Ok_ite (fun _ => ⟨r_number h, hd⟩) fun _ => ?_
  refine Ok_ite (fun _ => ⟨r_number h, hd⟩) fun _ => ?_
  refine Ok_ite (fun _ => ⟨r_number h, ?_⟩) fun _ => ?_
  · dsimp only
    split <;> exact hd
  refine Ok_ite (fun _ => r_decInt h hd) fun _ => ?_
  refine Ok_ite (fun _ => r_decInt h hd) fun _ => ?_
  refine Ok_ite (fun _ => r_decInt h hd) fun _ => ?_
  refine Ok_ite (fun _ => r_decInt h hd) fun _ => ?_
  refine Ok_ite (fun _ => (r_poly P f d.poly s h hd.1).bind fun r hr => ⟨hr.1, hr.2, hd.2⟩) fun _ => ?_
  refine Ok_ite (fun _ => (r_spline P f d.spline s h hd.2).bind fun r hr => ⟨hr.1, hd.1, hr.2⟩) fun _ => ?_
  refine Ok_ite (fun _ => (r_expr P f h).bind fun r hr => ⟨hr, hd⟩) fun _ => ?_
  refine (skip_keeps f s.err).bind fun r hr => ⟨?_, hd⟩
  refine .dead (fun e => ?_) (hr.2.1.trans h.structs) (hr.2.2.trans h.enums)
  exact absurd (hr.1 e) (Nat.succ_ne_zero _)

theorem r_decFill {s : CSt} (h : R q w c a s) : R q w c a (decFill s) := by
  unfold decFill
  generalize hr : (if s.cur.type = .lparen then ((parseU32 s.adv.number.1).setWidth 8, (s.adv.number.2.errIf (((parseU32 s.adv.number.1).setWidth 8 : Byte).toNat > 1)).eat .rparen) else (0, s) : Byte × CSt) = r
  have key : R q w c a r.2 := by
    subst hr
    split
    · rename_i hl
      exact r_eat (r_errIf (r_number (r_adv' h hl)))
    · exact h
  have k2 : R q w c a (r.2.put [0x24, r.1]) := r_put key fun _ _ => blk_fixed 1 (fun _ => rfl) rfl rfl
  dsimp only
  split
  · exact r_set k2
  · exact k2

theorem r_decOne (P : PEnv) (f : Nat) (d : Dec) (s : CSt) (h : R q w c a s) (hd : DecOk d) : (decOne P f d s).Ok fun r => R q w c a r.2 ∧ DecOk r.1 := by
  unfold decOne
  have h := r_eat (ty := .identifier) h
  refine Ok_ite (fun _ => ⟨h, hd⟩) fun _ => ?_
  refine Ok_ite (fun _ => ⟨h, hd⟩) fun _ => ?_
  refine Ok_ite (fun _ => ⟨r_decFill h, hd⟩) fun _ => ?_
  refine Ok_ite (fun _ => ⟨h, hd⟩) fun _ => ?_
  refine Ok_ite (fun _ => ⟨h, hd⟩) fun _ => ?_
  refine Ok_ite (fun _ => ⟨r_put h fun _ _ => blk_one (by decide +kernel), hd⟩) fun _ => ?_
  refine Ok_ite (fun _ => ⟨h, hd⟩) fun _ => ?_
  exact (r_decArgs P f _ d _ (r_eat h) hd).bind fun r hr => ⟨r_eat hr.1, hr.2⟩

theorem r_decLoop (P : PEnv) (f : Nat) (d : Dec) (s : CSt) (h : R q w c a s) (hd : DecOk d) : (decLoopS P f d s).Ok fun r => R q w c a r.2 ∧ DecOk r.1 := by
  induction f generalizing d s with
  | zero => trivial
  | succ f ih =>
    unfold decLoopS
    exact Ok_ite (fun ha => (r_decOne P f d _ (r_adv' h ha) hd).bind fun r hr => ih _ _ hr.1 hr.2) fun _ => ⟨h, hd⟩

end

/-! ### Fields -/

theorem find_all {t : Tok} {l : List (List Byte × Byte)} {op : Byte} (p : Byte → Bool) (h : t.find l = some op) (hl : l.all (fun x => p x.2) = true) :
    p op = true := by
  unfold Tok.find at h
  split at h
  · induction l with
    | nil => cases h
    | cons x l ih =>
      simp only [List.all_cons, Bool.and_eq_true] at hl
      obtain ⟨k, v⟩ := x
      simp only [List.lookup] at h
      split at h
      · cases h; exact hl.1
      · exact ih hl.2 h
  · cases h

/-- A boolean is not given a bit width of its own. -/
def Wd (q : Bool) (ty : Tok) (h : Shape) : Prop := q = false → ty.isWord s_bool = true → h.width.toNat ≤ 1

/-- Prefixes are those of the language, and only arrays have those of arrays. -/
def ShapeOk (h : Shape) : Prop := (∀ op, h.arrPre = some op → h.arr = true ∧ (op = 0x35 ∨ op = 0x36 ∨ op = 0x37)) ∧
  ∀ op, h.strPre = some op → op = 0x31 ∨ op = 0x32 ∨ op = 0x33

section
variable {q w : Bool} {c : Prop} {a : CSt}

theorem r_putA {s : CSt} {bs : List Byte} (h : R q w c a s) (hb : c → Before q w a → Blk q w bs) : R q w c a (s.put bs) := by
  refine ⟨h.toGo.trans (.same rfl rfl rfl), h.structs, h.enums, fun e hc hp => ?_⟩
  obtain ⟨b, e1, b1⟩ := h.code e hc hp
  refine ⟨b ++ bs, ?_, .seq b1 (hb hc hp)⟩
  show s.out ++ bs = _
  rw [e1, List.append_assoc]

theorem r_range (P : PEnv) {op : Byte} (ho : isPlainOp op = true) (range : Option (Tok × Tok)) {s : CSt} (h : R q w c a s) :
    (rangePart P op range s).Ok (R q w c a) := by
  unfold rangePart
  split
  · exact h
  · unfold emitRange
    split
    · trivial
    · rename_i lo hi _ x y sw hr
      exact Ok_ite (fun _ => r_err h) fun _ => r_putA h fun _ _ => blk_range P ho _ _ _ _ _ hr

theorem r_const (P : PEnv) (ty : Tok) (d : Dec) (key : Nat) (v : Word) {s : CSt} (h : R q w c a s) : (fieldConst P ty d key v s).Ok (R q w c a) := by
  unfold fieldConst
  have ho : isIntOp ((ty.find (unsignedTypes ++ signedTypes)).getD 0x11) = true := by
    cases hf : ty.find (unsignedTypes ++ signedTypes) with
    | none => decide
    | some op => exact find_all isIntOp hf (by decide +kernel)
  exact r_range P (intOp_plain ho) _ (r_putA (r_errIf (r_errIf h)) fun _ _ => blk_const ho key v)

theorem blk_qw (hw : q = true → w = true) {b : List Byte} (h : Blk q q b) : Blk q w b := by
  cases w with
  | true => exact h.mono
  | false => cases q with
    | true => exact absurd (hw rfl) (by decide)
    | false => exact h

theorem r_struct (hw : q = true → w = true) (code : List Byte) (ty name : Tok) (d : Dec) (sh : Shape) (key : Nat) {s : CSt} (h : R q w c a s)
    (hm : (ty.text, code) ∈ a.structs) : (fieldStruct code ty name d sh key s).Ok fun r => R q w c a r.2 ∧ (r.1 = true → r.2.errs ≠ 0) := by
  unfold fieldStruct
  refine Ok_ite (fun _ => ⟨r_err h, fun _ => Nat.succ_ne_zero _⟩) fun _ => ?_
  have k := r_putA (bs := 0x03 :: u16le key) (r_errIf (b := sh.width ≠ 0) (r_errIf (b := d.crc) (r_errIf (b := d.range.isSome) (r_errIf (b := d.trans ≠ .none) h))))
    fun _ _ => blk_fixed 2 (fun _ => rfl) rfl (u16le_length _)
  dsimp only
  split
  · trivial
  · rename_i bs tab hi
    exact ⟨r_putA (r_putA (r_tab tab k) fun _ hp => blk_qw hw (inline_blk (hp.1.1 _ hm) hi)) fun _ _ => blk_one (by decide +kernel),
      fun e => by cases e⟩

theorem r_enum (P : PEnv) (e : EnumD) (d : Dec) (sh : Shape) (key : Nat) {s : CSt} (h : R q w c a s) (hm : e ∈ a.enums) :
    (fieldEnum P e d sh key s).Ok (R q w (c ∧ isIntOp e.type = true) a) := by
  by_cases ho : isIntOp e.type = true
  · have h := h.weaken (d := c ∧ isIntOp e.type = true) And.left
    unfold fieldEnum
    refine r_range P (intOp_plain ho) _ (r_putA (r_putA (r_errIf (r_errIf (r_errIf h))) fun _ _ => blk_value (intOp_plain ho) key) fun _ hp => ?_)
    exact blk_enum ho e.values (·.2) (hp.1.2 _ hm).2
  · have k1 : ∀ s, R q w c a s → ∀ bs, R q w (c ∧ isIntOp e.type = true) a (s.put bs) := fun s h bs =>
      ⟨h.toGo.trans (.same rfl rfl rfl), h.structs, h.enums, fun _ hc => absurd hc.2 ho⟩
    have k2 : ∀ s, R q w (c ∧ isIntOp e.type = true) a s → ∀ bs, R q w (c ∧ isIntOp e.type = true) a (s.put bs) := fun s h bs =>
      ⟨h.toGo.trans (.same rfl rfl rfl), h.structs, h.enums, fun _ hc => absurd hc.2 ho⟩
    unfold fieldEnum rangePart
    have k := k2 _ (k1 _ (r_errIf (b := sh.width ≠ 0) (r_errIf (b := d.crc) (r_errIf (b := d.trans ≠ .none) h))) (e.type :: u16le key)) ([0x4B, e.type] ++ u16le e.values.length ++ (e.values.map fun v => leBytes (intSize e.type) v.2).flatten)
    dsimp only
    split
    · exact k
    · unfold emitRange
      split
      · trivial
      · exact Ok_ite (fun _ => r_err k) fun _ => k2 _ k _

theorem r_string (d : Dec) (sh : Shape) (key : Nat) {s : CSt} (h : R q w c a s) : R q w c a (fieldString d sh key s) := by
  unfold fieldString
  have k := r_errIf (b := sh.width ≠ 0) (r_errIf (b := d.crc) (r_errIf (b := d.range.isSome) (r_errIf (b := d.trans ≠ .none) h)))
  dsimp only
  split
  · exact k
  · exact r_putA (r_errIf k) fun _ _ => blk_fixed 4 (fun _ => rfl) rfl (by simp [leBytes_length])

theorem bitWidths_bool {ty : Tok} (h : ty.isWord s_bool = true) : bitWidths ty = 1 := by
  unfold bitWidths
  have hx := h
  simp only [Tok.isWord, decide_eq_true_eq] at h
  have : ty.find (unsignedTypes ++ signedTypes) = none := by
    unfold Tok.find
    rw [if_pos h.1, h.2]
    decide +kernel
  rw [this, hx]
  rfl

theorem bitOp_cases {ty : Tok} {op : Byte} (h : bitOp ty = some op) : op = 0x20 ∨ op = 0x21 ∨ (op = 0x22 ∧ ty.isWord s_bool = true) := by
  unfold bitOp at h
  split at h
  · cases h; exact .inl rfl
  · split at h
    · cases h; exact .inr (.inl rfl)
    · split at h
      · cases h; exact .inr (.inr ⟨rfl, ‹_›⟩)
      · cases h

theorem blk_bit {ty : Tok} {op wd : Byte} (ho : bitOp ty = some op) (key : Nat) (hn : wd ≠ 0) (hw : q = false → ty.isWord s_bool = true → wd.toNat ≤ 1) :
    Blk q w (op :: (u16le key ++ [wd])) := by
  obtain ⟨k0, k1, e⟩ := leBytes_two (BitVec.ofNat 64 key)
  rw [show u16le key = [k0, k1] from e]
  rcases bitOp_cases ho with rfl | rfl | ⟨rfl, hb⟩
  · exact blk_fixed 3 (fun _ => rfl) rfl rfl
  · exact blk_fixed 3 (fun _ => rfl) rfl rfl
  · cases q with
    | true => exact .flag rfl
    | false =>
      have h1 := hw rfl hb
      have : wd = 1 := by
        have h0 : wd.toNat ≠ 0 := fun e => hn (BitVec.eq_of_toNat_eq e)
        exact BitVec.eq_of_toNat_eq (show wd.toNat = 1 by omega)
      subst this
      exact .seq (a := [0x22, k0, k1]) (blk_fixed 2 (fun _ => rfl) rfl rfl) (blk_one (by decide +kernel))

theorem r_plain (P : PEnv) (ty : Tok) (d : Dec) (sh : Shape) (key : Nat) {s : CSt} (h : R q w (Wd q ty sh) a s) :
    (fieldPlain P ty d sh key s).Ok fun r => R q w (Wd q ty sh) a r.2 ∧ (r.1 = true → r.2.errs ≠ 0) := by
  unfold fieldPlain
  dsimp only
  generalize hwd : (if s.inBit = true ∧ sh.width = 0 then bitWidths ty else sh.width) = wd
  refine Ok_ite (fun hne => ?_) fun _ => Ok_ite (fun _ => ⟨r_err h, fun _ => Nat.succ_ne_zero _⟩) fun _ => ?_
  · split
    · exact ⟨r_err h, fun _ => Nat.succ_ne_zero _⟩
    · rename_i op ho
      have k := r_putA (bs := op :: (u16le key ++ [wd])) h fun hc _ => by
        refine blk_bit ho key hne fun hq hb => ?_
        rw [← hwd]
        split
        · rw [bitWidths_bool hb]; decide
        · exact hc hq hb
      refine ⟨?_, fun e => by cases e⟩
      dsimp only
      split
      · exact r_set k
      · exact k
  · split
    · exact ⟨r_err h, fun _ => Nat.succ_ne_zero _⟩
    · rename_i op hf
      have ho : isPlainOp op = true := find_all isPlainOp hf (by decide +kernel)
      refine Ok_ite (fun _ => ⟨r_putA (r_errIf (r_errIf h)) fun _ _ => blk_crc d, fun e => by cases e⟩) fun _ => ?_
      refine Ok_ite (fun _ => ⟨r_putA h fun _ _ => ?_, fun e => by cases e⟩) fun _ => ?_
      · refine .seq (a := [0x64]) (blk_one (by decide +kernel)) (.seq (a := 0x78 :: u16le key) ?_ ?_)
        · exact blk_fixed 2 (fun _ => rfl) rfl (u16le_length _)
        · exact blk_fixed 1 (fun _ => rfl) rfl rfl
      · exact (r_range P ho _ (r_putA h fun _ _ => blk_value ho key)).bind fun r hr => ⟨hr, fun e => by cases e⟩

theorem r_value (P : PEnv) (hw : q = true → w = true) (ty name : Tok) (d : Dec) (sh : Shape) (key : Nat) {s : CSt} (h : R q w (Wd q ty sh) a s) :
    (fieldValue P ty name d sh key s).Ok fun r => R q w (Wd q ty sh) a r.2 ∧ (r.1 = true → r.2.errs ≠ 0) := by
  unfold fieldValue
  split
  · exact (r_const P ty d key _ h).bind fun r hr => ⟨hr, fun e => by cases e⟩
  · split
    · rename_i code hf
      exact r_struct hw code ty name d sh key h (by rw [← h.structs]; exact lookup_mem hf)
    · split
      · rename_i e he
        have hm : e ∈ a.enums := by rw [← show s.enums = a.enums from congrArg Prod.fst h.enums]; exact List.mem_of_find?_eq_some he
        refine (r_enum P e d sh key h hm).bind fun r hr => ⟨?_, fun e => by cases e⟩
        exact ⟨hr.toGo, hr.structs, hr.enums, fun e hc hp => hr.code e ⟨hc, (hp.1.2 _ hm).1⟩ hp⟩
      · refine Ok_ite (fun _ => ⟨r_string d sh key h, fun e => by cases e⟩) fun _ => r_plain P ty d sh key h

theorem opens_of_args {op : Byte} {r : List Byte} (h : opArgs (decodeOp op) r = some r.length) (hp : (decodeOp op).arr = true) : Opens (op :: r) :=
  ⟨vmLen_cons op r h, op, r, rfl, hp⟩

theorem arrCode_opens (d : Dec) (sh : Shape) (key : Nat) (hs : ShapeOk sh) : (arrCode d sh key = [] ∨ Opens (arrCode d sh key)) ∧
    (sh.arr = false → arrCode d sh key = []) := by
  unfold arrCode
  split
  · rename_i op ho
    obtain ⟨h1, h2⟩ := hs.1 op ho
    refine ⟨.inr ?_, fun e => by rw [h1] at e; cases e⟩
    rcases h2 with rfl | rfl | rfl <;> exact opens_of_args (by rw [u16le_length]; rfl) rfl
  · cases sh.arr with
    | false =>
      simp only [Bool.false_eq_true, and_false, if_false]
      split
      · split <;> exact ⟨.inl rfl, fun _ => rfl⟩
      · exact ⟨.inl rfl, fun _ => rfl⟩
      · exact ⟨.inl rfl, fun _ => rfl⟩
    | true =>
      refine ⟨?_, fun e => by cases e⟩
      simp only [and_true, if_true]
      split
      · exact .inr (opens_of_args (by rw [u16le_length]; rfl) rfl)
      · split
        · exact .inr (opens_of_args (by simp [u16le_length]; rfl) rfl)
        · exact .inr (opens_of_args (by simp [u16le_length, leBytes_length]; rfl) rfl)
        · exact .inl rfl

theorem r_fieldEmit (P : PEnv) (hw : q = true → w = true) (ty name : Tok) (d : Dec) (sh : Shape) (key : Nat) {s : CSt} (hs : ShapeOk sh)
    (h : R q w (Wd q ty sh) a s) : (fieldEmit P ty name d sh key s).Ok (R q w (Wd q ty sh) a) := by
  unfold fieldEmit
  extract_lets s1 s2 s3 s4
  have h1 : R q w (Wd q ty sh) a s1 := r_errIf h
  have h2 : R q w (Wd q ty sh) a s2 := by
    show R q w (Wd q ty sh) a (if d.be then s1.put [0x02] else s1)
    split
    · exact r_putA h1 fun _ _ => blk_one (by decide +kernel)
    · exact h1
  have h4 : R q w (Wd q ty sh) s3 s4 := by
    show R q w (Wd q ty sh) s3 (match sh.strPre with | some op => s3.put (op :: u16le key) | none => s3)
    split
    · rename_i op ho
      refine r_putA (.refl _) fun _ _ => ?_
      rcases hs.2 op ho with rfl | rfl | rfl <;> exact blk_fixed 2 (fun _ => rfl) rfl (u16le_length _)
    · exact .refl _
  refine (r_value P hw ty name d sh key h4).bind fun r hr => ?_
  obtain ⟨r1, r2⟩ := r
  obtain ⟨hr, hd⟩ := hr
  obtain ⟨ho, hn⟩ := arrCode_opens d sh key hs
  have g2 : Go s2.toPSt s3.toPSt := .same rfl rfl rfl
  refine Ok_ite (fun e => .dead (hd e) (hr.structs.trans h2.structs) (hr.enums.trans h2.enums)) fun _ => ?_
  have h5 : R q w (Wd q ty sh) a (if sh.arr then r2.put [0x38] else r2) := by
    refine h2.trans ?_
    cases hb : sh.arr with
    | false =>
      refine ⟨g2.trans hr.toGo, hr.structs, hr.enums, fun e hc hp => ?_⟩
      obtain ⟨b, e1, e2⟩ := hr.code e hc hp
      refine ⟨b, ?_, e2⟩
      have : s3.out = s2.out ++ arrCode d sh key := rfl
      rw [hn hb, List.append_nil] at this
      rw [← this]; exact e1
    | true =>
      refine ⟨(g2.trans hr.toGo).trans (.same rfl rfl rfl), hr.structs, hr.enums, fun e hc hp => ?_⟩
      obtain ⟨b, e1, e2⟩ := hr.code e hc hp
      have : s3.out = s2.out ++ arrCode d sh key := rfl
      rcases ho with ho | ho
      · refine ⟨b ++ [0x38], ?_, .seq e2 .stray⟩
        show r2.out ++ [0x38] = _
        rw [e1, this, ho, List.append_nil, List.append_assoc]
      · refine ⟨arrCode d sh key ++ (b ++ [0x38]), ?_, .loop ho e2⟩
        show r2.out ++ [0x38] = _
        rw [e1, this]
        simp only [List.append_assoc]
  show R q w (Wd q ty sh) a _
  dsimp only
  split
  · exact r_putA (r_eat h5) fun _ _ => blk_one (by decide +kernel)
  · exact r_eat h5

theorem eat_ok {s : CSt} {ty : TT} (e : (s.eat ty).errs = 0) : s.cur.type = ty ∧ s.eat ty = s.adv := by
  unfold CSt.eat PSt.consume at e ⊢
  split at e
  · rename_i h; exact ⟨h, by rw [if_pos h]; rfl⟩
  · exact absurd e (Nat.succ_ne_zero _)

theorem r_width {s : CSt} (h : R q w c a s) : R q w c a (shapeWidth s).2 := by
  unfold shapeWidth
  split
  · rename_i hc; exact r_eat (r_adv' h hc)
  · exact h

theorem width_tok {s : CSt} (e : (shapeWidth s).2.errs = 0) : (shapeWidth s).1 = 0 ∨
    (s.cur.type = .colon ∧ ∃ n ts, s.toks = n :: ts ∧ (shapeWidth s).1 = (parseU32 n.text).setWidth 8) := by
  unfold shapeWidth at e ⊢
  split
  · rename_i hc
    rw [if_pos hc] at e
    dsimp only at e ⊢
    refine .inr ⟨hc, ?_⟩
    obtain ⟨h1, h2⟩ := eat_ok e
    rw [h2] at e
    rcases (adv_ahead (adv_ahead e).1).2 with g | ⟨_, g, _⟩
    · exact ⟨_, _, g, by rw [h2]; rfl⟩
    · have : s.adv.cur = eofTok := g
      rw [this] at h1; cases h1
  · exact .inl rfl

theorem r_arr {s : CSt} (h : R q w c a s) : R q w c a (shapeArr s).2.2.2 := by
  unfold shapeArr
  split
  · rename_i hc
    dsimp only
    split
    · rename_i h2; exact r_adv' (r_adv' h hc) h2
    · exact r_eat (r_number (r_adv' h hc))
  · exact h

theorem arr_var (s : CSt) (h : (shapeArr s).2.1 = true) : (shapeArr s).1 = true := by
  unfold shapeArr at h ⊢
  split
  · dsimp only
    split <;> rfl
  · rename_i hc; rw [if_neg hc] at h; cases h

theorem isWord_ty {t : Tok} {x : List Byte} (h : t.isWord x = true) : t.type = .identifier := by
  simp only [Tok.isWord, decide_eq_true_eq] at h; exact h.1

theorem prefix_cases {t : Tok} {k : Byte} (h : t.find prefixTypes = some k) : k = 0 ∨ k = 1 ∨ k = 2 := by
  have := find_all (fun k => k == 0 || k == 1 || k == 2) h (by decide +kernel)
  simpa only [Bool.or_eq_true, beq_iff_eq, or_assoc] using this

theorem r_mods (ty : Tok) (d : Dec) (sh : Shape) {s : CSt} (h : R q w c a s) (h1 : sh.arrPre = none) (h2 : sh.strPre = none) (hv : sh.var = true → sh.arr = true) :
    R q w c a (shapeMods ty d sh s).2 ∧ ShapeOk (shapeMods ty d sh s).1 ∧ (shapeMods ty d sh s).1.width = sh.width := by
  have h0 : ShapeOk sh := ⟨fun op e => (by rw [h1] at e; cases e), fun op e => (by rw [h2] at e; cases e)⟩
  unfold shapeMods
  split
  · rename_i hp
    have k := r_eat (ty := .identifier) (r_adv' h (isWord_ty hp))
    dsimp only
    split
    · rename_i hc
      split
      · rename_i x hx
        refine ⟨k, ⟨fun op e => ?_, fun op e => by rw [h2] at e; cases e⟩, rfl⟩
        cases e
        refine ⟨hv hc.1, ?_⟩
        rcases prefix_cases hx with rfl | rfl | rfl <;> decide
      · exact ⟨r_err k, h0, rfl⟩
    · split
      · split
        · rename_i x hx
          refine ⟨k, ⟨fun op e => (by rw [h1] at e; cases e), fun op e => ?_⟩, rfl⟩
          cases e
          rcases prefix_cases hx with rfl | rfl | rfl <;> decide
        · exact ⟨r_err k, h0, rfl⟩
      · exact ⟨r_err k, h0, rfl⟩
  · split
    · dsimp only
      generalize hr : (if s.cur.isWord s_until = true then ({ sh with until_ := true }, s.adv.eat .number) else (sh, s) : Shape × CSt) = r
      have key : R q w c a r.2 ∧ ShapeOk r.1 ∧ r.1.width = sh.width := by
        subst hr
        split
        · rename_i hu
          exact ⟨r_eat (r_adv' h (isWord_ty hu)), h0, rfl⟩
        · exact ⟨h, h0, rfl⟩
      split
      · rename_i hm
        exact ⟨r_number (r_adv' key.1 (isWord_ty hm)), key.2.1, key.2.2⟩
      · exact key
    · exact ⟨h, h0, rfl⟩

/-- What the check on tokens says of a boolean with a bit width; `s` is behind the name. -/
def Win (q : Bool) (ty : Tok) (s : CSt) : Prop :=
  q = false → ty.isWord s_bool = true → s.cur.type = .colon → ∀ n ts, s.toks = n :: ts → ((parseU32 n.text).setWidth 8 : Byte).toNat ≤ 1

theorem r_fieldRest (P : PEnv) (hw : q = true → w = true) (ty name : Tok) (d : Dec) (s : CSt) :
    (fieldRest P ty name d s).Ok (R q w (Win q ty s) s) := by
  unfold fieldRest
  extract_lets fields src s1 r wd ar d1 m
  have h1 : R q w (Win q ty s) s s1 := r_set (t := s1) (r_errIf (b := fields.length = s.fields.length) (.refl s)) rfl rfl rfl
  have h2 : R q w (Win q ty s) s r.1 := r_intern h1
  have h3 : R q w (Win q ty s) s wd.2 := r_width h2
  have h4 : R q w True wd.2 ar.2.2.2 := r_arr (.refl _)
  obtain ⟨h5, h6, h7⟩ := r_mods (q := q) (w := w) (c := Wd q ty m.1) (a := wd.2) ty d1 { width := wd.1, arr := ar.1, var := ar.2.1 }
    (h4.weaken fun _ => trivial) rfl rfl (arr_var _)
  refine (r_fieldEmit P hw ty name d1 m.1 r.2 h6 h5).mono fun t ht => h3.trans ⟨ht.toGo, ht.structs, ht.enums, fun e hc hp => ht.code e (fun hq hb => ?_) hp⟩
  have hm : m.1.width = wd.1 := h7
  rw [hm]
  have hcur : r.1.cur = s.cur ∧ r.1.toks = s.toks := by
    have : s1.cur = s.cur ∧ s1.toks = s.toks := by
      show (s.errIf _).cur = _ ∧ (s.errIf _).toks = _
      unfold CSt.errIf
      split <;> exact ⟨rfl, rfl⟩
    exact this
  rcases width_tok (s := r.1) (ht.errs e) with g | ⟨g1, n, ts, g2, g3⟩
  · rw [show wd.1 = 0 from g]; decide
  · rw [show wd.1 = _ from g3]
    rw [hcur.1] at g1
    rw [hcur.2] at g2
    exact hc hq hb g1 n ts g2

theorem window_bool {t a b n : Tok} {ts : List Tok} (h : windowOk t (a :: b :: n :: ts) = true) (hb : t.isWord s_bool = true) (hc : b.type = .colon) :
    ((parseU32 n.text).setWidth 8 : Byte).toNat ≤ 1 := by
  unfold windowOk at h
  simp only [Bool.and_eq_true, Bool.or_eq_true, Bool.not_eq_true', hb, Bool.true_and, decide_eq_false_iff_not, decide_eq_true_eq] at h
  rcases h.1 with g | g
  · exact absurd hc g
  · exact g

theorem r_fieldDecl (P : PEnv) (hw : q = true → w = true) (d : Dec) (s : CSt) (hd : DecOk d) : (fieldDecl P d s).Ok (R q w True s) := by
  unfold fieldDecl
  refine Ok_ite (fun hc => ?_) fun _ => ?_
  · show R q w True s _
    split
    · rename_i he; exact r_adv' (.refl _) he
    · exact .refl _
  · extract_lets s1 ty s2 name
    have h1 : R q w True s s1 := r_put (.refl _) fun _ _ => blk_trans hd
    have h2 : R q w True s s2 := r_eat h1
    refine Ok_ite (fun _ => r_err h2) fun _ => ?_
    have h3 : R q w True s (s2.eat .identifier) := r_eat h2
    refine (r_fieldRest P hw ty name d (s2.eat .identifier)).mono fun t ht => ?_
    refine ⟨h3.toGo.trans ht.toGo, ht.structs.trans h3.structs, ht.enums.trans h3.enums, fun e _ hp => ?_⟩
    have e3 := ht.errs e
    obtain ⟨c1, x1, b1⟩ := h3.code e3 trivial hp
    have hwin : Win q ty (s2.eat .identifier) := by
      intro hq hb hcol n ts htok
      have hn := hp.2 hq
      obtain ⟨t2, g2⟩ := eat_ok e3
      rw [g2] at e3 hcol htok
      have e2 : s2.errs = 0 := (adv_ahead e3).1
      obtain ⟨t1, g1⟩ := eat_ok (s := s1) e2
      have e1 : s1.advance.errs = 0 := by have := e2; rw [show s2 = s1.adv from g1] at this; exact this
      have k1 : s.toks = s2.cur :: s2.toks := by
        rcases (adv_ahead e1).2 with g | ⟨_, g, _⟩
        · rw [show s2 = s1.adv from g1]; exact g
        · have : s2.cur = eofTok := by rw [show s2 = s1.adv from g1]; exact g
          rw [this] at t2; cases t2
      have k2 : s2.toks = s2.adv.cur :: s2.adv.toks := by
        rcases (adv_ahead e3).2 with g | ⟨_, g, _⟩
        · exact g
        · have : s2.adv.cur = eofTok := g
          rw [this] at hcol; cases hcol
      have hwin := nice_window hn
      rw [k1, k2, htok] at hwin
      exact window_bool hwin hb hcol
    obtain ⟨c2, x2, b2⟩ := ht.code e hwin (h3.next e3 hp)
    exact ⟨c1 ++ c2, by rw [x2, x1, List.append_assoc], .seq b1 b2⟩

theorem r_docs (f : Nat) {s : CSt} (h : R q w c a s) : (skipDocs f s).Ok (R q w c a) := by
  induction f generalizing s with
  | zero => trivial
  | succ f ih =>
    unfold skipDocs
    exact Ok_ite (fun hd => ih (r_adv' h hd)) fun _ => h

theorem r_label {s : CSt} (h : R q w c a s) (v : Word) (t : CSt) (hl : caseLabel s = some (v, t)) : R q w c a t := by
  unfold caseLabel at hl
  split at hl
  · rename_i hn
    simp only [Option.map_eq_some_iff] at hl
    obtain ⟨_, _, e⟩ := hl
    cases e
    exact r_adv' h hn
  · split at hl
    · rename_i hi
      dsimp only at hl
      split at hl
      · rename_i hd
        have k := r_eat (ty := .identifier) (r_adv' (r_adv' h hi) hd)
        split at hl
        · cases hl; exact r_err k
        · split at hl <;> cases hl
          · exact k
          · exact r_err k
      · cases hl; exact r_err (r_adv' h hi)
    · cases hl; exact h

end

/-! ### Conditionals -/

theorem patch_mid {s : CSt} {A x B : List Byte} (y : List Byte) {n : Nat} (ho : s.out = A ++ (x ++ B)) (hn : n = A.length) (hl : x.length = y.length) :
    (s.patch n y).out = A ++ (y ++ B) := by
  subst hn
  unfold CSt.patch
  show (if _ then _ else _) = _
  rw [if_neg (by rw [ho]; simp only [List.length_append]; omega), ho, splice_mid A x y B hl]

theorem patch_go (s : CSt) (n : Nat) (y : List Byte) : Go s.toPSt (s.patch n y).toPSt := .same rfl rfl rfl

section
variable {q w : Bool}

theorem r_cond {s0 s1 s3 s6 : CSt} (h1 : R q w True s0 s1) (h3 : R q w True (s1.put [0x50, 0, 0, 0, 0]) s3)
    (h6 : R q w True ((s3.put [0x52, 0, 0, 0, 0]).patch (s1.out.length + 1) (u32le ((s3.put [0x52, 0, 0, 0, 0]).out.length - (s1.out.length + 5)))) s6) :
    R q w True s0 (s6.patch (s3.out.length + 1) (u32le (s6.out.length - (s3.out.length + 5)))) := by
  refine h1.trans ?_
  have g1 : Go s1.toPSt s6.toPSt := ((Go.same rfl rfl rfl : Go s1.toPSt (s1.put [0x50, 0, 0, 0, 0]).toPSt).trans h3.toGo).trans
    ((Go.same rfl rfl rfl : Go s3.toPSt ((s3.put [0x52, 0, 0, 0, 0]).patch (s1.out.length + 1) (u32le ((s3.put [0x52, 0, 0, 0, 0]).out.length - (s1.out.length + 5)))).toPSt).trans h6.toGo)
  refine ⟨g1.trans (patch_go _ _ _), h6.structs.trans h3.structs, h6.enums.trans h3.enums, fun e _ hp => ?_⟩
  have e6 : s6.errs = 0 := e
  have e3 : s3.errs = 0 := h6.errs e6
  obtain ⟨x, ex, bx⟩ := h3.code e3 trivial hp
  obtain ⟨y, ey, b_y⟩ := h6.code e6 trivial (h3.next e3 hp)
  have o3 : s3.out = s1.out ++ (0x50 :: [0, 0, 0, 0]) ++ x := ex
  have o5 := patch_mid (s := s3.put [0x52, 0, 0, 0, 0]) (A := s1.out ++ [0x50]) (x := [0, 0, 0, 0]) (B := x ++ [0x52, 0, 0, 0, 0])
    (u32le ((s3.put [0x52, 0, 0, 0, 0]).out.length - (s1.out.length + 5))) (n := s1.out.length + 1)
    (by show s3.out ++ _ = _; rw [o3]; simp) (by simp) (by simp)
  rw [o5] at ey
  have l3 : s3.out.length = s1.out.length + 5 + x.length := by rw [o3]; simp; omega
  have l4 : (s3.put [0x52, 0, 0, 0, 0]).out.length - (s1.out.length + 5) = x.length + 5 := by
    show (s3.out ++ [0x52, 0, 0, 0, 0]).length - _ = _
    simp only [List.length_append, l3, List.length_cons, List.length_nil]; omega
  rw [l4] at ey
  have l6 : s6.out.length - (s3.out.length + 5) = y.length := by
    rw [ey, l3]; simp only [List.length_append, u32le_length, List.length_cons, List.length_nil]; omega
  have o7 := patch_mid (s := s6) (A := s1.out ++ ([0x50] ++ (u32le (x.length + 5) ++ (x ++ [0x52])))) (x := [0, 0, 0, 0]) (B := y)
    (u32le (s6.out.length - (s3.out.length + 5))) (n := s3.out.length + 1) (by rw [ey]; simp)
    (by simp only [List.length_append, u32le_length, List.length_cons, List.length_nil, l3]; omega) (by simp)
  refine ⟨0x50 :: (u32le (x.length + 5) ++ (x ++ 0x52 :: (u32le y.length ++ y))), ?_, .cond bx b_y⟩
  rw [o7, l6]
  simp

end

end Cnd
