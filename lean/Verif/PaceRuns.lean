import Verif.PaceRun
/-
  Runs of checked packet descriptions (for C92), continued: fields, expressions, choices, whole descriptions.
-/

set_option linter.unusedVariables false

namespace Cnd
variable {σ : Type}

section
variable {E : Env σ} {B : Nat} {o o' v w : Bool} {x y code : List Byte}

/-! ### Fields -/

/-- One instruction, with what is expected afterwards. -/
theorem lap_op {op : Byte} {r : List Byte} (p : Op) (hp : decodeOp op = p) (hv : opArgs p r = some r.length) (hst : p.straight = true)
    (ha : p.after o = (o', v)) : Lap E B (op :: r) o o' v := by
  subst hp
  have := Lap.one (E := E) (B := B) (o := o) hv hst
  rw [ha] at this
  exact this

theorem lap_scalar {op k0 k1 : Byte} (h : (scalarWidth op.toNat).isSome = true) : Lap E B [op, k0, k1] o false (!o) := by
  have h' : ∃ p, decodeOp op = p ∧ p.eats = true ∧ opArgs p [k0, k1] = some 2 ∧ p.straight = true := by
    have hb : op.toNat < 256 := op.isLt
    have he : op = BitVec.ofNat 8 op.toNat := by simp
    generalize op.toNat = n at h hb he
    subst he
    unfold scalarWidth at h
    split at h <;> first | cases h; done | exact ⟨_, rfl, rfl, rfl, rfl⟩
  obtain ⟨p, h1, h2, h3, h4⟩ := h'
  refine lap_op p h1 h3 h4 ?_
  unfold Op.after
  rw [if_pos h2]

theorem tag_scales (t : Ty) : (scalarWidth t.tag.toNat).isSome = true := by cases t <;> rfl

theorem num_scales (n : Num) : (scalarWidth n.tag.toNat).isSome = true := by
  cases n with
  | int t => exact tag_scales t
  | flt d => cases d <;> rfl

theorem lap_range {t : Ty} {lo hi : Word} : Lap E B (rangeCode t lo hi) o o false := by
  unfold rangeCode
  simp only [List.cons_append, List.nil_append]
  refine lap_op .rangeCheck rfl ?_ rfl rfl
  show (match tyTag (leWord [t.tag]) with | some t => _ | none => _) = _
  rw [tyTag_tag]
  simp only [List.length_append, List.length_cons, leBytes_length, List.length_nil]
  congr 1
  omega

theorem lap_enum {t : Ty} {vals : List Word} (h : vals.length < 2 ^ 16) : Lap E B (enumCode t vals) o o false := by
  unfold enumCode
  simp only [List.cons_append, List.nil_append]
  refine lap_op .enumCheck rfl ?_ rfl rfl
  have h2 : (leWord (leBytes 2 (BitVec.ofNat 64 vals.length))).toNat = vals.length := by
    rw [leWord_leBytes_lt (by omega) (by simp only [BitVec.toNat_ofNat]; omega)]
    simp only [BitVec.toNat_ofNat]
    omega
  have h1 : ((t.tag :: (leBytes 2 (BitVec.ofNat 64 vals.length) ++ vals.flatMap (leBytes t.size))).drop 1).take 2 =
      leBytes 2 (BitVec.ofNat 64 vals.length) := rfl
  show Option.map (fun t' => 3 + (leWord ((List.drop 1 (t.tag :: _)).take 2)).toNat * t'.size) (tyTag (leWord [t.tag])) = _
  rw [tyTag_tag, Option.map_some, h1, h2]
  simp only [List.length_append, List.length_cons, leBytes_length, List.length_nil, flatMap_leBytes_length]
  congr 1
  omega

theorem lap_const {t : Ty} {k0 k1 : Byte} {c : Word} : Lap E B (constCode t k0 k1 c) o o true := by
  unfold constCode
  simp only [List.cons_append, List.nil_append]
  refine lap_op .constCheck rfl ?_ rfl rfl
  show Option.map _ (tyTag (leWord [t.tag])) = _
  rw [tyTag_tag, Option.map_some]
  simp only [List.length_append, List.length_cons, leBytes_length, List.length_nil]
  congr 1
  omega

theorem lap_crc {c : CrcPar} : Lap E B (crcCode c) o o true := by
  obtain ⟨w32, p, i, z, f⟩ := c
  unfold crcCode CrcPar.size
  cases w32
  · exact lap_op .crc16 rfl (by simp only [List.length_append, List.length_cons, leBytes_length, List.length_nil, Bool.false_eq_true, if_false]; rfl) rfl rfl
  · exact lap_op .crc32 rfl (by simp only [List.length_append, List.length_cons, leBytes_length, List.length_nil, if_true]; rfl) rfl rfl

theorem lap_strPre {p : Pre} {k0 k1 : Byte} : Lap E B [p.strOp, k0, k1] o false (!o) := by
  cases p <;> exact lap_op (.strPre _) rfl rfl rfl rfl

theorem lap_struct {k0 k1 : Byte} (h : Lap E B code o o' v) : Lap E B ([0x03, k0, k1] ++ (code ++ [0x04])) o o' v := by
  have h1 : Lap E B [0x03, k0, k1] o o false := lap_op .enterStruct rfl rfl rfl rfl
  have h2 : Lap E B [0x04] o' o' false := lap_op .exitStruct rfl rfl rfl rfl
  have := h1.then (h.then h2)
  rw [Bool.or_false, Bool.false_or] at this
  exact this

theorem Lap.more (h : Lap E B code o o' v) (D : Nat) : Lap E (B + D) code o o' v := by
  intro s c hat hi ho hc
  exact ((h s c hat hi ho hc).boost D 0).mono fun c' s' ⟨c0, h1, h2⟩ => ⟨h1.1, by have := h1.2; omega⟩

end

/-- Enough for arrays in `d` levels. -/
def Lap' (E : Env σ) (d : Nat) (code : List Byte) (o o' v : Bool) : Prop := Lap E (d * E.prog.length) code o o' v

section
variable {E : Env σ}

theorem Lap'.up {d e : Nat} {code : List Byte} {o o' v : Bool} (h : Lap' E d code o o' v) (hle : d ≤ e) : Lap' E e code o o' v := by
  obtain ⟨k, rfl⟩ := Nat.le.dest hle
  have := Lap.more h (k * E.prog.length)
  rw [← Nat.add_mul] at this
  exact this

theorem Lap'.arr {d : Nat} {code : List Byte} {o w v : Bool} (h : Lap E (d * E.prog.length + E.prog.length) code o w v) : Lap' E (d + 1) code o w v := by
  unfold Lap'
  rw [Nat.succ_mul]
  exact h

theorem fld_lap (f : Fld) : ∀ o r, f.pace o = some r → Lap' E f.depth f.code o r.1 r.2 := by
  induction f with
  | empty => intro o r h; injection h with h; subst h; exact Lap.nil
  | seq f g ihf ihg =>
    intro o r h
    unfold Fld.pace at h
    obtain ⟨r1, h1, h2⟩ := Option.bind_eq_some_iff.1 h
    obtain ⟨r2, h3, h4⟩ := Option.map_eq_some_iff.1 h2
    subst h4
    exact ((ihf _ _ h1).up (Nat.le_max_left _ _)).then ((ihg _ _ h3).up (Nat.le_max_right _ _))
  | scalar op k0 k1 =>
    intro o r h
    unfold Fld.pace at h
    split at h
    · rename_i hop; injection h with h; subst h; exact lap_scalar hop
    · cases h
  | range t k0 k1 lo hi =>
    intro o r h; injection h with h; subst h
    have := (lap_scalar (E := E) (B := 0 * E.prog.length) (k0 := k0) (k1 := k1) (o := o) (tag_scales t)).then (lap_range (t := t) (lo := lo) (hi := hi))
    rw [Bool.or_false] at this
    exact this
  | enum t k0 k1 vals =>
    intro o r h
    unfold Fld.pace at h
    split at h
    · rename_i hc
      injection h with h; subst h
      have := (lap_scalar (E := E) (B := 0 * E.prog.length) (k0 := k0) (k1 := k1) (o := o) (tag_scales t)).then (lap_enum (t := t) hc)
      rw [Bool.or_false] at this
      exact this
    · cases h
  | const t k0 k1 x => intro o r h; injection h with h; subst h; exact lap_const
  | strNull k0 k1 m0 m1 => intro o r h; injection h with h; subst h; exact lap_op .strNull rfl rfl rfl rfl
  | strPre p k0 k1 => intro o r h; injection h with h; subst h; exact lap_strPre
  | bitU k0 k1 n => intro o r h; injection h with h; subst h; exact lap_op .bitU rfl rfl rfl rfl
  | bitI k0 k1 n => intro o r h; injection h with h; subst h; exact lap_op .bitI rfl rfl rfl rfl
  | bitBool k0 k1 => intro o r h; injection h with h; subst h; exact lap_op .bitBool rfl rfl rfl rfl
  | pad n => intro o r h; injection h with h; subst h; exact lap_op .alignPad rfl rfl rfl rfl
  | fill n => intro o r h; injection h with h; subst h; exact lap_op .alignFill rfl rfl rfl rfl
  | setLE => intro o r h; injection h with h; subst h; exact lap_op .setLE rfl rfl rfl rfl
  | setBE => intro o r h; injection h with h; subst h; exact lap_op .setBE rfl rfl rfl rfl
  | nop => intro o r h; injection h with h; subst h; exact lap_op .noop rfl rfl rfl rfl
  | enterBit => intro o r h; injection h with h; subst h; exact lap_op .enterBit rfl rfl rfl rfl
  | exitBit => intro o r h; injection h with h; subst h; exact lap_op .exitBit rfl rfl rfl rfl
  | version x => intro o r h; injection h with h; subst h; exact lap_op .metaVersion rfl rfl rfl rfl
  | name x y => intro o r h; injection h with h; subst h; exact lap_op .metaName rfl rfl rfl rfl
  | struct k0 k1 f ih => intro o r h; exact lap_struct (ih _ _ h)
  | arrFixed k0 k1 n f ih =>
    intro o r h
    obtain ⟨w, h1, h2⟩ := Option.map_eq_some_iff.1 h
    subst h2
    obtain ⟨hA, hw⟩ := paceArr_ok h1 ih
    exact Lap'.arr (lap_arrFixed hA hw)
  | arrPre p k0 k1 f ih =>
    intro o r h
    obtain ⟨w, h1, h2⟩ := Option.map_eq_some_iff.1 h
    subst h2
    obtain ⟨hA, hw⟩ := paceArr_ok h1 ih
    exact Lap'.arr (lap_arrPre hA hw)
  | arrDyn k0 k1 r0 r1 f ih =>
    intro o r h
    obtain ⟨w, h1, h2⟩ := Option.map_eq_some_iff.1 h
    subst h2
    obtain ⟨hA, hw⟩ := paceArr_ok h1 ih
    exact Lap'.arr (lap_arrDyn hA hw)
  | crc p => intro o r h; injection h with h; subst h; exact lap_crc

end

section
variable {E : Env σ} {B : Nat} {o o' v w : Bool} {x y code : List Byte}

/-! ### Expressions, transforms -/

theorem lap_expr (e : IExpr) : Lap E B e.code o o false := by
  induction e with
  | lit w => exact lap_op .pushImm rfl (by rw [leBytes_length]; rfl) rfl rfl
  | fld k0 k1 => exact lap_op .loadCtx rfl rfl rfl rfl
  | un p e ih => exact ih.then (w := false) (by cases p <;> exact lap_op _ rfl rfl rfl rfl)
  | bin p l r ihl ihr => exact ihl.then (w := false) (ihr.then (w := false) (by cases p <;> exact lap_op _ rfl rfl rfl rfl))

theorem lap_big {big : Bool} : Lap E B (if big then [0x02] else []) o o false := by
  cases big
  · exact Lap.nil
  · exact lap_op .setBE rfl rfl rfl rfl

theorem lap_trans {t : ITrans} {c : Word} : Lap E B ([t.op] ++ leBytes 8 c) o o false := by
  rw [List.cons_append, List.nil_append]
  cases t <;> exact lap_op (.transI _) rfl (by rw [leBytes_length]; rfl) rfl rfl

theorem lap_curve {c : Curve} {n : Num} (h : c.suits n = true) : Lap E B c.code o o false := by
  have hb : ∀ k, k < 256 → (leWord [BitVec.ofNat 8 k]).toNat = k := by
    intro k hk
    rw [show leWord [BitVec.ofNat 8 k] = (BitVec.ofNat 8 k).setWidth 64 by simp [leWord]]
    simp only [BitVec.toNat_setWidth, BitVec.toNat_ofNat]
    omega
  cases c with
  | scale a b =>
    unfold Curve.code
    simp only [List.cons_append, List.nil_append]
    exact lap_op .scaleLin rfl (by simp only [List.length_append, leBytes_length]; rfl) rfl rfl
  | poly cs =>
    cases n with
    | flt d => cases h
    | int t =>
      have h : cs.length < 256 := by simpa [Curve.suits] using h
      unfold Curve.code
      simp only [List.cons_append, List.nil_append]
      refine lap_op .transPoly rfl ?_ rfl rfl
      show some (1 + (leWord [BitVec.ofNat 8 cs.length]).toNat * 8) = _
      rw [hb _ h]
      simp only [List.length_cons, flatMap_eight]
      congr 1
      omega
  | spline ps =>
    cases n with
    | flt d => cases h
    | int t =>
      have h : ps.length % 2 = 0 ∧ ps.length < 512 := by simpa [Curve.suits] using h
      unfold Curve.code
      simp only [List.cons_append, List.nil_append]
      refine lap_op .transSpline rfl ?_ rfl rfl
      show some (1 + (leWord [BitVec.ofNat 8 (ps.length / 2)]).toNat * 16) = _
      rw [hb _ (by omega)]
      simp only [List.length_cons, flatMap_eight]
      congr 1
      omega

/-! ### Choices -/

theorem paid_next {s s' : St σ} {c : Nat} {Q : Nat → St σ → Prop} (hc : 0 < c) (hs : step E s = .run s')
    (h : ∀ c', c ≤ c' + 1 → Paid E B Q c' s') : Paid E B Q c s := by
  obtain ⟨c, rfl⟩ := Nat.exists_eq_succ_of_ne_zero (Nat.ne_of_gt hc)
  exact .next hs (h _ (by omega))

/-- The same state at another place. -/
structure Shifted (s s' : St σ) : Prop where
  buf : s'.buf = s.buf
  cursor : s'.cursor = s.cursor
  bit : s'.bit = s.bit
  loops : s'.loops = s.loops
  opt : s'.opt = s.opt

theorem Shifted.inn {s s' : St σ} (h : Shifted s s') : s'.inn = s.inn := by unfold St.inn; rw [h.buf, h.cursor]

theorem Shifted.at {s s' : St σ} (h : Shifted s s') : s'.at = s.at := by unfold St.at; rw [h.bit, h.cursor]

theorem Shifted.trip {s s' : St σ} {k : Nat} (h : Shifted s s') (hi : Inv s') (ho : s.opt = true → o = true) (hk : s'.ip = s.ip + k) : Trip k o false s s' :=
  ⟨hk, h.loops, by rw [h.buf], hi, by rw [h.at]; exact Nat.le_refl _, fun e => ho (h.opt ▸ e), fun e => by cases e⟩

/-- A block followed by a jump ahead. -/
theorem block_jump_paid (h : Lap E B x o o' v) {s : St σ} {r c : Nat} (hat : At E.prog s.ip (x ++ ([0x52] ++ u32le r))) (hi : Inv s)
    (ho : s.opt = true → o = true) (hr : r < 2 ^ 31) (hle : s.ip + x.length + 5 + r ≤ E.prog.length) (hc : x.length + 5 ≤ c) :
    Paid E B (fun c' s' => Trip (x.length + 5 + r) o' v s s' ∧ c ≤ c' + (x.length + 5)) c s := by
  refine (h s c hat.left hi ho (by omega)).bind fun c' m hm => ?_
  have hj := jump_ends (r := r) (hm.1.ip ▸ hat.right) hr (by rw [hm.1.ip]; omega)
  refine paid_next (by have := hm.2; omega) hj fun c'' hc'' => .here ⟨?_, by have := hm.2; omega⟩
  have := hm.1.then (Shifted.trip (s := m) (s' := { m with ip := m.ip + 5 + r }) (k := 5 + r) ⟨rfl, rfl, rfl, rfl, rfl⟩ (step_goes hm.1.inv hj).1 hm.1.opt
    (by show m.ip + 5 + r = _; omega))
  rw [Bool.or_false, ← Nat.add_assoc] at this
  exact this

theorem lap_ite (hE : E.prog.length < 2 ^ 31) {e : IExpr} {thn els : List Byte} {o1 o2 v1 v2 : Bool}
    (h1 : Lap E B thn o o1 v1) (h2 : Lap E B els o o2 v2) : Lap E B (iteCode e.code thn els) o (o1 || o2) (v1 && v2) := by
  intro s c hat hi ho hc
  have hat' : At E.prog s.ip (e.code ++ ((0x50 :: u32le (thn.length + 5)) ++ ((thn ++ ([0x52] ++ u32le els.length)) ++ els))) := by
    unfold iteCode at hat
    simpa only [List.append_assoc, List.cons_append, List.nil_append] using hat
  have hl := hat'.le (by simp)
  have hlen : (iteCode e.code thn els).length = e.code.length + 5 + (thn.length + 5) + els.length := by
    unfold iteCode
    simp only [List.length_append, List.length_cons, List.length_nil, u32le_length]
    omega
  simp only [List.length_append, List.length_cons, List.length_nil, u32le_length] at hl
  have hatT := hat'.right.right.left
  have hatE := hat'.right.right.right
  simp only [List.length_append, List.length_cons, List.length_nil, u32le_length] at hatT hatE
  rw [hlen] at hc ⊢
  refine (lap_expr e s c hat'.left hi ho (by omega)).bind fun c1 m hm => ?_
  obtain ⟨hm, hc1⟩ := hm
  have hsafe := jumpIfNot_safe (r := thn.length + 5) (hm.ip ▸ hat'.right.left) (by omega) (by rw [hm.ip]; omega)
  refine Paid.of_post (P := fun s' => Shifted m s' ∧ Inv s' ∧ (s'.ip = m.ip + 5 ∨ s'.ip = m.ip + 5 + (thn.length + 5))) ?_ (by omega) ?_
  · cases hs : step E m with
    | run s' =>
      rw [hs] at hsafe
      obtain ⟨st, h | h⟩ := hsafe
      · exact ⟨by subst h; exact ⟨rfl, rfl, rfl, rfl, rfl⟩, (step_goes hm.inv hs).1, .inl (by rw [h])⟩
      · exact ⟨by subst h; exact ⟨rfl, rfl, rfl, rfl, rfl⟩, (step_goes hm.inv hs).1, .inr (by rw [h])⟩
    | stop e s' => trivial
    | ub u => trivial
  · intro m' c2 ⟨hmv, hi', hip⟩ hc2
    have hopt : m'.opt = true → o = true := fun h => hm.opt (hmv.opt ▸ h)
    rcases hip with hip | hip
    · refine (block_jump_paid h1 (r := els.length) (c := c2) (s := m') ?_ hi' hopt (by omega) ?_ (by omega)).mono fun c3 s' hs => ?_
      · rw [hip, hm.ip]; exact hatT
      · rw [hip, hm.ip]; omega
      · obtain ⟨hs, hc3⟩ := hs
        have := hm.then ((hmv.trip (k := 5) hi' hm.opt hip).then hs)
        rw [Bool.false_or, Bool.false_or] at this
        rw [show e.code.length + 5 + (thn.length + 5) + els.length = e.code.length + (5 + (thn.length + 5 + els.length)) by omega]
        exact ⟨this.weaken (fun e => by rw [e]; rfl) (fun e => (Bool.and_eq_true _ _ ▸ e).1), by omega⟩
    · refine (h2 m' c2 ?_ hi' hopt (by omega)).mono fun c3 s' hs => ?_
      · rw [hip, hm.ip, show s.ip + e.code.length + 5 + (thn.length + 5) = s.ip + e.code.length + (4 + 1) + (thn.length + (0 + 1 + 4)) by omega]
        exact hatE
      · obtain ⟨hs, hc3⟩ := hs
        have := hm.then ((hmv.trip (k := 5 + (thn.length + 5)) hi' hm.opt (by rw [hip]; omega)).then hs)
        rw [Bool.false_or, Bool.false_or] at this
        rw [show e.code.length + 5 + (thn.length + 5) + els.length = e.code.length + (5 + (thn.length + 5) + els.length) by omega]
        exact ⟨this.weaken (fun e => by rw [e, Bool.or_true]) (fun e => (Bool.and_eq_true _ _ ▸ e).2), by omega⟩

theorem lap_switch (hE : E.prog.length < 2 ^ 31) {k0 k1 : Byte} {cs : Cases} (hn : cs.labels.length < 2 ^ 16) (hab : o = true → o' = true)
    (hcs : ∀ lab c, cs.codes.lookup lab = some c → Lap E B c o o' v) :
    Lap E B (switchCode (keyNum k0 k1) cs.codes) o o' (v && cs.labels.contains none) := by
  intro s c hat hi hos hcc
  generalize hk : E.host.scalar s.host (keyNum k0 k1) 0x06 0 = ans
  obtain ⟨ok, x, h⟩ := ans
  have hlen : (switchCode (keyNum k0 k1) cs.codes).length =
      7 + armsSize cs.codes + (tableOf (armsAt 0 cs.codes) (armsSize cs.codes)).2.length := by
    unfold switchCode
    simp only [List.length_append, List.length_cons, List.length_nil, u32le_length, u16le_length, armsCode_length]
  have hl := hat.le (by unfold switchCode; simp)
  rw [hlen] at hl hcc ⊢
  cases ok with
  | false =>
    refine Paid.of_post (P := fun _ => False) ?_ (by omega) fun s' _ h => h.elim
    have := switch_refused hat hk
    cases hs : step E s with
    | run s' => rw [hs] at this; exact this
    | stop e s' => trivial
    | ub u => trivial
  | true =>
    have hst := switch_lands hE hat (by rw [codes_length]; exact hn) hk
    have hatC : At E.prog (s.ip + 7) (armsCode (tableOf (armsAt 0 cs.codes) (armsSize cs.codes)).2.length cs.codes) := by
      unfold switchCode at hat
      have := hat.left.right
      simpa only [List.length_append, List.length_cons, List.length_nil, u32le_length, u16le_length] using this
    generalize tableOf (armsAt 0 cs.codes) (armsSize cs.codes) = t at *
    have hi' := (step_goes hi hst).1
    refine paid_next (by omega) hst fun c1 hc1 => ?_
    have run : ∀ lab n, (armsAt 0 cs.codes).lookup lab = some n → ∀ m : St σ, m = { s with ip := s.ip + 7 + n, host := h } → Inv m →
        Paid E B (fun c' s' => Trip (7 + armsSize cs.codes + t.2.length) o' (v && cs.labels.contains none) s s' ∧
          c ≤ c' + (7 + armsSize cs.codes + t.2.length)) c1 m := by
      intro lab n hlk m hm him
      obtain ⟨cd, r, e1, _, e3, e4⟩ := arm_found cs.codes t.2.length 0 (s.ip + 7) lab n hlk hatC
      rw [Nat.sub_zero] at e3 e4
      have hmip : m.ip = s.ip + 7 + n := by rw [hm]
      have hmv : Shifted s m := by rw [hm]; exact ⟨rfl, rfl, rfl, rfl, rfl⟩
      refine (block_jump_paid (hcs lab cd e1) (r := r) (c := c1) (hmip ▸ e3) him (fun e => hos (hmv.opt ▸ e)) (by omega) (by omega) (by omega)).mono
        fun c' s' hs => ?_
      obtain ⟨hs, hc'⟩ := hs
      have := (hmv.trip (k := 7 + n) him hos (by omega)).then hs
      rw [Bool.false_or] at this
      rw [show 7 + armsSize cs.codes + t.2.length = 7 + n + (cd.length + 5 + r) by omega]
      exact ⟨this.weaken id (fun e => (Bool.and_eq_true _ _ ▸ e).1), by omega⟩
    unfold goesTo at hi' ⊢
    cases h1 : (armsAt 0 cs.codes).lookup (some x) with
    | some n => rw [h1] at hi'; exact run _ n h1 _ rfl hi'
    | none =>
      rw [h1] at hi'
      cases h2 : (armsAt 0 cs.codes).lookup none with
      | some n => rw [h2] at hi'; exact run _ n h2 _ rfl hi'
      | none =>
        rw [h2] at hi'
        refine .here ?_
        have hnl : cs.labels.contains none = false := by
          have := (codes_lookup cs none).1 ((arms_lookup _ _ _).1 h2)
          simpa using this
        rw [hnl, Bool.and_false]
        simp only [Option.getD_none] at hi' ⊢
        exact ⟨⟨by dsimp only; omega, rfl, rfl, hi', Nat.le_refl _, fun e => hab (hos e), fun e => (by cases e)⟩, by omega⟩

end

/-! ### Descriptions -/

section
variable {E : Env σ}

mutual

theorem sch_lap (hE : E.prog.length < 2 ^ 31) : (f : Sch) → ∀ o r, f.pace o = some r → Lap' E f.depth f.code o r.1 r.2
  | .fld f, o, r, h => by
    unfold Sch.pace at h
    unfold Sch.code Sch.depth
    exact fld_lap f o r h
  | .seq f g, o, r, h => by
    unfold Sch.pace at h
    obtain ⟨r1, h1, h2⟩ := Option.bind_eq_some_iff.1 h
    obtain ⟨r2, h3, h4⟩ := Option.map_eq_some_iff.1 h2
    subst h4
    unfold Sch.code Sch.depth
    exact ((sch_lap hE f _ _ h1).up (Nat.le_max_left _ _)).then ((sch_lap hE g _ _ h3).up (Nat.le_max_right _ _))
  | .struct k0 k1 f, o, r, h => by
    unfold Sch.pace at h
    unfold Sch.code Sch.depth
    exact lap_struct (sch_lap hE f _ _ h)
  | .arrFixed k0 k1 n f, o, r, h => by
    unfold Sch.pace at h
    obtain ⟨w, h1, h2⟩ := Option.map_eq_some_iff.1 h
    subst h2
    obtain ⟨hA, hw⟩ := paceArr_ok h1 (sch_lap hE f)
    unfold Sch.code Sch.depth
    exact Lap'.arr (lap_arrFixed hA hw)
  | .arrPre p k0 k1 f, o, r, h => by
    unfold Sch.pace at h
    obtain ⟨w, h1, h2⟩ := Option.map_eq_some_iff.1 h
    subst h2
    obtain ⟨hA, hw⟩ := paceArr_ok h1 (sch_lap hE f)
    unfold Sch.code Sch.depth
    exact Lap'.arr (lap_arrPre hA hw)
  | .arrDyn k0 k1 r0 r1 f, o, r, h => by
    unfold Sch.pace at h
    obtain ⟨w, h1, h2⟩ := Option.map_eq_some_iff.1 h
    subst h2
    obtain ⟨hA, hw⟩ := paceArr_ok h1 (sch_lap hE f)
    unfold Sch.code Sch.depth
    exact Lap'.arr (lap_arrDyn hA hw)
  | .opt, o, r, h => by
    unfold Sch.pace at h
    injection h with h
    subst h
    unfold Sch.code
    exact lap_op .markOptional rfl rfl rfl rfl
  | .trans x c big t k0 k1, o, r, h => by
    unfold Sch.pace at h
    injection h with h
    subst h
    unfold Sch.code
    exact lap_trans.then (lap_big.then (w := !o) (lap_scalar (tag_scales t)))
  | .curve x big n k0 k1, o, r, h => by
    unfold Sch.pace at h
    split at h
    · rename_i hc
      injection h with h
      subst h
      unfold Sch.code
      exact (lap_curve hc).then (lap_big.then (w := !o) (lap_scalar (num_scales n)))
    · cases h
  | .calc e big tag k0 k1, o, r, h => by
    unfold Sch.pace at h
    injection h with h
    subst h
    unfold Sch.code
    refine (lap_expr e).then (w := false) (lap_big.then (w := false) (Lap.then (v := false) (w := false) (o' := o) ?_ (Lap.then (v := false) (w := false) (o' := o) ?_ ?_)))
    · exact lap_op .dup rfl rfl rfl rfl
    · exact lap_op .storeCtx rfl rfl rfl rfl
    · exact lap_op .emit rfl rfl rfl rfl
  | .ite c f g, o, r, h => by
    unfold Sch.pace at h
    obtain ⟨r1, h1, h2⟩ := Option.bind_eq_some_iff.1 h
    obtain ⟨r2, h3, h4⟩ := Option.map_eq_some_iff.1 h2
    subst h4
    unfold Sch.code Sch.depth
    exact lap_ite hE ((sch_lap hE f _ _ h1).up (Nat.le_max_left _ _)) ((sch_lap hE g _ _ h3).up (Nat.le_max_right _ _))
  | .switch k0 k1 cs, o, r, h => by
    unfold Sch.pace at h
    split at h
    · rename_i hn
      obtain ⟨q, h1, h2⟩ := Option.map_eq_some_iff.1 h
      subst h2
      obtain ⟨hab, hc⟩ := cases_lap hE cs _ _ h1
      unfold Sch.code Sch.depth
      exact lap_switch hE hn hab hc
    · cases h

theorem cases_lap (hE : E.prog.length < 2 ^ 31) : (cs : Cases) → ∀ o r, cs.pace o = some r →
    (o = true → r.1 = true) ∧ ∀ lab c, cs.codes.lookup lab = some c → Lap' E cs.depth c o r.1 r.2
  | .nil, o, r, h => by
    unfold Cases.pace at h
    injection h with h
    subst h
    exact ⟨id, fun lab c e => by unfold Cases.codes at e; cases e⟩
  | .cons l f rest, o, r, h => by
    unfold Cases.pace at h
    obtain ⟨r1, h1, h2⟩ := Option.bind_eq_some_iff.1 h
    obtain ⟨r2, h3, h4⟩ := Option.map_eq_some_iff.1 h2
    subst h4
    obtain ⟨ih1, ih2⟩ := cases_lap hE rest _ _ h3
    refine ⟨fun e => by rw [ih1 e, Bool.or_true], fun lab c e => ?_⟩
    unfold Cases.codes at e
    unfold Cases.depth
    rw [List.lookup_cons] at e
    split at e
    · injection e with e
      subst e
      exact Lap.weaken ((sch_lap hE f _ _ h1).up (Nat.le_max_left _ _)) (fun e => by rw [e]; rfl) (fun e => (Bool.and_eq_true _ _ ▸ e).1)
    · exact Lap.weaken ((ih2 lab c e).up (Nat.le_max_right _ _)) (fun e => by rw [e, Bool.or_true]) (fun e => (Bool.and_eq_true _ _ ▸ e).2)

end

/-- The number of instructions of a whole program. -/
theorem sch_swift (f : Sch) (hp : E.prog = f.code) (ht : f.swift = true) (hlen : f.code.length < 2 ^ 31) (old : St σ) (buf : List Byte) (user : σ) :
    ∃ n, n ≤ f.code.length + f.depth * f.code.length * buf.length + 1 ∧ ∀ s', exec E n (initSt old buf user) ≠ .run s' := by
  obtain ⟨r, hr⟩ := Option.isSome_iff_exists.1 ht
  have hat : At E.prog (initSt old buf user).ip f.code := by rw [hp]; exact ⟨[], by simp [initSt]⟩
  have h := sch_lap (E := E) (by rw [hp]; exact hlen) f false r hr (initSt old buf user) f.code.length hat (init_inv old buf user)
    (fun e => by simp [initSt] at e) (Nat.le_refl _)
  obtain ⟨n, hn, h⟩ := h.exec (init_inv old buf user)
  rw [hp] at hn
  have hi : (initSt old buf user).inn = 0 := by simp [St.inn, initSt]
  have hb : (initSt old buf user).buf.length = buf.length := rfl
  rw [hi, hb, Nat.sub_zero] at hn
  rcases h with ⟨c', s', h1, h2⟩ | h
  · refine ⟨n + 1, by omega, fun t ht => ?_⟩
    rw [exec_add, h1] at ht
    have he : E.prog[s'.ip]? = none := by
      rw [h2.1.ip, hp]
      simp [initSt]
    simp only [exec] at ht
    rw [step_end he] at ht
    cases ht
  · exact ⟨n, by omega, h⟩

end

end Cnd
