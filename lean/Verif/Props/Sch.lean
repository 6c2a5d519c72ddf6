/-
  C61: round trip of packets with control flow.
-/
import Verif.SchWire
import Verif.CurveStep
import Verif.Props.Packet
import Verif.Props.SourceSwitch

namespace Cnd

section
variable {K : View} {E : Env Tape} {tot : List Ev} {p q : P} {s : St Tape}

/-! ### Expressions -/

theorem giver_load (hH : E.host = giver K) {evs rest : List Ev} (hh : s.host = ⟨evs, rest⟩) {key : Nat} {w : Word} (hK : K key = false)
    (hl : K.look key evs = some w) : E.host.scalar s.host key 0x60 0 = (true, w, s.host) := by
  rw [hH, hh]
  simp [giver, hK, hl]

theorem un_step {σ : Type} {E : Env σ} {s : St σ} {w : Word} {o : IUn} {rest : List Word} {n : Nat} (hat : At E.prog s.ip [o.byte])
    (hs : s.stack = w :: rest) (hd : rest.length < maxDepth) (hv : o.value w.toNat = .val n) :
    ∃ x : Word, x.toNat = n ∧ step E s = .run { s with ip := s.ip + 1, stack := x :: rest } := by
  have hstep : step E s = unary { s with ip := s.ip + 1 } (unEval E.fl o.un) := by
    cases o <;> (rw [step_pre hat, pre_unaligned _ s rfl]; rfl)
  unfold unary at hstep
  rw [show ({ s with ip := s.ip + 1 } : St σ).stack = w :: rest from hs] at hstep
  dsimp only at hstep
  have hval := iun_value E.fl o w
  rw [hv] at hval
  cases hu : unEval E.fl o.un w with
  | val x =>
    rw [hu] at hval hstep
    refine ⟨x, hval, ?_⟩
    rw [hstep]
    unfold aluDone
    dsimp only
    rw [push_ok (by exact hd)]
  | err e => rw [hu] at hval; exact hval.elim
  | ub u => rw [hu] at hval; exact hval.elim

theorem bin_step {σ : Type} {E : Env σ} {s : St σ} {a b : Word} {o : IBin} {rest : List Word} {n : Nat} (hat : At E.prog s.ip [o.byte])
    (hs : s.stack = b :: a :: rest) (hd : rest.length < maxDepth) (hv : o.value a.toNat b.toNat = .val n) :
    ∃ x : Word, x.toNat = n ∧ step E s = .run { s with ip := s.ip + 1, stack := x :: rest } := by
  have hstep : step E s = binary { s with ip := s.ip + 1 } (ibinEval o) := by
    cases o <;> (rw [step_pre hat, pre_unaligned _ s rfl]; rfl)
  unfold binary at hstep
  rw [show ({ s with ip := s.ip + 1 } : St σ).stack = b :: a :: rest from hs] at hstep
  dsimp only at hstep
  have hval := ibin_value o a b
  rw [hv] at hval
  cases hu : ibinEval o a b with
  | val x =>
    rw [hu] at hval hstep
    refine ⟨x, hval, ?_⟩
    rw [hstep]
    unfold aluDone
    dsimp only
    rw [push_ok (by exact hd)]
  | err e => rw [hu] at hval; exact hval.elim
  | ub u => rw [hu] at hval; exact hval.elim

theorem side_iop {σ : Type} {E : Env σ} {Kp : Nat → Prop} {s : St σ} {b : Byte} (h : (∃ o : IBin, b = o.byte) ∨ ∃ o : IUn, b = o.byte) :
    Side E Kp b s := by
  rcases h with ⟨o, rfl⟩ | ⟨o, rfl⟩ <;> cases o <;> trivial

/-- An expression whose fields are in the record so far is evaluated. -/
theorem enc_expr (hH : E.host = giver K) (evs rest : List Ev) (e : IExpr) (hk : ∀ k ∈ e.keys, K k = false ∧ K.look k evs ≠ none) :
    ∀ (s : St Tape) (n : Nat), s.host = ⟨evs, rest⟩ → At E.prog s.ip e.code → s.stack.length + e.depth ≤ 8 →
      e.value (valuesIn K evs) = .val n →
      ∃ w : Word, w.toNat = n ∧
        RunS E (fun k => K k = true) s { s with ip := s.ip + e.code.length, stack := w :: s.stack } := by
  induction e with
  | lit w =>
    intro s n hh hat hd hv
    simp only [IExpr.value, EVal.val.injEq] at hv
    refine ⟨w, hv, .one hat (by rw [pre_unaligned _ s rfl]; trivial) ?_⟩
    rw [step_pre hat, pre_unaligned 0x61 s rfl]
    show fet E _ 8 (fun v s => push s v) = _
    refine fet_ok (bs := leBytes 8 w) hat.tail (by simp) (by omega) ?_
    rw [leWord_leBytes_lt (by omega) (by have := w.isLt; omega)]
    simp only [IExpr.depth] at hd
    rw [push_ok (by show s.stack.length < 8; omega)]
    simp [IExpr.code, Nat.add_assoc]
  | fld k0 k1 =>
    intro s n hh hat hd hv
    obtain ⟨h1, h2⟩ := hk (keyNum k0 k1) (by simp [IExpr.keys])
    obtain ⟨w, hw⟩ := Option.ne_none_iff_exists'.1 h2
    simp only [IExpr.value, EVal.val.injEq, valuesIn, hw, Option.getD_some] at hv
    refine ⟨w, hv, .one hat (by rw [pre_unaligned _ s rfl]; trivial) ?_⟩
    rw [step_pre hat, pre_unaligned 0x60 s rfl]
    show handleLoadCtx E 0x60 _ = _
    unfold handleLoadCtx
    refine fet_ok (bs := [k0, k1]) hat.tail rfl (by omega) ?_
    rw [leWord_key]
    refine callScalar_ok (giver_load hH hh h1 hw) ?_
    rw [truncB_eight]
    simp only [IExpr.depth] at hd
    rw [push_ok (by show s.stack.length < 8; omega)]
    simp [IExpr.code, Nat.add_assoc]
  | un o e ih =>
    intro s n hh hat hd hv
    have hat' : At E.prog s.ip (e.code ++ [o.byte]) := hat
    have hpos := e.depth_pos
    simp only [IExpr.depth] at hd
    simp only [IExpr.value] at hv
    cases hv1 : e.value (valuesIn K evs) with
    | divZero => rw [hv1] at hv; cases hv
    | undef => rw [hv1] at hv; cases hv
    | val m =>
      rw [hv1] at hv
      obtain ⟨w, rfl, hr⟩ := ih hk s m hh hat'.left hd hv1
      obtain ⟨x, hx, hs⟩ := un_step (s := { s with ip := s.ip + e.code.length, stack := w :: s.stack }) hat'.right rfl
        (by unfold maxDepth; omega) hv
      refine ⟨x, hx, hr.trans ?_⟩
      have := RunS.one (K := fun k => K k = true) hat'.right (side_iop (.inr ⟨o, rfl⟩)) hs
      simpa [IExpr.code, Nat.add_assoc] using this
  | bin o l r ihl ihr =>
    intro s n hh hat hd hv
    have hat' : At E.prog s.ip (l.code ++ (r.code ++ [o.byte])) := hat
    have hpos := l.depth_pos
    simp only [IExpr.depth] at hd
    simp only [IExpr.value] at hv
    cases hv1 : l.value (valuesIn K evs) with
    | divZero => rw [hv1] at hv; cases hv
    | undef => rw [hv1] at hv; cases hv
    | val m =>
      rw [hv1] at hv
      obtain ⟨w, rfl, hr⟩ := ihl (fun k h => hk k (by simp [IExpr.keys, h])) s m hh hat'.left (by omega) hv1
      dsimp only at hv
      cases hv2 : r.value (valuesIn K evs) with
      | divZero => rw [hv2] at hv; cases hv
      | undef => rw [hv2] at hv; cases hv
      | val m2 =>
        rw [hv2] at hv
        obtain ⟨w2, rfl, hr2⟩ := ihr (fun k h => hk k (by simp [IExpr.keys, h]))
          { s with ip := s.ip + l.code.length, stack := w :: s.stack } m2 hh hat'.right.left
          (by simp only [List.length_cons]; omega) hv2
        obtain ⟨x, hx, hs⟩ := bin_step
          (s := { s with ip := s.ip + l.code.length + r.code.length, stack := w2 :: w :: s.stack }) hat'.right.right rfl
          (by unfold maxDepth; omega) hv
        refine ⟨x, hx, hr.trans (hr2.trans ?_)⟩
        have := RunS.one (K := fun k => K k = true) hat'.right.right (side_iop (.inl ⟨o, rfl⟩)) hs
        simpa [IExpr.code, Nat.add_assoc] using this

/-! ### Transforms and computed fields -/

/-- The change to big-endian, if there is one. -/
theorem enc_big (big : Bool) (hat : At E.prog s.ip (if big then [0x02] else [])) (hbit : 8 * s.cursor + s.bit = p.pos)
    (hb8 : s.bit < 8) (hbe : s.be = p.be) (hb : big = true → p.pos % 8 = 0 ∨ p.be = true) :
    RunS E (fun k => K k = true) s { s with ip := s.ip + (if big then [(0x02 : Byte)] else []).length, be := p.be || big } := by
  cases big with
  | false =>
    have : ({ s with ip := s.ip + (if false then [(0x02 : Byte)] else []).length, be := p.be || false } : St Tape) = s := by
      rw [Bool.or_false, ← hbe]
      rfl
    rw [this]
    exact .refl _
  | true =>
    have hat' : At E.prog s.ip [0x02] := hat
    have hs := setBE_step hat'
    rw [Bool.or_true]
    refine .one hat' ?_ hs
    rw [pre_unaligned _ s rfl]
    rcases hb rfl with hm | hm
    · left; show s.bit = 0; omega
    · right; exact hbe.trans hm

theorem io_decode (t : Ty) : decodeOp t.tag = .io t := by cases t <;> rfl

theorem enc_trans (hH : E.host = giver K) (henc : E.enc = true) (h : Here p tot s) {x : ITrans} {c : Word} {big : Bool} {t : Ty}
    {k0 k1 : Byte} {e r : Int} {l : List Ev} (hat : At E.prog s.ip (Sch.trans x c big t k0 k1).code)
    (hrel : x.rel c.toInt e r) (hholds : t.holds r) (hr : r < 2 ^ 63) (he : -(2 ^ 63 : Int) ≤ e) (he2 : e < 2 ^ 63)
    (hK : K (keyNum k0 k1) = false) (hb : big = true → p.pos % 8 = 0 ∨ p.be = true)
    (htot : tot = (p.evs ++ [.num (keyNum k0 k1) 0x17 (BitVec.ofInt 64 e)]) ++ l)
    (hroom : ((⟨p.pos, p.be || big, p.evs⟩ : P).bytes t.size [.num (keyNum k0 k1) 0x17 (BitVec.ofInt 64 e)]).pos ≤ 8 * s.buf.length) :
    ∃ s1, Did E K tot s s1 ((⟨p.pos, p.be || big, p.evs⟩ : P).bytes t.size [.num (keyNum k0 k1) 0x17 (BitVec.ofInt 64 e)])
      (Sch.trans x c big t k0 k1).code.length ∧
      store s.buf s.fieldPos (wrBytes (p.be || big) t.size (BitVec.ofInt 64 r)) = some s1.buf ∧ s.fieldPos + t.size ≤ s1.cursor := by
  have hr0 : -(2 ^ 63 : Int) ≤ r := by
    unfold Ty.holds at hholds
    cases t <;> simp only [Ty.signed, Ty.size, Bool.false_eq_true, if_false, if_true] at hholds <;> omega
  have hl : ([x.op] ++ leBytes 8 c).length = 9 := by simp
  have hat0 : At E.prog s.ip (([x.op] ++ leBytes 8 c) ++ ((if big then [0x02] else []) ++ [t.tag, k0, k1])) := by
    simpa only [Sch.code] using hat
  have hat1 := hat0.left
  have hat2 : At E.prog (s.ip + 9) ((if big then [0x02] else []) ++ [t.tag, k0, k1]) := hl ▸ hat0.right
  have hat3 := hat2.right
  have hs1 := trans_step hat1
  have hm := enc_big (K := K) (E := E) (p := p) (s := { s with ip := s.ip + 9, trans := x.tr, iVal := c }) big hat2.left
    h.pos h.bit h.be hb
  have hfp := h.fieldPos
  have hg := giver_num hH h (c := 0) htot hK (by decide) (by decide) (by simp [isQuery])
  have hrm : s.fieldPos + t.size ≤ s.buf.length := by simp only [P.bytes] at hroom; omega
  have hs3 := prim_trans_enc (E := E)
    (s := { s with ip := s.ip + 9 + (if big then [(0x02 : Byte)] else []).length, trans := x.tr, iVal := c, be := p.be || big })
    henc (x := x) (t := t) hat3 rfl hrm hg
  rw [to_raw hrel he he2 hr0 hr] at hs3
  have hal : aligns t.tag = true := by cases t <;> rfl
  have hx1 : aligns x.op = false := by cases x <;> rfl
  have hv8 : viewOp t.tag x.tr = 0x17 ∧ viewSize t x.tr = 8 := by cases x <;> exact ⟨rfl, rfl⟩
  have hwe : truncB t.size (BitVec.ofInt 64 r) = BitVec.ofNat 64 (t.wire r) := by
    apply BitVec.eq_of_toNat_eq
    rw [toNat_truncB, wire_ofInt, BitVec.toNat_ofNat]
    have h1 := (wire_back hholds hr).1
    have : 2 ^ (8 * t.size) ≤ 2 ^ 64 := by cases t <;> decide
    omega
  refine ⟨_, ⟨(RunS.one hat1 (by
      rw [pre_unaligned _ s hx1]; unfold Side; cases x <;> trivial) hs1).trans (hm.trans (RunS.one hat3 ?_ hs3)),
    ?_, ?_, rfl, rfl, ?_⟩, store_eq_some.2 ⟨by rw [wrBytes_length]; exact hrm, rfl⟩, Nat.le_refl _⟩
  · rw [pre_aligned _ _ hal]
    unfold Side
    simp only [io_decode]
    have hf : fetch E.prog (s.ip + 9 + (if big then [(0x02 : Byte)] else []).length + 1) 2 = (leWord [k0, k1], _) :=
      hat3.tail.fetch rfl (by omega)
    refine ⟨hrm, ?_⟩
    simp only [hf, leWord_key, hv8.1, hv8.2]
    intro w h' e1 v hv
    have e1 : E.host.scalar s.host (keyNum k0 k1) 0x17 0 = (true, w, h') := e1
    rw [hg] at e1
    simp only [Prod.mk.injEq, true_and] at e1
    have hv : primRaw E t { s with trans := x.tr, iVal := c } (truncB 8 w) = some v := by
      cases x <;> exact hv
    suffices hh : primEng E t { s with trans := x.tr, iVal := c } (truncB t.size v) = some w by
      cases x <;> exact hh
    rw [truncB_of_lt 8 w (by have := w.isLt; omega), ← e1.1] at hv
    rw [← e1.1]
    have h3 : primRaw E t { s with trans := x.tr, iVal := c } (BitVec.ofInt 64 e) = some (BitVec.ofInt 64 r) := by
      rw [← to_raw hrel he he2 hr0 hr]; cases x <;> rfl
    rw [h3] at hv
    injection hv with hv
    subst hv
    rw [hwe]
    have := to_eng hrel he he2 (wire_back hholds hr).2
    rw [← this]
    cases x <;> rfl
  · refine ⟨by simp, ?_, rfl, rfl, l, rfl, htot⟩
    simp only [P.bytes]
    show 8 * (s.fieldPos + t.size) + 0 = _
    omega
  · simp only [Sch.code, List.length_append, hl]
    simp
    omega
  · exact splice_length (by rw [wrBytes_length]; exact hrm)

theorem curve_side (c : Curve) (E : Env Tape) (K : Nat → Prop) (s : St Tape) : Side E K c.op s := by
  unfold Side; cases c <;> trivial

theorem num_decode (n : Num) : decodeOp n.tag = (match n with | .int t => .io t | .flt true => .ioF64 | .flt false => .ioF32) := by
  cases n with
  | int t => exact io_decode t
  | flt d => cases d <;> rfl

/-- The host's number survives in a field under a pending transform. -/
theorem curve_faith {c : Curve} {n : Num} {k0 k1 : Byte} {w v : Word} {h : Tape} {KK : Nat → Prop} (hr : c.Ready E s) (hs : c.suits n = true)
    (hf : fetch E.prog s.ip 2 = (leWord [k0, k1], s.ip + 2)) (hroom : s.cursor + n.size ≤ s.buf.length)
    (hhost : E.host.scalar s.host (keyNum k0 k1) 0x19 0 = (true, w, h)) (hv : n.ofDbl E.fl (c.down E.fl w) = some v)
    (hw : c.up E.fl (n.dbl E.fl (truncB n.size v)) = w) : Side E KK n.tag s := by
  unfold Side
  simp only [num_decode]
  cases n with
  | int t =>
    refine ⟨hroom, ?_⟩
    intro w' h' e1 v' hv'
    rw [hf, (ready_view hr _ t).1, leWord_key, hhost] at e1
    simp only [Prod.mk.injEq, true_and] at e1
    rw [(ready_view hr t.tag t).2, ready_raw hr, truncB_of_lt 8 w' (by have := w'.isLt; omega), ← e1.1] at hv'
    have hv : E.fl.toTy t (c.down E.fl w) = some v := hv
    rw [hv] at hv'
    injection hv' with hv'
    subst hv'
    rw [ready_eng hr, ← e1.1]
    exact congrArg some hw
  | flt d =>
    obtain ⟨a, b, rfl⟩ := flt_scale hs
    suffices FaithFloat E d (Num.flt d).tag s by cases d <;> exact this
    rw [float_size] at hroom hw
    refine ⟨hroom, ?_⟩
    intro w' h' e1 v' hv'
    rw [hf, hr.1, leWord_key] at e1
    have e1 : E.host.scalar s.host (keyNum k0 k1) 0x19 0 = (true, w', h') := e1
    rw [hhost] at e1
    simp only [Prod.mk.injEq, true_and] at e1
    rw [flt_raw hr hs, hr.1, show floatCell d .scale = 8 from rfl, truncB_of_lt 8 w' (by have := w'.isLt; omega), ← e1.1, hv] at hv'
    injection hv' with hv'
    subst hv'
    rw [flt_eng hr hs, ← e1.1]
    exact congrArg some hw

theorem enc_curve (hH : E.host = giver K) (henc : E.enc = true) (h : Here p tot s) {c : Curve} {big : Bool} {n : Num}
    {k0 k1 : Byte} {w v : Word} {l : List Ev} (hat : At E.prog s.ip (Sch.curve c big n k0 k1).code)
    (hv : n.ofDbl E.fl (c.down E.fl w) = some v)
    (hw : c.up E.fl (n.dbl E.fl (truncB n.size v)) = w) (hsu : c.suits n = true)
    (hK : K (keyNum k0 k1) = false) (hb : big = true → p.pos % 8 = 0 ∨ p.be = true)
    (htot : tot = (p.evs ++ [.num (keyNum k0 k1) 0x19 w]) ++ l)
    (hroom : ((⟨p.pos, p.be || big, p.evs⟩ : P).bytes n.size [.num (keyNum k0 k1) 0x19 w]).pos ≤ 8 * s.buf.length) :
    ∃ s1, Did E K tot s s1 ((⟨p.pos, p.be || big, p.evs⟩ : P).bytes n.size [.num (keyNum k0 k1) 0x19 w])
      (Sch.curve c big n k0 k1).code.length ∧
      store s.buf s.fieldPos (wrBytes (p.be || big) n.size v) = some s1.buf ∧ s.fieldPos + n.size ≤ s1.cursor := by
  have hat0 : At E.prog s.ip (c.code ++ ((if big then [0x02] else []) ++ [n.tag, k0, k1])) := by
    simpa only [Sch.code] using hat
  obtain ⟨hs1, hrd⟩ := curve_step hat0.left hsu
  have hip := c.load_ip s
  have hat2 : At E.prog (c.load s).ip ((if big then [0x02] else []) ++ [n.tag, k0, k1]) := hip ▸ hat0.right
  obtain ⟨q1, q2, q3, q4, q5, q6, q7⟩ := c.load_same s
  obtain ⟨q8, q9⟩ := c.load_pos s
  obtain ⟨r, hcons⟩ := c.code_cons
  have hatc : At E.prog s.ip (c.op :: r) := hcons ▸ hat0.left
  have hfp := h.fieldPos
  have hbit := h.bit
  have hpos := h.pos
  have hm : RunS E (fun k => K k = true) (c.load s)
      { c.load s with ip := (c.load s).ip + (if big then [(0x02 : Byte)] else []).length, be := p.be || big } := by
    rcases q9 with ⟨e1, e2⟩ | ⟨e1, e2⟩
    · exact enc_big (p := p) big hat2.left (by rw [e1, e2]; exact hpos) (by rw [e2]; exact hbit) (q5.trans h.be) hb
    · exact enc_big (p := ⟨8 * s.fieldPos, p.be, p.evs⟩) big hat2.left (by rw [e1, e2]; rfl) (by rw [e2]; omega) (q5.trans h.be)
        (fun _ => .inl (by show 8 * s.fieldPos % 8 = 0; omega))
  have hg := giver_num hH h (c := 0) htot hK (by decide) (by decide) (by simp [isQuery])
  have hrm : s.fieldPos + n.size ≤ s.buf.length := by simp only [P.bytes] at hroom; omega
  have hat3 := hat2.right
  generalize hme : ({ c.load s with ip := (c.load s).ip + (if big then [(0x02 : Byte)] else []).length, be := p.be || big } : St Tape) = m at hm
  have m1 : m.ip = (c.load s).ip + (if big then [(0x02 : Byte)] else []).length := by rw [← hme]
  have m2 : m.host = s.host := by rw [← hme]; exact q4
  have m3 : m.buf = s.buf := by rw [← hme]; exact q1
  have m4 : m.fieldPos = s.fieldPos := by rw [← hme]; exact q8
  have m5 : m.be = (p.be || big) := by rw [← hme]
  have m6 : m.loops = s.loops := by rw [← hme]; exact q2
  have m7 : m.stack = s.stack := by rw [← hme]; exact q3
  have m8 : c.Ready E m := by rw [← hme]; cases c <;> exact hrd
  rw [← m1] at hat3
  rw [← m2] at hg
  have hs3 := curve_put henc m8 hsu hat3 (by rw [m4, m3]; exact hrm) hg hv
  refine ⟨_, ⟨(RunS.one hatc (curve_side ..) hs1).trans (hm.trans (RunS.one hat3 ?_ hs3)),
    ?_, ?_, m6, m7, ?_⟩, ?_, ?_⟩
  · have hf : fetch E.prog (m.ip + 1) 2 = (leWord [k0, k1], _) := hat3.tail.fetch rfl (by omega)
    have hr' := ready_pre m8 n.tag n.aligns
    rw [pre_aligned _ _ n.aligns] at hr' ⊢
    exact curve_faith hr' hsu hf (by show m.fieldPos + _ ≤ m.buf.length; rw [m4, m3]; exact hrm) hg hv hw
  · refine ⟨by simp, ?_, m5, rfl, l, rfl, htot⟩
    simp only [P.bytes]
    show 8 * (m.fieldPos + n.size) + 0 = _
    rw [m4]
    omega
  · simp only [Sch.code, List.length_append]
    show m.ip + 3 = _
    rw [m1, hip]
    simp
    omega
  · rw [← m3]; exact splice_length (by rw [wrBytes_length, m4, m3]; exact hrm)
  · rw [m3, m4, m5]; exact store_eq_some.2 ⟨by rw [wrBytes_length]; exact hrm, rfl⟩
  · show _ ≤ m.fieldPos + n.size; rw [m4]; exact Nat.le_refl _

theorem enc_calc (hH : E.host = giver K) (henc : E.enc = true) (h : Here p tot s) (hk : s.stack = []) {e : IExpr} {big : Bool} {tag : Byte}
    {k0 k1 : Byte} {n m : Nat} {l : List Ev} (hat : At E.prog s.ip (Sch.calc e big tag k0 k1).code)
    (hw : intWidth tag = some n) (hsee : e.sees K p.evs) (hv : e.value (valuesIn K p.evs) = .val m) (hm : m < 2 ^ (8 * n))
    (hp : p.pos % 8 = 0) (hK : K (keyNum k0 k1) = false)
    (htot : tot = (p.evs ++ [.num (keyNum k0 k1) 0x78 (BitVec.ofNat 64 m)]) ++ l)
    (hroom : ((⟨p.pos, p.be || big, p.evs⟩ : P).bytes n [.num (keyNum k0 k1) 0x78 (BitVec.ofNat 64 m)]).pos ≤ 8 * s.buf.length) :
    ∃ s1, Did E K tot s s1 ((⟨p.pos, p.be || big, p.evs⟩ : P).bytes n [.num (keyNum k0 k1) 0x78 (BitVec.ofNat 64 m)]) (Sch.calc e big tag k0 k1).code.length ∧
      store s.buf s.fieldPos (wrBytes (p.be || big) n (BitVec.ofNat 64 m)) = some s1.buf ∧ s.fieldPos + n ≤ s1.cursor := by
  have hat0 : At E.prog s.ip (e.code ++ ((if big then [0x02] else []) ++ ([0x64] ++ ([0x78, k0, k1] ++ [0x65, tag])))) := by
    simpa only [Sch.code] using hat
  obtain ⟨rest, hh, ht⟩ := h.host
  obtain ⟨w, hwm, hr⟩ := enc_expr hH p.evs rest e hsee.2 s m hh hat0.left (by rw [hk]; simpa using hsee.1) hv
  have hwe : BitVec.ofNat 64 m = w := by rw [← hwm]; simp
  rw [hwe] at htot hroom ⊢
  rw [hk] at hr
  have hm2 := enc_big (K := K) (E := E) (p := p) (s := { s with ip := s.ip + e.code.length, stack := [w] }) big hat0.right.left
    h.pos h.bit h.be (fun _ => .inl hp)
  generalize hip : s.ip + e.code.length + (if big then [(0x02 : Byte)] else []).length = i at hm2
  have h0 : At E.prog i ([0x64] ++ ([0x78, k0, k1] ++ [0x65, tag])) := hip ▸ hat0.right.right
  have h1 := h0.left
  have h2 := h0.right.left
  have h3 := h0.right.right
  simp only [List.length_cons, List.length_nil, Nat.zero_add] at h2 h3
  have s1 : step E { s with ip := i, stack := [w], be := p.be || big } =
      .run { s with ip := i + 1, stack := [w, w], be := p.be || big } := by
    rw [step_pre h1, pre_unaligned _ _ rfl]
    rfl
  have hg := giver_num hH h (c := w) htot hK (by decide) (by decide) (fun _ => rfl)
  have s2 : step E { s with ip := i + 1, stack := [w, w], be := p.be || big } =
      .run { s with ip := i + 1 + 3, stack := [w], be := p.be || big, host := ⟨p.evs ++ [.num (keyNum k0 k1) 0x78 w], l⟩ } := by
    rw [step_pre h2, pre_unaligned _ _ rfl]
    show handleStoreCtx E 0x78 _ = _
    unfold handleStoreCtx
    refine fet_ok (bs := [k0, k1]) h2.tail rfl (by omega) ?_
    rw [leWord_key]
    exact callScalar_ok hg rfl
  have hpos := h.pos
  have hbit := h.bit
  have hb0 : s.bit = 0 := by omega
  have hrm : s.cursor + n ≤ s.buf.length := by simp only [P.bytes, up8] at hroom; omega
  have s3 := emit_enc (s := { s with ip := i + 1 + 3, stack := [w], be := p.be || big, host := ⟨p.evs ++ [.num (keyNum k0 k1) 0x78 w], l⟩ })
    henc h3 hw rfl hrm
  refine ⟨_, ⟨hr.trans (hm2.trans ((RunS.one h1 (by rw [pre_unaligned _ _ rfl]; trivial) s1).trans
    ((RunS.one h2 (by rw [pre_unaligned _ _ rfl]; trivial) s2).trans (RunS.one h3 ?_ s3)))), ?_, ?_, rfl, hk.symm, ?_⟩, ?_, ?_⟩
  · rw [pre_unaligned _ _ rfl]
    refine ⟨hb0, ?_⟩
    have hf : fetch E.prog (i + 1 + 3 + 1) 1 = (leWord [tag], _) := h3.tail.fetch rfl (by omega)
    obtain ⟨g1, g2, g3, g4, g5⟩ := intWidth_emit hw
    simp only [hf]
    intro v r' n' hv' hn'
    rw [g1] at hn'
    injection hn' with hn'
    subst hn'
    simp only [List.cons.injEq] at hv'
    unfold EmitBack
    rw [if_neg g2, if_neg g3, ← hv'.1]
    exact truncB_of_lt _ _ (by omega)
  · refine ⟨h.bit, ?_, rfl, h.trans, l, rfl, htot⟩
    simp only [P.bytes, up8]
    omega
  · simp only [Sch.code, List.length_append, List.length_cons, List.length_nil]
    show i + 1 + 3 + 2 = _
    rw [← hip]
    omega
  · exact splice_length (by rw [wrBytes_length]; exact hrm)
  · rw [show s.fieldPos = s.cursor by simp [St.fieldPos, hb0]]
    exact store_eq_some.2 ⟨by rw [wrBytes_length]; exact hrm, rfl⟩
  · rw [show s.fieldPos = s.cursor by simp [St.fieldPos, hb0]]
    exact Nat.le_refl _

/-! ### Choices -/

/-- A jump ahead. -/
theorem jump_step {r : Nat} (hat : At E.prog s.ip ([0x52] ++ u32le r)) (hr : r < 2 ^ 31) (hle : s.ip + 5 + r ≤ E.prog.length) :
    RunS E (fun k => K k = true) s { s with ip := s.ip + 5 + r } := by
  have hat' : At E.prog s.ip (0x52 :: u32le r) := hat
  refine .one hat' (by rw [pre_unaligned _ _ rfl]; trivial) ?_
  rw [step_pre hat', pre_unaligned 0x52 _ rfl]
  show handleJump E _ = _
  unfold handleJump
  refine fet_ok hat'.tail (by simp) (by omega) ?_
  unfold u32le
  rw [goto_ahead hr (by show s.ip + 1 + 4 + r ≤ _; omega)]

/-- The condition of an `if`: the run is at the start of the block to be taken. -/
theorem enc_cond (hH : E.host = giver K) (hE : E.prog.length < 2 ^ 31) (h : Here p tot s) (hk : s.stack = []) {c : IExpr}
    {thn els : List Byte} {n : Nat} (hat : At E.prog s.ip (iteCode c.code thn els)) (hsee : c.sees K p.evs)
    (hv : c.value (valuesIn K p.evs) = .val n) :
    At E.prog (s.ip + c.code.length + 5) thn ∧ At E.prog (s.ip + c.code.length + 5 + thn.length + 5) els ∧
    s.ip + c.code.length + 5 + thn.length + 5 + els.length = s.ip + (iteCode c.code thn els).length ∧
    RunS E (fun k => K k = true) s
      { s with ip := if n = 0 then s.ip + c.code.length + 5 + thn.length + 5 else s.ip + c.code.length + 5 } ∧
    (∀ t : St Tape, t.ip = s.ip + c.code.length + 5 + thn.length →
      RunS E (fun k => K k = true) t { t with ip := s.ip + (iteCode c.code thn els).length }) := by
  have hat' : At E.prog s.ip (c.code ++ ((0x50 :: u32le (thn.length + 5)) ++ (thn ++ (([0x52] ++ u32le els.length) ++ els)))) := by
    unfold iteCode at hat; simpa only [List.append_assoc, List.cons_append, List.nil_append] using hat
  have hend := hat'.le (by simp)
  have hlen : (iteCode c.code thn els).length = c.code.length + 5 + thn.length + 5 + els.length := by
    simp [iteCode]; omega
  simp only [List.length_append, List.length_cons, List.length_nil, u32le_length] at hend
  have h1 := hat'.right.left
  have h2 := hat'.right.right
  simp only [List.length_cons, u32le_length] at h2
  have h3 := h2.right.left
  have h4 := h2.right.right
  simp only [List.length_append, List.length_cons, List.length_nil, u32le_length] at h4
  obtain ⟨rest, hh, ht⟩ := h.host
  obtain ⟨w, hwm, hr⟩ := enc_expr hH p.evs rest c hsee.2 s n hh hat'.left (by rw [hk]; simpa using hsee.1) hv
  refine ⟨h2.left, h4, by omega, ?_, ?_⟩
  · refine hr.trans (.one h1 (by rw [pre_unaligned _ _ rfl]; trivial) ?_)
    rw [step_pre h1, pre_unaligned 0x50 _ rfl]
    show handleJumpIfNot E _ = _
    unfold handleJumpIfNot
    refine fet_ok h1.tail (by simp) (by omega) ?_
    dsimp only
    by_cases hw : w = 0
    · have hn : n = 0 := by rw [← hwm, hw]; rfl
      rw [if_pos hw, if_pos hn]
      unfold u32le
      rw [goto_ahead (by omega) (by omega)]
      simp [Nat.add_assoc]
    · have hn : n ≠ 0 := fun e => hw (BitVec.eq_of_toNat_eq (by rw [hwm, e]; rfl))
      rw [if_neg hw, if_neg hn]
  · intro t hti
    have := jump_step (K := K) (s := t) (r := els.length) (hti ▸ h3) (by omega) (by omega)
    rw [show t.ip + 5 + els.length = s.ip + (iteCode c.code thn els).length by omega] at this
    exact this

/-! ### Switches -/

/-- Offset a switch goes to. -/
def goesTo (l : List (Option Word × Nat)) (v : Word) (done : Nat) : Nat :=
  (l.lookup (some v)).getD ((l.lookup none).getD done)

def natOff (c : Word × Nat) : Word × Word := (c.1, BitVec.ofNat 64 c.2)

theorem select_at (l : List (Option Word × Nat)) (v : Word) (d : Nat) :
    selectCase v (BitVec.ofNat 64 d) ((caseAt l).map natOff) = BitVec.ofNat 64 ((l.lookup (some v)).getD d) := by
  induction l with
  | nil => rfl
  | cons x xs ih =>
    obtain ⟨lab, n⟩ := x
    cases lab with
    | none =>
      have e : caseAt ((none, n) :: xs) = caseAt xs := rfl
      rw [e, ih]
      rfl
    | some w =>
      have e : caseAt ((some w, n) :: xs) = (w, n) :: caseAt xs := rfl
      rw [e, List.map_cons]
      by_cases hw : w = v
      · subst hw
        simp [selectCase, natOff, List.lookup]
      · have h2 : ((some v : Option Word) == some w) = false := by
          simpa using fun q : v = w => hw q.symm
        simp only [selectCase, natOff, hw, if_false, List.lookup, h2]
        exact ih

theorem lookup_case (l : List (Option Word × Nat)) (v : Word) (o : Nat) (h : l.lookup (some v) = some o) :
    v.toNat ∈ (caseAt l).map fun c => c.1.toNat := by
  induction l with
  | nil => cases h
  | cons x xs ih =>
    obtain ⟨lab, n⟩ := x
    cases lab with
    | none => exact ih h
    | some w =>
      by_cases hw : w = v
      · subst hw; simp [caseAt]
      · have h2 : ((some v : Option Word) == some w) = false := by
          simpa using fun q : v = w => hw q.symm
        simp only [List.lookup, h2] at h
        have := ih h
        simp only [caseAt, List.filterMap_cons, Option.map_some, List.map_cons, List.mem_cons] at this ⊢
        exact .inr this

theorem fold_min_mem (l : List Nat) (a x : Nat) (h : x ∈ l) : l.foldl Nat.min a ≤ x := by
  induction l generalizing a with
  | nil => cases h
  | cons y ys ih =>
    rcases List.mem_cons.1 h with rfl | h
    · exact Nat.le_trans (fold_min_le ys (min a x)) (Nat.min_le_right _ _)
    · exact ih _ h

theorem fold_max_mem (l : List Nat) (a x : Nat) (h : x ∈ l) : x ≤ l.foldl Nat.max a := by
  induction l generalizing a with
  | nil => cases h
  | cons y ys ih =>
    rcases List.mem_cons.1 h with rfl | h
    · exact Nat.le_trans (Nat.le_max_right _ _) (le_fold_max ys (max a x))
    · exact ih _ h

theorem fold_max_lt (l : List Nat) (a b : Nat) (ha : a < b) (h : ∀ x ∈ l, x < b) : l.foldl Nat.max a < b := by
  induction l generalizing a with
  | nil => exact ha
  | cons y ys ih =>
    exact ih _ (by have := h y (by simp); show max a y < b; omega) fun x hx => h x (by simp [hx])

theorem arms_off (l : List (Option Word × List Byte)) (n : Nat) (x : Option Word) (o : Nat)
    (h : (armsAt n l).lookup x = some o) : o ≤ n + armsSize l := by
  induction l generalizing n with
  | nil => cases h
  | cons y ys ih =>
    rw [armsSize_cons]
    unfold armsAt at h
    rw [List.lookup_cons] at h
    split at h
    · injection h with h; omega
    · have := ih _ h; omega

theorem arms_mem (l : List (Option Word × List Byte)) (n : Nat) (y : Option Word × Nat) (h : y ∈ armsAt n l) :
    y.2 ≤ n + armsSize l := by
  induction l generalizing n with
  | nil => cases h
  | cons x xs ih =>
    rw [armsSize_cons]
    rcases List.mem_cons.1 h with rfl | h
    · exact Nat.le_add_right _ _
    · have := ih _ h; omega

theorem case_mem (l : List (Option Word × List Byte)) (v : Word) (o : Nat) (h : (v, o) ∈ caseAt (armsAt 0 l)) : o ≤ armsSize l := by
  obtain ⟨y, hy, hv⟩ := List.mem_filterMap.1 h
  have := arms_mem l 0 y hy
  cases he : y.1 with
  | none => rw [he] at hv; cases hv
  | some w =>
    rw [he] at hv
    simp only [Option.map_some, Option.some.injEq, Prod.mk.injEq] at hv
    omega

theorem armsCode_length (t : Nat) (l : List (Option Word × List Byte)) : (armsCode t l).length = armsSize l := by
  induction l with
  | nil => rfl
  | cons x xs ih =>
    rw [armsSize_cons, armsCode]
    simp only [List.length_append, List.length_cons, List.length_nil, ih, u32le_length]

theorem caseAt_length (l : List (Option Word × Nat)) : (caseAt l).length ≤ l.length := List.length_filterMap_le _ _

theorem armsAt_length (n : Nat) (l : List (Option Word × List Byte)) : (armsAt n l).length = l.length := by
  induction l generalizing n with
  | nil => rfl
  | cons x xs ih => simp [armsAt, ih]

theorem range_flat (f : Nat → Nat) (n : Nat) :
    ((List.range n).flatMap fun i => u32le (f i)) = ((List.range n).map fun i => (BitVec.ofNat 64 (f i) : Word)).flatMap (leBytes 4) := by
  rw [List.flatMap_map]
  rfl

/-- The table of a switch leads to the case with the value, else to the default, else behind the table. -/
theorem switch_lands {σ : Type} {E : Env σ} {s : St σ} {k0 k1 : Byte} {l : List (Option Word × List Byte)} {v : Word} {h : σ} (hE : E.prog.length < 2 ^ 31)
    (hat : At E.prog s.ip (switchCode (keyNum k0 k1) l)) (hn : l.length < 2 ^ 16)
    (hhost : E.host.scalar s.host (keyNum k0 k1) 0x06 0 = (true, v, h)) :
    step E s = .run { s with ip := (s.ip + 7 + goesTo (armsAt 0 l) v
      (armsSize l + (tableOf (armsAt 0 l) (armsSize l)).2.length)), host := h } := by
  have hbnd := arms_off l 0
  have hcl := caseAt_length (armsAt 0 l)
  have hmo := case_mem l
  rw [armsAt_length] at hcl
  generalize hL : armsAt 0 l = L at *
  generalize ht : tableOf L (armsSize l) = t at *
  have hat' : At E.prog s.ip ([t.1] ++ u16le (keyNum k0 k1) ++ u32le (armsSize l) ++ (armsCode t.2.length l ++ t.2)) := by
    unfold switchCode at hat
    rw [hL, ht] at hat
    simpa only [List.append_assoc] using hat
  have hend := hat'.le (by simp)
  simp only [List.length_append, List.length_cons, List.length_nil, u32le_length, u16le_length, armsCode_length] at hend
  have hg : goesTo L v (armsSize l + t.2.length) ≤ armsSize l + t.2.length := by
    unfold goesTo
    cases h1 : L.lookup (some v) with
    | some o => have := hbnd _ _ h1; simp only [Option.getD_some]; omega
    | none =>
      cases h2 : L.lookup none with
      | some o => have := hbnd _ _ h2; simp only [Option.getD_none, Option.getD_some]; omega
      | none => simp
  have hd : (L.lookup none).getD (armsSize l + t.2.length) ≤ armsSize l + t.2.length := by
    cases h2 : L.lookup none with
    | some o => have := hbnd _ _ h2; simp only [Option.getD_some]; omega
    | none => simp
  have hkey : u16le (keyNum k0 k1) = [k0, k1] := by
    have := leBytes_leWord [k0, k1] (by simp)
    unfold u16le
    rw [← leWord_key, BitVec.ofNat_toNat, BitVec.setWidth_eq]
    exact this
  have hrel : (BitVec.ofNat 64 (armsSize l) : Word).toNat = armsSize l := by
    rw [BitVec.toNat_ofNat, Nat.mod_eq_of_lt (by omega)]
  have h1 : At E.prog s.ip ([t.1, k0, k1] ++ leBytes 4 (BitVec.ofNat 64 (armsSize l))) := by
    have := hat'.left
    rw [hkey] at this
    exact this
  have h2 : At E.prog (s.ip + 7 + (BitVec.ofNat 64 (armsSize l) : Word).toNat) t.2 := by
    have := hat'.right.right
    simpa only [List.length_append, List.length_cons, List.length_nil, u32le_length, u16le_length, armsCode_length, hrel] using this
  have hfin : ∀ w : Word, w = BitVec.ofNat 64 (goesTo L v (armsSize l + t.2.length)) →
      Lands E.prog.length (s.ip + 7) w { s with ip := s.ip + 7, host := h } (step E s) →
      step E s = .run { s with ip := s.ip + 7 + goesTo L v (armsSize l + t.2.length), host := h } := by
    rintro w rfl hw
    have ho : offInt (BitVec.ofNat 64 (goesTo L v (armsSize l + t.2.length))) = goesTo L v (armsSize l + t.2.length) := by
      unfold offInt
      rw [BitVec.toNat_ofNat]
      rw [if_pos (by omega)]
      omega
    unfold Lands at hw
    rw [ho] at hw
    rw [hw.1 (by omega)]
    simp only [Res.run.injEq, St.mk.injEq, true_and, and_true]
    omega
  unfold tableOf at ht
  dsimp only at ht
  by_cases hj : (caseAt L).length > 3 ∧ ((caseAt L).map fun c => c.1.toNat).foldl Nat.max 0 -
      ((caseAt L).map fun c => c.1.toNat).foldl Nat.min (2 ^ 64) < 256
  · rw [if_pos hj] at ht
    generalize hlo : ((caseAt L).map fun c => c.1.toNat).foldl Nat.min (2 ^ 64) = lo at *
    generalize hhi : ((caseAt L).map fun c => c.1.toNat).foldl Nat.max 0 = hi at *
    have hmem : ∀ x ∈ ((caseAt L).map fun c => c.1.toNat), lo ≤ x ∧ x ≤ hi :=
      fun x hx => ⟨hlo ▸ fold_min_mem _ _ _ hx, hhi ▸ fold_max_mem _ _ _ hx⟩
    have hlohi : lo ≤ hi := by
      cases hc : caseAt L with
      | nil => rw [hc] at hj; simp at hj
      | cons c cs =>
        have := hmem c.1.toNat (by rw [hc]; simp)
        omega
    have hhi64 : hi < 2 ^ 64 := by
      rw [← hhi]
      refine fold_max_lt _ _ _ (by decide) ?_
      intro x hx
      obtain ⟨c, -, rfl⟩ := List.mem_map.1 hx
      exact c.1.isLt
    have hlen : t.2.length = 20 + 4 * (hi - lo + 1) := by
      rw [← ht]
      simp only [List.length_append, leBytes_length, u32le_length, range_flat, flatMap_leBytes_length, List.length_map, List.length_range]
      omega
    have hdd : (L.lookup none).getD (armsSize l + 20 + 4 * (hi - lo + 1)) = (L.lookup none).getD (armsSize l + t.2.length) := by
      rw [hlen, Nat.add_assoc]
    rw [hdd] at ht
    generalize hD : (L.lookup none).getD (armsSize l + t.2.length) = D at *
    have ht1 : t.1 = 0x53 := by rw [← ht]
    have ht2 : t.2 = jumpTable (BitVec.ofNat 64 lo) (BitVec.ofNat 64 hi) (BitVec.ofNat 64 D)
        ((List.range (hi - lo + 1)).map fun i => BitVec.ofNat 64 ((L.lookup (some (BitVec.ofNat 64 (lo + i)))).getD D)) := by
      rw [← ht]
      simp only [jumpTable, range_flat, List.append_assoc]
      rfl
    have el : (BitVec.ofNat 64 lo : Word).toNat = lo := by rw [BitVec.toNat_ofNat, Nat.mod_eq_of_lt (by omega)]
    have eh : (BitVec.ofNat 64 hi : Word).toNat = hi := by rw [BitVec.toNat_ofNat, Nat.mod_eq_of_lt (by omega)]
    have hb : ∀ x, (L.lookup x).getD D ≤ armsSize l + t.2.length := by
      intro x
      cases h3 : L.lookup x with
      | some o => have := hbnd _ _ h3; simp only [Option.getD_some]; omega
      | none => simpa using hd
    rw [ht1] at h1
    rw [ht2] at h2
    refine hfin _ ?_ (C30_jump_table E s k0 k1 _ _ _ _ _ h1 (by omega) h2 (by rw [el, eh]; simp; omega) (by omega)
      (by rw [BitVec.toNat_ofNat]; omega) ?_ v h hhost)
    · rw [selectCase_dense _ _ _ _ (by rw [el]; simp; omega), el]
      unfold goesTo
      rw [hD]
      by_cases hr : lo ≤ v.toNat ∧ v.toNat ≤ hi
      · rw [if_pos hr.1, List.getElem?_map, List.getElem?_range (by omega)]
        simp only [Option.map_some, Option.getD_some]
        rw [show lo + (v.toNat - lo) = v.toNat by omega, BitVec.ofNat_toNat, BitVec.setWidth_eq]
      · have hnone : L.lookup (some v) = none := by
          cases h3 : L.lookup (some v) with
          | none => rfl
          | some o => exact absurd (hmem _ (lookup_case L v o h3)) hr
        rw [hnone]
        by_cases hr1 : lo ≤ v.toNat
        · rw [if_pos hr1, List.getElem?_eq_none (by simp; omega)]
          rfl
        · rw [if_neg hr1]
          rfl
    · intro o ho
      obtain ⟨i, -, rfl⟩ := List.mem_map.1 ho
      have := hb (some (BitVec.ofNat 64 (lo + i)))
      rw [BitVec.toNat_ofNat]
      omega
  · rw [if_neg hj] at ht
    have hlen : t.2.length = 6 + 12 * (caseAt L).length := by
      rw [← ht]
      simp only [List.length_append, u32le_length, u16le_length]
      have : ∀ cs : List (Word × Nat), (cs.flatMap fun c => leBytes 8 c.1 ++ u32le c.2).length = 12 * cs.length := by
        intro cs
        induction cs with
        | nil => rfl
        | cons c cs ih => simp only [List.flatMap_cons, List.length_append, ih, leBytes_length, u32le_length, List.length_cons]; omega
      rw [this]
    have hdd : (L.lookup none).getD (armsSize l + 6 + 12 * (caseAt L).length) = (L.lookup none).getD (armsSize l + t.2.length) := by
      rw [hlen, Nat.add_assoc]
    rw [hdd] at ht
    generalize hD : (L.lookup none).getD (armsSize l + t.2.length) = D at *
    have ht1 : t.1 = 0x51 := by rw [← ht]
    have ht2 : t.2 = switchTable (BitVec.ofNat 64 D) ((caseAt L).map natOff) := by
      rw [← ht]
      simp only [switchTable, List.append_assoc, List.length_map, List.flatMap_map]
      rfl
    rw [ht1] at h1
    rw [ht2] at h2
    refine hfin _ ?_ (C29_switch E s k0 k1 _ _ _ h1 (by omega) h2 (by simp; omega) (by rw [BitVec.toNat_ofNat]; omega) ?_ v h hhost)
    · rw [select_at]
      unfold goesTo
      rw [hD]
    · intro c hc
      obtain ⟨x, hx, rfl⟩ := List.mem_map.1 hc
      show (BitVec.ofNat 64 x.2 : Word).toNat < _
      have := hmo x.1 x.2 hx
      rw [BitVec.toNat_ofNat]
      omega

/-- Where a case is, and where its jump leads. -/
theorem arm_found {σ : Type} {E : Env σ} (l : List (Option Word × List Byte)) (t n b : Nat) (x : Option Word) (o : Nat)
    (h : (armsAt n l).lookup x = some o) (hat : At E.prog b (armsCode t l)) :
    ∃ c r, l.lookup x = some c ∧ n ≤ o ∧ At E.prog (b + (o - n)) (c ++ ([0x52] ++ u32le r)) ∧
      o - n + c.length + 5 + r = armsSize l + t := by
  induction l generalizing n b with
  | nil => cases h
  | cons y ys ih =>
    have hat' : At E.prog b ((y.2 ++ ([0x52] ++ u32le (armsSize ys + t))) ++ armsCode t ys) := by
      simpa only [armsCode, List.append_assoc] using hat
    rw [armsSize_cons]
    unfold armsAt at h
    rw [List.lookup_cons] at h
    rw [show y = (y.1, y.2) from rfl, List.lookup_cons]
    split at h
    · rename_i hx
      injection h with h
      subst h
      simp only [hx]
      refine ⟨y.2, armsSize ys + t, rfl, Nat.le_refl _, ?_, by omega⟩
      rw [Nat.sub_self]
      exact hat'.left
    · rename_i hx
      have h2 := hat'.right
      simp only [List.length_append, List.length_cons, List.length_nil, u32le_length] at h2
      obtain ⟨c, r, e1, e2, e3, e4⟩ := ih _ _ h h2
      simp only [hx]
      refine ⟨c, r, e1, by omega, ?_, by omega⟩
      rw [show b + (o - n) = b + (y.2.length + (0 + 1 + 4)) + (o - (n + y.2.length + 5)) by omega]
      exact e3

theorem arms_lookup (l : List (Option Word × List Byte)) (n : Nat) (x : Option Word) :
    ((armsAt n l).lookup x = none ↔ l.lookup x = none) := by
  induction l generalizing n with
  | nil => simp [armsAt]
  | cons y ys ih =>
    obtain ⟨a, b⟩ := y
    unfold armsAt
    rw [List.lookup_cons, List.lookup_cons]
    cases x == a
    · exact ih _
    · simp

theorem codes_lookup : (cs : Cases) → (lab : Option Word) → (cs.codes.lookup lab = none ↔ lab ∉ cs.labels)
  | .nil, lab => by simp [Cases.codes, Cases.labels]
  | .cons l f rest, lab => by
    have ih := codes_lookup rest lab
    simp only [Cases.codes, Cases.labels, List.lookup_cons, List.mem_cons, not_or]
    by_cases h : lab = l
    · subst h; simp
    · have : (lab == l) = false := by simpa using h
      rw [this, ih]
      simp [h]

theorem codes_length : (cs : Cases) → cs.codes.length = cs.labels.length
  | .nil => rfl
  | .cons _ _ rest => by simp [Cases.codes, Cases.labels, codes_length rest]

/-! ### Descriptions -/

theorem fieldAt_mod {be : Bool} {b : List Byte} {p n v : Nat} : FieldAt be b p n (v % 2 ^ (8 * n)) ↔ FieldAt be b p n v := by
  refine ⟨fun h i hi => ?_, FieldAt.mod⟩
  rw [h i hi]
  congr 2
  have e : 2 ^ (8 * n) = 256 ^ i * 256 ^ (n - i) := by
    rw [← Nat.pow_add, Nat.add_sub_cancel' (by omega), Nat.pow_mul]
  rw [e, Nat.mod_mul_right_div_self, Nat.mod_mod_of_dvd]
  exact Nat.pow_dvd_pow 256 (show 1 ≤ n - i by omega)

/-- One number at the next byte, in either byte order. -/
theorem wrote_num' {W : List Byte → P → P → Prop} {s1 : St Tape} {be : Bool} {n : Nat} {w : Word} (h : Here p tot s)
    (hst : store s.buf s.fieldPos (wrBytes be n w) = some s1.buf) (hc : s.fieldPos + n ≤ s1.cursor)
    (h1 : ∀ D, FieldAt be D p.byte n w.toNat → W D p q) (h2 : W s.buf p q → FieldAt be s.buf p.byte n w.toNat) : Wrote W s s1 p q :=
  wrote_bytes h hst (by rw [wrBytes_length]; exact hc) (fun D hb => h1 D (fieldAt_bytesAt.2 hb)) (fun w => fieldAt_bytesAt.1 (h2 w))

/-- A switch: the chosen case, if any, and its jump. -/
theorem enc_switch {W : List Byte → P → P → Prop} (hH : E.host = giver K) (hE : E.prog.length < 2 ^ 31) (h : Here p tot s) {k0 k1 : Byte} {cs : Cases} {v : Word}
    (hat : At E.prog s.ip (switchCode (keyNum k0 k1) cs.codes)) (hv : K.look (keyNum k0 k1) p.evs = some v)
    (hK : K (keyNum k0 k1) = false) (hn : cs.labels.length < 2 ^ 16)
    (hrun : ∀ lab c ip, cs.codes.lookup lab = some c → At E.prog ip c →
      (if some v ∈ cs.labels then lab = some v else lab = none) →
      ∃ s1, Did E K tot { s with ip := ip } s1 q c.length ∧ Wrote W { s with ip := ip } s1 p q)
    (hno : some v ∉ cs.labels → none ∉ cs.labels → q = p ∧ ∀ D, W D p q) :
    ∃ s1, Did E K tot s s1 q (switchCode (keyNum k0 k1) cs.codes).length ∧ Wrote W s s1 p q := by
  have hs := switch_lands (k0 := k0) (k1 := k1) (l := cs.codes) (h := s.host) (v := v) hE hat
    (by rw [codes_length]; exact hn) (giver_ask hH h hK hv)
  generalize hT : tableOf (armsAt 0 cs.codes) (armsSize cs.codes) = t at *
  have hlen : (switchCode (keyNum k0 k1) cs.codes).length = 7 + armsSize cs.codes + t.2.length := by
    unfold switchCode
    rw [hT]
    simp only [List.length_append, List.length_cons, List.length_nil, u32le_length, u16le_length, armsCode_length]
  have hat' : At E.prog s.ip (([t.1] ++ u16le (keyNum k0 k1) ++ u32le (armsSize cs.codes)) ++ (armsCode t.2.length cs.codes ++ t.2)) := by
    have := hat
    unfold switchCode at this
    rw [hT] at this
    simpa only [List.append_assoc] using this
  have hend := hat.le (by rw [Ne, List.eq_nil_iff_length_eq_zero]; omega)
  have harms : At E.prog (s.ip + 7) (armsCode t.2.length cs.codes) := by
    have := hat'.right.left
    simpa only [List.length_append, List.length_cons, List.length_nil, u32le_length, u16le_length] using this
  have hr0 : RunS E (fun k => K k = true) s { s with ip := (s.ip + 7 + goesTo (armsAt 0 cs.codes) v (armsSize cs.codes + t.2.length)) } := by
    refine .one hat' ?_ hs
    rw [pre_unaligned]
    · unfold Side
      rcases table_op (armsAt 0 cs.codes) (armsSize cs.codes) with e | e <;> rw [hT] at e <;> rw [e] <;> trivial
    · rcases table_op (armsAt 0 cs.codes) (armsSize cs.codes) with e | e <;> rw [hT] at e <;> rw [e] <;> rfl
  have hcase : ∀ lab, lab ∈ cs.labels → (if some v ∈ cs.labels then lab = some v else lab = none) →
      ((armsAt 0 cs.codes).lookup lab).getD 0 = goesTo (armsAt 0 cs.codes) v (armsSize cs.codes + t.2.length) →
      ∃ s1, Did E K tot s s1 q (switchCode (keyNum k0 k1) cs.codes).length ∧ Wrote W s s1 p q := by
    intro lab hm hlab hgo
    cases ho : (armsAt 0 cs.codes).lookup lab with
    | none => exact absurd hm ((codes_lookup cs lab).1 ((arms_lookup _ 0 _).1 ho))
    | some o =>
      rw [ho, Option.getD_some] at hgo
      rw [← hgo] at hr0
      obtain ⟨c, r, e1, -, e3, e4⟩ := arm_found (E := E) cs.codes t.2.length 0 (s.ip + 7) lab o ho harms
      rw [Nat.sub_zero] at e3 e4
      obtain ⟨s1, d, w⟩ := hrun lab c (s.ip + 7 + o) e1 e3.left hlab
      have hip : s1.ip = s.ip + 7 + o + c.length := d.ip
      have hj := jump_step (K := K) (s := s1) (r := r) (by rw [hip]; exact e3.right) (by omega) (by omega)
      exact ⟨_, ⟨hr0.trans (d.run.trans hj), d.here.same d.here.bit d.here.pos d.here.be d.here.trans rfl rfl,
        by show s1.ip + 5 + r = _; omega, d.loops, d.stack, d.len⟩, w.wire, w.keep⟩
  by_cases hm : some v ∈ cs.labels
  · refine hcase (some v) hm (by rw [if_pos hm]) ?_
    unfold goesTo
    cases ho : (armsAt 0 cs.codes).lookup (some v) with
    | none => exact absurd hm ((codes_lookup cs _).1 ((arms_lookup _ 0 _).1 ho))
    | some o => rfl
  · have ho := (arms_lookup cs.codes 0 _).2 ((codes_lookup cs _).2 hm)
    by_cases hm0 : none ∈ cs.labels
    · refine hcase none hm0 (by rw [if_neg hm]) ?_
      unfold goesTo
      rw [ho]
      cases ho2 : (armsAt 0 cs.codes).lookup none with
      | none => exact absurd hm0 ((codes_lookup cs _).1 ((arms_lookup _ 0 _).1 ho2))
      | some o => rfl
    · have ho2 := (arms_lookup cs.codes 0 _).2 ((codes_lookup cs _).2 hm0)
      have hg : goesTo (armsAt 0 cs.codes) v (armsSize cs.codes + t.2.length) = armsSize cs.codes + t.2.length := by
        unfold goesTo; rw [ho, ho2]; rfl
      rw [hg] at hr0
      obtain ⟨hqp, hW⟩ := hno hm hm0
      subst hqp
      exact ⟨_, ⟨hr0, h.same h.bit h.pos h.be h.trans rfl rfl, by show s.ip + 7 + _ = _; omega, rfl, rfl, rfl⟩, .none rfl hW⟩

theorem EncR.mono {R : P → P → Prop} {W : List Byte → P → P → Prop} {code : List Byte} {d d' : Nat} (h : EncR E K R W code d) (hd : d ≤ d') :
    EncR E K R W code d' :=
  fun tot p q s a b c e f g i => h tot p q s a b c e f g (by omega)

end

section
variable {K : View} {E : Env Tape}

mutual

/-- Every record that fits a description is encoded. -/
theorem sencodes (hH : E.host = giver K) (henc : E.enc = true) (hE : E.prog.length < 2 ^ 31) :
    (f : Sch) → EncR E K (SRec E.fl K f) (fun D => SWire E.fl K D f) f.code f.depth
  | .fld f => by
    rintro tot p q s hr hat h hk hev hpos hd
    simp only [SRec, Sch.code, Sch.depth] at hr hat hd ⊢
    simpa only [SWire] using encodes hH henc f tot p q s hr hat h hk hev hpos hd
  | .seq a b => by
    have iha := sencodes hH henc hE a
    have ihb := sencodes hH henc hE b
    rintro tot p q s ⟨m, h1, h2⟩ hat h hk hev hpos hd
    simp only [Sch.code, Sch.depth] at hat hd ⊢
    obtain ⟨hf1, es, hes⟩ := srec_fwd E.fl K b _ _ h2
    obtain ⟨r, hr⟩ := hev
    obtain ⟨s1, d1, w1⟩ := iha tot p m s h1 hat.left h hk ⟨es ++ r, by rw [hr, hes, List.append_assoc]⟩ (by omega)
      (by omega)
    obtain ⟨s2, d2, w2⟩ := ihb tot m q s1 h2 (by rw [d1.ip]; exact hat.right) d1.here (d1.stack.trans hk) ⟨r, hr⟩ (by rw [d1.len]; exact hpos)
      (by rw [d1.loops]; omega)
    refine ⟨s2, by rw [List.length_append]; exact d1.trans d2, ?_⟩
    simp only [SWire]
    refine wrote_seq w1 w2 (fun D hA => giver_back hH d2.run (d1.here.inv (d1.stack.trans hk) (by rw [d1.loops]; omega)) hA) hf1 ?_
    intro m' g1 g2
    exact srec_det E.fl K a tot p m' m (swire_srec _ K _ a _ _ g1) h1 (starts_of_fwd (srec_fwd E.fl K b _ _ (swire_srec _ K _ b _ _ g2)) ⟨r, hr⟩)
      ⟨es ++ r, by rw [hr, hes, List.append_assoc]⟩
  | .struct k0 k1 f => by
    have ih := sencodes hH henc hE f
    rintro tot p q s ⟨m, hm, rfl⟩ hat h hk ⟨r, hr⟩ hpos hd
    simp only [Sch.code, Sch.depth] at hat hd ⊢
    obtain ⟨hf1, es, hes⟩ := srec_fwd E.fl K f _ _ hm
    have hr' : tot = (m.evs ++ [.note 0 0x04]) ++ r := hr
    have hr0 : tot = (p.evs ++ [.note (keyNum k0 k1) 0x03]) ++ (es ++ ([.note 0 0x04] ++ r)) := by
      rw [hr', hes]; simp [P.bits]
    have s0 := enterStruct_step hat.left (giver_note hH h hr0)
    obtain ⟨s1, d, w⟩ := ih tot (p.bits 0 [.note (keyNum k0 k1) 0x03]) m
      { s with ip := s.ip + 3, host := ⟨p.evs ++ [.note (keyNum k0 k1) 0x03], es ++ ([.note 0 0x04] ++ r)⟩ }
      hm hat.right.left ⟨h.bit, h.pos, h.be, h.trans, _, rfl, hr0⟩ hk
      ⟨[.note 0 0x04] ++ r, by rw [hr', List.append_assoc]⟩ hpos hd
    have hat2 : At E.prog s1.ip [0x04] := by rw [d.ip]; exact hat.right.right
    have s2 := exitStruct_step hat2 (giver_note hH d.here hr')
    refine ⟨_, ⟨(RunS.one hat.left (by rw [pre_unaligned _ s rfl]; trivial) s0).trans
      (d.run.trans (.one hat2 (by rw [pre_unaligned _ s1 rfl]; trivial) s2)),
      ⟨d.here.bit, d.here.pos, d.here.be, d.here.trans, r, rfl, hr'⟩, ?_, d.loops, d.stack, d.len⟩, ?_, ?_⟩
    · simp [d.ip]
      omega
    · intro D hA hD
      exact ⟨m, w.wire D hA hD, rfl⟩
    · rintro ⟨m', hw, e⟩
      have he : m'.evs = m.evs := (List.append_cancel_right (congrArg P.evs e)).symm
      have e1 : m' = m := srec_det E.fl K f tot _ m' m (swire_srec _ K _ f _ _ hw) hm
        ⟨[.note 0 0x04] ++ r, by rw [he, hr', List.append_assoc]⟩ ⟨[.note 0 0x04] ++ r, by rw [hr', List.append_assoc]⟩
      subst e1
      exact w.keep hw
  | .arrFixed k0 k1 n f => by
    have ih := sencodes hH henc hE f
    rintro tot p q s ⟨hn, hK, hrec⟩ hat h hk ⟨r, hr⟩ hpos hd
    simp only [Sch.code, Sch.depth] at hat hd ⊢
    obtain ⟨hf1, es, hes⟩ := fwd_arr (srec_fwd E.fl K f) _ _ _ _ hrec
    have hr0 : tot = (p.evs ++ [.num (keyNum k0 k1) 0x34 n]) ++ (es ++ r) := by
      rw [hr, hes]; simp [P.bytes]
    have hg := giver_num hH h (c := n) hr0 hK (by decide) (by decide) (fun _ => rfl)
    have hs := arrFixed_step hat.left (by omega) hg
    rw [truncB_of_lt _ _ (by omega)] at hs
    have hfp := h.fieldPos
    obtain ⟨s1, d, w, hback⟩ := enc_arr hH (srec_fwd E.fl K f) (fun D => swire_srec E.fl K D f) (srec_det E.fl K f) ih (hd := 7) hn hrec hat.left.left
      (by rw [pre_aligned _ s rfl]; trivial) hs rfl rfl rfl rfl hat.right
      ⟨by simp, by simp only [P.bytes]; omega, h.be, h.trans, _, rfl, hr0⟩ hk ⟨r, hr⟩ hpos hd
    refine ⟨s1, by rw [List.length_append]; exact d, fun D hA hD => ⟨hn, hK, w.wire D hA hD⟩, fun hw => w.keep hw.2.2⟩
  | .arrPre t k0 k1 f => by
    have ih := sencodes hH henc hE f
    rintro tot p q s ⟨n, hn1, hn, hK, hrec⟩ hat h hk ⟨r, hr⟩ hpos hd
    simp only [Sch.code, Sch.depth] at hat hd ⊢
    obtain ⟨hf1, es, hes⟩ := fwd_arr (srec_fwd E.fl K f) _ _ _ _ hrec
    have hr0 : tot = (p.evs ++ [.num (keyNum k0 k1) t.arrOp n]) ++ (es ++ r) := by
      rw [hr, hes]; simp [P.bytes]
    have hfp := h.fieldPos
    have hg := giver_num hH h (c := 0) hr0 hK (by cases t <;> decide) (by cases t <;> decide)
      (by cases t <;> simp [Pre.arrOp, isQuery])
    obtain ⟨b, hb, hst, hs⟩ := arrPre_enc henc hat.left (by simp only [P.bytes] at hf1; omega) hg
    have ht : truncB t.size n = n := truncB_of_lt _ _ hn1
    rw [ht] at hs
    have hf : fetch E.prog (s.ip + 1) 2 = (leWord [k0, k1], s.ip + 1 + 2) := hat.left.tail.fetch rfl (by omega)
    have hside : Side E (fun k => K k = true) t.arrOp (pre t.arrOp s) := by
      rw [pre_aligned _ s (by cases t <;> rfl)]
      have hdo : decodeOp t.arrOp = .arrPre t := by cases t <;> rfl
      unfold Side
      simp only [hdo, hf, leWord_key]
      intro w h' e
      rw [hg] at e
      simp only [Prod.mk.injEq, true_and] at e
      rw [← e.1]
      exact ht
    obtain ⟨s1, d, w, hback⟩ := enc_arr hH (srec_fwd E.fl K f) (fun D => swire_srec E.fl K D f) (srec_det E.fl K f) ih (hd := 3) hn hrec hat.left hside hs rfl rfl rfl hb hat.right
      ⟨by simp, by simp only [P.bytes]; omega, h.be, h.trans, _, rfl, hr0⟩ hk ⟨r, hr⟩ hpos hd
    refine ⟨s1, by rw [List.length_append]; exact d, ?_⟩
    exact wrote_pre (W := fun D => SWire E.fl K D f) (srec_fwd E.fl K f) (fun D => swire_srec E.fl K D f) h hn1 hn hK hrec (by rw [← ht, ← h.be]; exact hst) rfl w hback
  | .arrDyn k0 k1 r0 r1 f => by
    have ih := sencodes hH henc hE f
    rintro tot p q s ⟨n, hl, hn, hK, hKr, hrec⟩ hat h hk ⟨r, hr⟩ hpos hd
    simp only [Sch.code, Sch.depth] at hat hd ⊢
    obtain ⟨hf1, es, hes⟩ := fwd_arr (srec_fwd E.fl K f) _ _ _ _ hrec
    have hr0 : tot = (p.evs ++ [.num (keyNum k0 k1) 0x3B n]) ++ (es ++ r) := by
      rw [hr, hes]; simp [P.bytes]
    have hfp := h.fieldPos
    have hg := giver_num hH h (c := n) hr0 hK (by decide) (by decide) (fun _ => rfl)
    have hs := arrDyn_step hat.left (giver_ask hH h hKr hl) (by omega) hg
    rw [truncB_of_lt _ _ (by omega)] at hs
    obtain ⟨s1, d, w, hback⟩ := enc_arr hH (srec_fwd E.fl K f) (fun D => swire_srec E.fl K D f) (srec_det E.fl K f) ih (hd := 5) hn hrec hat.left
      (by rw [pre_aligned _ s rfl]; trivial) hs rfl rfl rfl rfl hat.right
      ⟨by simp, by simp only [P.bytes]; omega, h.be, h.trans, _, rfl, hr0⟩ hk ⟨r, hr⟩ hpos hd
    refine ⟨s1, by rw [List.length_append]; exact d, fun D hA hD => ⟨n, hl, hn, hK, hKr, w.wire D hA hD⟩, ?_⟩
    rintro ⟨n', hl', _, _, _, hw⟩
    rw [hl] at hl'
    injection hl' with e
    subst e
    exact w.keep hw
  | .opt => by
    rintro tot p q s hr hat h hk hev hpos hd
    simp only [SRec, Sch.code] at hr hat ⊢
    subst hr
    have hs : step E s = .run { s with ip := s.ip + 1, opt := true } := by
      rw [step_pre hat, pre_unaligned _ s rfl]; rfl
    exact ⟨_, ⟨.one hat (by rw [pre_unaligned _ s rfl]; trivial) hs,
      h.same h.bit h.pos h.be h.trans rfl rfl, rfl, rfl, rfl, rfl⟩, .none rfl fun _ => by simp only [SWire]⟩
  | .trans x c big t k0 k1 => by
    rintro tot p q s hr hat h hk ⟨r, hev⟩ hpos hd
    simp only [SRec] at hr
    obtain ⟨e, r', h1, h2, h3, h4, h5, h6, h7, rfl⟩ := hr
    obtain ⟨s1, d, hst, hc⟩ := enc_trans hH henc h hat h1 h2 h3 h4 h5 h6 h7 hev hpos
    refine ⟨s1, d, wrote_num' h hst hc (fun D hf => ?_) ?_⟩
    · rw [← fieldAt_mod, wire_ofInt] at hf
      exact ⟨e, r', h1, h2, h3, h4, h5, h6, h7, hf, rfl⟩
    · rintro ⟨e', r2, g1, g2, g3, g4, g5, _, _, hf, eq⟩
      have hlow : ∀ {r : Int}, t.holds r → -(2 ^ 63 : Int) ≤ r := by
        intro r hh
        unfold Ty.holds at hh
        cases t <;> simp only [Ty.signed, Ty.size, Bool.false_eq_true, if_false, if_true] at hh <;> omega
      have a1 := to_raw h1 h4 h5 (hlow h2) h3
      have a2 := to_raw g1 g4 g5 (hlow g2) g3
      rw [bytes_num_inj eq, a2] at a1
      injection a1 with a1
      rw [← fieldAt_mod, ← a1, wire_ofInt]
      exact hf
  | .curve c big n k0 k1 => by
    rintro tot p q s hr hat h hk ⟨r, hev⟩ hpos hd
    simp only [SRec] at hr
    obtain ⟨e, r', h1, h2, h5, h6, h7, rfl⟩ := hr
    obtain ⟨s1, d, hst, hc⟩ := enc_curve hH henc h hat h1 h2 h5 h6 h7 hev hpos
    refine ⟨s1, d, wrote_num' h hst hc (fun D hf => ⟨e, r', h1, h2, h5, h6, h7, hf, rfl⟩) ?_⟩
    rintro ⟨e', r2, g1, _, _, _, _, hf, eq⟩
    rw [bytes_num_inj eq, g1] at h1
    injection h1 with h1
    rw [← h1]
    exact hf
  | .calc e big tag k0 k1 => by
    rintro tot p q s hr hat h hk ⟨r, hev⟩ hpos hd
    simp only [SRec] at hr
    obtain ⟨n, m, h1, h2, h3, h4, h5, h6, rfl⟩ := hr
    obtain ⟨s1, d, hst, hc⟩ := enc_calc hH henc h hk hat h1 h2 h3 h4 h5 h6 hev hpos
    have h64 : 2 ^ (8 * n) ≤ 2 ^ 64 := Nat.pow_le_pow_right (by decide) (by
      have := (intWidth_emit h1).2.2.2.2; omega)
    have hmm : (BitVec.ofNat 64 m).toNat = m := by rw [BitVec.toNat_ofNat, Nat.mod_eq_of_lt (by omega)]
    refine ⟨s1, d, wrote_num' h hst hc (fun D hf => ⟨n, m, h1, h2, h3, h4, h5, h6, by rw [hmm] at hf; exact hf, rfl⟩) ?_⟩
    rintro ⟨n', m', g1, _, g3, _, _, _, hf, _⟩
    rw [h1] at g1
    rw [h3] at g3
    injection g1 with g1
    injection g3 with g3
    rw [hmm, g1, g3]
    exact hf
  | .ite c a b => by
    have iha := sencodes hH henc hE a
    have ihb := sencodes hH henc hE b
    rintro tot p q s hr hat h hk hev hpos hd
    simp only [SRec] at hr
    obtain ⟨n, h1, h2, h3⟩ := hr
    simp only [Sch.code, Sch.depth] at hat hd ⊢
    obtain ⟨g1, g2, g3, g4, g5⟩ := enc_cond hH hE h hk hat h1 h2
    by_cases hn : n = 0
    · rw [if_pos hn] at g4
      rw [if_neg (by simpa using hn)] at h3
      obtain ⟨s1, d, w⟩ := ihb tot p q { s with ip := s.ip + c.code.length + 5 + a.code.length + 5 } h3 g2 (h.same h.bit h.pos h.be h.trans rfl rfl) hk hev hpos (by show s.loops.length + _ ≤ 8; omega)
      refine ⟨s1, ⟨g4.trans d.run, d.here, by rw [d.ip]; exact g3, d.loops, d.stack, d.len⟩, fun D hA hD => ?_, ?_⟩
      · exact ⟨n, h1, h2, by rw [if_neg (by simpa using hn)]; exact w.wire D hA hD⟩
      · rintro ⟨n', _, g, hw⟩
        rw [h2] at g
        injection g with g
        subst g
        rw [if_neg (by simpa using hn)] at hw
        exact w.keep hw
    · rw [if_neg hn] at g4
      rw [if_pos hn] at h3
      obtain ⟨s1, d, w⟩ := iha tot p q { s with ip := s.ip + c.code.length + 5 } h3 g1 (h.same h.bit h.pos h.be h.trans rfl rfl) hk hev hpos (by show s.loops.length + _ ≤ 8; omega)
      refine ⟨_, ⟨g4.trans (d.run.trans (g5 s1 d.ip)), d.here.same d.here.bit d.here.pos d.here.be d.here.trans rfl rfl, rfl,
        d.loops, d.stack, d.len⟩, fun D hA hD => ?_, ?_⟩
      · exact ⟨n, h1, h2, by rw [if_pos hn]; exact w.wire D hA hD⟩
      · rintro ⟨n', _, g, hw⟩
        rw [h2] at g
        injection g with g
        subst g
        rw [if_pos hn] at hw
        exact w.keep hw
  | .switch k0 k1 cs => by
    have ih := cencodes hH henc hE cs
    rintro tot p q s hr hat h hk hev hpos hd
    simp only [SRec] at hr
    obtain ⟨v, h1, h2, h3, h4⟩ := hr
    simp only [Sch.code, Sch.depth] at hat hd ⊢
    refine enc_switch hH hE h hat h1 h2 h3 ?_ ?_
    · intro lab c ip hc hatc hl
      have hm : lab ∈ cs.labels := by
        refine Classical.not_not.1 fun hx => ?_
        rw [(codes_lookup cs lab).2 hx] at hc
        cases hc
      obtain ⟨c', hc', hec⟩ := ih lab hm
      have : c' = c := by rw [hc] at hc'; injection hc' with e; exact e.symm
      subst this
      obtain ⟨s1, d, w⟩ := hec tot p q { s with ip := ip } (by
        by_cases hv : some v ∈ cs.labels
        · rw [if_pos hv] at h4 hl
          rw [hl]; exact h4
        · rw [if_neg hv] at h4 hl
          rw [hl] at hm ⊢
          rw [if_pos hm] at h4
          exact h4) hatc (h.same h.bit h.pos h.be h.trans rfl rfl) hk hev hpos hd
      refine ⟨s1, d, fun D hA hD => ⟨v, h1, h2, h3, ?_⟩, ?_⟩
      · have := w.wire D hA hD
        by_cases hv : some v ∈ cs.labels
        · rw [if_pos hv] at hl ⊢
          rw [hl] at this; exact this
        · rw [if_neg hv] at hl ⊢
          rw [hl] at hm this
          rw [if_pos hm]
          exact this
      · rintro ⟨v', g1, _, _, g4⟩
        rw [h1] at g1
        injection g1 with g1
        subst g1
        refine w.keep ?_
        by_cases hv : some v ∈ cs.labels
        · rw [if_pos hv] at hl g4
          rw [hl]; exact g4
        · rw [if_neg hv] at hl g4
          rw [hl] at hm ⊢
          rw [if_pos hm] at g4
          exact g4
    · intro hv h0
      rw [if_neg hv, if_neg h0] at h4
      exact ⟨h4, fun D => ⟨v, h1, h2, h3, by rw [if_neg hv, if_neg h0]; exact h4⟩⟩

theorem cencodes (hH : E.host = giver K) (henc : E.enc = true) (hE : E.prog.length < 2 ^ 31) :
    (cs : Cases) → ∀ lab, lab ∈ cs.labels → ∃ c, cs.codes.lookup lab = some c ∧ EncR E K (CaseRec E.fl K cs lab) (fun D => CaseWire E.fl K D cs lab) c cs.depth
  | .nil => by intro lab h; cases h
  | .cons l f rest => by
    have ihf := sencodes hH henc hE f
    have ihr := cencodes hH henc hE rest
    intro lab hm
    by_cases hl : lab = l
    · subst hl
      refine ⟨f.code, by simp [Cases.codes], ?_⟩
      have : CaseRec E.fl K (.cons lab f rest) lab = SRec E.fl K f := by
        funext p q; simp [CaseRec]
      have h2 : (fun D => CaseWire E.fl K D (.cons lab f rest) lab) = fun D => SWire E.fl K D f := by
        funext D p q; simp [CaseWire]
      rw [this, h2]
      exact ihf.mono (by simp only [Cases.depth]; omega)
    · obtain ⟨c, hc, he⟩ := ihr lab (by simpa [Cases.labels, hl] using hm)
      have hb : (lab == l) = false := by simpa using hl
      refine ⟨c, by simp [Cases.codes, List.lookup_cons, hb, hc], ?_⟩
      have : CaseRec E.fl K (.cons l f rest) lab = CaseRec E.fl K rest lab := by
        funext p q; simp only [CaseRec]; rw [if_neg fun e => hl e.symm]
      have h2 : (fun D => CaseWire E.fl K D (.cons l f rest) lab) = fun D => CaseWire E.fl K D rest lab := by
        funext D p q; simp only [CaseWire]; rw [if_neg fun e => hl e.symm]
      rw [this, h2]
      exact he.mono (by simp only [Cases.depth]; omega)

end

end

/-! ### C61 -/

/-- The round trip from any state with nothing read or pending; the decoder starts in the same state but for the packet. -/
theorem packet_wire (K : View) (fl : FloatOps) (f : Sch) (hdep : f.depth ≤ 8) (hlen : f.code.length < 2 ^ 31) (q : P)
    (hrec : SRec fl K f ⟨0, false, []⟩ q) (s0 : St Tape) (hip : s0.ip = 0) (hcu : s0.cursor = 0) (hbi : s0.bit = 0)
    (hbe : s0.be = false) (htr : s0.trans = .none) (hlo : s0.loops = []) (hst : s0.stack = []) (hho : s0.host = ⟨[], q.evs⟩)
    (hbuf : q.pos ≤ 8 * s0.buf.length) :
    ∃ n sf, exec { prog := f.code, enc := true, host := giver K, fl := fl } n s0 = .stop .ok sf ∧
      sf.host = ⟨q.evs, []⟩ ∧ 8 * sf.cursor + sf.bit = q.pos ∧ sf.bit < 8 ∧ sf.buf.length = s0.buf.length ∧
      (∀ rest : List Byte,
        ∃ gf, exec { prog := f.code, enc := false, host := taker K, fl := fl } n (s0.swap (sf.packet ++ rest) ([] : List Ev))
            = .stop .ok (sf.swap (sf.packet ++ rest) gf) ∧ vis K gf = q.evs ∧ HidTags K gf ∧
          SWire fl K (sf.packet ++ rest) f ⟨0, false, []⟩ q) ∧
      (SWire fl K s0.buf f ⟨0, false, []⟩ q → sf.buf = s0.buf) := by
  let E : Env Tape := { prog := f.code, enc := true, host := giver K, fl := fl }
  obtain ⟨sf, d, w⟩ := sencodes (E := E) (K := K) rfl rfl hlen f q.evs ⟨0, false, []⟩ q s0 hrec
    ⟨[], by simp [hip, E]⟩ ⟨by simp [hbi], by simp [hcu, hbi], hbe, htr, q.evs, hho, rfl⟩ hst ⟨[], by simp⟩ hbuf
    (by simpa [hlo] using hdep)
  have hend : E.prog[sf.ip]? = none := by
    rw [d.ip, hip]; simp [E]
  obtain ⟨n, hn⟩ := d.run.exec hend
  obtain ⟨rest0, hh, ht⟩ := d.here.host
  have hr0 : rest0 = [] := by
    have := congrArg List.length ht
    simp at this
    exact this
  have hlen : sf.buf.length = s0.buf.length := d.len
  refine ⟨n, sf, hn, by rw [hh, hr0], d.here.pos, d.here.bit, hlen, ?_, w.keep⟩
  intro rest
  obtain ⟨hA, hD⟩ := agree_packet sf d.here.bit (by rw [d.here.pos, hlen]; exact hbuf) rest
  obtain ⟨_, _, hsim⟩ := exec_sim (E := E) (giver_taker K) (giver_quiet K) rfl ⟨by omega, by simp [hst], by simp [hlo]⟩
    (fun s' hr op hop => d.run.side hend s' hr op hop) hn hA hD
  obtain ⟨gf, hx, hR, hT⟩ := hsim [] ⟨by rw [hho]; rfl, fun _ _ _ h => (by cases h)⟩
  refine ⟨gf, hx, by rw [← hR, hh], hT, w.wire _ hA ?_⟩
  have := d.here.pos
  have := d.here.bit
  omega

theorem packet_from (K : View) (fl : FloatOps) (f : Sch) (hdep : f.depth ≤ 8) (hlen : f.code.length < 2 ^ 31) (q : P)
    (hrec : SRec fl K f ⟨0, false, []⟩ q) (s0 : St Tape) (hip : s0.ip = 0) (hcu : s0.cursor = 0) (hbi : s0.bit = 0)
    (hbe : s0.be = false) (htr : s0.trans = .none) (hlo : s0.loops = []) (hst : s0.stack = []) (hho : s0.host = ⟨[], q.evs⟩)
    (hbuf : q.pos ≤ 8 * s0.buf.length) :
    ∃ n sf, exec { prog := f.code, enc := true, host := giver K, fl := fl } n s0 = .stop .ok sf ∧
      sf.host = ⟨q.evs, []⟩ ∧ 8 * sf.cursor + sf.bit = q.pos ∧ sf.bit < 8 ∧ sf.buf.length = s0.buf.length ∧
      ∀ rest : List Byte,
        ∃ gf, exec { prog := f.code, enc := false, host := taker K, fl := fl } n (s0.swap (sf.packet ++ rest) ([] : List Ev))
            = .stop .ok (sf.swap (sf.packet ++ rest) gf) ∧ vis K gf = q.evs ∧ HidTags K gf := by
  obtain ⟨n, sf, h1, h2, h3, h4, h5, h6, _⟩ := packet_wire K fl f hdep hlen q hrec s0 hip hcu hbi hbe htr hlo hst hho hbuf
  exact ⟨n, sf, h1, h2, h3, h4, h5, fun rest => (h6 rest).imp fun _ g => ⟨g.1, g.2.1, g.2.2.1⟩⟩

/-- C61: the round trip of C52 for packet descriptions with conditions, switches, integer transforms, scalings, polynomials, splines,
optional marks and computed fields, at any place in structures and arrays. Every record that fits is encoded without error when the buffer can
hold it, the whole record is consumed, and decoding the packet produced, whatever follows it, succeeds and reports
exactly the events of the record. -/
theorem C61_packet (K : View) (fl : FloatOps) (f : Sch) (hdep : f.depth ≤ 8) (hlen : f.code.length < 2 ^ 31) (q : P)
    (hrec : SRec fl K f ⟨0, false, []⟩ q) (old : St Tape) (buf : List Byte) (hbuf : q.pos ≤ 8 * buf.length) :
    ∃ n sf, exec { prog := f.code, enc := true, host := giver K, fl := fl } n (initSt old buf ⟨[], q.evs⟩)
        = .stop .ok sf ∧
      sf.host = ⟨q.evs, []⟩ ∧ 8 * sf.cursor + sf.bit = q.pos ∧ sf.bit < 8 ∧ sf.buf.length = buf.length ∧
      ∀ (old' : St (List Ev)) (rest : List Byte),
        ∃ sd, exec { prog := f.code, enc := false, host := taker K, fl := fl } n
            (initSt old' (sf.packet ++ rest) []) = .stop .ok sd ∧
          vis K sd.host = q.evs ∧ sd.cursor = sf.cursor ∧ sd.bit = sf.bit ∧ sd.buf = sf.packet ++ rest := by
  obtain ⟨n, sf, hn, hh, hp, hb, hl, hdec⟩ := packet_from K fl f hdep hlen q hrec (initSt old buf ⟨[], q.evs⟩)
    rfl rfl rfl rfl rfl rfl rfl rfl hbuf
  refine ⟨n, sf, hn, hh, hp, hb, hl, fun old' rest => ?_⟩
  obtain ⟨gf, hx, hR, _⟩ := hdec rest
  have hfr : Fresh ((initSt old buf ⟨[], q.evs⟩).swap (sf.packet ++ rest) []) (initSt old' (sf.packet ++ rest) []) :=
    ⟨⟨old'.polyPos, old'.polyCnt, old'.splPos, old'.splCnt⟩, rfl, (fun h => by cases h), (fun h => by cases h)⟩
  obtain ⟨r, hr⟩ := exec_fresh_stop n hfr hx
  exact ⟨(sf.swap (sf.packet ++ rest) gf).refs r, hr, hR, rfl, rfl, rfl⟩

/-- A description with a big-endian field that is the host's value less ten, an array whose elements choose their
content by their kind, and a field that is there only if the first one exceeds 1, computed as its triple. -/
def Demo.sampleSch : Sch :=
  .seq (.fld (.scalar 0x10 1 0)) <| .seq (.trans .add 10 true .u16 2 0) <|
  .seq (.arrPre .p1 3 0 (.seq (.fld (.scalar 0x10 4 0))
    (.switch 4 0 (.cons (some 1) (.fld (.scalar 0x11 5 0)) (.cons none (.fld (.scalar 0x10 6 0)) .nil))))) <|
  .ite (.bin .gt (.fld 1 0) (.lit 1)) (.calc (.bin .mul (.fld 1 0) (.lit 3)) false 0x10 7 0) .opt

def Demo.sampleSchEvs : List Ev :=
  [.num 1 0x10 2, .num 2 0x17 100, .num 3 0x35 2, .num 4 0x10 1, .num 5 0x11 0x102, .num 4 0x10 9, .num 6 0x10 7, .note 0 0x38,
   .num 7 0x78 6]

/-- The hypotheses of `C61_packet` hold of it, with ten bytes. -/
example (fl : FloatOps) : Demo.sampleSch.depth ≤ 8 ∧ Demo.sampleSch.code.length < 2 ^ 31 ∧
    SRec fl (.plain fun _ => false) Demo.sampleSch ⟨0, false, []⟩ ⟨8 * 10, true, Demo.sampleSchEvs⟩ := by
  refine ⟨by decide, by decide, ?_⟩
  unfold Demo.sampleSch
  simp only [SRec]
  refine ⟨_, ⟨1, 2, rfl, ⟨by decide, by decide⟩, rfl, rfl⟩, ⟨8 * 3, true, Demo.sampleSchEvs.take 2⟩,
    ⟨100, 90, by simp only [ITrans.rel]; decide, by simp only [Ty.holds]; decide, by decide, by decide, by decide, rfl, fun _ => .inl rfl, rfl⟩,
    ⟨8 * 9, true, Demo.sampleSchEvs.take 8⟩, ⟨2, by decide, by decide, rfl, ?_⟩, ?_⟩
  · unfold ArrBody
    rw [if_neg (by decide)]
    refine ⟨⟨8 * 9, true, Demo.sampleSchEvs.take 7⟩, ⟨⟨8 * 7, true, Demo.sampleSchEvs.take 5⟩,
      ⟨_, ⟨1, 1, rfl, ⟨by decide, by decide⟩, rfl, rfl⟩, 1, rfl, rfl, by decide, ?_⟩,
      ⟨8 * 9, true, Demo.sampleSchEvs.take 7⟩, ⟨_, ⟨1, 9, rfl, ⟨by decide, by decide⟩, rfl, rfl⟩, 9, rfl, rfl, by decide, ?_⟩, ?_⟩, rfl⟩
    · exact ⟨2, 0x102, rfl, ⟨by decide, by decide⟩, rfl, rfl⟩
    · exact ⟨1, 7, rfl, ⟨by decide, by decide⟩, rfl, rfl⟩
    · simp [Reps, P.bytes, up8]
  · refine ⟨1, ⟨by decide, by decide⟩, by decide, ?_⟩
    exact ⟨1, 6, rfl, ⟨by decide, by decide⟩, by decide, by decide, rfl, rfl, rfl⟩

/-- Whole numbers standing for doubles. -/
def Demo.whole : FloatOps :=
  { Demo.fl with
    add := (· + ·), sub := (· - ·), mul := (· * ·), div := BitVec.sdiv, eq := (· == ·), lt := fun _ _ => false, le := BitVec.sle,
    ofI64 := id, ofU64 := id, toTy := fun _ d => some d }

/-- A polynomial 3 + 2 x, a spline through (0, 5), (10, 25), (20, 125), and a double that is seen times four plus one. -/
def Demo.curveSch : Sch :=
  .seq (.curve (.poly [3, 2]) false (.int .u8) 1 0) <| .seq (.curve (.spline [0, 5, 10, 25, 20, 125]) true (.int .u16) 2 0) <|
  .curve (.scale 4 1) false (.flt true) 3 0

/-- The hypotheses of `C61_packet` hold of it: the host's 11, 75 and 41 are 4, 15 and 10 in a packet of eleven bytes. -/
example : Demo.curveSch.depth ≤ 8 ∧ Demo.curveSch.code.length < 2 ^ 31 ∧
    SRec Demo.whole (.plain fun _ => false) Demo.curveSch ⟨0, false, []⟩
      ⟨8 * 11, true, [.num 1 0x19 11, .num 2 0x19 75, .num 3 0x19 41]⟩ := by
  refine ⟨by decide, by decide, ?_⟩
  unfold Demo.curveSch
  simp only [SRec]
  exact ⟨_, ⟨11, 4, by decide +kernel, by decide +kernel, by decide, rfl, by simp, rfl⟩,
    _, ⟨75, 15, by decide +kernel, by decide +kernel, by decide, rfl, by simp [P.bytes, up8], rfl⟩,
    41, 10, by decide +kernel, by decide +kernel, by decide, rfl, by simp, rfl⟩

end Cnd
