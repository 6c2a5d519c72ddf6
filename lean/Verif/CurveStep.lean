import Verif.SchWire
import Verif.Props.Packet
/-
  Number fields under a scaling, polynomial or spline: what the instructions do with them (for C61, C66, C79).
-/

namespace Cnd
variable {σ : Type}

theorem flatMap_eight (cs : List Word) : (cs.flatMap (leBytes 8)).length = 8 * cs.length := by
  induction cs with
  | nil => rfl
  | cons c cs ih => simp only [List.flatMap_cons, List.length_append, ih, leBytes_length, List.length_cons]; omega

theorem doubles_at (prog : List Byte) : ∀ (cs : List Word) (pos : Nat), At prog pos (cs.flatMap (leBytes 8)) →
    doublesAt prog pos cs.length = cs
  | [], _, _ => rfl
  | c :: cs, pos, h => by
    have h : At prog pos (leBytes 8 c ++ cs.flatMap (leBytes 8)) := h
    have ih := doubles_at prog cs (pos + 8) (by simpa using h.right)
    unfold doublesAt at ih ⊢
    obtain ⟨rest, hr⟩ := h
    rw [List.length_cons, List.range_succ_eq_map, List.map_cons, List.map_map]
    congr 1
    · show leWord ((prog.drop (pos + 0)).take 8) = c
      rw [Nat.add_zero, hr, List.append_assoc, List.take_append_of_le_length (by simp), List.take_of_length_le (by simp)]
      exact leWord_leBytes_lt (by omega) (by have := c.isLt; omega)
    · refine Eq.trans (List.map_congr_left (g := fun i => leWord ((prog.drop (pos + 8 + 8 * i)).take 8)) fun i _ => ?_) ih
      show leWord ((prog.drop (pos + 8 * (i + 1))).take 8) = leWord ((prog.drop (pos + 8 + 8 * i)).take 8)
      rw [show pos + 8 * (i + 1) = pos + 8 + 8 * i by omega]

theorem polyAt_eval (F : FloatOps) (x : Word) (cs : List Word) : polyEval F cs x = polyAt F x cs := by
  have key : ∀ cs : List Word, cs ≠ [] → polyAt F x cs =
      (match cs.reverse with
        | [] => 0
        | c :: rest => rest.foldl (fun y c => F.add (F.mul y x) c) c) := by
    intro cs
    induction cs with
    | nil => intro h; exact absurd rfl h
    | cons c cs ih =>
      intro _
      cases cs with
      | nil => rfl
      | cons d ds =>
        have ih := ih (by simp)
        show F.add (F.mul (polyAt F x (d :: ds)) x) c = _
        rw [ih, List.reverse_cons (a := c)]
        cases hr : (d :: ds).reverse with
        | nil => simp at hr
        | cons e es => simp only [List.cons_append, List.foldl_append, List.foldl_cons, List.foldl_nil]
  cases cs with
  | nil => rfl
  | cons c cs => rw [key _ (by simp)]; rfl

/-- The transform is pending. -/
def Curve.Ready (E : Env σ) (s : St σ) : Curve → Prop
  | .scale a b => s.trans = .scale ∧ s.fFactor = a ∧ s.fOffset = b
  | .poly cs => s.trans = .poly ∧ s.polyCnt = cs.length ∧ s.polyPos + 8 * cs.length ≤ E.prog.length ∧ At E.prog s.polyPos (cs.flatMap (leBytes 8))
  | .spline ps => s.trans = .spline ∧ 2 * s.splCnt = ps.length ∧ s.splPos + 8 * ps.length ≤ E.prog.length ∧
      At E.prog s.splPos (ps.flatMap (leBytes 8))

/-- The state behind the instruction of a transform; those of polynomials and splines go to the next byte. -/
def Curve.load (s : St σ) : Curve → St σ
  | .scale a b => { s with ip := s.ip + 17, trans := .scale, fFactor := a, fOffset := b }
  | .poly cs => { s with ip := s.ip + (2 + 8 * cs.length), trans := .poly, polyCnt := cs.length, polyPos := s.ip + 2,
                         cursor := s.fieldPos, bit := 0 }
  | .spline ps => { s with ip := s.ip + (2 + 8 * ps.length), trans := .spline, splCnt := ps.length / 2, splPos := s.ip + 2,
                           cursor := s.fieldPos, bit := 0 }

def Curve.op : Curve → Byte
  | .scale _ _ => 0x43
  | .poly _ => 0x4C
  | .spline _ => 0x4D

theorem Curve.code_length (c : Curve) : c.code.length =
    match c with
    | .scale _ _ => 17
    | .poly cs => 2 + 8 * cs.length
    | .spline ps => 2 + 8 * ps.length := by
  cases c <;> simp only [Curve.code, List.length_append, flatMap_eight, leBytes_length, List.length_cons, List.length_nil] <;> omega

theorem Curve.code_cons (c : Curve) : ∃ r, c.code = c.op :: r := by cases c <;> exact ⟨_, rfl⟩

theorem Curve.load_ip (c : Curve) (s : St σ) : (c.load s).ip = s.ip + c.code.length := by
  rw [c.code_length]; cases c <;> rfl

/-- What is left alone. -/
theorem Curve.load_same (c : Curve) (s : St σ) : (c.load s).buf = s.buf ∧ (c.load s).loops = s.loops ∧ (c.load s).stack = s.stack ∧
    (c.load s).host = s.host ∧ (c.load s).be = s.be ∧ (c.load s).opt = s.opt ∧ (c.load s).iVal = s.iVal := by
  cases c <;> exact ⟨rfl, rfl, rfl, rfl, rfl, rfl, rfl⟩

theorem Curve.load_pos (c : Curve) (s : St σ) : (c.load s).fieldPos = s.fieldPos ∧
    ((c.load s).cursor = s.cursor ∧ (c.load s).bit = s.bit ∨ (c.load s).cursor = s.fieldPos ∧ (c.load s).bit = 0) := by
  cases c with
  | scale a b => exact ⟨rfl, .inl ⟨rfl, rfl⟩⟩
  | poly cs => exact ⟨rfl, .inr ⟨rfl, rfl⟩⟩
  | spline ps => exact ⟨rfl, .inr ⟨rfl, rfl⟩⟩

theorem Num.aligns (n : Num) : aligns n.tag = true := by
  cases n with
  | int t => cases t <;> rfl
  | flt d => cases d <;> rfl

theorem Num.size_pos (n : Num) : 0 < n.size ∧ n.size ≤ 8 := by
  cases n with
  | int t => cases t <;> decide
  | flt d => cases d <;> decide

section
variable {E : Env σ} {s : St σ} {c : Curve} {n : Num}

theorem At.bound {prog : List Byte} {ip : Nat} {bs : List Byte} (h : At prog ip bs) (hb : bs ≠ []) : ip + bs.length ≤ prog.length := by
  obtain ⟨r, h⟩ := h
  have := congrArg List.length h
  simp only [List.length_drop, List.length_append] at this
  have : 0 < bs.length := List.length_pos_iff.2 hb
  omega

theorem curve_step (hat : At E.prog s.ip c.code) (hs : c.suits n = true) : step E s = .run (c.load s) ∧ c.Ready E (c.load s) := by
  cases c with
  | scale a b =>
    have hat1 : At E.prog s.ip (0x43 :: (leBytes 8 a ++ leBytes 8 b)) := hat
    have h8 : ∀ c : Word, leWord (leBytes 8 c) = c := fun c => leWord_leBytes_lt (by omega) (by have := c.isLt; omega)
    refine ⟨?_, rfl, rfl, rfl⟩
    rw [step_pre hat1, pre_unaligned _ s rfl]
    show fet E _ 8 (fun fac s => fet E s 8 fun off s => .run { s with trans := .scale, fFactor := fac, fOffset := off }) = _
    refine fet_ok (bs := leBytes 8 a) hat1.tail.left (by simp) (by omega) ?_
    refine fet_ok (bs := leBytes 8 b) (by simpa using hat1.tail.right) (by simp) (by omega) ?_
    rw [h8, h8]
    rfl
  | poly cs =>
    have hat1 : At E.prog s.ip (0x4C :: ([BitVec.ofNat 8 cs.length] ++ cs.flatMap (leBytes 8))) := hat
    have hl : cs.length < 256 := by cases n <;> simp [Curve.suits] at hs; exact hs
    have hb := hat1.bound (by simp)
    simp only [List.length_cons, List.length_append, flatMap_eight, List.length_nil] at hb
    refine ⟨?_, rfl, rfl, by show s.ip + 2 + _ ≤ _; omega, hat1.tail.right⟩
    rw [step_pre hat1, pre_aligned _ s rfl]
    show fet E _ 1 (fun n s =>
      let s' := { s with trans := .poly, polyCnt := n.toNat, polyPos := s.ip, ip := s.ip + n.toNat * 8 }
      if s'.ip > E.prog.length then .stop .oob s' else .run s') = _
    refine fet_ok (bs := [BitVec.ofNat 8 cs.length]) hat1.tail.left rfl (by omega) ?_
    have hn : (leWord [BitVec.ofNat 8 cs.length]).toNat = cs.length := by
      rw [toNat_leWord _ (by simp)]; simp [leNat]; omega
    simp only [hn]
    rw [if_neg (by show ¬ (s.ip + 1 + 1 + cs.length * 8 > _); omega)]
    simp only [Curve.load]
    rw [show s.ip + 1 + 1 + cs.length * 8 = s.ip + (2 + 8 * cs.length) by omega]
  | spline ps =>
    have hat1 : At E.prog s.ip (0x4D :: ([BitVec.ofNat 8 (ps.length / 2)] ++ ps.flatMap (leBytes 8))) := hat
    have hl : ps.length % 2 = 0 ∧ ps.length < 512 := by cases n <;> simp [Curve.suits] at hs; exact hs
    have hb := hat1.bound (by simp)
    simp only [List.length_cons, List.length_append, flatMap_eight, List.length_nil] at hb
    refine ⟨?_, rfl, by show 2 * (ps.length / 2) = _; omega, by show s.ip + 2 + _ ≤ _; omega, hat1.tail.right⟩
    rw [step_pre hat1, pre_aligned _ s rfl]
    show fet E _ 1 (fun n s =>
      let s' := { s with trans := .spline, splCnt := n.toNat, splPos := s.ip, ip := s.ip + n.toNat * 16 }
      if s'.ip > E.prog.length then .stop .oob s' else .run s') = _
    refine fet_ok (bs := [BitVec.ofNat 8 (ps.length / 2)]) hat1.tail.left rfl (by omega) ?_
    have hn : (leWord [BitVec.ofNat 8 (ps.length / 2)]).toNat = ps.length / 2 := by
      rw [toNat_leWord _ (by simp)]; simp [leNat]; omega
    simp only [hn]
    rw [if_neg (by show ¬ (s.ip + 1 + 1 + ps.length / 2 * 16 > _); omega)]
    simp only [Curve.load]
    rw [show s.ip + 1 + 1 + ps.length / 2 * 16 = s.ip + (2 + 8 * ps.length) by omega]

theorem ready_tab (h : c.Ready E s) : TabOK E s := by
  unfold TabOK
  cases c with
  | scale a b => constructor <;> (intro e; rw [h.1] at e; cases e)
  | poly cs =>
    refine ⟨fun _ => ?_, fun e => by rw [h.1] at e; cases e⟩
    rw [h.2.1]; exact h.2.2.1
  | spline ps =>
    refine ⟨fun e => (by rw [h.1] at e; cases e), fun _ => ?_⟩
    have := h.2.1
    have := h.2.2.1
    omega

theorem ready_view (h : c.Ready E s) (op : Byte) (t : Ty) : viewOp op s.trans = 0x19 ∧ viewSize t s.trans = 8 := by
  cases c <;> rw [h.1] <;> exact ⟨rfl, rfl⟩

theorem ready_raw (h : c.Ready E s) (t : Ty) (w : Word) : primRaw E t s w = E.fl.toTy t (c.down E.fl w) := by
  unfold primRaw
  cases c with
  | scale a b => simp only [h.1, h.2.1, h.2.2]; rfl
  | poly cs => simp only [h.1, h.2.1, doubles_at _ _ _ h.2.2.2]; rfl
  | spline ps => simp only [h.1, h.2.1, doubles_at _ _ _ h.2.2.2]; rfl

theorem ready_eng (h : c.Ready E s) (t : Ty) (raw : Word) : primEng E t s raw = some (c.up E.fl (asDouble E.fl t raw)) := by
  unfold primEng
  cases c with
  | scale a b => simp only [h.1, h.2.1, h.2.2]; rfl
  | poly cs => simp only [h.1, h.2.1, doubles_at _ _ _ h.2.2.2, polyAt_eval]; rfl
  | spline ps => simp only [h.1, h.2.1, doubles_at _ _ _ h.2.2.2]; rfl

theorem flt_scale {d : Bool} (hs : c.suits (.flt d) = true) : ∃ a b, c = .scale a b := by
  cases c with
  | scale a b => exact ⟨a, b, rfl⟩
  | poly cs => cases hs
  | spline ps => cases hs

theorem handlePrim_put (henc : E.enc = true) {t : Ty} {op : Byte} {w v : Word} {h : σ} (htab : TabOK E s)
    (hfit : s.cursor + t.size ≤ s.buf.length)
    (hcall : E.host.scalar s.host (fetch E.prog s.ip 2).1.toNat (viewOp op s.trans) 0 = (true, w, h))
    (hraw : primRaw E t s (truncB (viewSize t s.trans) w) = some v) :
    handlePrim E t op s = .run
      { s with ip := (fetch E.prog s.ip 2).2, host := h, buf := splice s.buf s.cursor (wrBytes s.be t.size v), trans := .none,
               cursor := s.cursor + t.size, opt := false } := by
  have hst : ∀ v, store s.buf s.cursor (wrBytes s.be t.size v) = some (splice s.buf s.cursor (wrBytes s.be t.size v)) :=
    fun v => store_eq_some.2 ⟨by simpa using hfit, rfl⟩
  unfold handlePrim fet
  simp only [henc, if_true]
  rw [if_neg (by omega)]
  unfold primRaw at hraw
  unfold TabOK at htab
  unfold viewOp at hcall
  unfold viewSize at hraw
  cases htr : s.trans <;> simp only [htr] at hraw hcall htab ⊢ <;> (try rw [if_neg (by simp at htab; omega)])
  all_goals refine callScalar_ok hcall ?_
  all_goals try
    (simp only [hraw]
     exact wrAt_ok (hst _) rfl)
  all_goals
    (injection hraw with hraw
     subst hraw
     exact wrAt_ok (hst _) rfl)

theorem handleFloat_put (henc : E.enc = true) {d : Bool} {op : Byte} {w v : Word} {h : σ} (htr : s.trans = .scale)
    (hfit : s.cursor + floatSize d ≤ s.buf.length)
    (hcall : E.host.scalar s.host (fetch E.prog s.ip 2).1.toNat 0x19 0 = (true, w, h))
    (hraw : floatRaw E d s w = some v) :
    handleFloat E d op s = .run
      { s with ip := (fetch E.prog s.ip 2).2, host := h, buf := splice s.buf s.cursor (wrBytes s.be (floatSize d) v), trans := .none,
               cursor := s.cursor + floatSize d, opt := false } := by
  have hst : ∀ v, store s.buf s.cursor (wrBytes s.be (floatSize d) v) = some (splice s.buf s.cursor (wrBytes s.be (floatSize d) v)) :=
    fun v => store_eq_some.2 ⟨by simpa using hfit, rfl⟩
  unfold handleFloat fet
  have hsz : (if d = true then 8 else 4) = floatSize d := rfl
  simp only [henc, if_true, hsz, htr]
  rw [if_neg (by omega)]
  unfold floatRaw at hraw
  simp only [htr] at hraw
  refine callScalar_ok hcall ?_
  injection hraw with hraw
  subst hraw
  rw [truncB_of_lt 8 w (by have := w.isLt; omega)]
  exact wrAt_ok (hst _) rfl

theorem float_exec (d : Bool) (E : Env σ) (s : St σ) : execOp E (Num.flt d).tag s = handleFloat E d (Num.flt d).tag s := by
  cases d <;> rfl

theorem float_size (d : Bool) : (Num.flt d).size = floatSize d := by cases d <;> rfl

theorem flt_raw (h : c.Ready E s) {d : Bool} (hs : c.suits (.flt d) = true) (w : Word) :
    floatRaw E d s w = (Num.flt d).ofDbl E.fl (c.down E.fl w) := by
  obtain ⟨a, b, rfl⟩ := flt_scale hs
  unfold floatRaw
  simp only [h.1, h.2.1, h.2.2]
  cases d <;> rfl

theorem flt_eng (h : c.Ready E s) {d : Bool} (hs : c.suits (.flt d) = true) (raw : Word) :
    floatEng E d s raw = some (c.up E.fl ((Num.flt d).dbl E.fl raw)) := by
  obtain ⟨a, b, rfl⟩ := flt_scale hs
  unfold floatEng
  simp only [h.1, h.2.1, h.2.2]
  cases d <;> rfl

/-- The state in front of the field's instruction and that in it have the same transform. -/
theorem ready_pre (h : c.Ready E s) (op : Byte) (ha : aligns op = true) : c.Ready E (pre op s) := by
  rw [pre_aligned _ s ha]
  cases c <;> exact h

/-- A number field under a pending transform, encoding. -/
theorem curve_put (henc : E.enc = true) {k0 k1 : Byte} {w v : Word} {h : σ} (hr : c.Ready E s) (hs : c.suits n = true)
    (hat : At E.prog s.ip [n.tag, k0, k1]) (hroom : s.fieldPos + n.size ≤ s.buf.length)
    (hhost : E.host.scalar s.host (keyNum k0 k1) 0x19 0 = (true, w, h)) (hv : n.ofDbl E.fl (c.down E.fl w) = some v) :
    step E s = .run { s with ip := s.ip + 3, buf := splice s.buf s.fieldPos (wrBytes s.be n.size v),
                             cursor := s.fieldPos + n.size, bit := 0, opt := false, trans := .none, host := h } := by
  have hf : fetch E.prog (s.ip + 1) 2 = (leWord [k0, k1], s.ip + 1 + 2) := hat.tail.fetch rfl (by omega)
  have hr' := ready_pre hr n.tag n.aligns
  have ht : truncB 8 w = w := truncB_of_lt _ _ (by have := w.isLt; omega)
  rw [step_pre hat]
  rw [pre_aligned _ s n.aligns] at hr' ⊢
  cases n with
  | int t =>
    show execOp E t.tag _ = _
    rw [prim_exec]
    rw [handlePrim_put henc (ready_tab hr') hroom (w := w) (v := v) (h := h)
      (by rw [(ready_view hr' t.tag t).1]; dsimp only; rw [hf, leWord_key]; exact hhost)
      (by rw [(ready_view hr' t.tag t).2, ht, ready_raw hr']; exact hv)]
    dsimp only
    rw [hf]
    rfl
  | flt d =>
    obtain ⟨a, b, rfl⟩ := flt_scale hs
    rw [float_exec]
    rw [float_size] at hroom ⊢
    rw [handleFloat_put henc hr'.1 hroom (w := w) (v := v) (h := h)
      (by dsimp only; rw [hf, leWord_key]; exact hhost)
      (by rw [flt_raw hr' hs]; exact hv)]
    dsimp only
    rw [hf]

end

end Cnd
