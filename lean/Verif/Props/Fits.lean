import Verif.Grow
import Verif.SweepByted
import Verif.Props.Prefix
import Verif.Props.Total
import Verif.Props.CodeFlow
import Verif.Props.JsonExist
/-
  C93: a buffer that is too small, and a packet that has been cut off, are refused.
-/
set_option linter.unusedVariables false
set_option linter.unusedSimpArgs false

namespace Cnd
variable {σ : Type}

/-! ### Positions -/

theorem pad_fit (E : Env σ) (s : St σ) (hb : s.bit < 8)
    (hs : ¬ 8 * s.buf.length < 8 * s.cursor + s.bit + (fetch E.prog s.ip 1).1.toNat) :
    Post (fun s' => 8 * s'.cursor + s'.bit ≤ 8 * s'.buf.length ∧ s'.buf.length = s.buf.length) (fun _ _ => True) (fun _ => True) (handlePad E s) := by
  unfold handlePad
  dsimp only
  unfold fet
  dsimp only
  split
  · refine post_putBits (fun b c o _ h => ?_) (fun _ => trivial)
    obtain ⟨h1, h2, h3⟩ := h hb
    simp only [room] at h3
    refine ⟨?_, h1⟩
    dsimp only at *
    omega
  · refine ⟨?_, rfl⟩
    dsimp only
    omega

/-- An instruction that is not cut short stays inside the buffer. -/
theorem step_inside {E : Env σ} {s : St σ} (hi : Inv s) (hs : ¬ CutShort E s) (hf : 8 * s.cursor + s.bit ≤ 8 * s.buf.length) :
    Post (fun s' => 8 * s'.cursor + s'.bit ≤ 8 * s'.buf.length ∧ s'.buf.length = s.buf.length)
      (fun _ s' => 8 * s'.cursor + s'.bit ≤ 8 * s'.buf.length ∧ s'.buf.length = s.buf.length) (fun _ => True) (step E s) := by
  cases hop : E.prog[s.ip]? with
  | none => rw [step_end hop]; exact ⟨hf, rfl⟩
  | some op =>
    have hs' := fun h => hs ⟨op, hop, h⟩
    dsimp only at hs'
    have hm := step_mono hi hop
    have hp := pre_fit op s hf
    have hb := (pre_fields op s).1
    by_cases hd : decodeOp op = .alignPad
    · simp only [hd] at hs'
      rw [step_eq hop]
      have := pad_fit E (pre op s) (hi.pre op).bit (by rw [hb]; exact hs')
      rw [hb] at this
      unfold execOp
      rw [hd]
      dsimp only
      cases hr : handlePad E (alignSt op { s with ip := s.ip + 1 }) with
      | ub u => exact trivial
      | run t => change Post _ _ _ (handlePad E (alignSt op { s with ip := s.ip + 1 })) at this; rw [hr] at this; exact this
      | stop e t =>
        unfold handlePad fet putBits at hr
        dsimp only at hr
        split at hr
        · split at hr <;> cases hr
        · cases hr
    · have hsl : slackOf op (pre op s) = 0 := by
        unfold slackOf
        rw [if_neg hd]
        split
        · rename_i he
          simp only [he] at hs'
          exact Nat.eq_zero_of_not_pos hs'
        · rfl
      rw [hsl] at hm
      have key : ∀ s', Mono 0 (decodeOp op).bulk (pre op s) s' → 8 * s'.cursor + s'.bit ≤ 8 * s'.buf.length ∧ s'.buf.length = s.buf.length := by
        intro s' h
        have h1 := h.up
        have h2 := h.len
        rw [hb] at h1 h2
        exact ⟨by omega, h2⟩
      cases hr : step E s with
      | ub u => exact trivial
      | run t => rw [hr] at hm; exact key _ hm
      | stop e t => rw [hr] at hm; exact key _ hm

theorem exec_fit {E : Env σ} {n : Nat} {s sf : St σ} {e : Err} (hi : Inv s) (h : exec E n s = .stop e sf)
    (hs : ∀ t, Reach E s t → ¬ CutShort E t) (hf : 8 * s.cursor + s.bit ≤ 8 * s.buf.length) :
    8 * sf.cursor + sf.bit ≤ 8 * s.buf.length ∧ sf.buf.length = s.buf.length := by
  induction n generalizing s with
  | zero => cases h
  | succ n ih =>
    rw [exec_succ] at h
    have h1 := step_inside hi (hs s (Reach.refl E s)) hf
    cases hst : step E s with
    | ub u => rw [hst] at h; cases h
    | stop e' t =>
      rw [hst] at h h1
      simp only [Res.stop.injEq] at h
      obtain ⟨_, rfl⟩ := h
      obtain ⟨k1, k2⟩ := h1
      exact ⟨by omega, k2⟩
    | run t =>
      rw [hst] at h h1
      obtain ⟨k1, k2⟩ := h1
      obtain ⟨j1, j2⟩ := ih (step_inv hi hst) h (fun u hu => hs u ((Reach.one hst).trans hu)) k1
      exact ⟨by omega, by omega⟩

/-! ### The hosts of the packet theorems do not see where the packet ends -/

theorem giver_deaf (K : View) (fl : FloatOps) (prog : List Byte) : Deaf { prog := prog, enc := true, host := giver K, fl := fl } :=
  ⟨fun h key op be D p rest _ hr => (by cases hr), .inr fun _ _ _ _ _ => rfl⟩

theorem takeWhile_more {p : Byte → Bool} : ∀ {l r : List Byte}, (l.takeWhile p).length < l.length → (l ++ r).takeWhile p = l.takeWhile p
  | [], r, h => by simp at h
  | x :: l, r, h => by
    simp only [List.cons_append, List.takeWhile_cons] at h ⊢
    split
    · rename_i hx
      rw [if_pos hx] at h
      rw [takeWhile_more (by simpa using h)]
    · rfl

theorem strThere_more {op : Byte} {be : Bool} {D rest : List Byte} {p : Nat} (h : strThere op be D p = true) :
    strThere op be (D ++ rest) p = true ∧ readStr op be (D ++ rest) p = readStr op be D p := by
  unfold strThere readStr at *
  split at h
  · rename_i n hn
    simp only [decide_eq_true_eq] at h ⊢
    have e : ((D ++ rest).drop (p - (n + 1))).take (n + 1) = (D.drop (p - (n + 1))).take (n + 1) := by
      rw [List.drop_append_of_le_length (by omega), List.take_append_of_le_length (by rw [List.length_drop]; omega)]
    rw [e]
    refine ⟨⟨h.1, by rw [List.length_append]; omega⟩, ?_⟩
    rw [List.drop_append_of_le_length (by omega), List.take_append_of_le_length (by rw [List.length_drop]; omega)]
  · rename_i hn
    have hp : p ≤ D.length := by
      rcases Nat.le_total p D.length with h1 | h1
      · exact h1
      · rw [List.drop_eq_nil_of_le h1] at h; cases h
    rw [List.drop_append_of_le_length hp]
    refine ⟨by rw [List.any_append, h]; rfl, ?_⟩
    apply takeWhile_more
    have hlt : ∀ l : List Byte, l.any (· == 0) = true → (l.takeWhile (fun x => decide (x ≠ 0))).length < l.length := by
      intro l
      induction l with
      | nil => intro h; cases h
      | cons x l ih =>
        intro h
        rw [List.takeWhile_cons]
        split
        · rename_i hx
          have hx0 : (x == 0) = false := by simpa using hx
          rw [List.any_cons, hx0, Bool.false_or] at h
          have := ih h
          simp only [List.length_cons]
          omega
        · simp
    exact hlt _ h

theorem taker_deaf (K : View) (fl : FloatOps) (prog : List Byte) : Deaf { prog := prog, enc := false, host := taker K, fl := fl } := by
  refine ⟨fun h key op be D p rest _ hr => ?_, .inr fun h key be D p => ?_⟩
  · unfold taker at hr ⊢
    dsimp only at hr ⊢
    by_cases ho : op = 0x39
    · rw [if_pos ho] at hr; cases hr
    rw [if_neg ho] at hr ⊢
    by_cases ht : strThere op be D p = true
    · have key := strThere_more (rest := rest) ht
      rw [if_pos ht, if_neg ho, if_pos key.1, key.2]
      simp [hostBuf]
    · rw [if_neg ht] at hr; cases hr
  · unfold taker
    dsimp only
    rw [if_pos rfl]

/-! ### Programs in which nothing can be cut short -/

/-- No reachable instruction is a bit field, padding, an optional mark or a read-to-end array. -/
def FirmCode (prog : List Byte) : Prop := ∀ p op, Flow prog p → prog[p]? = some op → (decodeOp op).firm = true

theorem step_small {E : Env σ} {s s' : St σ} {op : Byte} (hop : E.prog[s.ip]? = some op) (hs : step E s = .run s')
    (hC : decodeOp op ≠ .arrEnd → Counted (pre op s) (execOp E op (pre op s)))
    (ih : ∀ f ∈ s.loops, f.rem < 0xFFFFFFFF) : ∀ f ∈ s'.loops, f.rem < 0xFFFFFFFF := by
  have hpl : (pre op s).loops = s.loops := (pre_fields op s).2.2.2.1
  rw [step_eq hop] at hs
  change execOp E op (pre op s) = _ at hs
  by_cases hend : decodeOp op = .arrEnd
  · simp only [execOp, hend] at hs
    unfold handleArrEnd at hs
    rw [hpl] at hs
    cases hl : s.loops with
    | nil => rw [hl] at hs; cases hs
    | cons f fs =>
      rw [hl] at hs ih
      have hfe : (f.rem == 0xFFFFFFFF) = false := by simpa using Nat.ne_of_lt (ih f (by simp))
      have hch := ih f (by simp)
      simp only [hfe, Bool.false_eq_true, if_false, decide_eq_true_eq] at hs
      split at hs
      · injection hs with hs
        subst hs
        intro g hg
        simp only [List.mem_cons] at hg
        rcases hg with rfl | hg
        · simp only; omega
        · exact ih g (by simp [hg])
      · unfold callNotify at hs
        simp only at hs
        split at hs
        · injection hs with hs
          subst hs
          intro g hg
          exact ih g (by simp only at hg; simp [hg])
        · cases hs
  · have hc := hC hend
    rw [hs] at hc
    rcases hc with hc | ⟨i, c, hc, hn⟩
    · rw [hc, hpl]; exact ih
    · rw [hc, hpl]
      intro g hg
      simp only [List.mem_cons] at hg
      rcases hg with rfl | hg
      · exact hn
      · exact ih g hg

/-- A state in which the program does nothing that depends on the end of the buffer. -/
structure Calm (prog : List Byte) (s : St σ) : Prop where
  firm : ∀ op, prog[s.ip]? = some op → (decodeOp op).firm = true
  byted : Byted s
  counts : ∀ f ∈ s.loops, f.rem < 0xFFFFFFFF

theorem Calm.other {τ : Type} {prog : List Byte} {s : St σ} {t : St τ} (h : Calm prog s) (h1 : t.ip = s.ip) (h2 : t.opt = s.opt)
    (h3 : t.bit = s.bit) (h4 : t.loops = s.loops) : Calm prog t :=
  ⟨by rw [h1]; exact h.firm, ⟨by rw [h2]; exact h.byted.1, by rw [h3]; exact h.byted.2⟩, by rw [h4]; exact h.counts⟩

theorem Calm.uncut {E : Env σ} {s : St σ} (hc : Calm E.prog s) : ¬ CutShort E s := by
  rintro ⟨op, hop, h⟩
  have hfirm := hc.firm op hop
  obtain ⟨k1, k2⟩ := hc.byted
  have k3 := hc.counts
  have hbit : (alignSt op { s with ip := s.ip + 1 }).bit = 0 := by
    unfold alignSt
    split
    · rfl
    · exact k2
  dsimp only at h
  split at h
  all_goals first
    | (rw [k1] at h; exact Bool.false_ne_true h.1)
    | (rename_i hd; rw [hd] at hfirm; cases hfirm; done)
    | (rw [hbit] at h; omega)
    | (obtain ⟨⟨f, fs, e, hf⟩, _⟩ := h; have := k3 f (by rw [e]; simp); omega)
    | exact h

/-- Runs of such a program with a host that never gives the count 0xFFFFFFFF. -/
theorem firm_calm (E : Env σ) (old : St σ) (buf : List Byte) (user : σ) (hl : E.prog.length < 2 ^ 31) (hw : Whole false E.prog)
    (hsk : SkipsWell E.prog) (hF : FirmCode E.prog) (hA : CountsOk E.host)
    (s : St σ) (hr : Reach E (initSt old buf user) s) : Calm E.prog s := by
  have hrun := C82_run_partial E old buf user hl hw hsk
  have key : ∀ t, Reach E (initSt old buf user) t → Byted t ∧ ∀ f ∈ t.loops, f.rem < 0xFFFFFFFF := by
    rintro t ⟨m, hm⟩
    induction m generalizing t with
    | zero => rw [exec_zero] at hm; injection hm with hm; subst hm; exact ⟨⟨rfl, rfl⟩, fun f hf => by simp [initSt] at hf⟩
    | succ m ih =>
      rw [exec_add] at hm
      cases h1 : exec E m (initSt old buf user) with
      | stop e s1 => rw [h1] at hm; cases hm
      | ub u => rw [h1] at hm; cases hm
      | run s1 =>
        rw [h1] at hm
        obtain ⟨ih1, ih2⟩ := ih s1 h1
        simp only [exec_succ, exec_zero] at hm
        cases hs : step E s1 with
        | stop e s2 => rw [hs] at hm; cases hm
        | ub u => rw [hs] at hm; cases hm
        | run s2 =>
          rw [hs] at hm
          injection hm with hm
          subst hm
          cases hop : E.prog[s1.ip]? with
          | none => rw [step_end hop] at hs; cases hs
          | some op =>
            have hfl : Flow E.prog s1.ip := by
              rcases (hrun s1 ⟨m, h1⟩).1 with h | h
              · rw [h, List.getElem?_eq_none (Nat.le_refl _)] at hop; cases hop
              · exact h
            have hfirm := hF _ _ hfl hop
            refine ⟨?_, step_small hop hs (fun hend => ?_) ih2⟩
            · have h2 : Byted (pre op s1) := by
                refine ⟨by rw [(pre_fields op s1).2.2.2.2.2.2.2.2.2.2.2]; exact ih1.1, ?_⟩
                have h3 := (pre_pos op s1 (by rw [ih1.2]; omega)).2.2.2.2
                cases ha : aligns op with
                | true => exact h3.1 ha
                | false => rw [(h3.2 ha).2]; exact ih1.2
              have h4 := execOp_byted E op _ hfirm h2
              rw [step_eq hop] at hs
              change execOp E op (pre op s1) = _ at hs
              rw [hs] at h4
              exact h4
            · exact execOp_counted E op _ hend (fun h => by rw [h] at hfirm; cases hfirm) hA
  refine ⟨fun op hop => ?_, (key s hr).1, (key s hr).2⟩
  rcases (hrun s hr).1 with h | h
  · rw [h, List.getElem?_eq_none (Nat.le_refl _)] at hop; cases hop
  · exact hF _ _ h hop

/-! ### From one host to another, from a long buffer to a short one -/

section
variable {α β : Type} {On : α → Prop} {R : α → β → Prop} {EA : Env α} {EB : Env β}

/-- Along a successful run that ends in `On`, the second host is in step with the first. -/
theorem mimics_along (hS : Same EA EB On R) {m : Nat} {s0 sl : St α} {b0 : β} (h : exec EA m s0 = .stop .ok sl) (ho : On sl.host)
    (hR : R s0.host b0) (k : Nat) (t : St α) (hk : exec EA k s0 = .run t) : ∃ b, exec EB k (s0.wh b0) = .run (t.wh b) ∧ R t.host b := by
  induction k generalizing t with
  | zero =>
    rw [exec_zero] at hk
    injection hk with hk
    subst hk
    exact ⟨b0, rfl, hR⟩
  | succ k ih =>
    have hOn : On t.host := by
      by_cases hn : On t.host
      · exact hn
      · have h2 := exec_dead hS (m - (k + 1)) hn
        rcases Nat.le_total (k + 1) m with hl | hl
        · obtain ⟨d, rfl⟩ := Nat.le.dest hl
          rw [exec_add, hk] at h
          rw [Nat.add_sub_cancel_left] at h2
          dsimp only at h
          rw [h] at h2
          exact absurd ho h2
        · obtain ⟨d, hd⟩ := Nat.le.dest hl
          rw [← hd, exec_add, h] at hk
          cases hk
    rw [exec_add] at hk
    cases h1 : exec EA k s0 with
    | stop e s1 => rw [h1] at hk; cases hk
    | ub u => rw [h1] at hk; cases hk
    | run s1 =>
      rw [h1] at hk
      obtain ⟨b, hb, hRb⟩ := ih s1 h1
      have hf := step_fol hS hRb
      simp only [exec_succ, exec_zero] at hk
      cases hs : step EA s1 with
      | stop e s2 => rw [hs] at hk; cases hk
      | ub u => rw [hs] at hk; cases hk
      | run s2 =>
        rw [hs] at hk hf
        injection hk with hk
        subst hk
        obtain ⟨b2, e2, hR2⟩ := hf hOn
        refine ⟨b2, ?_, hR2⟩
        rw [exec_add, hb]
        simp only [exec_succ, exec_zero, e2]

/-- If the second host's runs are calm, so is this run of the first. -/
theorem calm_back (hS : Same EA EB On R) {m : Nat} {s0 sl : St α} {b0 : β} (h : exec EA m s0 = .stop .ok sl) (ho : On sl.host)
    (hR : R s0.host b0) (hc : ∀ t, Reach EB (s0.wh b0) t → Calm EB.prog t) (t : St α) (ht : Reach EA s0 t) : Calm EA.prog t := by
  obtain ⟨k, hk⟩ := ht
  obtain ⟨b, hb, _⟩ := mimics_along hS h ho hR k t hk
  have := hc _ ⟨k, hb⟩
  rw [hS.prog] at this
  exact this.other rfl rfl rfl rfl

/-- If this run of the first host is calm, so is that of the second. -/
theorem calm_forth (hS : Same EA EB On R) {m : Nat} {s0 sl : St α} {b0 : β} (h : exec EA m s0 = .stop .ok sl) (ho : On sl.host)
    (hR : R s0.host b0) (hc : ∀ t, Reach EA s0 t → Calm EA.prog t) (t : St β) (ht : Reach EB (s0.wh b0) t) : Calm EB.prog t := by
  obtain ⟨k, hk⟩ := ht
  cases h1 : exec EA k s0 with
  | ub u =>
    rcases Nat.le_total k m with hl | hl <;> obtain ⟨d, rfl⟩ := Nat.le.dest hl
    · rw [exec_add, h1] at h; cases h
    · rw [exec_add, h] at h1; cases h1
  | stop e s1 =>
    obtain ⟨rfl, rfl⟩ : e = .ok ∧ s1 = sl := by
      rcases Nat.le_total k m with hl | hl <;> obtain ⟨d, rfl⟩ := Nat.le.dest hl
      · rw [exec_add, h1] at h; cases h; exact ⟨rfl, rfl⟩
      · rw [exec_add, h] at h1; cases h1; exact ⟨rfl, rfl⟩
    obtain ⟨b, hb, _⟩ := exec_mimics hS h1 ho hR
    rw [hb] at hk
    cases hk
  | run s1 =>
    obtain ⟨b, hb, _⟩ := mimics_along hS h ho hR k s1 h1
    rw [hb] at hk
    injection hk with hk
    subst hk
    rw [hS.prog]
    exact (hc s1 ⟨k, h1⟩).other rfl rfl rfl rfl

end

/-- If the run on the longer buffer is calm, so is the one on the shorter, and it is not cut short. -/
theorem calm_cut {E : Env σ} (hD : Deaf E) {s : St σ} {rest : List Byte} (hi : Inv s)
    (hc : ∀ t, Reach E (s.grow rest) t → Calm E.prog t) (t : St σ) (ht : Reach E s t) : ¬ CutShort E t := by
  have key : ∀ k t, exec E k s = .run t → exec E k (s.grow rest) = .run (t.grow rest) ∧ Inv t := by
    intro k
    induction k with
    | zero =>
      intro t hk
      rw [exec_zero] at hk
      injection hk with hk
      subst hk
      exact ⟨rfl, hi⟩
    | succ k ih =>
      intro t hk
      rw [exec_add] at hk
      cases h1 : exec E k s with
      | stop e s1 => rw [h1] at hk; cases hk
      | ub u => rw [h1] at hk; cases hk
      | run s1 =>
        rw [h1] at hk
        obtain ⟨j1, j2⟩ := ih s1 h1
        have hcalm : Calm E.prog s1 := (hc _ ⟨k, j1⟩).other rfl rfl rfl rfl
        have hw := step_wid (rest := rest) hD s1 j2.bit hcalm.uncut
        simp only [exec_succ, exec_zero] at hk
        cases hs : step E s1 with
        | stop e s2 => rw [hs] at hk; cases hk
        | ub u => rw [hs] at hk; cases hk
        | run s2 =>
          rw [hs] at hk hw
          injection hk with hk
          subst hk
          obtain ⟨b, e1, rfl⟩ := hw
          refine ⟨?_, step_inv j2 hs⟩
          rw [exec_add, j1]
          simp only [exec_succ, exec_zero, e1]
          rfl
  obtain ⟨k, hk⟩ := ht
  exact ((hc _ ⟨k, (key k t hk).1⟩).other rfl rfl rfl rfl : Calm E.prog t).uncut

/-! ### The record hosts on the way through a record -/

/-- The instructions whose count the VM takes from the host unchecked. -/
def countOp (op : Byte) : Bool := op == 0x34 || op == 0x37 || op == 0x3B

/-- The host with array counts of 0xFFFFFFFF refused. -/
def capped (H : Host σ) : Host σ :=
  { H with scalar := fun h key op v =>
      if countOp op = true ∧ (truncB 4 (H.scalar h key op v).2.1).toNat = 0xFFFFFFFF then (false, 0, h) else H.scalar h key op v }

theorem capped_counts (H : Host σ) : CountsOk (capped H) := by
  intro h key op v hop
  have hc : countOp op = true := by rcases hop with rfl | rfl | rfl <;> rfl
  unfold capped
  dsimp only
  split
  · show (truncB 4 (0 : Word)).toNat ≠ _
    decide
  · rename_i hn
    exact fun e => hn ⟨hc, e⟩

/-- No count of 0xFFFFFFFF, and not the mark of a refused string. -/
def Ev.calm : Ev → Prop
  | .num _ op w => countOp op = true → (truncB 4 w).toNat ≠ 0xFFFFFFFF
  | .str .. => True
  | .note k _ => k < 65536

def AllCalm (es : List Ev) : Prop := ∀ e ∈ es, e.calm

theorem AllCalm.left {a b : List Ev} (h : AllCalm (a ++ b)) : AllCalm a := fun e he => h e (List.mem_append_left _ he)
theorem AllCalm.last {a : List Ev} {e : Ev} (h : AllCalm (a ++ [e])) : e.calm := h e (by simp)

theorem capped_ok {H : Host σ} {h : σ} {key : Nat} {op : Byte} {v w : Word} {h' : σ} (he : H.scalar h key op v = (true, w, h'))
    (hf : countOp op = true → (truncB 4 w).toNat ≠ 0xFFFFFFFF) : (capped H).scalar h key op v = (true, w, h') := by
  unfold capped
  dsimp only
  rw [if_neg (fun hc => hf hc.1 (by have := hc.2; rw [he] at this; exact this)), he]

theorem giver_capped (K : View) : Mimics true (giver K) (capped (giver K)) (fun h => AllCalm h.done) (fun a b => b = a) where
  notify := by
    rintro a b key op a' rfl hs _
    exact ⟨a', hs, rfl⟩
  notifyMono := by
    intro a key op ho
    simp only [giver] at ho
    repeat' split at ho
    all_goals first | exact ho | exact ho.left
  scalar := by
    rintro a b key op v w a' rfl hs ho
    refine ⟨a', capped_ok hs fun hc => ?_, rfl⟩
    simp only [giver] at hs
    split at hs
    · cases hs
    · split at hs
      · rename_i hq
        rcases hq with rfl | rfl <;> cases hc
      · split at hs
        · split at hs
          · rename_i h1
            injection hs with _ hs
            injection hs with hw hs
            subst hw hs
            exact ho.last (h1.2.1 ▸ hc)
          · cases hs
        · cases hs
  scalarMono := by
    intro a key op v ho
    simp only [giver] at ho
    repeat' split at ho
    all_goals first | exact ho | exact ho.left
  str := by
    rintro _ a b key op w a' rfl hs _
    exact ⟨w, a', hs, rfl, rfl⟩
  strMono := by
    intro _ a key op ho
    simp only [giver, Tape.refuse] at ho
    repeat' split at ho
    all_goals first | exact ho | exact ho.left
  strNo := by
    intro _ a key op hs ho
    have bad : ¬ AllCalm (a.refuse).done := fun h => absurd h.last (by simp [Ev.calm])
    simp only [giver] at ho hs
    repeat' split at ho
    all_goals first | exact bad ho | simp_all
  bytes := fun h => (by cases h)
  bytesMono := fun ho => ho
  raw := fun _ h => (by cases h)

theorem taker_capped (K : View) : Mimics false (taker K) (capped (taker K)) AllCalm (fun a b => b = a) where
  notify := by
    rintro a b key op a' rfl hs _
    exact ⟨a', hs, rfl⟩
  notifyMono := fun ho => ho.left
  scalar := by
    rintro a b key op v w a' rfl hs ho
    refine ⟨a', capped_ok hs fun hc => ?_, rfl⟩
    simp only [taker] at hs
    split at hs
    · injection hs with _ hs
      injection hs with hw hs
      subst hw hs
      exact ho.last hc
    · split at hs
      · rename_i hq
        rcases hq with rfl | rfl <;> cases hc
      · injection hs with _ hs
        injection hs with hw hs
        subst hw hs
        exact ho.last hc
  scalarMono := by
    intro a key op v ho
    simp only [taker] at ho
    repeat' split at ho
    all_goals first | exact ho | exact ho.left
  str := fun h => (by cases h)
  strMono := fun h => (by cases h)
  strNo := fun h => (by cases h)
  bytes := by
    rintro _ a b key op be D p D' a' _ rfl hs _
    exact ⟨a', hs, rfl⟩
  bytesMono := by
    intro a key op be D p ho
    simp only [taker] at ho
    repeat' split at ho
    all_goals first | exact ho | exact ho.left
  raw := fun _ h => (by cases h)

theorem allCalm_append {a b : List Ev} (h1 : AllCalm a) (h2 : AllCalm b) : AllCalm (a ++ b) := by
  intro e he
  rcases List.mem_append.1 he with he | he
  · exact h1 e he
  · exact h2 e he

/-- Such events stay such. -/
def KeepsCalm (R : P → P → Prop) : Prop := ∀ p q, R p q → AllCalm p.evs → AllCalm q.evs

theorem calmEv_bytes {p : P} {n : Nat} {e : Ev} (he : e.calm) (h : AllCalm p.evs) : AllCalm (p.bytes n [e]).evs :=
  allCalm_append h (fun x hx => by rw [List.mem_singleton.1 hx]; exact he)

theorem calmEv_bits {p : P} {n : Nat} {e : Ev} (he : e.calm) (h : AllCalm p.evs) : AllCalm (p.bits n [e]).evs :=
  allCalm_append h (fun x hx => by rw [List.mem_singleton.1 hx]; exact he)

theorem calmEv_bytes0 {p : P} {n : Nat} (h : AllCalm p.evs) : AllCalm (p.bytes n []).evs := by
  simpa [P.bytes] using h

theorem calmEv_bits0 {p : P} {n : Nat} (h : AllCalm p.evs) : AllCalm (p.bits n []).evs := by
  simpa [P.bits] using h

theorem calmEv_reps {R : P → P → Prop} (hR : KeepsCalm R) (n : Nat) : KeepsCalm (Reps R n) := by
  induction n with
  | zero => rintro p q rfl h; exact h
  | succ n ih =>
    rintro p q ⟨m, h1, h2⟩ h
    exact ih _ _ h2 (calmEv_bytes0 (hR _ _ h1 h))

theorem calmEv_note0 (op : Byte) : (Ev.note 0 op).calm := by show 0 < 65536; omega

theorem calmEv_note (k0 k1 op : Byte) : (Ev.note (keyNum k0 k1) op).calm := by
  show keyNum k0 k1 < 65536
  unfold keyNum
  omega

theorem calmEv_count {k : Nat} {op : Byte} {n : Word} (h : n.toNat < 0xFFFFFFFF) : (Ev.num k op n).calm := by
  intro _
  rw [toNat_truncB, Nat.mod_eq_of_lt (by omega)]
  omega

theorem calmEv_other {k : Nat} {op : Byte} {n : Word} (h : countOp op = false) : (Ev.num k op n).calm := by
  intro hc
  rw [h] at hc
  cases hc

theorem calmEv_tag (t : Ty) {k : Nat} {v : Word} : (Ev.num k t.tag v).calm := calmEv_other (by cases t <;> rfl)

theorem calmEv_scalar {op : Byte} {n k : Nat} {v : Word} (h : scalarWidth op.toNat = some n) : (Ev.num k op v).calm := by
  have key : ∀ op : Byte, scalarWidth op.toNat = none ∨ countOp op = false := by decide +kernel
  rcases key op with e | e
  · rw [h] at e; cases e
  · exact calmEv_other e

theorem calmEv_arr {R : P → P → Prop} (hR : KeepsCalm R) (code : List Byte) (n : Nat) : KeepsCalm (ArrBody R code n) := by
  intro p q h ht
  unfold ArrBody at h
  split at h
  · obtain ⟨_, rfl⟩ := h; exact ht
  · obtain ⟨m, h1, rfl⟩ := h
    exact calmEv_bytes (calmEv_note0 _) (calmEv_reps hR n _ _ h1 ht)

theorem rec_calmEv (K : View) (f : Fld) : KeepsCalm (Rec K f) := by
  induction f with
  | empty => rintro p q rfl h; exact h
  | seq a b iha ihb => rintro p q ⟨m, h1, h2⟩ h; exact ihb _ _ h2 (iha _ _ h1 h)
  | scalar op k0 k1 =>
    rintro p q ⟨n, v, h1, h2, _, rfl⟩ h
    exact calmEv_bytes (calmEv_scalar h1) h
  | range t => rintro p q ⟨v, hv, _, _, _, _, _, rfl⟩ h; exact calmEv_bytes (calmEv_tag t) h
  | enum t => rintro p q ⟨v, hv, ha, _, _, rfl⟩ h; exact calmEv_bytes (calmEv_tag t) h
  | const => rintro p q ⟨_, _, rfl⟩ h; exact calmEv_bytes0 h
  | strNull => rintro p q ⟨_, _, _, rfl⟩ h; exact calmEv_bytes trivial h
  | strPre r => rintro p q ⟨_, _, _, rfl⟩ h; exact calmEv_bytes trivial h
  | bitU => rintro p q ⟨v, _, _, _, rfl⟩ h; exact calmEv_bits (calmEv_other rfl) h
  | bitI => rintro p q ⟨v, _, _, _, _, _, rfl⟩ h; exact calmEv_bits (calmEv_other rfl) h
  | bitBool => rintro p q ⟨v, hv, _, rfl⟩ h; exact calmEv_bits (calmEv_other rfl) h
  | pad => rintro p q ⟨_, rfl⟩ h; exact calmEv_bits0 h
  | fill => rintro p q rfl h; exact calmEv_bytes0 h
  | setLE => rintro p q ⟨_, rfl⟩ h; exact h
  | setBE => rintro p q ⟨_, rfl⟩ h; exact h
  | nop => rintro p q rfl h; exact h
  | enterBit => rintro p q rfl h; exact h
  | exitBit => rintro p q ⟨_, rfl⟩ h; exact h
  | version => rintro p q rfl h; exact h
  | name => rintro p q rfl h; exact h
  | struct k0 k1 f ih =>
    rintro p q ⟨m, h1, rfl⟩ h
    exact calmEv_bits (calmEv_note0 _) (ih _ _ h1 (calmEv_bits (calmEv_note ..) h))
  | arrFixed k0 k1 n f ih =>
    rintro p q ⟨hn, _, h1⟩ h
    exact calmEv_arr ih _ _ _ _ h1 (calmEv_bytes (calmEv_count hn) h)
  | arrPre r k0 k1 f ih =>
    rintro p q ⟨n, _, hn, _, h1⟩ h
    exact calmEv_arr ih _ _ _ _ h1 (calmEv_bytes (calmEv_count hn) h)
  | arrDyn k0 k1 r0 r1 f ih =>
    rintro p q ⟨n, _, hn, _, _, h1⟩ h
    exact calmEv_arr ih _ _ _ _ h1 (calmEv_bytes (calmEv_count hn) h)
  | crc => rintro p q ⟨_, rfl⟩ h; exact calmEv_bytes0 h

mutual

theorem srec_calmEv (F : FloatOps) (K : View) : (f : Sch) → KeepsCalm (SRec F K f)
  | .fld f => rec_calmEv K f
  | .seq a b => by
    rintro p q ⟨m, h1, h2⟩ h
    exact srec_calmEv F K b _ _ h2 (srec_calmEv F K a _ _ h1 h)
  | .struct k0 k1 f => by
    rintro p q ⟨m, h1, rfl⟩ h
    exact calmEv_bits (calmEv_note0 _) (srec_calmEv F K f _ _ h1 (calmEv_bits (calmEv_note ..) h))
  | .arrFixed k0 k1 n f => by
    rintro p q ⟨hn, _, h1⟩ h
    exact calmEv_arr (srec_calmEv F K f) _ _ _ _ h1 (calmEv_bytes (calmEv_count hn) h)
  | .arrPre r k0 k1 f => by
    rintro p q ⟨n, _, hn, _, h1⟩ h
    exact calmEv_arr (srec_calmEv F K f) _ _ _ _ h1 (calmEv_bytes (calmEv_count hn) h)
  | .arrDyn k0 k1 r0 r1 f => by
    rintro p q ⟨n, _, hn, _, _, h1⟩ h
    exact calmEv_arr (srec_calmEv F K f) _ _ _ _ h1 (calmEv_bytes (calmEv_count hn) h)
  | .opt => by rintro p q rfl h; exact h
  | .trans x c big t k0 k1 => by
    rintro p q ⟨e, _, _, _, _, _, _, _, _, rfl⟩ h
    exact calmEv_bytes (p := ⟨p.pos, p.be || big, p.evs⟩) (calmEv_other rfl) h
  | .curve c big n k0 k1 => by
    rintro p q ⟨w, _, _, _, _, _, _, rfl⟩ h
    exact calmEv_bytes (p := ⟨p.pos, p.be || big, p.evs⟩) (calmEv_other rfl) h
  | .calc e big tag k0 k1 => by
    rintro p q ⟨_, m, _, _, _, _, _, _, rfl⟩ h
    exact calmEv_bytes (p := ⟨p.pos, p.be || big, p.evs⟩) (calmEv_other rfl) h
  | .ite c a b => by
    rintro p q ⟨n, _, _, h1⟩ h
    split at h1
    · exact srec_calmEv F K a _ _ h1 h
    · exact srec_calmEv F K b _ _ h1 h
  | .switch k0 k1 cs => by
    rintro p q ⟨v, _, _, _, h1⟩ h
    split at h1
    · exact case_calmEv F K cs _ _ _ h1 h
    · split at h1
      · exact case_calmEv F K cs _ _ _ h1 h
      · rw [h1]; exact h

theorem case_calmEv (F : FloatOps) (K : View) : (cs : Cases) → (l : Option Word) → KeepsCalm (CaseRec F K cs l)
  | .nil, _ => fun _ _ h => h.elim
  | .cons l f rest, l' => by
    intro p q h
    unfold CaseRec at h
    split at h
    · exact srec_calmEv F K f _ _ h
    · exact case_calmEv F K rest _ _ _ h

end

theorem evs_calmEv {F : FloatOps} {K : View} {f : Sch} {q : P} (h : SRec F K f ⟨0, false, []⟩ q) : AllCalm q.evs :=
  srec_calmEv F K f _ _ h (fun _ he => by cases he)

/-- What a decoding host has seen has no bad counts if the record is, the fields fixed by the schema being no counts. -/
theorem seen_calmEv {K : View} {g : List Ev} (h : AllCalm (vis K g)) (hT : HidTags K g) (hn : ∀ k op, Ev.note k op ∈ g → Ev.note k op ∈ vis K g) :
    AllCalm g := by
  intro e he
  cases e with
  | str => trivial
  | note k op => exact h _ (hn k op he)
  | num k op w =>
    cases hK : K k with
    | false => exact h _ (List.mem_filter.2 ⟨he, by simp [hK]⟩)
    | true =>
      have h1 := hT k op w he hK
      refine calmEv_other ?_
      have key : ∀ op : Byte, (tyTag (op.setWidth 64)).isSome = true → countOp op = false := by decide +kernel
      exact key op h1

/-- Decoding the packet of a record, whatever follows, shows no bad counts. -/
theorem Encoded.sees_calmEv {fl : FloatOps} {K : View} {f : Sch} {q : P} {pkt : List Byte} (hdep : f.depth ≤ 8)
    (hlen : f.code.length < 2 ^ 31) (h : Encoded fl K f q pkt) (old : St (List Ev)) :
    ∃ n sd, exec { prog := f.code, enc := false, host := taker K, fl := fl } n (initSt old pkt []) = .stop .ok sd ∧ AllCalm sd.host ∧
      8 * sd.cursor + sd.bit = q.pos := by
  obtain ⟨hr, old0, buf, n, e, sf, hb, he, rfl⟩ := h
  obtain ⟨m, sf', h1, _, h3, _, _, hdec⟩ := packet_from K fl f hdep hlen q hr (initSt old0 buf ⟨[], q.evs⟩)
    rfl rfl rfl rfl rfl rfl rfl rfl hb
  obtain ⟨rfl, rfl⟩ := exec_det h1 he
  obtain ⟨gf, hx, hR, hT⟩ := hdec []
  rw [List.append_nil] at hx
  have hfr : Fresh ((initSt old0 buf ⟨[], q.evs⟩).swap sf'.packet []) (initSt old sf'.packet []) :=
    ⟨⟨old.polyPos, old.polyCnt, old.splPos, old.splCnt⟩, rfl, (fun h => by cases h), (fun h => by cases h)⟩
  obtain ⟨r, hr'⟩ := exec_fresh_stop m hfr hx
  refine ⟨m, (sf'.swap sf'.packet gf).refs r, hr', ?_, h3⟩
  change AllCalm gf
  exact seen_calmEv (by rw [hR]; exact evs_calmEv hr) hT fun k op he => List.mem_filter.2 ⟨he, rfl⟩

theorem json_deaf (F : FloatOps) (names : List (List Byte)) (prog : List Byte) (hB : NoBulk prog) :
    Deaf { prog := prog, enc := true, host := jsonHost F names true, fl := F } := by
  refine ⟨fun h key op be D p rest ho hr => ?_, .inl hB⟩
  have := ho rfl
  subst this
  unfold jsonHost at hr ⊢
  dsimp only at hr ⊢
  rw [if_pos rfl] at hr
  rw [if_pos rfl, if_pos rfl]
  dsimp only at hr ⊢
  rw [hr]
  simp [hostBuf]

/-! ### C93 -/

/-- **C93, longer buffers.** Any program, any host that does not see where the packet ends. If encoding or decoding succeeds on a buffer and
no instruction took the end of the buffer for an answer, then it does the same with anything behind the buffer, which is left as it is. -/
theorem C93_longer (E : Env σ) (hD : Deaf E) (old : St σ) (buf rest : List Byte) (user : σ) (n : Nat) (sf : St σ)
    (h : exec E n (initSt old buf user) = .stop .ok sf) (hs : ∀ s, Reach E (initSt old buf user) s → ¬ CutShort E s) :
    exec E n (initSt old (buf ++ rest) user) = .stop .ok { sf with buf := sf.buf ++ rest } :=
  exec_wid (rest := rest) hD (init_inv old buf user) h hs

/-- **C93, encoding.** A record of a packet description that is longer than the buffer is not encoded: no run reports success, unless some
instruction on the way takes the end of the buffer for an answer.
Missing: descriptions with bit fields, padding or optional fields, of which it is false (`C93_false_bits`, `C93_false_optional`). -/
theorem C93_encode_partial (K : View) (fl : FloatOps) (f : Sch) (hdep : f.depth ≤ 8) (hlen : f.code.length < 2 ^ 31) (q : P)
    (hrec : SRec fl K f ⟨0, false, []⟩ q) (old : St Tape) (buf : List Byte) (hbuf : 8 * buf.length < q.pos)
    (hs : ∀ s, Reach { prog := f.code, enc := true, host := giver K, fl := fl } (initSt old buf ⟨[], q.evs⟩) s →
      ¬ CutShort { prog := f.code, enc := true, host := giver K, fl := fl } s) (n : Nat) (sf : St Tape) :
    exec { prog := f.code, enc := true, host := giver K, fl := fl } n (initSt old buf ⟨[], q.evs⟩) ≠ .stop .ok sf := by
  intro h
  obtain ⟨m, sl, h1, _, h3, _⟩ := C61_packet K fl f hdep hlen q hrec old (buf ++ List.replicate q.pos 0)
    (by rw [List.length_append, List.length_replicate]; omega)
  have h4 := C93_longer _ (giver_deaf K fl f.code) old buf (List.replicate q.pos 0) _ n sf h hs
  obtain ⟨_, rfl⟩ := exec_det h1 h4
  have h5 := (exec_fit (init_inv old buf _) h hs (by simp [initSt])).1
  change 8 * sf.cursor + sf.bit = q.pos at h3
  change 8 * sf.cursor + sf.bit ≤ 8 * buf.length at h5
  omega

/-- **C93, decoding.** A packet of a record, cut off anywhere before its end, is not decoded: no run reports success, unless some
instruction on the way takes the end of the packet for an answer.
Missing: descriptions with bit fields, padding or optional fields, of which it is false (`C93_false_bits`, `C93_false_optional`). -/
theorem C93_decode_partial (K : View) (fl : FloatOps) (f : Sch) (hdep : f.depth ≤ 8) (hlen : f.code.length < 2 ^ 31) (q : P)
    (cut more : List Byte) (hp : Encoded fl K f q (cut ++ more)) (hm : more ≠ []) (old : St (List Ev))
    (hs : ∀ s, Reach { prog := f.code, enc := false, host := taker K, fl := fl } (initSt old cut []) s →
      ¬ CutShort { prog := f.code, enc := false, host := taker K, fl := fl } s) (n : Nat) (sd : St (List Ev)) :
    exec { prog := f.code, enc := false, host := taker K, fl := fl } n (initSt old cut []) ≠ .stop .ok sd := by
  intro h
  obtain ⟨h1, h2⟩ := hp.reads hdep hlen
  obtain ⟨m, sl, h3, _, h4⟩ := h2 old []
  rw [List.append_nil] at h3
  have h5 := C93_longer _ (taker_deaf K fl f.code) old cut more _ n sd h hs
  obtain ⟨_, rfl⟩ := exec_det h3 h5
  have h6 := (exec_fit (init_inv old cut _) h hs (by simp [initSt])).1
  change 8 * sd.cursor + sd.bit = q.pos at h4
  change 8 * sd.cursor + sd.bit ≤ 8 * cut.length at h6
  rw [List.length_append] at h1
  have := List.length_pos_iff.2 hm
  omega

/-- What C93 asks of a description: its code has no bit fields, padding, optional marks or read-to-end arrays, and its jumps and empty arrays
are those of a compiled program (C82). -/
structure Rigid (f : Sch) : Prop where
  depth : f.depth ≤ 8
  len : f.code.length < 2 ^ 31
  whole : Whole false f.code
  skips : SkipsWell f.code
  firm : FirmCode f.code

/-- Encoding a record of such a description into a buffer that can hold it. -/
theorem giver_calm (K : View) (fl : FloatOps) (f : Sch) (hf : Rigid f) (q : P) (hrec : SRec fl K f ⟨0, false, []⟩ q)
    (old : St Tape) (buf : List Byte) (hb : q.pos ≤ 8 * buf.length) (s : St Tape)
    (hs : Reach { prog := f.code, enc := true, host := giver K, fl := fl } (initSt old buf ⟨[], q.evs⟩) s) : Calm f.code s := by
  obtain ⟨m, sl, h1, h2, _⟩ := C61_packet K fl f hf.depth hf.len q hrec old buf hb
  refine calm_back (EA := { prog := f.code, enc := true, host := giver K, fl := fl })
    (EB := { prog := f.code, enc := true, host := capped (giver K), fl := fl }) (b0 := ⟨[], q.evs⟩)
    ⟨rfl, rfl, rfl, giver_capped K, .inr fun a b key be D p e => ⟨rfl, a, by rw [e]; rfl, rfl⟩⟩ h1 (by rw [h2]; exact evs_calmEv hrec) rfl
    (fun t ht => firm_calm { prog := f.code, enc := true, host := capped (giver K), fl := fl } old buf ⟨[], q.evs⟩ hf.len hf.whole hf.skips
      hf.firm (capped_counts _) t ht) s hs

/-- Decoding the packet of such a record. -/
theorem taker_calm (K : View) (fl : FloatOps) (f : Sch) (hf : Rigid f) (q : P) (pkt : List Byte) (hp : Encoded fl K f q pkt)
    (old : St (List Ev)) (s : St (List Ev))
    (hs : Reach { prog := f.code, enc := false, host := taker K, fl := fl } (initSt old pkt []) s) : Calm f.code s := by
  obtain ⟨m, sl, h1, h2, _⟩ := hp.sees_calmEv hf.depth hf.len old
  refine calm_back (EA := { prog := f.code, enc := false, host := taker K, fl := fl })
    (EB := { prog := f.code, enc := false, host := capped (taker K), fl := fl }) (b0 := [])
    ⟨rfl, rfl, rfl, taker_capped K, .inr fun a b key be D p e => ?_⟩ h1 h2 rfl
    (fun t ht => firm_calm { prog := f.code, enc := false, host := capped (taker K), fl := fl } old pkt [] hf.len hf.whole hf.skips
      hf.firm (capped_counts _) t ht) s hs
  subst e
  simp [taker, capped]

/-- **C93**: for such descriptions encoding a record succeeds exactly if the buffer can hold it. -/
theorem C93_fits_partial (K : View) (fl : FloatOps) (f : Sch) (hf : Rigid f) (q : P) (hrec : SRec fl K f ⟨0, false, []⟩ q)
    (old : St Tape) (buf : List Byte) :
    (∃ n sf, exec { prog := f.code, enc := true, host := giver K, fl := fl } n (initSt old buf ⟨[], q.evs⟩) = .stop .ok sf) ↔
      q.pos ≤ 8 * buf.length := by
  constructor
  · rintro ⟨n, sf, h⟩
    rcases Nat.lt_or_ge (8 * buf.length) q.pos with hb | hb
    · exact absurd h (C93_encode_partial K fl f hf.depth hf.len q hrec old buf hb
        (calm_cut (rest := List.replicate q.pos 0) (giver_deaf K fl f.code) (init_inv old buf _)
          (giver_calm K fl f hf q hrec old (buf ++ List.replicate q.pos 0) (by rw [List.length_append, List.length_replicate]; omega))) n sf)
    · exact hb
  · intro hb
    obtain ⟨n, sf, h, _⟩ := C61_packet K fl f hf.depth hf.len q hrec old buf hb
    exact ⟨n, sf, h⟩

/-- **C93**: of a packet of such a description and the beginnings of it, only the whole is decoded. -/
theorem C93_whole_partial (K : View) (fl : FloatOps) (f : Sch) (hf : Rigid f) (q : P) (cut more : List Byte)
    (hp : Encoded fl K f q (cut ++ more)) (old : St (List Ev)) :
    (∃ n sd, exec { prog := f.code, enc := false, host := taker K, fl := fl } n (initSt old cut []) = .stop .ok sd) ↔ more = [] := by
  constructor
  · rintro ⟨n, sd, h⟩
    by_cases hm : more = []
    · exact hm
    · exact absurd h (C93_decode_partial K fl f hf.depth hf.len q cut more hp hm old
        (calm_cut (rest := more) (taker_deaf K fl f.code) (init_inv old cut _) (taker_calm K fl f hf q _ hp old)) n sd)
  · rintro rfl
    obtain ⟨n, sd, h, _⟩ := (hp.reads hf.depth hf.len).2 old []
    rw [List.append_nil, List.append_nil] at h
    exact ⟨n, sd, h⟩

/-- **C93**, with C66: if the description also passes the check of C66, a record that does not fit ends in an error, and so does a packet
that has been cut off. -/
theorem C93_errors_partial (K : View) (fl : FloatOps) (f : Sch) (hf : Rigid f) :
    (f.tame true = true → ∀ (q : P) (old : St Tape) (buf : List Byte), SRec fl K f ⟨0, false, []⟩ q → 8 * buf.length < q.pos →
      ∃ n e sf, e ≠ .ok ∧
        exec { prog := f.code, enc := true, host := giver K, fl := fl } n (initSt old buf ⟨[], q.evs⟩) = .stop e sf) ∧
    (f.tame false = true → ∀ (q : P) (cut more : List Byte) (old : St (List Ev)), Encoded fl K f q (cut ++ more) → more ≠ [] →
      ∃ n e sd, e ≠ .ok ∧
        exec { prog := f.code, enc := false, host := taker K, fl := fl } n (initSt old cut []) = .stop e sd) := by
  constructor
  · intro ht q old buf hrec hb
    obtain ⟨⟨n, e, sf, h⟩, _⟩ := C66_every_input_partial { prog := f.code, enc := true, host := giver K, fl := fl } f rfl ht hf.len old buf
      (⟨[], q.evs⟩ : Tape)
    refine ⟨n, e, sf, fun he => ?_, h⟩
    subst he
    have := (C93_fits_partial K fl f hf q hrec old buf).1 ⟨n, sf, h⟩
    omega
  · intro ht q cut more old hp hm
    obtain ⟨⟨n, e, sd, h⟩, _⟩ := C66_every_input_partial { prog := f.code, enc := false, host := taker K, fl := fl } f rfl ht hf.len old cut
      ([] : List Ev)
    refine ⟨n, e, sd, fun he => ?_, h⟩
    subst he
    exact hm ((C93_whole_partial K fl f hf q cut more hp old).1 ⟨n, sd, h⟩)

/-- `cnd encode` on the document of such a record, with a buffer that can hold it. -/
theorem json_calm (F : FloatOps) (names : List (List Byte)) (f : Sch) (hf : Rigid f) (hB : NoBulk f.code) (q : P)
    (hrec : SRec F (jsonView F names fun _ => false) f ⟨0, false, []⟩ q) (d : Items)
    (hdoc : DocOf F names (fun _ => false) 0 0 false q.evs d) (hd : d.Distinct false) (old : St JSt) (buf : List Byte)
    (hb : q.pos ≤ 8 * buf.length) (s : St JSt)
    (hs : Reach { prog := f.code, enc := true, host := jsonHost F names true, fl := F } (initSt old buf (JSt.start d)) s) :
    Calm f.code s := by
  obtain ⟨m, sl, h1, h2, _⟩ := C61_packet (jsonView F names fun _ => false) F f hf.depth hf.len q hrec (old.wh ⟨[], []⟩) buf hb
  obtain ⟨hC, k1, k2⟩ := hdoc.clean hd
  exact calm_forth (EA := { prog := f.code, enc := true, host := giver (jsonView F names fun _ => false), fl := F })
    (EB := { prog := f.code, enc := true, host := jsonHost F names true, fl := F }) (b0 := JSt.start d)
    ⟨rfl, rfl, rfl, giver_json (hidApart_none names) hC, .inl hB⟩ h1 (by rw [h2]; exact (List.append_nil _).trans (vis_all _ _).symm)
    ⟨[], q.evs, rfl, rfl, (vis_all _ _).symm, by rw [k1]; rfl⟩
    (giver_calm _ F f hf q hrec (old.wh ⟨[], []⟩) buf hb) s hs

/-- **C93**, for the tool: `cnd encode` on the document of a record that is longer than the output buffer (1024 bytes, cmd_encode.c 26-35)
does not succeed. -/
theorem C93_json_partial (F : FloatOps) (names : List (List Byte)) (f : Sch) (hf : Rigid f) (hB : NoBulk f.code) (q : P)
    (hrec : SRec F (jsonView F names fun _ => false) f ⟨0, false, []⟩ q) (d : Items)
    (hdoc : DocOf F names (fun _ => false) 0 0 false q.evs d) (hd : d.Distinct false) (old : St JSt) (buf : List Byte) :
    (∃ n se, jsonEncode F names f.code n old buf d = .stop .ok se) ↔ q.pos ≤ 8 * buf.length := by
  constructor
  · rintro ⟨n, se, h⟩
    rcases Nat.lt_or_ge (8 * buf.length) q.pos with hb | hb
    · obtain ⟨m, sl, h1, _, h3, _⟩ := C63_packet_partial F names f hf.depth hf.len hB q hrec d hdoc hd old (buf ++ List.replicate q.pos 0)
        (by rw [List.length_append, List.length_replicate]; omega)
      have hs := calm_cut (rest := List.replicate q.pos 0) (json_deaf F names f.code hB) (init_inv old buf (JSt.start d))
        (json_calm F names f hf hB q hrec d hdoc hd old (buf ++ List.replicate q.pos 0)
          (by rw [List.length_append, List.length_replicate]; omega))
      have h4 := C93_longer _ (json_deaf F names f.code hB) old buf (List.replicate q.pos 0) _ n se h hs
      obtain ⟨_, rfl⟩ := exec_det h1 h4
      have h5 := (exec_fit (init_inv old buf _) h hs (by simp [initSt])).1
      change 8 * se.cursor + se.bit = q.pos at h3
      change 8 * se.cursor + se.bit ≤ 8 * buf.length at h5
      omega
    · exact hb
  · intro hb
    obtain ⟨n, se, h, _⟩ := C63_packet_partial F names f hf.depth hf.len hB q hrec d hdoc hd old buf hb
    exact ⟨n, se, h⟩

/-- `cnd decode` that stops where json_binding.c would read outside the packet. -/
def strictHost (F : FloatOps) (names : List (List Byte)) : Host JSt where
  notify := (jsonHost F names false).notify
  scalar := (jsonHost F names false).scalar
  str := (jsonHost F names false).str
  bytesAt s key op be D p :=
    if op = 0x39 then (jsonHost F names false).bytesAt s key op be D p
    else
      match jsonStr op be D p with
      | some t => (true, D, s.add (jsonName names key) (.str t))
      | none => (false, D, s)

theorem jsonArr_ub {enc : Bool} {op : Byte} {name : List Byte} {cell : Word} {s : JSt} : (jsonArr enc op name cell s).2.2.ub = s.ub := by
  unfold jsonArr
  dsimp only
  repeat' split
  all_goals rfl

theorem strict_mimics (F : FloatOps) (names : List (List Byte)) :
    Mimics false (jsonHost F names false) (strictHost F names) (fun s => s.ub = false) (fun a b => b = a) where
  notify := by
    rintro a b key op a' rfl hs _
    exact ⟨a', hs, rfl⟩
  notifyMono := by
    intro a key op ho
    unfold jsonHost at ho
    dsimp only at ho
    split at ho
    · unfold jsonEnter at ho
      rw [if_neg Bool.false_ne_true] at ho
      revert ho
      repeat' split
      all_goals first | exact fun h => h | exact fun h => (add_ub a (jsonName names key) .obj).symm.trans (push_ub h)
    · split at ho
      · revert ho
        unfold jsonExit
        repeat' split
        all_goals exact fun h => h
      · exact ho
  scalar := by
    rintro a b key op v w a' rfl hs _
    exact ⟨a', hs, rfl⟩
  scalarMono := by
    intro a key op v ho
    unfold jsonHost at ho
    dsimp only at ho
    split at ho
    · rw [jsonArr_ub] at ho
      exact ho
    · split at ho
      · revert ho
        unfold jsonQuery
        repeat' split
        all_goals first | exact fun h => h | (intro h; cases h)
      · split at ho
        · rw [if_neg Bool.false_ne_true] at ho
          exact ho
        · revert ho
          unfold jsonPrim
          rw [if_neg Bool.false_ne_true]
          split
          · dsimp only
            rw [add_ub]
            exact fun h => h
          · exact fun h => h
  str := fun h => (by cases h)
  strMono := fun h => (by cases h)
  strNo := fun h => (by cases h)
  bytes := by
    rintro _ a b key op be D p D' a' hop rfl hs ho
    refine ⟨a', ?_, rfl⟩
    unfold jsonHost at hs
    unfold strictHost
    dsimp only at hs ⊢
    rw [if_neg hop] at hs ⊢
    cases hj : jsonStr op be D p with
    | none =>
      rw [hj] at hs
      dsimp only at hs
      injection hs with _ hs
      injection hs with _ hs
      subst hs
      cases ho
    | some t => rw [hj] at hs; exact hs
  bytesMono := by
    intro a key op be D p ho
    unfold jsonHost at ho
    dsimp only at ho
    split at ho
    · dsimp only at ho
      rw [jsonArr_ub] at ho
      exact ho
    · split at ho
      · dsimp only at ho
        rw [add_ub] at ho
        exact ho
      · cases ho
  raw := by
    rintro a b key be D p D' a' rfl hs _
    exact ⟨a', hs, rfl⟩

theorem jsonStr_more {op : Byte} {be : Bool} {D : List Byte} {p : Nat} {t : List Byte} (rest : List Byte) (h : jsonStr op be D p = some t) :
    jsonStr op be (D ++ rest) p = some t := by
  have pre : ∀ (n : Nat) (be : Bool), (if p < n then none
      else if p + (rdWord be ((D.drop (p - n)).take n)).toNat > D.length then none
        else some (((D.drop p).take (rdWord be ((D.drop (p - n)).take n)).toNat).takeWhile (· ≠ 0))) = some t →
      (if p < n then none
      else if p + (rdWord be (((D ++ rest).drop (p - n)).take n)).toNat > (D ++ rest).length then none
        else some ((((D ++ rest).drop p).take (rdWord be (((D ++ rest).drop (p - n)).take n)).toNat).takeWhile (· ≠ 0))) = some t := by
    intro n be h
    split at h
    · cases h
    rename_i hn
    split at h
    · cases h
    rename_i hl
    have e : ((D ++ rest).drop (p - n)).take n = (D.drop (p - n)).take n := by
      rw [List.drop_append_of_le_length (by omega), List.take_append_of_le_length (by rw [List.length_drop]; omega)]
    rw [if_neg hn, e, if_neg (by rw [List.length_append]; omega), ← h, List.drop_append_of_le_length (by omega),
      List.take_append_of_le_length (by rw [List.length_drop]; omega)]
  unfold jsonStr at h ⊢
  dsimp only at h ⊢
  split at h
  · unfold cstrAt at h ⊢
    split at h
    · rename_i hm
      have hp : p ≤ D.length := by
        rcases Nat.le_total p D.length with h1 | h1
        · exact h1
        · rw [List.drop_eq_nil_of_le h1] at hm; cases hm
      rw [List.drop_append_of_le_length hp, if_pos (List.mem_append_left _ hm), ← h]
      congr 1
      apply takeWhile_more
      generalize D.drop p = l at hm
      induction l with
      | nil => cases hm
      | cons x l ih =>
        rw [List.takeWhile_cons]
        split
        · rename_i hx
          rcases List.mem_cons.1 hm with h0 | h0
          · rw [← h0] at hx; simp at hx
          · have := ih h0
            simp only [List.length_cons]
            omega
        · simp
    · cases h
  · exact pre 1 be h
  · exact pre 2 be h
  · exact pre 4 false h

theorem strict_deaf (F : FloatOps) (names : List (List Byte)) (prog : List Byte) (hB : NoBulk prog) :
    Deaf { prog := prog, enc := false, host := strictHost F names, fl := F } := by
  refine ⟨fun h key op be D p rest _ hr => ?_, .inl hB⟩
  unfold strictHost at hr ⊢
  dsimp only at hr ⊢
  by_cases ho : op = 0x39
  · rw [if_pos ho] at hr
    rw [if_pos ho, if_pos ho]
    unfold jsonHost at hr ⊢
    dsimp only at hr ⊢
    rw [if_pos ho] at hr
    rw [if_pos ho, if_pos ho]
    dsimp only at hr ⊢
    rw [hr]
    simp [hostBuf]
  · rw [if_neg ho] at hr
    rw [if_neg ho, if_neg ho]
    cases hj : jsonStr op be D p with
    | none => rw [hj] at hr; cases hr
    | some t =>
      rw [jsonStr_more rest hj]
      simp [hostBuf]

/-- **C93**, for the tool: `cnd decode` on a packet of a record, cut off anywhere, succeeds exactly if nothing is missing (or does something
undefined on the way, such as reading a string outside the packet).
Missing: as above, and descriptions with constants or arrays of single bytes. -/
theorem C93_json_decode_partial (F : FloatOps) (names : List (List Byte)) (f : Sch) (hf : Rigid f) (hB : NoBulk f.code) (q : P)
    (cut more : List Byte) (hp : Encoded F (jsonView F names fun _ => false) f q (cut ++ more)) (d : Items)
    (hdoc : DocOf F names (fun _ => false) 0 0 false q.evs d) (hd : d.Distinct false) (old : St JSt) :
    (∃ n sd, jsonDecode F names f.code n old cut = .stop .ok sd ∧ sd.host.ub = false) ↔ more = [] := by
  obtain ⟨h1, h2⟩ := hp.reads hf.depth hf.len
  obtain ⟨m, sl, h3, h4, h5⟩ := h2 (old.wh []) []
  rw [List.append_nil] at h3
  have h4' : sl.host = q.evs := by rw [← h4]; exact (vis_all _ _).symm
  obtain ⟨b, hb, _, hu⟩ := C63_decode F names (fun _ => false) (hidApart_none names) f.code hB m old (cut ++ more) sl h3 d
    (by rw [h4']; exact hdoc) hd
  constructor
  · rintro ⟨n, sd, h, hub⟩
    by_cases hm : more = []
    · exact hm
    exfalso
    have hS : Same { prog := f.code, enc := false, host := jsonHost F names false, fl := F }
      { prog := f.code, enc := false, host := strictHost F names, fl := F } (fun s => s.ub = false) (fun a b => b = a) :=
      ⟨rfl, rfl, rfl, strict_mimics F names, .inl hB⟩
    -- the whole packet, by the strict reader
    have hJ : ∀ t, Reach { prog := f.code, enc := false, host := jsonHost F names false, fl := F }
        (initSt old (cut ++ more) (JSt.start .nil)) t → Calm f.code t := by
      obtain ⟨hC, k1, k2⟩ := hdoc.clean hd
      exact calm_forth (EA := { prog := f.code, enc := false, host := taker (jsonView F names fun _ => false), fl := F })
        (EB := { prog := f.code, enc := false, host := jsonHost F names false, fl := F }) (b0 := JSt.start .nil)
        ⟨rfl, rfl, rfl, taker_json (hidApart_none names) hC, .inl hB⟩ h3 (by rw [h4']; exact List.prefix_refl _) rfl
        (taker_calm _ F f hf q _ hp (old.wh []))
    have hT := calm_forth hS (b0 := JSt.start .nil) hb hu rfl hJ
    have hN := calm_cut (rest := more) (strict_deaf F names f.code hB) (init_inv old cut (JSt.start .nil)) hT
    obtain ⟨b1, g1, _⟩ := exec_mimics hS h hub (b := JSt.start .nil) rfl
    obtain ⟨b2, g2, _⟩ := exec_mimics hS hb hu (b := JSt.start .nil) rfl
    have g3 := C93_longer _ (strict_deaf F names f.code hB) old cut more (JSt.start .nil) n _ g1 hN
    obtain ⟨_, g4⟩ := exec_det g2 g3
    have g5 := (exec_fit (init_inv old cut (JSt.start .nil)) g1 hN (by simp [initSt])).1
    have e1 : sl.cursor = sd.cursor := congrArg St.cursor g4
    have e2 : sl.bit = sd.bit := congrArg St.bit g4
    change 8 * sd.cursor + sd.bit ≤ 8 * cut.length at g5
    rw [List.length_append] at h1
    have := List.length_pos_iff.2 hm
    omega
  · rintro rfl
    rw [List.append_nil] at hb
    exact ⟨m, _, hb, hu⟩

/-! ### False in general -/

/-- Whether a run ended well in a state with this property. -/
def endsIn (p : St σ → Bool) : Res σ → Bool
  | .stop .ok s => p s
  | _ => false

theorem endsIn_spec {p : St σ → Bool} {r : Res σ} (h : endsIn p r = true) : ∃ s, r = .stop .ok s ∧ p s = true := by
  cases r with
  | stop e s =>
    cases e with
    | ok => exact ⟨s, rfl, h⟩
    | _ => cases h
  | _ => cases h

/-- **C93 is false with bit fields.** A 12-bit field is encoded into one byte, and decoded from the first byte of its packet. -/
theorem C93_false_bits :
    let f : Sch := .fld (.bitU 1 0 12)
    let K : View := .plain fun _ => false
    let q : P := ⟨12, false, [.num 1 0x20 0xABC]⟩
    SRec Soft.fl K f ⟨0, false, []⟩ q ∧
    (∃ n sf, exec { prog := f.code, enc := true, host := giver K, fl := Soft.fl } n (initSt (zeroSt ⟨[], []⟩) [0] ⟨[], q.evs⟩) = .stop .ok sf ∧
      sf.packet = [0xBC]) ∧
    (∃ n sd, exec { prog := f.code, enc := false, host := taker K, fl := Soft.fl } n (initSt (zeroSt []) [0xBC] []) = .stop .ok sd ∧
      sd.host = [.num 1 0x20 0xBC]) := by
  refine ⟨⟨0xABC, by decide, by decide, rfl, rfl⟩, ⟨2, ?_⟩, ⟨2, ?_⟩⟩
  · obtain ⟨s, h1, h2⟩ := endsIn_spec (p := fun s => decide (s.packet = [0xBC]))
      (r := exec { prog := (Sch.fld (.bitU 1 0 12)).code, enc := true, host := giver (.plain fun _ => false), fl := Soft.fl } 2
        (initSt (zeroSt ⟨[], []⟩) [0] ⟨[], [.num 1 0x20 0xABC]⟩)) (by decide +kernel)
    exact ⟨s, h1, of_decide_eq_true h2⟩
  · obtain ⟨s, h1, h2⟩ := endsIn_spec (p := fun s => decide (s.host = [Ev.num 1 0x20 0xBC]))
      (r := exec { prog := (Sch.fld (.bitU 1 0 12)).code, enc := false, host := taker (.plain fun _ => false), fl := Soft.fl } 2
        (initSt (zeroSt []) [0xBC] [])) (by decide +kernel)
    exact ⟨s, h1, of_decide_eq_true h2⟩

/-- **C93 is false with optional fields, when encoding.** A record whose optional second field has the value 7 is encoded into one byte: no
error, and the field is gone. -/
theorem C93_false_optional (fl : FloatOps) :
    let f : Sch := .seq (.fld (.scalar 0x10 1 0)) (.seq .opt (.fld (.scalar 0x10 2 0)))
    let K : View := .plain fun _ => false
    let q : P := ⟨16, false, [.num 1 0x10 5, .num 2 0x10 7]⟩
    SRec fl K f ⟨0, false, []⟩ q ∧
    (∃ n sf, exec { prog := f.code, enc := true, host := giver K, fl := fl } n (initSt (zeroSt ⟨[], []⟩) [0] ⟨[], q.evs⟩) = .stop .ok sf ∧
      sf.packet = [5]) := by
  refine ⟨?_, ⟨4, _, rfl, rfl⟩⟩
  simp only [SRec, Rec]
  exact ⟨_, ⟨1, 5, rfl, ⟨by decide, by decide⟩, rfl, rfl⟩, _, rfl, ⟨1, 7, rfl, ⟨by decide, by decide⟩, rfl, rfl⟩⟩

/-! ### A case -/

/-- A text with a condition, an array with a four-byte count and a string. -/
def exSrc93 : List Byte := word "packet P { u16 id; u8 kind; if (kind == 1) { u16 val; } u16 list[] prefix u32; string s prefix u8; }"

def exNames93 : List (List Byte) := [word "id", word "kind", word "val", word "list", word "s", word "P"]

def exSch93 : Sch :=
  .seq (.fld (.name 5 0)) (.seq (.fld (.scalar 0x11 0 0)) (.seq (.fld (.scalar 0x10 1 0)) (.seq
    (.ite (.bin .eq (.fld 1 0) (.lit 1)) (.fld (.scalar 0x11 2 0)) (.fld .empty))
    (.seq (.arrPre .p4 3 0 (.fld (.scalar 0x11 3 0))) (.fld (.strPre .p1 4 0))))))

theorem ex93_compile : compile demoP 1000 exSrc93 = .image (writeImage exNames93 exSch93.code) := by decide +kernel
theorem ex93_load : (match loadIl (writeImage exNames93 exSch93.code) with | .ok I => I.code | _ => []) = exSch93.code := by decide +kernel
theorem ex93_check : (lexAll (exSrc93.length + 1) (exSrc93 ++ [0]) 1).map (fun toks => Nice false (toks.map Tok.bare) &&
    (match parseTop demoP 1000 (parseStart (toks.map Tok.bare)).adv with
      | .ok s => decide (optimizeStrings s.tab s.out = (s.tab, s.out))
      | _ => true)) = some true := by decide +kernel

theorem ex93_whole : Whole false exSch93.code := by
  obtain ⟨toks, h1, h2⟩ := Option.map_eq_some_iff.mp ex93_check
  rw [Bool.and_eq_true] at h2
  obtain ⟨I, g1, _, g2⟩ := C82_source_partial demoP 1000 exSrc93 _ toks (by decide +kernel) h1 h2.1 (fun s hs => by
    have h3 := h2.2
    rw [hs] at h3
    exact of_decide_eq_true h3) ex93_compile (by decide +kernel)
  have := ex93_load
  rw [g1] at this
  dsimp only at this
  rwa [this] at g2

theorem ex93_rigid : Rigid exSch93 where
  depth := by decide
  len := by decide +kernel
  whole := ex93_whole
  skips := by
    refine C82_skips _ fun x hx => ?_
    have hlt : x < exSch93.code.length := by
      rcases Nat.lt_or_ge x exSch93.code.length with h | h
      · exact h
      · rw [List.getElem?_eq_none h] at hx; cases hx
    have key : ∀ x : Fin exSch93.code.length, exSch93.code[x.val]? = some 0x38 → x.val ∈ flowWalk exSch93.code 100 [0] [] := by decide +kernel
    exact flowWalk_sound _ _ _ _ (fun p hp => by rw [List.mem_singleton.mp hp]; exact .start) (fun p hp => by cases hp) x (key ⟨x, hlt⟩ hx)
  firm := by
    intro p op _ h
    have key : ∀ op ∈ exSch93.code, (decodeOp op).firm = true := by decide +kernel
    exact key op (List.mem_of_getElem? h)

def exEvs93 : List Ev :=
  [.num 0 0x11 258, .num 1 0x10 1, .num 2 0x11 7, .num 3 0x37 2, .num 3 0x11 8, .num 3 0x11 9, .note 0 0x38, .str 4 0x31 [65, 66, 67]]

theorem ex93_rec (fl : FloatOps) : SRec fl (.plain fun _ => false) exSch93 ⟨0, false, []⟩ ⟨8 * 17, false, exEvs93⟩ := by
  unfold exSch93
  simp only [SRec, Rec]
  refine ⟨_, rfl, _, ⟨2, 258, rfl, ⟨by decide, by decide⟩, rfl, rfl⟩, _, ⟨1, 1, rfl, ⟨by decide, by decide⟩, rfl, rfl⟩,
    ⟨8 * 5, false, exEvs93.take 3⟩, ⟨1, ⟨by decide +kernel, by decide⟩, by decide +kernel, ?_⟩, ⟨8 * 13, false, exEvs93.take 7⟩,
    ⟨2, by decide, by decide, rfl, ?_⟩, [65, 66, 67], by unfold NulFree; decide, by decide, rfl⟩
  · rw [if_pos (by decide)]
    exact ⟨2, 7, rfl, ⟨by decide, by decide⟩, rfl, rfl⟩
  · unfold ArrBody
    rw [if_neg (by decide)]
    exact ⟨⟨8 * 13, false, exEvs93.take 6⟩, ⟨_, ⟨2, 8, rfl, ⟨by decide, by decide⟩, rfl, rfl⟩, _, ⟨2, 9, rfl, ⟨by decide, by decide⟩, rfl, rfl⟩, rfl⟩, rfl⟩

/-- The record takes seventeen bytes: it is encoded into seventeen bytes or more only, and in sixteen or fewer there is an error. -/
example (fl : FloatOps) (old : St Tape) (buf : List Byte) :
    (∃ n sf, exec { prog := exSch93.code, enc := true, host := giver (.plain fun _ => false), fl := fl } n (initSt old buf ⟨[], exEvs93⟩)
      = .stop .ok sf) ↔ 8 * 17 ≤ 8 * buf.length :=
  C93_fits_partial _ fl exSch93 ex93_rigid _ (ex93_rec fl) old buf
example (fl : FloatOps) (old : St Tape) (buf : List Byte) (hb : buf.length < 17) :
    ∃ n e sf, e ≠ .ok ∧ exec { prog := exSch93.code, enc := true, host := giver (.plain fun _ => false), fl := fl } n
      (initSt old buf ⟨[], exEvs93⟩) = .stop e sf :=
  (C93_errors_partial _ fl exSch93 ex93_rigid).1 (by decide +kernel) _ old buf (ex93_rec fl) (by dsimp only; omega)
/-- Its packet, cut off anywhere, is refused. -/
example (fl : FloatOps) (cut more : List Byte) (hp : Encoded fl (.plain fun _ => false) exSch93 ⟨8 * 17, false, exEvs93⟩ (cut ++ more))
    (hm : more ≠ []) (old : St (List Ev)) :
    ∃ n e sd, e ≠ .ok ∧ exec { prog := exSch93.code, enc := false, host := taker (.plain fun _ => false), fl := fl } n (initSt old cut [])
      = .stop e sd :=
  (C93_errors_partial _ fl exSch93 ex93_rigid).2 (by decide +kernel) _ cut more old hp hm

theorem ex93_recJ : SRec Soft.fl (jsonView Soft.fl exNames93 fun _ => false) exSch93 ⟨0, false, []⟩ ⟨8 * 17, false, exEvs93⟩ := by
  unfold exSch93
  simp only [SRec, Rec]
  refine ⟨_, rfl, _, ⟨2, 258, rfl, ⟨by decide, by decide⟩, rfl, rfl⟩, _, ⟨1, 1, rfl, ⟨by decide, by decide⟩, rfl, rfl⟩,
    ⟨8 * 5, false, exEvs93.take 3⟩, ⟨1, ⟨by decide +kernel, by decide +kernel⟩, by decide +kernel, ?_⟩, ⟨8 * 13, false, exEvs93.take 7⟩,
    ⟨2, by decide, by decide, rfl, ?_⟩, [65, 66, 67], by unfold NulFree; decide, by decide, rfl⟩
  · rw [if_pos (by decide)]
    exact ⟨2, 7, rfl, ⟨by decide, by decide⟩, rfl, rfl⟩
  · unfold ArrBody
    rw [if_neg (by decide)]
    exact ⟨⟨8 * 13, false, exEvs93.take 6⟩, ⟨_, ⟨2, 8, rfl, ⟨by decide, by decide⟩, rfl, rfl⟩, _, ⟨2, 9, rfl, ⟨by decide, by decide⟩, rfl, rfl⟩, rfl⟩, rfl⟩

theorem ex93_shown : ∀ e ∈ exEvs93, e.shown Soft.fl := by
  intro e he
  simp only [exEvs93, List.mem_cons, List.not_mem_nil, or_false] at he
  rcases he with rfl | rfl | rfl | rfl | rfl | rfl | rfl | rfl
  all_goals first
    | trivial
    | exact ⟨fun _ => by decide, fun h => (by cases h)⟩
    | exact shown_fits Soft.exact rfl (by unfold JsonFits; decide)

/-- The tool: the document of that record is encoded into seventeen bytes or more only. -/
example : ∃ d, DocOf Soft.fl exNames93 (fun _ => false) 0 0 false exEvs93 d ∧ ∀ (old : St JSt) (buf : List Byte),
    (∃ n se, jsonEncode Soft.fl exNames93 exSch93.code n old buf d = .stop .ok se) ↔ 8 * 17 ≤ 8 * buf.length := by
  obtain ⟨d, h1, h2⟩ := C63_document (F := Soft.fl) (names := exNames93) exSch93 (by decide +kernel) _ ex93_recJ ex93_shown
  exact ⟨d, h1, fun old buf => C93_json_partial Soft.fl exNames93 exSch93 ex93_rigid (noBulk_of (by decide +kernel)) _ ex93_recJ d h1 h2 old buf⟩
/-- And its packet is decoded by the tool only if nothing is missing. -/
example (cut more : List Byte) (hp : Encoded Soft.fl (jsonView Soft.fl exNames93 fun _ => false) exSch93 ⟨8 * 17, false, exEvs93⟩ (cut ++ more))
    (old : St JSt) : (∃ n sd, jsonDecode Soft.fl exNames93 exSch93.code n old cut = .stop .ok sd ∧ sd.host.ub = false) ↔ more = [] := by
  obtain ⟨d, h1, h2⟩ := C63_document (F := Soft.fl) (names := exNames93) exSch93 (by decide +kernel) _ ex93_recJ ex93_shown
  exact C93_json_decode_partial Soft.fl exNames93 exSch93 ex93_rigid (noBulk_of (by decide +kernel)) _ cut more hp d h1 h2 old

end Cnd
