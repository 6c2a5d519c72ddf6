import Verif.StrictRuns
import Verif.Props.Curves
/-
  Packet descriptions of fixed layout (for C91): where every accepting decode stands behind each part, whatever the packet holds.
-/

set_option linter.unusedVariables false

namespace Cnd

/-! ### Fixed layouts -/

/-- Position in bits and byte order after `n` rounds of an array whose body is `g`; each round ends at a byte boundary. -/
def roundsOf (g : Nat × Bool → Option (Nat × Bool)) : Nat → Nat × Bool → Option (Nat × Bool)
  | 0, p => some p
  | n + 1, p => (g p).bind fun q => roundsOf g n (up8 q.1, q.2)

/-- The machine may hand the array over in one piece: its body begins with a byte field and the third byte behind the opcode ends the
array (vm_exec.c 331-355). -/
def bulky (code : List Byte) : Bool :=
  (code[0]? == some 0x10 || code[0]? == some 0x14) && (decide (code.length < 3) || (code ++ [0x38])[3]? == some 0x38)

def arrExtent (code : List Byte) (g : Nat × Bool → Option (Nat × Bool)) (n : Nat) (p : Nat × Bool) : Option (Nat × Bool) :=
  if n < 0xFFFFFFFF ∧ nestedFrom code 0 = true then
    if bulky code then (if code.length = 3 then some (up8 p.1 + 8 * n, p.2) else none)
    else roundsOf g n (up8 p.1, p.2)
  else none

/-- Position in bits and byte order behind a description, given those before it; none if they depend on the packet or the host. -/
def Fld.extent : Fld → Nat × Bool → Option (Nat × Bool)
  | .empty, p => some p
  | .seq a b, p => (a.extent p).bind b.extent
  | .scalar op _ _, p => (scalarWidth op.toNat).map fun n => (up8 p.1 + 8 * n, p.2)
  | .range t _ _ lo hi, p => if t.room lo && t.room hi then some (up8 p.1 + 8 * t.size, p.2) else none
  | .enum t _ _ vals, p => if vals.all t.room && decide (vals.length < 2 ^ 16) then some (up8 p.1 + 8 * t.size, p.2) else none
  | .const t _ _ _, p => some (up8 p.1 + 8 * t.size, p.2)
  | .bitU _ _ n, p | .bitI _ _ n, p | .pad n, p => some (p.1 + n.toNat, p.2)
  | .bitBool _ _, p => some (p.1 + 1, p.2)
  | .fill _, p => some (up8 p.1, p.2)
  | .setLE, p => some (p.1, false)
  | .setBE, p => some (p.1, true)
  | .nop, p | .enterBit, p | .exitBit, p | .version _, p | .name _ _, p => some p
  | .struct _ _ f, p => f.extent p
  | .arrFixed _ _ n f, p => arrExtent f.code f.extent n.toNat p
  | .crc c, p => if c.poly.toNat < 2 ^ (8 * c.size) ∧ c.init.toNat < 2 ^ (8 * c.size) ∧ c.xorout.toNat < 2 ^ (8 * c.size) then some (up8 p.1 + 8 * c.size, p.2) else none
  | .strNull .., _ | .strPre .., _ | .arrPre .., _ | .arrDyn .., _ => none

mutual

def Sch.extent : Sch → Nat × Bool → Option (Nat × Bool)
  | .fld f, p => f.extent p
  | .seq a b, p => (a.extent p).bind b.extent
  | .struct _ _ f, p => f.extent p
  | .arrFixed _ _ n f, p => arrExtent f.code f.extent n.toNat p
  | .trans _ _ big t _ _, p => some (up8 p.1 + 8 * t.size, p.2 || big)
  | .curve c big n _ _, p => if c.suits n then some (up8 p.1 + 8 * n.size, p.2 || big) else none
  | .calc _ big tag _ _, p => if p.1 % 8 = 0 then (emitSize (leWord [tag])).map fun n => (p.1 + 8 * n, p.2 || big) else none
  | .ite _ a b, p => (a.extent p).bind fun q => if b.extent p = some q then some q else none
  | .switch _ _ cs, p => (cs.first p).bind fun q =>
      if cs.ends p q && (decide (q = p) || cs.labels.contains none) && decide (cs.labels.length < 2 ^ 16) then some q else none
  | .opt, _ | .arrPre .., _ | .arrDyn .., _ => none

/-- Where the first case ends. -/
def Cases.first : Cases → Nat × Bool → Option (Nat × Bool)
  | .nil, p => some p
  | .cons _ f _, p => f.extent p

/-- All cases end there. -/
def Cases.ends : Cases → Nat × Bool → Nat × Bool → Bool
  | .nil, _, _ => true
  | .cons _ f rest, p, q => decide (f.extent p = some q) && rest.ends p q

end

/-- A host that does not change the packet under the decoder, nor the number of elements of a fixed array. -/
structure Steady {σ : Type} (H : Host σ) : Prop where
  quiet : Quiet H
  count : ∀ h key v, (H.scalar h key 0x34 v).2.1 = v

theorem taker_steady (K : View) : Steady (taker K) where
  quiet := by
    intro h key op be buf p
    simp only [taker]
    split
    · rfl
    · split <;> rfl
  count := by
    intro h key v
    simp only [taker]
    split
    · rfl
    · rw [if_neg (by decide)]

/-! ### Runs -/

section
variable {σ : Type} {E : Env σ} {sf s s' : St σ} {D : List Byte} {p q r : Nat × Bool} {x y code : List Byte}

/-- The decoder stands at a place of the layout; if the packet is too short for it, somewhere behind the packet. -/
structure Site (D : List Byte) (p : Nat × Bool) (s : St σ) : Prop where
  bit : s.bit < 8
  pos : 8 * s.cursor + s.bit = p.1 ∨ (8 * D.length < p.1 ∧ 8 * D.length ≤ 8 * s.cursor + s.bit)
  be : s.be = p.2
  trans : s.trans = .none
  opt : s.opt = false
  buf : s.buf = D

/-- Behind a piece of code of `k` bytes, at a place of the layout. -/
def Led (E : Env σ) (sf : St σ) (D : List Byte) (k : Nat) (q : Nat × Bool) (s : St σ) : Prop :=
  ∃ s', s'.ip = s.ip + k ∧ s'.loops = s.loops ∧ Site D q s' ∧ Acc E sf s'

/-- Every accepting run through the code goes from one place to the other. -/
def Leads (E : Env σ) (sf : St σ) (D : List Byte) (code : List Byte) (p q : Nat × Bool) : Prop :=
  ∀ s, At E.prog s.ip code → Site D p s → Acc E sf s → Led E sf D code.length q s

theorem Leads.nil : Leads E sf D [] p p := fun s _ h ha => ⟨s, rfl, rfl, h, ha⟩

theorem Leads.then (h1 : Leads E sf D x p q) (h2 : Leads E sf D y q r) : Leads E sf D (x ++ y) p r := by
  intro s hat hs ha
  obtain ⟨m, e1, e2, e3, e4⟩ := h1 s hat.left hs ha
  obtain ⟨t, f1, f2, f3, f4⟩ := h2 m (e1 ▸ hat.right) e3 e4
  refine ⟨t, ?_, f2.trans e2, f3, f4⟩
  rw [f1, e1, List.length_append]; omega

/-- One instruction. -/
theorem Leads.one {op : Byte} {rest : List Byte}
    (h : ∀ s, At E.prog s.ip (op :: rest) → Site D p s →
      Pass (fun s' => s'.ip = s.ip + (rest.length + 1) ∧ s'.loops = s.loops ∧ Site D q s') (execOp E op (pre op s))) :
    Leads E sf D (op :: rest) p q := by
  intro s hat hs ha
  have := h s hat hs
  rw [← step_pre hat] at this
  obtain ⟨s', ⟨h1, h2, h3⟩, h4⟩ := acc_step ha this
  exact ⟨s', h1, h2, h3, h4⟩

theorem site_field (hs : Site D p s) : 8 * s.fieldPos = up8 p.1 ∨ (8 * D.length < up8 p.1 ∧ D.length ≤ s.fieldPos) := by
  have hb := hs.bit
  have hle := le_up8 p.1
  unfold St.fieldPos
  rcases hs.pos with h | ⟨h1, h2⟩
  · left
    unfold up8
    split <;> omega
  · right
    refine ⟨by omega, ?_⟩
    split <;> omega

/-- A byte-aligned item of `n` bytes inside the packet. -/
theorem site_took {n : Nat} {b : Bool} (hs : Site D p s) (hn : 0 < n) (hfit : s.fieldPos + n ≤ D.length) (h1 : s'.cursor = s.fieldPos + n)
    (h2 : s'.bit = 0) (h3 : s'.be = b) (h4 : s'.trans = .none) (h5 : s'.opt = false) (h6 : s'.buf = D) :
    Site D (up8 p.1 + 8 * n, b) s' := by
  refine ⟨by omega, ?_, h3, h4, h5, h6⟩
  left
  dsimp only
  rcases site_field hs with h | ⟨_, h⟩ <;> omega

/-- Some bits, perhaps fewer than asked for at the end of the packet. -/
theorem site_bits {n k : Nat} (hs : Site D p s) (hpos : 8 * s'.cursor + s'.bit = 8 * s.cursor + s.bit + k)
    (hk : k = n ∨ (k ≤ n ∧ 8 * D.length ≤ 8 * s'.cursor + s'.bit)) (h2 : s'.bit < 8) (h3 : s'.be = s.be)
    (h4 : s'.trans = s.trans) (h5 : s'.opt = s.opt) (h6 : s'.buf = s.buf) : Site D (p.1 + n, p.2) s' := by
  refine ⟨h2, ?_, h3.trans hs.be, h4.trans hs.trans, h5.trans hs.opt, h6.trans hs.buf⟩
  dsimp only
  rcases hs.pos with h | ⟨h, h'⟩
  · rcases hk with e | ⟨e1, e2⟩
    · left; omega
    · by_cases e : k = n
      · left; omega
      · right; omega
  · right; omega

theorem room_site {len k n : Nat} : room len k n = n ∨ (room len k n ≤ n ∧ 8 * len ≤ k + room len k n) := by
  unfold room; omega

theorem site_move (hs : Site D p s) (h1 : s'.cursor = s.cursor) (h2 : s'.bit = s.bit) (h3 : s'.be = s.be)
    (h4 : s'.trans = s.trans) (h5 : s'.opt = s.opt) (h6 : s'.buf = s.buf) : Site D p s' := by
  refine ⟨h2 ▸ hs.bit, ?_, h3.trans hs.be, h4.trans hs.trans, h5.trans hs.opt, h6.trans hs.buf⟩
  rw [h1, h2]; exact hs.pos

/-! ### Scalars -/

/-- What a scalar field does to the state, under whatever transform. -/
structure Scal (n : Nat) (s s' : St σ) : Prop where
  ip : s'.ip = s.ip + 3
  loops : s'.loops = s.loops
  cur : s'.cursor = s.fieldPos + n
  bit : s'.bit = 0
  be : s'.be = s.be
  trans : s'.trans = .none
  opt : s'.opt = false
  buf : s'.buf = s.buf
  fit : s.fieldPos + n ≤ s.buf.length

theorem scalar_leads (henc : E.enc = false) {op k0 k1 : Byte} {n : Nat} (hop : scalarWidth op.toNat = some n)
    (hat : At E.prog s.ip [op, k0, k1]) (ho : s.opt = false) (ht : op = 0x1A → s.trans = .none) : Pass (Scal n s) (step E s) := by
  obtain ⟨hal, hn0, hn8, hcase⟩ := scalar_dispatch op n hop
  rw [step_pre hat, pre_aligned op s hal]
  unfold execOp
  have cb : ∀ {P : Prop}, Err.callback = Err.ok → P := fun e => by cases e
  rcases hcase with ⟨t, hd, htz, hne⟩ | ⟨hd, rfl, hne⟩ | ⟨hd, rfl, hne⟩ | ⟨hd, rfl, he⟩
  · subst htz
    rw [hd]
    show Pass _ (handlePrim E t op _)
    unfold handlePrim
    refine post_fetB hat.tail rfl (by omega) ?_
    refine post_dite (fun hm => ?_) fun hm => ?_
    · rw [if_neg (by dsimp only; rw [ho]; simp)]
      exact fun e => by cases e
    · have hfit : s.fieldPos + t.size ≤ s.buf.length := by dsimp only at hm; omega
      dsimp only
      rw [henc]
      simp only [Bool.false_eq_true, if_false]
      split
      · refine post_rdAt (fun bs hbs => ?_) fun _ => trivial
        refine post_callScalar (fun h w _ => ?_) fun _ _ _ e => by cases e
        exact ⟨rfl, rfl, rfl, rfl, rfl, rfl, rfl, rfl, hfit⟩
      · refine post_rdAt (fun bs hbs => ?_) fun _ => trivial
        refine post_callScalar (fun h w _ => ?_) fun _ _ _ e => by cases e
        exact ⟨rfl, rfl, rfl, rfl, rfl, rfl, rfl, rfl, hfit⟩
      · refine post_dite (fun _ => trivial) fun _ => ?_
        refine post_rdAt (fun bs hbs => ?_) fun _ => trivial
        refine post_callScalar (fun h w _ => ?_) fun _ _ _ e => by cases e
        exact ⟨rfl, rfl, rfl, rfl, rfl, rfl, rfl, rfl, hfit⟩
      · refine post_dite (fun _ => trivial) fun _ => ?_
        refine post_rdAt (fun bs hbs => ?_) fun _ => trivial
        refine post_callScalar (fun h w _ => ?_) fun _ _ _ e => by cases e
        exact ⟨rfl, rfl, rfl, rfl, rfl, rfl, rfl, rfl, hfit⟩
      · refine post_rdAt (fun bs hbs => ?_) fun _ => trivial
        split
        · trivial
        · refine post_callScalar (fun h w _ => ?_) fun _ _ _ e => by cases e
          exact ⟨rfl, rfl, rfl, rfl, rfl, rfl, rfl, rfl, hfit⟩
  · rw [hd]
    show Pass _ (handleFloat E false op _)
    unfold handleFloat
    refine post_fetB hat.tail rfl (by omega) ?_
    refine post_dite (fun hm => ?_) fun hm => ?_
    · rw [if_neg (by dsimp only; rw [ho]; simp)]
      exact fun e => by cases e
    · have hfit : s.fieldPos + 4 ≤ s.buf.length := by simp only [Bool.false_eq_true, if_false] at hm; omega
      dsimp only
      rw [henc]
      simp only [Bool.false_eq_true, if_false]
      split
      · refine post_rdAt (fun bs hbs => ?_) fun _ => trivial
        refine post_callScalar (fun h w _ => ?_) fun _ _ _ e => by cases e
        exact ⟨rfl, rfl, rfl, rfl, rfl, rfl, rfl, rfl, hfit⟩
      · refine post_rdAt (fun bs hbs => ?_) fun _ => trivial
        refine post_callScalar (fun h w _ => ?_) fun _ _ _ e => by cases e
        exact ⟨rfl, rfl, rfl, rfl, rfl, rfl, rfl, rfl, hfit⟩
      · refine post_rdAt (fun bs hbs => ?_) fun _ => trivial
        split
        · trivial
        · split
          · trivial
          · refine post_callScalar (fun h w _ => ?_) fun _ _ _ e => by cases e
            exact ⟨rfl, rfl, rfl, rfl, rfl, rfl, rfl, rfl, hfit⟩
  · rw [hd]
    show Pass _ (handleFloat E true op _)
    unfold handleFloat
    refine post_fetB hat.tail rfl (by omega) ?_
    refine post_dite (fun hm => ?_) fun hm => ?_
    · rw [if_neg (by dsimp only; rw [ho]; simp)]
      exact fun e => by cases e
    · have hfit : s.fieldPos + 8 ≤ s.buf.length := by simp only [if_true] at hm; omega
      dsimp only
      rw [henc]
      simp only [Bool.false_eq_true, if_false, if_true]
      split
      · refine post_rdAt (fun bs hbs => ?_) fun _ => trivial
        refine post_callScalar (fun h w _ => ?_) fun _ _ _ e => by cases e
        exact ⟨rfl, rfl, rfl, rfl, rfl, rfl, rfl, rfl, hfit⟩
      · refine post_rdAt (fun bs hbs => ?_) fun _ => trivial
        refine post_callScalar (fun h w _ => ?_) fun _ _ _ e => by cases e
        exact ⟨rfl, rfl, rfl, rfl, rfl, rfl, rfl, rfl, hfit⟩
      · refine post_rdAt (fun bs hbs => ?_) fun _ => trivial
        split
        · trivial
        · split
          · trivial
          · refine post_callScalar (fun h w _ => ?_) fun _ _ _ e => by cases e
            exact ⟨rfl, rfl, rfl, rfl, rfl, rfl, rfl, rfl, hfit⟩
  · rw [hd]
    show Pass _ (handleBool E op _)
    unfold handleBool
    refine post_fetB hat.tail rfl (by omega) ?_
    refine post_dite (fun hm => ?_) fun hm => ?_
    · rw [if_neg (by dsimp only; rw [ho]; simp)]
      exact fun e => by cases e
    · have hfit : s.fieldPos + 1 ≤ s.buf.length := by dsimp only at hm; omega
      dsimp only
      rw [henc]
      simp only [Bool.false_eq_true, if_false]
      refine post_rdAt (fun bs hbs => ?_) fun _ => trivial
      refine post_dite (fun _ => fun e => by cases e) fun hb1 => ?_
      refine post_callScalar (fun h w _ => ?_) fun _ _ _ e => by cases e
      exact ⟨rfl, rfl, rfl, rfl, rfl, ht he, rfl, rfl, hfit⟩

theorem Scal.site {n : Nat} (h : Scal n s s') (hn : 0 < n) (hs : Site D p s) : Site D (up8 p.1 + 8 * n, p.2) s' :=
  site_took hs hn (hs.buf ▸ h.fit) h.cur h.bit (h.be.trans hs.be) h.trans h.opt (h.buf.trans hs.buf)

theorem leads_scalar (henc : E.enc = false) {op k0 k1 : Byte} {n : Nat} (hop : scalarWidth op.toNat = some n) :
    Leads E sf D [op, k0, k1] p (up8 p.1 + 8 * n, p.2) := by
  intro s hat hs ha
  obtain ⟨s', h, ha'⟩ := acc_step ha (scalar_leads henc hop hat hs.opt fun _ => hs.trans)
  exact ⟨s', h.ip, h.loops, h.site (scalar_dispatch op n hop).2.1 hs, ha'⟩

/-! ### Checked fields -/

theorem Leads.moved {k : Nat} {m : St σ} (h : Led E sf D k q m) {l : Nat} (hip : m.ip = s.ip + l) (hl : m.loops = s.loops) : Led E sf D (l + k) q s := by
  obtain ⟨t, h1, h2, h3, h4⟩ := h
  exact ⟨t, by rw [h1, hip]; omega, h2.trans hl, h3, h4⟩

theorem fieldAt_here {be : Bool} {D : List Byte} {p n : Nat} (h0 : 0 < n) (h8 : n ≤ 8) (hfit : p + n ≤ D.length) :
    ∃ v : Word, v.toNat < 2 ^ (8 * n) ∧ FieldAt be D p n v.toNat := by
  obtain ⟨w, h1, h2⟩ := fieldAt_exists be D p n h0 h8 hfit
  exact ⟨w, h2, h1⟩

theorem leads_range (henc : E.enc = false) {t : Ty} {k0 k1 : Byte} {lo hi : Word} (hlo : lo.toNat < 2 ^ (8 * t.size))
    (hhi : hi.toNat < 2 ^ (8 * t.size)) : Leads E sf D ([t.tag, k0, k1] ++ rangeCode t lo hi) p (up8 p.1 + 8 * t.size, p.2) := by
  intro s hat hs ha
  have hop : scalarWidth t.tag.toNat = some t.size := by cases t <;> rfl
  obtain ⟨m, h, ha'⟩ := acc_step ha (scalar_leads henc hop hat.left hs.opt fun _ => hs.trans)
  have hm := h.site t.size_pos hs
  have hat2 : At E.prog m.ip (rangeCode t lo hi) := h.ip ▸ hat.right
  have hfit := h.fit
  obtain ⟨v, hv, hfield⟩ := fieldAt_here (be := m.be) (D := m.buf) (p := m.cursor - t.size) t.size_pos t.size_le (by rw [h.cur, h.buf]; omega)
  have hstep := C20_range_check E m t lo hi v hat2 hlo hhi hv (by have := h.cur; omega) hfield
  split at hstep
  · refine ⟨_, ?_, ?_, ?_, acc_run ha' hstep⟩
    · dsimp only
      rw [h.ip]
      simp only [rangeCode, List.length_append, List.length_cons, List.length_nil, leBytes_length]
      omega
    · exact h.loops
    · exact site_move hm rfl rfl rfl rfl rfl rfl
  · obtain ⟨_, hx, _⟩ := acc_step (P := fun _ => False) ha' (by rw [hstep]; exact fun e => by cases e)
    exact hx.elim

theorem leads_enum (henc : E.enc = false) {t : Ty} {k0 k1 : Byte} {vals : List Word} (hvals : ∀ x ∈ vals, x.toNat < 2 ^ (8 * t.size))
    (hn : vals.length < 2 ^ 16) : Leads E sf D ([t.tag, k0, k1] ++ enumCode t vals) p (up8 p.1 + 8 * t.size, p.2) := by
  intro s hat hs ha
  have hop : scalarWidth t.tag.toNat = some t.size := by cases t <;> rfl
  obtain ⟨m, h, ha'⟩ := acc_step ha (scalar_leads henc hop hat.left hs.opt fun _ => hs.trans)
  have hm := h.site t.size_pos hs
  have hat2 : At E.prog m.ip (enumCode t vals) := h.ip ▸ hat.right
  have hfit := h.fit
  have hfp : m.fieldPos = m.cursor := by unfold St.fieldPos; rw [if_pos h.bit]
  obtain ⟨v, hv, hfield⟩ := fieldAt_here (be := m.be) (D := m.buf) (p := m.fieldPos - t.size) t.size_pos t.size_le
    (by rw [hfp, h.cur, h.buf]; omega)
  obtain ⟨hin, hout⟩ := C21_enum_check E m t vals v hat2 hn hvals hv (by have := h.cur; omega) hfield
  by_cases hmem : v ∈ vals
  · refine ⟨_, ?_, ?_, ?_, acc_run ha' (hin hmem)⟩
    · dsimp only
      rw [h.ip, List.length_append]
      simp only [List.length_cons, List.length_nil]
      omega
    · exact h.loops
    · exact site_move hm hfp h.bit.symm rfl rfl rfl rfl
  · obtain ⟨s1, hs1, _⟩ := hout hmem
    obtain ⟨_, hx, _⟩ := acc_step (P := fun _ => False) ha' (by rw [hs1]; exact fun e => by cases e)
    exact hx.elim

theorem leads_const (henc : E.enc = false) {t : Ty} {k0 k1 : Byte} {c : Word} :
    Leads E sf D (constCode t k0 k1 c) p (up8 p.1 + 8 * t.size, p.2) := by
  have hl : (constCode t k0 k1 c).length = 3 + (t.size + 1) := by simp [constCode]; omega
  have : constCode t k0 k1 c = 0x40 :: ([k0, k1] ++ ([t.tag] ++ leBytes t.size c)) := rfl
  rw [this]
  refine Leads.one fun s hat hs => ?_
  rw [pre_aligned 0x40 s rfl]
  show Pass _ (handleConstCheck E _)
  unfold handleConstCheck
  refine post_fetB hat.tail.left rfl (by omega) ?_
  refine post_fetB hat.tail.right.left rfl (by omega) ?_
  rw [tyTag_tag]
  dsimp only
  refine post_fetB hat.tail.right.right (by simp) t.size_pos ?_
  refine post_dite (fun _ => fun e => by cases e) fun hfit => ?_
  rw [henc]
  simp only [Bool.false_eq_true, if_false]
  refine post_rdAt (fun bs hbs => ?_) fun _ => trivial
  refine post_dite (fun _ => fun e => by cases e) fun heq => ?_
  refine post_callScalar (fun h w _ => ?_) fun _ _ _ e => by cases e
  refine ⟨?_, rfl, ?_⟩
  · simp only [List.length_append, List.length_cons, List.length_nil, leBytes_length]; omega
  · exact site_took hs t.size_pos (by have := hs.buf; subst this; dsimp only at hfit; omega) rfl rfl hs.be hs.trans hs.opt hs.buf

/-- What a checksum instruction says about a packet it accepts. -/
theorem crc_leads (henc : E.enc = false) {c : CrcPar} (hok : c.ok) (hat : At E.prog s.ip (crcCode c)) (hs : Site D p s) (ha : Acc E sf s) :
    Led E sf D (crcCode c).length (up8 p.1 + 8 * c.size, p.2) s ∧ up8 p.1 + 8 * c.size ≤ 8 * D.length ∧
      FieldAt p.2 D (up8 p.1 / 8) c.size (c.calc (D.take (up8 p.1 / 8))).toNat := by
  have h0 : 0 < c.size := by unfold CrcPar.size; split <;> omega
  have hP : Pass (fun s' => s'.ip = s.ip + (crcCode c).length ∧ s'.loops = s.loops ∧ s'.cursor = s.fieldPos + c.size ∧ s'.bit = 0 ∧
      s'.be = s.be ∧ s'.trans = s.trans ∧ s'.opt = s.opt ∧ s'.buf = s.buf ∧ s.fieldPos + c.size ≤ s.buf.length) (step E s) := by
    by_cases hpos : s.fieldPos ≤ s.buf.length
    · rw [crc_step hok hat hpos, henc]
      refine post_dite (fun _ => fun e => by cases e) fun hfit => ?_
      simp only [Bool.false_eq_true, if_false]
      refine post_rdAt (fun bs hbs => ?_) fun _ => trivial
      refine post_dite (fun _ => fun e => by cases e) fun heq => ?_
      exact ⟨rfl, rfl, rfl, rfl, rfl, rfl, rfl, rfl, by omega⟩
    · have hal : aligns (if c.w32 then 0x49 else 0x44) = true := by cases c.w32 <;> rfl
      rw [step_pre (op := if c.w32 then 0x49 else 0x44) hat, pre_aligned _ s hal, crc_dispatch]
      unfold handleCrc fet
      dsimp only
      rw [slice_eq_none.2 (by omega)]
      trivial
  obtain ⟨s', ⟨e1, e2, e3, e4, e5, e6, e7, e8, hfit⟩, ha'⟩ := acc_step ha hP
  have hD := hs.buf
  have hup : 8 * s.fieldPos = up8 p.1 := by
    rcases site_field hs with h | ⟨_, h⟩
    · exact h
    · rw [hD] at hfit; omega
  have hdiv : up8 p.1 / 8 = s.fieldPos := by omega
  refine ⟨⟨s', e1, e2, site_took hs h0 (hD ▸ hfit) e3 e4 (e5.trans hs.be) (e6.trans hs.trans) (e7.trans hs.opt) (e8.trans hD), ha'⟩,
    by rw [← hup, ← hD]; omega, ?_⟩
  rw [hdiv, ← hs.be, ← hD]
  apply Classical.byContradiction
  intro hn
  obtain ⟨s1, hst, _⟩ := (C23_crc_decode E henc s c hok hat hfit).2 hn
  obtain ⟨_, hx, _⟩ := acc_step (P := fun _ => False) ha (by rw [hst]; exact fun e => by cases e)
  exact hx

/-! ### Bit fields, byte order, structures -/

theorem leads_bits (henc : E.enc = false) {op k0 k1 n : Byte} (hop : op = 0x20 ∨ op = 0x21) :
    Leads E sf D [op, k0, k1, n] p (p.1 + n.toNat, p.2) := by
  refine Leads.one fun s hat hs => ?_
  have h1 : At E.prog (s.ip + 1) [k0, k1] := At.left (a := [k0, k1]) (b := [n]) hat.tail
  have h2 : At E.prog (s.ip + 1 + 2) [n] := At.right (a := [k0, k1]) (b := [n]) hat.tail
  rcases hop with rfl | rfl
  · rw [pre_unaligned 0x20 s rfl]
    show Pass _ (handleBitU E 0x20 _)
    unfold handleBitU
    refine post_fetB h1 rfl (by omega) ?_
    refine post_fetB h2 rfl (by omega) ?_
    rw [henc, byte_word]
    simp only [Bool.false_eq_true, if_false]
    refine post_getBits (fun v c o hrd hpos => ?_) fun _ => trivial
    refine post_callScalar (fun h w _ => ?_) fun _ _ _ e => by cases e
    obtain ⟨ho, hp⟩ := hpos hs.bit
    have hD := hs.buf
    exact ⟨rfl, rfl, site_bits hs hp (by rw [← hD, hp]; exact room_site) ho rfl rfl rfl rfl⟩
  · rw [pre_unaligned 0x21 s rfl]
    show Pass _ (handleBitI E 0x21 _)
    unfold handleBitI
    refine post_fetB h1 rfl (by omega) ?_
    refine post_fetB h2 rfl (by omega) ?_
    rw [henc, byte_word]
    simp only [Bool.false_eq_true, if_false]
    refine post_getBits (fun v c o hrd hpos => ?_) fun _ => trivial
    split
    · trivial
    · refine post_callScalar (fun h w _ => ?_) fun _ _ _ e => by cases e
      obtain ⟨ho, hp⟩ := hpos hs.bit
      have hD := hs.buf
      exact ⟨rfl, rfl, site_bits hs hp (by rw [← hD, hp]; exact room_site) ho rfl rfl rfl rfl⟩

theorem leads_bitBool (henc : E.enc = false) {k0 k1 : Byte} : Leads E sf D [0x22, k0, k1] p (p.1 + 1, p.2) := by
  refine Leads.one fun s hat hs => ?_
  rw [pre_unaligned 0x22 s rfl]
  show Pass _ (handleBitBool E 0x22 _)
  unfold handleBitBool
  refine post_fetB hat.tail rfl (by omega) ?_
  rw [henc]
  simp only [Bool.false_eq_true, if_false]
  refine post_getBits (fun v c o hrd hpos => ?_) fun _ => trivial
  refine post_callScalar (fun h w _ => ?_) fun _ _ _ e => by cases e
  obtain ⟨ho, hp⟩ := hpos hs.bit
  have hD := hs.buf
  exact ⟨rfl, rfl, site_bits hs hp (by rw [← hD, hp]; exact room_site) ho rfl rfl rfl rfl⟩

theorem leads_pad (henc : E.enc = false) {n : Byte} : Leads E sf D [0x23, n] p (p.1 + n.toNat, p.2) := by
  refine Leads.one fun s hat hs => ?_
  rw [pre_unaligned 0x23 s rfl]
  show Pass _ (handlePad E _)
  unfold handlePad
  refine post_fetB hat.tail rfl (by omega) ?_
  rw [henc, byte_word]
  simp only [Bool.false_eq_true, if_false]
  refine ⟨rfl, rfl, site_bits (k := n.toNat) hs ?_ (.inl rfl) ?_ rfl rfl rfl rfl⟩
  · dsimp only; omega
  · dsimp only; omega

theorem leads_fill (henc : E.enc = false) {n : Byte} : Leads E sf D [0x24, n] p (up8 p.1, p.2) := by
  refine Leads.one fun s hat hs => ?_
  rw [pre_unaligned 0x24 s rfl]
  show Pass _ (handleFill E _)
  unfold handleFill
  refine post_fetB hat.tail rfl (by omega) ?_
  have hb := hs.bit
  have hle := le_up8 p.1
  refine post_dite (fun hb0 => ?_) fun hb0 => ?_
  · rw [henc]
    simp only [Bool.false_eq_true, if_false]
    refine post_getBits (fun v c o hrd hpos => ?_) fun _ => trivial
    obtain ⟨ho, hpp⟩ := hpos hs.bit
    refine ⟨rfl, rfl, ⟨ho, ?_, hs.be, hs.trans, hs.opt, hs.buf⟩⟩
    have hD := hs.buf
    have hr := room_site (len := s.buf.length) (k := 8 * s.cursor + s.bit) (n := 8 - s.bit)
    dsimp only at hpp hb0 ⊢
    rw [hpp]
    rw [hD] at hr ⊢
    have hu : ∀ k, k = 8 * s.cursor + s.bit → up8 k = 8 * s.cursor + s.bit + (8 - s.bit) := by intro k hk; unfold up8; omega
    rcases hs.pos with h | ⟨h, h'⟩
    · rw [hu p.1 h.symm]
      rcases hr with e | ⟨e1, e2⟩
      · left; rw [e]
      · by_cases e : room D.length (8 * s.cursor + s.bit) (8 - s.bit) = 8 - s.bit
        · left; rw [e]
        · right; omega
    · right; omega
  · refine ⟨rfl, rfl, ⟨hs.bit, ?_, hs.be, hs.trans, hs.opt, hs.buf⟩⟩
    dsimp only at hb0 ⊢
    rcases hs.pos with h | ⟨h, h'⟩
    · left; unfold up8; omega
    · right; omega

theorem leads_order {big : Bool} : Leads E sf D [if big then 0x02 else 0x01] p (p.1, big) := by
  refine Leads.one fun s hat hs => ?_
  have hx : execOp E (if big then 0x02 else 0x01) (pre (if big then 0x02 else 0x01) s) = .run { s with ip := s.ip + 1, be := big } := by
    cases big
    · rw [show (if false = true then (0x02 : Byte) else 0x01) = 0x01 from rfl, pre_unaligned 0x01 s rfl]; rfl
    · rw [show (if true = true then (0x02 : Byte) else 0x01) = 0x02 from rfl, pre_unaligned 0x02 s rfl]; rfl
  rw [hx]
  exact ⟨rfl, rfl, ⟨hs.bit, hs.pos, rfl, hs.trans, hs.opt, hs.buf⟩⟩

theorem leads_noop {op : Byte} (h : op = 0x00 ∨ op = 0x25) : Leads E sf D [op] p p := by
  refine Leads.one fun s hat hs => ?_
  rcases h with rfl | rfl
  · rw [pre_unaligned 0x00 s rfl]
    exact ⟨rfl, rfl, site_move hs rfl rfl rfl rfl rfl rfl⟩
  · rw [pre_unaligned 0x25 s rfl]
    exact ⟨rfl, rfl, site_move hs rfl rfl rfl rfl rfl rfl⟩

theorem leads_exitBit : Leads E sf D [0x26] p p := by
  refine Leads.one fun s hat hs => ?_
  rw [pre_unaligned 0x26 s rfl]
  show Pass _ (if _ then _ else _)
  refine post_dite (fun _ => fun e => by cases e) fun _ => ?_
  exact ⟨rfl, rfl, site_move hs rfl rfl rfl rfl rfl rfl⟩

theorem leads_version {b : Byte} : Leads E sf D [0x05, b] p p := by
  refine Leads.one fun s hat hs => ?_
  rw [pre_unaligned 0x05 s rfl]
  show Pass _ (fet E _ 1 fun _ s => .run s)
  refine post_fetB hat.tail rfl (by omega) ?_
  exact ⟨rfl, rfl, site_move hs rfl rfl rfl rfl rfl rfl⟩

theorem leads_name {b0 b1 : Byte} : Leads E sf D [0x07, b0, b1] p p := by
  refine Leads.one fun s hat hs => ?_
  rw [pre_unaligned 0x07 s rfl]
  show Pass _ (fet E _ 2 fun _ s => .run s)
  refine post_fetB hat.tail rfl (by omega) ?_
  exact ⟨rfl, rfl, site_move hs rfl rfl rfl rfl rfl rfl⟩

theorem leads_struct {k0 k1 : Byte} (h : Leads E sf D x p q) : Leads E sf D ([0x03, k0, k1] ++ (x ++ [0x04])) p q := by
  refine Leads.then (q := p) ?_ (h.then ?_)
  · refine Leads.one fun s hat hs => ?_
    rw [pre_unaligned 0x03 s rfl]
    show Pass _ (fet E _ 2 fun key s => callNotify E s key.toNat 0x03 .run)
    refine post_fetB hat.tail rfl (by omega) ?_
    refine post_callNotify (fun h _ => ?_) fun _ _ e => by cases e
    exact ⟨rfl, rfl, site_move hs rfl rfl rfl rfl rfl rfl⟩
  · refine Leads.one fun s hat hs => ?_
    rw [pre_unaligned 0x04 s rfl]
    show Pass _ (callNotify E _ 0 0x04 _)
    refine post_callNotify (fun h _ => ?_) fun _ _ e => by cases e
    exact ⟨rfl, rfl, site_move hs rfl rfl rfl rfl rfl rfl⟩

/-! ### Arrays -/

theorem site_align (hs : Site D p s) (h1 : s'.cursor = s.fieldPos) (h2 : s'.bit = 0) (h3 : s'.be = s.be)
    (h4 : s'.trans = s.trans) (h5 : s'.opt = s.opt) (h6 : s'.buf = s.buf) : Site D (up8 p.1, p.2) s' := by
  refine ⟨by omega, ?_, h3.trans hs.be, h4.trans hs.trans, h5.trans hs.opt, h6.trans hs.buf⟩
  dsimp only
  rcases site_field hs with h | ⟨h, h'⟩
  · left; omega
  · right; omega

theorem up8_up8 (n : Nat) : up8 (up8 n) = up8 n := by unfold up8; omega

/-- The end of a body: another round, or behind the array. -/
theorem arrEnd_leads {f : Frame} {fs : List Frame} (hat : At E.prog s.ip [0x38]) (hl : s.loops = f :: fs) (hf : f.rem ≠ 0xFFFFFFFF)
    (hs : Site D p s) :
    Pass (fun s' => Site D (up8 p.1, p.2) s' ∧ if f.rem - 1 > 0 then s'.ip = f.start ∧ s'.loops = ⟨f.start, f.rem - 1⟩ :: fs
      else s'.ip = s.ip + 1 ∧ s'.loops = fs) (step E s) := by
  rw [step_pre hat, pre_aligned 0x38 s rfl]
  show Pass _ (handleArrEnd E _)
  unfold handleArrEnd
  have he' : (f.rem == 0xFFFFFFFF) = false := by simpa using hf
  simp only [hl, he', if_false, Bool.false_eq_true, decide_eq_true_eq]
  refine post_dite (fun h => ?_) fun h => ?_
  · refine ⟨site_align hs rfl rfl rfl rfl rfl rfl, ?_⟩
    rw [if_pos h]; exact ⟨rfl, rfl⟩
  · refine post_callNotify (fun h' _ => ?_) fun _ _ e => by cases e
    refine ⟨site_align hs rfl rfl rfl rfl rfl rfl, ?_⟩
    rw [if_neg h]; exact ⟨rfl, rfl⟩

theorem rounds_leads {g : Nat × Bool → Option (Nat × Bool)} (hbody : ∀ p q, g p = some q → Leads E sf D code p q) (fs : List Frame) (start : Nat)
    (hat : At E.prog start (code ++ [0x38])) :
    ∀ (n : Nat) (s : St σ) (p q : Nat × Bool), n + 1 < 0xFFFFFFFF → s.ip = start → s.loops = ⟨start, n + 1⟩ :: fs →
      roundsOf g (n + 1) p = some q → Site D p s → Acc E sf s →
      ∃ s', s'.ip = start + (code.length + 1) ∧ s'.loops = fs ∧ Site D q s' ∧ Acc E sf s' := by
  intro n
  induction n with
  | zero =>
    intro s p q hn hip hl hr hs ha
    obtain ⟨m, hm, hr⟩ := Option.bind_eq_some_iff.1 hr
    injection hr with hr
    subst hr
    obtain ⟨t, e1, e2, e3, e4⟩ := hbody p m hm s (hip ▸ hat.left) hs ha
    obtain ⟨u, ⟨f1, f2⟩, f3⟩ := acc_step e4 (arrEnd_leads (e1 ▸ hip ▸ hat.right) (e2.trans hl) (by dsimp only; omega) e3)
    rw [if_neg (by dsimp only; omega)] at f2
    refine ⟨u, ?_, f2.2, f1, f3⟩
    rw [f2.1, e1, hip]; omega
  | succ n ih =>
    intro s p q hn hip hl hr hs ha
    obtain ⟨m, hm, hr⟩ := Option.bind_eq_some_iff.1 hr
    obtain ⟨t, e1, e2, e3, e4⟩ := hbody p m hm s (hip ▸ hat.left) hs ha
    obtain ⟨u, ⟨f1, f2⟩, f3⟩ := acc_step e4 (arrEnd_leads (e1 ▸ hip ▸ hat.right) (e2.trans hl) (by dsimp only; omega) e3)
    rw [if_pos (by dsimp only; omega)] at f2
    exact ih u _ q (by omega) f2.1 f2.2 hr f1 f3

/-- Into an array, over it, or through it in one piece. -/
def Entry (prog : List Byte) (count : Nat) (s s' : St σ) : Prop :=
  (count = 0 ∧ s' = { s with ip := skipBody prog s.ip }) ∨
  (0 < count ∧ ∃ h, s' = { s with host := h, loops := ⟨s.ip, count⟩ :: s.loops }) ∨
  (0 < count ∧ s.cursor + count ≤ s.buf.length ∧ (prog[s.ip]? = some 0x10 ∨ prog[s.ip]? = some 0x14) ∧ prog[s.ip + 3]? = some 0x38 ∧
    ∃ h, s' = { s with host := h, cursor := s.cursor + count, ip := s.ip + 4 })

theorem enter_leads (hH : Quiet E.host) (count : Nat) :
    Pass (Entry E.prog count s) (enterArray E s count) := by
  have hpl : ∀ h, 0 < count → Pass (Entry E.prog count s) (pushLoop { s with host := h } count) := by
    intro h hc
    apply post_pushLoop
    · intro _; exact .inr (.inl ⟨hc, h, rfl⟩)
    · intro _ e; cases e
  unfold enterArray
  refine post_dite (fun h => .inl ⟨h, rfl⟩) fun h0 => ?_
  have hc : 0 < count := by omega
  split
  · rename_i a b ha hb
    refine post_dite (fun h => ?_) fun _ => hpl s.host hc
    simp only [Bool.and_eq_true, Bool.or_eq_true, beq_iff_eq, decide_eq_true_eq] at h
    apply post_callAt
    · intro h' b' e
      rw [hostBuf_quiet hH e, hostBuf_self]
      refine .inr (.inr ⟨hc, h.2, ?_, by rw [hb, h.1.2], h', rfl⟩)
      rcases h.1.1 with h | h
      · left; rw [ha, h]
      · right; rw [ha, h]
    · intro h' b' e
      rw [hostBuf_quiet hH e, hostBuf_self]
      exact hpl h' hc
  · exact hpl s.host hc

theorem At.get {prog bs : List Byte} {ip i : Nat} (h : At prog ip bs) (hi : i < bs.length) : prog[ip + i]? = bs[i]? := by
  obtain ⟨rest, hr⟩ := h
  rw [← List.getElem?_drop, hr, List.getElem?_append_left hi]

/-- One piece of bytes. -/
theorem rounds_bytes (n : Nat) (p : Nat × Bool) (h : p.1 % 8 = 0) :
    roundsOf (fun p => some (up8 p.1 + 8, p.2)) n p = some (p.1 + 8 * n, p.2) := by
  induction n generalizing p with
  | zero => rfl
  | succ n ih =>
    unfold roundsOf
    simp only [Option.bind_some]
    rw [ih]
    · simp only [Option.some.injEq, Prod.mk.injEq, and_true]
      unfold up8
      omega
    · show up8 _ % 8 = 0
      unfold up8; omega

theorem leads_arrFixed (hH : Steady E.host) (henc : E.enc = false) {k0 k1 : Byte} {n : Word} {g : Nat × Bool → Option (Nat × Bool)}
    (hbody : ∀ p q, g p = some q → Leads E sf D code p q) (hx : arrExtent code g n.toNat p = some q) :
    Leads E sf D (([0x34, k0, k1] ++ leBytes 4 n) ++ (code ++ [0x38])) p q := by
  intro s hat hs ha
  have hat0 : At E.prog s.ip (0x34 :: ([k0, k1] ++ leBytes 4 n)) := hat.left
  have hat1 := hat.right
  simp only [List.length_append, List.length_cons, List.length_nil, leBytes_length] at hat1
  unfold arrExtent at hx
  split at hx
  · rename_i hc
    obtain ⟨hn, hnest⟩ := hc
    have hP : Pass (fun s' => ∃ s0 : St σ, Entry E.prog n.toNat s0 s' ∧ s0.ip = s.ip + 7 ∧ s0.loops = s.loops ∧
        Site D (up8 p.1, p.2) s0 ∧ s0.bit = 0) (step E s) := by
      rw [step_pre hat0, pre_aligned 0x34 s rfl]
      show Pass _ (handleArrFixed E 0x34 _)
      unfold handleArrFixed
      refine post_fetB hat0.tail.left rfl (by omega) ?_
      refine post_fetB (bs := leBytes 4 n) hat0.tail.right (by simp) (by omega) ?_
      refine post_callScalar (fun h w e => ?_) fun _ _ _ e => by cases e
      have hw := hH.count s.host (leWord [k0, k1]).toNat (leWord (leBytes 4 n))
      dsimp only at e
      rw [e] at hw
      dsimp only at hw
      rw [hw, leWord_leBytes_lt (by omega) (by omega), truncB_of_lt 4 n (by omega)]
      exact pass_imp (enter_leads hH.quiet _) fun s' h' =>
        ⟨_, h', rfl, rfl, (by exact site_align hs rfl rfl rfl rfl rfl rfl), rfl⟩
    obtain ⟨s', ⟨s0, hcase, i1, i2, i3, i4⟩, ha'⟩ := acc_step ha hP
    have hlen : (([0x34, k0, k1] ++ leBytes 4 n) ++ (code ++ [0x38])).length = 7 + (code.length + 1) := by simp; omega
    rw [hlen]
    have hat2 : At E.prog s0.ip (code ++ [0x38]) := i1 ▸ hat1
    have h2 : ∀ (g' : Nat × Bool → Option (Nat × Bool)) (hb' : ∀ p q, g' p = some q → Leads E sf D code p q)
        (hr : roundsOf g' n.toNat (up8 p.1, p.2) = some q) (h : σ) (h0 : 0 < n.toNat)
        (ha' : Acc E sf { s0 with host := h, loops := ⟨s0.ip, n.toNat⟩ :: s0.loops }), Led E sf D (7 + (code.length + 1)) q s := by
      intro g' hb' hr h h0 ha'
      obtain ⟨m, hm⟩ : ∃ m, n.toNat = m + 1 := ⟨n.toNat - 1, by omega⟩
      rw [hm] at hr ha'
      obtain ⟨t, e1, e2, e3, e4⟩ := rounds_leads hb' s0.loops s0.ip hat2 m
        { s0 with host := h, loops := ⟨s0.ip, m + 1⟩ :: s0.loops } _ q (by omega) rfl rfl hr (site_move i3 rfl rfl rfl rfl rfl rfl) ha'
      exact ⟨t, by rw [e1, i1]; omega, e2.trans i2, e3, e4⟩
    have h1 : (n.toNat = 0 → q = (up8 p.1, p.2)) → n.toNat = 0 → Acc E sf { s0 with ip := skipBody E.prog s0.ip } →
        Led E sf D (7 + (code.length + 1)) q s := by
      intro hq h0 ha'
      refine ⟨{ s0 with ip := skipBody E.prog s0.ip }, ?_, i2, ?_, ha'⟩
      · dsimp only
        rw [skipBody_nestedFrom hnest hat2, i1]; omega
      · rw [hq h0]
        exact site_move i3 rfl rfl rfl rfl rfl rfl
    split at hx
    · rename_i hbk
      split at hx
      · rename_i hl3
        injection hx with hx
        subst hx
        rcases hcase with ⟨h0, rfl⟩ | ⟨h0, h, rfl⟩ | ⟨h0, hfit, _, _, h, rfl⟩
        · exact h1 (fun h => by rw [h]; rfl) h0 ha'
        · obtain ⟨o, a, b, hcode⟩ : ∃ o a b, code = [o, a, b] := by
            match code, hl3 with
            | [o, a, b], _ => exact ⟨o, a, b, rfl⟩
          have hw : scalarWidth o.toNat = some 1 := by
            rw [hcode] at hbk
            simp only [bulky, List.getElem?_cons_zero, Bool.and_eq_true, Bool.or_eq_true, beq_iff_eq, Option.some.injEq] at hbk
            rcases hbk.1 with rfl | rfl <;> rfl
          refine h2 (fun p => some (up8 p.1 + 8, p.2)) ?_ (rounds_bytes _ _ (by show up8 _ % 8 = 0; unfold up8; omega)) h h0 ha'
          intro p q e
          injection e with e
          subst e
          rw [hcode]
          exact leads_scalar henc hw
        · refine ⟨{ s0 with host := h, cursor := s0.cursor + n.toNat, ip := s0.ip + 4 }, ?_, i2, ?_, ha'⟩
          · dsimp only
            rw [i1, hl3]
          · have hD := i3.buf
            refine ⟨i3.bit, ?_, i3.be, i3.trans, i3.opt, i3.buf⟩
            left
            have := i3.pos
            dsimp only at this ⊢
            rw [hD] at hfit
            omega
      · cases hx
    · rename_i hbk
      rcases hcase with ⟨h0, rfl⟩ | ⟨h0, h, rfl⟩ | ⟨h0, hfit, ho, h38, h, rfl⟩
      · refine h1 (fun h => ?_) h0 ha'
        rw [h] at hx
        injection hx with hx
        exact hx.symm
      · exact h2 g hbody hx h h0 ha'
      · exfalso
        apply hbk
        have hc0 : code ≠ [] := by
          rintro rfl
          have := hat2.get (i := 0) (by simp)
          rw [Nat.add_zero] at this
          rw [this] at ho
          simp at ho
        have hpos : 0 < code.length := List.length_pos_iff.2 hc0
        have e0 := hat2.get (i := 0) (by simp)
        rw [Nat.add_zero, List.getElem?_append_left hpos] at e0
        have hge : 3 < (code ++ [0x38]).length := by
          apply Classical.byContradiction
          intro hlt
          simp only [List.length_append, List.length_cons, List.length_nil] at hlt
          rw [e0] at ho
          apply hbk
          simp only [bulky, Bool.and_eq_true, Bool.or_eq_true, beq_iff_eq, decide_eq_true_eq]
          exact ⟨ho, .inl (by omega)⟩
        have e3 := hat2.get (i := 3) hge
        rw [e0] at ho
        rw [e3] at h38
        simp only [bulky, Bool.and_eq_true, Bool.or_eq_true, beq_iff_eq]
        exact ⟨ho, .inr h38⟩
  · cases hx

theorem fld_leads (hH : Steady E.host) (henc : E.enc = false) (f : Fld) : ∀ p q, f.extent p = some q → Leads E sf D f.code p q := by
  induction f with
  | empty => intro p q h; injection h with h; subst h; exact Leads.nil
  | seq f g ihf ihg =>
    intro p q h
    obtain ⟨r, h1, h2⟩ := Option.bind_eq_some_iff.1 h
    exact (ihf _ _ h1).then (ihg _ _ h2)
  | scalar op k0 k1 =>
    intro p q h
    obtain ⟨n, hn, rfl⟩ := Option.map_eq_some_iff.1 h
    exact leads_scalar henc hn
  | range t k0 k1 lo hi =>
    intro p q h
    unfold Fld.extent at h
    split at h
    · rename_i hc
      injection h with h; subst h
      simp only [Bool.and_eq_true, Ty.room, decide_eq_true_eq] at hc
      exact leads_range henc hc.1 hc.2
    · cases h
  | enum t k0 k1 vals =>
    intro p q h
    unfold Fld.extent at h
    split at h
    · rename_i hc
      injection h with h; subst h
      simp only [Bool.and_eq_true, List.all_eq_true, Ty.room, decide_eq_true_eq] at hc
      exact leads_enum henc hc.1 hc.2
    · cases h
  | const t k0 k1 x => intro p q h; injection h with h; subst h; exact leads_const henc
  | strNull k0 k1 m0 m1 => intro p q h; cases h
  | strPre r k0 k1 => intro p q h; cases h
  | bitU k0 k1 n => intro p q h; injection h with h; subst h; exact leads_bits henc (.inl rfl)
  | bitI k0 k1 n => intro p q h; injection h with h; subst h; exact leads_bits henc (.inr rfl)
  | bitBool k0 k1 => intro p q h; injection h with h; subst h; exact leads_bitBool henc
  | pad n => intro p q h; injection h with h; subst h; exact leads_pad henc
  | fill n => intro p q h; injection h with h; subst h; exact leads_fill henc
  | setLE => intro p q h; injection h with h; subst h; exact leads_order (big := false)
  | setBE => intro p q h; injection h with h; subst h; exact leads_order (big := true)
  | nop => intro p q h; injection h with h; subst h; exact leads_noop (.inl rfl)
  | enterBit => intro p q h; injection h with h; subst h; exact leads_noop (.inr rfl)
  | exitBit => intro p q h; injection h with h; subst h; exact leads_exitBit
  | version x => intro p q h; injection h with h; subst h; exact leads_version
  | name x y => intro p q h; injection h with h; subst h; exact leads_name
  | struct k0 k1 f ih => intro p q h; exact leads_struct (ih _ _ h)
  | arrFixed k0 k1 n f ih => intro p q h; exact leads_arrFixed hH henc ih h
  | arrPre r k0 k1 f ih => intro p q h; cases h
  | arrDyn k0 k1 r0 r1 f ih => intro p q h; cases h
  | crc c =>
    intro p q h
    unfold Fld.extent at h
    split at h
    · rename_i hc
      injection h with h; subst h
      exact fun s hat hs ha => (crc_leads henc hc hat hs ha).1
    · cases h

/-! ### Expressions -/

theorem expr_leads (e : IExpr) : ∀ s : St σ, At E.prog s.ip e.code → Acc E sf s →
    ∃ w h, Acc E sf { s with ip := s.ip + e.code.length, stack := w :: s.stack, host := h } := by
  induction e with
  | lit l =>
    intro s hat ha
    have hat' : At E.prog s.ip (0x61 :: leBytes 8 l) := hat
    have hP : Pass (fun s' => ∃ w, s' = { s with ip := s.ip + 9, stack := w :: s.stack, host := s.host }) (step E s) := by
      rw [step_pre hat', pre_unaligned _ s rfl]
      show Pass _ (fet E _ 8 fun w s => push s w)
      refine post_fetB hat'.tail (by simp) (by omega) ?_
      apply post_push
      · intro _; exact ⟨_, rfl⟩
      · intro _ e; cases e
    obtain ⟨s', ⟨w, rfl⟩, ha'⟩ := acc_step ha hP
    refine ⟨w, s.host, ?_⟩
    simpa only [IExpr.code, List.length_cons, leBytes_length] using ha'
  | fld k0 k1 =>
    intro s hat ha
    have hat' : At E.prog s.ip (0x60 :: [k0, k1]) := hat
    have hP : Pass (fun s' => ∃ w h, s' = { s with ip := s.ip + 3, stack := w :: s.stack, host := h }) (step E s) := by
      rw [step_pre hat', pre_unaligned _ s rfl]
      show Pass _ (handleLoadCtx E 0x60 _)
      unfold handleLoadCtx
      refine post_fetB hat'.tail rfl (by omega) ?_
      refine post_callScalar (fun h w _ => ?_) fun _ _ _ e => by cases e
      apply post_push
      · intro _; exact ⟨_, _, rfl⟩
      · intro _ e; cases e
    obtain ⟨s', ⟨w, h, rfl⟩, ha'⟩ := acc_step ha hP
    exact ⟨w, h, ha'⟩
  | un o e ih =>
    intro s hat ha
    have hat' : At E.prog s.ip (e.code ++ [o.byte]) := hat
    obtain ⟨w, h, ha1⟩ := ih s hat'.left ha
    have hP : Pass (fun s' => ∃ z, s' = { s with ip := s.ip + (e.code.length + 1), stack := z :: s.stack, host := h })
        (step E { s with ip := s.ip + e.code.length, stack := w :: s.stack, host := h }) := by
      rw [un_runs (o := o) hat'.right]
      unfold unary
      dsimp only
      apply post_aluDone
      · intro z hz
        apply post_push
        · intro _; exact ⟨z, rfl⟩
        · intro _ e; cases e
      · intro e he h
        subst h
        have := iun_value E.fl o w
        rw [he] at this
        cases hr : o.value w.toNat <;> rw [hr] at this <;> first | exact this.elim | cases this
      · intro _ _; trivial
    obtain ⟨s', ⟨z, rfl⟩, ha'⟩ := acc_step ha1 hP
    refine ⟨z, h, ?_⟩
    simpa only [IExpr.code, List.length_append, List.length_cons, List.length_nil, Nat.zero_add] using ha'
  | bin o l r ihl ihr =>
    intro s hat ha
    have hat' : At E.prog s.ip (l.code ++ (r.code ++ [o.byte])) := hat
    obtain ⟨w, h, ha1⟩ := ihl s hat'.left ha
    obtain ⟨v, h', ha2⟩ := ihr _ hat'.right.left ha1
    have hP : Pass (fun s' => ∃ z, s' = { s with ip := s.ip + (l.code.length + (r.code.length + 1)), stack := z :: s.stack, host := h' })
        (step E { s with ip := s.ip + l.code.length + r.code.length, stack := v :: w :: s.stack, host := h' }) := by
      rw [bin_runs (o := o) hat'.right.right]
      unfold binary
      dsimp only
      apply post_aluDone
      · intro z hz
        apply post_push
        · intro _
          refine ⟨z, ?_⟩
          dsimp only
          congr 1
          omega
        · intro _ e; cases e
      · intro e he h
        subst h
        have := ibin_value o w v
        rw [he] at this
        cases hr : o.value w.toNat v.toNat <;> rw [hr] at this <;> first | exact this.elim | cases this
      · intro _ _; trivial
    obtain ⟨s', ⟨z, rfl⟩, ha'⟩ := acc_step ha2 hP
    refine ⟨z, h', ?_⟩
    simpa only [IExpr.code, List.length_append, List.length_cons, List.length_nil, Nat.zero_add] using ha'

theorem big_leads {big : Bool} {m : St σ} (hat : At E.prog m.ip (if big then [0x02] else [])) (ha : Acc E sf m) :
    Acc E sf { m with ip := m.ip + (if big then [(0x02 : Byte)] else []).length, be := m.be || big } := by
  cases big with
  | false => simpa using ha
  | true =>
    have := acc_run ha (setBE_step hat)
    simpa using this

/-- A field under a transform that has been loaded. -/
theorem pend_leads (henc : E.enc = false) {big : Bool} {op k0 k1 : Byte} {n k : Nat} {m : St σ} (hop : scalarWidth op.toNat = some n)
    (hne : op ≠ 0x1A) (hs : Site D p s) (hip : m.ip = s.ip + k) (hl : m.loops = s.loops) (hfp : m.fieldPos = s.fieldPos) (hbe : m.be = s.be)
    (ho : m.opt = s.opt) (hb : m.buf = s.buf) (hat : At E.prog m.ip ((if big then [0x02] else []) ++ [op, k0, k1])) (ha : Acc E sf m) :
    Led E sf D (k + ((if big then [(0x02 : Byte)] else []).length + 3)) (up8 p.1 + 8 * n, p.2 || big) s := by
  have ha2 := big_leads (big := big) hat.left ha
  have hat3 := hat.right
  generalize hB : (if big then [(0x02 : Byte)] else []).length = B at ha2 hat3
  obtain ⟨s', h, ha'⟩ := acc_step ha2 (scalar_leads (s := { m with ip := m.ip + B, be := m.be || big }) henc hop hat3 (ho.trans hs.opt)
    fun e => absurd e hne)
  have hfp' : St.fieldPos { m with ip := m.ip + B, be := m.be || big } = s.fieldPos := hfp
  have hfit := h.fit
  rw [hfp'] at hfit
  refine ⟨s', ?_, h.loops.trans hl, ?_, ha'⟩
  · rw [h.ip]; dsimp only; omega
  · refine site_took hs (scalar_dispatch op n hop).2.1 ?_ (h.cur.trans (by rw [hfp'])) h.bit ?_ h.trans h.opt ?_
    · rw [← hs.buf, ← hb]; exact hfit
    · rw [h.be]; dsimp only; rw [hbe, hs.be]
    · exact h.buf.trans (hb.trans hs.buf)

theorem leads_trans (henc : E.enc = false) {x : ITrans} {c0 : Word} {big : Bool} {t : Ty} {k0 k1 : Byte} :
    Leads E sf D (Sch.trans x c0 big t k0 k1).code p (up8 p.1 + 8 * t.size, p.2 || big) := by
  intro s hat hs ha
  have hl9 : ([x.op] ++ leBytes 8 c0).length = 9 := by simp
  have hat0 : At E.prog s.ip (([x.op] ++ leBytes 8 c0) ++ ((if big then [0x02] else []) ++ [t.tag, k0, k1])) := by
    unfold Sch.code at hat; exact hat
  have hat2 : At E.prog (s.ip + 9) ((if big then [0x02] else []) ++ [t.tag, k0, k1]) := hl9 ▸ hat0.right
  have ha1 := acc_run ha (trans_step hat0.left)
  have hop : scalarWidth t.tag.toNat = some t.size := by cases t <;> rfl
  have := pend_leads henc (k := 9) hop (by cases t <;> decide) hs (m := { s with ip := s.ip + 9, trans := x.tr, iVal := c0 }) rfl rfl rfl rfl rfl rfl hat2 ha1
  have hlen : (Sch.trans x c0 big t k0 k1).code.length = 9 + ((if big then [(0x02 : Byte)] else []).length + 3) := by
    simp only [Sch.code, List.length_append, List.length_cons, List.length_nil, leBytes_length]
  rw [hlen]
  exact this

theorem leads_curve (henc : E.enc = false) {c : Curve} {big : Bool} {n : Num} {k0 k1 : Byte} (hc : c.suits n = true) :
    Leads E sf D (Sch.curve c big n k0 k1).code p (up8 p.1 + 8 * n.size, p.2 || big) := by
  intro s hat hs ha
  have hat0 : At E.prog s.ip (c.code ++ ((if big then [0x02] else []) ++ [n.tag, k0, k1])) := by
    unfold Sch.code at hat; exact hat
  have ha1 := acc_run ha (curve_step hat0.left hc).1
  have hop : scalarWidth n.tag.toNat = some n.size := by
    cases n with
    | int t => cases t <;> rfl
    | flt d => cases d <;> rfl
  have hne : n.tag ≠ 0x1A := by
    cases n with
    | int t => cases t <;> decide
    | flt d => cases d <;> decide
  have hfm : ∀ cs : List Word, (cs.flatMap (leBytes 8)).length = 8 * cs.length := by
    intro cs
    induction cs with
    | nil => rfl
    | cons a cs ih => rw [List.flatMap_cons, List.length_append, ih, leBytes_length, List.length_cons]; omega
  have hip : (c.load s).ip = s.ip + c.code.length := by
    cases c with
    | scale a b => simp [Curve.load, Curve.code]
    | poly cs => simp only [Curve.load, Curve.code, List.length_append, hfm, List.length_cons, List.length_nil]
    | spline ps => simp only [Curve.load, Curve.code, List.length_append, hfm, List.length_cons, List.length_nil]
  have hfp : (c.load s).fieldPos = s.fieldPos := by cases c <;> rfl
  have h1 : (c.load s).loops = s.loops := by cases c <;> rfl
  have h2 : (c.load s).be = s.be := by cases c <;> rfl
  have h3 : (c.load s).opt = s.opt := by cases c <;> rfl
  have h4 : (c.load s).buf = s.buf := by cases c <;> rfl
  have := pend_leads henc hop hne hs hip h1 hfp h2 h3 h4 (hip ▸ hat0.right) ha1
  have hlen : (Sch.curve c big n k0 k1).code.length = c.code.length + ((if big then [(0x02 : Byte)] else []).length + 3) := by
    simp only [Sch.code, List.length_append, List.length_cons, List.length_nil]
  rw [hlen]
  exact this

theorem leads_calc (henc : E.enc = false) {e : IExpr} {big : Bool} {tag k0 k1 : Byte} {n : Nat} (h0 : p.1 % 8 = 0)
    (hn : emitSize (leWord [tag]) = some n) : Leads E sf D (Sch.calc e big tag k0 k1).code p (p.1 + 8 * n, p.2 || big) := by
  intro s hat hs ha
  have hat0 : At E.prog s.ip (e.code ++ ((if big then [0x02] else []) ++ ([0x64] ++ ([0x78, k0, k1] ++ [0x65, tag])))) := by
    unfold Sch.code at hat; exact hat
  obtain ⟨w, h, ha1⟩ := expr_leads e s hat0.left ha
  have ha2 := big_leads (big := big) (m := { s with ip := s.ip + e.code.length, stack := w :: s.stack, host := h }) hat0.right.left ha1
  have hat2 := hat0.right.right
  dsimp only at ha2
  generalize hB : (if big then [(0x02 : Byte)] else []).length = B at ha2 hat2
  have hat3 := hat2.right
  have hat4 := hat3.right
  simp only [List.length_cons, List.length_nil, Nat.zero_add] at hat3 hat4
  have hP1 : Pass (fun s' => s' = { s with ip := s.ip + e.code.length + B + 1, stack := w :: w :: s.stack, be := s.be || big, host := h })
      (step E { s with ip := s.ip + e.code.length + B, stack := w :: s.stack, be := s.be || big, host := h }) := by
    rw [step_pre hat2.left, pre_unaligned 0x64 _ rfl]
    show Pass _ (push _ w)
    apply post_push
    · intro _; rfl
    · intro _ e; cases e
  obtain ⟨_, rfl, ha3⟩ := acc_step ha2 hP1
  have hP2 : Pass (fun s' => ∃ h', s' = { s with ip := s.ip + e.code.length + B + 1 + 3, stack := w :: s.stack, be := s.be || big, host := h' })
      (step E { s with ip := s.ip + e.code.length + B + 1, stack := w :: w :: s.stack, be := s.be || big, host := h }) := by
    rw [step_pre hat3.left, pre_unaligned 0x78 _ rfl]
    show Pass _ (handleStoreCtx E 0x78 _)
    unfold handleStoreCtx
    refine post_fetB hat3.left.tail rfl (by omega) ?_
    dsimp only
    refine post_callScalar (fun h' w _ => ?_) fun _ _ _ e => by cases e
    exact ⟨_, rfl⟩
  obtain ⟨_, ⟨h', rfl⟩, ha4⟩ := acc_step ha3 hP2
  have hP3 : Pass (fun s' => s.cursor + n ≤ s.buf.length ∧
        s' = { s with ip := s.ip + e.code.length + B + 1 + 3 + 2, be := s.be || big, cursor := s.cursor + n, host := h' })
      (step E { s with ip := s.ip + e.code.length + B + 1 + 3, stack := w :: s.stack, be := s.be || big, host := h' }) := by
    rw [step_pre hat4, pre_unaligned 0x65 _ rfl]
    show Pass _ (handleEmit E _)
    unfold handleEmit
    refine post_fetB hat4.tail rfl (by omega) ?_
    dsimp only
    rw [hn]
    dsimp only
    refine post_dite (fun _ => fun e => by cases e) fun hc => ?_
    rw [henc]
    simp only [Bool.false_eq_true, if_false]
    refine post_rdAt (fun bs hbs => ?_) fun _ => trivial
    refine post_dite (fun _ => fun e => by cases e) fun hb => ?_
    exact ⟨by omega, rfl⟩
  obtain ⟨_, ⟨hfit, rfl⟩, ha5⟩ := acc_step ha4 hP3
  have hb := hs.bit
  have hn0 : 0 < n := by
    unfold emitSize at hn
    split at hn <;> first | (injection hn with hn; omega) | cases hn
  refine ⟨_, ?_, ?_, ?_, ha5⟩
  · simp only [Sch.code, List.length_append, hB, List.length_cons, List.length_nil]
    omega
  · rfl
  · refine ⟨hs.bit, ?_, ?_, hs.trans, hs.opt, hs.buf⟩
    · left
      have hD := hs.buf
      rw [hD] at hfit
      dsimp only
      rcases hs.pos with h | ⟨h, h'⟩ <;> omega
    · dsimp only; rw [hs.be]

/-! ### Choices -/

theorem jumpIfNot_leads {r : Nat} {w : Word} {rest : List Word} (hat : At E.prog s.ip (0x50 :: u32le r)) (hst : s.stack = w :: rest)
    (hr : r < 2 ^ 31) (hle : s.ip + 5 + r ≤ E.prog.length) :
    step E s = .run { s with ip := if w = 0 then s.ip + 5 + r else s.ip + 5, stack := rest } := by
  rw [step_pre hat, pre_unaligned 0x50 _ rfl]
  show handleJumpIfNot E _ = _
  unfold handleJumpIfNot
  refine fet_ok hat.tail (by simp) (by omega) ?_
  dsimp only
  rw [hst]
  dsimp only
  by_cases h : w = 0
  · rw [if_pos h, if_pos h]
    unfold u32le
    rw [goto_ahead hr (by show s.ip + 1 + 4 + r ≤ _; omega)]
  · rw [if_neg h, if_neg h]

/-- A block followed by a jump ahead. -/
theorem block_leads (h : Leads E sf D x p q) {r : Nat} (hat : At E.prog s.ip (x ++ ([0x52] ++ u32le r))) (hs : Site D p s) (ha : Acc E sf s)
    (hr : r < 2 ^ 31) (hle : s.ip + x.length + 5 + r ≤ E.prog.length) : Led E sf D (x.length + 5 + r) q s := by
  obtain ⟨m, e1, e2, e3, e4⟩ := h s hat.left hs ha
  refine ⟨{ m with ip := m.ip + 5 + r }, ?_, e2, site_move e3 rfl rfl rfl rfl rfl rfl,
    acc_run e4 (jump_ends (r := r) (e1 ▸ hat.right) hr (by rw [e1]; omega))⟩
  dsimp only; rw [e1]; omega

theorem leads_ite (hE : E.prog.length < 2 ^ 31) {e : IExpr} {thn els : List Byte} (h1 : Leads E sf D thn p q) (h2 : Leads E sf D els p q) :
    Leads E sf D (iteCode e.code thn els) p q := by
  intro s hat hs ha
  have hat' : At E.prog s.ip (e.code ++ ((0x50 :: u32le (thn.length + 5)) ++ ((thn ++ ([0x52] ++ u32le els.length)) ++ els))) := by
    unfold iteCode at hat
    simpa only [List.append_assoc, List.cons_append, List.nil_append] using hat
  have hl := hat'.le (by simp)
  have hlen : (iteCode e.code thn els).length = e.code.length + 5 + (thn.length + 5) + els.length := by
    unfold iteCode
    simp only [List.length_append, List.length_cons, List.length_nil, u32le_length]
    omega
  simp only [List.length_append, List.length_cons, List.length_nil, u32le_length] at hl
  have hatT := hat'.right.right.left
  have hatE := hat'.right.right.right
  simp only [List.length_append, List.length_cons, List.length_nil, u32le_length] at hatT hatE
  rw [hlen]
  obtain ⟨w, h, ha1⟩ := expr_leads e s hat'.left ha
  have ha2 := acc_run ha1 (jumpIfNot_leads (r := thn.length + 5) hat'.right.left rfl (by omega) (by dsimp only; omega))
  dsimp only at ha2
  by_cases hw : w = 0
  · rw [if_pos hw] at ha2
    have hg := h2 { s with ip := s.ip + e.code.length + 5 + (thn.length + 5), stack := s.stack, host := h } (by
      dsimp only
      rw [show s.ip + e.code.length + 5 + (thn.length + 5) = s.ip + e.code.length + (4 + 1) + (thn.length + (0 + 1 + 4)) by omega]
      exact hatE) (site_move hs rfl rfl rfl rfl rfl rfl) ha2
    exact Leads.moved hg (s := s) (l := e.code.length + 5 + (thn.length + 5)) (by dsimp only; omega) rfl
  · rw [if_neg hw] at ha2
    have hg := block_leads h1 (r := els.length) (s := { s with ip := s.ip + e.code.length + 5, stack := s.stack, host := h }) (by exact hatT)
      (site_move hs rfl rfl rfl rfl rfl rfl) ha2 (by omega) (by dsimp only; omega)
    have := Leads.moved hg (s := s) (l := e.code.length + 5) (by dsimp only; omega) rfl
    rw [show e.code.length + 5 + (thn.length + 5) + els.length = e.code.length + 5 + (thn.length + 5 + els.length) by omega]
    exact this

theorem switch_denied {k0 k1 : Byte} {l : List (Option Word × List Byte)} {v : Word} {h : σ}
    (hat : At E.prog s.ip (switchCode (keyNum k0 k1) l)) (hhost : E.host.scalar s.host (keyNum k0 k1) 0x06 0 = (false, v, h)) :
    Pass (fun _ => False) (step E s) := by
  have hkey : u16le (keyNum k0 k1) = [k0, k1] := by
    have := leBytes_leWord [k0, k1] (by simp)
    unfold u16le
    rw [← leWord_key, BitVec.ofNat_toNat, BitVec.setWidth_eq]
    exact this
  have hop := table_op (armsAt 0 l) (armsSize l)
  unfold switchCode at hat
  generalize tableOf (armsAt 0 l) (armsSize l) = t at hat hop
  have hat0 : At E.prog s.ip (t.1 :: ([k0, k1] ++ u32le (armsSize l))) := by
    have : At E.prog s.ip (([t.1] ++ u16le (keyNum k0 k1) ++ u32le (armsSize l)) ++ (armsCode t.2.length l ++ t.2)) := by
      simpa only [List.append_assoc] using hat
    have := this.left
    rw [hkey] at this
    exact this
  have hno : ∀ (s' : St σ) k, s'.host = s.host → Pass (fun _ => False) (callScalar E s' (keyNum k0 k1) 0x06 8 0 k) := by
    intro s' k hs'
    unfold callScalar
    rw [hs', hhost]
    intro e; cases e
  have hat1 := hat0.tail
  rcases hop with hop | hop
  · rw [hop] at hat0
    rw [step_pre hat0, pre_unaligned 0x51 _ rfl]
    show Pass _ (handleSwitch E _)
    unfold handleSwitch
    refine post_fetB hat1.left rfl (by omega) ?_
    refine post_fetB (bs := u32le (armsSize l)) hat1.right (by simp) (by omega) ?_
    refine post_dite (fun _ => fun e => by cases e) fun _ => ?_
    dsimp only
    rw [leWord_key]
    exact hno _ _ rfl
  · rw [hop] at hat0
    rw [step_pre hat0, pre_unaligned 0x53 _ rfl]
    show Pass _ (handleSwitchTable E _)
    unfold handleSwitchTable
    refine post_fetB hat1.left rfl (by omega) ?_
    refine post_fetB (bs := u32le (armsSize l)) hat1.right (by simp) (by omega) ?_
    refine post_dite (fun _ => fun e => by cases e) fun _ => ?_
    dsimp only
    rw [leWord_key]
    exact hno _ _ rfl

theorem leads_switch (hE : E.prog.length < 2 ^ 31) {k0 k1 : Byte} {cs : Cases} (hn : cs.labels.length < 2 ^ 16)
    (hq : q = p ∨ none ∈ cs.labels) (hc : ∀ lab c, cs.codes.lookup lab = some c → Leads E sf D c p q) :
    Leads E sf D (switchCode (keyNum k0 k1) cs.codes) p q := by
  intro s hat hs ha
  cases hask : E.host.scalar s.host (keyNum k0 k1) 0x06 0 with
  | mk ok vh =>
  obtain ⟨v, h⟩ := vh
  cases ok with
  | false =>
    obtain ⟨_, h, _⟩ := acc_step ha (switch_denied hat hask)
    exact h.elim
  | true =>
    have hst := switch_lands hE hat (by rw [codes_length]; exact hn) hask
    have hlen : (switchCode (keyNum k0 k1) cs.codes).length =
        7 + armsSize cs.codes + (tableOf (armsAt 0 cs.codes) (armsSize cs.codes)).2.length := by
      unfold switchCode
      simp only [List.length_append, List.length_cons, List.length_nil, u32le_length, u16le_length, armsCode_length]
    have hle := hat.le (by unfold switchCode; simp)
    rw [hlen] at hle
    rw [hlen]
    have hatC : At E.prog (s.ip + 7) (armsCode (tableOf (armsAt 0 cs.codes) (armsSize cs.codes)).2.length cs.codes) := by
      unfold switchCode at hat
      have := hat.left.right
      simpa only [List.length_append, List.length_cons, List.length_nil, u32le_length, u16le_length] using this
    generalize tableOf (armsAt 0 cs.codes) (armsSize cs.codes) = t at *
    have ha1 := acc_run ha hst
    have run : ∀ lab o, (armsAt 0 cs.codes).lookup lab = some o → Acc E sf { s with ip := s.ip + 7 + o, host := h } →
        Led E sf D (7 + armsSize cs.codes + t.2.length) q s := by
      intro lab o ho hm
      obtain ⟨c, r, e1, _, e3, e4⟩ := arm_found cs.codes t.2.length 0 (s.ip + 7) lab o ho hatC
      rw [Nat.sub_zero] at e3 e4
      have hg := block_leads (hc lab c e1) (r := r) (s := { s with ip := s.ip + 7 + o, host := h }) e3 (site_move hs rfl rfl rfl rfl rfl rfl) hm
        (by omega) (by dsimp only; omega)
      have := Leads.moved hg (s := s) (l := 7 + o) (by dsimp only; omega) rfl
      rw [show 7 + armsSize cs.codes + t.2.length = 7 + o + (c.length + 5 + r) by omega]
      exact this
    have hin : ∀ lab, ((armsAt 0 cs.codes).lookup lab = none ↔ lab ∉ cs.labels) := fun lab => (arms_lookup _ _ _).trans (codes_lookup cs lab)
    unfold goesTo at ha1
    cases h1 : (armsAt 0 cs.codes).lookup (some v) with
    | some o =>
      rw [h1] at ha1
      exact run _ o h1 ha1
    | none =>
      rw [h1] at ha1
      cases h2 : (armsAt 0 cs.codes).lookup none with
      | some o =>
        rw [h2] at ha1
        exact run _ o h2 ha1
      | none =>
        rw [h2] at ha1
        have hq' : q = p := hq.resolve_right ((hin _).1 h2)
        subst hq'
        refine ⟨_, ?_, ?_, ?_, ha1⟩
        · simp only [Option.getD_none]; omega
        · rfl
        · exact site_move hs rfl rfl rfl rfl rfl rfl

end

/-! ### Descriptions -/

section
variable {σ : Type} {E : Env σ} {sf : St σ} {D : List Byte}

mutual

theorem sch_leads (hH : Steady E.host) (henc : E.enc = false) (hE : E.prog.length < 2 ^ 31) :
    (f : Sch) → ∀ p q, f.extent p = some q → Leads E sf D f.code p q
  | .fld f, p, q, h => by
    unfold Sch.extent at h
    unfold Sch.code
    exact fld_leads hH henc f p q h
  | .seq f g, p, q, h => by
    unfold Sch.extent at h
    obtain ⟨r, h1, h2⟩ := Option.bind_eq_some_iff.1 h
    unfold Sch.code
    exact (sch_leads hH henc hE f _ _ h1).then (sch_leads hH henc hE g _ _ h2)
  | .struct k0 k1 f, p, q, h => by
    unfold Sch.extent at h
    unfold Sch.code
    exact leads_struct (sch_leads hH henc hE f _ _ h)
  | .arrFixed k0 k1 n f, p, q, h => by
    unfold Sch.extent at h
    unfold Sch.code
    exact leads_arrFixed hH henc (sch_leads hH henc hE f) h
  | .arrPre r k0 k1 f, p, q, h => by unfold Sch.extent at h; cases h
  | .arrDyn k0 k1 r0 r1 f, p, q, h => by unfold Sch.extent at h; cases h
  | .opt, p, q, h => by unfold Sch.extent at h; cases h
  | .trans x c big t k0 k1, p, q, h => by
    unfold Sch.extent at h
    injection h with h
    subst h
    exact leads_trans henc
  | .curve c big n k0 k1, p, q, h => by
    unfold Sch.extent at h
    split at h
    · rename_i hc
      injection h with h
      subst h
      exact leads_curve henc hc
    · cases h
  | .calc e big tag k0 k1, p, q, h => by
    unfold Sch.extent at h
    split at h
    · rename_i hc
      obtain ⟨n, hn, rfl⟩ := Option.map_eq_some_iff.1 h
      exact leads_calc henc hc hn
    · cases h
  | .ite c f g, p, q, h => by
    unfold Sch.extent at h
    obtain ⟨r, h1, h2⟩ := Option.bind_eq_some_iff.1 h
    split at h2
    · rename_i h3
      injection h2 with h2
      subst h2
      unfold Sch.code
      exact leads_ite hE (sch_leads hH henc hE f _ _ h1) (sch_leads hH henc hE g _ _ h3)
    · cases h2
  | .switch k0 k1 cs, p, q, h => by
    unfold Sch.extent at h
    obtain ⟨r, h1, h2⟩ := Option.bind_eq_some_iff.1 h
    split at h2
    · rename_i h3
      injection h2 with h2
      subst h2
      simp only [Bool.and_eq_true, Bool.or_eq_true, decide_eq_true_eq, List.contains_iff_mem] at h3
      unfold Sch.code
      exact leads_switch hE h3.2 h3.1.2 (cases_leads hH henc hE cs p r h3.1.1)
    · cases h2

theorem cases_leads (hH : Steady E.host) (henc : E.enc = false) (hE : E.prog.length < 2 ^ 31) :
    (cs : Cases) → ∀ p q, cs.ends p q = true → ∀ lab c, cs.codes.lookup lab = some c → Leads E sf D c p q
  | .nil, p, q, h => by
    intro lab c e
    unfold Cases.codes at e
    cases e
  | .cons l f rest, p, q, h => by
    unfold Cases.ends at h
    simp only [Bool.and_eq_true, decide_eq_true_eq] at h
    intro lab c e
    unfold Cases.codes at e
    rw [List.lookup_cons] at e
    split at e
    · injection e with e
      subst e
      exact sch_leads hH henc hE f p q h.1
    · exact cases_leads hH henc hE rest p q h.2 lab c e

end

end

end Cnd
