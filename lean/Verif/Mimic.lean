import Verif.Run
/-
  Two runs of the same program with different hosts: if the second host gives the same answers as the first, the machine does the
  same things (used for C63).
-/

set_option linter.unusedVariables false
set_option linter.unusedSimpArgs false

namespace Cnd
variable {α β : Type}

/-- The same machine state with the state of another host. -/
def St.wh (s : St α) (b : β) : St β :=
  { buf := s.buf, ip := s.ip, cursor := s.cursor, bit := s.bit, be := s.be, trans := s.trans, fFactor := s.fFactor,
    fOffset := s.fOffset, iVal := s.iVal, polyPos := s.polyPos, polyCnt := s.polyCnt, splPos := s.splPos, splCnt := s.splCnt,
    opt := s.opt, loops := s.loops, stack := s.stack, host := b }

/-- Host `B` gives the answers of host `A` as long as `A` accepts and ends up in a state of `On`. `On` only ever gets lost. -/
structure Mimics (enc : Bool) (A : Host α) (B : Host β) (On : α → Prop) (R : α → β → Prop) : Prop where
  notify : ∀ {a b key op a'}, R a b → A.notify a key op = (true, a') → On a' → ∃ b', B.notify b key op = (true, b') ∧ R a' b'
  notifyMono : ∀ {a key op}, On (A.notify a key op).2 → On a
  scalar : ∀ {a b key op v w a'}, R a b → A.scalar a key op v = (true, w, a') → On a' →
    ∃ b', B.scalar b key op v = (true, w, b') ∧ R a' b'
  scalarMono : ∀ {a key op v}, On (A.scalar a key op v).2.2 → On a
  str : enc = true → ∀ {a b key op w a'}, R a b → A.str a key op = (true, w, a') → On a' →
    ∃ w' b', B.str b key op = (true, w', b') ∧ cstr w' = cstr w ∧ R a' b'
  strMono : enc = true → ∀ {a key op}, On (A.str a key op).2.2 → On a
  strNo : enc = true → ∀ {a key op}, (A.str a key op).1 = false → ¬ On (A.str a key op).2.2
  bytes : enc = false → ∀ {a b key op be D p D' a'}, op ≠ 0x39 → R a b → A.bytesAt a key op be D p = (true, D', a') → On a' →
    ∃ b', B.bytesAt b key op be D p = (true, D', b') ∧ R a' b'
  bytesMono : ∀ {a key op be D p}, On (A.bytesAt a key op be D p).2.2 → On a
  raw : ∀ {a b key be D p D' a'}, R a b → A.bytesAt a key 0x39 be D p = (true, D', a') → On a' →
    ∃ b', B.bytesAt b key 0x39 be D p = (true, D', b') ∧ R a' b'

/-- No array of single bytes, for which the VM would offer a bulk transfer (vm_exec.c 331-355). -/
def NoBulk (prog : List Byte) : Prop :=
  ∀ i a b, prog[i]? = some a → prog[i + 3]? = some b → (a == 0x10 || a == 0x14) && b == 0x38 → False

/-- A result after which the host is not in `On`, or which is no success. -/
def Dead (On : α → Prop) : Res α → Prop
  | .run s => ¬ On s.host
  | .stop .ok s => ¬ On s.host
  | _ => True

/-- The second run does what the first one does, if that succeeds with the host in `On`. -/
def Fol (On : α → Prop) (R : α → β → Prop) : Res α → Res β → Prop
  | .run s, r => On s.host → ∃ b, r = .run (s.wh b) ∧ R s.host b
  | .stop .ok s, r => On s.host → ∃ b, r = .stop .ok (s.wh b) ∧ R s.host b
  | _, _ => True

section
variable {On : α → Prop} {R : α → β → Prop} {EA : Env α} {EB : Env β}

theorem fol_run {a : St α} {b : St β} (h : On a.host → ∃ g, b = a.wh g ∧ R a.host g) : Fol On R (.run a) (.run b) := by
  intro ho
  obtain ⟨g, rfl, h2⟩ := h ho
  exact ⟨g, rfl, h2⟩

theorem fol_ite {c c' : Prop} [Decidable c] [Decidable c'] {x y : Res α} {x' y' : Res β} (hc : c' ↔ c)
    (h1 : c → Fol On R x x') (h2 : ¬ c → Fol On R y y') : Fol On R (if c then x else y) (if c' then x' else y') := by
  by_cases h : c
  · rw [if_pos h, if_pos (hc.2 h)]; exact h1 h
  · rw [if_neg h, if_neg (fun h' => h (hc.1 h'))]; exact h2 h

theorem fol_dead {r : Res α} {r' : Res β} (h : Dead On r) : Fol On R r r' := by
  cases r with
  | run s => exact fun ho => absurd ho h
  | stop e s => cases e <;> first | trivial | exact fun ho => absurd ho h
  | ub u => trivial

theorem dead_ite {c : Prop} [Decidable c] {x y : Res α} (h1 : c → Dead On x) (h2 : ¬ c → Dead On y) :
    Dead On (if c then x else y) := by
  split
  · rename_i h; exact h1 h
  · rename_i h; exact h2 h

theorem dead_fet {s : St α} {n : Nat} {k : Word → St α → Res α} (h : ∀ v ip, Dead On (k v { s with ip := ip })) :
    Dead On (fet EA s n k) := h _ _

theorem dead_rdAt {s : St α} {p n : Nat} {k : Word → Res α} (h : ∀ w, Dead On (k w)) : Dead On (rdAt s p n k) := by
  unfold rdAt
  split
  · trivial
  · exact h _

theorem dead_wrAt {s : St α} {p n : Nat} {w : Word} {k : St α → Res α} (h : ∀ b, Dead On (k { s with buf := b })) :
    Dead On (wrAt s p n w k) := by
  unfold wrAt
  split
  · trivial
  · exact h _

theorem dead_wrRaw {s : St α} {p : Nat} {w : List Byte} {k : St α → Res α} (h : ∀ b, Dead On (k { s with buf := b })) :
    Dead On (wrRaw s p w k) := by
  unfold wrRaw
  split
  · trivial
  · exact h _

theorem dead_putBits {s : St α} {v : Word} {n : Nat} {k : St α → Res α}
    (h : ∀ b c o, Dead On (k { s with buf := b, cursor := c, bit := o })) : Dead On (putBits s v n k) := by
  unfold putBits
  split
  · trivial
  · exact h _ _ _

theorem dead_getBits {s : St α} {n : Nat} {k : Word → St α → Res α}
    (h : ∀ v c o, Dead On (k v { s with cursor := c, bit := o })) : Dead On (getBits s n k) := by
  unfold getBits
  split
  · trivial
  · exact h _ _ _

theorem dead_pushLoop {s : St α} {n : Nat} (h : ¬ On s.host) : Dead On (pushLoop s n) := by
  unfold pushLoop
  split
  · trivial
  · exact h

theorem dead_push {s : St α} {w : Word} (h : ¬ On s.host) : Dead On (push s w) := by
  unfold push
  split
  · trivial
  · exact h

theorem dead_goto {s : St α} {base : Nat} {off : Word} (h : ¬ On s.host) : Dead On (goto EA s base off) := by
  unfold goto
  split
  · trivial
  · exact h

theorem dead_run {s : St α} (h : ¬ On s.host) : Dead On (.run s) := h

end

macro "dead_rule" : tactic => `(tactic| first
  | trivial
  | (with_reducible apply dead_run; assumption)
  | with_reducible apply dead_fet
  | with_reducible apply dead_rdAt
  | with_reducible apply dead_wrAt
  | with_reducible apply dead_wrRaw
  | with_reducible apply dead_putBits
  | with_reducible apply dead_getBits
  | (with_reducible apply dead_pushLoop; assumption)
  | (with_reducible apply dead_push; assumption)
  | (with_reducible apply dead_goto; assumption)
  | with_reducible apply dead_ite)

macro "dead_sweep" : tactic => `(tactic|
  repeat' (first | dead_rule | intro _ | assumption | ((try dsimp only); split)))

section
variable {On : α → Prop} {R : α → β → Prop} {EA : Env α} {EB : Env β}

/-- What the sweep carries. -/
structure Same (EA : Env α) (EB : Env β) (On : α → Prop) (R : α → β → Prop) : Prop where
  prog : EB.prog = EA.prog
  enc : EB.enc = EA.enc
  fl : EB.fl = EA.fl
  mim : Mimics EA.enc EA.host EB.host On R
  bulk : NoBulk EA.prog ∨ ∀ a b key be D p, R a b → EA.host.bytesAt a key 0x39 be D p = (false, D, a) ∧
    ∃ b', EB.host.bytesAt b key 0x39 be D p = (false, D, b') ∧ R a b'

variable (hS : Same EA EB On R)
include hS

theorem fol_fet {s : St α} {t : St β} {b : β} (ht : t = s.wh b) {n : Nat} {k : Word → St α → Res α} {k' : Word → St β → Res β}
    (h : ∀ v ip, Fol On R (k v { s with ip := ip }) (k' v (({ s with ip := ip } : St α).wh b))) :
    Fol On R (fet EA s n k) (fet EB t n k') := by
  subst ht
  unfold fet
  rw [hS.prog]
  exact h _ _

theorem fol_callNotify {s : St α} {t : St β} {b : β} (ht : t = s.wh b) {key : Nat} {op : Byte} {k : St α → Res α} {k' : St β → Res β} {key1 : Nat} (hkey1 : key = key1)
    (hR : R s.host b)
    (h : ∀ g g', On g → R g g' → Fol On R (k { s with host := g }) (k' (({ s with host := g } : St α).wh g')))
    (hd : ∀ g, ¬ On g → Dead On (k { s with host := g })) :
    Fol On R (callNotify EA s key op k) (callNotify EB t key1 op k') := by
  subst ht hkey1
  unfold callNotify
  dsimp only
  cases hr : EA.host.notify s.host key op with
  | mk r g =>
    cases r with
    | false => trivial
    | true =>
      by_cases ho : On g
      · obtain ⟨b', hb, hR'⟩ := hS.mim.notify hR hr ho
        rw [show (s.wh b).host = b from rfl, hb]
        exact h _ _ ho hR'
      · exact fol_dead (hd _ ho)

theorem fol_callScalar {s : St α} {t : St β} {b : β} (ht : t = s.wh b) {key n : Nat} {op : Byte} {v : Word} {k : St α → Word → Res α}
    {k' : St β → Word → Res β} {key1 : Nat} (hkey1 : key = key1) {v1 : Word} (hv1 : v = v1)
    (hR : R s.host b)
    (h : ∀ g g' w, On g → R g g' → Fol On R (k { s with host := g } w) (k' (({ s with host := g } : St α).wh g') w))
    (hd : ∀ g w, ¬ On g → Dead On (k { s with host := g } w)) :
    Fol On R (callScalar EA s key op n v k) (callScalar EB t key1 op n v1 k') := by
  subst ht hkey1 hv1
  unfold callScalar
  dsimp only
  cases hr : EA.host.scalar s.host key op v with
  | mk r q =>
    obtain ⟨w, g⟩ := q
    cases r with
    | false => trivial
    | true =>
      by_cases ho : On g
      · obtain ⟨b', hb, hR'⟩ := hS.mim.scalar hR hr ho
        rw [show (s.wh b).host = b from rfl, hb]
        exact h _ _ _ ho hR'
      · exact fol_dead (hd _ _ ho)

theorem dead_callNotify {s : St α} {key : Nat} {op : Byte} {k : St α → Res α} (hn : ¬ On s.host)
    (hd : ∀ g, ¬ On g → Dead On (k { s with host := g })) : Dead On (callNotify EA s key op k) := by
  unfold callNotify
  dsimp only
  split
  · exact hd _ (fun h => hn (hS.mim.notifyMono h))
  · trivial

theorem dead_callScalar {s : St α} {key n : Nat} {op : Byte} {v : Word} {k : St α → Word → Res α} (hn : ¬ On s.host)
    (hd : ∀ g w, ¬ On g → Dead On (k { s with host := g } w)) : Dead On (callScalar EA s key op n v k) := by
  unfold callScalar
  dsimp only
  split
  · exact hd _ _ (fun h => hn (hS.mim.scalarMono h))
  · trivial

theorem fol_callStr (he : EA.enc = true) {s : St α} {t : St β} {b : β} (ht : t = s.wh b) {key : Nat} {op : Byte} {k : St α → List Byte → Res α}
    {k' : St β → List Byte → Res β} {key1 : Nat} (hkey1 : key = key1)
    (hR : R s.host b)
    (h : ∀ g g' w, On g → R g g' → Fol On R (k { s with host := g } w) (k' (({ s with host := g } : St α).wh g') w))
    (hd : ∀ g w, ¬ On g → Dead On (k { s with host := g } w)) :
    Fol On R (callStr EA s key op k) (callStr EB t key1 op k') := by
  subst ht hkey1
  unfold callStr
  dsimp only
  have hno := hS.mim.strNo he (a := s.host) (key := key) (op := op)
  cases hr : EA.host.str s.host key op with
  | mk r q =>
    obtain ⟨w, g⟩ := q
    rw [hr] at hno
    cases r with
    | false =>
      apply fol_dead
      simp only [Bool.false_eq_true, if_false]
      split
      · exact hno rfl
      · trivial
    | true =>
      by_cases ho : On g
      · obtain ⟨w', b', hb, hc, hR'⟩ := hS.mim.str he hR hr ho
        rw [show (s.wh b).host = b from rfl, hb]
        simp only [if_true, hc]
        exact h _ _ _ ho hR'
      · exact fol_dead (hd _ _ ho)

theorem dead_callStr (he : EA.enc = true) {s : St α} {key : Nat} {op : Byte} {k : St α → List Byte → Res α} (hn : ¬ On s.host)
    (hd : ∀ g w, ¬ On g → Dead On (k { s with host := g } w)) : Dead On (callStr EA s key op k) := by
  have h' := fun h => hn (hS.mim.strMono he (a := s.host) (key := key) (op := op) h)
  unfold callStr
  dsimp only
  split
  · exact hd _ _ h'
  · split
    · exact h'
    · trivial

theorem fol_callAt (he : EA.enc = false) {s : St α} {t : St β} {b : β} (ht : t = s.wh b) {key p : Nat} {op : Byte} {k : St α → Res α} {k' : St β → Res β}
    {l : St α → Res α} {l' : St β → Res β} {key1 : Nat} (hkey1 : key = key1) {p1 : Nat} (hp1 : p = p1)
    (hop : op ≠ 0x39) (hR : R s.host b)
    (h : ∀ g g' D, On g → R g g' →
      Fol On R (k { s with host := g, buf := D }) (k' (({ s with host := g, buf := D } : St α).wh g')))
    (hd : ∀ g D, ¬ On g → Dead On (k { s with host := g, buf := D }))
    (hl : ∀ t, Dead On (l t)) : Fol On R (callAt EA s key op p k l) (callAt EB t key1 op p1 k' l') := by
  subst ht hkey1 hp1
  unfold callAt
  dsimp only
  cases hr : EA.host.bytesAt s.host key op s.be s.buf p with
  | mk r q =>
    obtain ⟨D, g⟩ := q
    cases r with
    | false => exact fol_dead (hl _)
    | true =>
      by_cases ho : On g
      · obtain ⟨b', hb, hR'⟩ := hS.mim.bytes he hop hR hr ho
        rw [show (s.wh b).host = b from rfl, show (s.wh b).be = s.be from rfl, show (s.wh b).buf = s.buf from rfl, hb]
        exact h _ _ _ ho hR'
      · exact fol_dead (hd _ _ ho)

theorem dead_callAt {s : St α} {key p : Nat} {op : Byte} {k l : St α → Res α} (hn : ¬ On s.host)
    (hd : ∀ g D, ¬ On g → Dead On (k { s with host := g, buf := D }))
    (hl : ∀ g D, ¬ On g → Dead On (l { s with host := g, buf := D })) : Dead On (callAt EA s key op p k l) := by
  have h' := fun h => hn (hS.mim.bytesMono (a := s.host) (key := key) (op := op) (be := s.be) (D := s.buf) (p := p) h)
  unfold callAt
  dsimp only
  split
  · exact hd _ _ h'
  · exact hl _ _ h'

omit hS

theorem fol_rdAt {s : St α} {t : St β} {b : β} (ht : t = s.wh b) {p n : Nat} {k : Word → Res α} {k' : Word → Res β} {p1 : Nat} (hp1 : p = p1) {n1 : Nat} (hn1 : n = n1)
    (h : ∀ w, Fol On R (k w) (k' w)) :
    Fol On R (rdAt s p n k) (rdAt t p1 n1 k') := by
  subst ht hp1 hn1
  unfold rdAt
  rw [show (s.wh b).buf = s.buf from rfl, show (s.wh b).be = s.be from rfl]
  cases slice s.buf p n with
  | none => trivial
  | some bs => exact h _

theorem fol_wrAt {s : St α} {t : St β} {b : β} (ht : t = s.wh b) {p n : Nat} {w : Word} {k : St α → Res α} {k' : St β → Res β} {p1 : Nat} (hp1 : p = p1) {n1 : Nat} (hn1 : n = n1) {w1 : Word} (hw1 : w = w1)
    (h : ∀ D, Fol On R (k { s with buf := D }) (k' (({ s with buf := D } : St α).wh b))) :
    Fol On R (wrAt s p n w k) (wrAt t p1 n1 w1 k') := by
  subst ht hp1 hn1 hw1
  unfold wrAt
  rw [show (s.wh b).buf = s.buf from rfl, show (s.wh b).be = s.be from rfl]
  cases store s.buf p (wrBytes s.be n w) with
  | none => trivial
  | some bs => exact h _

theorem fol_wrRaw {s : St α} {t : St β} {b : β} (ht : t = s.wh b) {p : Nat} {w : List Byte} {k : St α → Res α} {k' : St β → Res β} {p1 : Nat} (hp1 : p = p1) {w1 : List Byte} (hw1 : w = w1)
    (h : ∀ D, Fol On R (k { s with buf := D }) (k' (({ s with buf := D } : St α).wh b))) :
    Fol On R (wrRaw s p w k) (wrRaw t p1 w1 k') := by
  subst ht hp1 hw1
  unfold wrRaw
  rw [show (s.wh b).buf = s.buf from rfl]
  cases store s.buf p w with
  | none => trivial
  | some bs => exact h _

theorem fol_putBits {s : St α} {t : St β} {b : β} (ht : t = s.wh b) {v : Word} {n : Nat} {k : St α → Res α} {k' : St β → Res β} {v1 : Word} (hv1 : v = v1) {n1 : Nat} (hn1 : n = n1)
    (h : ∀ D c o, Fol On R (k { s with buf := D, cursor := c, bit := o })
      (k' (({ s with buf := D, cursor := c, bit := o } : St α).wh b))) :
    Fol On R (putBits s v n k) (putBits t v1 n1 k') := by
  subst ht hv1 hn1
  unfold putBits
  rw [show (s.wh b).buf = s.buf from rfl, show (s.wh b).be = s.be from rfl, show (s.wh b).cursor = s.cursor from rfl,
    show (s.wh b).bit = s.bit from rfl]
  cases writeBits s.buf s.be s.cursor s.bit v n with
  | none => trivial
  | some q => exact h _ _ _

theorem fol_getBits {s : St α} {t : St β} {b : β} (ht : t = s.wh b) {n : Nat} {k : Word → St α → Res α} {k' : Word → St β → Res β} {n1 : Nat} (hn1 : n = n1)
    (h : ∀ v c o, Fol On R (k v { s with cursor := c, bit := o }) (k' v (({ s with cursor := c, bit := o } : St α).wh b))) :
    Fol On R (getBits s n k) (getBits t n1 k') := by
  subst ht hn1
  unfold getBits
  rw [show (s.wh b).buf = s.buf from rfl, show (s.wh b).be = s.be from rfl, show (s.wh b).cursor = s.cursor from rfl,
    show (s.wh b).bit = s.bit from rfl]
  cases readBits s.buf s.be s.cursor s.bit n with
  | none => trivial
  | some q => exact h _ _ _

theorem fol_pushLoop {s : St α} {t : St β} {b : β} (ht : t = s.wh b) {n : Nat} {n1 : Nat} (hn1 : n = n1)
    (hR : R s.host b) : Fol On R (pushLoop s n) (pushLoop t n1) := by
  subst ht hn1
  unfold pushLoop
  rw [show (s.wh b).loops = s.loops from rfl]
  split
  · trivial
  · exact fun _ => ⟨b, rfl, hR⟩

theorem fol_push {s : St α} {t : St β} {b : β} (ht : t = s.wh b) {w : Word} {w1 : Word} (hw1 : w = w1)
    (hR : R s.host b) : Fol On R (push s w) (push t w1) := by
  subst ht hw1
  unfold push
  rw [show (s.wh b).stack = s.stack from rfl]
  split
  · trivial
  · exact fun _ => ⟨b, rfl, hR⟩

include hS in
theorem fol_goto {s : St α} {t : St β} {b : β} (ht : t = s.wh b) {base : Nat} {off : Word} {base1 : Nat} (hbase1 : base = base1) {off1 : Word} (hoff1 : off = off1)
    (hR : R s.host b) :
    Fol On R (goto EA s base off) (goto EB t base1 off1) := by
  subst ht hbase1 hoff1
  unfold goto
  rw [hS.prog]
  cases branch EA.prog.length base off with
  | none => trivial
  | some t => exact fun _ => ⟨b, rfl, hR⟩

end

macro "fol_close" : tactic => `(tactic| first
  | trivial
  | exact fun _ => ⟨_, rfl, by assumption⟩)

macro "fol_rule" : tactic => `(tactic| first
  | with_reducible apply fol_fet ‹Same _ _ _ _›
  | with_reducible apply fol_callScalar ‹Same _ _ _ _›
  | with_reducible apply fol_callNotify ‹Same _ _ _ _›
  | with_reducible apply fol_rdAt
  | with_reducible apply fol_wrAt
  | with_reducible apply fol_wrRaw
  | with_reducible apply fol_putBits
  | with_reducible apply fol_getBits
  | with_reducible apply fol_pushLoop
  | with_reducible apply fol_push
  | with_reducible apply fol_goto ‹Same _ _ _ _›
  | with_reducible apply dead_callScalar ‹Same _ _ _ _›
  | with_reducible apply dead_callNotify ‹Same _ _ _ _›
  | with_reducible apply fol_ite
  | dead_rule)

macro "fol_sweep" : tactic => `(tactic|
  repeat' (first | rfl | fol_close | assumption | exact Iff.rfl | fol_rule | intro _ | ((try dsimp only [St.wh]); split <;> (try simp only [*]))))

section
variable {On : α → Prop} {R : α → β → Prop} {EA : Env α} {EB : Env β}

theorem handlePrim_fol (hS : Same EA EB On R) (t : Ty) (op : Byte) {s : St α} {b : β} (hR : R s.host b) :
    Fol On R (handlePrim EA t op s) (handlePrim EB t op (s.wh b)) := by
  unfold handlePrim
  try simp only [hS.enc, hS.fl, hS.prog]
  fol_sweep

theorem handleFloat_fol (hS : Same EA EB On R) (dbl : Bool) (op : Byte) {s : St α} {b : β} (hR : R s.host b) :
    Fol On R (handleFloat EA dbl op s) (handleFloat EB dbl op (s.wh b)) := by
  unfold handleFloat
  try simp only [hS.enc, hS.fl, hS.prog]
  fol_sweep

theorem handleBool_fol (hS : Same EA EB On R) (op : Byte) {s : St α} {b : β} (hR : R s.host b) :
    Fol On R (handleBool EA op s) (handleBool EB op (s.wh b)) := by
  unfold handleBool
  try simp only [hS.enc, hS.fl, hS.prog]
  fol_sweep

theorem handleConstCheck_fol (hS : Same EA EB On R) {s : St α} {b : β} (hR : R s.host b) :
    Fol On R (handleConstCheck EA s) (handleConstCheck EB (s.wh b)) := by
  unfold handleConstCheck
  try simp only [hS.enc, hS.fl, hS.prog]
  fol_sweep

theorem handleConstWrite_fol (hS : Same EA EB On R) {s : St α} {b : β} (hR : R s.host b) :
    Fol On R (handleConstWrite EA s) (handleConstWrite EB (s.wh b)) := by
  unfold handleConstWrite
  try simp only [hS.enc, hS.fl, hS.prog]
  fol_sweep

theorem handleEmit_fol (hS : Same EA EB On R) {s : St α} {b : β} (hR : R s.host b) :
    Fol On R (handleEmit EA s) (handleEmit EB (s.wh b)) := by
  unfold handleEmit
  try simp only [hS.enc, hS.fl, hS.prog]
  fol_sweep

theorem handleRange_fol (hS : Same EA EB On R) {s : St α} {b : β} (hR : R s.host b) :
    Fol On R (handleRange EA s) (handleRange EB (s.wh b)) := by
  unfold handleRange
  try simp only [hS.enc, hS.fl, hS.prog]
  fol_sweep

theorem handleEnum_fol (hS : Same EA EB On R) {s : St α} {b : β} (hR : R s.host b) :
    Fol On R (handleEnum EA s) (handleEnum EB (s.wh b)) := by
  unfold handleEnum
  try simp only [hS.enc, hS.fl, hS.prog]
  fol_sweep

theorem handleJump_fol (hS : Same EA EB On R) {s : St α} {b : β} (hR : R s.host b) :
    Fol On R (handleJump EA s) (handleJump EB (s.wh b)) := by
  unfold handleJump
  try simp only [hS.enc, hS.fl, hS.prog]
  fol_sweep

theorem handleJumpIfNot_fol (hS : Same EA EB On R) {s : St α} {b : β} (hR : R s.host b) :
    Fol On R (handleJumpIfNot EA s) (handleJumpIfNot EB (s.wh b)) := by
  unfold handleJumpIfNot
  try simp only [hS.enc, hS.fl, hS.prog]
  fol_sweep

theorem handleSwitch_fol (hS : Same EA EB On R) {s : St α} {b : β} (hR : R s.host b) :
    Fol On R (handleSwitch EA s) (handleSwitch EB (s.wh b)) := by
  unfold handleSwitch
  try simp only [hS.enc, hS.fl, hS.prog]
  fol_sweep

theorem handleSwitchTable_fol (hS : Same EA EB On R) {s : St α} {b : β} (hR : R s.host b) :
    Fol On R (handleSwitchTable EA s) (handleSwitchTable EB (s.wh b)) := by
  unfold handleSwitchTable
  try simp only [hS.enc, hS.fl, hS.prog]
  fol_sweep

theorem handleLoadCtx_fol (hS : Same EA EB On R) (op : Byte) {s : St α} {b : β} (hR : R s.host b) :
    Fol On R (handleLoadCtx EA op s) (handleLoadCtx EB op (s.wh b)) := by
  unfold handleLoadCtx
  try simp only [hS.enc, hS.fl, hS.prog]
  fol_sweep

theorem handleStoreCtx_fol (hS : Same EA EB On R) (op : Byte) {s : St α} {b : β} (hR : R s.host b) :
    Fol On R (handleStoreCtx EA op s) (handleStoreCtx EB op (s.wh b)) := by
  unfold handleStoreCtx
  try simp only [hS.enc, hS.fl, hS.prog]
  fol_sweep

theorem handleArrEnd_fol (hS : Same EA EB On R) {s : St α} {b : β} (hR : R s.host b) :
    Fol On R (handleArrEnd EA s) (handleArrEnd EB (s.wh b)) := by
  unfold handleArrEnd
  try simp only [hS.enc, hS.fl, hS.prog]
  fol_sweep

theorem handleArrEof_fol (hS : Same EA EB On R) {s : St α} {b : β} (hR : R s.host b) :
    Fol On R (handleArrEof EA s) (handleArrEof EB (s.wh b)) := by
  unfold handleArrEof
  try simp only [hS.enc, hS.fl, hS.prog]
  fol_sweep

theorem handleBitU_fol (hS : Same EA EB On R) (op : Byte) {s : St α} {b : β} (hR : R s.host b) :
    Fol On R (handleBitU EA op s) (handleBitU EB op (s.wh b)) := by
  unfold handleBitU
  try simp only [hS.enc, hS.fl, hS.prog]
  fol_sweep

theorem handleBitI_fol (hS : Same EA EB On R) (op : Byte) {s : St α} {b : β} (hR : R s.host b) :
    Fol On R (handleBitI EA op s) (handleBitI EB op (s.wh b)) := by
  unfold handleBitI
  try simp only [hS.enc, hS.fl, hS.prog]
  fol_sweep

theorem handleBitBool_fol (hS : Same EA EB On R) (op : Byte) {s : St α} {b : β} (hR : R s.host b) :
    Fol On R (handleBitBool EA op s) (handleBitBool EB op (s.wh b)) := by
  unfold handleBitBool
  try simp only [hS.enc, hS.fl, hS.prog]
  fol_sweep

theorem handlePad_fol (hS : Same EA EB On R) {s : St α} {b : β} (hR : R s.host b) :
    Fol On R (handlePad EA s) (handlePad EB (s.wh b)) := by
  unfold handlePad
  try simp only [hS.enc, hS.fl, hS.prog]
  fol_sweep

theorem handleFill_fol (hS : Same EA EB On R) {s : St α} {b : β} (hR : R s.host b) :
    Fol On R (handleFill EA s) (handleFill EB (s.wh b)) := by
  unfold handleFill
  try simp only [hS.enc, hS.fl, hS.prog]
  fol_sweep

theorem handleCrc_fol (hS : Same EA EB On R) (w32 : Bool) {s : St α} {b : β} (hR : R s.host b) :
    Fol On R (handleCrc EA w32 s) (handleCrc EB w32 (s.wh b)) := by
  unfold handleCrc
  try simp only [hS.enc, hS.fl, hS.prog]
  fol_sweep

theorem handleStrNull_fol (hS : Same EA EB On R) (op : Byte) (hop : op ≠ 0x39) {s : St α} {b : β} (hR : R s.host b) :
    Fol On R (handleStrNull EA op s) (handleStrNull EB op (s.wh b)) := by
  unfold handleStrNull
  simp only [hS.enc]
  apply fol_fet hS rfl
  intro key ip
  apply fol_fet hS rfl
  intro m ip2
  apply fol_ite Iff.rfl
  · intro he
    apply fol_callStr hS he
    · rfl
    · rfl
    · exact hR
    · fol_sweep
    · dead_sweep
  · intro he
    have he : EA.enc = false := by simpa using he
    apply fol_ite Iff.rfl
    · fol_sweep
    intro _
    dsimp only
    apply fol_ite Iff.rfl
    · fol_sweep
    intro _
    apply fol_callAt hS he
    · rfl
    · rfl
    · rfl
    · exact hop
    · exact hR
    · fol_sweep
    · dead_sweep
    · intro _; trivial

theorem handleStrPre_fol (hS : Same EA EB On R) (p : Pre) (op : Byte) (hop : op ≠ 0x39) {s : St α} {b : β} (hR : R s.host b) :
    Fol On R (handleStrPre EA p op s) (handleStrPre EB p op (s.wh b)) := by
  unfold handleStrPre
  simp only [hS.enc]
  apply fol_fet hS rfl
  intro key ip
  apply fol_ite Iff.rfl
  · intro he
    apply fol_callStr hS he
    · rfl
    · rfl
    · exact hR
    · fol_sweep
    · dead_sweep
  · intro he
    have he : EA.enc = false := by simpa using he
    apply fol_ite Iff.rfl
    · fol_sweep
    intro _
    apply fol_rdAt rfl rfl rfl
    intro w
    apply fol_ite Iff.rfl
    · fol_sweep
    intro _
    apply fol_callAt hS he
    · rfl
    · rfl
    · rfl
    · exact hop
    · exact hR
    · fol_sweep
    · dead_sweep
    · intro _; trivial

theorem handleRaw_fol (hS : Same EA EB On R) {s : St α} {b : β} (hR : R s.host b) :
    Fol On R (handleRaw EA 0x39 s) (handleRaw EB 0x39 (s.wh b)) := by
  unfold handleRaw fet
  dsimp only
  rw [hS.prog]
  apply fol_ite Iff.rfl
  · intro _
    trivial
  · intro _
    unfold callAt
    dsimp only
    generalize hk : (fetch EA.prog s.ip 2).1.toNat = key
    cases hr : EA.host.bytesAt s.host key 0x39 s.be s.buf s.cursor with
    | mk r q =>
      obtain ⟨D, g⟩ := q
      cases r with
      | false => trivial
      | true =>
        intro ho
        obtain ⟨b', hb, hR'⟩ := hS.mim.raw hR hr ho
        refine ⟨b', ?_, hR'⟩
        simp only [St.wh, hk, hb, if_true]

theorem enterArray_fol (hS : Same EA EB On R) {s : St α} {t : St β} {b : β} (ht : t = s.wh b) {n n1 : Nat} (hn : n = n1)
    (hR : R s.host b) : Fol On R (enterArray EA s n) (enterArray EB t n1) := by
  subst ht hn
  unfold enterArray
  rw [hS.prog, show (s.wh b).ip = s.ip from rfl]
  split
  · fol_sweep
  · cases h1 : EA.prog[s.ip]? with
    | none => exact fol_pushLoop rfl rfl hR
    | some x =>
      cases h2 : EA.prog[s.ip + 3]? with
      | none => exact fol_pushLoop rfl rfl hR
      | some y =>
        dsimp only
        rcases hS.bulk with hB | hB
        · have : ((x == 0x10 || x == 0x14) && y == 0x38) = false := by
            cases h : ((x == 0x10 || x == 0x14) && y == 0x38)
            · rfl
            · exact (hB _ _ _ h1 h2 h).elim
          simp only [this, Bool.false_and, Bool.false_eq_true, if_false]
          exact fol_pushLoop rfl rfl hR
        · refine fol_ite Iff.rfl (fun _ => ?_) (fun _ => fol_pushLoop rfl rfl hR)
          obtain ⟨e1, b', e2, hR'⟩ := hB s.host b (leWord ((EA.prog.drop (s.ip + 1)).take 2)).toNat s.be s.buf s.cursor hR
          unfold callAt
          dsimp only
          rw [e1, show EB.host.bytesAt (s.wh b).host (leWord ((EA.prog.drop (s.ip + 1)).take 2)).toNat 0x39 (s.wh b).be (s.wh b).buf
            (s.wh b).cursor = _ from e2]
          exact fol_pushLoop (b := b') rfl rfl hR'

theorem enterArray_dead (hS : Same EA EB On R) {s : St α} {n : Nat} (h : ¬ On s.host) : Dead On (enterArray EA s n) := by
  unfold enterArray
  split
  · exact h
  · split
    · split
      · apply dead_callAt hS h
        · dead_sweep
        · dead_sweep
      · exact dead_pushLoop h
    · exact dead_pushLoop h

macro "arr_rule" : tactic => `(tactic| first
  | apply enterArray_fol ‹Same _ _ _ _›
  | apply enterArray_dead ‹Same _ _ _ _›)

macro "arr_sweep" : tactic => `(tactic|
  repeat' (first | rfl | fol_close | assumption | exact Iff.rfl | arr_rule | fol_rule | intro _))

theorem handleArrPre_fol (hS : Same EA EB On R) (p : Pre) (op : Byte) {s : St α} {b : β} (hR : R s.host b) :
    Fol On R (handleArrPre EA p op s) (handleArrPre EB p op (s.wh b)) := by
  unfold handleArrPre
  simp only [hS.enc]
  arr_sweep

theorem handleArrFixed_fol (hS : Same EA EB On R) (op : Byte) {s : St α} {b : β} (hR : R s.host b) :
    Fol On R (handleArrFixed EA op s) (handleArrFixed EB op (s.wh b)) := by
  unfold handleArrFixed
  arr_sweep

theorem handleArrDynamic_fol (hS : Same EA EB On R) (op : Byte) {s : St α} {b : β} (hR : R s.host b) :
    Fol On R (handleArrDynamic EA op s) (handleArrDynamic EB op (s.wh b)) := by
  unfold handleArrDynamic
  arr_sweep

theorem aluDone_fol (x : Alu) {s : St α} {t : St β} {b : β} (ht : t = s.wh b) (hR : R s.host b) (hx : x ≠ .err .ok) :
    Fol On R (aluDone s x) (aluDone t x) := by
  subst ht
  cases x with
  | val w => exact fol_push rfl rfl hR
  | err e => cases e <;> first | trivial | exact absurd rfl hx
  | ub u => trivial

theorem binary_fol (f : Word → Word → Alu) (hf : ∀ a b, f a b ≠ .err .ok) {s : St α} {b : β} (hR : R s.host b) :
    Fol On R (binary s f) (binary (s.wh b) f) := by
  unfold binary
  rw [show (s.wh b).stack = s.stack from rfl]
  rcases s.stack with _ | ⟨x, _ | ⟨y, rest⟩⟩
  · trivial
  · trivial
  · exact aluDone_fol _ rfl hR (hf _ _)

theorem unary_fol (f : Word → Alu) (hf : ∀ a, f a ≠ .err .ok) {s : St α} {b : β} (hR : R s.host b) :
    Fol On R (unary s f) (unary (s.wh b) f) := by
  unfold unary
  rw [show (s.wh b).stack = s.stack from rfl]
  rcases s.stack with _ | ⟨x, rest⟩
  · trivial
  · exact aluDone_fol _ rfl hR (hf _)

theorem ibinEval_ne (o : IBin) (a b : Word) : ibinEval o a b ≠ .err .ok := by
  cases o <;> simp only [ibinEval] <;> first | (intro h; cases h) | (split <;> intro h <;> cases h)

theorem fbinEval_ne (F : FloatOps) (o : FBin) (a b : Word) : fbinEval F o a b ≠ .err .ok := by
  cases o <;> simp only [fbinEval] <;> first | (intro h; cases h; done) | (repeat' split) <;> intro h <;> cases h

theorem unEval_ne (F : FloatOps) (o : Un) (a : Word) : unEval F o a ≠ .err .ok := by
  cases o <;> simp only [unEval] <;> first | (intro h; cases h; done) | (repeat' split) <;> intro h <;> cases h

theorem execOp_fol (hS : Same EA EB On R) (op : Byte) {s : St α} {b : β} (hR : R s.host b) :
    Fol On R (execOp EA op s) (execOp EB op (s.wh b)) := by
  have hne : ∀ o, decodeOp op = o → o ≠ .rawBytes → op ≠ 0x39 := by
    rintro o rfl h rfl
    exact h rfl
  have hraw : decodeOp op = .rawBytes → op = 0x39 := by
    have : ∀ n : Fin 256, (decodeOp (BitVec.ofFin n) == .rawBytes) = true → ((BitVec.ofFin n : Byte) == 0x39) = true := by
      decide +kernel
    intro h
    simpa using this op.toFin (by simpa using h)
  unfold execOp
  cases hd : decodeOp op <;> dsimp only <;> try simp only [hS.prog, hS.fl]
  case io t => exact handlePrim_fol hS t op hR
  case ioF32 => exact handleFloat_fol hS _ op hR
  case ioF64 => exact handleFloat_fol hS _ op hR
  case ioBool => exact handleBool_fol hS op hR
  case bitU => exact handleBitU_fol hS op hR
  case bitI => exact handleBitI_fol hS op hR
  case bitBool => exact handleBitBool_fol hS op hR
  case alignPad => exact handlePad_fol hS hR
  case alignFill => exact handleFill_fol hS hR
  case strNull => exact handleStrNull_fol hS op (hne _ hd (by simp)) hR
  case strPre p => exact handleStrPre_fol hS p op (hne _ hd (by simp)) hR
  case arrFixed => exact handleArrFixed_fol hS op hR
  case arrPre p => exact handleArrPre_fol hS p op hR
  case arrEnd => exact handleArrEnd_fol hS hR
  case rawBytes => rw [hraw hd]; exact handleRaw_fol hS hR
  case arrEof => exact handleArrEof_fol hS hR
  case arrDynamic => exact handleArrDynamic_fol hS op hR
  case constCheck => exact handleConstCheck_fol hS hR
  case constWrite => exact handleConstWrite_fol hS hR
  case rangeCheck => exact handleRange_fol hS hR
  case crc16 => exact handleCrc_fol hS _ hR
  case crc32 => exact handleCrc_fol hS _ hR
  case enumCheck => exact handleEnum_fol hS hR
  case jumpIfNot => exact handleJumpIfNot_fol hS hR
  case switch => exact handleSwitch_fol hS hR
  case jump => exact handleJump_fol hS hR
  case switchTable => exact handleSwitchTable_fol hS hR
  case loadCtx => exact handleLoadCtx_fol hS op hR
  case storeCtx => exact handleStoreCtx_fol hS op hR
  case emit => exact handleEmit_fol hS hR
  case ibin o => exact binary_fol _ (ibinEval_ne o) hR
  case fbin o => exact binary_fol _ (fbinEval_ne _ o) hR
  case un o => exact unary_fol _ (unEval_ne _ o) hR
  case dup =>
    rw [show (s.wh b).stack = s.stack from rfl]
    cases s.stack with
    | nil => trivial
    | cons v rest => exact fol_push rfl rfl hR
  all_goals fol_sweep

macro "deads" : tactic => `(tactic|
  repeat' (first | assumption | arr_rule | fol_rule | intro _ | ((try dsimp only); split)))

theorem handleStrNull_dead (hS : Same EA EB On R) (op : Byte) {s : St α} (h : ¬ On s.host) :
    Dead On (handleStrNull EA op s) := by
  unfold handleStrNull
  apply dead_fet
  intro _ _
  apply dead_fet
  intro _ _
  apply dead_ite
  · intro he
    apply dead_callStr hS he
    · exact h
    · deads
  · intro _
    apply dead_ite
    · deads
    intro _
    dsimp only
    apply dead_ite
    · deads
    intro _
    apply dead_callAt hS
    · exact h
    · deads
    · deads

theorem handleStrPre_dead (hS : Same EA EB On R) (p : Pre) (op : Byte) {s : St α} (h : ¬ On s.host) :
    Dead On (handleStrPre EA p op s) := by
  unfold handleStrPre
  apply dead_fet
  intro _ _
  apply dead_ite
  · intro he
    apply dead_callStr hS he
    · exact h
    · deads
  · intro _
    apply dead_ite
    · deads
    intro _
    apply dead_rdAt
    intro _
    apply dead_ite
    · deads
    intro _
    apply dead_callAt hS
    · exact h
    · deads
    · deads

theorem aluDone_dead (x : Alu) {s : St α} (h : ¬ On s.host) (hx : x ≠ .err .ok) : Dead On (aluDone s x) := by
  cases x with
  | val w => exact dead_push h
  | err e => cases e <;> first | trivial | exact absurd rfl hx
  | ub u => trivial

theorem binary_dead (f : Word → Word → Alu) (hf : ∀ a b, f a b ≠ .err .ok) {s : St α} (h : ¬ On s.host) :
    Dead On (binary s f) := by
  unfold binary
  rcases s.stack with _ | ⟨x, _ | ⟨y, rest⟩⟩
  · trivial
  · trivial
  · exact aluDone_dead _ h (hf _ _)

theorem unary_dead (f : Word → Alu) (hf : ∀ a, f a ≠ .err .ok) {s : St α} (h : ¬ On s.host) : Dead On (unary s f) := by
  unfold unary
  rcases s.stack with _ | ⟨x, rest⟩
  · trivial
  · exact aluDone_dead _ h (hf _)

theorem handlePrim_dead (hS : Same EA EB On R) (t : Ty) (op : Byte) {s : St α} (h : ¬ On s.host) :
    Dead On (handlePrim EA t op s) := by
  unfold handlePrim
  deads

theorem handleFloat_dead (hS : Same EA EB On R) (d : Bool) (op : Byte) {s : St α} (h : ¬ On s.host) :
    Dead On (handleFloat EA d op s) := by
  unfold handleFloat
  deads

theorem handleRaw_dead (hS : Same EA EB On R) (op : Byte) {s : St α} (h : ¬ On s.host) : Dead On (handleRaw EA op s) := by
  unfold handleRaw
  apply dead_fet
  intro _ _
  apply dead_fet
  intro _ _
  apply dead_ite
  · deads
  intro _
  apply dead_callAt hS
  · exact h
  · deads
  · deads

theorem handleBool_dead (hS : Same EA EB On R) (op : Byte) {s : St α} (h : ¬ On s.host) : Dead On (handleBool EA op s) := by
  unfold handleBool
  deads

theorem handleBitU_dead (hS : Same EA EB On R) (op : Byte) {s : St α} (h : ¬ On s.host) : Dead On (handleBitU EA op s) := by
  unfold handleBitU
  deads

theorem handleBitI_dead (hS : Same EA EB On R) (op : Byte) {s : St α} (h : ¬ On s.host) : Dead On (handleBitI EA op s) := by
  unfold handleBitI
  deads

theorem handleBitBool_dead (hS : Same EA EB On R) (op : Byte) {s : St α} (h : ¬ On s.host) : Dead On (handleBitBool EA op s) := by
  unfold handleBitBool
  deads

theorem handlePad_dead (hS : Same EA EB On R) {s : St α} (h : ¬ On s.host) : Dead On (handlePad EA s) := by
  unfold handlePad
  deads

theorem handleFill_dead (hS : Same EA EB On R) {s : St α} (h : ¬ On s.host) : Dead On (handleFill EA s) := by
  unfold handleFill
  deads

theorem handleArrFixed_dead (hS : Same EA EB On R) (op : Byte) {s : St α} (h : ¬ On s.host) : Dead On (handleArrFixed EA op s) := by
  unfold handleArrFixed
  deads

theorem handleArrPre_dead (hS : Same EA EB On R) (p : Pre) (op : Byte) {s : St α} (h : ¬ On s.host) : Dead On (handleArrPre EA p op s) := by
  unfold handleArrPre
  deads

theorem handleArrEnd_dead (hS : Same EA EB On R) {s : St α} (h : ¬ On s.host) : Dead On (handleArrEnd EA s) := by
  unfold handleArrEnd
  deads

theorem handleArrEof_dead (hS : Same EA EB On R) {s : St α} (h : ¬ On s.host) : Dead On (handleArrEof EA s) := by
  unfold handleArrEof
  deads

theorem handleArrDynamic_dead (hS : Same EA EB On R) (op : Byte) {s : St α} (h : ¬ On s.host) : Dead On (handleArrDynamic EA op s) := by
  unfold handleArrDynamic
  deads

theorem handleConstCheck_dead (hS : Same EA EB On R) {s : St α} (h : ¬ On s.host) : Dead On (handleConstCheck EA s) := by
  unfold handleConstCheck
  deads

theorem handleConstWrite_dead (hS : Same EA EB On R) {s : St α} (h : ¬ On s.host) : Dead On (handleConstWrite EA s) := by
  unfold handleConstWrite
  deads

theorem handleRange_dead (hS : Same EA EB On R) {s : St α} (h : ¬ On s.host) : Dead On (handleRange EA s) := by
  unfold handleRange
  deads

theorem handleCrc_dead (hS : Same EA EB On R) (w : Bool) {s : St α} (h : ¬ On s.host) : Dead On (handleCrc EA w s) := by
  unfold handleCrc
  deads

theorem handleEnum_dead (hS : Same EA EB On R) {s : St α} (h : ¬ On s.host) : Dead On (handleEnum EA s) := by
  unfold handleEnum
  deads

theorem handleJumpIfNot_dead (hS : Same EA EB On R) {s : St α} (h : ¬ On s.host) : Dead On (handleJumpIfNot EA s) := by
  unfold handleJumpIfNot
  deads

theorem handleSwitch_dead (hS : Same EA EB On R) {s : St α} (h : ¬ On s.host) : Dead On (handleSwitch EA s) := by
  unfold handleSwitch
  deads

theorem handleJump_dead (hS : Same EA EB On R) {s : St α} (h : ¬ On s.host) : Dead On (handleJump EA s) := by
  unfold handleJump
  deads

theorem handleSwitchTable_dead (hS : Same EA EB On R) {s : St α} (h : ¬ On s.host) : Dead On (handleSwitchTable EA s) := by
  unfold handleSwitchTable
  deads

theorem handleLoadCtx_dead (hS : Same EA EB On R) (op : Byte) {s : St α} (h : ¬ On s.host) : Dead On (handleLoadCtx EA op s) := by
  unfold handleLoadCtx
  deads

theorem handleStoreCtx_dead (hS : Same EA EB On R) (op : Byte) {s : St α} (h : ¬ On s.host) : Dead On (handleStoreCtx EA op s) := by
  unfold handleStoreCtx
  deads

theorem handleEmit_dead (hS : Same EA EB On R) {s : St α} (h : ¬ On s.host) : Dead On (handleEmit EA s) := by
  unfold handleEmit
  deads

theorem execOp_dead (hS : Same EA EB On R) (op : Byte) {s : St α} (h : ¬ On s.host) : Dead On (execOp EA op s) := by
  unfold execOp
  cases hd : decodeOp op <;> dsimp only
  case io t => exact handlePrim_dead hS t op h
  case ioF32 => exact handleFloat_dead hS _ op h
  case ioF64 => exact handleFloat_dead hS _ op h
  case strNull => exact handleStrNull_dead hS op h
  case strPre p => exact handleStrPre_dead hS p op h
  case rawBytes => exact handleRaw_dead hS op h
  case ibin o => exact binary_dead _ (ibinEval_ne o) h
  case fbin o => exact binary_dead _ (fbinEval_ne _ o) h
  case un o => exact unary_dead _ (unEval_ne _ o) h
  case ioBool => exact handleBool_dead hS op h
  case bitU => exact handleBitU_dead hS op h
  case bitI => exact handleBitI_dead hS op h
  case bitBool => exact handleBitBool_dead hS op h
  case alignPad => exact handlePad_dead hS h
  case alignFill => exact handleFill_dead hS h
  case arrFixed => exact handleArrFixed_dead hS op h
  case arrPre p => exact handleArrPre_dead hS p op h
  case arrEnd => exact handleArrEnd_dead hS h
  case arrEof => exact handleArrEof_dead hS h
  case arrDynamic => exact handleArrDynamic_dead hS op h
  case constCheck => exact handleConstCheck_dead hS h
  case constWrite => exact handleConstWrite_dead hS h
  case rangeCheck => exact handleRange_dead hS h
  case crc16 => exact handleCrc_dead hS _ h
  case crc32 => exact handleCrc_dead hS _ h
  case enumCheck => exact handleEnum_dead hS h
  case jumpIfNot => exact handleJumpIfNot_dead hS h
  case switch => exact handleSwitch_dead hS h
  case jump => exact handleJump_dead hS h
  case switchTable => exact handleSwitchTable_dead hS h
  case loadCtx => exact handleLoadCtx_dead hS op h
  case storeCtx => exact handleStoreCtx_dead hS op h
  case emit => exact handleEmit_dead hS h
  all_goals deads

theorem step_dead (hS : Same EA EB On R) {s : St α} (h : ¬ On s.host) : Dead On (step EA s) := by
  unfold step
  split
  · exact h
  · rename_i op _
    have hh : (alignSt op { s with ip := s.ip + 1 }).host = s.host := by unfold alignSt; split <;> rfl
    exact execOp_dead hS op (by rw [hh]; exact h)

theorem exec_dead (hS : Same EA EB On R) (n : Nat) {s : St α} (h : ¬ On s.host) : Dead On (exec EA n s) := by
  induction n generalizing s with
  | zero => exact h
  | succ n ih =>
    have := step_dead hS h
    rw [exec_succ]
    cases hr : step EA s with
    | run s1 => rw [hr] at this; exact ih this
    | stop e s1 => rw [hr] at this; exact this
    | ub u => trivial

theorem step_fol (hS : Same EA EB On R) {s : St α} {b : β} (hR : R s.host b) : Fol On R (step EA s) (step EB (s.wh b)) := by
  unfold step
  rw [hS.prog, show (s.wh b).ip = s.ip from rfl]
  cases h : EA.prog[s.ip]? with
  | none => exact fun _ => ⟨b, rfl, hR⟩
  | some op =>
    have : alignSt op { s.wh b with ip := s.ip + 1 } = (alignSt op { s with ip := s.ip + 1 }).wh b := by
      unfold alignSt
      split <;> rename_i hc
      · rw [if_pos (by simpa [St.wh] using hc)]; rfl
      · rw [if_neg (by simpa [St.wh] using hc)]; rfl
    dsimp only
    rw [this]
    have hh : (alignSt op { s with ip := s.ip + 1 }).host = s.host := by unfold alignSt; split <;> rfl
    exact execOp_fol hS op (by rw [hh]; exact hR)

/-- A run that succeeds with its host in `On` is followed by the other host, with the same result. -/
theorem exec_mimics (hS : Same EA EB On R) {n : Nat} {s sf : St α} {b : β} (h : exec EA n s = .stop .ok sf) (ho : On sf.host)
    (hR : R s.host b) : ∃ b', exec EB n (s.wh b) = .stop .ok (sf.wh b') ∧ R sf.host b' := by
  induction n generalizing s b with
  | zero => simp [exec_zero] at h
  | succ n ih =>
    have hf := step_fol hS hR
    rw [exec_succ] at h
    rw [exec_succ]
    cases hr : step EA s with
    | run s1 =>
      rw [hr] at h hf
      replace h : exec EA n s1 = .stop .ok sf := h
      have ho1 : On s1.host := by
        by_cases hn : On s1.host
        · exact hn
        · have := exec_dead hS n hn
          rw [h] at this
          exact absurd ho this
      obtain ⟨b1, hb, hR1⟩ := hf ho1
      rw [hb]
      exact ih h hR1
    | stop e s1 =>
      rw [hr] at h hf
      simp only [Res.stop.injEq] at h
      obtain ⟨rfl, rfl⟩ := h
      obtain ⟨b1, hb, hR1⟩ := hf ho
      rw [hb]
      exact ⟨b1, rfl, hR1⟩
    | ub u => rw [hr] at h; cases h

end

end Cnd
