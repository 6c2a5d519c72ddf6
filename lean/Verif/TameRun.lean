import Verif.SafeRun
import Verif.Tame
import Verif.Props.Sch
/-
  Runs of checked packet descriptions (for C66): every piece of code ends with a result or comes to its end.
-/

set_option linter.unusedVariables false

namespace Cnd
variable {σ : Type}

/-- Position in bits. -/
def St.at (s : St σ) : Nat := 8 * s.cursor + s.bit

/-- The state agrees with what is known. -/
structure Good (a : Know) (s : St σ) : Prop where
  bit : s.bit < 8
  trans : s.trans = .none
  opt : s.opt = true → a.opt = true
  fit : a.behind = false → s.at ≤ 8 * s.buf.length
  al : a.mid = false → s.bit = 0

theorem Good.mono {a b : Know} {s : St σ} (h : Good a s) (hab : a.le b = true) : Good b s := by
  obtain ⟨a1, a2, a3⟩ := a
  obtain ⟨b1, b2, b3⟩ := b
  simp only [Know.le, Bool.and_eq_true, Bool.or_eq_true, Bool.not_eq_true'] at hab
  obtain ⟨⟨h1, h2⟩, h3⟩ := hab
  refine ⟨h.bit, h.trans, fun e => ?_, fun e => h.fit ?_, fun e => h.al ?_⟩
  · have := h.opt e
    rcases h1 with h1 | h1
    · exact absurd (this.symm.trans h1) (by decide)
    · exact h1
  · dsimp only at *
    subst e
    rcases h2 with h2 | h2
    · exact h2
    · cases h2
  · dsimp only at *
    subst e
    rcases h3 with h3 | h3
    · exact h3
    · cases h3

theorem le_join_left (a b : Know) : a.le (a.join b) = true := by
  obtain ⟨a1, a2, a3⟩ := a
  obtain ⟨b1, b2, b3⟩ := b
  cases a1 <;> cases a2 <;> cases a3 <;> simp [Know.le, Know.join]

theorem le_join_right (a b : Know) : b.le (a.join b) = true := by
  obtain ⟨a1, a2, a3⟩ := a
  obtain ⟨b1, b2, b3⟩ := b
  cases b1 <;> cases b2 <;> cases b3 <;> simp [Know.le, Know.join]

/-- The state after a piece of code of `k` bytes. -/
structure Land (k : Nat) (a : Know) (adv : Bool) (s s' : St σ) : Prop where
  ip : s'.ip = s.ip + k
  loops : s'.loops = s.loops
  len : s'.buf.length = s.buf.length
  good : Good a s'
  fwd : s.at ≤ s'.at
  adv : adv = true → s.at < s'.at ∨ s'.buf.length ≤ s'.cursor

/-- From every state at the code that agrees with `a`: the run ends with a result, or comes to the end of the code. -/
def Seg (E : Env σ) (code : List Byte) (a a' : Know) (adv : Bool) : Prop :=
  ∀ s, At E.prog s.ip code → Good a s → Ends E (Land code.length a' adv s) s

theorem at_cursor {s s' : St σ} (h : s.at ≤ s'.at) (hb : s'.bit < 8) : s.cursor ≤ s'.cursor := by
  unfold St.at at h; omega

theorem Land.then {k l : Nat} {a b : Know} {v w : Bool} {s m s' : St σ} (h1 : Land k a v s m) (h2 : Land l b w m s') :
    Land (k + l) b (v || w) s s' where
  ip := by rw [h2.ip, h1.ip]; omega
  loops := h2.loops.trans h1.loops
  len := h2.len.trans h1.len
  good := h2.good
  fwd := Nat.le_trans h1.fwd h2.fwd
  adv := by
    intro h
    have hf := h1.fwd
    have hg := h2.fwd
    rcases Bool.or_eq_true _ _ ▸ h with h | h
    · rcases h1.adv h with h | h
      · left; omega
      · right; have := at_cursor h2.fwd h2.good.bit; have := h2.len; omega
    · rcases h2.adv h with h | h
      · left; omega
      · right; exact h

theorem Land.weaken {k : Nat} {a b : Know} {v w : Bool} {s s' : St σ} (h : Land k a v s s') (hab : a.le b = true)
    (hw : w = true → v = true) : Land k b w s s' :=
  ⟨h.ip, h.loops, h.len, h.good.mono hab, h.fwd, fun e => h.adv (hw e)⟩

section
variable {E : Env σ} {a b c : Know} {v w : Bool} {x y : List Byte}

theorem Seg.then (h1 : Seg E x a b v) (h2 : Seg E y b c w) : Seg E (x ++ y) a c (v || w) := by
  intro s hat hg
  refine (h1 s hat.left hg).bind fun m hm => ?_
  refine (h2 m (hm.ip ▸ hat.right) hm.good).mono fun s' hs => ?_
  rw [List.length_append]
  exact hm.then hs

theorem Seg.weaken (h : Seg E x a b v) (hb : b.le c = true) (hw : w = true → v = true) : Seg E x a c w :=
  fun s hat hg => (h s hat hg).mono fun s' hs => hs.weaken hb hw

theorem Seg.nil : Seg E [] a a false :=
  fun s _ hg => .here ⟨rfl, rfl, rfl, hg, Nat.le_refl _, fun h => by cases h⟩

/-- One instruction. -/
theorem Seg.one {op : Byte} {rest : List Byte}
    (h : ∀ s, At E.prog s.ip (op :: rest) → Good a s → Safe (Land (rest.length + 1) b v s) (execOp E op (pre op s))) :
    Seg E (op :: rest) a b v := by
  intro s hat hg
  refine Ends.of_post (P := Land (rest.length + 1) b v s) ?_ fun s' hs => .here hs
  rw [step_pre hat]
  exact h s hat hg

theorem post_imp {P P' : St σ → Prop} {r : Res σ} (h : Safe P r) (hp : ∀ s', P s' → P' s') : Safe P' r := by
  cases r with
  | run s => exact hp s h
  | stop e s => trivial
  | ub u => exact h.elim

/-! ### Instructions by kind -/

/-- A byte-aligned field. -/
theorem land_took {op : Byte} {k n : Nat} {s s' : St σ} (ha : aligns op = true) (hn : 0 < n) (hg : Good a s)
    (h : Took k n (pre op s) s') : Land (k + 1) ⟨false, a.behind && a.opt, false⟩ (!a.opt) s s' := by
  have hf := pre_fields op s
  have hp := pre_pos op s hg.bit
  have hb := hp.2.2.2.2.1 ha
  have hpos : (pre op s).at ≤ s'.at ∧ ((pre op s).opt = false → (pre op s).at < s'.at ∧ s'.cursor ≤ s.buf.length) := by
    have h3 := h.bit
    unfold St.at
    rcases h.pos with ⟨e1, e2⟩ | ⟨e1, e2⟩
    · refine ⟨by omega, fun e => ?_⟩
      rw [e1] at e; cases e
    · refine ⟨by omega, fun _ => ⟨by omega, ?_⟩⟩
      rw [hf.1] at e2; exact e2
  have hlen : s'.buf.length = s.buf.length := by rw [h.len, hf.1]
  refine ⟨by rw [h.ip, hf.2.1]; omega, by rw [h.loops, hf.2.2.2.1], hlen, ⟨by rw [h.bit]; omega, h.trans, ?_, ?_, fun _ => h.bit⟩, ?_, ?_⟩
  · intro e; rw [h.opt] at e; cases e
  · intro e
    show s'.at ≤ _
    rw [hlen]
    unfold St.at
    rw [h.bit]
    rcases h.pos with ⟨e1, e2⟩ | ⟨e1, e2⟩
    · rw [hf.2.2.2.2.2.2.2.2.2.2.2] at e1
      have := hg.opt e1
      rw [this, Bool.and_true] at e
      have := pre_cursor_le op s (hg.fit e)
      omega
    · rw [hf.1] at e2; omega
  · have := hp.1; unfold St.at at *; omega
  · intro e
    left
    have ho : (pre op s).opt = false := by
      rw [hf.2.2.2.2.2.2.2.2.2.2.2]
      cases hs : s.opt with
      | false => rfl
      | true => rw [hg.opt hs] at e; cases e
    have := (hpos.2 ho).1
    have := hp.1
    unfold St.at at *; omega

/-- A field that is always there: constants and checksums. -/
theorem land_fixed {op : Byte} {k : Nat} {s s' : St σ} (ha : aligns op = true) (hg : Good a s)
    (h : Went k (pre op s) s' ∧ s'.bit = (pre op s).bit ∧ s'.trans = (pre op s).trans ∧ s'.opt = (pre op s).opt ∧
      (pre op s).cursor < s'.cursor ∧ s'.cursor ≤ (pre op s).buf.length) :
    Land (k + 1) ⟨a.opt, false, false⟩ true s s' := by
  have hf := pre_fields op s
  have hp := pre_pos op s hg.bit
  have hb := hp.2.2.2.2.1 ha
  obtain ⟨h, h1, h2, h3, h4, h5⟩ := h
  rw [hf.1] at h5
  have hlen : s'.buf.length = s.buf.length := by rw [h.len, hf.1]
  have hpp := hp.1
  refine ⟨by rw [h.ip, hf.2.1]; omega, by rw [h.loops, hf.2.2.2.1], hlen, ⟨by omega, ?_, ?_, ?_, fun _ => by omega⟩, ?_, ?_⟩
  · rw [h2, hf.2.2.2.2.2.2.1]; exact hg.trans
  · intro e; rw [h3, hf.2.2.2.2.2.2.2.2.2.2.2] at e; exact hg.opt e
  · intro _; unfold St.at; omega
  · unfold St.at; omega
  · intro _; left; unfold St.at; omega

/-- Bits. -/
theorem land_bits {op : Byte} {k n : Nat} {s s' : St σ} (ha : aligns op = false) (hg : Good a s)
    (h : Bitted k n (pre op s) s') : Land (k + 1) ⟨a.opt, a.behind, true⟩ (decide (0 < n)) s s' := by
  rw [pre_unaligned op s ha] at h
  have hpos : s'.at = s.at + room s.buf.length s.at n := h.pos
  have hr : room s.buf.length s.at n ≤ 8 * s.buf.length - s.at := by unfold room; omega
  have hlen : s'.buf.length = s.buf.length := h.len
  refine ⟨by rw [h.ip]; dsimp only; omega, h.loops, hlen, ⟨h.bit, by rw [h.trans]; exact hg.trans, ?_, ?_, fun e => by cases e⟩, by omega, ?_⟩
  · intro e; rw [h.opt] at e; exact hg.opt e
  · intro e; have := hg.fit e; omega
  · intro e
    have hn : 0 < n := by simpa using e
    by_cases hc : s.at < 8 * s.buf.length
    · left; rw [hpos]; unfold room; omega
    · right
      have h8 := h.bit
      unfold St.at at *
      omega

/-- Instructions that change nothing that matters here. -/
theorem land_idle {op : Byte} {k : Nat} {s s' : St σ} (ha : aligns op = false) (hg : Good a s) (h : Idle k (pre op s) s') :
    Land (k + 1) a false s s' := by
  rw [pre_unaligned op s ha] at h
  have hat : s'.at = s.at := by unfold St.at; rw [h.cursor, h.bit]
  refine ⟨by rw [h.ip]; dsimp only; omega, h.loops, h.len, ⟨by rw [h.bit]; exact hg.bit, by rw [h.trans]; exact hg.trans, ?_, ?_, ?_⟩,
    by omega, fun e => by cases e⟩
  · intro e; rw [h.opt] at e; exact hg.opt e
  · intro e; have := hg.fit e; rw [hat, h.len]; exact this
  · intro e; rw [h.bit]; exact hg.al e

/-! ### Fields -/

def Op.scalar : Op → Bool
  | .io _ | .ioF32 | .ioF64 | .ioBool => true
  | _ => false

theorem scalar_op (op : Byte) (h : (scalarWidth op.toNat).isSome = true) : aligns op = true ∧ (decodeOp op).scalar = true := by
  have H : ∀ op : Byte, (scalarWidth op.toNat).isSome = true → aligns op = true ∧ (decodeOp op).scalar = true := by
    decide +kernel
  exact H op h

theorem ty_pos (t : Ty) : 0 < t.size := by cases t <;> decide

theorem seg_scalar {op k0 k1 : Byte} (hop : (scalarWidth op.toNat).isSome = true) :
    Seg E [op, k0, k1] a ⟨false, a.behind && a.opt, false⟩ (!a.opt) := by
  obtain ⟨ha, hd⟩ := scalar_op op hop
  refine Seg.one fun s hat hg => ?_
  have hf := pre_fields op s
  have hl := hat.le (by simp)
  have hb := (pre_pos op s hg.bit).2.2.2.2.1 ha
  have ht : (pre op s).trans = .none := by rw [hf.2.2.2.2.2.2.1]; exact hg.trans
  have hl' : (pre op s).ip + 2 ≤ E.prog.length := by rw [hf.2.1]; simp only [List.length_cons, List.length_nil] at hl; omega
  unfold execOp
  cases hdec : decodeOp op with
  | io t => exact post_imp (handlePrim_safe E t op _ hl' hb ht) fun s' h => land_took ha (ty_pos t) hg h
  | ioF32 => exact post_imp (handleFloat_safe E false op _ hl' hb ht) fun s' h => land_took ha (by decide) hg h
  | ioF64 => exact post_imp (handleFloat_safe E true op _ hl' hb ht) fun s' h => land_took ha (by decide) hg h
  | ioBool => exact post_imp (handleBool_safe E op _ hl' hb ht) fun s' h => land_took ha (by decide) hg h
  | _ => rw [hdec] at hd; cases hd

theorem tag_isScalar (t : Ty) : (scalarWidth t.tag.toNat).isSome = true := by cases t <;> rfl

theorem tag_word (t : Ty) : tyTag (leWord [t.tag]) = some t := by cases t <;> rfl

/-- The state after an integer field that was there. -/
theorem prim_there {t : Ty} {k0 k1 : Byte} {s : St σ} (hat : At E.prog s.ip [t.tag, k0, k1]) (hg : Good a s) (ho : a.opt = false) :
    Ends E (fun s' => Land 3 ⟨false, false, false⟩ true s s' ∧ t.size ≤ s'.cursor) s := by
  have ha : aligns t.tag = true := by cases t <;> rfl
  have hf := pre_fields t.tag s
  have hl := hat.le (by simp)
  have hb := (pre_pos t.tag s hg.bit).2.2.2.2.1 ha
  have ht : (pre t.tag s).trans = .none := by rw [hf.2.2.2.2.2.2.1]; exact hg.trans
  have hl' : (pre t.tag s).ip + 2 ≤ E.prog.length := by rw [hf.2.1]; simp only [List.length_cons, List.length_nil] at hl; omega
  refine Ends.of_post (P := fun s' => Land 3 ⟨false, false, false⟩ true s s' ∧ t.size ≤ s'.cursor) ?_ fun s' h => .here h
  rw [step_pre hat]
  have hx : execOp E t.tag (pre t.tag s) = handlePrim E t t.tag (pre t.tag s) := by
    unfold execOp; rw [io_decode]
  rw [hx]
  refine post_imp (handlePrim_safe E t t.tag _ hl' hb ht) fun s' h => ⟨?_, ?_⟩
  · have := land_took ha (ty_pos t) hg h
    rw [ho, Bool.and_false] at this
    exact this
  · rcases h.pos with ⟨e, _⟩ | ⟨e, _⟩
    · rw [hf.2.2.2.2.2.2.2.2.2.2.2] at e
      have := hg.opt e
      rw [ho] at this; cases this
    · omega

theorem seg_rangeCheck {t : Ty} {lo hi : Word} (hb : a.behind = false) (hm : a.mid = false) : Seg E (rangeCode t lo hi) a a false := by
  have h := Seg.one (E := E) (a := a) (b := a) (v := false) (op := 0x42) (rest := [t.tag] ++ (leBytes t.size lo ++ leBytes t.size hi)) ?_
  · exact h
  intro s hat hg
  have hp := pre_unaligned 0x42 s rfl
  have hl := hat.le (by simp)
  have hat1 : At E.prog (s.ip + 1) [t.tag] := hat.tail.left
  simp only [List.length_append, List.length_cons, List.length_nil, leBytes_length] at hl
  have hft : tyTag (fetch E.prog (pre 0x42 s).ip 1).1 = some t := by
    rw [hp]
    rw [show fetch E.prog (s.ip + 1) 1 = (leWord [t.tag], s.ip + 1 + 1) from hat1.fetch rfl (by omega)]
    exact tag_word t
  have hc : (pre 0x42 s).cursor ≤ (pre 0x42 s).buf.length := by
    rw [hp]; have := hg.fit hb; unfold St.at at this; dsimp only; omega
  have := handleRange_safe E (pre 0x42 s) t hft (by rw [hp]; dsimp only; omega) hc
  refine post_imp this fun s' h => ?_
  have := land_idle (op := 0x42) rfl hg h
  rw [show ([t.tag] ++ (leBytes t.size lo ++ leBytes t.size hi)).length = 1 + 2 * t.size by
    simp only [List.length_append, List.length_cons, List.length_nil, leBytes_length]; omega]
  exact this

theorem seg_range {t : Ty} {k0 k1 : Byte} {lo hi : Word} (h : (a.behind && a.opt) = false) :
    Seg E ([t.tag, k0, k1] ++ rangeCode t lo hi) a ⟨false, false, false⟩ (!a.opt) := by
  have h1 := seg_scalar (E := E) (a := a) (k0 := k0) (k1 := k1) (tag_isScalar t)
  rw [h] at h1
  exact (h1.then (seg_rangeCheck (t := t) (lo := lo) (hi := hi) rfl rfl)).weaken (by decide) (by simp)

theorem enum_ends {t : Ty} {vals : List Word} {s : St σ} (hat : At E.prog s.ip (enumCode t vals)) (hn : vals.length < 2 ^ 16)
    (hg : Good ⟨false, false, false⟩ s) (hc : t.size ≤ s.cursor) :
    Ends E (Land (enumCode t vals).length ⟨false, false, false⟩ false s) s := by
  have hat' : At E.prog s.ip (0x4B :: ([t.tag] ++ (leBytes 2 (BitVec.ofNat 64 vals.length) ++ vals.flatMap (leBytes t.size)))) := hat
  have hb := hg.al rfl
  have hp : pre 0x4B s = { s with ip := s.ip + 1 } := by
    rw [pre_aligned 0x4B s rfl]
    unfold St.fieldPos
    rw [if_pos hb]
    cases s; simp_all
  have hl := hat'.le (by simp)
  have hat1 : At E.prog (s.ip + 1) [t.tag] := hat'.tail.left
  have hat2 : At E.prog (s.ip + 2) (leBytes 2 (BitVec.ofNat 64 vals.length)) := hat'.tail.right.left
  simp only [List.length_append, List.length_cons, List.length_nil, leBytes_length, flatMap_leBytes_length] at hl
  have hft : tyTag (fetch E.prog (pre 0x4B s).ip 1).1 = some t := by
    rw [hp]
    rw [show fetch E.prog (s.ip + 1) 1 = (leWord [t.tag], s.ip + 1 + 1) from hat1.fetch rfl (by omega)]
    exact tag_word t
  have hcount : (fetch E.prog ((pre 0x4B s).ip + 1) 2).1.toNat = vals.length := by
    rw [hp]
    rw [show fetch E.prog (s.ip + 1 + 1) 2 = (leWord (leBytes 2 (BitVec.ofNat 64 vals.length)), s.ip + 2 + 2) from
      hat2.fetch (by simp) (by omega)]
    show (leWord (leBytes 2 (BitVec.ofNat 64 vals.length))).toNat = _
    have h64 : (BitVec.ofNat 64 vals.length : Word).toNat = vals.length := by
      rw [BitVec.toNat_ofNat, Nat.mod_eq_of_lt (by omega)]
    rw [leWord_leBytes_lt (by omega) (by rw [h64]; omega), h64]
  have hcl : (pre 0x4B s).cursor ≤ (pre 0x4B s).buf.length := by
    rw [hp]; have := hg.fit rfl; unfold St.at at this; dsimp only; omega
  have hle : (pre 0x4B s).ip + (3 + (fetch E.prog ((pre 0x4B s).ip + 1) 2).1.toNat * t.size) ≤ E.prog.length := by
    rw [hcount, hp]; dsimp only; omega
  have := handleEnum_safe E (pre 0x4B s) t hft hle hcl (by rw [hp]; exact hc)
  refine Ends.of_post (P := Land (enumCode t vals).length ⟨false, false, false⟩ false s) ?_ fun s' h => .here h
  rw [step_pre hat']
  refine post_imp this fun s' h => ?_
  rw [hcount, hp] at h
  have hat0 : s'.at = s.at := by unfold St.at; rw [h.cursor, h.bit]
  refine ⟨?_, h.loops, h.len, ⟨by rw [h.bit]; exact hg.bit, by rw [h.trans]; exact hg.trans, ?_, ?_, ?_⟩, by omega, fun e => by cases e⟩
  · rw [h.ip]
    unfold enumCode
    simp only [List.length_append, List.length_cons, List.length_nil, leBytes_length, flatMap_leBytes_length]
    omega
  · intro e; rw [h.opt] at e; exact hg.opt e
  · intro e; have := hg.fit e; rw [hat0, h.len]; exact this
  · intro e; rw [h.bit]; exact hg.al e

theorem seg_enum {t : Ty} {k0 k1 : Byte} {vals : List Word} (ho : a.opt = false) (hn : vals.length < 2 ^ 16) :
    Seg E ([t.tag, k0, k1] ++ enumCode t vals) a ⟨false, false, false⟩ true := by
  intro s hat hg
  refine (prim_there hat.left hg ho).bind fun m hm => ?_
  refine (enum_ends (by rw [hm.1.ip]; exact hat.right) hn hm.1.good hm.2).mono fun s' hs => ?_
  rw [List.length_append]
  exact (hm.1.then hs)

theorem seg_const {t : Ty} {k0 k1 : Byte} {x : Word} : Seg E (constCode t k0 k1 x) a ⟨a.opt, false, false⟩ true := by
  have h := Seg.one (E := E) (a := a) (b := ⟨a.opt, false, false⟩) (v := true) (op := 0x40) (rest := [k0, k1, t.tag] ++ leBytes t.size x) ?_
  · exact h
  intro s hat hg
  have hf := pre_fields 0x40 s
  have hl := hat.le (by simp)
  have hat1 : At E.prog (s.ip + 1 + 2) [t.tag] := (At.right (a := [k0, k1]) (b := [t.tag]) (by exact hat.tail.left))
  simp only [List.length_append, List.length_cons, List.length_nil, leBytes_length] at hl
  have hft : tyTag (fetch E.prog ((pre 0x40 s).ip + 2) 1).1 = some t := by
    rw [hf.2.1]
    rw [show fetch E.prog (s.ip + 1 + 2) 1 = (leWord [t.tag], s.ip + 1 + 2 + 1) from hat1.fetch rfl (by omega)]
    exact tag_word t
  have := handleConstCheck_safe E (pre 0x40 s) t hft (by rw [hf.2.1]; omega)
  refine post_imp this fun s' h => ?_
  have hs := ty_pos t
  have := land_fixed (op := 0x40) rfl hg ⟨h.1, h.2.1, h.2.2.1, h.2.2.2.1, by have := h.2.2.2.2.1; omega, h.2.2.2.2.2⟩
  rw [show ([k0, k1, t.tag] ++ leBytes t.size x).length = 3 + t.size by
    simp only [List.length_append, List.length_cons, List.length_nil, leBytes_length]]
  exact this

theorem seg_crc {p : CrcPar} (hb : a.behind = false) : Seg E (crcCode p) a ⟨a.opt, false, false⟩ true := by
  have hal : aligns (if p.w32 then 0x49 else 0x44) = true := by cases p.w32 <;> rfl
  have h := Seg.one (E := E) (a := a) (b := ⟨a.opt, false, false⟩) (v := true) (op := if p.w32 then 0x49 else 0x44)
    (rest := leBytes p.size p.poly ++ (leBytes p.size p.init ++ (leBytes p.size p.xorout ++ [p.flags]))) ?_
  · exact h
  intro s hat hg
  generalize hop : (if p.w32 then (0x49 : Byte) else 0x44) = op at *
  have hf := pre_fields op s
  have hl := hat.le (by simp)
  have hlen : (leBytes p.size p.poly ++ (leBytes p.size p.init ++ (leBytes p.size p.xorout ++ [p.flags]))).length =
      if p.w32 then 13 else 7 := by
    simp only [List.length_append, List.length_cons, List.length_nil, leBytes_length, CrcPar.size]
    cases p.w32 <;> rfl
  rw [List.length_cons, hlen] at hl
  have hc : (pre op s).cursor ≤ (pre op s).buf.length := by
    rw [hf.1]; exact pre_cursor_le op s (hg.fit hb)
  have := handleCrc_safe E p.w32 (pre op s) (by rw [hf.2.1]; omega) hc
  rw [hlen]
  rw [← crc_dispatch, hop] at this
  exact post_imp this fun s' h => land_fixed hal hg h

theorem seg_strNull {k0 k1 m0 m1 : Byte} (h : E.enc = false → a.behind = false) :
    Seg E (strNullCode k0 k1 m0 m1) a ⟨false, a.behind && a.opt, false⟩ (!a.opt) := by
  refine Seg.one (op := 0x30) (rest := [k0, k1, m0, m1]) fun s hat hg => ?_
  have hf := pre_fields 0x30 s
  have hl := hat.le (by simp)
  simp only [List.length_cons, List.length_nil] at hl
  have hb := (pre_pos 0x30 s hg.bit).2.2.2.2.1 rfl
  have ht : (pre 0x30 s).trans = .none := by rw [hf.2.2.2.2.2.2.1]; exact hg.trans
  have := handleStrNull_safe E 0x30 (pre 0x30 s) (by rw [hf.2.1]; omega) hb ht
    fun he => by rw [hf.1]; exact pre_cursor_le 0x30 s (hg.fit (h he))
  exact post_imp this fun s' ⟨n, hn, h⟩ => land_took (op := 0x30) rfl hn hg h

theorem seg_strPre {p : Pre} {k0 k1 : Byte} : Seg E [p.strOp, k0, k1] a ⟨false, a.behind && a.opt, false⟩ (!a.opt) := by
  refine Seg.one fun s hat hg => ?_
  have ha : aligns p.strOp = true := by cases p <;> rfl
  have hx : execOp E p.strOp (pre p.strOp s) = handleStrPre E p p.strOp (pre p.strOp s) := by cases p <;> rfl
  have hf := pre_fields p.strOp s
  have hl := hat.le (by simp)
  simp only [List.length_cons, List.length_nil] at hl
  have hb := (pre_pos p.strOp s hg.bit).2.2.2.2.1 ha
  have ht : (pre p.strOp s).trans = .none := by rw [hf.2.2.2.2.2.2.1]; exact hg.trans
  rw [hx]
  exact post_imp (handleStrPre_safe E p p.strOp (pre p.strOp s) (by rw [hf.2.1]; omega) hb ht)
    fun s' ⟨n, hn, h⟩ => land_took ha hn hg h

theorem byte_word (n : Byte) : (leWord [n]).toNat = n.toNat := by
  rw [toNat_leWord _ (by simp)]; simp [leNat]

theorem seg_bitU {k0 k1 n : Byte} (hn : n.toNat ≤ 64) :
    Seg E [0x20, k0, k1, n] a ⟨a.opt, a.behind, true⟩ (decide (0 < n.toNat)) := by
  refine Seg.one fun s hat hg => ?_
  have hp := pre_unaligned 0x20 s rfl
  have hl := hat.le (by simp)
  simp only [List.length_cons, List.length_nil] at hl
  have hf : (fetch E.prog ((pre 0x20 s).ip + 2) 1).1.toNat = n.toNat := by
    rw [hp]
    rw [show fetch E.prog (s.ip + 1 + 2) 1 = (leWord [n], s.ip + 3 + 1) from hat.tail.tail.tail.fetch rfl (by omega)]
    exact byte_word n
  have := handleBitU_safe E 0x20 (pre 0x20 s) (by rw [hp]; dsimp only; omega) (by rw [hp]; exact hg.bit) (by rw [hf]; exact hn)
  rw [hf] at this
  exact post_imp this fun s' h => land_bits (op := 0x20) rfl hg h

theorem seg_bitI {k0 k1 n : Byte} (h0 : 0 < n.toNat) (hn : n.toNat ≤ 64) :
    Seg E [0x21, k0, k1, n] a ⟨a.opt, a.behind, true⟩ true := by
  refine Seg.one fun s hat hg => ?_
  have hp := pre_unaligned 0x21 s rfl
  have hl := hat.le (by simp)
  simp only [List.length_cons, List.length_nil] at hl
  have hf : (fetch E.prog ((pre 0x21 s).ip + 2) 1).1.toNat = n.toNat := by
    rw [hp]
    rw [show fetch E.prog (s.ip + 1 + 2) 1 = (leWord [n], s.ip + 3 + 1) from hat.tail.tail.tail.fetch rfl (by omega)]
    exact byte_word n
  have := handleBitI_safe E 0x21 (pre 0x21 s) (by rw [hp]; dsimp only; omega) (by rw [hp]; exact hg.bit) (by rw [hf]; exact h0)
    (by rw [hf]; exact hn)
  rw [hf] at this
  refine post_imp this fun s' h => ?_
  have := land_bits (op := 0x21) rfl hg h
  rw [decide_eq_true h0] at this
  exact this

theorem seg_bitBool {k0 k1 : Byte} : Seg E [0x22, k0, k1] a ⟨a.opt, a.behind, true⟩ true := by
  refine Seg.one fun s hat hg => ?_
  have hp := pre_unaligned 0x22 s rfl
  have hl := hat.le (by simp)
  simp only [List.length_cons, List.length_nil] at hl
  have := handleBitBool_safe E 0x22 (pre 0x22 s) (by rw [hp]; dsimp only; omega) (by rw [hp]; exact hg.bit)
  exact post_imp this fun s' h => land_bits (op := 0x22) rfl hg h

theorem seg_pad_enc (henc : E.enc = true) {n : Byte} (hn : n.toNat ≤ 64) :
    Seg E [0x23, n] a ⟨a.opt, a.behind, true⟩ (decide (0 < n.toNat)) := by
  refine Seg.one fun s hat hg => ?_
  have hp := pre_unaligned 0x23 s rfl
  have hl := hat.le (by simp)
  simp only [List.length_cons, List.length_nil] at hl
  have hf : (fetch E.prog (pre 0x23 s).ip 1).1.toNat = n.toNat := by
    rw [hp]
    rw [show fetch E.prog (s.ip + 1) 1 = (leWord [n], s.ip + 1 + 1) from hat.tail.fetch rfl (by omega)]
    exact byte_word n
  have := handlePad_safe_enc E henc (pre 0x23 s) (by rw [hp]; dsimp only; omega) (by rw [hp]; exact hg.bit) (by rw [hf]; exact hn)
  rw [hf] at this
  exact post_imp this fun s' h => land_bits (op := 0x23) rfl hg h

theorem seg_pad_dec (henc : E.enc = false) {n : Byte} : Seg E [0x23, n] a ⟨a.opt, true, true⟩ (decide (0 < n.toNat)) := by
  refine Seg.one fun s hat hg => ?_
  have hp := pre_unaligned 0x23 s rfl
  have hl := hat.le (by simp)
  simp only [List.length_cons, List.length_nil] at hl
  have hf : (fetch E.prog (pre 0x23 s).ip 1).1.toNat = n.toNat := by
    rw [hp]
    rw [show fetch E.prog (s.ip + 1) 1 = (leWord [n], s.ip + 1 + 1) from hat.tail.fetch rfl (by omega)]
    exact byte_word n
  have := handlePad_safe_dec E henc (pre 0x23 s) (by rw [hp]; dsimp only; omega)
  rw [hf] at this
  refine post_imp this fun s' h => ?_
  rw [hp] at h
  have hpos : s'.at = s.at + n.toNat := h.pos
  refine ⟨h.ip, h.loops, h.len, ⟨h.bit, by rw [h.trans]; exact hg.trans, fun e => ?_, fun e => (by cases e), fun e => (by cases e)⟩, by omega, ?_⟩
  · rw [h.opt] at e; exact hg.opt e
  · intro e; left
    have : 0 < n.toNat := by simpa using e
    omega

theorem seg_fill {n : Byte} : Seg E [0x24, n] a ⟨a.opt, a.behind, a.mid && a.behind⟩ false := by
  refine Seg.one fun s hat hg => ?_
  have hp := pre_unaligned 0x24 s rfl
  have hl := hat.le (by simp)
  simp only [List.length_cons, List.length_nil] at hl
  have := handleFill_safe E (pre 0x24 s) (by rw [hp]; dsimp only; omega) (by rw [hp]; exact hg.bit)
  refine post_imp this fun s' h => ?_
  have hL := land_bits (op := 0x24) rfl hg h
  refine ⟨hL.ip, hL.loops, hL.len, ⟨hL.good.bit, hL.good.trans, hL.good.opt, hL.good.fit, ?_⟩, hL.fwd, fun e => by cases e⟩
  intro e
  have e : (a.mid && a.behind) = false := e
  have hpos : s'.at = s.at + room s.buf.length s.at (if s.bit = 0 then 0 else 8 - s.bit) := by
    rw [hp] at h; exact h.pos
  have hb8 := hg.bit
  have hb8' := h.bit
  by_cases h0 : s.bit = 0
  · rw [if_pos h0] at hpos
    unfold room St.at at hpos
    omega
  · rw [if_neg h0] at hpos
    have hm : a.mid = true := by
      cases hmm : a.mid with
      | true => rfl
      | false => exact absurd (hg.al hmm) h0
    rw [hm, Bool.true_and] at e
    have := hg.fit e
    unfold room St.at at *
    omega

theorem seg_exitBit : Seg E [0x26] a a.aligned false := by
  refine Seg.one fun s hat hg => ?_
  have hp := pre_unaligned 0x26 s rfl
  show Safe _ (if (pre 0x26 s).bit > 0 then .stop .validation _ else .run _)
  split
  · trivial
  · rename_i h
    rw [hp] at h ⊢
    have h0 : s.bit = 0 := by dsimp only at h; omega
    exact ⟨rfl, rfl, rfl, ⟨hg.bit, hg.trans, hg.opt, hg.fit, fun _ => h0⟩, Nat.le_refl _, fun e => by cases e⟩

theorem idle_run {op : Byte} {k : Nat} {s s' : St σ} (ha : aligns op = false) (hs : s' = { s with ip := s.ip + 1 + k, be := s'.be, host := s'.host }) :
    Idle k (pre op s) s' := by
  rw [pre_unaligned op s ha, hs]
  exact ⟨⟨rfl, rfl, rfl⟩, rfl, rfl, rfl, rfl⟩

theorem seg_setLE : Seg E [0x01] a a false := by
  refine Seg.one fun s hat hg => ?_
  show Safe _ (.run { pre 0x01 s with be := false })
  exact land_idle (op := 0x01) (k := 0) rfl hg (idle_run rfl (by rw [pre_unaligned 0x01 s rfl]))

theorem seg_setBE : Seg E [0x02] a a false := by
  refine Seg.one fun s hat hg => ?_
  show Safe _ (.run { pre 0x02 s with be := true })
  exact land_idle (op := 0x02) (k := 0) rfl hg (idle_run rfl (by rw [pre_unaligned 0x02 s rfl]))

theorem seg_nop : Seg E [0x00] a a false := by
  refine Seg.one fun s hat hg => ?_
  show Safe _ (.run (pre 0x00 s))
  exact land_idle (op := 0x00) (k := 0) rfl hg (idle_run rfl (by rw [pre_unaligned 0x00 s rfl]))

theorem seg_enterBit : Seg E [0x25] a a false := by
  refine Seg.one fun s hat hg => ?_
  show Safe _ (.run (pre 0x25 s))
  exact land_idle (op := 0x25) (k := 0) rfl hg (idle_run rfl (by rw [pre_unaligned 0x25 s rfl]))

theorem seg_version {x : Byte} : Seg E [0x05, x] a a false := by
  refine Seg.one fun s hat hg => ?_
  have hp := pre_unaligned 0x05 s rfl
  have hl := hat.le (by simp)
  simp only [List.length_cons, List.length_nil] at hl
  show Safe _ (fet E (pre 0x05 s) 1 fun _ s => .run s)
  apply post_fetX (by rw [hp]; dsimp only; omega)
  exact land_idle (op := 0x05) (k := 1) rfl hg (idle_run rfl (by rw [hp]))

theorem seg_name {x y : Byte} : Seg E [0x07, x, y] a a false := by
  refine Seg.one fun s hat hg => ?_
  have hp := pre_unaligned 0x07 s rfl
  have hl := hat.le (by simp)
  simp only [List.length_cons, List.length_nil] at hl
  show Safe _ (fet E (pre 0x07 s) 2 fun _ s => .run s)
  apply post_fetX (by rw [hp]; dsimp only; omega)
  exact land_idle (op := 0x07) (k := 2) rfl hg (idle_run rfl (by rw [hp]))

theorem seg_enter {k0 k1 : Byte} : Seg E [0x03, k0, k1] a a false := by
  refine Seg.one fun s hat hg => ?_
  have hp := pre_unaligned 0x03 s rfl
  have hl := hat.le (by simp)
  simp only [List.length_cons, List.length_nil] at hl
  show Safe _ (fet E (pre 0x03 s) 2 fun key s => callNotify E s key.toNat 0x03 .run)
  apply post_fetX (by rw [hp]; dsimp only; omega)
  apply post_callNotify
  · intro h _
    exact land_idle (op := 0x03) (k := 2) rfl hg (idle_run rfl (by rw [hp]))
  · intro _ _; trivial

theorem seg_exit : Seg E [0x04] a a false := by
  refine Seg.one fun s hat hg => ?_
  have hp := pre_unaligned 0x04 s rfl
  show Safe _ (callNotify E (pre 0x04 s) 0 0x04 .run)
  apply post_callNotify
  · intro h _
    exact land_idle (op := 0x04) (k := 0) rfl hg (idle_run rfl (by rw [hp]))
  · intro _ _; trivial

theorem seg_struct {k0 k1 : Byte} (h : Seg E x a b v) : Seg E ([0x03, k0, k1] ++ (x ++ [0x04])) a b v :=
  (seg_enter.then (h.then seg_exit)).weaken (by obtain ⟨b1, b2, b3⟩ := b; cases b1 <;> cases b2 <;> cases b3 <;> rfl) (by simp)

end

end Cnd
