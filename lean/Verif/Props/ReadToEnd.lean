import Verif.Props.Total
import Verif.Props.Arrays
import Verif.Props.JsonFind
/-
  C84: arrays that reach to the end of the packet (`@eof`, OP_ARR_EOF = 0x3A). How many elements there are is not in the packet; the
  rounds go on as long as there are bytes.
-/

namespace Cnd

/-! ### Descriptions and their records -/

/-- A packet description that ends in an array reaching to the end of the packet. -/
inductive EndSch
  | arr (k0 k1 : Byte) (g : Sch)
  | after (f : Sch) (e : EndSch)
  | before (e : EndSch) (f : Sch)
  | struct (k0 k1 : Byte) (e : EndSch)

def EndSch.code : EndSch → List Byte
  | .arr k0 k1 g => [0x3A, k0, k1] ++ (g.code ++ [0x38])
  | .after f e => f.code ++ e.code
  | .before e f => e.code ++ f.code
  | .struct k0 k1 e => [0x03, k0, k1] ++ (e.code ++ [0x04])

def EndSch.depth : EndSch → Nat
  | .arr _ _ g => g.depth + 1
  | .after f e => max f.depth e.depth
  | .before e f => max e.depth (f.depth + 1)
  | .struct _ _ e => e.depth

/-- Elements, each of which takes room in the packet, and the call that ends the array; nothing at all if there are none (then the body
is skipped by scanning its bytes, see C18). The number of elements is not told to the host. -/
def EndBody (R : P → P → Prop) (code : List Byte) (p q : P) : Prop :=
  (Nested code ∧ q = p.bytes 0 []) ∨
    ∃ n m, Reps (fun a b => R a b ∧ up8 a.pos < up8 b.pos) (n + 1) (p.bytes 0 []) m ∧ q = m.bytes 0 [.note 0 0x38]

/-- `ERec F K e p q`: a record that fits `e`, laid out from place `p` to place `q`. What comes behind the array takes no room (a change of
byte order, say). -/
def ERec (F : FloatOps) (K : View) : EndSch → P → P → Prop
  | .arr _ _ g, p, q => EndBody (SRec F K g) g.code p q
  | .after f e, p, q => ∃ m, SRec F K f p m ∧ ERec F K e m q
  | .before e f, p, q => ∃ m, ERec F K e p m ∧ SRec F K f m q ∧ q.pos = m.pos
  | .struct k0 k1 e, p, q => ∃ m, ERec F K e (p.bits 0 [.note (keyNum k0 k1) 0x03]) m ∧ q = m.bits 0 [.note 0 0x04]

theorem fwd_weaken {R R' : P → P → Prop} (h : ∀ a b, R' a b → R a b) (hR : Fwd R) : Fwd R' := fun p q r => hR p q (h p q r)

theorem endBody_fwd {R : P → P → Prop} (hR : Fwd R) (code : List Byte) : Fwd (EndBody R code) := by
  rintro p q (⟨-, rfl⟩ | ⟨n, m, h, rfl⟩)
  · exact fwd_bytes _ _ _
  · exact fwd_trans (fwd_bytes _ _ _) (fwd_trans (fwd_reps (fwd_weaken (fun _ _ h => h.1) hR) _ _ _ h) (fwd_bytes _ _ _))

theorem erec_fwd (F : FloatOps) (K : View) (e : EndSch) : Fwd (ERec F K e) := by
  induction e with
  | arr k0 k1 g => exact endBody_fwd (srec_fwd F K g) _
  | after f e ih =>
    rintro p q ⟨m, h1, h2⟩
    exact fwd_trans (srec_fwd F K f _ _ h1) (ih _ _ h2)
  | before e f ih =>
    rintro p q ⟨m, h1, h2, -⟩
    exact fwd_trans (ih _ _ h1) (srec_fwd F K f _ _ h2)
  | struct k0 k1 e ih =>
    rintro p q ⟨m, h, rfl⟩
    exact fwd_trans (fwd_bits _ _ _) (fwd_trans (ih _ _ h) (fwd_bits _ _ _))

/-- Rounds that take room. -/
theorem reps_grow {R : P → P → Prop} (hR : Fwd R) (n : Nat) : ∀ p m, Reps (fun a b => R a b ∧ up8 a.pos < up8 b.pos) (n + 1) p m →
    up8 p.pos < up8 m.pos := by
  induction n with
  | zero =>
    rintro p m ⟨x, ⟨-, h⟩, rfl⟩
    simp only [P.bytes, up8, Nat.mul_zero, Nat.add_zero] at h ⊢
    omega
  | succ n ih =>
    rintro p m ⟨x, ⟨-, h⟩, h2⟩
    have := ih _ _ h2
    simp only [P.bytes, Nat.mul_zero, Nat.add_zero] at this
    have e : up8 (up8 x.pos) = up8 x.pos := by unfold up8; omega
    omega

/-! ### Runs that the decoder follows on packets of the same length -/

/-- The encoder goes from `s` to `s1`; on every packet of the same length that agrees with what has been written, the decoder with the
recording host goes the same way. -/
structure Follow (E : Env Tape) (K : View) (s s1 : St Tape) : Prop where
  len : s1.buf.length = s.buf.length
  pos : 8 * s.cursor + s.bit ≤ 8 * s1.cursor + s1.bit
  run : ∃ n, exec E n s = .run s1
  back : ∀ D, Agree s1 D → Agree s D
  dec : ∀ D, Agree s1 D → D.length = s1.buf.length → 8 * s1.cursor + s1.bit ≤ 8 * D.length →
    ∀ g, s.host.done = vis K g ∧ HidTags K g →
      ∃ n g1, exec (E.dec (taker K)) n (s.swap D g) = .run (s1.swap D g1) ∧ s1.host.done = vis K g1 ∧ HidTags K g1

theorem Follow.trans {E : Env Tape} {K : View} {a b c : St Tape} (h1 : Follow E K a b) (h2 : Follow E K b c) : Follow E K a c := by
  obtain ⟨n, hn⟩ := h1.run
  obtain ⟨m, hm⟩ := h2.run
  have := h1.pos
  have := h2.pos
  refine ⟨h2.len.trans h1.len, by omega, ⟨n + m, by rw [exec_add_run hn, hm]⟩, fun D hA => h1.back D (h2.back D hA), fun D hA hl hD g hg => ?_⟩
  obtain ⟨n1, g1, r1, hg1⟩ := h1.dec D (h2.back D hA) (hl.trans h2.len) (by omega) g hg
  obtain ⟨n2, g2, r2, hg2⟩ := h2.dec D hA hl hD g1 hg1
  exact ⟨n1 + n2, g2, by rw [exec_add_run r1, r2], hg2⟩

section
variable {K : View} {E : Env Tape} {tot : List Ev}

theorem runS_dec (hH : E.host = giver K) (henc : E.enc = true) {s s1 : St Tape} (h : RunS E (fun k => K k = true) s s1) (hi : Inv s) :
    8 * s.cursor + s.bit ≤ 8 * s1.cursor + s1.bit ∧ (∃ n, exec E n s = .run s1) ∧
      ∀ D, Agree s1 D → 8 * s1.cursor + s1.bit ≤ 8 * D.length → ∀ g, s.host.done = vis K g ∧ HidTags K g →
        ∃ n g1, exec (E.dec (taker K)) n (s.swap D g) = .run (s1.swap D g1) ∧ s1.host.done = vis K g1 ∧ HidTags K g1 := by
  induction h with
  | refl s => exact ⟨Nat.le_refl _, ⟨0, rfl⟩, fun D _ _ g hg => ⟨0, g, rfl, hg⟩⟩
  | @step s s' s2 op hop hF hst hr ih =>
    have hi' := step_inv hi hst
    obtain ⟨p1, ⟨n, hn⟩, d1⟩ := ih hi'
    have hm := step_mono hi hop
    rw [hst] at hm
    have hpos : 8 * (pre op s).cursor + (pre op s).bit ≤ 8 * s'.cursor + s'.bit := hm.pos
    have hp := (pre_pos op s hi.bit).1
    refine ⟨by omega, ⟨n + 1, by rw [exec_run_succ hst, hn]⟩, fun D hA hD g hg => ?_⟩
    have HS : HostSim E.host (taker K) (fun k => K k = true) (fun h g => h.done = vis K g ∧ HidTags K g) := by rw [hH]; exact giver_taker K
    obtain ⟨g1, j1, j2⟩ := (step_sim HS henc hi hop hF hst).ok D g hg (giver_back hH hr hi' hA) (by omega)
    obtain ⟨m, g2, k1, k2⟩ := d1 D hA hD g1 j2
    exact ⟨m + 1, g2, by rw [exec_run_succ j1, k1], k2⟩

theorem follow_run (hH : E.host = giver K) (henc : E.enc = true) {s s1 : St Tape} (h : RunS E (fun k => K k = true) s s1) (hi : Inv s)
    (hl : s1.buf.length = s.buf.length) : Follow E K s s1 := by
  obtain ⟨h1, h2, h3⟩ := runS_dec hH henc h hi
  exact ⟨hl, h1, h2, fun D hA => giver_back hH h hi hA, fun D hA _ hD g hg => h3 D hA hD g hg⟩

/-- One instruction that leaves packet and byte order alone. -/
theorem follow_one {s s1 : St Tape} (hs : step E s = .run s1) (hb : s1.buf = s.buf) (he : s1.be = s.be)
    (hp : 8 * s.cursor + s.bit ≤ 8 * s1.cursor + s1.bit)
    (hd : ∀ D, D.length = s.buf.length → ∀ g, s.host.done = vis K g ∧ HidTags K g →
      ∃ g1, step (E.dec (taker K)) (s.swap D g) = .run (s1.swap D g1) ∧ s1.host.done = vis K g1 ∧ HidTags K g1) : Follow E K s s1 := by
  refine ⟨by rw [hb], hp, ⟨1, by rw [exec_run_succ hs]; rfl⟩, fun D hA k hk => ?_, fun D _ hl _ g hg => ?_⟩
  · have := hA k (by omega)
    rwa [he, hb] at this
  · obtain ⟨g1, h1, h2⟩ := hd D (by rw [hl, hb]) g hg
    exact ⟨1, g1, by rw [exec_run_succ h1]; rfl, h2⟩

/-! ### The instructions -/

theorem arrEof_more {σ : Type} {E : Env σ} {s : St σ} {k0 k1 : Byte} (hat : At E.prog s.ip [0x3A, k0, k1]) (hl : s.loops.length < 8)
    (hc : s.fieldPos < s.buf.length) :
    step E s = .run { s with ip := s.ip + 3, cursor := s.fieldPos, bit := 0, loops := ⟨s.ip + 3, 0xFFFFFFFF⟩ :: s.loops } := by
  rw [step_pre hat, pre_aligned 0x3A s rfl]
  show handleArrEof E _ = _
  unfold handleArrEof
  refine fet_ok hat.tail rfl (by omega) ?_
  refine (if_neg (by unfold maxDepth; dsimp only; omega)).trans ?_
  exact (if_neg (by dsimp only; omega)).trans rfl

theorem arrEof_none {σ : Type} {E : Env σ} {s : St σ} {k0 k1 : Byte} {k : Nat} (hat : At E.prog s.ip [0x3A, k0, k1]) (hl : s.loops.length < 8)
    (hc : s.buf.length ≤ s.fieldPos) (hk : skipBody E.prog (s.ip + 3) = k) :
    step E s = .run { s with ip := k, cursor := s.fieldPos, bit := 0, loops := ⟨s.ip + 3, 0xFFFFFFFF⟩ :: s.loops } := by
  subst hk
  rw [step_pre hat, pre_aligned 0x3A s rfl]
  show handleArrEof E _ = _
  unfold handleArrEof
  refine fet_ok hat.tail rfl (by omega) ?_
  refine (if_neg (by unfold maxDepth; dsimp only; omega)).trans ?_
  exact (if_pos (by dsimp only; omega)).trans rfl

theorem eofEnd_more {σ : Type} {E : Env σ} {s : St σ} {start : Nat} {fs : List Frame} (hat : At E.prog s.ip [0x38])
    (hl : s.loops = ⟨start, 0xFFFFFFFF⟩ :: fs) (hc : s.fieldPos < s.buf.length) :
    step E s = .run { s with ip := start, cursor := s.fieldPos, bit := 0, loops := ⟨start, 0xFFFFFFFF⟩ :: fs } := by
  rw [step_pre hat, pre_aligned 0x38 s rfl]
  show handleArrEnd E _ = _
  unfold handleArrEnd
  simp only [hl, beq_self_eq_true, if_true]
  exact (if_pos (by simpa using hc)).trans rfl

theorem eofEnd_last {σ : Type} {E : Env σ} {s : St σ} {start : Nat} {fs : List Frame} {h : σ} (hat : At E.prog s.ip [0x38])
    (hl : s.loops = ⟨start, 0xFFFFFFFF⟩ :: fs) (hc : s.buf.length ≤ s.fieldPos) (hh : E.host.notify s.host 0 0x38 = (true, h)) :
    step E s = .run { s with ip := s.ip + 1, cursor := s.fieldPos, bit := 0, loops := fs, host := h } := by
  rw [step_pre hat, pre_aligned 0x38 s rfl]
  show handleArrEnd E _ = _
  unfold handleArrEnd
  simp only [hl, beq_self_eq_true, if_true]
  refine (if_neg (by simpa using hc)).trans ?_
  exact callNotify_ok (h := h) hh rfl

theorem Here.grow {p : P} {s : St Tape} (h : Here p tot s) : 8 * s.cursor + s.bit ≤ 8 * s.fieldPos + 0 := by
  have := h.bit
  unfold St.fieldPos
  split <;> omega

/-- What the encoder has done: as `Did`, but an empty array leaves its frame on the loop stack. -/
structure DidE (E : Env Tape) (K : View) (tot : List Ev) (s s1 : St Tape) (q : P) (n : Nat) : Prop where
  follow : Follow E K s s1
  here : Here q tot s1
  ip : s1.ip = s.ip + n
  loops : s1.loops.length ≤ s.loops.length + 1
  stack : s1.stack = s.stack

/-- The rounds, from the start of the body; the packet ends where the last element does. -/
theorem eof_rounds (hH : E.host = giver K) (henc : E.enc = true) {R : P → P → Prop} {W : List Byte → P → P → Prop} {code : List Byte} {depth : Nat}
    (hR : Fwd R) (ih : EncR E K R W code depth) (start : Nat) (fs : List Frame) (n : Nat) : ∀ (p m : P) (s : St Tape),
    Reps (fun a b => R a b ∧ up8 a.pos < up8 b.pos) (n + 1) p m → At E.prog start (code ++ [0x38]) → s.ip = start →
    s.loops = ⟨start, 0xFFFFFFFF⟩ :: fs → Here p tot s → s.stack = [] → (∃ r, tot = (m.bytes 0 [.note 0 0x38]).evs ++ r) →
    up8 m.pos = 8 * s.buf.length → fs.length + 1 + depth ≤ 8 →
    ∃ s1, Follow E K s s1 ∧ Here (m.bytes 0 [.note 0 0x38]) tot s1 ∧ s1.ip = start + (code.length + 1) ∧ s1.loops = fs ∧ s1.stack = s.stack := by
  induction n with
  | zero =>
    rintro p q s ⟨m, ⟨hm, -⟩, rfl⟩ hat hip hl h hk hev hpos hd
    obtain ⟨r, hr⟩ := hev
    have hr' : tot = (m.evs ++ [.note 0 0x38]) ++ r := by simpa [P.bytes] using hr
    have hup := up8_ge m.pos
    have hpos' : up8 m.pos = 8 * s.buf.length := by
      simp only [P.bytes, Nat.mul_zero, Nat.add_zero] at hpos
      unfold up8 at hpos ⊢
      omega
    obtain ⟨s1, d, -⟩ := ih tot p m s hm (by rw [hip]; exact hat.left) h hk
      ⟨[.note 0 0x38] ++ r, by rw [hr', List.append_assoc]⟩ (by omega) (by rw [hl]; simpa using hd)
    have hat2 : At E.prog s1.ip [0x38] := by rw [d.ip, hip]; exact hat.right
    have hl1 : s1.loops = ⟨start, 0xFFFFFFFF⟩ :: fs := by rw [d.loops, hl]
    have hfp := d.here.fieldPos
    have hlen := d.len
    have hn := giver_note hH d.here hr'
    have hs := eofEnd_last hat2 hl1 (by omega) hn
    refine ⟨_, (follow_run hH henc d.run (h.inv hk (by rw [hl]; simp; omega)) d.len).trans (follow_one hs rfl rfl d.here.grow ?_), ?_, ?_, rfl, d.stack⟩
    · intro D hD g hg
      obtain ⟨g1, e1, hg1⟩ := (giver_taker K).notify s1.host g 0 0x38 _ hg (by rw [← hn, hH])
      exact ⟨g1, eofEnd_last (E := E.dec (taker K)) (s := s1.swap D g) hat2 hl1 (by show D.length ≤ s1.fieldPos; omega) e1, hg1⟩
    · refine ⟨by simp, ?_, d.here.be, d.here.trans, r, ?_, ?_⟩
      · simp only [P.bytes, up8] at hfp ⊢; omega
      · simp [P.bytes]
      · simpa [P.bytes] using hr'
    · simp only [d.ip, hip]; omega
  | succ n ihn =>
    rintro p q s ⟨m, ⟨hm, -⟩, hreps⟩ hat hip hl h hk hev hpos hd
    have hf1 := fwd_reps (fwd_weaken (fun _ _ h => h.1) hR) (n + 1) _ _ hreps
    have hf2 := fwd_trans hf1 (fwd_bytes q 0 [.note 0 0x38])
    have hf3 := fwd_trans (fwd_bytes m 0 []) hf2
    obtain ⟨r, hr⟩ := hev
    obtain ⟨-, es, hes⟩ := hf3
    have hg := reps_grow hR n _ _ hreps
    have hm8 : up8 m.pos < 8 * s.buf.length := by
      simp only [P.bytes, Nat.mul_zero, Nat.add_zero] at hg
      unfold up8 at hg hpos ⊢
      omega
    have hup := up8_ge m.pos
    obtain ⟨s1, d, -⟩ := ih tot p m s hm (by rw [hip]; exact hat.left) h hk
      ⟨es ++ r, by rw [hr, hes, List.append_assoc]⟩ (by omega) (by rw [hl]; simpa using hd)
    have hat2 : At E.prog s1.ip [0x38] := by rw [d.ip, hip]; exact hat.right
    have hl1 : s1.loops = ⟨start, 0xFFFFFFFF⟩ :: fs := by rw [d.loops, hl]
    have hfp := d.here.fieldPos
    have hlen := d.len
    have hs := eofEnd_more hat2 hl1 (by omega)
    obtain ⟨s2, f2, h2, i2, l2, k2⟩ := ihn (m.bytes 0 []) q
      { s1 with ip := start, cursor := s1.fieldPos, bit := 0, loops := ⟨start, 0xFFFFFFFF⟩ :: fs } hreps hat rfl rfl
      (d.here.same (by simp) (by simp only [P.bytes]; omega) d.here.be d.here.trans (by simp [P.bytes]) rfl) (d.stack.trans hk)
      ⟨r, hr⟩ (by simp only [d.len]; exact hpos) hd
    refine ⟨s2, (follow_run hH henc d.run (h.inv hk (by rw [hl]; simp; omega)) d.len).trans ((follow_one hs rfl rfl d.here.grow ?_).trans f2), h2, i2, l2,
      k2.trans d.stack⟩
    intro D hD g hg
    exact ⟨g, eofEnd_more (E := E.dec (taker K)) (s := s1.swap D g) hat2 hl1 (by show s1.fieldPos < D.length; omega), hg⟩

theorem EndSch.deep (e : EndSch) : 1 ≤ e.depth := by
  induction e with
  | arr _ _ g => exact Nat.succ_le_succ (Nat.zero_le _)
  | after f e ih => exact Nat.le_trans ih (Nat.le_max_right _ _)
  | before e f ih => exact Nat.le_trans ih (Nat.le_max_left _ _)
  | struct _ _ e ih => exact ih

/-- Every record that fits is encoded into a packet of just its length. -/
theorem encodes_end (hH : E.host = giver K) (henc : E.enc = true) (hE : E.prog.length < 2 ^ 31) (e : EndSch) : ∀ (p q : P) (s : St Tape),
    ERec E.fl K e p q → At E.prog s.ip e.code → Here p tot s → s.stack = [] → (∃ r, tot = q.evs ++ r) → q.pos = 8 * s.buf.length →
    s.loops.length + e.depth ≤ 8 → ∃ s1, DidE E K tot s s1 q e.code.length := by
  induction e with
  | arr k0 k1 g =>
    intro p q s hrec hat h hk hev hpos hd
    have hd' : s.loops.length + (g.depth + 1) ≤ 8 := hd
    have hhd : At E.prog s.ip [0x3A, k0, k1] := At.left (b := g.code ++ [0x38]) hat
    have hbody : At E.prog (s.ip + 3) (g.code ++ [0x38]) := At.right (a := [0x3A, k0, k1]) hat
    have hfp := h.fieldPos
    rcases hrec with ⟨hnest, rfl⟩ | ⟨n, m, hreps, rfl⟩
    · have hc : s.buf.length ≤ s.fieldPos := by
        simp only [P.bytes, Nat.mul_zero, Nat.add_zero] at hpos
        omega
      have hsk := skipBody_nested hnest hbody
      have hs := arrEof_none hhd (by omega) hc hsk
      refine ⟨_, follow_one hs rfl rfl h.grow ?_, ?_, ?_, ?_, rfl⟩
      · intro D hD g' hg
        exact ⟨g', arrEof_none (E := E.dec (taker K)) (s := s.swap D g') hhd (by show s.loops.length < 8; omega)
          (by show D.length ≤ s.fieldPos; omega) hsk, hg⟩
      · exact h.same (by simp) (by simp only [P.bytes]; omega) h.be h.trans (by simp [P.bytes]) rfl
      · simp [EndSch.code]; omega
      · simp
    · have hgr := reps_grow (srec_fwd E.fl K g) n _ _ hreps
      have hup : up8 (up8 p.pos) = up8 p.pos := by unfold up8; omega
      simp only [P.bytes, Nat.mul_zero, Nat.add_zero] at hgr
      have hpm : up8 m.pos = 8 * s.buf.length := by simpa [P.bytes] using hpos
      have hs := arrEof_more hhd (by omega) (by omega)
      obtain ⟨s1, f1, h1, i1, l1, k1'⟩ := eof_rounds (tot := tot) hH henc (srec_fwd E.fl K g) (sencodes hH henc hE g) (s.ip + 3) s.loops n (p.bytes 0 []) m
        { s with ip := s.ip + 3, cursor := s.fieldPos, bit := 0, loops := ⟨s.ip + 3, 0xFFFFFFFF⟩ :: s.loops }
        hreps hbody rfl rfl (h.same (by simp) (by simp only [P.bytes]; omega) h.be h.trans (by simp [P.bytes]) rfl) hk hev hpm (by omega)
      refine ⟨s1, (follow_one hs rfl rfl h.grow ?_).trans f1, h1, ?_, by rw [l1]; omega, k1'⟩
      · intro D hD g' hg
        exact ⟨g', arrEof_more (E := E.dec (taker K)) (s := s.swap D g') hhd (by show s.loops.length < 8; omega)
          (by show s.fieldPos < D.length; omega), hg⟩
      · rw [i1]; simp [EndSch.code]; omega
  | after f e ih =>
    rintro p q s ⟨m, h1, h2⟩ hat h hk hev hpos hd
    have hd' : s.loops.length + max f.depth e.depth ≤ 8 := hd
    have hat' : At E.prog s.ip (f.code ++ e.code) := hat
    obtain ⟨hf1, es, hes⟩ := erec_fwd E.fl K e _ _ h2
    obtain ⟨r, hr⟩ := hev
    obtain ⟨s1, d, -⟩ := sencodes hH henc hE f tot p m s h1 hat'.left h hk ⟨es ++ r, by rw [hr, hes, List.append_assoc]⟩ (by omega) (by omega)
    obtain ⟨s2, d2⟩ := ih m q s1 h2 (by rw [d.ip]; exact hat'.right) d.here (d.stack.trans hk) ⟨r, hr⟩ (by rw [d.len]; exact hpos) (by rw [d.loops]; omega)
    refine ⟨s2, (follow_run hH henc d.run (h.inv hk (by omega)) d.len).trans d2.follow, d2.here, ?_, by rw [← d.loops]; exact d2.loops, d2.stack.trans d.stack⟩
    rw [d2.ip, d.ip]
    simp [EndSch.code]; omega
  | before e f ih =>
    rintro p q s ⟨m, h1, h2, hqm⟩ hat h hk hev hpos hd
    have hd' : s.loops.length + max e.depth (f.depth + 1) ≤ 8 := hd
    have hat' : At E.prog s.ip (e.code ++ f.code) := hat
    obtain ⟨hf1, es, hes⟩ := srec_fwd E.fl K f _ _ h2
    obtain ⟨r, hr⟩ := hev
    obtain ⟨s1, d⟩ := ih p m s h1 hat'.left h hk ⟨es ++ r, by rw [hr, hes, List.append_assoc]⟩ (by omega) (by omega)
    have hl1 := d.loops
    have hlen := d.follow.len
    obtain ⟨s2, d2, -⟩ := sencodes hH henc hE f tot m q s1 h2 (by rw [d.ip]; exact hat'.right) d.here (d.stack.trans hk) ⟨r, hr⟩ (by omega) (by omega)
    refine ⟨s2, d.follow.trans (follow_run hH henc d2.run (d.here.inv (d.stack.trans hk) (by omega)) d2.len), d2.here, ?_, by rw [d2.loops]; exact hl1,
      d2.stack.trans d.stack⟩
    rw [d2.ip, d.ip]
    simp [EndSch.code]; omega
  | struct k0 k1 e ih =>
    rintro p q s ⟨m, h1, rfl⟩ hat h hk hev hpos hd
    have hd' : s.loops.length + e.depth ≤ 8 := hd
    have hhd : At E.prog s.ip [0x03, k0, k1] := At.left (b := e.code ++ [0x04]) hat
    have hbody : At E.prog (s.ip + 3) (e.code ++ [0x04]) := At.right (a := [0x03, k0, k1]) hat
    obtain ⟨hf1, es, hes⟩ := erec_fwd E.fl K e _ _ h1
    obtain ⟨r, hr⟩ := hev
    have hr' : tot = (m.evs ++ [.note 0 0x04]) ++ r := by simpa [P.bits] using hr
    have hn := giver_note (tot := tot) (r := es ++ [.note 0 0x04] ++ r) hH h (key := keyNum k0 k1) (op := 0x03) (by rw [hr', hes]; simp [P.bits])
    have hs := enterStruct_step hhd hn
    have h0 : Here (p.bits 0 [.note (keyNum k0 k1) 0x03]) tot
        { s with ip := s.ip + 3, host := ⟨p.evs ++ [.note (keyNum k0 k1) 0x03], es ++ [.note 0 0x04] ++ r⟩ } :=
      ⟨h.bit, h.pos, h.be, h.trans, _, rfl, by rw [hr', hes]; simp [P.bits]⟩
    obtain ⟨s1, d⟩ := ih _ m _ h1 hbody.left h0 hk ⟨[.note 0 0x04] ++ r, by rw [hr', List.append_assoc]⟩ (by simpa [P.bits] using hpos) hd'
    have hat2 : At E.prog s1.ip [0x04] := by rw [d.ip]; exact hbody.right
    have hn2 := giver_note hH d.here hr'
    have hs2 := exitStruct_step hat2 hn2
    have hlen := d.follow.len
    refine ⟨_, (follow_run hH henc (.one hhd trivial hs) (h.inv hk (by omega)) rfl).trans (d.follow.trans
      (follow_run hH henc (.one hat2 trivial hs2) (d.here.inv (d.stack.trans hk) ?_) rfl)), ?_, ?_, d.loops, d.stack⟩
    · have h1 := d.loops
      have h2 := e.deep
      dsimp only at h1
      omega
    · exact ⟨d.here.bit, d.here.pos, d.here.be, d.here.trans, r, rfl, by simpa [P.bits] using hr'⟩
    · simp only [d.ip, EndSch.code, List.length_append, List.length_cons, List.length_nil]; omega
end

/-- **C84.** A record that fits a description ending in a read-to-end array is encoded without error into a packet of just its length, the
whole record is consumed, and decoding the packet succeeds and reports exactly the calls of the record. -/
theorem C84_packet_partial (K : View) (fl : FloatOps) (e : EndSch) (hdep : e.depth ≤ 8) (hlen : e.code.length < 2 ^ 31) (q : P)
    (hrec : ERec fl K e ⟨0, false, []⟩ q) (old : St Tape) (buf : List Byte) (hbuf : q.pos = 8 * buf.length) :
    ∃ n sf, exec { prog := e.code, enc := true, host := giver K, fl := fl } n (initSt old buf ⟨[], q.evs⟩) = .stop .ok sf ∧
      sf.host = ⟨q.evs, []⟩ ∧ sf.cursor = buf.length ∧ sf.bit = 0 ∧ sf.buf.length = buf.length ∧
      ∀ old' : St (List Ev), ∃ n' sd, exec { prog := e.code, enc := false, host := taker K, fl := fl } n' (initSt old' sf.buf []) = .stop .ok sd ∧
        vis K sd.host = q.evs ∧ sd.cursor = buf.length ∧ sd.bit = 0 ∧ sd.buf = sf.buf := by
  let E : Env Tape := { prog := e.code, enc := true, host := giver K, fl := fl }
  obtain ⟨sf, d⟩ := encodes_end (E := E) (K := K) (tot := q.evs) rfl rfl hlen e ⟨0, false, []⟩ q (initSt old buf ⟨[], q.evs⟩) hrec
    ⟨[], by simp [initSt, E]⟩ ⟨by simp [initSt], by simp [initSt], rfl, rfl, q.evs, rfl, rfl⟩ rfl ⟨[], by simp⟩ hbuf (by simpa [initSt] using hdep)
  have hend : E.prog[sf.ip]? = none := by
    rw [d.ip]; simp [E, initSt]
  obtain ⟨n, hn⟩ := d.follow.run
  obtain ⟨rest0, hh, ht⟩ := d.here.host
  have hr0 : rest0 = [] := by
    have := congrArg List.length ht
    simp at this
    exact this
  have hl : sf.buf.length = buf.length := d.follow.len
  have hp := d.here.pos
  have hb := d.here.bit
  refine ⟨n + 1, sf, by rw [exec_add_run hn]; exact exec_stop_succ (step_end hend) 0, by rw [hh, hr0], by omega, by omega, hl, fun old' => ?_⟩
  obtain ⟨m, g1, hx, hg1, -⟩ := d.follow.dec sf.buf (fun _ _ => rfl) rfl (by omega) [] ⟨rfl, fun _ _ _ h => (by cases h)⟩
  have hx' : exec (E.dec (taker K)) (m + 1) ((initSt old buf ⟨[], q.evs⟩).swap sf.buf []) = .stop .ok (sf.swap sf.buf g1) := by
    rw [exec_add_run hx]
    exact exec_stop_succ (step_end (E := E.dec (taker K)) (s := sf.swap sf.buf g1) hend) 0
  have hfr : Fresh ((initSt old buf ⟨[], q.evs⟩).swap sf.buf ([] : List Ev)) (initSt old' sf.buf []) :=
    ⟨⟨old'.polyPos, old'.polyCnt, old'.splPos, old'.splCnt⟩, rfl, (fun h => by cases h), (fun h => by cases h)⟩
  obtain ⟨r, hr⟩ := exec_fresh_stop (m + 1) hfr hx'
  refine ⟨m + 1, _, hr, ?_, ?_, ?_, rfl⟩
  · show vis K g1 = q.evs
    rw [← hg1, hh]
  · show sf.cursor = _
    omega
  · show sf.bit = _
    omega

/-! ### From source text -/

/-- A field `@eof T name[];`, with decorators that stand for other things only. The trailing change of byte order is that of any field. -/
def FieldD.endSch (C : SCtx) (d : FieldD) (g : Gen) : Option (EndSch × Gen) := do
  let r ← decosSch C d.decs {} g
  let a := r.2.2.1
  let g1 := r.2.2.2
  req (r.2.1.isNone = true ∧ a.expr = false ∧ a.trans = .none ∧ (d.attrs a).eof = true ∧ d.dims ≠ .none)
  req (d.name ∉ g1.fields)
  let i := strtabAdd g1.tab d.name
  req (d.modsOk (d.attrs a))
  match (if d.arrayPre (d.attrs a) then d.mods else .lim none none) with
  | .pre _ => none
  | .lim _ _ => do
    let v ← valueSch C d (d.attrs a) i.2 { g1 with tab := i.1, fields := g1.fields ++ [d.name] }
    some (.after (Sch.all (r.1 ++ if a.be then [.fld .setBE] else []))
      (.before (.arr (keyLo i.2) (keyHi i.2) v.1) (Sch.all (if a.be then [.fld .setLE] else []))), v.2)

/-- A body with a read-to-end array among its fields. -/
def Body.endSch (C : SCtx) : Body → Gen → Option (EndSch × Gen)
  | .done, _ => none
  | .tail _, _ => none
  | .doc _ rest, g => rest.endSch C g
  | .stmt s rest, g =>
    match s.sch C g with
    | some r => do
      let q ← rest.endSch C r.2
      some (.after r.1 q.1, q.2)
    | none =>
      match s with
      | .field d => do
        let r ← d.endSch C g
        let q ← rest.sch C r.2
        some (.before r.1 q.1, q.2)
      | _ => none

/-- A program whose last declaration is a packet with a read-to-end array. -/
def progEndFrom (dbl : List Byte → Word) (fl : FloatOps) : List Item → STop → Option (List (List Byte) × EndSch)
  | [], _ => none
  | .doc _ :: xs, t => progEndFrom dbl fl xs t
  | [.decl decs (.packet name b)], t0 => do
    let t := decs.foldl (fun t x => x.sch t) t0
    req (t.top.free name ∧ t.packets = 0)
    let r ← b.endSch (t.ctx dbl fl none false) ⟨t.tab, [], 0⟩
    let i := strtabAdd r.2.tab name
    some (i.1, .after (Sch.all (t.code ++ [.fld (.name (keyLo i.2) (keyHi i.2))])) r.1)
  | .decl decs d :: xs, t => do
    let t ← d.sch dbl fl (decs.foldl (fun t x => x.sch t) t)
    progEndFrom dbl fl xs t

def progEnd (dbl : List Byte → Word) (fl : FloatOps) (prog : List Item) : Option (List (List Byte) × EndSch) := progEndFrom dbl fl prog {}

theorem fieldEnd_gen {C : SCtx} {d : FieldD} {g : Gen} {r : EndSch × Gen} (h : d.endSch C g = some r) :
    d.gen C.ctx g = some (r.1.code, r.2) := by
  obtain ⟨p, hp, h⟩ := Option.bind_some_iff h
  obtain ⟨_, h0, h⟩ := Option.bind_some_iff h
  obtain ⟨_, h1, h⟩ := Option.bind_some_iff h
  obtain ⟨_, h2, h⟩ := Option.bind_some_iff h
  have h0 := req_ok h0
  split at h
  · cases h
  next u m hm =>
  obtain ⟨v, hv, h⟩ := Option.bind_some_iff h
  cases h
  have hhead : arrayHead d (d.attrs p.2.2.1) (strtabAdd p.2.2.2.tab d.name).2 =
      some (0x3A :: u16le (strtabAdd p.2.2.2.tab d.name).2) := by
    unfold arrayHead
    split
    · next hd => exact absurd hd h0.2.2.2.2
    · rw [hm]
      simp only [h0.2.2.2.1, if_true]
  unfold FieldD.gen
  simp only [decos_gen hp, Option.bind_eq_bind, Option.bind_some]
  unfold FieldD.body
  simp only [req_true (req_ok h1), req_true (req_ok h2), Option.bind_eq_bind, Option.bind_some, hhead, value_gen hv]
  rw [Option.isNone_iff_eq_none.mp h0.1]
  simp only [frontCode, exprPart, EndSch.code, all_code, List.flatMap_append, transPart, h0.2.2.1, u16le_two, if_neg h0.2.2.2.2]
  cases p.2.2.1.be <;> simp [Sch.code, Fld.code]

theorem bodyEnd_gen {C : SCtx} : ∀ (b : Body) (g : Gen) (r : EndSch × Gen), b.endSch C g = some r → b.gen C.ctx g = some (r.1.code, r.2)
  | .done, g, r, h => by simp [Body.endSch] at h
  | .tail decs, g, r, h => by simp [Body.endSch] at h
  | .doc t rest, g, r, h => by
    simp only [Body.endSch] at h
    simp only [Body.gen]
    exact bodyEnd_gen rest g r h
  | .stmt s rest, g, r, h => by
    rw [Body.endSch.eq_def] at h
    dsimp only at h
    split at h
    · next p hp =>
      obtain ⟨q, hq, h⟩ := Option.bind_some_iff h
      cases h
      simp only [Body.gen, stmtSch_gen s g p hp, Option.bind_eq_bind, Option.bind_some, bodyEnd_gen rest _ _ hq, EndSch.code]
    · split at h
      · next d _ =>
        obtain ⟨p, hp, h⟩ := Option.bind_some_iff h
        obtain ⟨q, hq, h⟩ := Option.bind_some_iff h
        cases h
        simp only [Body.gen, Stmt.gen, fieldEnd_gen hp, Option.bind_eq_bind, Option.bind_some, bodySch_gen rest _ _ hq, EndSch.code]
      · cases h

theorem progEndFrom_gen {dbl : List Byte → Word} {fl : FloatOps} : ∀ (prog : List Item) (t : STop) (r : List (List Byte) × EndSch),
    progEndFrom dbl fl prog t = some r → ∃ t', progGen dbl fl prog t.top = some t' ∧ t'.packets = 1 ∧ t'.tab = r.1 ∧ t'.code = r.2.code := by
  intro prog
  induction prog with
  | nil => intro t r h; simp [progEndFrom] at h
  | cons x xs ih =>
    intro t r h
    rw [progEndFrom.eq_def] at h
    split at h
    · next h0 => cases h0
    · next h0 => cases h0; exact ih _ _ h
    · next decs name b h0 =>
      cases h0
      obtain ⟨_, h0, h⟩ := Option.bind_some_iff h
      obtain ⟨p, h1, h⟩ := Option.bind_some_iff h
      cases h
      have hb := bodyEnd_gen b _ _ h1
      generalize hT : decs.foldl (fun t x => x.sch t) _ = T at *
      have hctx : (T.ctx dbl fl none false).ctx = T.top.ctx dbl fl none false := rfl
      rw [hctx] at hb
      have ht : T.top.tab = T.tab := rfl
      refine ⟨_, by
        simp only [progGen, topDecs_gen, hT, Decl.gen, Option.bind_eq_bind, req_true (show T.top.free name = true ∧ T.top.packets = 0 from req_ok h0),
          Option.bind_some, ht, hb]
        exact rfl, rfl, rfl, ?_⟩
      simp [STop.top, EndSch.code, all_code, Sch.code, Fld.code, u16le_two]
    · next decs d _ _ _ h0 =>
      cases h0
      obtain ⟨p, h1, h⟩ := Option.bind_some_iff h
      obtain ⟨t', h2⟩ := ih _ _ h
      exact ⟨t', by simp only [progGen, topDecs_gen, decl_gen h1, Option.bind_eq_bind, Option.bind_some]; exact h2.1, h2.2⟩

/-- The byte code the specification of C59 gives for such a program is the byte code of its description. -/
theorem progEnd_code {dbl : List Byte → Word} {fl : FloatOps} {prog : List Item} {tab : List (List Byte)} {e : EndSch}
    (h : progEnd dbl fl prog = some (tab, e)) : progCode dbl fl prog = some (tab, e.code) := by
  obtain ⟨t', h1, h2, h3, h4⟩ := progEndFrom_gen _ _ _ h
  unfold progCode
  rw [show ({} : Top) = ({} : STop).top from rfl, h1]
  simp only [Option.bind_eq_bind, Option.bind_some, req_true h2, h3, h4]

/-- **C84** from source text: the compiler gives an image that loads, and the loaded program carries every record that fits `e'`, the
description after dead-string elimination. -/
theorem C84_source_partial (P' : PEnv) (prog : List Item) (tab : List (List Byte)) (e e' : EndSch)
    (h : progEnd P'.dbl P'.fl prog = some (tab, e)) (he : (optimizeStrings tab e.code).2 = e'.code)
    (src : List Byte) (toks : List Tok)
    (hl : Lexes (upToNul src) 1 toks) (ht : toks.map Tok.bare = prog.flatMap Item.toks ++ [eofTok])
    (fuel : Nat) (hf : 16 * src.length + 18 ≤ fuel)
    (hsize : 16 + (strBytes (optimizeStrings tab e.code).1).length < 2 ^ 32) (hdep : e'.depth ≤ 8) (hlen : e'.code.length < 2 ^ 31) :
    ∃ img pr, compile P' fuel src = .image img ∧ loadIl img = .ok pr ∧
      ∀ (K : View) (fl : FloatOps) (q : P) (_ : ERec fl K e' ⟨0, false, []⟩ q) (old : St Tape) (buf : List Byte) (_ : q.pos = 8 * buf.length),
        ∃ n sf, exec { prog := pr.code, enc := true, host := giver K, fl := fl } n (initSt old buf ⟨[], q.evs⟩) = .stop .ok sf ∧
          sf.host = ⟨q.evs, []⟩ ∧ sf.cursor = buf.length ∧ sf.bit = 0 ∧ sf.buf.length = buf.length ∧
          ∀ old' : St (List Ev), ∃ n' sd, exec { prog := pr.code, enc := false, host := taker K, fl := fl } n' (initSt old' sf.buf []) = .stop .ok sd ∧
            vis K sd.host = q.evs ∧ sd.cursor = buf.length ∧ sd.bit = 0 ∧ sd.buf = sf.buf := by
  refine ⟨_, _, C59_source P' prog tab e.code (progEnd_code h) src toks hl ht fuel hf, load_writeImage _ _ hsize, ?_⟩
  intro K fl q hq old buf hb
  rw [he]
  exact C84_packet_partial K fl e' hdep hlen q hq old buf hb

/-! ### A program and two records -/

def exSrc84 : List Byte := word "@version(1) packet P { u8 n; @be @eof u16 rest[]; }"

def exProg84 : List Item :=
  [.decl [.version (word "1")] (.packet (word "P") (bodyOf [fieldOf [] "u8" "n", fieldOf [.be false, .eof] "u16" "rest" none .empty]))]

theorem ex84_lex : (lexAll (exSrc84.length + 1) (exSrc84 ++ [0]) 1).map (fun l => l.map Tok.bare) =
    some (exProg84.flatMap Item.toks ++ [eofTok]) := by
  decide +kernel

def exEnd84 : EndSch :=
  .after (.seq (.fld (.version 1)) (.seq (.fld (.name 2 0)) (.fld .empty))) (.after (.seq (.fld (.scalar 0x10 0 0)) (.fld .empty))
    (.before (.after (.seq (.fld .setBE) (.fld .empty)) (.before (.arr 1 0 (.fld (.scalar 0x11 1 0))) (.seq (.fld .setLE) (.fld .empty))))
      (.fld .empty)))

deriving instance DecidableEq for EndSch

theorem ex84_prog : progEnd demoP.dbl demoP.fl exProg84 = some (["n", "rest", "P"].map word, exEnd84) := by decide +kernel

theorem ex84_opt : optimizeStrings (["n", "rest", "P"].map word) exEnd84.code = (["n", "rest", "P"].map word, exEnd84.code) := by decide +kernel

/-- `n = 7` and two elements, five bytes. -/
theorem ex84_rec (fl : FloatOps) : ERec fl (.plain fun _ => false) exEnd84 ⟨0, false, []⟩
    ⟨8 * 5, false, [.num 0 0x10 7, .num 1 0x11 0x102, .num 1 0x11 0x304, .note 0 0x38]⟩ := by
  unfold exEnd84
  simp only [ERec, SRec, Rec, EndBody]
  refine ⟨_, ⟨_, rfl, _, rfl, rfl⟩, _, ⟨_, ⟨1, 7, rfl, ⟨by decide, by decide⟩, rfl, rfl⟩, rfl⟩, _, ⟨_, ⟨_, ⟨by decide, rfl⟩, rfl⟩, _,
    .inr ⟨1, _, ⟨_, ⟨⟨2, 0x102, rfl, ⟨by decide, by decide⟩, rfl, rfl⟩, by decide⟩, _, ⟨⟨2, 0x304, rfl, ⟨by decide, by decide⟩, rfl, rfl⟩, by decide⟩, rfl⟩, rfl⟩,
    ⟨_, ⟨by decide, rfl⟩, rfl⟩, rfl⟩, rfl, rfl⟩

/-- `n = 7` and no elements, one byte. -/
theorem ex84_none (fl : FloatOps) : ERec fl (.plain fun _ => false) exEnd84 ⟨0, false, []⟩ ⟨8 * 1, false, [.num 0 0x10 7]⟩ := by
  unfold exEnd84
  simp only [ERec, SRec, Rec, EndBody]
  refine ⟨_, ⟨_, rfl, _, rfl, rfl⟩, _, ⟨_, ⟨1, 7, rfl, ⟨by decide, by decide⟩, rfl, rfl⟩, rfl⟩, _, ⟨_, ⟨_, ⟨by decide, rfl⟩, rfl⟩, _,
    .inl ⟨nested_of_free (by decide), rfl⟩, ⟨_, ⟨by decide, rfl⟩, rfl⟩, rfl⟩, rfl, rfl⟩

/-- The compiled example carries the first record. -/
example (fuel : Nat) (hf : 16 * exSrc84.length + 18 ≤ fuel) (fl : FloatOps) (old : St Tape) (old' : St (List Ev)) :
    ∃ img pr, compile demoP fuel exSrc84 = .image img ∧ loadIl img = .ok pr ∧
      ∃ n sf n' sd, exec { prog := pr.code, enc := true, host := giver (.plain fun _ => false), fl := fl } n
          (initSt old [0, 0, 0, 0, 0] ⟨[], [.num 0 0x10 7, .num 1 0x11 0x102, .num 1 0x11 0x304, .note 0 0x38]⟩) = .stop .ok sf ∧
        exec { prog := pr.code, enc := false, host := taker (.plain fun _ => false), fl := fl } n' (initSt old' sf.buf []) = .stop .ok sd ∧
        vis (.plain fun _ => false) sd.host = [.num 0 0x10 7, .num 1 0x11 0x102, .num 1 0x11 0x304, .note 0 0x38] := by
  obtain ⟨toks, h1, h2⟩ := lexAll_total exSrc84
  have e := ex84_lex
  rw [h2, Option.map_some, Option.some.injEq] at e
  obtain ⟨img, pr, i1, i2, i3⟩ := C84_source_partial demoP exProg84 _ _ exEnd84 ex84_prog (by rw [ex84_opt]) exSrc84 toks h1 e fuel hf
    (by rw [ex84_opt]; decide +kernel) (by decide) (by decide +kernel)
  obtain ⟨n, sf, j1, -, -, -, -, j2⟩ := i3 _ fl _ (ex84_rec fl) old [0, 0, 0, 0, 0] rfl
  obtain ⟨n', sd, k1, k2, -⟩ := j2 old'
  exact ⟨img, pr, i1, i2, n, sf, n', sd, j1, k1, k2⟩

/-! ### What read-to-end arrays do not do -/

open Demo

/-- **A buffer with room to spare.** The packet says `u8` elements to the end; the host has one element, the buffer two bytes. The encoder
asks for a second element and fails. `cnd encode` (cmd_encode.c 20) always gives it 1024 bytes. -/
theorem C84_false_spare_room (fl : FloatOps) :
    CompilesTo (word "packet P { @eof u8 rest[]; }") [0x07, 1, 0, 0x3A, 0, 0, 0x10, 0, 0, 0x38] ∧
    callbackB (exec { prog := [0x07, 1, 0, 0x3A, 0, 0, 0x10, 0, 0, 0x38], enc := true, host := giver (.plain fun _ => false), fl := fl } 9
      (initSt (zeroSt ⟨[], []⟩) [0, 0] ⟨[], [.num 0 0x10 7, .note 0 0x38]⟩)) = true := by
  refine ⟨compilesTo _ [.decl [] (.packet (word "P") (bodyOf [fieldOf [.eof] "u8" "rest" none .empty]))] (["rest", "P"].map word)
    [0x07, 1, 0, 0x3A, 0, 0, 0x10, 0, 0, 0x38] (["rest", "P"].map word) _ (by decide +kernel) (by decide +kernel) (by decide +kernel) (by decide +kernel), by rfl⟩

/-- **JSON.** There is no call at the start of the array, so the JSON tools do not enter it: decoding shows every element as a member `a`
of the object around it, and encoding `{"a": [1, 2]}` writes zeros without an error. -/
theorem C84_false_json :
    docB (jmem [0x61] (jnum 1) (jmem [0x61] (jnum 2))) false (jdec [0x3A, 0, 0, 0x11, 0, 0, 0x38] [1, 0, 2, 0]) = true ∧
    wroteB [0, 0, 0, 0] (jenc [0x3A, 0, 0, 0x11, 0, 0, 0x38] [9, 9, 9, 9] (.item [0x61] .arr (jmem [] (jnum 1) (jmem [] (jnum 2))) .nil)) = true := by
  decide +kernel

/-- Stopped without error at the end of the packet, with `n` loops still open. -/
def openLoopsB (n : Nat) : Res Unit → Bool
  | .stop .ok s => decide (s.cursor = s.buf.length ∧ s.loops.length = n)
  | _ => false

/-- **An empty read-to-end array inside an array.** The frame of the empty array stays on the loop stack, and the end of the outer array
takes it for its own: a packet that holds one of three elements is decoded without an error. -/
theorem C84_false_inside :
    CompilesTo (word "struct S { u16 x; @eof u16 rest[]; } packet P { S items[3]; }")
      [0x07, 3, 0, 0x34, 0, 0, 3, 0, 0, 0, 0x03, 0, 0, 0x11, 1, 0, 0x3A, 2, 0, 0x11, 2, 0, 0x38, 0x04, 0x38] ∧
    openLoopsB 1 (exec (decAgree [0x07, 3, 0, 0x34, 0, 0, 3, 0, 0, 0, 0x03, 0, 0, 0x11, 1, 0, 0x3A, 2, 0, 0x11, 2, 0, 0x38, 0x04, 0x38] 0) 8
      (startWith [1, 0])) = true := by
  refine ⟨compilesTo _ [.decl [] (.struct (word "S") (bodyOf [fieldOf [] "u16" "x", fieldOf [.eof] "u16" "rest" none .empty])),
      .decl [] (.packet (word "P") (bodyOf [fieldOf [] "S" "items" none (.fixed (word "3"))]))]
    (["x", "rest", "items", "items.x", "items.rest", "P"].map word) [0x07, 5, 0, 0x34, 2, 0, 3, 0, 0, 0, 0x03, 2, 0, 0x11, 3, 0, 0x3A, 4, 0, 0x11, 4, 0, 0x38, 0x04, 0x38]
    (["items", "items.x", "items.rest", "P"].map word) _ (by decide +kernel) (by decide +kernel) (by decide +kernel) (by decide +kernel),
    by decide +kernel⟩

/-- **Elements that take no room.** With a struct without fields as the element, one byte keeps the decoder busy for ever. -/
theorem C84_false_endless :
    CompilesTo (word "struct S { } packet P { @eof S items[]; }") [0x07, 1, 0, 0x3A, 0, 0, 0x03, 0, 0, 0x04, 0x38] ∧
    ∀ n, ∃ s, exec (decAgree [0x07, 1, 0, 0x3A, 0, 0, 0x03, 0, 0, 0x04, 0x38] 0) n (startWith [0]) = .run s := by
  refine ⟨compilesTo _ [.decl [] (.struct (word "S") (bodyOf [])), .decl [] (.packet (word "P") (bodyOf [fieldOf [.eof] "S" "items" none .empty]))]
    (["items", "P"].map word) [0x07, 1, 0, 0x3A, 0, 0, 0x03, 0, 0, 0x04, 0x38] (["items", "P"].map word) _ (by decide +kernel) (by decide +kernel) (by decide +kernel) (by decide +kernel), ?_⟩
  refine runs_on (k := 2) (p := 2) (m := stateAfter (decAgree [0x07, 1, 0, 0x3A, 0, 0, 0x03, 0, 0, 0x04, 0x38] 0) 2 (startWith [0])) ?_ ?_
  · exact runB_iff (by decide +kernel)
  · exact runB_iff (by decide +kernel)

end Cnd
