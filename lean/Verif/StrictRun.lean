import Verif.SweepHost
import Verif.Strict
import Verif.TameRuns
/-
  Accepting runs of checked packet descriptions (for C68): every piece of code that an accepting run goes through has read a
  record.
-/

set_option linter.unusedVariables false

namespace Cnd

/-! ### What the recording host says -/

section
variable {K : View} {E : Env (List Ev)} {s : St (List Ev)} {P : St (List Ev) → Prop} {Q : Err → St (List Ev) → Prop} {U : UB → Prop}

theorem post_fetB {σ : Type} {P : St σ → Prop} {Q : Err → St σ → Prop} {U : UB → Prop} {E : Env σ} {s : St σ}
    {n : Nat} {bs : List Byte} {k : Word → St σ → Res σ} (hat : At E.prog s.ip bs) (hn : bs.length = n) (h0 : 0 < n)
    (h : Post P Q U (k (leWord bs) { s with ip := s.ip + n })) : Post P Q U (fet E s n k) := by
  have := hat.fetch hn h0
  unfold fet
  rw [this]
  exact h

theorem post_give (hH : E.host = taker K) {key n : Nat} {op : Byte} {v : Word} {k : St (List Ev) → Word → Res (List Ev)}
    (hop : op ≠ 0x06 ∧ op ≠ 0x60) (h : Post P Q U (k { s with host := s.host ++ [.num key op v] } (truncB n v))) :
    Post P Q U (callScalar E s key op n v k) := by
  have : E.host.scalar s.host key op v = (true, v, s.host ++ [.num key op v]) := by
    rw [hH]
    simp only [taker]
    split
    · rfl
    · rw [if_neg (fun h => h.elim hop.1 hop.2)]
  unfold callScalar
  rw [this]
  exact h

theorem post_ask (hH : E.host = taker K) {key n : Nat} {op : Byte} {v : Word} {k : St (List Ev) → Word → Res (List Ev)}
    (hop : op = 0x06 ∨ op = 0x60) (hK : K key = false)
    (h : ∀ w, K.look key (vis K s.host) = some w → Post P Q U (k s (truncB n w))) (hq : Q .callback s) :
    Post P Q U (callScalar E s key op n v k) := by
  cases hl : K.look key (vis K s.host) with
  | some w =>
    have : E.host.scalar s.host key op v = (true, w, s.host) := by
      rw [hH]
      simp only [taker, hK, Bool.false_eq_true, if_false, if_pos hop, hl]
    unfold callScalar
    rw [this]
    exact h w hl
  | none =>
    have : E.host.scalar s.host key op v = (false, v, s.host) := by
      rw [hH]
      simp only [taker, hK, Bool.false_eq_true, if_false, if_pos hop, hl]
    unfold callScalar
    rw [this]
    exact hq

theorem post_note (hH : E.host = taker K) {key : Nat} {op : Byte} {k : St (List Ev) → Res (List Ev)}
    (h : Post P Q U (k { s with host := s.host ++ [.note key op] })) : Post P Q U (callNotify E s key op k) := by
  have : E.host.notify s.host key op = (true, s.host ++ [.note key op]) := by rw [hH]; rfl
  unfold callNotify
  rw [this]
  exact h

theorem post_strAt (hH : E.host = taker K) {key p : Nat} {op : Byte} {k bad : St (List Ev) → Res (List Ev)} (hop : op ≠ 0x39)
    (h : strThere op s.be s.buf p = true → Post P Q U (k { s with host := s.host ++ [.str key op (readStr op s.be s.buf p)] }))
    (hb : Post P Q U (bad s)) : Post P Q U (callAt E s key op p k bad) := by
  cases ht : strThere op s.be s.buf p with
  | true =>
    have : E.host.bytesAt s.host key op s.be s.buf p = (true, s.buf, s.host ++ [.str key op (readStr op s.be s.buf p)]) := by
      rw [hH]; simp only [taker, if_neg hop, ht, if_true, Bool.false_eq_true, if_false]
    unfold callAt
    rw [this]
    simp only [hostBuf_self, if_true]
    exact h ht
  | false =>
    have : E.host.bytesAt s.host key op s.be s.buf p = (false, s.buf, s.host) := by
      rw [hH]; simp only [taker, if_neg hop, ht, if_true, Bool.false_eq_true, if_false]
    unfold callAt
    rw [this]
    simp only [hostBuf_self]
    exact hb

/-- The recording host declines bulk transfers: an array is skipped or looped. -/
theorem post_enter (hH : E.host = taker K) {count : Nat} (h0 : count = 0 → P { s with ip := skipBody E.prog s.ip })
    (h1 : 0 < count → Post P Q U (pushLoop s count)) : Post P Q U (enterArray E s count) := by
  apply post_enterArray h0
  · intro h b key _ _ _ hb
    rw [hH] at hb
    simp [taker] at hb
  · intro h b key hc hb
    rw [hH] at hb
    simp only [taker, if_true, Prod.mk.injEq, true_and] at hb
    obtain ⟨rfl, rfl⟩ := hb
    rw [hostBuf_self]
    exact h1 hc
  · exact h1

end

/-! ### Accepting runs -/

/-- The run from `s` ends with success in `sf`. -/
def Acc {σ : Type} (E : Env σ) (sf s : St σ) : Prop := ∃ n, exec E n s = .stop .ok sf

/-- Not an error. -/
abbrev Pass {σ : Type} (P : St σ → Prop) (r : Res σ) : Prop := Post P (fun e _ => e ≠ .ok) (fun _ => True) r

theorem acc_step {σ : Type} {E : Env σ} {sf s : St σ} {P : St σ → Prop} (h : Acc E sf s) (hp : Pass P (step E s)) :
    ∃ s', P s' ∧ Acc E sf s' := by
  obtain ⟨n, hn⟩ := h
  cases n with
  | zero => cases hn
  | succ n =>
    unfold exec at hn
    cases hs : step E s with
    | run s' =>
      rw [hs] at hn hp
      exact ⟨s', hp, n, hn⟩
    | stop e s' =>
      rw [hs] at hn hp
      injection hn with h1 h2
      exact (hp h1).elim
    | ub u =>
      rw [hs] at hn
      cases hn

theorem acc_run {σ : Type} {E : Env σ} {sf s s' : St σ} (h : Acc E sf s) (hs : step E s = .run s') : Acc E sf s' := by
  obtain ⟨t, rfl, ht⟩ := acc_step (P := fun t => t = s') h (by rw [hs]; exact rfl)
  exact ht

theorem pass_imp {σ : Type} {P P' : St σ → Prop} {r : Res σ} (h : Pass P r) (hp : ∀ s', P s' → P' s') : Pass P' r := by
  cases r with
  | run s => exact hp s h
  | stop e s => exact h
  | ub u => trivial

theorem taker_grow (K : View) : HostGrow (taker K) (fun a b => a <+: b) where
  refl _ := List.prefix_refl _
  trans := List.IsPrefix.trans
  notify := by
    intro h key op b h' e
    simp only [taker, Prod.mk.injEq] at e
    rw [← e.2]
    exact List.prefix_append _ _
  scalar := by
    intro h key op v b w h' e
    simp only [taker] at e
    split at e
    · simp only [Prod.mk.injEq] at e
      rw [← e.2.2]; exact List.prefix_append _ _
    · split at e
      · split at e <;> (simp only [Prod.mk.injEq] at e; rw [← e.2.2]; exact List.prefix_refl _)
      · simp only [Prod.mk.injEq] at e
        rw [← e.2.2]; exact List.prefix_append _ _
  str := by
    intro h key op b w h' e
    simp only [taker, Prod.mk.injEq] at e
    rw [← e.2.2]; exact List.prefix_refl _
  bytes := by
    intro h key op be buf p b w h' e
    simp only [taker] at e
    split at e
    · simp only [Prod.mk.injEq] at e
      rw [← e.2.2]; exact List.prefix_refl _
    · split at e
      · simp only [Prod.mk.injEq] at e
        rw [← e.2.2]; exact List.prefix_append _ _
      · simp only [Prod.mk.injEq] at e
        rw [← e.2.2]; exact List.prefix_refl _

/-- What has been reported stays reported. -/
theorem acc_grow {K : View} {E : Env (List Ev)} {sf s : St (List Ev)} (hH : E.host = taker K) (h : Acc E sf s) : s.host <+: sf.host := by
  obtain ⟨n, hn⟩ := h
  induction n generalizing s with
  | zero => cases hn
  | succ n ih =>
    unfold exec at hn
    cases hop : E.prog[s.ip]? with
    | none =>
      have : step E s = .stop .ok s := by unfold step; rw [hop]
      rw [this] at hn
      injection hn with _ h2
      rw [h2]
      exact List.prefix_refl _
    | some op =>
      have hs : step E s = execOp E op (alignSt op { s with ip := s.ip + 1 }) := by unfold step; rw [hop]
      have hg := execOp_grow (hH ▸ taker_grow K) op (alignSt op { s with ip := s.ip + 1 })
      have hhost : (alignSt op { s with ip := s.ip + 1 }).host = s.host := by unfold alignSt; split <;> rfl
      unfold Grown at hg
      rw [hhost, ← hs] at hg
      cases hr : step E s with
      | run s' =>
        rw [hr] at hn hg
        exact List.IsPrefix.trans hg (ih hn)
      | stop e s' =>
        rw [hr] at hn hg
        injection hn with _ h2
        rw [← h2]
        exact hg
      | ub u => rw [hr] at hn; cases hn

/-- Everything reported up to here is fine. -/
theorem acc_fine {K : View} {L : Nat → Nat} {E : Env (List Ev)} {sf s : St (List Ev)} (hH : E.host = taker K)
    (hf : ∀ e ∈ vis K sf.host, e.fine L = true) (h : Acc E sf s) : ∀ e ∈ vis K s.host, e.fine L = true := by
  intro e he
  obtain ⟨t, ht⟩ := acc_grow hH h
  refine hf e ?_
  rw [← ht, vis_append]
  exact List.mem_append_left _ he

/-! ### States and places -/

/-- The state agrees with a place of a record; if the record does not fit the packet, only the position is lost. -/
structure Fits (K : View) (p : P) (a : Pin) (s : St (List Ev)) : Prop where
  bit : s.bit < 8
  pos : s.at = p.pos ∨ 8 * s.buf.length < p.pos
  be : s.be = p.be
  evs : vis K s.host = p.evs
  trans : s.trans = .none
  opt : s.opt = true → a.opt = true
  al : ∀ m, a.pos = some m → p.pos % 8 = m
  order : ∀ b, a.be = some b → p.be = b

theorem Fits.mono {K : View} {p : P} {a b : Pin} {s : St (List Ev)} (h : Fits K p a s) (hab : a.le b = true) : Fits K p b s := by
  simp only [Pin.le, Bool.and_eq_true, Bool.or_eq_true, Option.isNone_iff_eq_none, decide_eq_true_eq, Bool.not_eq_true'] at hab
  obtain ⟨⟨h1, h2⟩, h3⟩ := hab
  refine ⟨h.bit, h.pos, h.be, h.evs, h.trans, fun e => ?_, fun m e => ?_, fun c e => ?_⟩
  · have := h.opt e
    rcases h3 with h3 | h3
    · rw [this] at h3; cases h3
    · exact h3
  · rcases h1 with h1 | h1
    · rw [h1] at e; cases e
    · exact h.al m (h1 ▸ e)
  · rcases h2 with h2 | h2
    · rw [h2] at e; cases e
    · exact h.order c (h2 ▸ e)

theorem pin_le_left (a b : Pin) : a.le (a.join b) = true := by
  simp only [Pin.le, Pin.join, Bool.and_eq_true, Bool.or_eq_true, Option.isNone_iff_eq_none, decide_eq_true_eq, Bool.not_eq_true']
  refine ⟨⟨?_, ?_⟩, ?_⟩
  · split <;> simp
  · split <;> simp
  · cases a.opt <;> simp

theorem pin_le_right (a b : Pin) : b.le (a.join b) = true := by
  simp only [Pin.le, Pin.join, Bool.and_eq_true, Bool.or_eq_true, Option.isNone_iff_eq_none, decide_eq_true_eq, Bool.not_eq_true']
  refine ⟨⟨?_, ?_⟩, ?_⟩
  · split <;> simp_all
  · split <;> simp_all
  · cases b.opt <;> simp

theorem pin_le_refl (a : Pin) : a.le a = true := by
  simp [Pin.le]

theorem pin_le_trans {a b c : Pin} (h1 : a.le b = true) (h2 : b.le c = true) : a.le c = true := by
  simp only [Pin.le, Bool.and_eq_true, Bool.or_eq_true, Option.isNone_iff_eq_none, decide_eq_true_eq, Bool.not_eq_true'] at *
  obtain ⟨⟨h11, h12⟩, h13⟩ := h1
  obtain ⟨⟨h21, h22⟩, h23⟩ := h2
  refine ⟨⟨?_, ?_⟩, ?_⟩
  · rcases h21 with h | h
    · exact .inl h
    · rcases h11 with h' | h'
      · exact .inl (h.trans h')
      · exact .inr (h.trans h')
  · rcases h22 with h | h
    · exact .inl h
    · rcases h12 with h' | h'
      · exact .inl (h.trans h')
      · exact .inr (h.trans h')
  · rcases h13 with h | h
    · exact .inl h
    · rcases h23 with h' | h'
      · rw [h] at h'; cases h'
      · exact .inr h'

/-- Behind a piece of code of `k` bytes. -/
structure Past (k : Nat) (s s' : St (List Ev)) : Prop where
  ip : s'.ip = s.ip + k
  loops : s'.loops = s.loops
  len : s'.buf.length = s.buf.length

theorem Past.then {k l : Nat} {s m s' : St (List Ev)} (h1 : Past k s m) (h2 : Past l m s') : Past (k + l) s s' :=
  ⟨by rw [h2.ip, h1.ip]; omega, h2.loops.trans h1.loops, h2.len.trans h1.len⟩

/-- What an accepting run has read. -/
def Got (K : View) (E : Env (List Ev)) (sf : St (List Ev)) (k : Nat) (a' : Pin) (R : P → Prop) (s : St (List Ev)) : Prop :=
  ∃ s' q, R q ∧ Past k s s' ∧ Fits K q a' s' ∧ Acc E sf s'

/-- Every accepting run through the code has read something that fits `R`. -/
def Snd (K : View) (E : Env (List Ev)) (sf : St (List Ev)) (code : List Byte) (a a' : Pin) (R : P → P → Prop) : Prop :=
  ∀ s p, At E.prog s.ip code → Fits K p a s → Acc E sf s → Got K E sf code.length a' (R p) s

section
variable {K : View} {E : Env (List Ev)} {sf s s' : St (List Ev)} {a b c : Pin} {x y : List Byte} {R R' : P → P → Prop} {p : P}

theorem Snd.then (h1 : Snd K E sf x a b R) (h2 : Snd K E sf y b c R') :
    Snd K E sf (x ++ y) a c (fun p q => ∃ m, R p m ∧ R' m q) := by
  intro s p hat hf ha
  obtain ⟨m, pm, r1, p1, f1, a1⟩ := h1 s p hat.left hf ha
  obtain ⟨s', q, r2, p2, f2, a2⟩ := h2 m pm (p1.ip ▸ hat.right) f1 a1
  rw [List.length_append]
  exact ⟨s', q, ⟨pm, r1, r2⟩, p1.then p2, f2, a2⟩

theorem Snd.weaken (h : Snd K E sf x a b R) (hb : b.le c = true) (hr : ∀ p q, R p q → R' p q) : Snd K E sf x a c R' := by
  intro s p hat hf ha
  obtain ⟨s', q, r1, p1, f1, a1⟩ := h s p hat hf ha
  exact ⟨s', q, hr _ _ r1, p1, f1.mono hb, a1⟩

theorem Snd.nil : Snd K E sf [] a a (fun p q => q = p) :=
  fun s p _ hf ha => ⟨s, p, rfl, ⟨rfl, rfl, rfl⟩, hf, ha⟩

/-- One instruction. -/
theorem Snd.one {op : Byte} {rest : List Byte}
    (h : ∀ s p, At E.prog s.ip (op :: rest) → Fits K p a s → (∀ s', Acc E sf s' → s'.host <+: sf.host) →
      Pass (fun s' => s'.host <+: sf.host → ∃ q, R p q ∧ Past (rest.length + 1) s s' ∧ Fits K q b s') (execOp E op (pre op s)))
    (hH : E.host = taker K) : Snd K E sf (op :: rest) a b R := by
  intro s p hat hf ha
  have := h s p hat hf (fun s' => acc_grow hH)
  rw [← step_pre hat] at this
  obtain ⟨s', h1, h2⟩ := acc_step ha this
  obtain ⟨q, r, pa, f⟩ := h1 (acc_grow hH h2)
  exact ⟨s', q, r, pa, f, h2⟩

/-! ### Instructions by kind -/

/-- A byte-aligned item of `n` bytes has been read. -/
structure Took2 (k n : Nat) (es : List Ev) (o : Bool) (s s' : St (List Ev)) : Prop where
  ip : s'.ip = s.ip + k
  loops : s'.loops = s.loops
  len : s'.buf.length = s.buf.length
  be : s'.be = s.be
  host : s'.host = s.host ++ es
  bit : s'.bit = 0
  trans : s'.trans = .none
  cur : s'.cursor = s.fieldPos + n ∨ s.buf.length < s.fieldPos + n
  opt : s'.opt = true → o = true

theorem up8_fieldPos {s : St (List Ev)} (hb : s.bit < 8) : up8 s.at = 8 * s.fieldPos := by
  unfold up8 St.at St.fieldPos
  split <;> omega

theorem le_up8 (n : Nat) : n ≤ up8 n := by unfold up8; omega

theorem fits_took {k n : Nat} {es : List Ev} {o : Bool} (hf : Fits K p a s) (h : Took2 k n es o s s') :
    Past k s s' ∧ Fits K (p.bytes n (vis K es)) ⟨some 0, a.be, o⟩ s' := by
  refine ⟨⟨h.ip, h.loops, h.len⟩, ⟨by rw [h.bit]; omega, ?_, h.be.trans hf.be, ?_, h.trans, h.opt, ?_, hf.order⟩⟩
  · have h1 := h.bit
    rw [h.len]
    show s'.at = up8 p.pos + 8 * n ∨ _ < up8 p.pos + 8 * n
    rcases hf.pos with e | e
    · rw [← e, up8_fieldPos hf.bit]
      unfold St.at
      rcases h.cur with h2 | h2
      · left; omega
      · right; omega
    · right
      have := le_up8 p.pos
      omega
  · rw [h.host, vis_append, hf.evs]; rfl
  · intro m e
    injection e with e
    subst e
    show (up8 p.pos + 8 * n) % 8 = 0
    unfold up8
    omega

/-- `n` bits have been read. -/
structure Bits2 (k n : Nat) (es : List Ev) (s s' : St (List Ev)) : Prop where
  ip : s'.ip = s.ip + k
  loops : s'.loops = s.loops
  len : s'.buf.length = s.buf.length
  be : s'.be = s.be
  host : s'.host = s.host ++ es
  bit : s'.bit < 8
  trans : s'.trans = s.trans
  pos : s'.at = s.at + n ∨ 8 * s.buf.length < s.at + n
  opt : s'.opt = s.opt

theorem fits_bits {k n : Nat} {es : List Ev} (hf : Fits K p a s) (h : Bits2 k n es s s') :
    Past k s s' ∧ Fits K (p.bits n (vis K es)) (a.bits n) s' := by
  refine ⟨⟨h.ip, h.loops, h.len⟩, ⟨h.bit, ?_, h.be.trans hf.be, ?_, h.trans.trans hf.trans, fun e => hf.opt (h.opt ▸ e), ?_, hf.order⟩⟩
  · rw [h.len]
    show s'.at = p.pos + n ∨ _ < p.pos + n
    rcases hf.pos with e | e
    · rw [← e]; exact h.pos
    · right; omega
  · rw [h.host, vis_append, hf.evs]; rfl
  · intro m e
    obtain ⟨m', e1, e2⟩ := Option.map_eq_some_iff.1 e
    have := hf.al m' e1
    show (p.pos + n) % 8 = m
    omega

theorem bits_zero {es : List Ev} : p.bits 0 es = ⟨p.pos, p.be, p.evs ++ es⟩ := rfl

theorem pin_bits_zero (h : Fits K p (a.bits 0) s) (hal : ∀ m, a.pos = some m → p.pos % 8 = m) : Fits K p a s :=
  ⟨h.bit, h.pos, h.be, h.evs, h.trans, h.opt, hal, h.order⟩

theorem vis_one {key : Nat} {op : Byte} {v : Word} (h : K key = false) : vis K [.num key op v] = [.num key op v] := by
  simp [vis, h]

theorem vis_hid {key : Nat} {op : Byte} {v : Word} (h : K key = true) : vis K [.num key op v] = [] := by
  simp [vis, h]

/-! ### Fields -/

theorem scalar_reads (hH : E.host = taker K) (henc : E.enc = false) {op k0 k1 : Byte} {n : Nat} (hop : scalarWidth op.toNat = some n)
    (hat : At E.prog s.ip [op, k0, k1]) (ht : s.trans = .none) :
    Pass (fun s' => ∃ v, ScalarVal op n v ∧ Took2 3 n [.num (keyNum k0 k1) op v] false s s' ∧
      (s.opt = false → s'.buf = s.buf ∧ s'.cursor = s.fieldPos + n ∧ ∃ bs, slice s.buf s.fieldPos n = some bs ∧ v = rdWord s.be bs)) (step E s) := by
  obtain ⟨hal, hn0, hn8, hcase⟩ := scalar_dispatch op n hop
  have hno : op ≠ 0x06 ∧ op ≠ 0x60 := by
    constructor <;> (rintro rfl; cases hop)
  have h0 : ScalarVal op n 0 := ⟨Nat.pow_pos (by decide), fun _ => by decide⟩
  have hlt : ∀ bs, slice s.buf s.fieldPos n = some bs → (rdWord s.be bs).toNat < 2 ^ (8 * n) := by
    intro bs hbs
    have hl := slice_length hbs
    rw [← hl]; exact toNat_rdWord_lt _ _ (by omega)
  rw [step_pre hat, pre_aligned op s hal]
  unfold execOp
  rcases hcase with ⟨t, hd, htz, hne⟩ | ⟨hd, rfl, hne⟩ | ⟨hd, rfl, hne⟩ | ⟨hd, rfl, he⟩
  · subst htz
    rw [hd]
    show Pass _ (handlePrim E t op _)
    unfold handlePrim
    refine post_fetB hat.tail rfl (by omega) ?_
    refine post_dite (fun hm => ?_) fun hm => ?_
    · refine post_dite (fun ho => ?_) fun ho => ?_
      · refine post_give hH hno ?_
        rw [leWord_key]
        refine ⟨0, h0, ⟨rfl, rfl, rfl, rfl, rfl, rfl, ht, .inr hm, fun e => by cases e⟩, fun e => ?_⟩
        rw [show s.opt = true from ho] at e; cases e
      · exact fun e => by cases e
    · dsimp only
      rw [ht, henc]
      simp only [Bool.false_eq_true, if_false]
      refine post_rdAt (fun bs hbs => ?_) fun _ => trivial
      refine post_give hH hno ?_
      rw [leWord_key]
      exact ⟨_, ⟨hlt bs hbs, fun e => absurd e hne⟩, ⟨rfl, rfl, rfl, rfl, rfl, rfl, rfl, .inl rfl, fun e => by cases e⟩, fun _ => ⟨rfl, rfl, bs, hbs, rfl⟩⟩
  · rw [hd]
    show Pass _ (handleFloat E false op _)
    unfold handleFloat
    refine post_fetB hat.tail rfl (by omega) ?_
    refine post_dite (fun hm => ?_) fun hm => ?_
    · refine post_dite (fun ho => ?_) fun ho => ?_
      · refine post_give hH hno ?_
        rw [leWord_key]
        refine ⟨0, h0, ⟨rfl, rfl, rfl, rfl, rfl, rfl, ht, .inr hm, fun e => by cases e⟩, fun e => ?_⟩
        rw [show s.opt = true from ho] at e; cases e
      · exact fun e => by cases e
    · dsimp only
      rw [ht, henc]
      simp only [Bool.false_eq_true, if_false]
      refine post_rdAt (fun bs hbs => ?_) fun _ => trivial
      refine post_give hH hno ?_
      rw [leWord_key]
      exact ⟨_, ⟨hlt bs hbs, fun e => absurd e hne⟩, ⟨rfl, rfl, rfl, rfl, rfl, rfl, rfl, .inl rfl, fun e => by cases e⟩, fun _ => ⟨rfl, rfl, bs, hbs, rfl⟩⟩
  · rw [hd]
    show Pass _ (handleFloat E true op _)
    unfold handleFloat
    refine post_fetB hat.tail rfl (by omega) ?_
    refine post_dite (fun hm => ?_) fun hm => ?_
    · refine post_dite (fun ho => ?_) fun ho => ?_
      · refine post_give hH hno ?_
        rw [leWord_key]
        refine ⟨0, h0, ⟨rfl, rfl, rfl, rfl, rfl, rfl, ht, .inr hm, fun e => by cases e⟩, fun e => ?_⟩
        rw [show s.opt = true from ho] at e; cases e
      · exact fun e => by cases e
    · dsimp only
      rw [ht, henc]
      simp only [Bool.false_eq_true, if_false]
      refine post_rdAt (fun bs hbs => ?_) fun _ => trivial
      refine post_give hH hno ?_
      rw [leWord_key]
      exact ⟨_, ⟨hlt bs hbs, fun e => absurd e hne⟩, ⟨rfl, rfl, rfl, rfl, rfl, rfl, rfl, .inl rfl, fun e => by cases e⟩, fun _ => ⟨rfl, rfl, bs, hbs, rfl⟩⟩
  · rw [hd]
    show Pass _ (handleBool E op _)
    unfold handleBool
    refine post_fetB hat.tail rfl (by omega) ?_
    refine post_dite (fun hm => ?_) fun hm => ?_
    · refine post_dite (fun ho => ?_) fun ho => ?_
      · refine post_give hH hno ?_
        rw [leWord_key]
        refine ⟨0, h0, ⟨rfl, rfl, rfl, rfl, rfl, rfl, ht, .inr hm, fun e => by cases e⟩, fun e => ?_⟩
        rw [show s.opt = true from ho] at e; cases e
      · exact fun e => by cases e
    · dsimp only
      rw [henc]
      simp only [Bool.false_eq_true, if_false]
      refine post_rdAt (fun bs hbs => ?_) fun _ => trivial
      refine post_dite (fun _ => fun e => by cases e) fun hb1 => ?_
      refine post_give hH hno ?_
      rw [leWord_key]
      exact ⟨_, ⟨hlt bs hbs, fun _ => by dsimp only at hb1; omega⟩, ⟨rfl, rfl, rfl, rfl, rfl, rfl, ht, .inl rfl, fun e => by cases e⟩, fun _ => ⟨rfl, rfl, bs, hbs, rfl⟩⟩

theorem snd_scalar (hH : E.host = taker K) (henc : E.enc = false) {op k0 k1 : Byte} (hop : (scalarWidth op.toNat).isSome = true)
    (hK : K (keyNum k0 k1) = false) : Snd K E sf [op, k0, k1] a ⟨some 0, a.be, false⟩ (Rec K (.scalar op k0 k1)) := by
  obtain ⟨n, hn⟩ := Option.isSome_iff_exists.1 hop
  intro s p hat hf ha
  obtain ⟨s', ⟨v, hv, ht, _⟩, ha'⟩ := acc_step ha (scalar_reads hH henc hn hat hf.trans)
  obtain ⟨h1, h2⟩ := fits_took hf ht
  rw [vis_one hK] at h2
  exact ⟨s', _, ⟨n, v, hn, hv, hK, rfl⟩, h1, h2, ha'⟩

/-- An instruction that reads nothing. -/
structure Idle2 (k : Nat) (es : List Ev) (s s' : St (List Ev)) : Prop where
  ip : s'.ip = s.ip + k
  loops : s'.loops = s.loops
  len : s'.buf.length = s.buf.length
  be : s'.be = s.be
  host : s'.host = s.host ++ es
  cursor : s'.cursor = s.cursor
  bit : s'.bit = s.bit
  trans : s'.trans = s.trans
  opt : s'.opt = s.opt

theorem fits_idle {k : Nat} {es : List Ev} (hf : Fits K p a s) (h : Idle2 k es s s') :
    Past k s s' ∧ Fits K (p.bits 0 (vis K es)) a s' := by
  have hat : s'.at = s.at := by unfold St.at; rw [h.cursor, h.bit]
  refine ⟨⟨h.ip, h.loops, h.len⟩, ⟨by rw [h.bit]; exact hf.bit, ?_, h.be.trans hf.be, ?_, h.trans.trans hf.trans, fun e => hf.opt (h.opt ▸ e), hf.al, hf.order⟩⟩
  · rw [h.len, hat]; exact hf.pos
  · rw [h.host, vis_append, hf.evs]; rfl

theorem bits_nil : p.bits 0 [] = p := by
  cases p; simp [P.bits]

theorem snd_idle {op : Byte} {rest : List Byte} (hH : E.host = taker K)
    (h : ∀ s : St (List Ev), At E.prog s.ip (op :: rest) → Pass (Idle2 (rest.length + 1) [] s) (execOp E op (pre op s))) :
    Snd K E sf (op :: rest) a a (fun p q => q = p) := by
  refine Snd.one (fun s p hat hf _ => pass_imp (h s hat) fun s' hi _ => ?_) hH
  have := fits_idle hf hi
  rw [show vis K [] = [] from rfl, bits_nil] at this
  exact ⟨p, rfl, this⟩

theorem snd_range (hH : E.host = taker K) (henc : E.enc = false) {t : Ty} {k0 k1 : Byte} {lo hi : Word} (ho : a.opt = false)
    (hK : K (keyNum k0 k1) = false) (hlo : lo.toNat < 2 ^ (8 * t.size)) (hhi : hi.toNat < 2 ^ (8 * t.size)) :
    Snd K E sf ([t.tag, k0, k1] ++ rangeCode t lo hi) a ⟨some 0, a.be, false⟩ (Rec K (.range t k0 k1 lo hi)) := by
  intro s p hat hf ha
  have hop : scalarWidth t.tag.toNat = some t.size := by cases t <;> rfl
  have hs0 : s.opt = false := by
    cases h : s.opt with
    | false => rfl
    | true => have := hf.opt h; rw [ho] at this; cases this
  obtain ⟨m, ⟨v, hv, ht, hr⟩, ha'⟩ := acc_step ha (scalar_reads hH henc hop hat.left hf.trans)
  obtain ⟨hbuf, hcur, bs, hbs, hvr⟩ := hr hs0
  obtain ⟨h1, h2⟩ := fits_took hf ht
  rw [vis_one hK] at h2
  have hat2 : At E.prog m.ip (rangeCode t lo hi) := ht.ip ▸ hat.right
  have hfield : FieldAt m.be m.buf (m.cursor - t.size) t.size v.toNat := by
    rw [fieldAt_iff t.size_pos, hcur, hbuf, ht.be, Nat.add_sub_cancel, hbs, hvr]
    have := slice_length hbs
    rw [← this, wrBytes_rdWord _ _ (by rw [this]; exact t.size_le)]
  have hstep := C20_range_check E m t lo hi v hat2 hlo hhi hv.1 (by omega) hfield
  split at hstep
  · rename_i hin
    refine ⟨_, _, ⟨v, hv.1, hlo, hhi, hin.1, hin.2, hK, rfl⟩, ?_, ?_, acc_run ha' hstep⟩
    · refine ⟨?_, h1.loops, h1.len⟩
      dsimp only
      rw [h1.ip]
      simp only [rangeCode, List.length_append, List.length_cons, List.length_nil, leBytes_length]
      omega
    · exact ⟨h2.bit, h2.pos, h2.be, h2.evs, h2.trans, h2.opt, h2.al, h2.order⟩
  · obtain ⟨_, hx, _⟩ := acc_step (P := fun _ => False) ha' (by rw [hstep]; exact fun e => by cases e)
    exact hx.elim

theorem snd_enum (hH : E.host = taker K) (henc : E.enc = false) {t : Ty} {k0 k1 : Byte} {vals : List Word} (ho : a.opt = false)
    (hK : K (keyNum k0 k1) = false) (hvals : ∀ x ∈ vals, x.toNat < 2 ^ (8 * t.size)) (hn : vals.length < 2 ^ 16) :
    Snd K E sf ([t.tag, k0, k1] ++ enumCode t vals) a ⟨some 0, a.be, false⟩ (Rec K (.enum t k0 k1 vals)) := by
  intro s p hat hf ha
  have hop : scalarWidth t.tag.toNat = some t.size := by cases t <;> rfl
  have hs0 : s.opt = false := by
    cases h : s.opt with
    | false => rfl
    | true => have := hf.opt h; rw [ho] at this; cases this
  obtain ⟨m, ⟨v, hv, ht, hr⟩, ha'⟩ := acc_step ha (scalar_reads hH henc hop hat.left hf.trans)
  obtain ⟨hbuf, hcur, bs, hbs, hvr⟩ := hr hs0
  obtain ⟨h1, h2⟩ := fits_took hf ht
  rw [vis_one hK] at h2
  have hat2 : At E.prog m.ip (enumCode t vals) := ht.ip ▸ hat.right
  have hfp : m.fieldPos = m.cursor := by unfold St.fieldPos; rw [if_pos ht.bit]
  have hfield : FieldAt m.be m.buf (m.fieldPos - t.size) t.size v.toNat := by
    rw [hfp, fieldAt_iff t.size_pos, hcur, hbuf, ht.be, Nat.add_sub_cancel, hbs, hvr]
    have := slice_length hbs
    rw [← this, wrBytes_rdWord _ _ (by rw [this]; exact t.size_le)]
  obtain ⟨hin, hout⟩ := C21_enum_check E m t vals v hat2 hn hvals hv.1 (by omega) hfield
  by_cases hm : v ∈ vals
  · refine ⟨_, _, ⟨v, hm, hvals, hn, hK, rfl⟩, ?_, ?_, acc_run ha' (hin hm)⟩
    · refine ⟨?_, h1.loops, h1.len⟩
      dsimp only
      rw [h1.ip, List.length_append]
      simp only [List.length_cons, List.length_nil]
      omega
    · refine ⟨Nat.zero_lt_succ 7, ?_, h2.be, h2.evs, h2.trans, h2.opt, h2.al, h2.order⟩
      have := h2.pos
      have hb := ht.bit
      unfold St.at at this ⊢
      dsimp only
      rw [hfp, ← hb]
      exact this
  · obtain ⟨s1, hs1, _⟩ := hout hm
    obtain ⟨_, hx, _⟩ := acc_step (P := fun _ => False) ha' (by rw [hs1]; exact fun e => by cases e)
    exact hx.elim

/-- An item of fixed width that leaves a waiting `@optional` waiting. -/
theorem snd_const (hH : E.host = taker K) (henc : E.enc = false) {t : Ty} {k0 k1 : Byte} {x : Word}
    (hK : K (keyNum k0 k1) = true) (hx : x.toNat < 2 ^ (8 * t.size)) :
    Snd K E sf (constCode t k0 k1 x) a a.aligned (Rec K (.const t k0 k1 x)) := by
  intro s p hat hf ha
  have hat' : At E.prog s.ip (0x40 :: ([k0, k1] ++ ([t.tag] ++ leBytes t.size x))) := by
    have : constCode t k0 k1 x = 0x40 :: ([k0, k1] ++ ([t.tag] ++ leBytes t.size x)) := rfl
    rw [← this]; exact hat
  have hP : Pass (Took2 (4 + t.size) t.size [.num (keyNum k0 k1) ((leWord [t.tag]).setWidth 8) x] s.opt s) (step E s) := by
    rw [step_pre hat', pre_aligned 0x40 s rfl]
    show Pass _ (handleConstCheck E _)
    unfold handleConstCheck
    refine post_fetB hat'.tail.left rfl (by omega) ?_
    refine post_fetB hat'.tail.right.left rfl (by omega) ?_
    rw [tyTag_tag]
    dsimp only
    refine post_fetB hat'.tail.right.right (by simp) t.size_pos ?_
    rw [leWord_leBytes_lt t.size_le hx]
    refine post_dite (fun _ => fun e => by cases e) fun hfit => ?_
    rw [henc]
    simp only [Bool.false_eq_true, if_false]
    refine post_rdAt (fun bs hbs => ?_) fun _ => trivial
    refine post_dite (fun _ => fun e => by cases e) fun heq => ?_
    refine post_give hH ?_ ?_
    · cases t <;> decide
    · rw [leWord_key, Decidable.not_not.1 heq]
      exact ⟨by simp only [List.length_cons, List.length_nil]; omega, rfl, rfl, rfl, rfl, rfl, hf.trans, .inl rfl, id⟩
  obtain ⟨s', ht, ha'⟩ := acc_step ha hP
  obtain ⟨h1, h2⟩ := fits_took hf ht
  rw [vis_hid hK] at h2
  refine ⟨s', _, ⟨hx, hK, rfl⟩, ?_, ?_, ha'⟩
  · have : (constCode t k0 k1 x).length = 4 + t.size := by simp [constCode]; omega
    rw [this]; exact h1
  · exact ⟨h2.bit, h2.pos, h2.be, h2.evs, h2.trans, fun e => hf.opt (h2.opt e), h2.al, h2.order⟩

theorem snd_crc (hH : E.host = taker K) (henc : E.enc = false) {c : CrcPar} (hok : c.ok) :
    Snd K E sf (crcCode c) a a.aligned (Rec K (.crc c)) := by
  intro s p hat hf ha
  have hP : Pass (Took2 (crcCode c).length c.size [] s.opt s) (step E s) := by
    by_cases hpos : s.fieldPos ≤ s.buf.length
    · rw [crc_step hok hat hpos, henc]
      refine post_dite (fun _ => fun e => by cases e) fun hfit => ?_
      simp only [Bool.false_eq_true, if_false]
      refine post_rdAt (fun bs hbs => ?_) fun _ => trivial
      refine post_dite (fun _ => fun e => by cases e) fun heq => ?_
      exact ⟨rfl, rfl, rfl, rfl, by simp, rfl, hf.trans, .inl rfl, id⟩
    · have hal : aligns (if c.w32 then 0x49 else 0x44) = true := by cases c.w32 <;> rfl
      rw [step_pre (op := if c.w32 then 0x49 else 0x44) hat, pre_aligned _ s hal, crc_dispatch]
      unfold handleCrc fet
      dsimp only
      rw [slice_eq_none.2 (by omega)]
      trivial
  obtain ⟨s', ht, ha'⟩ := acc_step ha hP
  obtain ⟨h1, h2⟩ := fits_took hf ht
  refine ⟨s', _, ⟨hok, rfl⟩, h1, ?_, ha'⟩
  exact ⟨h2.bit, h2.pos, h2.be, h2.evs, h2.trans, fun e => hf.opt (h2.opt e), h2.al, h2.order⟩

/-! ### Strings -/

variable {L : Nat → Nat}

theorem fine_str {k : Nat} {op : Byte} {bs : List Byte} (h : (Ev.str k op bs).fine L = true) :
    NulFree bs ∧ (op = 0x30 → bs.length ≤ L k) := by
  simp only [Ev.fine, Bool.and_eq_true, List.all_eq_true, Bool.or_eq_true, bne_iff_ne, decide_eq_true_eq] at h
  refine ⟨fun b hb => by simpa using h.1 b hb, fun e => ?_⟩
  rcases h.2 with h | h
  · exact absurd e h
  · exact h

theorem fine_last (hf : ∀ e ∈ vis K sf.host, e.fine L = true) {e : Ev} {h : List Ev} (hv : vis K [e] = [e]) (hp : h ++ [e] <+: sf.host) :
    e.fine L = true := by
  obtain ⟨t, ht⟩ := hp
  refine hf e ?_
  rw [← ht, vis_append, vis_append, hv]
  simp

theorem takeWhile_take_length {l : List Byte} {m : Nat} (h : (l.takeWhile (· ≠ 0)).length ≤ m) :
    ((l.take m).takeWhile (· ≠ 0)).length = (l.takeWhile (· ≠ 0)).length := by
  induction l generalizing m with
  | nil => simp
  | cons x xs ih =>
    cases m with
    | zero =>
      simp only [List.take_zero, List.takeWhile_nil, List.length_nil]
      omega
    | succ m =>
      rw [List.take_succ_cons, List.takeWhile_cons, List.takeWhile_cons]
      rw [List.takeWhile_cons] at h
      split
      · rename_i hx
        rw [if_pos hx] at h
        simp only [List.length_cons] at h ⊢
        rw [ih (by omega)]
      · rfl

theorem snd_strNull (hH : E.host = taker K) (henc : E.enc = false) (hfine : ∀ e ∈ vis K sf.host, e.fine L = true)
    {k0 k1 m0 m1 : Byte} (hL : L (keyNum k0 k1) ≤ keyNum m0 m1) :
    Snd K E sf (strNullCode k0 k1 m0 m1) a ⟨some 0, a.be, false⟩ (Rec K (.strNull k0 k1 m0 m1)) := by
  refine Snd.one (op := 0x30) (rest := [k0, k1, m0, m1]) (fun s p hat hf _ => ?_) hH
  rw [pre_aligned 0x30 s rfl]
  show Pass _ (handleStrNull E 0x30 _)
  unfold handleStrNull
  refine post_fetB (At.left (a := [k0, k1]) (b := [m0, m1]) hat.tail) rfl (by omega) ?_
  refine post_fetB (At.right (a := [k0, k1]) (b := [m0, m1]) hat.tail) rfl (by omega) ?_
  rw [henc]
  simp only [Bool.false_eq_true, if_false]
  refine post_dite (fun _ => post_dite (fun _ => fun e => by cases e) fun _ => trivial) fun hc => ?_
  refine post_dite (fun _ => fun e => by cases e) fun hc2 => ?_
  refine post_strAt hH (by decide) (fun hth => ?_) fun e => by cases e
  intro hpre
  have hk : (leWord [k0, k1]).toNat = keyNum k0 k1 := leWord_key k0 k1
  dsimp only at hpre hc2 ⊢
  rw [hk] at hpre ⊢
  have hfi := fine_str (fine_last hfine rfl hpre)
  have hr : readStr 0x30 s.be s.buf s.fieldPos = (s.buf.drop s.fieldPos).takeWhile (· ≠ 0) := rfl
  rw [hr] at hfi
  have hlen := hfi.2 rfl
  have hm : (leWord [m0, m1]).toNat = keyNum m0 m1 := leWord_key m0 m1
  have htk := takeWhile_take_length (l := s.buf.drop s.fieldPos) (m := (leWord [m0, m1]).toNat) (by omega)
  have ht : Took2 5 ((readStr 0x30 s.be s.buf s.fieldPos).length + 1) [.str (keyNum k0 k1) 0x30 (readStr 0x30 s.be s.buf s.fieldPos)] false s
      { s with ip := s.ip + 1 + 2 + 2, cursor := s.fieldPos + (((s.buf.drop s.fieldPos).take (leWord [m0, m1]).toNat).takeWhile (· ≠ 0)).length + 1,
               bit := 0, opt := false, host := s.host ++ [.str (keyNum k0 k1) 0x30 (readStr 0x30 s.be s.buf s.fieldPos)] } := by
    refine ⟨rfl, rfl, rfl, rfl, rfl, rfl, hf.trans, .inl ?_, fun e => by cases e⟩
    dsimp only
    rw [htk, hr]
    omega
  obtain ⟨h1, h2⟩ := fits_took hf ht
  exact ⟨_, ⟨readStr 0x30 s.be s.buf s.fieldPos, by rw [hr]; exact hfi.1, by rw [hr]; omega, rfl⟩, h1, h2⟩

theorem snd_strPre (hH : E.host = taker K) (henc : E.enc = false) (hfine : ∀ e ∈ vis K sf.host, e.fine L = true)
    {r : Pre} {k0 k1 : Byte} : Snd K E sf [r.strOp, k0, k1] a ⟨some 0, a.be, false⟩ (Rec K (.strPre r k0 k1)) := by
  refine Snd.one (fun s p hat hf _ => ?_) hH
  have hal : aligns r.strOp = true := by cases r <;> rfl
  rw [pre_aligned _ s hal]
  have hx : ∀ t : St (List Ev), execOp E r.strOp t = handleStrPre E r r.strOp t := by intro t; cases r <;> rfl
  rw [hx]
  unfold handleStrPre
  refine post_fetB hat.tail rfl (by omega) ?_
  rw [henc]
  simp only [Bool.false_eq_true, if_false]
  refine post_dite (fun _ => fun e => by cases e) fun hc => ?_
  refine post_rdAt (fun bs hbs => ?_) fun _ => trivial
  refine post_dite (fun _ => fun e => by cases e) fun hc2 => ?_
  refine post_strAt hH (by cases r <;> decide) (fun hth => ?_) fun e => by cases e
  intro hpre
  rw [leWord_key] at hpre
  dsimp only at hpre hc2 hbs ⊢
  have hfi := (fine_str (fine_last hfine rfl hpre)).1
  have hsz : ∃ n, r.size = n + 1 ∧ strPrefix r.strOp = some (n + 1) := by cases r <;> exact ⟨_, rfl, rfl⟩
  obtain ⟨n, hn, hpx⟩ := hsz
  have hr : readStr r.strOp s.be s.buf (s.fieldPos + r.size) = (s.buf.drop (s.fieldPos + r.size)).take (rdWord s.be bs).toNat := by
    unfold readStr
    rw [hpx]
    dsimp only
    rw [← hn, Nat.add_sub_cancel, (slice_eq_some.1 hbs).2]
  have hlen : (readStr r.strOp s.be s.buf (s.fieldPos + r.size)).length = (rdWord s.be bs).toNat := by
    rw [hr, List.length_take, List.length_drop]; omega
  have hlt : (rdWord s.be bs).toNat < 2 ^ (8 * r.size) := by
    have hl := slice_length hbs
    rw [← hl]; exact toNat_rdWord_lt _ _ (by rw [hl]; cases r <;> decide)
  have ht : Took2 3 (r.size + (readStr r.strOp s.be s.buf (s.fieldPos + r.size)).length)
      [.str (keyNum k0 k1) r.strOp (readStr r.strOp s.be s.buf (s.fieldPos + r.size))] false s
      { s with ip := s.ip + 1 + 2, cursor := s.fieldPos + r.size + (rdWord s.be bs).toNat, bit := 0, opt := false,
               host := s.host ++ [.str (keyNum k0 k1) r.strOp (readStr r.strOp s.be s.buf (s.fieldPos + r.size))] } := by
    refine ⟨rfl, rfl, rfl, rfl, rfl, rfl, hf.trans, .inl ?_, fun e => by cases e⟩
    dsimp only
    omega
  obtain ⟨h1, h2⟩ := fits_took hf ht
  rw [leWord_key]
  exact ⟨_, ⟨_, hfi, by rw [hlen]; exact hlt, rfl⟩, h1, h2⟩

/-! ### Bit fields -/

theorem lt_of_bits {v : Word} {n : Nat} (h : ∀ t, t < 64 → n ≤ t → v.getLsbD t = false) : v.toNat < 2 ^ n := by
  apply Nat.lt_pow_two_of_testBit
  intro i hi
  by_cases h64 : i < 64
  · exact h i h64 hi
  · apply Nat.testBit_lt_two_pow
    exact Nat.lt_of_lt_of_le v.isLt (Nat.pow_le_pow_right (by decide) (by omega))

/-- read_bits returns no more bits than asked for, also at the end of the packet. -/
theorem readBits_lt {be : Bool} {count : Nat} {buf : List Byte} {cur bit : Nat} (hb : bit < 8) {v : Word} {c' o' : Nat}
    (h : readBits buf be cur bit count = some (v, c', o')) : v.toNat < 2 ^ count := by
  unfold readBits at h
  simp only at h
  split at h
  · rename_i hc
    obtain ⟨_, h8, hlen, hsz⟩ := hc
    simp only [Option.some.injEq, Prod.mk.injEq] at h
    rw [← h.1]
    have hl : ((buf.drop cur).take (count / 8)).length = count / 8 := by rw [List.length_take, List.length_drop]; omega
    have := toNat_rdWord_lt be ((buf.drop cur).take (count / 8)) (by omega)
    rw [hl] at this
    rw [show 8 * (count / 8) = count by omega] at this
    exact this
  · cases be
    · have := (readLoop_le buf count 0 cur bit 0 hb h).2.2
      apply lt_of_bits
      intro t ht hn
      rw [this t ht]
      have : ¬ (0 ≤ t ∧ t < 0 + room buf.length (8 * cur + bit) count) := by simp only [room]; omega
      rw [decide_eq_false this]
      simp
    · obtain ⟨v', c, o, e1, e2, e3, e4⟩ := readLoop_be buf count 0 cur bit 0 hb
      rw [e1] at h
      simp only [Option.some.injEq, Prod.mk.injEq] at h
      obtain ⟨rfl, rfl, rfl⟩ := h
      apply lt_of_bits
      intro t ht hn
      rw [e4 t ht]
      have : ¬ t < room buf.length (8 * cur + bit) count := by simp only [room]; omega
      rw [if_neg this]
      simp

/-- Where a read of bits ends. -/
theorem room_pos {len k n k' : Nat} (h : k' = k + room len k n) : k' = k + n ∨ 8 * len < k + n := by
  unfold room at h
  omega

theorem snd_bitU (hH : E.host = taker K) (henc : E.enc = false) {k0 k1 n : Byte} (hn : n.toNat ≤ 64) (hK : K (keyNum k0 k1) = false) :
    Snd K E sf [0x20, k0, k1, n] a (a.bits n.toNat) (Rec K (.bitU k0 k1 n)) := by
  refine Snd.one (fun s p hat hf _ => ?_) hH
  rw [pre_unaligned 0x20 s rfl]
  show Pass _ (handleBitU E 0x20 _)
  unfold handleBitU
  refine post_fetB (At.left (a := [k0, k1]) (b := [n]) hat.tail) rfl (by omega) ?_
  refine post_fetB (At.right (a := [k0, k1]) (b := [n]) hat.tail) rfl (by omega) ?_
  rw [henc, byte_word, leWord_key]
  simp only [Bool.false_eq_true, if_false]
  refine post_getBits (fun v c o hrd hpos => ?_) fun _ => trivial
  refine post_give hH (by decide) ?_
  obtain ⟨ho, hp⟩ := hpos hf.bit
  intro _
  have ht : Bits2 4 n.toNat [.num (keyNum k0 k1) 0x20 v] s
      { s with ip := s.ip + 1 + 2 + 1, cursor := c, bit := o, host := s.host ++ [.num (keyNum k0 k1) 0x20 v] } :=
    ⟨rfl, rfl, rfl, rfl, rfl, ho, rfl, room_pos hp, rfl⟩
  obtain ⟨h1, h2⟩ := fits_bits hf ht
  rw [vis_one hK] at h2
  exact ⟨_, ⟨v, hn, readBits_lt hf.bit hrd, hK, rfl⟩, h1, h2⟩

theorem snd_bitI (hH : E.host = taker K) (henc : E.enc = false) {k0 k1 n : Byte} (h0 : 0 < n.toNat) (hn : n.toNat ≤ 64)
    (hK : K (keyNum k0 k1) = false) : Snd K E sf [0x21, k0, k1, n] a (a.bits n.toNat) (Rec K (.bitI k0 k1 n)) := by
  refine Snd.one (fun s p hat hf _ => ?_) hH
  rw [pre_unaligned 0x21 s rfl]
  show Pass _ (handleBitI E 0x21 _)
  unfold handleBitI
  refine post_fetB (At.left (a := [k0, k1]) (b := [n]) hat.tail) rfl (by omega) ?_
  refine post_fetB (At.right (a := [k0, k1]) (b := [n]) hat.tail) rfl (by omega) ?_
  rw [henc, byte_word, leWord_key]
  simp only [Bool.false_eq_true, if_false]
  refine post_getBits (fun raw c o hrd hpos => ?_) fun _ => trivial
  obtain ⟨v, hv, hlo, hhi, _⟩ := C12_sign_extend n.toNat h0 hn raw (readBits_lt hf.bit hrd)
  rw [hv]
  dsimp only
  refine post_give hH (by decide) ?_
  obtain ⟨ho, hp⟩ := hpos hf.bit
  intro _
  have ht : Bits2 4 n.toNat [.num (keyNum k0 k1) 0x21 v] s
      { s with ip := s.ip + 1 + 2 + 1, cursor := c, bit := o, host := s.host ++ [.num (keyNum k0 k1) 0x21 v] } :=
    ⟨rfl, rfl, rfl, rfl, rfl, ho, rfl, room_pos hp, rfl⟩
  obtain ⟨h1, h2⟩ := fits_bits hf ht
  rw [vis_one hK] at h2
  exact ⟨_, ⟨v, h0, hn, hlo, hhi, hK, rfl⟩, h1, h2⟩

theorem snd_bitBool (hH : E.host = taker K) (henc : E.enc = false) {k0 k1 : Byte} (hK : K (keyNum k0 k1) = false) :
    Snd K E sf [0x22, k0, k1] a (a.bits 1) (Rec K (.bitBool k0 k1)) := by
  refine Snd.one (fun s p hat hf _ => ?_) hH
  rw [pre_unaligned 0x22 s rfl]
  show Pass _ (handleBitBool E 0x22 _)
  unfold handleBitBool
  refine post_fetB hat.tail rfl (by omega) ?_
  rw [henc, leWord_key]
  simp only [Bool.false_eq_true, if_false]
  refine post_getBits (fun v c o hrd hpos => ?_) fun _ => trivial
  refine post_give hH (by decide) ?_
  obtain ⟨ho, hp⟩ := hpos hf.bit
  intro _
  have ht : Bits2 3 1 [.num (keyNum k0 k1) 0x22 v] s
      { s with ip := s.ip + 1 + 2, cursor := c, bit := o, host := s.host ++ [.num (keyNum k0 k1) 0x22 v] } :=
    ⟨rfl, rfl, rfl, rfl, rfl, ho, rfl, room_pos hp, rfl⟩
  obtain ⟨h1, h2⟩ := fits_bits hf ht
  rw [vis_one hK] at h2
  have := readBits_lt hf.bit hrd
  exact ⟨_, ⟨v, by omega, hK, rfl⟩, h1, h2⟩

theorem snd_pad (hH : E.host = taker K) (henc : E.enc = false) {n : Byte} (hn : n.toNat ≤ 64) :
    Snd K E sf [0x23, n] a (a.bits n.toNat) (Rec K (.pad n)) := by
  refine Snd.one (fun s p hat hf _ => ?_) hH
  rw [pre_unaligned 0x23 s rfl]
  show Pass _ (handlePad E _)
  unfold handlePad
  refine post_fetB hat.tail rfl (by omega) ?_
  rw [henc, byte_word]
  simp only [Bool.false_eq_true, if_false]
  intro _
  have ht : Bits2 2 n.toNat [] s
      { s with ip := s.ip + 1 + 1, cursor := s.cursor + (s.bit + n.toNat) / 8, bit := (s.bit + n.toNat) % 8 } := by
    refine ⟨rfl, rfl, rfl, rfl, by simp, by dsimp only; omega, rfl, .inl ?_, rfl⟩
    unfold St.at
    dsimp only
    omega
  obtain ⟨h1, h2⟩ := fits_bits hf ht
  exact ⟨_, ⟨hn, rfl⟩, h1, h2⟩

theorem snd_fill (hH : E.host = taker K) (henc : E.enc = false) {n : Byte} :
    Snd K E sf [0x24, n] a a.aligned (Rec K (.fill n)) := by
  refine Snd.one (fun s p hat hf _ => ?_) hH
  rw [pre_unaligned 0x24 s rfl]
  show Pass _ (handleFill E _)
  unfold handleFill
  refine post_fetB hat.tail rfl (by omega) ?_
  have hup := up8_fieldPos hf.bit
  have hle := le_up8 p.pos
  have hmod : up8 p.pos % 8 = 0 := by unfold up8; omega
  have key : ∀ c o, o < 8 → (8 * c + o = up8 s.at ∨ 8 * s.buf.length < up8 s.at) →
      Past 2 s { s with ip := s.ip + 1 + 1, cursor := c, bit := o } ∧
      Fits K (p.bytes 0 []) a.aligned { s with ip := s.ip + 1 + 1, cursor := c, bit := o } := by
    intro c o ho hc
    refine ⟨⟨rfl, rfl, rfl⟩, ⟨ho, ?_, hf.be, ?_, hf.trans, hf.opt, ?_, hf.order⟩⟩
    · show 8 * c + o = up8 p.pos + 8 * 0 ∨ 8 * s.buf.length < up8 p.pos + 8 * 0
      rcases hf.pos with e | e
      · rw [← e]; exact hc
      · right; omega
    · show vis K s.host = p.evs ++ []
      rw [hf.evs, List.append_nil]
    · intro m e
      injection e with e
      subst e
      show (up8 p.pos + 8 * 0) % 8 = 0
      omega
  refine post_dite (fun hb => ?_) fun hb => ?_
  · rw [henc]
    simp only [Bool.false_eq_true, if_false]
    refine post_getBits (fun v c o hrd hpos => ?_) fun _ => trivial
    obtain ⟨ho, hp⟩ := hpos hf.bit
    intro _
    refine ⟨_, rfl, key c o ho ?_⟩
    have hb' := hf.bit
    dsimp only at hb
    have := room_pos hp
    dsimp only at this
    have hu : up8 s.at = 8 * s.cursor + s.bit + (8 - s.bit) := by unfold up8 St.at; omega
    rw [hu]
    exact this
  · intro _
    dsimp only at hb
    have hb0 : s.bit = 0 := by omega
    refine ⟨_, rfl, key s.cursor s.bit hf.bit (.inl ?_)⟩
    unfold up8 St.at
    omega

theorem snd_order (hH : E.host = taker K) {big : Bool} (ht : a.turns big = true) :
    Snd K E sf [if big then 0x02 else 0x01] a ⟨a.pos, some big, a.opt⟩
      (fun p q => (p.pos % 8 = 0 ∨ p.be = big) ∧ q = ⟨p.pos, big, p.evs⟩) := by
  refine Snd.one (fun s p hat hf _ => ?_) hH
  have hx : execOp E (if big then 0x02 else 0x01) (pre (if big then 0x02 else 0x01) s) = .run { s with ip := s.ip + 1, be := big } := by
    cases big
    · rw [show (if false = true then (0x02 : Byte) else 0x01) = 0x01 from rfl, pre_unaligned 0x01 s rfl]; rfl
    · rw [show (if true = true then (0x02 : Byte) else 0x01) = 0x02 from rfl, pre_unaligned 0x02 s rfl]; rfl
  rw [hx]
  intro _
  refine ⟨_, ⟨?_, rfl⟩, ⟨rfl, rfl, rfl⟩, ⟨hf.bit, hf.pos, rfl, hf.evs, hf.trans, hf.opt, hf.al, fun b e => by injection e⟩⟩
  simp only [Pin.turns, decide_eq_true_eq] at ht
  rcases ht with ht | ht
  · exact .inl (hf.al 0 ht)
  · exact .inr (hf.order big ht)

theorem snd_exitBit (hH : E.host = taker K) (h0 : a.pos = some 0) : Snd K E sf [0x26] a a (fun p q => p.pos % 8 = 0 ∧ q = p) := by
  intro s p hat hf ha
  have := snd_idle (K := K) (E := E) (sf := sf) (a := a) (op := 0x26) (rest := []) hH (fun s hat => by
    rw [pre_unaligned 0x26 s rfl]
    show Pass _ (if _ then _ else _)
    refine post_dite (fun _ => fun e => by cases e) fun _ => ?_
    exact ⟨rfl, rfl, rfl, rfl, by simp, rfl, rfl, rfl, rfl⟩)
  obtain ⟨s', q, rfl, h1, h2, h3⟩ := this s p hat hf ha
  exact ⟨s', q, ⟨hf.al 0 h0, rfl⟩, h1, h2, h3⟩

theorem snd_noop (hH : E.host = taker K) {op : Byte} (h : op = 0x00 ∨ op = 0x25) : Snd K E sf [op] a a (fun p q => q = p) := by
  refine snd_idle hH fun s hat => ?_
  rcases h with rfl | rfl
  · rw [pre_unaligned 0x00 s rfl]
    exact ⟨rfl, rfl, rfl, rfl, by simp, rfl, rfl, rfl, rfl⟩
  · rw [pre_unaligned 0x25 s rfl]
    exact ⟨rfl, rfl, rfl, rfl, by simp, rfl, rfl, rfl, rfl⟩

theorem snd_version (hH : E.host = taker K) {b : Byte} : Snd K E sf [0x05, b] a a (fun p q => q = p) := by
  refine snd_idle hH fun s hat => ?_
  rw [pre_unaligned 0x05 s rfl]
  show Pass _ (fet E _ 1 fun _ s => .run s)
  refine post_fetB hat.tail rfl (by omega) ?_
  exact ⟨rfl, rfl, rfl, rfl, by simp, rfl, rfl, rfl, rfl⟩

theorem snd_name (hH : E.host = taker K) {b0 b1 : Byte} : Snd K E sf [0x07, b0, b1] a a (fun p q => q = p) := by
  refine snd_idle hH fun s hat => ?_
  rw [pre_unaligned 0x07 s rfl]
  show Pass _ (fet E _ 2 fun _ s => .run s)
  refine post_fetB hat.tail rfl (by omega) ?_
  exact ⟨rfl, rfl, rfl, rfl, by simp, rfl, rfl, rfl, rfl⟩

theorem snd_enter (hH : E.host = taker K) {k0 k1 : Byte} :
    Snd K E sf [0x03, k0, k1] a a (fun p q => q = p.bits 0 [.note (keyNum k0 k1) 0x03]) := by
  refine Snd.one (fun s p hat hf _ => ?_) hH
  rw [pre_unaligned 0x03 s rfl]
  show Pass _ (fet E _ 2 fun key s => callNotify E s key.toNat 0x03 .run)
  refine post_fetB hat.tail rfl (by omega) ?_
  refine post_note hH ?_
  intro _
  rw [leWord_key]
  exact ⟨_, rfl, fits_idle (es := [.note (keyNum k0 k1) 0x03]) hf ⟨rfl, rfl, rfl, rfl, rfl, rfl, rfl, rfl, rfl⟩⟩

theorem snd_exit (hH : E.host = taker K) : Snd K E sf [0x04] a a (fun p q => q = p.bits 0 [.note 0 0x04]) := by
  refine Snd.one (fun s p hat hf _ => ?_) hH
  rw [pre_unaligned 0x04 s rfl]
  show Pass _ (callNotify E _ 0 0x04 _)
  refine post_note hH ?_
  intro _
  exact ⟨_, rfl, fits_idle (es := [.note 0 0x04]) hf ⟨rfl, rfl, rfl, rfl, rfl, rfl, rfl, rfl, rfl⟩⟩

theorem snd_struct (hH : E.host = taker K) {k0 k1 : Byte} (h : Snd K E sf x a b R) :
    Snd K E sf ([0x03, k0, k1] ++ (x ++ [0x04])) a b
      (fun p q => ∃ m, R (p.bits 0 [.note (keyNum k0 k1) 0x03]) m ∧ q = m.bits 0 [.note 0 0x04]) := by
  refine ((snd_enter hH).then (h.then (snd_exit hH))).weaken (pin_le_refl _) ?_
  rintro p q ⟨_, rfl, m, hm, rfl⟩
  exact ⟨m, hm, rfl⟩

end

end Cnd
