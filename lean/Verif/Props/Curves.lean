import Verif.Ieee
import Verif.Props.Sch
/-
  C83: what becomes of numbers that are seen through `@scale`, `@poly` and `@spline` (vm_exec.c 17-96 and HANDLE_PRIMITIVE) in
  double-precision arithmetic. The specification is over the rational numbers.
-/

namespace Cnd

variable {σ τ : Type}

/-! ### The field in the VM -/

/-- An integer field under a pending scaling, polynomial or spline, decoding. -/
theorem curve_get {E : Env σ} {s : St σ} (hdec : E.enc = false) {c : Curve} {t : Ty} {k0 k1 : Byte} {v u : Word} {h : σ} (hr : c.Ready E s)
    (hat : At E.prog s.ip [t.tag, k0, k1]) (hroom : s.fieldPos + t.size ≤ s.buf.length)
    (hv : v.toNat < 2 ^ (8 * t.size)) (hf : FieldAt s.be s.buf s.fieldPos t.size v.toNat)
    (hhost : E.host.scalar s.host (keyNum k0 k1) 0x19 (c.up E.fl (asDouble E.fl t v)) = (true, u, h)) :
    step E s = .run { s with ip := s.ip + 3, cursor := s.fieldPos + t.size, bit := 0, opt := false, trans := .none, host := h } := by
  have hal : aligns t.tag = true := by cases t <;> rfl
  have hft : fetch E.prog (s.ip + 1) 2 = (leWord [k0, k1], s.ip + 1 + 2) := hat.tail.fetch rfl (by omega)
  rw [step_pre hat, pre_aligned _ s hal, prim_exec]
  unfold handlePrim fet
  simp only [hft, leWord_key, hdec, Bool.false_eq_true, if_false]
  refine (if_neg (by omega)).trans ?_
  cases c with
  | scale a b =>
    simp only [hr.1]
    refine rdAt_field (w := v) t.size_pos t.size_le hv hf ?_
    refine callScalar_ok (w := u) (h := h) ?_ rfl
    dsimp only
    rw [hr.2.1, hr.2.2]
    exact hhost
  | poly cs =>
    simp only [hr.1]
    rw [if_neg (by rw [hr.2.1]; have := hr.2.2.1; omega), hr.2.1, doubles_at _ _ _ hr.2.2.2]
    refine rdAt_field (w := v) t.size_pos t.size_le hv hf ?_
    refine callScalar_ok (w := u) (h := h) ?_ rfl
    rw [polyAt_eval]
    exact hhost
  | spline ps =>
    simp only [hr.1]
    rw [if_neg (by have := hr.2.1; have := hr.2.2.1; omega), hr.2.1, doubles_at _ _ _ hr.2.2.2]
    refine rdAt_field (w := v) t.size_pos t.size_le hv hf ?_
    exact callScalar_ok (w := u) (h := h) hhost rfl

/-- The field has been passed. -/
def Passed (c : Curve) (t : Ty) (s s' : St σ) (h : σ) : Prop :=
  s'.ip = s.ip + c.code.length + 3 ∧ s'.cursor = s.fieldPos + t.size ∧ s'.bit = 0 ∧ s'.trans = .none ∧ s'.host = h ∧ s'.be = s.be ∧
    s'.loops = s.loops ∧ s'.stack = s.stack

/-- Decoding a field of type `t` with the number `r`, any host is given the double `y`. -/
def CReads (F : FloatOps) (c : Curve) (t : Ty) (r : Int) (y : Rat) : Prop :=
  ∃ w, IsDbl w y ∧ ∀ {σ : Type} (E : Env σ) (s : St σ) (k0 k1 : Byte) (u : Word) (h : σ), E.fl = F → E.enc = false →
    At E.prog s.ip (c.code ++ [t.tag, k0, k1]) → s.fieldPos + t.size ≤ s.buf.length → FieldAt s.be s.buf s.fieldPos t.size (t.wire r) →
    E.host.scalar s.host (keyNum k0 k1) 0x19 w = (true, u, h) → ∃ s', exec E 2 s = .run s' ∧ Passed c t s s' h ∧ s'.buf = s.buf

/-- Encoding with a host that answers `y`, in whichever form (0 has two), puts `r` into the field. -/
def CWrites (F : FloatOps) (c : Curve) (t : Ty) (r : Int) (y : Rat) : Prop :=
  ∀ {σ : Type} (E : Env σ) (s : St σ) (k0 k1 : Byte) (w : Word) (h : σ), E.fl = F → E.enc = true → IsDbl w y →
    At E.prog s.ip (c.code ++ [t.tag, k0, k1]) → s.fieldPos + t.size ≤ s.buf.length →
    E.host.scalar s.host (keyNum k0 k1) 0x19 0 = (true, w, h) → ∃ s', exec E 2 s = .run s' ∧ Passed c t s s' h ∧
      s'.buf.length = s.buf.length ∧ FieldAt s.be s'.buf s.fieldPos t.size (t.wire r)

theorem exec_two {E : Env σ} {s s1 s2 : St σ} (h1 : step E s = .run s1) (h2 : step E s1 = .run s2) : exec E 2 s = .run s2 := by
  simp only [exec, h1, h2]

theorem wire_lt (t : Ty) (r : Int) : t.wire r < 2 ^ (8 * t.size) := by
  rw [← wire_ofInt]; exact Nat.mod_lt _ (Nat.two_pow_pos _)

/-- Reading, from what the curve does with the number. -/
theorem creads_of {F : FloatOps} {c : Curve} {t : Ty} {r : Int} {y : Rat} (hs : c.suits (.int t) = true)
    (h : IsDbl (c.up F (asDouble F t (BitVec.ofNat 64 (t.wire r)))) y) : CReads F c t r y := by
  refine ⟨_, h, fun E s k0 k1 u g hF hdec hat hroom hf hhost => ?_⟩
  subst hF
  obtain ⟨h1, hr⟩ := curve_step hat.left hs
  obtain ⟨q1, q2, q3, q4, q5, q6, q7⟩ := c.load_same s
  obtain ⟨q8, _⟩ := c.load_pos s
  have hip := c.load_ip s
  have hw := wire_lt t r
  have h8 : 2 ^ (8 * t.size) ≤ 2 ^ 64 := Nat.pow_le_pow_right (by omega) (by have := t.size_le; omega)
  have hn : (BitVec.ofNat 64 (t.wire r)).toNat = t.wire r := by rw [BitVec.toNat_ofNat]; omega
  refine ⟨_, exec_two h1 (curve_get hdec hr (u := u) (h := g) (v := BitVec.ofNat 64 (t.wire r)) (by rw [hip]; exact hat.right)
    (by rw [q8, q1]; exact hroom) (by rw [hn]; exact hw) (by rw [hn, q8, q5, q1]; exact hf) (by rw [q4]; exact hhost)), ?_, q1⟩
  exact ⟨by dsimp only; rw [hip], by dsimp only; rw [q8], rfl, rfl, rfl, q5, q2, q3⟩

/-- Writing. -/
theorem cwrites_of {F : FloatOps} {c : Curve} {t : Ty} {r : Int} {y : Rat} (hs : c.suits (.int t) = true)
    (h : ∀ w, IsDbl w y → F.toTy t (c.down F w) = some (BitVec.ofInt 64 r)) : CWrites F c t r y := by
  intro _ E s k0 k1 w g hF henc hw hat hroom hhost
  subst hF
  obtain ⟨h1, hr⟩ := curve_step hat.left hs
  obtain ⟨q1, q2, q3, q4, q5, q6, q7⟩ := c.load_same s
  obtain ⟨q8, _⟩ := c.load_pos s
  have hip := c.load_ip s
  have h2 := curve_put (n := .int t) (k0 := k0) (k1 := k1) henc hr hs (by rw [hip]; exact hat.right)
    (by rw [q8, q1]; exact hroom) (by rw [q4]; exact hhost) (h w hw)
  refine ⟨_, exec_two h1 h2, ⟨by dsimp only; rw [hip], by dsimp only; rw [q8]; rfl, rfl, rfl, rfl, q5, q2, q3⟩, ?_, ?_⟩
  · dsimp only
    rw [splice_length (by rw [q8, q1, wrBytes_length]; exact hroom), q1]
  · dsimp only
    rw [q8, q5, q1]
    have hst : store s.buf s.fieldPos (wrBytes s.be t.size (BitVec.ofInt 64 r)) =
        some (splice s.buf s.fieldPos (wrBytes s.be t.size (BitVec.ofInt 64 r))) := store_eq_some.2 ⟨by simpa using hroom, rfl⟩
    have := (fieldAt_store hst).mod
    rw [wire_ofInt] at this
    exact this

/-! ### Which numbers are doubles -/

/-- Numbers with at most 53 binary digits, down to the smallest unit. -/
theorem mag_all (m j : Nat) (hm : m < 2 ^ 53) (hj : j ≤ 1074) : ∃ b, b < 2047 * 2 ^ 52 ∧ Dbl.mag b = m * 2 ^ j := by
  by_cases h0 : m = 0
  · exact ⟨0, by omega, by rw [h0, Soft.mag_zero, Nat.zero_mul]⟩
  obtain ⟨hl1, hl2⟩ := (Nat.log2_eq_iff h0).1 rfl
  have hl : m.log2 < 53 := (Nat.log2_lt h0).2 hm
  generalize m.log2 = l at hl hl1 hl2
  by_cases hs : 52 - l ≤ j
  · have hS1 : 2 ^ 52 ≤ m * 2 ^ (52 - l) := by
      calc 2 ^ 52 = 2 ^ l * 2 ^ (52 - l) := by rw [← Nat.pow_add]; congr 1; omega
        _ ≤ _ := Nat.mul_le_mul_right _ hl1
    have hS2 : m * 2 ^ (52 - l) < 2 ^ 53 := by
      calc m * 2 ^ (52 - l) < 2 ^ (l + 1) * 2 ^ (52 - l) := Nat.mul_lt_mul_of_pos_right hl2 (Nat.two_pow_pos _)
        _ = 2 ^ 53 := by rw [← Nat.pow_add]; congr 1; omega
    have he : m * 2 ^ j = m * 2 ^ (52 - l) * 2 ^ (j - (52 - l)) := by
      rw [Nat.mul_assoc, ← Nat.pow_add]; congr 2; omega
    rw [he]
    generalize m * 2 ^ (52 - l) = S at hS1 hS2 ⊢
    have hk : j - (52 - l) ≤ 1074 := by omega
    generalize j - (52 - l) = k at hk ⊢
    refine ⟨k * 2 ^ 52 + S, by omega, ?_⟩
    have h1 : (k * 2 ^ 52 + S) / 2 ^ 52 = k + 1 := by omega
    have h2 : 2 ^ 52 + (k * 2 ^ 52 + S) % 2 ^ 52 = S := by omega
    rw [Soft.mag_norm (by omega), h1, h2, Nat.add_sub_cancel]
  · have hlt : m * 2 ^ j < 2 ^ 52 := by
      calc m * 2 ^ j < 2 ^ (l + 1) * 2 ^ j := Nat.mul_lt_mul_of_pos_right hl2 (Nat.two_pow_pos _)
        _ = 2 ^ (l + 1 + j) := (Nat.pow_add _ _ _).symm
        _ ≤ 2 ^ 52 := Nat.pow_le_pow_right (by omega) (by omega)
    refine ⟨m * 2 ^ j, by omega, ?_⟩
    unfold Dbl.mag
    rw [if_pos (by omega)]

/-- `i` over a power of two. -/
def frac (i : Int) (k : Nat) : Rat := (i : Rat) / ((2 ^ k : Nat) : Rat)

theorem two_ne (k : Nat) : ((2 ^ k : Nat) : Rat) ≠ 0 := by
  have := Nat.two_pow_pos k
  intro h
  have : (2 ^ k : Nat) = 0 := by exact_mod_cast h
  omega

theorem rep_frac {i : Int} {k : Nat} (hi : i.natAbs < 2 ^ 53) (hk : k ≤ 1074) : Rep (frac i k) := by
  obtain ⟨b, hb, hm⟩ := mag_all i.natAbs (1074 - k) hi (by omega)
  refine ⟨Soft.withSign (decide (i < 0)) b, Soft.withSign_fin hb, ?_⟩
  have hu : Dbl.unit = 2 ^ (1074 - k) * 2 ^ k := by
    unfold Dbl.unit
    rw [← Nat.pow_add]; congr 1; omega
  have hf : Dbl.fix (Soft.withSign (decide (i < 0)) b) = i * (2 ^ (1074 - k) : Nat) := by
    rw [Soft.withSign_fix hb, hm]
    generalize 2 ^ (1074 - k) = n
    rcases (by omega : i < 0 ∨ 0 ≤ i) with h | h
    · rw [if_pos (decide_eq_true h)]
      push_cast
      rw [Int.ofNat_natAbs_of_nonpos (by omega), Int.neg_mul, Int.neg_neg]
    · rw [if_neg (by simpa using h)]
      push_cast
      rw [Int.natAbs_of_nonneg h]
  rw [Soft.val_eq, hf, hu]
  unfold frac
  have h1 := two_ne k
  generalize 2 ^ (1074 - k) = n
  generalize 2 ^ k = m at h1 ⊢
  rw [Rat.intCast_mul, Rat.intCast_natCast, Rat.natCast_mul]
  grind

theorem rep_int {i : Int} (hi : i.natAbs < 2 ^ 53) : Rep (i : Rat) := by
  have := rep_frac (k := 0) hi (by omega)
  unfold frac at this
  have e : ((2 ^ 0 : Nat) : Rat) = 1 := rfl
  rw [e] at this
  have e2 : (i : Rat) / 1 = i := by grind
  rwa [e2] at this

theorem zero_is : IsDbl 0 0 := ⟨by decide, by decide +kernel⟩

theorem rep_neg {x : Rat} (h : Rep x) : Rep (-x) := by
  obtain ⟨w, h1, h2⟩ := h
  obtain ⟨n1, n2⟩ := Soft.neg_fix h1
  refine ⟨Soft.neg w, n1, ?_⟩
  rw [Soft.val_eq] at h2 ⊢
  rw [n2, Rat.intCast_neg, h2]
  grind

/-! ### Scalings -/

/-- The number in an integer field, as a double. -/
theorem asDouble_is {F : FloatOps} (hF : Ieee F) {t : Ty} {r : Int} (ht : t.holds r) (hr : Rep (r : Rat)) :
    IsDbl (asDouble F t (BitVec.ofNat 64 (t.wire r))) (r : Rat) := by
  have hw := wire_lt t r
  unfold asDouble
  split
  · rename_i e
    subst e
    simp only [Ty.holds, Ty.signed, Ty.size, Bool.false_eq_true, if_false] at ht
    have : ((BitVec.ofNat 64 (Ty.u64.wire r)).toNat : Int) = r := by
      unfold Ty.wire
      simp only [Ty.size]
      rw [BitVec.toNat_ofNat]
      omega
    have h := hF.ofU64 (w := BitVec.ofNat 64 (Ty.u64.wire r)) (by rw [this]; exact hr)
    rwa [this] at h
  · rename_i ne
    have h63 : r < 2 ^ 63 := by
      cases t <;> simp only [Ty.holds, Ty.signed, Ty.size, Bool.false_eq_true, if_false, if_true, ne_eq, reduceCtorEq, not_false_iff, not_true] at ht ne <;> omega
    have := (wire_back ht h63).2
    have h := hF.ofI64 (w := t.toI64 (BitVec.ofNat 64 (t.wire r))) (by rw [this]; exact hr)
    rwa [this] at h

theorem inTy_of {t : Ty} {r : Int} (ht : t.holds r) : Soft.inTy t r = true := by
  unfold Soft.inTy
  unfold Ty.holds at ht
  split at ht
  · rename_i h; rw [if_pos h]; exact decide_eq_true ht
  · rename_i h; rw [if_neg h]; exact decide_eq_true ht

theorem cut_int (r : Int) : Cut (r : Rat) r := by
  unfold Cut
  rcases Int.le_total 0 r with h | h
  · exact .inl ⟨h, Rat.le_refl, by grind⟩
  · exact .inr ⟨h, by grind, Rat.le_refl⟩

/-- **C83, scalings.** A field whose number, times the factor, plus the offset, is computed without rounding: decoding gives exactly that
value, and encoding that value gives the same field. Missing: values that are rounded (`C83_false_scale`). -/
theorem C83_scale_partial {F : FloatOps} (hF : Ieee F) {a b : Word} {A B : Rat} (ha : IsDbl a A) (hb : IsDbl b B) (hA : A ≠ 0) (t : Ty) (r : Int)
    (ht : t.holds r) (h1 : Rep (r : Rat)) (h2 : Rep (r * A)) (h3 : Rep (r * A + B)) :
    CReads F (.scale a b) t r (r * A + B) ∧ CWrites F (.scale a b) t r (r * A + B) := by
  have hd := asDouble_is hF ht h1
  refine ⟨creads_of rfl (hF.add (hF.mul hd ha h2) hb h3), cwrites_of rfl fun w hw => ?_⟩
  have e1 : (r : Rat) * A + B - B = r * A := by grind
  have e2 : (r : Rat) * A / A = r := by grind
  have k1 := hF.sub hw hb (by rw [e1]; exact h2)
  rw [e1] at k1
  have k2 := hF.div k1 ha hA (by rw [e2]; exact h1)
  rw [e2] at k2
  exact hF.toTy k2 (cut_int r) (inTy_of ht)

/-- In particular for factors and offsets that are fractions with a power of two below, and numbers that are not too large. -/
theorem C83_scale_binary_partial {F : FloatOps} (hF : Ieee F) {a b : Word} {n m : Int} {k : Nat} (ha : IsDbl a (frac n k)) (hb : IsDbl b (frac m k))
    (hk : k ≤ 1074) (hn : n ≠ 0) (t : Ty) (r : Int) (ht : t.holds r) (hbound : r.natAbs * n.natAbs + m.natAbs < 2 ^ 53) :
    CReads F (.scale a b) t r (frac (r * n + m) k) ∧ CWrites F (.scale a b) t r (frac (r * n + m) k) := by
  have hrn : (r * n).natAbs = r.natAbs * n.natAbs := Int.natAbs_mul _ _
  have hr : r.natAbs < 2 ^ 53 := by
    have : r.natAbs * 1 ≤ r.natAbs * n.natAbs := Nat.mul_le_mul_left _ (by omega)
    omega
  have e1 : frac (r * n) k = r * frac n k := by
    unfold frac; rw [Rat.intCast_mul]; grind
  have e2 : frac (r * n + m) k = r * frac n k + frac m k := by
    unfold frac; rw [Rat.intCast_add, Rat.intCast_mul]; grind
  have hA : frac n k ≠ 0 := by
    have := two_ne k
    intro h
    have : (n : Rat) = 0 := by unfold frac at h; grind
    exact hn (by exact_mod_cast this)
  rw [e2]
  exact C83_scale_partial hF ha hb hA t r ht (rep_int hr) (e1 ▸ rep_frac (by omega) hk) (e2 ▸ rep_frac (by omega) hk)

/-- The numbers of a u8 under `@scale(0.25) @offset(-40)`. -/
example (r : Int) (h0 : 0 ≤ r) (h : r < 256) : CReads Soft.ieee (.scale 0x3FD0000000000000 0xC044000000000000) .u8 r (frac (r - 160) 2) ∧
    CWrites Soft.ieee (.scale 0x3FD0000000000000 0xC044000000000000) .u8 r (frac (r - 160) 2) := by
  have := C83_scale_binary_partial Soft.ieee_law (a := 0x3FD0000000000000) (b := 0xC044000000000000) (n := 1) (m := -160) (k := 2)
    ⟨by decide, by decide +kernel⟩ ⟨by decide, by decide +kernel⟩ (by omega) (by omega) .u8 r
    (by simp only [Ty.holds, Ty.signed, Ty.size, Bool.false_eq_true, if_false]; omega) (by show r.natAbs * 1 + 160 < _; omega)
  rwa [show r * 1 + -160 = r - 160 by omega] at this

/-! ### Polynomials -/

/-- c0 x^k + c1 x^(k+1) + ... -/
def powerSum : List Rat → Rat → Nat → Rat
  | [], _, _ => 0
  | c :: cs, x, k => c * x ^ k + powerSum cs x (k + 1)

theorem powerSum_succ (x : Rat) : ∀ (cs : List Rat) (k : Nat), powerSum cs x (k + 1) = powerSum cs x k * x
  | [], k => by simp [powerSum, Rat.zero_mul]
  | c :: cs, k => by
    simp only [powerSum]
    rw [powerSum_succ x cs (k + 1), Rat.pow_succ]
    grind

/-- The sizes of the coefficients times those of the powers of B. -/
def weight (B : Nat) : List Int → Nat
  | [] => 0
  | n :: ns => n.natAbs + weight B ns * B

/-- Integer Horner scheme. -/
def hornerI (x : Int) : List Int → Int
  | [] => 0
  | n :: ns => hornerI x ns * x + n

theorem horner_le {B : Nat} (hB : 1 ≤ B) {x : Int} (hx : x.natAbs ≤ B) : ∀ ns : List Int, (hornerI x ns).natAbs ≤ weight B ns ∧
    (hornerI x ns * x).natAbs ≤ weight B ns * B
  | [] => by simp [hornerI, weight]
  | n :: ns => by
    have ih := (horner_le hB hx ns).2
    have h1 : (hornerI x (n :: ns)).natAbs ≤ weight B (n :: ns) := by
      simp only [hornerI, weight]
      omega
    exact ⟨h1, by rw [Int.natAbs_mul]; exact Nat.mul_le_mul h1 hx⟩

theorem horner_sum (k : Nat) (x : Int) : ∀ ns : List Int, frac (hornerI x ns) k = powerSum (ns.map (frac · k)) x 0
  | [] => by simp [hornerI, powerSum, frac]; grind
  | n :: ns => by
    simp only [hornerI, List.map_cons, powerSum]
    rw [powerSum_succ, ← horner_sum k x ns]
    unfold frac
    rw [Rat.intCast_add, Rat.intCast_mul, Rat.pow_zero]
    grind

/-- Double for double. -/
inductive Doubles : List Word → List Rat → Prop
  | nil : Doubles [] []
  | cons {w ws x xs} : IsDbl w x → Doubles ws xs → Doubles (w :: ws) (x :: xs)

theorem polyAt_is {F : FloatOps} (hF : Ieee F) {wx : Word} {x : Int} (hwx : IsDbl wx (x : Rat)) {B k : Nat} (hB : 1 ≤ B) (hx : x.natAbs ≤ B)
    (hk : k ≤ 1074) : ∀ (ws : List Word) (ns : List Int), Doubles ws (ns.map (frac · k)) → weight B ns < 2 ^ 53 →
    IsDbl (polyAt F wx ws) (frac (hornerI x ns) k)
  | _, [], h, _ => by
    cases h
    have e : frac (hornerI x []) k = 0 := by
      have := two_ne k
      simp only [hornerI]
      unfold frac
      rw [show ((0 : Int) : Rat) = 0 from rfl]
      grind
    rw [e]
    exact zero_is
  | _, [n], h, _ => by
    cases h with
    | cons h0 ht =>
      cases ht
      simpa only [polyAt, hornerI, Int.zero_mul, Int.zero_add] using h0
  | _, n :: m :: ns, h, hw => by
    cases h with
    | @cons w ws _ _ h0 ht =>
      have hle := horner_le hB hx (m :: ns)
      have hle2 := (horner_le hB hx (n :: m :: ns)).1
      have hwt : weight B (n :: m :: ns) = n.natAbs + weight B (m :: ns) * B := rfl
      have hm : weight B (m :: ns) * 1 ≤ weight B (m :: ns) * B := Nat.mul_le_mul_left _ hB
      have ih := polyAt_is hF hwx hB hx hk ws (m :: ns) ht (by omega)
      have e1 : frac (hornerI x (m :: ns)) k * x = frac (hornerI x (m :: ns) * x) k := by
        unfold frac; rw [Rat.intCast_mul]; grind
      have e2 : frac (hornerI x (m :: ns) * x) k + frac n k = frac (hornerI x (n :: m :: ns)) k := by
        simp only [hornerI]
        unfold frac; rw [Rat.intCast_add]; grind
      have k1 := hF.mul ih hwx (by rw [e1]; exact rep_frac (by omega) hk)
      rw [e1] at k1
      have k2 := hF.add k1 h0 (by rw [e2]; exact rep_frac (by omega) hk)
      rw [e2] at k2
      cases ht with
      | cons => exact k2

/-- **C83, polynomials, decoding.** For coefficients that are fractions with a power of two below and numbers up to `B` for which nothing is
rounded, the host is given c0 + c1 r + c2 r^2 + ... Missing: rounded values, and encoding (`C83_false_square`, `C83_false_below`,
`C83_false_small`; for two coefficients `C83_linear_partial`). -/
theorem C83_poly_reads_partial {F : FloatOps} (hF : Ieee F) {ws : List Word} {ns : List Int} {k B : Nat} (hws : Doubles ws (ns.map (frac · k)))
    (hlen : ws.length < 256) (hk : k ≤ 1074) (hB : 1 ≤ B) (hB2 : B < 2 ^ 53) (hbound : weight B ns < 2 ^ 53) (t : Ty) (r : Int) (ht : t.holds r)
    (hr : r.natAbs ≤ B) : CReads F (.poly ws) t r (powerSum (ns.map (frac · k)) r 0) := by
  rw [← horner_sum]
  exact creads_of (by simp only [Curve.suits]; exact decide_eq_true hlen)
    (polyAt_is hF (asDouble_is hF ht (rep_int (by omega))) hB hr hk ws ns hws hbound)

/-- Every i16 under `@poly(3, -2, 0.5)`: 3 - 2 r + r^2 / 2. -/
example (r : Int) (h0 : -32768 ≤ r) (h : r < 32768) :
    CReads Soft.ieee (.poly [0x4008000000000000, 0xC000000000000000, 0x3FE0000000000000]) .i16 r (powerSum ([6, -4, 1].map (frac · 1)) r 0) :=
  C83_poly_reads_partial Soft.ieee_law (B := 32768)
    (.cons ⟨by decide, by decide +kernel⟩ (.cons ⟨by decide, by decide +kernel⟩ (.cons ⟨by decide, by decide +kernel⟩ .nil)))
    (by decide) (by omega) (by omega) (by omega) (by decide) .i16 r
    (by simp only [Ty.holds, Ty.signed, Ty.size, if_true]; omega) (by omega)

/-- The double next to 0.001, below which differences are taken for none. -/
def thousandth : Rat := Dbl.val 0x3F50624DD2F1A9FC

theorem thousandth_is : IsDbl 0x3F50624DD2F1A9FC thousandth ∧ IsDbl 0xBF50624DD2F1A9FC (-thousandth) ∧ 0 < thousandth :=
  ⟨⟨by decide, rfl⟩, ⟨by decide, by decide +kernel⟩, by decide +kernel⟩

/-- Newton's method stops where the value is the one sought. -/
theorem newton_stop {F : FloatOps} (hF : Ieee F) {cs : List Word} {w x : Word} {y : Rat} (hw : IsDbl w y) (hy : IsDbl (polyEvalD F cs x).1 y) (n : Nat) :
    polySolve F cs w n x = x := by
  obtain ⟨t1, t2, t3⟩ := thousandth_is
  cases n with
  | zero => rfl
  | succ n =>
    unfold polySolve
    have e : y - y = 0 := by grind
    have hd := hF.sub hy hw (by rw [e]; exact ⟨0, zero_is⟩)
    rw [e] at hd
    dsimp only
    rw [if_pos]
    rw [(hF.lt t2 hd).2 (by grind), (hF.lt hd t1).2 (by grind)]
    rfl

/-- **C83, polynomials of first degree.** Decoding gives c0 + c1 r and encoding that gives r, if nothing is rounded and c1 r is 0 or not
below 0.001 in size. Missing: rounded values, values below 0.001 (`C83_false_small`). -/
theorem C83_linear_partial {F : FloatOps} (hF : Ieee F) {c0 c1 : Word} {C0 C1 : Rat} (h0 : IsDbl c0 C0) (h1 : IsDbl c1 C1) (hC : C1 ≠ 0)
    (t : Ty) (r : Int) (ht : t.holds r) (hr : Rep (r : Rat)) (hm : Rep (C1 * r)) (hy : Rep (C1 * r + C0))
    (hbig : r ≠ 0 → thousandth ≤ C1 * r ∨ C1 * r ≤ -thousandth) :
    CReads F (.poly [c0, c1]) t r (C1 * r + C0) ∧ CWrites F (.poly [c0, c1]) t r (C1 * r + C0) := by
  have hd := asDouble_is hF ht hr
  refine ⟨creads_of rfl (hF.add (hF.mul h1 hd hm) h0 hy), cwrites_of rfl fun w hw => ?_⟩
  obtain ⟨t1, t2, t3⟩ := thousandth_is
  -- value and slope at any double
  have hval : ∀ {x : Word} {X : Rat}, IsDbl x X → Rep (C1 * X) → Rep (C1 * X + C0) → IsDbl (polyEvalD F [c0, c1] x).1 (C1 * X + C0) :=
    fun hx k1 k2 => hF.add (hF.mul h1 hx k1) h0 k2
  have hslope : IsDbl (polyEvalD F [c0, c1] 0).2 C1 := by
    have e1 : (0 : Rat) * 0 = 0 := by grind
    have e2 : (0 : Rat) + C1 = C1 := by grind
    have k1 := hF.mul zero_is zero_is (by rw [e1]; exact ⟨0, zero_is⟩)
    rw [e1] at k1
    have k2 := hF.add k1 h1 (by rw [e2]; exact ⟨_, h1⟩)
    rw [e2] at k2
    exact k2
  have hz : IsDbl (polyEvalD F [c0, c1] 0).1 C0 := by
    have e : C1 * 0 = 0 := by grind
    have e2 : C1 * 0 + C0 = C0 := by grind
    have := hval zero_is (by rw [e]; exact ⟨0, zero_is⟩) (by rw [e2]; exact ⟨_, h0⟩)
    rwa [e2] at this
  suffices IsDbl (polySolve F [c0, c1] w 20 0) (r : Rat) from hF.toTy this (cut_int r) (inTy_of ht)
  by_cases hr0 : r = 0
  · subst hr0
    have e : C1 * ((0 : Int) : Rat) + C0 = C0 := by rw [show ((0 : Int) : Rat) = 0 from rfl]; grind
    rw [e] at hw
    rw [newton_stop hF hw hz]
    exact zero_is
  · unfold polySolve
    dsimp only
    have e1 : C0 - (C1 * r + C0) = -(C1 * r) := by grind
    have hdiff := hF.sub hz hw (by rw [e1]; exact rep_neg hm)
    rw [e1] at hdiff
    have e2 : -(C1 * r) / C1 = -(r : Rat) := by grind
    have hq := hF.div hdiff hslope hC (by rw [e2]; exact rep_neg hr)
    rw [e2] at hq
    have e3 : 0 - -(r : Rat) = r := by grind
    have hx := hF.sub zero_is hq (by rw [e3]; exact hr)
    rw [e3] at hx
    rw [if_neg, if_neg]
    · rw [newton_stop hF hw (hval hx hm hy)]
      exact hx
    · intro h
      exact hC ((hF.eq hslope zero_is).1 h)
    · intro h
      simp only [Bool.and_eq_true] at h
      have g1 := (hF.lt t2 hdiff).1 h.1
      have g2 := (hF.lt hdiff t1).1 h.2
      have := hbig hr0
      grind

/-- Every u16 under `@poly(-40, 0.5)`. -/
example (r : Int) (h0 : 0 ≤ r) (h : r < 65536) :
    CReads Soft.ieee (.poly [0xC044000000000000, 0x3FE0000000000000]) .u16 r (frac 1 1 * r + (-40 : Int)) ∧
    CWrites Soft.ieee (.poly [0xC044000000000000, 0x3FE0000000000000]) .u16 r (frac 1 1 * r + (-40 : Int)) := by
  have h2 : frac 1 1 = 1 / 2 := by decide +kernel
  have e1 : frac 1 1 * r = frac r 1 := by rw [h2]; unfold frac; rw [show ((2 ^ 1 : Nat) : Rat) = 2 from rfl]; grind
  have e2 : frac 1 1 * r + (-40 : Int) = frac (r - 80) 1 := by
    rw [h2]; unfold frac; rw [show ((2 ^ 1 : Nat) : Rat) = 2 from rfl, Rat.intCast_sub, show ((-40 : Int) : Rat) = -40 from rfl,
      show ((80 : Int) : Rat) = 80 from rfl]; grind
  refine C83_linear_partial Soft.ieee_law ⟨by decide, by decide +kernel⟩ ⟨by decide, by decide +kernel⟩ (by decide +kernel) .u16 r
    (by simp only [Ty.holds, Ty.signed, Ty.size, Bool.false_eq_true, if_false]; omega) (rep_int (by omega))
    (e1 ▸ rep_frac (by omega) (by omega)) (e2 ▸ rep_frac (by omega) (by omega)) fun hr => ?_
  left
  have h1 : ((1 : Int) : Rat) ≤ r := Rat.intCast_le_intCast.2 (by omega)
  have h3 : thousandth ≤ 1 / 2 := by decide +kernel
  rw [show ((1 : Int) : Rat) = 1 from rfl] at h1
  rw [h2]
  grind

/-! ### Splines -/

/-- The value at `x` of the straight line through two points. -/
def chord (p q : Rat × Rat) (x : Rat) : Rat := p.2 + (x - p.1) * (q.2 - p.2) / (q.1 - p.1)

/-- Nothing is rounded. -/
def ChordExact (p q : Rat × Rat) (x : Rat) : Prop :=
  Rep (x - p.1) ∧ Rep (q.2 - p.2) ∧ Rep (q.1 - p.1) ∧ Rep ((x - p.1) * (q.2 - p.2)) ∧ Rep ((x - p.1) * (q.2 - p.2) / (q.1 - p.1)) ∧
    Rep (chord p q x)

/-- The numbers of the points in turn. -/
inductive Points : List Word → List (Rat × Rat) → Prop
  | nil : Points [] []
  | cons {a b : Word} {ws ps} {x y : Rat} : IsDbl a x → IsDbl b y → Points ws ps → Points (a :: b :: ws) ((x, y) :: ps)

theorem Points.length {ws : List Word} {ps : List (Rat × Rat)} (h : Points ws ps) : ws.length = 2 * ps.length := by
  induction h with
  | nil => rfl
  | cons _ _ _ ih => simp only [List.length_cons, ih]; omega

theorem rat_div_pos {a b : Rat} (ha : 0 < a) (hb : 0 < b) : 0 < a / b := by
  rw [Rat.div_def]; exact Rat.mul_pos ha (Rat.inv_pos.2 hb)

/-- Between the ends of a rising or falling line. -/
theorem chord_between {p q : Rat × Rat} {x : Rat} (hx : p.1 < q.1) (h1 : p.1 ≤ x) (h2 : x ≤ q.1) :
    (p.2 < q.2 → p.2 ≤ chord p q x ∧ chord p q x ≤ q.2 ∧ (p.1 < x → p.2 < chord p q x)) ∧
    (q.2 < p.2 → q.2 ≤ chord p q x ∧ chord p q x ≤ p.2 ∧ (p.1 < x → chord p q x < p.2)) := by
  -- the share of the way
  have hd : (0 : Rat) < q.1 - p.1 := by grind
  obtain ⟨l, hl, l0, l1, l2⟩ : ∃ l : Rat, chord p q x = p.2 + l * (q.2 - p.2) ∧ 0 ≤ l ∧ l ≤ 1 ∧ (p.1 < x → 0 < l) := by
    refine ⟨(x - p.1) / (q.1 - p.1), by unfold chord; grind, ?_, ?_, fun h => rat_div_pos (by grind) hd⟩
    · rcases (show p.1 < x ∨ p.1 = x by grind) with h | h
      · exact Rat.le_of_lt (rat_div_pos (by grind) hd)
      · rw [h]; grind
    · have : 0 ≤ (q.1 - x) / (q.1 - p.1) := by
        rcases (show x < q.1 ∨ x = q.1 by grind) with h | h
        · exact Rat.le_of_lt (rat_div_pos (by grind) hd)
        · rw [h]; grind
      have e : (x - p.1) / (q.1 - p.1) + (q.1 - x) / (q.1 - p.1) = 1 := by grind
      grind
  rw [hl]
  constructor
  · intro hy
    have k1 : 0 ≤ l * (q.2 - p.2) := Rat.mul_nonneg l0 (by grind)
    have k2 : 0 ≤ (1 - l) * (q.2 - p.2) := Rat.mul_nonneg (by grind) (by grind)
    refine ⟨by grind, by grind, fun h => ?_⟩
    have := Rat.mul_pos (l2 h) (show (0 : Rat) < q.2 - p.2 by grind)
    grind
  · intro hy
    have k1 : 0 ≤ l * (p.2 - q.2) := Rat.mul_nonneg l0 (by grind)
    have k2 : 0 ≤ (1 - l) * (p.2 - q.2) := Rat.mul_nonneg (by grind) (by grind)
    refine ⟨by grind, by grind, fun h => ?_⟩
    have := Rat.mul_pos (l2 h) (show (0 : Rat) < p.2 - q.2 by grind)
    grind

/-- The doubles of a straight piece. -/
theorem chord_up {F : FloatOps} (hF : Ieee F) {a0 b0 a1 b1 wx : Word} {p q : Rat × Rat} {x : Rat} (ha0 : IsDbl a0 p.1) (hb0 : IsDbl b0 p.2)
    (ha1 : IsDbl a1 q.1) (hb1 : IsDbl b1 q.2) (hwx : IsDbl wx x) (hne : p.1 < q.1) (hex : ChordExact p q x) :
    IsDbl (F.add b0 (F.div (F.mul (F.sub wx a0) (F.sub b1 b0)) (F.sub a1 a0))) (chord p q x) := by
  obtain ⟨e1, e2, e3, e4, e5, e6⟩ := hex
  exact hF.add hb0 (hF.div (hF.mul (hF.sub hwx ha0 e1) (hF.sub hb1 hb0 e2) e4) (hF.sub ha1 ha0 e3) (by grind) e5) e6

theorem chord_down {F : FloatOps} (hF : Ieee F) {a0 b0 a1 b1 wy : Word} {p q : Rat × Rat} {x : Rat} (ha0 : IsDbl a0 p.1) (hb0 : IsDbl b0 p.2)
    (ha1 : IsDbl a1 q.1) (hb1 : IsDbl b1 q.2) (hwy : IsDbl wy (chord p q x)) (hne : p.1 < q.1) (hne2 : p.2 ≠ q.2) (hx : Rep x)
    (hex : ChordExact p q x) : IsDbl (F.add a0 (F.div (F.mul (F.sub wy b0) (F.sub a1 a0)) (F.sub b1 b0))) x := by
  obtain ⟨e1, e2, e3, e4, e5, e6⟩ := hex
  have f1 : chord p q x - p.2 = (x - p.1) * (q.2 - p.2) / (q.1 - p.1) := by unfold chord; grind
  have f2 : (x - p.1) * (q.2 - p.2) / (q.1 - p.1) * (q.1 - p.1) = (x - p.1) * (q.2 - p.2) := by grind
  have f3 : (x - p.1) * (q.2 - p.2) / (q.2 - p.2) = x - p.1 := by grind
  have f4 : p.1 + (x - p.1) = x := by grind
  have k1 := hF.sub hwy hb0 (by rw [f1]; exact e5)
  rw [f1] at k1
  have k2 := hF.mul k1 (hF.sub ha1 ha0 e3) (by rw [f2]; exact e4)
  rw [f2] at k2
  have k3 := hF.div k2 (hF.sub hb1 hb0 e2) (by grind) (by rw [f3]; exact e1)
  rw [f3] at k3
  have k4 := hF.add ha0 k3 (by rw [f4]; exact hx)
  rwa [f4] at k4

/-- On the piece that contains the number, both directions. -/
theorem spline_is {F : FloatOps} (hF : Ieee F) {wx : Word} {x : Rat} (hwx : IsDbl wx x) {p q : Rat × Rat} (hpx : p.1 ≤ x) (hxq : x ≤ q.1)
    (hex : ChordExact p q x) : ∀ (i : Nat) (ws : List Word) (ps : List (Rat × Rat)), Points ws ps → ps.Pairwise (fun a b => a.1 < b.1) →
    (ps.Pairwise (fun a b => a.2 < b.2) ∨ ps.Pairwise (fun a b => b.2 < a.2)) → ps[i]? = some p → ps[i + 1]? = some q → (i = 0 ∨ p.1 < x) →
    IsDbl (splineEval F wx ws) (chord p q x) ∧ ∀ wy, IsDbl wy (chord p q x) → IsDbl (splineSolve F wy ws) x
  | 0, _, _, hpt, hinc, hmon, hi, hi1, _ => by
    cases hpt with
    | nil => cases hi
    | @cons a0 b0 ws ps x0 y0 ha0 hb0 hpt =>
      cases hpt with
      | nil => cases hi1
      | @cons a1 b1 ws ps x1 y1 ha1 hb1 hpt =>
        simp only [List.getElem?_cons_zero, List.getElem?_cons_succ, Nat.zero_add, Option.some.injEq] at hi hi1
        subst hi hi1
        have hlt : x0 < x1 := (List.pairwise_cons.1 hinc).1 _ List.mem_cons_self
        have hb := chord_between (p := (x0, y0)) (q := (x1, y1)) hlt hpx hxq
        have hy : y0 < y1 ∨ y1 < y0 := by
          rcases hmon with h | h
          · exact .inl ((List.pairwise_cons.1 h).1 _ List.mem_cons_self)
          · exact .inr ((List.pairwise_cons.1 h).1 _ List.mem_cons_self)
        constructor
        · unfold splineEval
          rw [if_pos (by rw [(hF.le ha0 hwx).2 hpx, (hF.le hwx ha1).2 hxq]; rfl),
            if_neg (fun h => by have := (hF.eq ha1 ha0).1 h; grind)]
          exact chord_up hF (p := (x0, y0)) (q := (x1, y1)) ha0 hb0 ha1 hb1 hwx hlt hex
        · intro wy hwy
          unfold splineSolve
          have hin : (F.le b0 wy && F.le wy b1 || F.le wy b0 && F.le b1 wy) = true := by
            rcases hy with h | h
            · obtain ⟨g1, g2, _⟩ := hb.1 h
              rw [(hF.le hb0 hwy).2 g1, (hF.le hwy hb1).2 g2]; rfl
            · obtain ⟨g1, g2, _⟩ := hb.2 h
              rw [(hF.le hwy hb0).2 g2, (hF.le hb1 hwy).2 g1]; simp
          rw [if_pos hin, if_neg (fun h => by have := (hF.eq hb1 hb0).1 h; grind)]
          exact chord_down hF (p := (x0, y0)) (q := (x1, y1)) ha0 hb0 ha1 hb1 hwy hlt (by rcases hy with h | h <;> grind) ⟨_, hwx⟩ hex
  | i + 1, _, _, hpt, hinc, hmon, hi, hi1, hlt => by
    have hlt : p.1 < x := hlt.resolve_left (by omega)
    cases hpt with
    | nil => cases hi
    | @cons a0 b0 ws ps x0 y0 ha0 hb0 hpt =>
      simp only [List.getElem?_cons_succ] at hi hi1
      have hinc' := (List.pairwise_cons.1 hinc)
      have ih := spline_is hF hwx hpx hxq hex i ws ps hpt hinc'.2
        (hmon.imp (fun h => (List.pairwise_cons.1 h).2) (fun h => (List.pairwise_cons.1 h).2)) hi hi1 (.inr hlt)
      cases hpt with
      | nil => cases hi
      | @cons a1 b1 ws ps x1 y1 ha1 hb1 hpt =>
        have hp := List.mem_of_getElem? hi
        have hq := List.mem_of_getElem? hi1
        have hpq : p.1 < q.1 := by grind
        have hb := chord_between hpq hpx hxq
        -- the piece found lies to the right of this one
        have hx1 : x1 ≤ p.1 := by
          rcases List.mem_cons.1 hp with h | h
          · rw [h]; exact Rat.le_refl
          · exact Rat.le_of_lt ((List.pairwise_cons.1 hinc'.2).1 _ h)
        have hmore : ¬ ws.length < 2 := by
          have := hpt.length
          have h2 : (i + 1) < ((x1, y1) :: ps).length := (List.getElem?_eq_some_iff.1 hi1).1
          simp only [List.length_cons] at h2
          omega
        constructor
        · unfold splineEval
          rw [if_neg]
          · exact ih.1
          · intro h
            simp only [Bool.or_eq_true, Bool.and_eq_true, decide_eq_true_eq] at h
            rcases h with h | h
            · have := (hF.le hwx ha1).1 h.2
              grind
            · exact hmore h
        · intro wy hwy
          unfold splineSolve
          rw [if_neg]
          · exact ih.2 wy hwy
          · intro h
            simp only [Bool.or_eq_true, Bool.and_eq_true] at h
            have hpp : ∀ (R : Rat → Rat → Prop), ((x0, y0) :: (x1, y1) :: ps).Pairwise (fun a b => R a.2 b.2) → R y0 y1 ∧ (p.2 = y1 ∨ R y1 p.2) := by
              intro R h
              have h1 := List.pairwise_cons.1 h
              refine ⟨h1.1 _ List.mem_cons_self, ?_⟩
              rcases List.mem_cons.1 hp with g | g
              · left; rw [g]
              · right; exact (List.pairwise_cons.1 h1.2).1 _ g
            have hpq2 : ∀ (R : Rat → Rat → Prop), ((x0, y0) :: (x1, y1) :: ps).Pairwise (fun a b => R a.2 b.2) → R p.2 q.2 := by
              intro R h
              have h1 := (List.pairwise_cons.1 h).2
              obtain ⟨l1, e1⟩ := List.getElem?_eq_some_iff.1 hi
              obtain ⟨l2, e2⟩ := List.getElem?_eq_some_iff.1 hi1
              have := List.pairwise_iff_getElem.1 h1 i (i + 1) l1 l2 (by omega)
              rw [e1, e2] at this
              exact this
            rcases hmon with hm | hm
            · obtain ⟨m1, m2⟩ := hpp (· < ·) hm
              have := (hb.1 (hpq2 (· < ·) hm)).2.2 hlt
              rcases h with h | h
              · have := (hF.le hwy hb1).1 h.2
                rcases m2 with m2 | m2 <;> grind
              · have := (hF.le hwy hb0).1 h.1
                rcases m2 with m2 | m2 <;> grind
            · obtain ⟨m1, m2⟩ := hpp (fun a b => b < a) hm
              have := (hb.2 (hpq2 (fun a b => b < a) hm)).2.2 hlt
              rcases h with h | h
              · have := (hF.le hb0 hwy).1 h.1
                rcases m2 with m2 | m2 <;> grind
              · have := (hF.le hb1 hwy).1 h.2
                rcases m2 with m2 | m2 <;> grind

/-- **C83, splines.** For points with increasing x and increasing, or decreasing, y, a field whose number is between the first and last x:
decoding gives the value on the straight line between the neighbouring points, and encoding that value gives the same field, if nothing is
rounded. Missing: rounded values, and numbers outside (`C83_false_outside`). -/
theorem C83_spline_partial {F : FloatOps} (hF : Ieee F) {ws : List Word} {ps : List (Rat × Rat)} (hpt : Points ws ps) (hlen : ws.length < 512)
    (hinc : ps.Pairwise (fun a b => a.1 < b.1)) (hmon : ps.Pairwise (fun a b => a.2 < b.2) ∨ ps.Pairwise (fun a b => b.2 < a.2))
    {i : Nat} {p q : Rat × Rat} (hp : ps[i]? = some p) (hq : ps[i + 1]? = some q) (t : Ty) (r : Int) (ht : t.holds r) (hr : Rep (r : Rat))
    (hin : p.1 ≤ r ∧ r ≤ q.1) (hleft : i = 0 ∨ p.1 < r) (hex : ChordExact p q r) :
    CReads F (.spline ws) t r (chord p q r) ∧ CWrites F (.spline ws) t r (chord p q r) := by
  have hd := asDouble_is hF ht hr
  have hs : (Curve.spline ws).suits (.int t) = true := by
    simp only [Curve.suits]
    exact decide_eq_true ⟨by have := hpt.length; omega, hlen⟩
  obtain ⟨k1, _⟩ := spline_is hF hd hin.1 hin.2 hex i ws ps hpt hinc hmon hp hq hleft
  refine ⟨creads_of hs k1, cwrites_of hs fun w hw => ?_⟩
  exact hF.toTy ((spline_is hF hd hin.1 hin.2 hex i ws ps hpt hinc hmon hp hq hleft).2 w hw) (cut_int r) (inTy_of ht)

/-- The numbers from 17 to 32 under `@spline(1, 100, 17, 84, 33, 20)`, on the second piece: 152 - 4 r. -/
example (r : Int) (h0 : 17 < r) (h : r ≤ 33) :
    CReads Soft.ieee (.spline [0x3FF0000000000000, 0x4059000000000000, 0x4031000000000000, 0x4055000000000000, 0x4040800000000000,
      0x4034000000000000]) .u8 r (152 - 4 * r) ∧
    CWrites Soft.ieee (.spline [0x3FF0000000000000, 0x4059000000000000, 0x4031000000000000, 0x4055000000000000, 0x4040800000000000,
      0x4034000000000000]) .u8 r (152 - 4 * r) := by
  have hint : ∀ {x : Rat} (i : Int), x = i → i.natAbs < 2 ^ 53 → Rep x := fun i e h => e ▸ rep_int h
  have hc : chord (17, 84) (33, 20) r = 152 - 4 * r := by unfold chord; grind
  have l1 : ((17 : Int) : Rat) < r := Rat.intCast_lt_intCast.2 h0
  have l2 : (r : Rat) ≤ ((33 : Int) : Rat) := Rat.intCast_le_intCast.2 h
  rw [← hc]
  exact C83_spline_partial Soft.ieee_law (ps := [(1, 100), (17, 84), (33, 20)]) (i := 1) (p := (17, 84)) (q := (33, 20))
    (.cons ⟨by decide, by decide +kernel⟩ ⟨by decide, by decide +kernel⟩ (.cons ⟨by decide, by decide +kernel⟩ ⟨by decide, by decide +kernel⟩
      (.cons ⟨by decide, by decide +kernel⟩ ⟨by decide, by decide +kernel⟩ .nil)))
    (by decide) (by decide +kernel) (.inr (by decide +kernel)) rfl rfl .u8 r
    (by simp only [Ty.holds, Ty.signed, Ty.size, Bool.false_eq_true, if_false]; omega) (rep_int (by omega))
    ⟨Rat.le_of_lt l1, l2⟩ (.inr l1)
    ⟨hint (r - 17) (by rw [Rat.intCast_sub]; rfl) (by omega), hint (-64) (by decide +kernel) (by decide), hint 16 (by decide +kernel) (by decide),
      hint (-64 * (r - 17)) (by rw [Rat.intCast_mul, Rat.intCast_sub, show ((-64 : Int) : Rat) = -64 from rfl, show ((17 : Int) : Rat) = 17 from rfl]; grind) (by omega),
      hint (-4 * (r - 17)) (by rw [Rat.intCast_mul, Rat.intCast_sub, show ((-4 : Int) : Rat) = -4 from rfl, show ((17 : Int) : Rat) = 17 from rfl]; grind) (by omega),
      hint (152 - 4 * r) (by rw [hc, Rat.intCast_sub, Rat.intCast_mul]; rfl) (by omega)⟩

end Cnd
