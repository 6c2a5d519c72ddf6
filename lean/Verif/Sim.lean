import Verif.VMEqns
import Verif.Props.BitFields
/-
  Lock-step simulation of an encoding run by a decoding run of the same program on the packet
  produced (used for C52): definitions and per-instruction lemmas.
-/

set_option linter.unusedVariables false

namespace Cnd
variable {σ τ : Type}

/-- The same machine state with another packet and another host. -/
def St.swap (s : St σ) (D : List Byte) (g : τ) : St τ :=
  { buf := D, ip := s.ip, cursor := s.cursor, bit := s.bit, be := s.be, trans := s.trans,
    fFactor := s.fFactor, fOffset := s.fOffset, iVal := s.iVal, polyPos := s.polyPos,
    polyCnt := s.polyCnt, splPos := s.splPos, splCnt := s.splCnt, opt := s.opt, loops := s.loops,
    stack := s.stack, host := g }

/-- The decoding counterpart of an environment. -/
def Env.dec (E : Env σ) (G : Host τ) : Env τ := { prog := E.prog, enc := false, host := G, fl := E.fl }

/-- Calls that put the same question to the host in both modes: array counts of fixed and dynamic arrays,
context queries, loads and stores. -/
def isQuery (op : Byte) : Bool := op == 0x34 || op == 0x3B || op == 0x06 || op == 0x60 || op == 0x78

/-- What the host finds at a string pointer: the bytes followed by NUL, or preceded by their length. -/
def StrAt (be : Bool) (op : Byte) (D : List Byte) (p : Nat) (bs : List Byte) : Prop :=
  (op = 0x30 → (D.drop p).take (bs.length + 1) = bs ++ [0]) ∧
  ∀ sz, (op = 0x31 ∧ sz = 1 ∨ op = 0x32 ∧ sz = 2 ∨ op = 0x33 ∧ sz = 4) →
    sz ≤ p ∧ (D.drop p).take bs.length = bs ∧
    (D.drop (p - sz)).take sz = wrBytes be sz (BitVec.ofNat 64 bs.length)

/-- `G` (decoding) follows `H` (encoding): whatever `H` supplies, `G` accepts, and the relation `R`
between their private states is kept. `K` are the keys of constant fields, which the host sees only
when decoding. Both decline the bulk transfer of byte arrays. -/
structure HostSim (H : Host σ) (G : Host τ) (K : Nat → Prop) (R : σ → τ → Prop) : Prop where
  notify : ∀ h g key op h', R h g → H.notify h key op = (true, h') →
    ∃ g', G.notify g key op = (true, g') ∧ R h' g'
  give : ∀ h g key op w h', isQuery op = false → R h g → H.scalar h key op 0 = (true, w, h') →
    ∃ g', G.scalar g key op w = (true, w, g') ∧ R h' g'
  query : ∀ h g key op v w h', isQuery op = true → R h g → H.scalar h key op v = (true, w, h') →
    ∃ g', G.scalar g key op v = (true, w, g') ∧ R h' g'
  const : ∀ h g key op v, K key → (tyTag (op.setWidth 64)).isSome → R h g → ∃ w g', G.scalar g key op v = (true, w, g') ∧ R h g'
  str : ∀ h g key op so h' be D p, R h g → H.str h key op = (true, so, h') → StrAt be op D p (cstr so) →
    ∃ g', G.bytesAt g key op be D p = (true, D, g') ∧ R h' g'
  noBulkH : ∀ h key be buf p, H.bytesAt h key 0x39 be buf p = (false, buf, h)
  noBulkG : ∀ g key be buf p, G.bytesAt g key 0x39 be buf p = (false, buf, g)

/-- The bits of the packet before the current position agree with those of `D`. -/
def Agree (s : St σ) (D : List Byte) : Prop :=
  ∀ k, k < 8 * s.cursor + s.bit → bitAt s.be D k = bitAt s.be s.buf k

/-- The claim about one encoding instruction from `s` to `s1`: on every packet `D` that agrees with what
has been written so far, the decoding instruction goes the same way. -/
structure SimOK (E : Env σ) (G : Host τ) (R : σ → τ → Prop) (f : Env τ → St τ → Res τ) (s s1 : St σ) :
    Prop where
  ok : ∀ D g, R s.host g → Agree s1 D → 8 * s1.cursor + s1.bit ≤ 8 * D.length →
    ∃ g1, f (E.dec G) (s.swap D g) = .run (s1.swap D g1) ∧ R s1.host g1

theorem agree_byte {s : St σ} {D : List Byte} (h : Agree s D) {i : Nat} (hi : i < s.cursor) :
    D[i]? = s.buf[i]? := by
  apply byte_of_bits s.be
  intro k hk
  exact h _ (by omega)

theorem agree_slice {s : St σ} {D : List Byte} (h : Agree s D) {p n : Nat} (hp : p + n ≤ s.cursor)
    (hD : 8 * s.cursor + s.bit ≤ 8 * D.length) {bs : List Byte} (hs : slice s.buf p n = some bs) :
    slice D p n = some bs := by
  obtain ⟨h1, rfl⟩ := slice_eq_some.1 hs
  rw [slice_eq_some]
  refine ⟨by omega, ?_⟩
  apply List.ext_getElem?
  intro i
  rw [List.getElem?_take, List.getElem?_take]
  split
  · rw [List.getElem?_drop, List.getElem?_drop, agree_byte h (by omega)]
  · rfl

/-! ### Scalars -/

/-- The value the host supplies survives the field's transform and width. -/
def FaithPrim (E : Env σ) (t : Ty) (op : Byte) (s : St σ) : Prop :=
  s.cursor + t.size ≤ s.buf.length ∧
  ∀ w h', E.host.scalar s.host (fetch E.prog s.ip 2).1.toNat (viewOp op s.trans) 0 = (true, w, h') →
    ∀ v, primRaw E t s (truncB (viewSize t s.trans) w) = some v → primEng E t s (truncB t.size v) = some w

theorem handlePrim_sim {E : Env σ} {G : Host τ} {K : Nat → Prop} {R : σ → τ → Prop}
    (HS : HostSim E.host G K R) (henc : E.enc = true) (t : Ty) (op : Byte) (hop : isQuery op = false)
    (s : St σ) (hF : FaithPrim E t op s) {s1 : St σ} (hs : handlePrim E t op s = .run s1) :
    SimOK E G R (fun E s => handlePrim E t op s) s s1 := by
  obtain ⟨hfit, hF⟩ := hF
  obtain ⟨w, h, v, b, e1, e2, e3, e4, rfl⟩ := handlePrim_enc henc hfit hs
  constructor
  intro D g hR hA hD
  have hv : isQuery (viewOp op s.trans) = false := by
    cases s.trans <;> first | exact hop | rfl
  obtain ⟨g', hg, hR'⟩ := HS.give _ _ _ _ _ _ hv hR e1
  refine ⟨g', ?_, hR'⟩
  have hsl := agree_slice hA (p := s.cursor) (n := t.size) (by simp) hD
    (by simpa using slice_store_same e4)
  refine handlePrim_dec (E := E.dec G) (s := s.swap D g) rfl (w := w) (eng := w) (bs := wrBytes s.be t.size v)
    e3 hsl ?_ hg
  show primEng E t s (rdWord s.be (wrBytes s.be t.size v)) = _
  rw [rdWord_wrBytes _ _ _ t.size_le]
  exact hF w h e1 v e2

/-- The value the host supplies survives the field's transform and width. -/
def FaithFloat (E : Env σ) (dbl : Bool) (op : Byte) (s : St σ) : Prop :=
  s.cursor + floatSize dbl ≤ s.buf.length ∧
  ∀ w h', E.host.scalar s.host (fetch E.prog s.ip 2).1.toNat (floatOp op s.trans) 0 = (true, w, h') →
    ∀ v, floatRaw E dbl s (truncB (floatCell dbl s.trans) w) = some v →
      floatEng E dbl s (truncB (floatSize dbl) v) = some w

section
variable {E : Env σ} {G : Host τ} {K : Nat → Prop} {R : σ → τ → Prop}

theorem handleFloat_sim (HS : HostSim E.host G K R) (henc : E.enc = true) (dbl : Bool) (op : Byte)
    (hop : isQuery op = false) (s : St σ) (hF : FaithFloat E dbl op s) {s1 : St σ}
    (hs : handleFloat E dbl op s = .run s1) : SimOK E G R (fun E s => handleFloat E dbl op s) s s1 := by
  obtain ⟨hfit, hF⟩ := hF
  obtain ⟨w, h, v, b, e1, e2, e4, rfl⟩ := handleFloat_enc henc hfit hs
  constructor
  intro D g hR hA hD
  have hv : isQuery (floatOp op s.trans) = false := by
    cases s.trans <;> first | exact hop | rfl
  obtain ⟨g', hg, hR'⟩ := HS.give _ _ _ _ _ _ hv hR e1
  refine ⟨g', ?_, hR'⟩
  have hsl := agree_slice hA (p := s.cursor) (n := floatSize dbl) (by simp) hD
    (by simpa using slice_store_same e4)
  refine handleFloat_dec (E := E.dec G) (s := s.swap D g) rfl (w := w) (eng := w)
    (bs := wrBytes s.be (floatSize dbl) v) hsl ?_ hg
  show floatEng E dbl s (rdWord s.be (wrBytes s.be (floatSize dbl) v)) = _
  rw [rdWord_wrBytes _ _ _ (by unfold floatSize; split <;> omega)]
  exact hF w h e1 v e2

theorem handleBool_sim (HS : HostSim E.host G K R) (henc : E.enc = true) (op : Byte)
    (hop : isQuery op = false) (s : St σ) (hfit : s.cursor + 1 ≤ s.buf.length)
    (hF : ∀ w h', E.host.scalar s.host (fetch E.prog s.ip 2).1.toNat op 0 = (true, w, h') → truncB 1 w = w)
    {s1 : St σ} (hs : handleBool E op s = .run s1) : SimOK E G R (fun E s => handleBool E op s) s s1 := by
  obtain ⟨w, h, b, e1, e2, e4, rfl⟩ := handleBool_enc henc hfit hs
  constructor
  intro D g hR hA hD
  obtain ⟨g', hg, hR'⟩ := HS.give _ _ _ _ _ _ hop hR e1
  refine ⟨g', ?_, hR'⟩
  rw [hF w h e1] at e2 e4
  have hsl := agree_slice hA (p := s.cursor) (n := 1) (by simp) hD
    (by simpa using slice_store_same e4)
  have hrd : rdWord s.be (wrBytes s.be 1 w) = w := by rw [rdWord_wrBytes _ _ _ (by omega), hF w h e1]
  refine handleBool_dec (E := E.dec G) (s := s.swap D g) rfl (w := w) (bs := wrBytes s.be 1 w) hsl ?_ ?_
  · show (rdWord s.be (wrBytes s.be 1 w)).toNat ≤ 1
    rw [hrd]; exact e2
  · show G.scalar g _ op (rdWord s.be (wrBytes s.be 1 w)) = _
    rw [hrd]; exact hg

/-- Reading back a bit field from a packet that agrees with the one written. -/
theorem bits_back {be : Bool} {buf b D : List Byte} {cur bit c o n : Nat} {v : Word} (hb : bit < 8)
    (hn : n ≤ 64) (hfit : 8 * cur + bit + n ≤ 8 * buf.length)
    (hw : writeBits buf be cur bit v n = some (b, c, o))
    (hA : ∀ k, k < 8 * c + o → bitAt be D k = bitAt be b k) (hD : 8 * c + o ≤ 8 * D.length) :
    ∃ v', readBits D be cur bit n = some (v', c, o) ∧ v'.toNat = v.toNat % 2 ^ n := by
  obtain ⟨b', c', o', v', e1, e2, e3, e4, e5⟩ := C09_bits_roundtrip be buf cur bit v n hb hn hfit
  rw [hw] at e1
  simp only [Option.some.injEq, Prod.mk.injEq] at e1
  obtain ⟨rfl, rfl, rfl⟩ := e1
  have hlen := (writeBits_spec be v n buf cur bit hb hw).1
  obtain ⟨v1, c1, o1, f1, f2, f3, f4⟩ := readBits_spec be n D cur bit hb hn (by omega)
  obtain ⟨v2, c2, o2, g1, g2, g3, g4⟩ := readBits_spec be n b cur bit hb hn (by omega)
  rw [e2] at g1
  simp only [Option.some.injEq, Prod.mk.injEq] at g1
  obtain ⟨rfl, rfl, rfl⟩ := g1
  have : c1 = c ∧ o1 = o := by omega
  obtain ⟨rfl, rfl⟩ := this
  have hv : v1 = v' := by
    apply BitVec.eq_of_getLsbD_eq
    intro t ht
    rw [f4 t ht, g4 t ht]
    by_cases htn : t < n
    · rw [hA _ (by cases be <;> simp <;> omega)]
    · simp [htn]
  exact ⟨v1, f1, by rw [hv, e5]⟩

/-- The field has room and its width is legal. -/
def BitFit (s : St σ) (n : Nat) : Prop := n ≤ 64 ∧ 8 * s.cursor + s.bit + n ≤ 8 * s.buf.length

theorem handleBitU_sim (HS : HostSim E.host G K R) (henc : E.enc = true) (op : Byte)
    (hop : isQuery op = false) (s : St σ) (hb : s.bit < 8) (hfit : BitFit s (bitWidth E s))
    (hF : ∀ w h', E.host.scalar s.host (fetch E.prog s.ip 2).1.toNat op 0 = (true, w, h') →
      w.toNat < 2 ^ bitWidth E s)
    {s1 : St σ} (hs : handleBitU E op s = .run s1) : SimOK E G R (fun E s => handleBitU E op s) s s1 := by
  obtain ⟨w, h, b, c, o, e1, e2, rfl⟩ := handleBitU_enc henc hs
  constructor
  intro D g hR hA hD
  obtain ⟨g', hg, hR'⟩ := HS.give _ _ _ _ _ _ hop hR e1
  refine ⟨g', ?_, hR'⟩
  obtain ⟨v, f1, f2⟩ := bits_back hb hfit.1 hfit.2 e2 hA hD
  have hv : v = w := by
    apply BitVec.eq_of_toNat_eq
    rw [f2, Nat.mod_eq_of_lt (hF w h e1)]
  subst hv
  exact handleBitU_dec (E := E.dec G) (s := s.swap D g) rfl f1 hg

theorem handleBitI_sim (HS : HostSim E.host G K R) (henc : E.enc = true) (op : Byte)
    (hop : isQuery op = false) (s : St σ) (hb : s.bit < 8) (h0 : 0 < bitWidth E s)
    (hfit : BitFit s (bitWidth E s))
    (hF : ∀ w h', E.host.scalar s.host (fetch E.prog s.ip 2).1.toNat op 0 = (true, w, h') →
      -(2 ^ (bitWidth E s - 1) : Int) ≤ w.toInt ∧ w.toInt < 2 ^ (bitWidth E s - 1))
    {s1 : St σ} (hs : handleBitI E op s = .run s1) : SimOK E G R (fun E s => handleBitI E op s) s s1 := by
  obtain ⟨w, h, b, c, o, e1, e2, rfl⟩ := handleBitI_enc henc hs
  constructor
  intro D g hR hA hD
  obtain ⟨g', hg, hR'⟩ := HS.give _ _ _ _ _ _ hop hR e1
  refine ⟨g', ?_, hR'⟩
  obtain ⟨v, f1, f2⟩ := bits_back hb hfit.1 hfit.2 e2 hA hD
  obtain ⟨i1, i2⟩ := hF w h e1
  have hx := C12_signed_roundtrip _ h0 hfit.1 w i1 i2 v f2
  exact handleBitI_dec (E := E.dec G) (s := s.swap D g) rfl f1 hx hg

theorem handleBitBool_sim (HS : HostSim E.host G K R) (henc : E.enc = true) (op : Byte)
    (hop : isQuery op = false) (s : St σ) (hb : s.bit < 8) (hfit : BitFit s 1)
    (hF : ∀ w h', E.host.scalar s.host (fetch E.prog s.ip 2).1.toNat op 0 = (true, w, h') → truncB 1 w = w)
    {s1 : St σ} (hs : handleBitBool E op s = .run s1) :
    SimOK E G R (fun E s => handleBitBool E op s) s s1 := by
  obtain ⟨w, h, b, c, o, e1, e2, e3, rfl⟩ := handleBitBool_enc henc hs
  constructor
  intro D g hR hA hD
  obtain ⟨g', hg, hR'⟩ := HS.give _ _ _ _ _ _ hop hR e1
  refine ⟨g', ?_, hR'⟩
  rw [hF w h e1] at e2 e3
  obtain ⟨v, f1, f2⟩ := bits_back hb hfit.1 hfit.2 e3 hA hD
  have hv : v = w := by
    apply BitVec.eq_of_toNat_eq
    rw [f2, Nat.mod_eq_of_lt (by omega)]
  subst hv
  exact handleBitBool_dec (E := E.dec G) (s := s.swap D g) rfl f1 hg

theorem handlePad_sim (henc : E.enc = true) (s : St σ) (hb : s.bit < 8)
    (hfit : 8 * s.cursor + s.bit + (fetch E.prog s.ip 1).1.toNat ≤ 8 * s.buf.length)
    {s1 : St σ} (hs : handlePad E s = .run s1) : SimOK E G R handlePad s s1 := by
  unfold handlePad fet at hs
  simp only [henc, if_true] at hs
  obtain ⟨b, c, o, e2, hs⟩ := putBits_run hs
  injection hs with hs
  subst hs
  constructor
  intro D g hR hA hD
  refine ⟨g, ?_, hR⟩
  obtain ⟨h1, h2, h3, _⟩ := writeBits_spec _ _ _ _ _ _ hb e2
  simp only [room] at h3
  have hc : c = s.cursor + (s.bit + (fetch E.prog s.ip 1).1.toNat) / 8 ∧
      o = (s.bit + (fetch E.prog s.ip 1).1.toNat) % 8 := by
    omega
  obtain ⟨rfl, rfl⟩ := hc
  rfl

theorem handleFill_sim (henc : E.enc = true) (s : St σ) (hb : s.bit < 8)
    (hfit : 0 < s.bit → s.cursor < s.buf.length)
    {s1 : St σ} (hs : handleFill E s = .run s1) : SimOK E G R handleFill s s1 := by
  unfold handleFill fet at hs
  simp only [henc, if_true] at hs
  split at hs
  · rename_i hpos
    obtain ⟨b, c, o, e2, hs⟩ := putBits_run hs
    injection hs with hs
    subst hs
    constructor
    intro D g hR hA hD
    refine ⟨g, ?_, hR⟩
    obtain ⟨v, f1, f2⟩ := bits_back hb (by omega) (by have := hfit hpos; dsimp only; omega) e2 hA hD
    unfold handleFill fet
    simp only [Env.dec, St.swap, Bool.false_eq_true, if_false]
    rw [if_pos hpos]
    exact getBits_ok f1 rfl
  · injection hs with hs
    subst hs
    constructor
    intro D g hR hA hD
    refine ⟨g, ?_, hR⟩
    unfold handleFill fet
    simp only [Env.dec, St.swap, Bool.false_eq_true, if_false]
    rw [if_neg (by assumption)]

/-! ### Strings -/

theorem callStr_run {s s1 : St σ} {key : Nat} {op : Byte} {k : St σ → List Byte → Res σ}
    (hs : callStr E s key op k = .run s1) :
    (∃ so h, E.host.str s.host key op = (false, so, h)) ∨
    ∃ so h, E.host.str s.host key op = (true, so, h) ∧ k { s with host := h } (cstr so) = .run s1 := by
  unfold callStr at hs
  cases h : E.host.str s.host key op with
  | mk r wh =>
    obtain ⟨w, h'⟩ := wh
    cases r
    · exact .inl ⟨w, h', rfl⟩
    · simp [h] at hs
      exact .inr ⟨w, h', rfl, hs⟩

theorem cstr_nonzero (so : Option (List Byte)) : ∀ b ∈ cstr so, b ≠ 0 := by
  cases so with
  | none => simp [cstr]
  | some bs =>
    show ∀ b ∈ bs.takeWhile (· ≠ 0), b ≠ 0
    induction bs with
    | nil => simp
    | cons a bs ih =>
      intro b hb
      rw [List.takeWhile_cons] at hb
      split at hb
      · rename_i ha
        rcases List.mem_cons.1 hb with rfl | hb
        · simpa using ha
        · exact ih b hb
      · cases hb

theorem takeWhile_prefix (bs rest : List Byte) (h : ∀ b ∈ bs, b ≠ 0) :
    (bs ++ (0 : Byte) :: rest).takeWhile (· ≠ 0) = bs := by
  induction bs with
  | nil => simp
  | cons b bs ih =>
    have hb := h b (by simp)
    simp only [List.cons_append, List.takeWhile_cons]
    rw [if_pos (by simpa using hb), ih (fun c hc => h c (by simp [hc]))]

/-- The decoder finds the end of a string written by the encoder. -/
theorem window_len {D bs : List Byte} {p m : Nat} (hD : (D.drop p).take (bs.length + 1) = bs ++ [0])
    (hm : bs.length ≤ m) (h : ∀ b ∈ bs, b ≠ 0) :
    (((D.drop p).take m).takeWhile (· ≠ 0)).length = bs.length := by
  have e : D.drop p = bs ++ (0 : Byte) :: (D.drop p).drop (bs.length + 1) := by
    conv => lhs; rw [← List.take_append_drop (bs.length + 1) (D.drop p), hD]
    simp
  rw [e]
  by_cases hm1 : m = bs.length
  · subst hm1
    rw [List.take_left']
    · have : bs.takeWhile (· ≠ 0) = bs := by
        clear hm e hD
        induction bs with
        | nil => rfl
        | cons a bs ih =>
          rw [List.takeWhile_cons, if_pos (by simpa using h a (by simp)),
            ih (fun b hb => h b (by simp [hb]))]
      rw [this]
    · rfl
  · obtain ⟨d, hd⟩ : ∃ d, m = bs.length + (d + 1) := ⟨m - bs.length - 1, by omega⟩
    rw [hd, List.take_length_add_append]
    simp only [List.take_succ_cons]
    rw [takeWhile_prefix _ _ h]

theorem handleStrNull_sim (HS : HostSim E.host G K R) (henc : E.enc = true) (s : St σ)
    (hF : ∀ b so h', E.host.str s.host (fetch E.prog s.ip 2).1.toNat 0x30 = (b, so, h') →
      b = true ∧ (cstr so).length ≤ (fetch E.prog (fetch E.prog s.ip 2).2 2).1.toNat)
    {s1 : St σ} (hs : handleStrNull E 0x30 s = .run s1) :
    SimOK E G R (fun E s => handleStrNull E 0x30 s) s s1 := by
  unfold handleStrNull fet at hs
  simp only [henc, if_true] at hs
  rcases callStr_run hs with ⟨so, h, e1⟩ | ⟨so, h, e1, hs⟩
  · have := (hF _ _ _ e1).1; cases this
  dsimp only at hs e1
  have hm := (hF _ _ _ e1).2
  have htake : (cstr so).take (fetch E.prog (fetch E.prog s.ip 2).2 2).1.toNat = cstr so :=
    List.take_of_length_le hm
  simp only [htake] at hs
  split at hs
  · cases hs
  rename_i hroom
  obtain ⟨b, e2, hs⟩ := wrRaw_run hs
  injection hs with hs
  subst hs
  constructor
  intro D g hR hA hD
  have hsl := agree_slice hA (p := s.cursor) (n := (cstr so).length + 1) (by dsimp only; omega) hD
    (by have := slice_store_same e2; simpa using this)
  obtain ⟨hlen, hsl'⟩ := slice_eq_some.1 hsl
  obtain ⟨g', hg, hR'⟩ := HS.str _ _ _ _ _ _ s.be D s.cursor hR e1
    ⟨fun _ => hsl'.symm, fun sz h => by simp at h⟩
  refine ⟨g', ?_, hR'⟩
  unfold handleStrNull fet
  simp only [Env.dec, St.swap, Bool.false_eq_true, if_false]
  refine (if_neg (by omega)).trans ?_
  simp only [window_len hsl'.symm hm (cstr_nonzero so)]
  refine (if_neg (by omega)).trans ?_
  exact callAt_ok hg rfl

theorem handleStrPre_sim (HS : HostSim E.host G K R) (henc : E.enc = true) (p : Pre) (op : Byte)
    (hop : op = 0x31 ∧ p = .p1 ∨ op = 0x32 ∧ p = .p2 ∨ op = 0x33 ∧ p = .p4) (s : St σ)
    (hF : ∀ b so h', E.host.str s.host (fetch E.prog s.ip 2).1.toNat op = (b, so, h') →
      b = true ∧ (cstr so).length ≤ 2 ^ (8 * p.size) - 1)
    {s1 : St σ} (hs : handleStrPre E p op s = .run s1) :
    SimOK E G R (fun E s => handleStrPre E p op s) s s1 := by
  unfold handleStrPre fet at hs
  simp only [henc, if_true] at hs
  rcases callStr_run hs with ⟨so, h, e1⟩ | ⟨so, h, e1, hs⟩
  · have := (hF _ _ _ e1).1; cases this
  dsimp only at hs e1
  have hm := (hF _ _ _ e1).2
  have htake : (cstr so).take (2 ^ (8 * p.size) - 1) = cstr so := List.take_of_length_le hm
  simp only [htake] at hs
  split at hs
  · cases hs
  rename_i hroom
  obtain ⟨b1, e2, hs⟩ := wrAt_run hs
  obtain ⟨b2, e3, hs⟩ := wrRaw_run hs
  injection hs with hs
  subst hs
  constructor
  intro D g hR hA hD
  dsimp only at e2 e3 hroom
  have hsz := p.size_le
  have hsl2 := agree_slice hA (p := s.cursor + p.size) (n := (cstr so).length) (by dsimp only; omega) hD
    (by have := slice_store_same e3; simpa using this)
  have hpre : slice b2 s.cursor p.size = some (wrBytes s.be p.size (BitVec.ofNat 64 (cstr so).length)) := by
    have h1 := slice_store_same e2
    simp only [wrBytes_length] at h1
    obtain ⟨i1, i2⟩ := slice_eq_some.1 h1
    have hl := store_length e3
    rw [slice_eq_some]
    refine ⟨by omega, ?_⟩
    rw [i2]
    apply List.ext_getElem?
    intro i
    rw [List.getElem?_take, List.getElem?_take]
    split
    · rw [List.getElem?_drop, List.getElem?_drop, store_out e3 _ (by omega)]
    · rfl
  have hsl1 := agree_slice hA (p := s.cursor) (n := p.size) (by dsimp only; omega) hD hpre
  obtain ⟨hlen1, hsl1'⟩ := slice_eq_some.1 hsl1
  obtain ⟨hlen2, hsl2'⟩ := slice_eq_some.1 hsl2
  have hL : (rdWord s.be (wrBytes s.be p.size (BitVec.ofNat 64 (cstr so).length))).toNat = (cstr so).length := by
    have hp : 0 < 2 ^ (8 * p.size) := Nat.two_pow_pos _
    have hp2 : 2 ^ (8 * p.size) ≤ 2 ^ 64 := Nat.pow_le_pow_right (by omega) (by omega)
    rw [rdWord_wrBytes _ _ _ (by omega), toNat_truncB, BitVec.toNat_ofNat,
      Nat.mod_eq_of_lt (a := (cstr so).length) (by omega), Nat.mod_eq_of_lt (by omega)]
  obtain ⟨g', hg, hR'⟩ := HS.str _ _ _ _ _ _ s.be D (s.cursor + p.size) hR e1
    ⟨fun h0 => by subst h0; rcases hop with h | h | h <;> exact absurd h.1 (by decide),
     fun sz hsz' => by
      have : sz = p.size := by
        rcases hop with ⟨rfl, rfl⟩ | ⟨rfl, rfl⟩ | ⟨rfl, rfl⟩ <;>
          rcases hsz' with h | h | h <;>
          first | (exact h.2) | (exact absurd h.1 (by decide))
      subst this
      exact ⟨by omega, hsl2'.symm, by rw [Nat.add_sub_cancel]; exact hsl1'.symm⟩⟩
  refine ⟨g', ?_, hR'⟩
  unfold handleStrPre fet
  simp only [Env.dec, St.swap, Bool.false_eq_true, if_false]
  refine (if_neg (by omega)).trans ?_
  refine rdAt_ok hsl1 ?_
  simp only [hL]
  refine (if_neg (by omega)).trans ?_
  exact callAt_ok hg rfl

/-! ### Arrays -/

/-- Array entry with a host that declines bulk transfers. -/
theorem enterArray_loop (hd : ∀ h key be buf p, E.host.bytesAt h key 0x39 be buf p = (false, buf, h)) (s : St σ)
    (count : Nat) :
    enterArray E s count =
      if count = 0 then .run { s with ip := skipBody E.prog s.ip } else pushLoop s count := by
  unfold enterArray
  split
  · rfl
  · split
    · split
      · unfold callAt
        simp only [hd, hostBuf_self, Bool.false_eq_true, if_false]
      · rfl
    · rfl

theorem enterArray_sim (HS : HostSim E.host G K R) {s s1 : St σ} {count : Nat}
    (hs : enterArray E s count = .run s1) (D : List Byte) (g : τ) :
    enterArray (E.dec G) (s.swap D g) count = .run (s1.swap D g) ∧ s1.host = s.host ∧
      s1.cursor = s.cursor ∧ s1.bit = s.bit ∧ s1.be = s.be ∧ s1.buf = s.buf := by
  rw [enterArray_loop HS.noBulkH] at hs
  rw [enterArray_loop (E := E.dec G) HS.noBulkG]
  split at hs
  · injection hs with hs
    subst hs
    rename_i hc
    rw [if_pos hc]
    exact ⟨rfl, rfl, rfl, rfl, rfl, rfl⟩
  · rename_i hc
    rw [if_neg hc]
    unfold pushLoop at hs ⊢
    split at hs
    · cases hs
    · rename_i hl
      injection hs with hs
      subst hs
      have : ¬ (s.swap D g).loops.length ≥ maxDepth := hl
      rw [if_neg this]
      exact ⟨rfl, rfl, rfl, rfl, rfl, rfl⟩

theorem handleArrPre_sim (HS : HostSim E.host G K R) (henc : E.enc = true) (p : Pre) (op : Byte)
    (hop : isQuery op = false) (s : St σ)
    (hF : ∀ w h', E.host.scalar s.host (fetch E.prog s.ip 2).1.toNat op 0 = (true, w, h') →
      truncB p.size w = w)
    {s1 : St σ} (hs : handleArrPre E p op s = .run s1) :
    SimOK E G R (fun E s => handleArrPre E p op s) s s1 := by
  unfold handleArrPre fet at hs
  simp only [henc, if_true] at hs
  obtain ⟨w, h, e1, hs⟩ := callScalar_run hs
  split at hs
  · cases hs
  obtain ⟨b, e2, hs⟩ := wrAt_run hs
  have hw := hF _ _ e1
  dsimp only at e2 hs
  constructor
  intro D g hR hA hD
  obtain ⟨g', hg, hR'⟩ := HS.give _ _ _ _ _ _ hop hR e1
  obtain ⟨i1, i2, i3, i4, i5, i6⟩ := enterArray_sim HS hs D g'
  refine ⟨g', ?_, by rw [i2]; exact hR'⟩
  rw [hw] at e2
  have hsz := p.size_le
  have hA' : Agree { s with buf := b, cursor := s.cursor + p.size } D := by
    intro k hk
    have := hA k (by rw [i3, i4]; exact hk)
    rw [i5, i6] at this
    exact this
  have hsl := agree_slice hA' (p := s.cursor) (n := p.size) (by dsimp only; omega)
    (by rw [i3, i4] at hD; exact hD) (by have := slice_store_same e2; simpa using this)
  obtain ⟨hlen, _⟩ := slice_eq_some.1 hsl
  unfold handleArrPre fet
  simp only [Env.dec, St.swap, Bool.false_eq_true, if_false]
  refine (if_neg (by omega)).trans ?_
  refine rdAt_ok hsl ?_
  simp only
  rw [rdWord_wrBytes _ _ _ (by omega), hw]
  refine callScalar_ok hg ?_
  rw [hw]
  rw [hw] at i1
  exact i1

theorem handleArrFixed_sim (HS : HostSim E.host G K R) (s : St σ)
    {s1 : St σ} (hs : handleArrFixed E 0x34 s = .run s1) :
    SimOK E G R (fun E s => handleArrFixed E 0x34 s) s s1 := by
  unfold handleArrFixed fet at hs
  obtain ⟨w, h, e1, hs⟩ := callScalar_run hs
  dsimp only at hs
  constructor
  intro D g hR hA hD
  obtain ⟨g', hg, hR'⟩ := HS.query _ _ _ _ _ _ _ rfl hR e1
  obtain ⟨i1, i2, i3, i4, i5, i6⟩ := enterArray_sim HS hs D g'
  refine ⟨g', ?_, by rw [i2]; exact hR'⟩
  unfold handleArrFixed fet
  exact callScalar_ok hg i1

theorem handleArrDynamic_sim (HS : HostSim E.host G K R) (s : St σ)
    {s1 : St σ} (hs : handleArrDynamic E 0x3B s = .run s1) :
    SimOK E G R (fun E s => handleArrDynamic E 0x3B s) s s1 := by
  unfold handleArrDynamic fet at hs
  obtain ⟨w, h, e1, hs⟩ := callScalar_run hs
  split at hs
  · cases hs
  rename_i hcv
  obtain ⟨w2, h2, e2, hs⟩ := callScalar_run hs
  dsimp only at hs
  constructor
  intro D g hR hA hD
  obtain ⟨g', hg, hR'⟩ := HS.query _ _ _ _ _ _ _ rfl hR e1
  obtain ⟨g2, hg2, hR2⟩ := HS.query _ _ _ _ _ _ _ rfl hR' e2
  obtain ⟨i1, i2, i3, i4, i5, i6⟩ := enterArray_sim HS hs D g2
  refine ⟨g2, ?_, by rw [i2]; exact hR2⟩
  unfold handleArrDynamic fet
  refine callScalar_ok hg ?_
  simp only
  refine (if_neg hcv).trans ?_
  exact callScalar_ok hg2 i1

theorem handleArrEnd_sim (HS : HostSim E.host G K R) (s : St σ)
    (hF : ∀ f fs, s.loops = f :: fs → f.rem ≠ 0xFFFFFFFF)
    {s1 : St σ} (hs : handleArrEnd E s = .run s1) : SimOK E G R handleArrEnd s s1 := by
  unfold handleArrEnd at hs
  split at hs
  · cases hs
  rename_i f fs hl
  have hne : (f.rem == 0xFFFFFFFF) = false := by
    have := hF f fs hl; simpa using this
  simp only [hne, Bool.false_eq_true, if_false] at hs
  constructor
  intro D g hR hA hD
  have hsw : (s.swap D g).loops = f :: fs := hl
  unfold handleArrEnd
  simp only [hsw, hne, Bool.false_eq_true, if_false]
  split at hs
  · rename_i hc
    injection hs with hs
    subst hs
    rw [if_pos hc]
    exact ⟨g, rfl, hR⟩
  · rename_i hc
    rw [if_neg hc]
    obtain ⟨h, e1, hs⟩ := callNotify_run hs
    injection hs with hs
    subst hs
    obtain ⟨g', hg, hR'⟩ := HS.notify _ _ _ _ _ hR e1
    exact ⟨g', callNotify_ok hg rfl, hR'⟩

/-! ### Checks -/

theorem store_self {D bs : List Byte} {p : Nat} (h : slice D p bs.length = some bs) : store D p bs = some D := by
  obtain ⟨h1, h2⟩ := slice_eq_some.1 h
  rw [store_eq_some]
  refine ⟨h1, ?_⟩
  apply List.ext_getElem?
  intro i
  by_cases hi : i < p
  · rw [getElem?_splice_lt h1 hi]
  · by_cases hi2 : i < p + bs.length
    · obtain ⟨j, rfl⟩ : ∃ j, i = p + j := ⟨i - p, by omega⟩
      rw [getElem?_splice_mid h1 (by omega), h2, List.getElem?_take_of_lt (by omega), List.getElem?_drop]
    · rw [getElem?_splice_ge h1 (by omega)]

theorem handleConstWrite_sim (s : St σ) {s1 : St σ} (hs : handleConstWrite E s = .run s1) :
    SimOK E G R handleConstWrite s s1 := by
  unfold handleConstWrite fet at hs
  dsimp only at hs
  split at hs
  · cases hs
  rename_i t ht
  split at hs
  · cases hs
  rename_i hsg
  split at hs
  · cases hs
  obtain ⟨b, e2, hs⟩ := wrAt_run hs
  injection hs with hs
  subst hs
  dsimp only at e2
  constructor
  intro D g hR hA hD
  have hsl := agree_slice hA (p := s.cursor) (n := t.size) (by dsimp only; omega) hD
    (by have := slice_store_same e2; simpa using this)
  obtain ⟨hlen, _⟩ := slice_eq_some.1 hsl
  refine ⟨g, ?_, hR⟩
  unfold handleConstWrite fet
  simp only [Env.dec, St.swap, ht]
  refine (if_neg hsg).trans ?_
  refine (if_neg (by omega)).trans ?_
  exact wrAt_ok (store_self (by simpa using hsl)) rfl

theorem handleConstCheck_sim (HS : HostSim E.host G K R) (henc : E.enc = true) (s : St σ)
    (hK : K (fetch E.prog s.ip 2).1.toNat)
    {s1 : St σ} (hs : handleConstCheck E s = .run s1) : SimOK E G R handleConstCheck s s1 := by
  unfold handleConstCheck fet at hs
  dsimp only at hs
  split at hs
  · cases hs
  rename_i t ht
  split at hs
  · cases hs
  obtain ⟨b, e2, hs⟩ := wrAt_run hs
  injection hs with hs
  subst hs
  dsimp only at e2
  constructor
  intro D g hR hA hD
  have hsl := agree_slice hA (p := s.cursor) (n := t.size) (by dsimp only; omega) hD
    (by have := slice_store_same e2; simpa using this)
  obtain ⟨hlen, _⟩ := slice_eq_some.1 hsl
  have hlt := fetch_lt E.prog (fetch E.prog (fetch E.prog s.ip 2).2 1).2 t.size t.size_le
  obtain ⟨w, g', hg, hR'⟩ := HS.const _ g (fetch E.prog s.ip 2).1.toNat
    ((fetch E.prog (fetch E.prog s.ip 2).2 1).1.setWidth 8)
    (fetch E.prog (fetch E.prog (fetch E.prog s.ip 2).2 1).2 t.size).1 hK
    (by
      have h1 := fetch_lt E.prog (fetch E.prog s.ip 2).2 1 (by omega)
      rw [show (((fetch E.prog (fetch E.prog s.ip 2).2 1).1.setWidth 8).setWidth 64) = (fetch E.prog (fetch E.prog s.ip 2).2 1).1 from by
        apply BitVec.eq_of_toNat_eq; simp only [BitVec.toNat_setWidth]; omega, ht]
      rfl) hR
  refine ⟨g', ?_, hR'⟩
  unfold handleConstCheck fet
  simp only [Env.dec, St.swap, ht]
  refine (if_neg (by omega)).trans ?_
  refine (if_neg (by simp)).trans ?_
  refine rdAt_ok hsl ?_
  simp only
  rw [rdWord_wrBytes _ _ _ t.size_le, truncB_of_lt _ _ (by rw [← pow256]; exact hlt)]
  refine (if_neg (by simp)).trans ?_
  exact callScalar_ok hg rfl

theorem handleEnum_sim (s : St σ) {s1 : St σ} (hs : handleEnum E s = .run s1) :
    SimOK E G R handleEnum s s1 := by
  unfold handleEnum fet at hs
  dsimp only at hs
  split at hs
  · cases hs
  rename_i t ht
  split at hs
  · cases hs
  rename_i hcur
  obtain ⟨bs, e1, hs⟩ := rdAt_run hs
  dsimp only at hs e1
  split at hs
  · cases hs
  rename_i ip hip
  injection hs with hs
  subst hs
  constructor
  intro D g hR hA hD
  refine ⟨g, ?_, hR⟩
  unfold handleEnum fet
  simp only [Env.dec, St.swap, ht]
  refine (if_neg hcur).trans ?_
  refine rdAt_ok (agree_slice hA (by dsimp only; omega) hD e1) ?_
  simp only [hip]

theorem handleRange_sim (s : St σ) {s1 : St σ} (hs : handleRange E s = .run s1) :
    SimOK E G R handleRange s s1 := by
  unfold handleRange fet at hs
  dsimp only at hs
  split at hs
  · rename_i t ht
    split at hs
    · cases hs
    rename_i hcur
    obtain ⟨bs, e1, hs⟩ := rdAt_run hs
    dsimp only at hs e1
    split at hs
    · cases hs
    rename_i hok
    injection hs with hs
    subst hs
    constructor
    intro D g hR hA hD
    refine ⟨g, ?_, hR⟩
    unfold handleRange fet
    simp only [Env.dec, St.swap, ht]
    refine (if_neg hcur).trans ?_
    refine rdAt_ok (agree_slice hA (by dsimp only; omega) hD e1) ?_
    simp only
    exact if_neg hok
  · rename_i ht
    split at hs
    · rename_i htag
      split at hs
      · cases hs
      rename_i hcur
      obtain ⟨bs, e1, hs⟩ := rdAt_run hs
      dsimp only at hs e1
      split at hs
      · cases hs
      rename_i hok
      injection hs with hs
      subst hs
      constructor
      intro D g hR hA hD
      refine ⟨g, ?_, hR⟩
      unfold handleRange fet
      simp only [Env.dec, St.swap, ht]
      refine (if_pos htag).trans ?_
      refine (if_neg hcur).trans ?_
      refine rdAt_ok (agree_slice hA (by dsimp only; omega) hD e1) ?_
      simp only
      exact if_neg hok
    · rename_i htag
      split at hs
      · rename_i htag2
        split at hs
        · cases hs
        rename_i hcur
        obtain ⟨bs, e1, hs⟩ := rdAt_run hs
        dsimp only at hs e1
        split at hs
        · cases hs
        rename_i hok
        injection hs with hs
        subst hs
        constructor
        intro D g hR hA hD
        refine ⟨g, ?_, hR⟩
        unfold handleRange fet
        simp only [Env.dec, St.swap, ht]
        refine (if_neg htag).trans ?_
        refine (if_pos htag2).trans ?_
        refine (if_neg hcur).trans ?_
        refine rdAt_ok (agree_slice hA (by dsimp only; omega) hD e1) ?_
        simp only
        exact if_neg hok
      · cases hs

theorem handleCrc_sim (henc : E.enc = true) (w32 : Bool) (s : St σ) {s1 : St σ}
    (hs : handleCrc E w32 s = .run s1) : SimOK E G R (fun E s => handleCrc E w32 s) s s1 := by
  unfold handleCrc fet at hs
  have hn : (if w32 = true then 4 else 2) ≤ 8 := by split <;> omega
  constructor
  unfold handleCrc fet
  generalize (if w32 = true then 4 else 2) = n at *
  dsimp only at hs
  split at hs
  · cases hs
  rename_i data hdata
  split at hs
  · cases hs
  rename_i hroom
  obtain ⟨b, e2, hs⟩ := wrAt_run hs
  injection hs with hs
  subst hs
  dsimp only at e2 hroom
  intro D g hR hA hD
  have hsl := agree_slice hA (p := s.cursor) (n := n) (by dsimp only; omega) hD
    (by have := slice_store_same e2; simpa using this)
  obtain ⟨hlen, _⟩ := slice_eq_some.1 hsl
  have hd2 : slice b 0 s.cursor = some data := by
    obtain ⟨i1, i2⟩ := slice_eq_some.1 hdata
    rw [slice_eq_some, store_length e2]
    refine ⟨i1, ?_⟩
    rw [i2]
    apply List.ext_getElem?
    intro i
    rw [List.getElem?_take, List.getElem?_take]
    split
    · rw [List.getElem?_drop, List.getElem?_drop, store_out e2 _ (by omega)]
    · rfl
  have hD0 := agree_slice hA (p := 0) (n := s.cursor) (by dsimp only; omega) hD hd2
  refine ⟨g, ?_, hR⟩
  simp only [Env.dec, St.swap, hD0]
  refine (if_neg (by omega)).trans ?_
  refine (if_neg (by simp)).trans ?_
  refine rdAt_ok hsl ?_
  simp only
  rw [rdWord_wrBytes _ _ _ hn]
  exact if_neg (by simp)

/-! ### Control flow -/

theorem goto_sim {s s1 : St σ} {base : Nat} {off : Word} (hs : goto E s base off = .run s1) (D : List Byte)
    (g : τ) : goto (E.dec G) (s.swap D g) base off = .run (s1.swap D g) ∧ s1.host = s.host := by
  obtain ⟨t, h1, rfl⟩ := goto_run hs
  exact ⟨goto_ok (E := E.dec G) (s := s.swap D g) h1, rfl⟩

theorem handleJump_sim (s : St σ) {s1 : St σ} (hs : handleJump E s = .run s1) :
    SimOK E G R handleJump s s1 := by
  unfold handleJump fet at hs
  constructor
  intro D g hR hA hD
  have := goto_sim (G := G) hs D g
  exact ⟨g, this.1, by rw [this.2]; exact hR⟩

theorem handleJumpIfNot_sim (s : St σ) {s1 : St σ} (hs : handleJumpIfNot E s = .run s1) :
    SimOK E G R handleJumpIfNot s s1 := by
  unfold handleJumpIfNot fet at hs
  dsimp only at hs
  split at hs
  · cases hs
  rename_i c rest hst
  constructor
  intro D g hR hA hD
  unfold handleJumpIfNot fet
  have hsw : (s.swap D g).stack = c :: rest := hst
  simp only [hsw]
  split at hs
  · rename_i hc
    rw [if_pos hc]
    have := goto_sim (G := G) hs D g
    exact ⟨g, this.1, by rw [this.2]; exact hR⟩
  · rename_i hc
    rw [if_neg hc]
    injection hs with hs
    subst hs
    exact ⟨g, rfl, hR⟩

theorem handleSwitch_sim (HS : HostSim E.host G K R) (s : St σ) {s1 : St σ} (hs : handleSwitch E s = .run s1) :
    SimOK E G R handleSwitch s s1 := by
  unfold handleSwitch fet at hs
  dsimp only at hs
  split at hs
  · cases hs
  rename_i htb
  obtain ⟨w, h, e1, hs⟩ := callScalar_run hs
  constructor
  intro D g hR hA hD
  obtain ⟨g', hg, hR'⟩ := HS.query _ _ _ _ _ _ _ rfl hR e1
  have := goto_sim (G := G) hs D g'
  refine ⟨g', ?_, by rw [this.2]; exact hR'⟩
  unfold handleSwitch fet
  simp only [Env.dec, St.swap]
  refine (if_neg htb).trans ?_
  exact callScalar_ok hg this.1

theorem handleSwitchTable_sim (HS : HostSim E.host G K R) (s : St σ) {s1 : St σ}
    (hs : handleSwitchTable E s = .run s1) : SimOK E G R handleSwitchTable s s1 := by
  unfold handleSwitchTable fet at hs
  dsimp only at hs
  split at hs
  · cases hs
  rename_i htb
  obtain ⟨w, h, e1, hs⟩ := callScalar_run hs
  constructor
  intro D g hR hA hD
  obtain ⟨g', hg, hR'⟩ := HS.query _ _ _ _ _ _ _ rfl hR e1
  unfold handleSwitchTable fet
  simp only [Env.dec, St.swap]
  dsimp only at hs
  split at hs
  · rename_i hin
    split at hs
    · cases hs
    rename_i h2
    split at hs
    · rename_i h3
      have := goto_sim (G := G) hs D g'
      refine ⟨g', ?_, by rw [this.2]; exact hR'⟩
      refine (if_neg htb).trans ?_
      refine callScalar_ok hg ?_
      dsimp only
      refine (if_pos hin).trans ?_
      refine (if_neg h2).trans ?_
      refine (if_pos h3).trans ?_
      exact this.1
    · cases hs
  · rename_i hin
    have := goto_sim (G := G) hs D g'
    refine ⟨g', ?_, by rw [this.2]; exact hR'⟩
    refine (if_neg htb).trans ?_
    refine callScalar_ok hg ?_
    dsimp only
    refine (if_neg hin).trans ?_
    exact this.1

/-! ### Expressions -/

theorem push_sim {s s1 : St σ} {v : Word} (hs : push s v = .run s1) (D : List Byte) (g : τ) :
    push (s.swap D g) v = .run (s1.swap D g) ∧ s1.host = s.host := by
  obtain ⟨h1, rfl⟩ := push_run hs
  exact ⟨push_ok (s := s.swap D g) h1, rfl⟩

theorem aluDone_sim {s s1 : St σ} {a : Alu} (hs : aluDone s a = .run s1) (D : List Byte) (g : τ) :
    aluDone (s.swap D g) a = .run (s1.swap D g) ∧ s1.host = s.host := by
  cases a with
  | val w => exact push_sim hs D g
  | err e => cases hs
  | ub u => cases hs

theorem binary_sim {s s1 : St σ} {f : Word → Word → Alu} (hs : binary s f = .run s1) (D : List Byte) (g : τ) :
    binary (s.swap D g) f = .run (s1.swap D g) ∧ s1.host = s.host := by
  unfold binary at hs ⊢
  have hsw : (s.swap D g).stack = s.stack := rfl
  rw [hsw]
  split at hs
  · cases hs
  · cases hs
  · exact aluDone_sim hs D g

theorem unary_sim {s s1 : St σ} {f : Word → Alu} (hs : unary s f = .run s1) (D : List Byte) (g : τ) :
    unary (s.swap D g) f = .run (s1.swap D g) ∧ s1.host = s.host := by
  unfold unary at hs ⊢
  have hsw : (s.swap D g).stack = s.stack := rfl
  rw [hsw]
  split at hs
  · cases hs
  · exact aluDone_sim hs D g

theorem handleLoadCtx_sim (HS : HostSim E.host G K R) (s : St σ) {s1 : St σ}
    (hs : handleLoadCtx E 0x60 s = .run s1) : SimOK E G R (fun E s => handleLoadCtx E 0x60 s) s s1 := by
  unfold handleLoadCtx fet at hs
  obtain ⟨w, h, e1, hs⟩ := callScalar_run hs
  constructor
  intro D g hR hA hD
  obtain ⟨g', hg, hR'⟩ := HS.query _ _ _ _ _ _ _ rfl hR e1
  have := push_sim hs D g'
  exact ⟨g', callScalar_ok hg this.1, by rw [this.2]; exact hR'⟩

theorem handleStoreCtx_sim (HS : HostSim E.host G K R) (s : St σ) {s1 : St σ}
    (hs : handleStoreCtx E 0x78 s = .run s1) : SimOK E G R (fun E s => handleStoreCtx E 0x78 s) s s1 := by
  unfold handleStoreCtx fet at hs
  dsimp only at hs
  split at hs
  · cases hs
  rename_i v rest hst
  obtain ⟨w, h, e1, hs⟩ := callScalar_run hs
  injection hs with hs
  subst hs
  constructor
  intro D g hR hA hD
  obtain ⟨g', hg, hR'⟩ := HS.query _ _ _ _ _ _ _ rfl hR e1
  refine ⟨g', ?_, hR'⟩
  unfold handleStoreCtx fet
  have hsw : (s.swap D g).stack = v :: rest := hst
  simp only [hsw]
  exact callScalar_ok hg rfl

/-- The computed value passes the decoder's comparison with what the encoder writes for it. -/
def EmitBack (E : Env σ) (tag val : Word) (n : Nat) : Prop :=
  if tag = 0x18 then
    let bin := truncB n ((E.fl.toF32 val).setWidth 64)
    let diff := E.fl.sub32 (E.fl.toF32 val) (bin.setWidth 32)
    E.fl.lt32 diff 0xB727C5AC = false ∧ E.fl.lt32 0x3727C5AC diff = false
  else if tag = 0x19 then
    E.fl.lt (E.fl.sub val (truncB n val)) 0xBE7AD7F29ABCAF48 = false ∧
    E.fl.lt 0x3E7AD7F29ABCAF48 (E.fl.sub val (truncB n val)) = false
  else truncB n val = val

theorem handleEmit_sim (henc : E.enc = true) (s : St σ)
    (hF : ∀ v rest n, s.stack = v :: rest → emitSize (fetch E.prog s.ip 1).1 = some n →
      EmitBack E (fetch E.prog s.ip 1).1 v n)
    {s1 : St σ} (hs : handleEmit E s = .run s1) : SimOK E G R handleEmit s s1 := by
  unfold handleEmit fet at hs
  dsimp only at hs
  split at hs
  · cases hs
  rename_i v rest hst
  split at hs
  · cases hs
  rename_i n hn
  split at hs
  · cases hs
  rename_i hroom
  obtain ⟨b, e2, hs⟩ := wrAt_run hs
  injection hs with hs
  subst hs
  dsimp only at e2 hroom
  have hn8 := emitSize_le hn
  constructor
  intro D g hR hA hD
  have hsl := agree_slice hA (p := s.cursor) (n := n) (by dsimp only; omega) hD
    (by have := slice_store_same e2; simpa using this)
  obtain ⟨hlen, _⟩ := slice_eq_some.1 hsl
  have hB := hF v rest n hst hn
  unfold EmitBack at hB
  refine ⟨g, ?_, hR⟩
  unfold handleEmit fet
  simp only [Env.dec, St.swap, hst, hn]
  refine (if_neg (by omega)).trans ?_
  refine (if_neg (by simp)).trans ?_
  refine rdAt_ok hsl ?_
  simp only
  rw [rdWord_wrBytes _ _ _ hn8]
  have hbad : (if (fetch E.prog s.ip 1).1 = 0x18 then
      (E.fl.lt32 (E.fl.sub32 (E.fl.toF32 v)
        ((truncB n (if (fetch E.prog s.ip 1).1 = 0x18 then (E.fl.toF32 v).setWidth 64 else v)).setWidth 32))
          0xB727C5AC ||
       E.fl.lt32 0x3727C5AC (E.fl.sub32 (E.fl.toF32 v)
        ((truncB n (if (fetch E.prog s.ip 1).1 = 0x18 then (E.fl.toF32 v).setWidth 64 else v)).setWidth 32)))
    else if (fetch E.prog s.ip 1).1 = 0x19 then
      (E.fl.lt (E.fl.sub v (truncB n (if (fetch E.prog s.ip 1).1 = 0x18 then (E.fl.toF32 v).setWidth 64 else v)))
          0xBE7AD7F29ABCAF48 ||
       E.fl.lt 0x3E7AD7F29ABCAF48
         (E.fl.sub v (truncB n (if (fetch E.prog s.ip 1).1 = 0x18 then (E.fl.toF32 v).setWidth 64 else v))))
    else truncB n (if (fetch E.prog s.ip 1).1 = 0x18 then (E.fl.toF32 v).setWidth 64 else v) != v) = false := by
    by_cases h18 : (fetch E.prog s.ip 1).1 = 0x18
    · rw [if_pos h18] at hB ⊢
      rw [if_pos h18, hB.1, hB.2]; rfl
    · rw [if_neg h18] at hB
      by_cases h19 : (fetch E.prog s.ip 1).1 = 0x19
      · rw [if_pos h19] at hB
        rw [if_neg h18, if_pos h19, if_neg h18, hB.1, hB.2]; rfl
      · rw [if_neg h19] at hB
        rw [if_neg h18, if_neg h19, if_neg h18, hB]; simp
  exact if_neg (fun hc => absurd (hbad.symm.trans hc) (by simp))
end

end Cnd
