import Verif.Schema
/-
  Encoding a record that fits a schema: the run instruction by instruction (used for C52, C16).
-/

namespace Cnd
variable {σ : Type}

/-! ### Runs all of whose instructions the decoder can follow -/

inductive RunS (E : Env σ) (K : Nat → Prop) : St σ → St σ → Prop
  | refl (s : St σ) : RunS E K s s
  | step {s s1 s2 : St σ} {op : Byte} : E.prog[s.ip]? = some op → Side E K op (pre op s) → step E s = .run s1 →
      RunS E K s1 s2 → RunS E K s s2

theorem RunS.trans {E : Env σ} {K : Nat → Prop} {a b c : St σ} (h1 : RunS E K a b) (h2 : RunS E K b c) :
    RunS E K a c := by
  induction h1 with
  | refl => exact h2
  | step h s e _ ih => exact .step h s e (ih h2)

theorem RunS.one {E : Env σ} {K : Nat → Prop} {s s1 : St σ} {op : Byte} {rest : List Byte}
    (h : At E.prog s.ip (op :: rest)) (hs : Side E K op (pre op s)) (e : Cnd.step E s = .run s1) : RunS E K s s1 :=
  .step h.head hs e (.refl _)

theorem RunS.exec {E : Env σ} {K : Nat → Prop} {s s1 : St σ} (h : RunS E K s s1) (hend : E.prog[s1.ip]? = none) :
    ∃ n, Cnd.exec E n s = .stop .ok s1 := by
  induction h with
  | refl s => exact ⟨1, exec_stop_succ (step_end hend) 0⟩
  | step h s e _ ih =>
    obtain ⟨n, hn⟩ := ih hend
    exact ⟨n + 1, by rw [exec_run_succ e, hn]⟩

theorem RunS.side {E : Env σ} {K : Nat → Prop} {s s1 : St σ} (h : RunS E K s s1) (hend : E.prog[s1.ip]? = none)
    (s' : St σ) (hr : Reach E s s') (op : Byte) (hop : E.prog[s'.ip]? = some op) : Side E K op (pre op s') := by
  induction h with
  | refl s =>
    obtain ⟨n, hn⟩ := hr
    cases n with
    | zero => simp [exec_zero] at hn; subst hn; rw [hend] at hop; cases hop
    | succ n => rw [exec_stop_succ (step_end hend)] at hn; cases hn
  | step h s e _ ih =>
    obtain ⟨n, hn⟩ := hr
    cases n with
    | zero =>
      simp [exec_zero] at hn
      subst hn
      rw [h] at hop
      injection hop with hop
      subst hop
      exact s
    | succ n =>
      rw [exec_run_succ e] at hn
      exact ih hend ⟨n, hn⟩

/-! ### Single instructions when encoding -/

section
variable {E : Env σ} {s : St σ}

theorem setLE_step (hat : At E.prog s.ip [0x01]) : step E s = .run { s with ip := s.ip + 1, be := false } := by
  rw [step_pre hat, pre_unaligned _ s rfl]; rfl
theorem setBE_step (hat : At E.prog s.ip [0x02]) : step E s = .run { s with ip := s.ip + 1, be := true } := by
  rw [step_pre hat, pre_unaligned _ s rfl]; rfl
theorem nop_step (hat : At E.prog s.ip [0x00]) : step E s = .run { s with ip := s.ip + 1 } := by
  rw [step_pre hat, pre_unaligned _ s rfl]; rfl
theorem enterBit_step (hat : At E.prog s.ip [0x25]) : step E s = .run { s with ip := s.ip + 1 } := by
  rw [step_pre hat, pre_unaligned _ s rfl]; rfl
theorem exitBit_step (hat : At E.prog s.ip [0x26]) (hb : s.bit = 0) :
    step E s = .run { s with ip := s.ip + 1 } := by
  rw [step_pre hat, pre_unaligned _ s rfl]
  exact if_neg (by simp only; omega)
theorem version_step {b : Byte} (hat : At E.prog s.ip [0x05, b]) : step E s = .run { s with ip := s.ip + 2 } := by
  rw [step_pre hat, pre_unaligned _ s rfl]
  show fet E _ 1 (fun _ s => .run s) = _
  exact fet_at (bs := [b]) hat.tail rfl (by omega)
theorem name_step {b0 b1 : Byte} (hat : At E.prog s.ip [0x07, b0, b1]) :
    step E s = .run { s with ip := s.ip + 3 } := by
  rw [step_pre hat, pre_unaligned _ s rfl]
  show fet E _ 2 (fun _ s => .run s) = _
  exact fet_at (bs := [b0, b1]) hat.tail rfl (by omega)

theorem enterStruct_step {k0 k1 : Byte} {h : σ} (hat : At E.prog s.ip [0x03, k0, k1])
    (hh : E.host.notify s.host (keyNum k0 k1) 0x03 = (true, h)) :
    step E s = .run { s with ip := s.ip + 3, host := h } := by
  rw [step_pre hat, pre_unaligned _ s rfl]
  show fet E _ 2 (fun key s => callNotify E s key.toNat 0x03 .run) = _
  refine fet_ok (bs := [k0, k1]) hat.tail rfl (by omega) ?_
  refine callNotify_ok (h := h) ?_ rfl
  rw [leWord_key]; exact hh

theorem exitStruct_step {h : σ} (hat : At E.prog s.ip [0x04]) (hh : E.host.notify s.host 0 0x04 = (true, h)) :
    step E s = .run { s with ip := s.ip + 1, host := h } := by
  rw [step_pre hat, pre_unaligned _ s rfl]
  exact callNotify_ok (h := h) hh rfl

theorem const_enc (henc : E.enc = true) {t : Ty} {k0 k1 : Byte} {c : Word}
    (hat : At E.prog s.ip (constCode t k0 k1 c)) (hc : c.toNat < 2 ^ (8 * t.size))
    (hroom : s.fieldPos + t.size ≤ s.buf.length) :
    ∃ b, store s.buf s.fieldPos (wrBytes s.be t.size c) = some b ∧
      step E s = .run { s with ip := s.ip + 4 + t.size, buf := b, cursor := s.fieldPos + t.size, bit := 0 } := by
  have hs := const_step hat hc
  dsimp only at hs
  rw [if_neg (by omega), henc, if_pos rfl] at hs
  have hl : s.fieldPos + (wrBytes s.be t.size c).length ≤ s.buf.length := by simpa using hroom
  have hst : store s.buf s.fieldPos (wrBytes s.be t.size c) =
      some (splice s.buf s.fieldPos (wrBytes s.be t.size c)) := store_eq_some.2 ⟨hl, rfl⟩
  exact ⟨_, hst, hs.trans (wrAt_ok hst rfl)⟩

theorem crc_enc (henc : E.enc = true) {c : CrcPar} (hok : c.ok)
    (hat : At E.prog s.ip (crcCode c)) (hroom : s.fieldPos + c.size ≤ s.buf.length) :
    ∃ b, store s.buf s.fieldPos (wrBytes s.be c.size ((c.calc (s.buf.take s.fieldPos)).setWidth 64)) = some b ∧ step E s = .run
      { s with ip := s.ip + (crcCode c).length, buf := b, cursor := s.fieldPos + c.size, bit := 0 } := by
  have hs := crc_step hok hat (by omega)
  dsimp only at hs
  rw [if_neg (by omega), henc, if_pos rfl] at hs
  have hst : ∀ w, store s.buf s.fieldPos (wrBytes s.be c.size w) =
      some (splice s.buf s.fieldPos (wrBytes s.be c.size w)) :=
    fun w => store_eq_some.2 ⟨by simpa using hroom, rfl⟩
  exact ⟨_, hst _, hs.trans (wrAt_ok (hst _) rfl)⟩

theorem strNull_enc (henc : E.enc = true) {k0 k1 m0 m1 : Byte} {str : List Byte}
    {h : σ} (hat : At E.prog s.ip (strNullCode k0 k1 m0 m1)) (hstr : NulFree str) (hlen : str.length ≤ keyNum m0 m1)
    (hhost : E.host.str s.host (keyNum k0 k1) 0x30 = (true, some (str ++ [0]), h))
    (hroom : s.fieldPos + str.length + 1 ≤ s.buf.length) :
    ∃ b, store s.buf s.fieldPos (str ++ [0]) = some b ∧ step E s = .run
      { s with ip := s.ip + 5, buf := b, cursor := s.fieldPos + str.length + 1, bit := 0, opt := false,
               host := h } := by
  have h1 : At E.prog (s.ip + 1) [k0, k1] := hat.tail.left (a := [k0, k1])
  have h2 : At E.prog (s.ip + 1 + 2) [m0, m1] := hat.tail.right (a := [k0, k1])
  have hl : s.fieldPos + (str ++ [0]).length ≤ s.buf.length := by simp; omega
  have hst : store s.buf s.fieldPos (str ++ [0]) = some (splice s.buf s.fieldPos (str ++ [0])) :=
    store_eq_some.2 ⟨hl, rfl⟩
  refine ⟨_, hst, ?_⟩
  rw [step_pre hat, pre_aligned 0x30 s rfl]
  show handleStrNull E _ _ = _
  unfold handleStrNull
  refine fet_ok h1 rfl (by omega) ?_
  refine fet_ok h2 rfl (by omega) ?_
  rw [leWord_key, leWord_key]
  refine (if_pos henc).trans ?_
  unfold callStr
  simp only
  rw [hhost]
  simp only [if_true]
  rw [cstr_nulFree hstr, List.take_of_length_le hlen]
  refine (if_neg (by omega)).trans ?_
  exact wrRaw_ok hst rfl

theorem splice_append {buf : List Byte} {p : Nat} {a b : List Byte} (h : p + (a ++ b).length ≤ buf.length) :
    splice (splice buf p a) (p + a.length) b = splice buf p (a ++ b) := by
  rw [List.length_append] at h
  have h1 : p + a.length ≤ buf.length := by omega
  have h2 : p + a.length + b.length ≤ (splice buf p a).length := by rw [splice_length h1]; omega
  have h3 : p + (a ++ b).length ≤ buf.length := by rw [List.length_append]; omega
  rw [show splice (splice buf p a) (p + a.length) b =
    (splice buf p a).take (p + a.length) ++ b ++ (splice buf p a).drop (p + a.length + b.length) from rfl,
    drop_splice h1 (by omega), take_splice_end h1]
  unfold splice
  rw [List.length_append]
  simp only [List.append_assoc, Nat.add_assoc]

theorem strPre_enc (henc : E.enc = true) {p : Pre} {k0 k1 : Byte} {str : List Byte}
    {h : σ} (hat : At E.prog s.ip [p.strOp, k0, k1]) (hstr : NulFree str) (hlen : str.length < 2 ^ (8 * p.size))
    (hhost : E.host.str s.host (keyNum k0 k1) p.strOp = (true, some (str ++ [0]), h))
    (hroom : s.fieldPos + p.size + str.length ≤ s.buf.length) :
    ∃ b, store s.buf s.fieldPos (wrBytes s.be p.size (BitVec.ofNat 64 str.length) ++ str) = some b ∧ step E s = .run
      { s with ip := s.ip + 3, buf := b, cursor := s.fieldPos + p.size + str.length, bit := 0, opt := false,
               host := h } := by
  have hal : aligns p.strOp = true := by cases p <;> rfl
  have hst : store s.buf s.fieldPos (wrBytes s.be p.size (BitVec.ofNat 64 str.length)) =
      some (splice s.buf s.fieldPos (wrBytes s.be p.size (BitVec.ofNat 64 str.length))) :=
    store_eq_some.2 ⟨by simp only [wrBytes_length]; omega, rfl⟩
  have hlen1 := store_length hst
  generalize hb1 : splice s.buf s.fieldPos (wrBytes s.be p.size (BitVec.ofNat 64 str.length)) = b1 at hst hlen1
  have hst2 : store b1 (s.fieldPos + p.size) str = some (splice b1 (s.fieldPos + p.size) str) :=
    store_eq_some.2 ⟨by omega, rfl⟩
  have hl : s.fieldPos + (wrBytes s.be p.size (BitVec.ofNat 64 str.length) ++ str).length ≤ s.buf.length := by
    rw [List.length_append, wrBytes_length]; omega
  refine ⟨splice b1 (s.fieldPos + p.size) str, store_eq_some.2 ⟨hl, ?_⟩, ?_⟩
  · have := splice_append hl
    rw [wrBytes_length, hb1] at this
    exact this
  rw [step_pre hat, pre_aligned _ s hal, strPre_exec]
  unfold handleStrPre
  refine fet_ok hat.tail rfl (by omega) ?_
  rw [leWord_key]
  refine (if_pos henc).trans ?_
  unfold callStr
  simp only
  rw [hhost]
  simp only [if_true]
  rw [cstr_nulFree hstr, List.take_of_length_le (by omega)]
  refine (if_neg (by omega)).trans ?_
  refine wrAt_ok hst ?_
  exact wrRaw_ok hst2 rfl

/-- Where a bit field that fits ends. -/
theorem bits_fit (be : Bool) (buf : List Byte) (cur bit : Nat) (v : Word) (n : Nat) (hb : bit < 8) (hn : n ≤ 64)
    (hroom : 8 * cur + bit + n ≤ 8 * buf.length) :
    ∃ b c o, writeBits buf be cur bit v n = some (b, c, o) ∧ b.length = buf.length ∧ o < 8 ∧
      8 * c + o = 8 * cur + bit + n := by
  cases h : writeBits buf be cur bit v n with
  | none => exact absurd h (writeBits_defined be v n buf cur bit hn)
  | some r =>
    obtain ⟨b, c, o⟩ := r
    obtain ⟨h1, h2, h3, _⟩ := writeBits_spec be v n buf cur bit hb h
    refine ⟨b, c, o, rfl, h1, h2, ?_⟩
    rw [h3]
    simp only [room]
    omega

theorem bitU_enc (henc : E.enc = true) {op k0 k1 n : Byte} (hop : op = 0x20 ∨ op = 0x21) {v : Word} {h : σ}
    (hat : At E.prog s.ip [op, k0, k1, n])
    (hb : s.bit < 8) (hn : n.toNat ≤ 64) (hroom : 8 * s.cursor + s.bit + n.toNat ≤ 8 * s.buf.length)
    (hhost : E.host.scalar s.host (keyNum k0 k1) op 0 = (true, v, h)) :
    ∃ b c o, writeBits s.buf s.be s.cursor s.bit v n.toNat = some (b, c, o) ∧
      b.length = s.buf.length ∧ o < 8 ∧ 8 * c + o = 8 * s.cursor + s.bit + n.toNat ∧
      step E s = .run { s with ip := s.ip + 4, buf := b, cursor := c, bit := o, host := h } := by
  have h1 : At E.prog (s.ip + 1) [k0, k1] := hat.tail.left (a := [k0, k1])
  have h2 : At E.prog (s.ip + 1 + 2) [n] := hat.tail.right (a := [k0, k1])
  obtain ⟨b, c, o, e1, e2, e3, e4⟩ := bits_fit s.be s.buf s.cursor s.bit (truncB 8 v) n.toNat hb hn hroom
  refine ⟨b, c, o, by rw [← e1, truncB_of_lt _ _ (by have := v.isLt; omega)], e2, e3, e4, ?_⟩
  have hnn : (leWord [n]).toNat = n.toNat := by rw [toNat_leWord _ (by simp)]; simp [leNat]
  rcases hop with rfl | rfl
  · rw [step_pre hat, pre_unaligned _ s rfl]
    show handleBitU E _ _ = _
    unfold handleBitU
    refine fet_ok h1 rfl (by omega) ?_
    refine fet_ok h2 rfl (by omega) ?_
    rw [leWord_key, hnn]
    refine (if_pos henc).trans ?_
    refine callScalar_ok hhost ?_
    exact putBits_ok e1 rfl
  · rw [step_pre hat, pre_unaligned _ s rfl]
    show handleBitI E _ _ = _
    unfold handleBitI
    refine fet_ok h1 rfl (by omega) ?_
    refine fet_ok h2 rfl (by omega) ?_
    rw [leWord_key, hnn]
    refine (if_pos henc).trans ?_
    refine callScalar_ok hhost ?_
    exact putBits_ok e1 rfl

theorem bitBool_enc (henc : E.enc = true) {k0 k1 : Byte} {v : Word} {h : σ} (hat : At E.prog s.ip [0x22, k0, k1])
    (hb : s.bit < 8) (hv : v.toNat ≤ 1) (hroom : 8 * s.cursor + s.bit + 1 ≤ 8 * s.buf.length)
    (hhost : E.host.scalar s.host (keyNum k0 k1) 0x22 0 = (true, v, h)) :
    ∃ b c o, writeBits s.buf s.be s.cursor s.bit v 1 = some (b, c, o) ∧
      b.length = s.buf.length ∧ o < 8 ∧ 8 * c + o = 8 * s.cursor + s.bit + 1 ∧
      step E s = .run { s with ip := s.ip + 3, buf := b, cursor := c, bit := o, host := h } := by
  have htv : truncB 1 v = v := truncB_of_lt _ _ (by omega)
  obtain ⟨b, c, o, e1, e2, e3, e4⟩ := bits_fit s.be s.buf s.cursor s.bit v 1 hb (by omega) hroom
  refine ⟨b, c, o, e1, e2, e3, e4, ?_⟩
  rw [step_pre hat, pre_unaligned _ s rfl]
  show handleBitBool E _ _ = _
  unfold handleBitBool
  refine fet_ok hat.tail rfl (by omega) ?_
  rw [leWord_key]
  refine (if_pos henc).trans ?_
  refine callScalar_ok hhost ?_
  rw [htv]
  refine (if_neg (by omega)).trans ?_
  exact putBits_ok e1 rfl

theorem pad_enc (henc : E.enc = true) {n : Byte} (hat : At E.prog s.ip [0x23, n])
    (hb : s.bit < 8) (hn : n.toNat ≤ 64) (hroom : 8 * s.cursor + s.bit + n.toNat ≤ 8 * s.buf.length) :
    ∃ b c o, writeBits s.buf s.be s.cursor s.bit 0 n.toNat = some (b, c, o) ∧
      b.length = s.buf.length ∧ o < 8 ∧ 8 * c + o = 8 * s.cursor + s.bit + n.toNat ∧
      step E s = .run { s with ip := s.ip + 2, buf := b, cursor := c, bit := o } := by
  obtain ⟨b, c, o, e1, e2, e3, e4⟩ := bits_fit s.be s.buf s.cursor s.bit 0 n.toNat hb hn hroom
  refine ⟨b, c, o, e1, e2, e3, e4, ?_⟩
  have hnn : (leWord [n]).toNat = n.toNat := by rw [toNat_leWord _ (by simp)]; simp [leNat]
  rw [step_pre hat, pre_unaligned _ s rfl]
  show handlePad E _ = _
  unfold handlePad
  refine fet_ok hat.tail rfl (by omega) ?_
  rw [hnn]
  refine (if_pos henc).trans ?_
  exact putBits_ok e1 rfl

theorem fill_enc (henc : E.enc = true) {n : Byte} (hat : At E.prog s.ip [0x24, n])
    (hb : s.bit < 8) (hroom : 8 * s.fieldPos ≤ 8 * s.buf.length) :
    ∃ b, (b = s.buf ∧ s.bit = 0 ∨ 0 < s.bit ∧ writeBits s.buf s.be s.cursor s.bit (if n = 0 then 0 else 0xFFFFFFFFFFFFFFFF) (8 - s.bit) =
        some (b, s.fieldPos, 0)) ∧ b.length = s.buf.length ∧
      step E s = .run { s with ip := s.ip + 2, buf := b, cursor := s.fieldPos, bit := 0 } := by
  have hfp : s.fieldPos = if s.bit = 0 then s.cursor else s.cursor + 1 := rfl
  by_cases h0 : s.bit = 0
  · rw [if_pos h0] at hfp
    refine ⟨s.buf, .inl ⟨rfl, h0⟩, rfl, ?_⟩
    rw [step_pre hat, pre_unaligned _ s rfl]
    show handleFill E _ = _
    unfold handleFill
    refine fet_ok hat.tail rfl (by omega) ?_
    refine (if_neg (by simp only; omega)).trans ?_
    rw [hfp]
    cases s
    simp only at h0
    subst h0
    rfl
  · rw [if_neg h0] at hfp
    obtain ⟨b, c, o, e1, e2, e3, e4⟩ := bits_fit s.be s.buf s.cursor s.bit
      (if leWord [n] ≠ 0 then 0xFFFFFFFFFFFFFFFF else 0) (8 - s.bit) hb (by omega) (by omega)
    have hc : c = s.fieldPos ∧ o = 0 := by omega
    obtain ⟨rfl, rfl⟩ := hc
    have hz : (leWord [n] ≠ 0) ↔ ¬ n = 0 := by
      rw [not_congr]
      rw [← BitVec.toNat_inj, ← BitVec.toNat_inj, toNat_leWord _ (by simp)]
      simp [leNat]
    refine ⟨b, .inr ⟨by omega, ?_⟩, e2, ?_⟩
    · rw [← e1]
      congr 1
      by_cases hn : n = 0
      · rw [if_pos hn, if_neg (fun h => hz.1 h hn)]
      · rw [if_neg hn, if_pos (hz.2 hn)]
    rw [step_pre hat, pre_unaligned _ s rfl]
    show handleFill E _ = _
    unfold handleFill
    refine fet_ok hat.tail rfl (by omega) ?_
    refine (if_pos (by simp only; omega)).trans ?_
    refine (if_pos henc).trans ?_
    exact putBits_ok e1 rfl

/-! ### Array heads and ends -/

theorem enter_nonzero (hd : ∀ h key be buf p, E.host.bytesAt h key 0x39 be buf p = (false, buf, h))
    {count : Nat} (h0 : count ≠ 0) (hl : s.loops.length < 8) :
    enterArray E s count = .run { s with loops := ⟨s.ip, count⟩ :: s.loops } := by
  rw [enterArray_loop hd, if_neg h0]
  unfold pushLoop maxDepth
  rw [if_neg (by omega)]

theorem enter_zero {k : Nat} (hsk : skipBody E.prog s.ip = k) : enterArray E s 0 = .run { s with ip := k } := by
  unfold enterArray
  rw [if_pos rfl, hsk]

/-- Array heads up to the entry of the body. -/
theorem arrFixed_step {k0 k1 : Byte} {n w : Word} {h : σ}
    (hat : At E.prog s.ip ([0x34, k0, k1] ++ leBytes 4 n)) (hn : n.toNat < 2 ^ 32)
    (hhost : E.host.scalar s.host (keyNum k0 k1) 0x34 n = (true, w, h)) :
    step E s = enterArray E { s with ip := s.ip + 7, cursor := s.fieldPos, bit := 0, host := h }
      (truncB 4 w).toNat := by
  have h1 : At E.prog (s.ip + 1) [k0, k1] := hat.left.tail
  have h2 : At E.prog (s.ip + 1 + 2) (leBytes 4 n) := hat.right
  rw [step_pre hat.left, pre_aligned 0x34 s rfl]
  show handleArrFixed E _ _ = _
  unfold handleArrFixed
  refine fet_ok h1 rfl (by omega) ?_
  refine fet_ok h2 (leBytes_length _ _) (by omega) ?_
  rw [leWord_key, leWord_leBytes_lt (by omega) hn]
  exact callScalar_ok hhost rfl

theorem arrPre_exec (p : Pre) (E : Env σ) (s : St σ) : execOp E p.arrOp s = handleArrPre E p p.arrOp s := by
  cases p <;> rfl

theorem arrPre_enc (henc : E.enc = true) {p : Pre} {k0 k1 : Byte} {w : Word} {h : σ}
    (hat : At E.prog s.ip [p.arrOp, k0, k1]) (hroom : s.fieldPos + p.size ≤ s.buf.length)
    (hhost : E.host.scalar s.host (keyNum k0 k1) p.arrOp 0 = (true, w, h)) :
    ∃ b, b.length = s.buf.length ∧ store s.buf s.fieldPos (wrBytes s.be p.size (truncB p.size w)) = some b ∧
      step E s = enterArray E
        { s with ip := s.ip + 3, buf := b, cursor := s.fieldPos + p.size, bit := 0, host := h }
        (truncB p.size w).toNat := by
  have hal : aligns p.arrOp = true := by cases p <;> rfl
  have hst : store s.buf s.fieldPos (wrBytes s.be p.size (truncB p.size w)) =
      some (splice s.buf s.fieldPos (wrBytes s.be p.size (truncB p.size w))) :=
    store_eq_some.2 ⟨by simpa using hroom, rfl⟩
  refine ⟨_, store_length hst, hst, ?_⟩
  rw [step_pre hat, pre_aligned _ s hal, arrPre_exec]
  unfold handleArrPre
  refine fet_ok hat.tail rfl (by omega) ?_
  rw [leWord_key]
  refine (if_pos henc).trans ?_
  refine callScalar_ok hhost ?_
  refine (if_neg (by simp only; omega)).trans ?_
  exact wrAt_ok hst rfl

theorem arrDyn_step {k0 k1 r0 r1 : Byte} {c w : Word} {h h2 : σ}
    (hat : At E.prog s.ip [0x3B, k0, k1, r0, r1])
    (hq : E.host.scalar s.host (keyNum r0 r1) 0x06 0 = (true, c, h)) (hc : c.toNat ≤ 0xFFFFFFFF)
    (hhost : E.host.scalar h (keyNum k0 k1) 0x3B c = (true, w, h2)) :
    step E s = enterArray E { s with ip := s.ip + 5, cursor := s.fieldPos, bit := 0, host := h2 }
      (truncB 4 w).toNat := by
  have h1 : At E.prog (s.ip + 1) [k0, k1] := hat.tail.left (a := [k0, k1])
  have h2' : At E.prog (s.ip + 1 + 2) [r0, r1] := hat.tail.right (a := [k0, k1])
  have ht : truncB 8 c = c := truncB_of_lt _ _ (by have := c.isLt; omega)
  rw [step_pre hat, pre_aligned 0x3B s rfl]
  show handleArrDynamic E _ _ = _
  unfold handleArrDynamic
  refine fet_ok h1 rfl (by omega) ?_
  refine fet_ok h2' rfl (by omega) ?_
  rw [leWord_key, leWord_key]
  refine callScalar_ok hq ?_
  rw [ht]
  refine (if_neg (by omega)).trans ?_
  exact callScalar_ok hhost rfl

theorem arrEnd_more {f : Frame} {fs : List Frame} (hat : At E.prog s.ip [0x38]) (hl : s.loops = f :: fs)
    (h1 : 1 < f.rem) (h2 : f.rem < 0xFFFFFFFF) :
    step E s = .run { s with ip := f.start, cursor := s.fieldPos, bit := 0, loops := ⟨f.start, f.rem - 1⟩ :: fs } := by
  rw [step_pre hat, pre_aligned 0x38 s rfl]
  show handleArrEnd E _ = _
  unfold handleArrEnd
  have hne : (f.rem == 0xFFFFFFFF) = false := by simp; omega
  simp only [hl, hne, Bool.false_eq_true, if_false]
  refine (if_pos (by simp; omega)).trans ?_
  rfl

theorem arrEnd_last {f : Frame} {fs : List Frame} {h : σ} (hat : At E.prog s.ip [0x38]) (hl : s.loops = f :: fs)
    (h1 : f.rem = 1) (hh : E.host.notify s.host 0 0x38 = (true, h)) :
    step E s = .run { s with ip := s.ip + 1, cursor := s.fieldPos, bit := 0, loops := fs, host := h } := by
  rw [step_pre hat, pre_aligned 0x38 s rfl]
  show handleArrEnd E _ = _
  unfold handleArrEnd
  simp only [hl, h1]
  refine (if_neg (by simp)).trans ?_
  exact callNotify_ok (h := h) hh rfl

/-! ### Skipping an empty array -/

theorem skipScan_nested {bs : List Byte} (h : Nested bs) (rest : List Byte) (d : Nat) :
    skipScan (bs ++ rest) (d + 1) = bs.length + skipScan rest (d + 1) := by
  induction h generalizing rest d with
  | nil => simp
  | byte b bs h1 h2 _ ih =>
    simp only [List.cons_append, skipScan, List.length_cons]
    rw [if_neg (by simp [h1]), if_neg (by simpa using h2), ih]
    omega
  | arr b xs ys h1 _ _ ih1 ih2 =>
    simp only [List.cons_append, skipScan, List.length_cons, List.append_assoc]
    rw [if_pos h1, ih1]
    simp only [skipScan]
    rw [if_neg (by decide), if_pos (by decide), ih2]
    simp only [List.length_append, List.length_cons]
    omega

theorem skipBody_nested {prog : List Byte} {ip : Nat} {bs : List Byte} (h : Nested bs)
    (hat : At prog ip (bs ++ [0x38])) : skipBody prog ip = ip + bs.length + 1 := by
  obtain ⟨rest, hr⟩ := hat
  unfold skipBody
  rw [hr, List.append_assoc, skipScan_nested h]
  simp only [List.cons_append, List.nil_append, skipScan]
  rw [if_neg (by decide), if_pos (by decide)]
  have : skipScan rest 0 = 0 := by cases rest <;> rfl
  omega

end

end Cnd
