import Verif.Sim
import Verif.SweepKeep
import Verif.SweepBe
/-
  Lock-step simulation of a whole encoding run (used for C52).
-/

set_option linter.unusedVariables false

namespace Cnd
variable {σ τ : Type}

/-- What an encoding run must satisfy at an instruction (opcode byte `op`, state `s` after alignment) for
the decoder to be able to follow: every value supplied by the host survives the field it is written to, no
field is left out, and the instruction is not one of those that read past or rewrite the packet.
Instructions not listed need nothing. -/
def Side (E : Env σ) (K : Nat → Prop) (op : Byte) (s : St σ) : Prop :=
  let key := (fetch E.prog s.ip 2).1.toNat
  match decodeOp op with
  | .io t => FaithPrim E t op s
  | .ioF32 => FaithFloat E false op s
  | .ioF64 => FaithFloat E true op s
  | .ioBool => s.cursor + 1 ≤ s.buf.length ∧
      ∀ w h', E.host.scalar s.host key op 0 = (true, w, h') → truncB 1 w = w
  | .bitU => BitFit s (bitWidth E s) ∧
      ∀ w h', E.host.scalar s.host key op 0 = (true, w, h') → w.toNat < 2 ^ bitWidth E s
  | .bitI => 0 < bitWidth E s ∧ BitFit s (bitWidth E s) ∧
      ∀ w h', E.host.scalar s.host key op 0 = (true, w, h') →
        -(2 ^ (bitWidth E s - 1) : Int) ≤ w.toInt ∧ w.toInt < 2 ^ (bitWidth E s - 1)
  | .bitBool => BitFit s 1 ∧
      ∀ w h', E.host.scalar s.host key op 0 = (true, w, h') → truncB 1 w = w
  | .alignPad => 8 * s.cursor + s.bit + (fetch E.prog s.ip 1).1.toNat ≤ 8 * s.buf.length
  | .alignFill => 0 < s.bit → s.cursor < s.buf.length
  | .strNull => ∀ b so h', E.host.str s.host key op = (b, so, h') →
      b = true ∧ (cstr so).length ≤ (fetch E.prog (fetch E.prog s.ip 2).2 2).1.toNat
  | .strPre p => ∀ b so h', E.host.str s.host key op = (b, so, h') →
      b = true ∧ (cstr so).length ≤ 2 ^ (8 * p.size) - 1
  | .arrPre p => ∀ w h', E.host.scalar s.host key op 0 = (true, w, h') → truncB p.size w = w
  | .arrEnd => ∀ f fs, s.loops = f :: fs → f.rem ≠ 0xFFFFFFFF
  | .rawBytes | .arrEof => False
  | .constCheck => K key
  | .emit => s.bit = 0 ∧ ∀ v rest n, s.stack = v :: rest → emitSize (fetch E.prog s.ip 1).1 = some n →
      EmitBack E (fetch E.prog s.ip 1).1 v n
  | .setLE => s.bit = 0 ∨ s.be = false
  | .setBE => s.bit = 0 ∨ s.be = true
  | _ => True

section
variable {E : Env σ} {G : Host τ} {K : Nat → Prop} {R : σ → τ → Prop}

/-- Opcode bytes recovered from the decoded instruction. -/
theorem decodeOp_byte (op : Byte) :
    (decodeOp op = .strNull → op = 0x30) ∧
    (∀ p, decodeOp op = .strPre p → op = 0x31 ∧ p = .p1 ∨ op = 0x32 ∧ p = .p2 ∨ op = 0x33 ∧ p = .p4) ∧
    (decodeOp op = .arrFixed → op = 0x34) ∧ (decodeOp op = .arrDynamic → op = 0x3B) ∧
    (decodeOp op = .loadCtx → op = 0x60) ∧ (decodeOp op = .storeCtx → op = 0x78) ∧
    (isQuery op = true → decodeOp op = .arrFixed ∨ decodeOp op = .arrDynamic ∨ decodeOp op = .other ∨
      decodeOp op = .loadCtx ∨ decodeOp op = .storeCtx) := by
  have key : ∀ n : Fin 256, 
    (decodeOp (BitVec.ofFin n) = .strNull → BitVec.ofFin n = (0x30 : Byte)) ∧
    (∀ p ∈ [Pre.p1, Pre.p2, Pre.p4], decodeOp (BitVec.ofFin n) = .strPre p →
      BitVec.ofFin n = (0x31 : Byte) ∧ p = .p1 ∨ BitVec.ofFin n = (0x32 : Byte) ∧ p = .p2 ∨
        BitVec.ofFin n = (0x33 : Byte) ∧ p = .p4) ∧
    (decodeOp (BitVec.ofFin n) = .arrFixed → BitVec.ofFin n = (0x34 : Byte)) ∧
    (decodeOp (BitVec.ofFin n) = .arrDynamic → BitVec.ofFin n = (0x3B : Byte)) ∧
    (decodeOp (BitVec.ofFin n) = .loadCtx → BitVec.ofFin n = (0x60 : Byte)) ∧
    (decodeOp (BitVec.ofFin n) = .storeCtx → BitVec.ofFin n = (0x78 : Byte)) ∧
    (isQuery (BitVec.ofFin n) = true → decodeOp (BitVec.ofFin n) = .arrFixed ∨
      decodeOp (BitVec.ofFin n) = .arrDynamic ∨ decodeOp (BitVec.ofFin n) = .other ∨
      decodeOp (BitVec.ofFin n) = .loadCtx ∨ decodeOp (BitVec.ofFin n) = .storeCtx) := by
    decide +kernel
  obtain ⟨h1, h2, h3⟩ := key op.toFin
  exact ⟨h1, fun p => h2 p (by cases p <;> simp), h3⟩

theorem SimOK.same {f : Env τ → St τ → Res τ} {s s1 : St σ} (hh : s1.host = s.host)
    (h : ∀ D g, f (E.dec G) (s.swap D g) = .run (s1.swap D g)) : SimOK E G R f s s1 :=
  ⟨fun D g hR _ _ => ⟨g, h D g, by rw [hh]; exact hR⟩⟩

theorem notify_sim (HS : HostSim E.host G K R) {s s1 : St σ} {key : Nat} {op : Byte}
    (hs : callNotify E s key op .run = .run s1) (D : List Byte) (g : τ) (hR : R s.host g) :
    ∃ g1, callNotify (E.dec G) (s.swap D g) key op .run = .run (s1.swap D g1) ∧ R s1.host g1 := by
  obtain ⟨h, e, hs⟩ := callNotify_run hs
  injection hs with hs
  subst hs
  obtain ⟨g', e', hR'⟩ := HS.notify _ _ _ _ _ hR e
  exact ⟨g', callNotify_ok e' rfl, hR'⟩

/-- Every instruction: the decoder follows the encoder. -/
theorem execOp_sim (HS : HostSim E.host G K R) (henc : E.enc = true) (op : Byte) (s : St σ) (hb : s.bit < 8)
    (hF : Side E K op s) {s1 : St σ} (hs : execOp E op s = .run s1) :
    SimOK E G R (fun E s => execOp E op s) s s1 := by
  obtain ⟨b1, b2, b3, b4, b5, b6, b7⟩ := decodeOp_byte op
  have hnq : decodeOp op ≠ .arrFixed → decodeOp op ≠ .arrDynamic → decodeOp op ≠ .other →
      decodeOp op ≠ .loadCtx → decodeOp op ≠ .storeCtx → isQuery op = false := by
    intro h1 h2 h3 h4 h5
    cases hq : isQuery op with
    | false => rfl
    | true => rcases b7 hq with h | h | h | h | h <;> contradiction
  unfold Side at hF
  unfold execOp at hs ⊢
  cases h : decodeOp op <;> simp only [h] at hF hs hnq b1 b2 b3 b4 b5 b6 ⊢ <;>
    simp only [reduceCtorEq, ne_eq, not_false_eq_true, forall_const, not_true_eq_false, false_imp_iff,
      true_implies, Op.strPre.injEq] at hnq b1 b2 b3 b4 b5 b6
  case io t => exact handlePrim_sim HS henc t op hnq s hF hs
  case ioF32 => exact handleFloat_sim HS henc _ op hnq s hF hs
  case ioF64 => exact handleFloat_sim HS henc _ op hnq s hF hs
  case ioBool => exact handleBool_sim HS henc op hnq s hF.1 hF.2 hs
  case bitU => exact handleBitU_sim HS henc op hnq s hb hF.1 hF.2 hs
  case bitI => exact handleBitI_sim HS henc op hnq s hb hF.1 hF.2.1 hF.2.2 hs
  case bitBool => exact handleBitBool_sim HS henc op hnq s hb hF.1 hF.2 hs
  case alignPad => exact handlePad_sim henc s hb hF hs
  case alignFill => exact handleFill_sim henc s hb hF hs
  case strNull => subst b1; exact handleStrNull_sim HS henc s hF hs
  case strPre p => exact handleStrPre_sim HS henc p op (b2 p rfl) s hF hs
  case arrFixed => subst b3; exact handleArrFixed_sim HS s hs
  case arrPre p => exact handleArrPre_sim HS henc p op hnq s hF hs
  case arrEnd => exact handleArrEnd_sim HS s hF hs
  case arrDynamic => subst b4; exact handleArrDynamic_sim HS s hs
  case constCheck => exact handleConstCheck_sim HS henc s hF hs
  case constWrite => exact handleConstWrite_sim s hs
  case rangeCheck => exact handleRange_sim s hs
  case crc16 => exact handleCrc_sim henc _ s hs
  case crc32 => exact handleCrc_sim henc _ s hs
  case enumCheck => exact handleEnum_sim s hs
  case jumpIfNot => exact handleJumpIfNot_sim s hs
  case switch => exact handleSwitch_sim HS s hs
  case jump => exact handleJump_sim s hs
  case switchTable => exact handleSwitchTable_sim HS s hs
  case loadCtx => subst b5; exact handleLoadCtx_sim HS s hs
  case storeCtx => subst b6; exact handleStoreCtx_sim HS s hs
  case emit => exact handleEmit_sim henc s hF.2 hs
  case enterStruct => exact ⟨fun D g hR _ _ => notify_sim HS hs D g hR⟩
  case exitStruct => exact ⟨fun D g hR _ _ => notify_sim HS hs D g hR⟩
  case exitBit =>
    split at hs
    · cases hs
    · rename_i hc
      injection hs with hs
      subst hs
      exact .same rfl fun D g => if_neg hc
  case transPoly =>
    unfold fet at hs
    dsimp only at hs
    split at hs
    · cases hs
    · rename_i hc
      injection hs with hs
      subst hs
      exact .same rfl fun D g => if_neg hc
  case transSpline =>
    unfold fet at hs
    dsimp only at hs
    split at hs
    · cases hs
    · rename_i hc
      injection hs with hs
      subst hs
      exact .same rfl fun D g => if_neg hc
  case pushImm =>
    exact ⟨fun D g hR _ _ => ⟨g, (push_sim hs D g).1, by rw [(push_sim hs D g).2]; exact hR⟩⟩
  case pop =>
    split at hs
    · cases hs
    · rename_i v rest hst
      injection hs with hs
      subst hs
      refine .same rfl fun D g => ?_
      have hsw : (s.swap D g).stack = v :: rest := hst
      simp only [hsw]
      rfl
  case dup =>
    split at hs
    · cases hs
    · rename_i v rest hst
      obtain ⟨h1, rfl⟩ := push_run hs
      refine .same rfl fun D g => ?_
      have hsw : (s.swap D g).stack = v :: rest := hst
      simp only [hsw]
      exact push_ok (s := s.swap D g) h1
  case ibin => exact ⟨fun D g hR _ _ => ⟨g, (binary_sim hs D g).1, by rw [(binary_sim hs D g).2]; exact hR⟩⟩
  case fbin => exact ⟨fun D g hR _ _ => ⟨g, (binary_sim hs D g).1, by rw [(binary_sim hs D g).2]; exact hR⟩⟩
  case un => exact ⟨fun D g hR _ _ => ⟨g, (unary_sim hs D g).1, by rw [(unary_sim hs D g).2]; exact hR⟩⟩
  all_goals
    injection hs with hs
    subst hs
    exact .same rfl fun D g => rfl

theorem pre_swap (op : Byte) (s : St σ) (D : List Byte) (g : τ) : pre op (s.swap D g) = (pre op s).swap D g := by
  unfold pre alignSt
  by_cases h : (aligns op && s.bit != 0) = true
  · exact (if_pos h).trans (by rw [if_pos h]; rfl)
  · exact (if_neg h).trans (by rw [if_neg h]; rfl)

theorem step_sim (HS : HostSim E.host G K R) (henc : E.enc = true) {s s1 : St σ} (hi : Inv s)
    {op : Byte} (hop : E.prog[s.ip]? = some op) (hF : Side E K op (pre op s)) (hs : step E s = .run s1) :
    SimOK E G R (fun E s => step E s) s s1 := by
  rw [step_eq hop] at hs
  have h := execOp_sim HS henc op (pre op s) (hi.pre op).bit hF hs
  constructor
  intro D g hR hA hD
  have hf := pre_fields op s
  obtain ⟨g1, h1, h2⟩ := h.ok D g (by rw [hf.2.2.2.2.2.1]; exact hR) hA hD
  refine ⟨g1, ?_, h2⟩
  rw [step_eq (E := E.dec G) (s := s.swap D g) hop, ← h1]
  show execOp _ op (pre op (s.swap D g)) = _
  rw [pre_swap]

/-- Agreement with the packet after an instruction implies agreement before it. -/
theorem agree_back (hq : Quiet E.host) {s s1 : St σ} (hi : Inv s) {op : Byte} (hop : E.prog[s.ip]? = some op)
    (hnb : decodeOp op ≠ .rawBytes) (hem : decodeOp op = .emit → (pre op s).bit = 0)
    (hle : decodeOp op = .setLE → (pre op s).bit = 0 ∨ s.be = false)
    (hbe : decodeOp op = .setBE → (pre op s).bit = 0 ∨ s.be = true)
    (hs : step E s = .run s1) {D : List Byte} (hA : Agree s1 D) : Agree s D := by
  have hp := hi.pre op
  obtain ⟨p1, p2, p3, p4, p5, p6⟩ := pre_pos op s hi.bit
  obtain ⟨f1, f2, f3, _⟩ := pre_fields op s
  have hm := step_mono hi hop
  rw [hs] at hm
  rw [step_eq hop] at hs
  have hk := execOp_kept E op (pre op s) p5 p3 hq hem
  have hs' : execOp E op (pre op s) = .run s1 := hs
  rw [hs'] at hk
  have hpos : 8 * (pre op s).cursor + (pre op s).bit ≤ 8 * s1.cursor + s1.bit := hm.pos
  intro k hk'
  have e1 := hk.bits k (by omega)
  rw [f3, f1] at e1
  rw [← e1]
  by_cases hb : s1.be = s.be
  · rw [← hb]; exact hA k (by omega)
  · have h0 : (pre op s).bit = 0 := by
      by_cases h1 : decodeOp op = .setLE
      · rcases hle h1 with h | h
        · exact h
        · unfold execOp at hs'
          rw [h1] at hs'
          injection hs' with hs'
          subst hs'
          exact absurd h.symm hb
      · by_cases h2 : decodeOp op = .setBE
        · rcases hbe h2 with h | h
          · exact h
          · unfold execOp at hs'
            rw [h2] at hs'
            injection hs' with hs'
            subst hs'
            exact absurd h.symm hb
        · have := execOp_be E op (pre op s) h1 h2
          rw [hs'] at this
          exact absurd (this.be.trans f3) hb
    apply bitAt_of_byte
    have hb1 := hm.bit
    exact agree_byte hA (by omega)

/-- The decoder follows a whole encoding run that ends well. -/
theorem exec_sim (HS : HostSim E.host G K R) (hq : Quiet E.host) (henc : E.enc = true) {n : Nat} {s sf : St σ}
    (hi : Inv s)
    (hside : ∀ s', Reach E s s' → ∀ op, E.prog[s'.ip]? = some op → Side E K op (pre op s'))
    (hs : exec E n s = .stop .ok sf) {D : List Byte} (hA : Agree sf D)
    (hD : 8 * sf.cursor + sf.bit ≤ 8 * D.length) :
    Agree s D ∧ 8 * s.cursor + s.bit ≤ 8 * sf.cursor + sf.bit ∧
    ∀ g, R s.host g → ∃ gf, exec (E.dec G) n (s.swap D g) = .stop .ok (sf.swap D gf) ∧ R sf.host gf := by
  induction n generalizing s with
  | zero => simp [exec_zero] at hs
  | succ n ih =>
    cases hop : E.prog[s.ip]? with
    | none =>
      have he := step_end (E := E) hop
      rw [exec_stop_succ he] at hs
      injection hs with h1 h2
      subst h2
      refine ⟨hA, Nat.le_refl _, fun g hR => ⟨g, ?_, hR⟩⟩
      exact exec_stop_succ (step_end (E := E.dec G) (s := s.swap D g) hop) n
    | some op =>
      have hF := hside s (Reach.refl _ _) op hop
      cases hst : step E s with
      | ub u => rw [exec_succ, hst] at hs; cases hs
      | stop e s1 =>
        rw [exec_stop_succ hst] at hs
        injection hs with h1 h2
        subst h1
        rw [step_eq hop] at hst
        have := execOp_err E op (pre op s) (hi.pre op).stk (hi.pre op).lps
        have hst' : execOp E op (pre op s) = .stop .ok s1 := hst
        rw [hst'] at this
        exact this.1.elim
      | run s1 =>
        rw [exec_run_succ hst] at hs
        obtain ⟨i1, i2, i3⟩ := ih (step_inv hi hst) (fun s' hr => hside s' ((Reach.one hst).trans hr)) hs
        have hback : Agree s D := by
          apply agree_back hq hi hop _ _ _ _ hst i1
          all_goals
            intro h
            unfold Side at hF
            simp only [h] at hF
          · exact hF.1
          · rw [(pre_fields op s).2.2.1] at hF; exact hF
          · rw [(pre_fields op s).2.2.1] at hF; exact hF
        have hm := step_mono hi hop
        rw [hst] at hm
        have hpos : 8 * (pre op s).cursor + (pre op s).bit ≤ 8 * s1.cursor + s1.bit := hm.pos
        have hp := (pre_pos op s hi.bit).1
        refine ⟨hback, by omega, fun g hR => ?_⟩
        obtain ⟨g1, j1, j2⟩ := (step_sim HS henc hi hop hF hst).ok D g hR i1 (by omega)
        obtain ⟨gf, k1, k2⟩ := i3 g1 j2
        exact ⟨gf, by rw [exec_run_succ j1, k1], k2⟩
end

end Cnd
