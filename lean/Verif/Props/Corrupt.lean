/-
  C91: packets of fixed layout that a checksum protects are not accepted once they are damaged.
-/
import Verif.FixedRun
import Verif.Props.Accept

set_option linter.unusedVariables false

namespace Cnd

section
variable {σ τ : Type}

/-- The decoder accepts the packet: the run of the program over it, from the state cnd_init leaves, ends with success. -/
def Admits (E : Env σ) (D : List Byte) : Prop := ∃ old h n sf, exec E n (initSt old D h) = .stop .ok sf

/-- Where the checksum behind a description of fixed layout is stored, in bytes. -/
def sumAt (q : Nat × Bool) : Nat := up8 q.1 / 8

/-- C91, what acceptance means: if the program begins with a description of fixed layout followed by a checksum, then every packet it
accepts, with whatever host, is long enough for the checksum and holds, at the fixed place, the checksum of the bytes before. -/
theorem C91_checked (E : Env σ) (hdec : E.enc = false) (hH : Steady E.host) (hE : E.prog.length < 2 ^ 31) (f : Sch) (c : CrcPar) (hok : c.ok)
    (rest : List Byte) (hprog : E.prog = f.code ++ crcCode c ++ rest) (q : Nat × Bool) (hq : f.extent (0, false) = some q) (D : List Byte)
    (ha : Admits E D) :
    sumAt q + c.size ≤ D.length ∧ FieldAt q.2 D (sumAt q) c.size (c.calc (D.take (sumAt q))).toNat := by
  obtain ⟨old, h, n, sf, hx⟩ := ha
  have hat : At E.prog 0 (f.code ++ crcCode c) := ⟨rest, by rw [hprog, List.drop_zero]⟩
  obtain ⟨m, e1, _, e3, e4⟩ := sch_leads (sf := sf) (D := D) hH hdec hE f _ _ hq (initSt old D h) hat.left
    ⟨by show 0 < 8; omega, .inl rfl, rfl, rfl, rfl, rfl⟩ ⟨n, hx⟩
  have hat2 : At E.prog m.ip (crcCode c) := by
    have := hat.right
    rw [e1]
    exact this
  obtain ⟨_, g1, g2⟩ := crc_leads hdec hok hat2 e3 e4
  refine ⟨?_, g2⟩
  unfold sumAt
  have : up8 q.1 % 8 = 0 := by unfold up8; omega
  omega

/-- C91, the protected bytes: of two packets that differ within a window of at most two (CRC-16) or four (CRC-32) bytes in front of the
checksum at most one is accepted, even by different hosts. -/
theorem C91_burst (E : Env σ) (E' : Env τ) (hdec : E.enc = false) (hdec' : E'.enc = false) (hH : Steady E.host) (hH' : Steady E'.host)
    (hsame : E'.prog = E.prog) (hE : E.prog.length < 2 ^ 31) (f : Sch) (c : CrcPar) (hok : c.ok) (hodd : c.poly.getLsbD 0 = true)
    (rest : List Byte) (hprog : E.prog = f.code ++ crcCode c ++ rest) (q : Nat × Bool) (hq : f.extent (0, false) = some q)
    (before a b after tail : List Byte) (hl : a.length = b.length) (hw : a.length ≤ c.size) (hne : a ≠ b)
    (hin : (before ++ a ++ after).length = sumAt q) (ha : Admits E (before ++ a ++ after ++ tail)) :
    ¬ Admits E' (before ++ b ++ after ++ tail) := by
  intro hb
  obtain ⟨k1, k2⟩ := C91_checked E hdec hH hE f c hok rest hprog q hq _ ha
  obtain ⟨m1, m2⟩ := C91_checked E' hdec' hH' (by rw [hsame]; exact hE) f c hok rest (by rw [hsame]; exact hprog) q hq _ hb
  have hin' : (before ++ b ++ after).length = sumAt q := by rw [← hin]; simp [hl]
  have t1 : (before ++ a ++ after ++ tail).take (sumAt q) = before ++ a ++ after := by rw [← hin, List.take_left]
  have t2 : (before ++ b ++ after ++ tail).take (sumAt q) = before ++ b ++ after := by rw [← hin', List.take_left]
  rw [t1] at k2
  rw [t2] at m2
  have hfld : FieldAt q.2 (before ++ a ++ after ++ tail) (sumAt q) c.size (c.calc (before ++ b ++ after)).toNat := by
    intro i hi
    have := m2 i hi
    rw [List.getElem?_append_right (by rw [hin']; omega), hin'] at this
    rw [List.getElem?_append_right (by rw [hin]; omega), hin]
    exact this
  have h0 : 0 < c.size := by unfold CrcPar.size; split <;> omega
  have h8 : c.size ≤ 8 := by unfold CrcPar.size; split <;> omega
  have hz : ∀ x : BitVec 32, (x.setWidth 64 : Word).toNat = x.toNat := fun x => BitVec.toNat_setWidth_of_le (by omega)
  have he := fieldAt_unique (v := (c.calc (before ++ a ++ after)).setWidth 64) (w := (c.calc (before ++ b ++ after)).setWidth 64) h0 h8
    (by rw [hz]; exact calc_lt c _) (by rw [hz]; exact calc_lt c _) (by rw [hz]; exact k2) (by rw [hz]; exact hfld)
  apply C55_burst c hodd before a b after hl hw hne
  apply BitVec.eq_of_toNat_eq
  rw [← hz, ← hz (c.calc (before ++ b ++ after)), he]

/-- C91, the checksum: of two packets that agree in front of the checksum and differ in its bytes at most one is accepted. -/
theorem C91_field (E : Env σ) (E' : Env τ) (hdec : E.enc = false) (hdec' : E'.enc = false) (hH : Steady E.host) (hH' : Steady E'.host)
    (hsame : E'.prog = E.prog) (hE : E.prog.length < 2 ^ 31) (f : Sch) (c : CrcPar) (hok : c.ok)
    (rest : List Byte) (hprog : E.prog = f.code ++ crcCode c ++ rest) (q : Nat × Bool) (hq : f.extent (0, false) = some q)
    (D D' : List Byte) (hpre : D'.take (sumAt q) = D.take (sumAt q)) (j : Nat) (hj : sumAt q ≤ j) (hj' : j < sumAt q + c.size)
    (hne : D'[j]? ≠ D[j]?) (ha : Admits E D) : ¬ Admits E' D' := by
  intro hb
  obtain ⟨k1, k2⟩ := C91_checked E hdec hH hE f c hok rest hprog q hq _ ha
  obtain ⟨m1, m2⟩ := C91_checked E' hdec' hH' (by rw [hsame]; exact hE) f c hok rest (by rw [hsame]; exact hprog) q hq _ hb
  rw [hpre] at m2
  apply hne
  cases hbe : q.2 with
  | false =>
    have a1 := m2 (j - sumAt q) (by omega)
    have a2 := k2 (j - sumAt q) (by omega)
    rw [hbe, if_neg (by simp), show sumAt q + (j - sumAt q) = j by omega] at a1 a2
    rw [a1, a2]
  | true =>
    have a1 := m2 (c.size - 1 - (j - sumAt q)) (by omega)
    have a2 := k2 (c.size - 1 - (j - sumAt q)) (by omega)
    rw [hbe, if_pos rfl, show sumAt q + (c.size - 1 - (c.size - 1 - (j - sumAt q))) = j by omega] at a1 a2
    rw [a1, a2]

/-- C91: one wrong byte, protected or of the checksum itself, and the packet is not accepted any more, whatever the fields are, whatever
the byte does to them on the way, and whatever the host answers. -/
theorem C91_one_byte (E : Env σ) (E' : Env τ) (hdec : E.enc = false) (hdec' : E'.enc = false) (hH : Steady E.host) (hH' : Steady E'.host)
    (hsame : E'.prog = E.prog) (hE : E.prog.length < 2 ^ 31) (f : Sch) (c : CrcPar) (hok : c.ok) (hodd : c.poly.getLsbD 0 = true)
    (rest : List Byte) (hprog : E.prog = f.code ++ crcCode c ++ rest) (q : Nat × Bool) (hq : f.extent (0, false) = some q)
    (D : List Byte) (ha : Admits E D) (i : Nat) (hi : i < sumAt q + c.size) (x : Byte) (hx : D[i]? ≠ some x) :
    ¬ Admits E' (D.set i x) := by
  have hk := (C91_checked E hdec hH hE f c hok rest hprog q hq _ ha).1
  have hiD : i < D.length := by omega
  by_cases hlt : i < sumAt q
  · have e1 : D = D.take i ++ [D[i]] ++ (D.drop (i + 1)).take (sumAt q - (i + 1)) ++ (D.drop (i + 1)).drop (sumAt q - (i + 1)) := by
      rw [List.append_assoc _ (List.take _ _), List.take_append_drop]
      simp
    have e2 : D.set i x = D.take i ++ [x] ++ (D.drop (i + 1)).take (sumAt q - (i + 1)) ++ (D.drop (i + 1)).drop (sumAt q - (i + 1)) := by
      rw [List.append_assoc _ (List.take _ _), List.take_append_drop, List.set_eq_take_append_cons_drop, if_pos hiD]; simp
    rw [e2]
    refine C91_burst E E' hdec hdec' hH hH' hsame hE f c hok hodd rest hprog q hq _ [D[i]] [x] _ _ rfl
      (by unfold CrcPar.size; split <;> simp) ?_ ?_ (by rw [← e1]; exact ha)
    · intro he
      injection he with he
      exact hx (by rw [List.getElem?_eq_getElem hiD, he])
    · simp; omega
  · refine C91_field E E' hdec hdec' hH hH' hsame hE f c hok rest hprog q hq D _ ?_ i (by omega) hi ?_ ha
    · rw [List.take_set, List.set_eq_of_length_le (by simp; omega)]
    · rw [List.getElem?_set_self hiD]; exact fun h => hx h.symm

end

/-! ### Examples -/

/-- Two bit fields and filling, a struct with a constant and a checked number, an array of big-endian pairs, a condition both of whose
sides are as long, a checksum. -/
def Demo.fixedSch : Sch :=
  .seq (.fld (.seq (.name 0 0) <| .seq (.bitU 1 0 3) <| .seq (.bitBool 2 0) <| .seq (.fill 0) <|
    .seq (.struct 3 0 (.seq (.const .u16 4 0 0xCAFE) (.range .u8 5 0 1 9))) <|
    .seq .setBE (.arrFixed 6 0 2 (.seq (.scalar 0x11 7 0) (.scalar 0x10 8 0)))))
  (.ite (.fld 2 0) (.fld (.scalar 0x13 9 0)) (.fld (.seq (.scalar 0x12 10 0) (.scalar 0x12 11 0))))

def Demo.fixedCrc : CrcPar := ⟨false, 0x1021, 0xFFFF, 0, 0⟩

def Demo.fixedEnv : Env (List Ev) :=
  { prog := Demo.fixedSch.code ++ crcCode Demo.fixedCrc, enc := false, host := Cnd.taker (.plain fun k => k == 4), fl := demoP.fl }

theorem Demo.fixed_extent : Demo.fixedSch.extent (0, false) = some (8 * 18, true) := by decide +kernel

/-- A packet of it: eighteen bytes and the checksum. -/
def Demo.fixedPacket : List Byte := [0x0D, 0xFE, 0xCA, 5, 0, 1, 2, 3, 4, 5, 1, 2, 3, 4, 5, 6, 7, 8, 0x8C, 0xDC]

/-- It ends with success. -/
def endsOk {σ : Type} : Res σ → Bool
  | .stop .ok _ => true
  | _ => false

theorem endsOk_iff {σ : Type} {r : Res σ} (h : endsOk r = true) : ∃ s, r = .stop .ok s := by
  unfold endsOk at h
  split at h
  · exact ⟨_, rfl⟩
  · cases h

theorem Demo.fixed_accepted : Admits Demo.fixedEnv Demo.fixedPacket := by
  obtain ⟨s, h⟩ := endsOk_iff (r := exec Demo.fixedEnv 40 (initSt (zeroSt []) Demo.fixedPacket [])) (by decide +kernel)
  exact ⟨_, _, _, s, h⟩

/-- The packet is accepted, and with any one of its twenty bytes changed to any other value it is refused, by any steady host. -/
example (H : Host (List Ev)) (hH : Steady H) (i : Nat) (hi : i < 20) (x : Byte) (hx : Demo.fixedPacket[i]? ≠ some x) :
    ¬ Admits { Demo.fixedEnv with host := H } (Demo.fixedPacket.set i x) :=
  C91_one_byte Demo.fixedEnv { Demo.fixedEnv with host := H } rfl rfl (taker_steady _) hH rfl (by decide) Demo.fixedSch Demo.fixedCrc
    (by simp [CrcPar.ok, CrcPar.size, Demo.fixedCrc]) (by decide) [] (by rw [List.append_nil]; rfl) _ Demo.fixed_extent _ Demo.fixed_accepted i
    (by simpa [sumAt, up8, CrcPar.size, Demo.fixedCrc] using hi) x hx

/-- With an array that carries its own length the property fails: one wrong byte in the length, and the decoder looks for the checksum
elsewhere. The description is `@prefix(u8) u8 data[]; @crc(...)`; the packet [2, F0, E1] with its checksum is accepted, and so it is
with the length changed to 0, since F0 E1 is the checksum of the length alone and what follows is not looked at. -/
theorem C91_variable_false :
    ∃ (c : CrcPar) (E : Env (List Ev)), c.ok ∧ c.poly.getLsbD 0 = true ∧ E.enc = false ∧ Steady E.host ∧
      E.prog = (Sch.fld (.arrPre .p1 1 0 (.scalar 0x10 2 0))).code ++ crcCode c ∧
      Admits E [2, 0xF0, 0xE1, 0x32, 0x5C] ∧ Admits E ([2, 0xF0, 0xE1, 0x32, 0x5C].set 0 0) := by
  refine ⟨Demo.fixedCrc, { prog := (Sch.fld (.arrPre .p1 1 0 (.scalar 0x10 2 0))).code ++ crcCode Demo.fixedCrc, enc := false, host := taker (.plain fun _ => false), fl := demoP.fl },
    by simp [CrcPar.ok, CrcPar.size, Demo.fixedCrc], by decide, rfl, taker_steady _, rfl, ?_, ?_⟩
  · obtain ⟨s, h⟩ := endsOk_iff (r := exec { prog := (Sch.fld (.arrPre .p1 1 0 (.scalar 0x10 2 0))).code ++ crcCode Demo.fixedCrc, enc := false, host := taker (.plain fun _ => false), fl := demoP.fl } 40
      (initSt (zeroSt []) [2, 0xF0, 0xE1, 0x32, 0x5C] [])) (by decide +kernel)
    exact ⟨_, _, _, s, h⟩
  · obtain ⟨s, h⟩ := endsOk_iff (r := exec { prog := (Sch.fld (.arrPre .p1 1 0 (.scalar 0x10 2 0))).code ++ crcCode Demo.fixedCrc, enc := false, host := taker (.plain fun _ => false), fl := demoP.fl } 40
      (initSt (zeroSt []) ([2, 0xF0, 0xE1, 0x32, 0x5C].set 0 0) [])) (by decide +kernel)
    exact ⟨_, _, _, s, h⟩

end Cnd
