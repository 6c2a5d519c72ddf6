/-
  C97: the demonstration programs.
-/
import Verif.Props.EndToEnd
import Verif.Props.CodeTop
import Verif.Demos

namespace Cnd

/-! ### The schema -/

/-- /repo/demos/telemetry.cnd, the whole file. -/
def telSrc : List Byte := word "packet Telemetry {
    /// Unique ID of the device
    uint32 device_id;

    /// Temperature in Celsius
    float temperature;

    /// Battery level (0-100)
    uint8 battery_level;

    /// Status flags
    /// [0] = Connected
    /// [1] = Error
    uint8 status;
}
"

def telProg : List Item :=
  [.decl [] (.packet (word "Telemetry") (.doc (word " Unique ID of the device") (.stmt (fieldOf [] "uint32" "device_id")
    (.doc (word " Temperature in Celsius") (.stmt (fieldOf [] "float" "temperature")
    (.doc (word " Battery level (0-100)") (.stmt (fieldOf [] "uint8" "battery_level")
    (.doc (word " Status flags") (.doc (word " [0] = Connected") (.doc (word " [1] = Error")
      (.stmt (fieldOf [] "uint8" "status") .done))))))))))) ]

theorem tel_lex : (lexAll (telSrc.length + 1) (telSrc ++ [0]) 1).map (fun l => l.map Tok.bare) =
    some (telProg.flatMap Item.toks ++ [eofTok]) := by
  decide +kernel

def telTab : List (List Byte) := ["device_id", "temperature", "battery_level", "status", "Telemetry"].map word

def telCode : List Byte := [0x07, 4, 0, 0x12, 0, 0, 0x18, 1, 0, 0x10, 2, 0, 0x10, 3, 0]

theorem tel_gen (P : PEnv) : progCode P.dbl P.fl telProg = some (telTab, telCode) := by rfl

theorem tel_opt : optimizeStrings telTab telCode = (telTab, telCode) := by decide +kernel

/-- The image of the schema. -/
def telImage : List Byte := writeImage telTab telCode

/-- The compiler makes `telImage` of the demonstration schema. -/
theorem tel_compile (P : PEnv) (fuel : Nat) (hf : 16 * telSrc.length + 18 ≤ fuel) : compile P fuel telSrc = .image telImage := by
  obtain ⟨toks, h1, h2⟩ := lexAll_total telSrc
  have e := tel_lex
  rw [h2, Option.map_some, Option.some.injEq] at e
  have h := C59_source P telProg telTab telCode (tel_gen P) telSrc toks h1 e fuel hf
  rwa [tel_opt] at h

/-! ### The runs -/

def demoEnv (enc : Bool) (fl : FloatOps) : Env DemoSt := { prog := telCode, enc := enc, host := demoHost enc, fl := fl }

/-- A record is at the beginning of `D`: the numbers least byte first, then the two bytes. -/
def Telemetry.In (d : Telemetry) (D : List Byte) : Prop :=
  ∃ (a0 a1 a2 a3 t0 t1 t2 t3 : Byte) (rest : List Byte),
    D = a0 :: a1 :: a2 :: a3 :: t0 :: t1 :: t2 :: t3 :: d.battery :: d.status :: rest ∧
    d.device.toNat = a0.toNat + 2 ^ 8 * a1.toNat + 2 ^ 16 * a2.toNat + 2 ^ 24 * a3.toNat ∧
    d.temp.toNat = t0.toNat + 2 ^ 8 * t1.toNat + 2 ^ 16 * t2.toNat + 2 ^ 24 * t3.toNat

/-- A context during the runs. -/
def demoAt (old : St DemoSt) (ip cursor : Nat) (buf : List Byte) (h : DemoSt) : St DemoSt :=
  { initSt old buf h with ip := ip, cursor := cursor }

section
variable (fl : FloatOps) (old : St DemoSt) (B : List Byte) (h : DemoSt)

theorem demo_name (enc : Bool) : step (demoEnv enc fl) (demoAt old 0 0 B h) = .run (demoAt old 3 0 B h) := by cases enc <;> rfl

theorem enc0 : step (demoEnv true fl) (demoAt old 3 0 B h) = if 0 + 4 > B.length then .stop .oob (demoAt old 6 0 B h)
    else wrAt (demoAt old 6 0 B h) 0 4 (truncB 4 (cellSet 4 (h.data.device.setWidth 64) 0)) fun s =>
      .run { s with trans := .none, cursor := s.cursor + 4, opt := false } := rfl

theorem enc1 : step (demoEnv true fl) (demoAt old 6 4 B h) = if 4 + 4 > B.length then .stop .oob (demoAt old 9 4 B h)
    else wrAt (demoAt old 9 4 B h) 4 4 (truncB 4 (cellSet 4 (h.data.temp.setWidth 64) 0)) fun s =>
      .run { s with trans := .none, cursor := s.cursor + 4, opt := false } := rfl

theorem enc2 : step (demoEnv true fl) (demoAt old 9 8 B h) = if 8 + 1 > B.length then .stop .oob (demoAt old 12 8 B h)
    else wrAt (demoAt old 12 8 B h) 8 1 (truncB 1 (cellSet 1 (h.data.battery.setWidth 64) 0)) fun s =>
      .run { s with trans := .none, cursor := s.cursor + 1, opt := false } := rfl

theorem enc3 : step (demoEnv true fl) (demoAt old 12 9 B h) = if 9 + 1 > B.length then .stop .oob (demoAt old 15 9 B h)
    else wrAt (demoAt old 15 9 B h) 9 1 (truncB 1 (cellSet 1 (h.data.status.setWidth 64) 0)) fun s =>
      .run { s with trans := .none, cursor := s.cursor + 1, opt := false } := rfl

theorem demo_end (enc : Bool) : step (demoEnv enc fl) (demoAt old 15 10 B h) = .stop .ok (demoAt old 15 10 B h) := by cases enc <;> rfl

theorem dec0 : step (demoEnv false fl) (demoAt old 3 0 B h) = if 0 + 4 > B.length then .stop .oob (demoAt old 6 0 B h)
    else rdAt (demoAt old 6 0 B h) 0 4 fun w => .run (demoAt old 6 4 B { h with data := { h.data with device := w.setWidth 32 } }) := rfl

theorem dec1 : step (demoEnv false fl) (demoAt old 6 4 B h) = if 4 + 4 > B.length then .stop .oob (demoAt old 9 4 B h)
    else rdAt (demoAt old 9 4 B h) 4 4 fun w => .run (demoAt old 9 8 B { h with data := { h.data with temp := w.setWidth 32 } }) := rfl

theorem dec2 : step (demoEnv false fl) (demoAt old 9 8 B h) = if 8 + 1 > B.length then .stop .oob (demoAt old 12 8 B h)
    else rdAt (demoAt old 12 8 B h) 8 1 fun w => .run (demoAt old 12 9 B { h with data := { h.data with battery := w.setWidth 8 } }) := rfl

theorem dec3 : step (demoEnv false fl) (demoAt old 12 9 B h) = if 9 + 1 > B.length then .stop .oob (demoAt old 15 9 B h)
    else rdAt (demoAt old 15 9 B h) 9 1 fun w => .run (demoAt old 15 10 B { h with data := { h.data with status := w.setWidth 8 } }) := rfl
end

theorem cellSet_zero {k : Nat} (x : BitVec k) (n : Nat) (h : 8 * n = k) (hk : k ≤ 64) : truncB n (cellSet n (x.setWidth 64) 0) = x.setWidth 64 := by
  subst h
  apply BitVec.eq_of_toNat_eq
  have h1 := x.isLt
  have h2 : 2 ^ (8 * n) ≤ 2 ^ 64 := Nat.pow_le_pow_right (by omega) hk
  rw [toNat_truncB]
  unfold cellSet
  have h0 : BitVec.toNat (0 : Word) = 0 := rfl
  simp only [BitVec.toNat_ofNat, BitVec.toNat_setWidth, h0, Nat.zero_div, Nat.zero_mul, Nat.zero_add]
  rw [Nat.mod_eq_of_lt (a := x.toNat) (b := 2 ^ 64) (by omega), Nat.mod_eq_of_lt h1, Nat.mod_eq_of_lt (b := 2 ^ 64) (by omega), Nat.mod_eq_of_lt h1]

theorem ten {D : List Byte} (h : 10 ≤ D.length) : ∃ b0 b1 b2 b3 b4 b5 b6 b7 b8 b9 rest,
    D = b0 :: b1 :: b2 :: b3 :: b4 :: b5 :: b6 :: b7 :: b8 :: b9 :: rest := by
  match D, h with
  | b0 :: b1 :: b2 :: b3 :: b4 :: b5 :: b6 :: b7 :: b8 :: b9 :: rest, _ => exact ⟨_, _, _, _, _, _, _, _, _, _, _, rfl⟩

theorem four_bytes (x : BitVec 32) : ∃ a b c d : Byte, leBytes 4 (x.setWidth 64) = [a, b, c, d] ∧
    x.toNat = a.toNat + 2 ^ 8 * b.toNat + 2 ^ 16 * c.toNat + 2 ^ 24 * d.toNat := by
  refine ⟨_, _, _, _, rfl, ?_⟩
  simp
  omega

theorem four_word (a b c d : Byte) : ((leWord [a, b, c, d]).setWidth 32).toNat = a.toNat + 2 ^ 8 * b.toNat + 2 ^ 16 * c.toNat + 2 ^ 24 * d.toNat := by
  have := toNat_leWord [a, b, c, d] (by simp)
  rw [BitVec.toNat_setWidth, this]
  simp [leNat]
  omega

theorem exec_go {E : Env DemoSt} {s t : St DemoSt} (h : step E s = .run t) (m : Nat) : exec E (m + 1) s = exec E m t := by
  rw [exec, h]

theorem exec_halt {E : Env DemoSt} {s t : St DemoSt} {e : Err} (h : step E s = .stop e t) (m : Nat) : exec E (m + 1) s = .stop e t := by
  rw [exec, h]

theorem wrAt_room {s : St DemoSt} {p n : Nat} {w : Word} {k : St DemoSt → Res DemoSt} (h : p + n ≤ s.buf.length) (hb : s.be = false) :
    wrAt s p n w k = k { s with buf := splice s.buf p (leBytes n w) } := by
  unfold wrAt store
  rw [hb, show wrBytes false n w = leBytes n w from rfl, leBytes_length, if_pos h]

theorem rdAt_room {s : St DemoSt} {p n : Nat} {k : Word → Res DemoSt} (h : p + n ≤ s.buf.length) (hb : s.be = false) :
    rdAt s p n k = k (leWord ((s.buf.drop p).take n)) := by
  unfold rdAt slice
  rw [hb, if_pos h]
  rfl

theorem splice_length' {B bs : List Byte} {p : Nat} (h : p + bs.length ≤ B.length) : (splice B p bs).length = B.length := by
  simp [splice]; omega

section
variable {fl : FloatOps} {old : St DemoSt} {B : List Byte} {h : DemoSt}

theorem enc0_go (hl : 4 ≤ B.length) : step (demoEnv true fl) (demoAt old 3 0 B h) =
    .run (demoAt old 6 4 (splice B 0 (leBytes 4 (h.data.device.setWidth 64))) h) := by
  rw [enc0, if_neg (by omega), wrAt_room (by exact Nat.le_trans (by omega) hl) rfl, cellSet_zero _ 4 rfl (by omega)]; rfl

theorem enc1_go (hl : 8 ≤ B.length) : step (demoEnv true fl) (demoAt old 6 4 B h) =
    .run (demoAt old 9 8 (splice B 4 (leBytes 4 (h.data.temp.setWidth 64))) h) := by
  rw [enc1, if_neg (by omega), wrAt_room (by exact Nat.le_trans (by omega) hl) rfl, cellSet_zero _ 4 rfl (by omega)]; rfl

theorem enc2_go (hl : 9 ≤ B.length) : step (demoEnv true fl) (demoAt old 9 8 B h) =
    .run (demoAt old 12 9 (splice B 8 (leBytes 1 (h.data.battery.setWidth 64))) h) := by
  rw [enc2, if_neg (by omega), wrAt_room (by exact Nat.le_trans (by omega) hl) rfl, cellSet_zero _ 1 rfl (by omega)]; rfl

theorem enc3_go (hl : 10 ≤ B.length) : step (demoEnv true fl) (demoAt old 12 9 B h) =
    .run (demoAt old 15 10 (splice B 9 (leBytes 1 (h.data.status.setWidth 64))) h) := by
  rw [enc3, if_neg (by omega), wrAt_room (by exact Nat.le_trans (by omega) hl) rfl, cellSet_zero _ 1 rfl (by omega)]; rfl

theorem dec0_go (hl : 4 ≤ B.length) : step (demoEnv false fl) (demoAt old 3 0 B h) =
    .run (demoAt old 6 4 B { h with data := { h.data with device := (leWord ((B.drop 0).take 4)).setWidth 32 } }) := by
  rw [dec0, if_neg (by omega), rdAt_room (by exact Nat.le_trans (by omega) hl) rfl]; rfl

theorem dec1_go (hl : 8 ≤ B.length) : step (demoEnv false fl) (demoAt old 6 4 B h) =
    .run (demoAt old 9 8 B { h with data := { h.data with temp := (leWord ((B.drop 4).take 4)).setWidth 32 } }) := by
  rw [dec1, if_neg (by omega), rdAt_room (by exact Nat.le_trans (by omega) hl) rfl]; rfl

theorem dec2_go (hl : 9 ≤ B.length) : step (demoEnv false fl) (demoAt old 9 8 B h) =
    .run (demoAt old 12 9 B { h with data := { h.data with battery := (leWord ((B.drop 8).take 1)).setWidth 8 } }) := by
  rw [dec2, if_neg (by omega), rdAt_room (by exact Nat.le_trans (by omega) hl) rfl]; rfl

theorem dec3_go (hl : 10 ≤ B.length) : step (demoEnv false fl) (demoAt old 12 9 B h) =
    .run (demoAt old 15 10 B { h with data := { h.data with status := (leWord ((B.drop 9).take 1)).setWidth 8 } }) := by
  rw [dec3, if_neg (by omega), rdAt_room (by exact Nat.le_trans (by omega) hl) rfl]; rfl

end

/-- **C97**, encoding: into a buffer of ten bytes or more the callback and the VM write the record, and nothing behind it, and the
record stays; for less room they report an error. In both cases the callback touches nothing but the variables it is given. -/
theorem C97_encode (fl : FloatOps) (n : Nat) (hn : 6 ≤ n) (old : St DemoSt) (B : List Byte) (d : Telemetry) :
    ∃ s, exec (demoEnv true fl) n (initSt old B ⟨d, false⟩) = .stop (if 10 ≤ B.length then .ok else .oob) s ∧ s.host = ⟨d, false⟩ ∧
      s.buf.length = B.length ∧ (10 ≤ B.length → d.In s.buf ∧ s.buf.drop 10 = B.drop 10 ∧ s.cursor = 10) := by
  obtain ⟨m, rfl⟩ : ∃ m, n = m + 6 := ⟨n - 6, by omega⟩
  show ∃ s, exec _ (m + 6) (demoAt old 0 0 B ⟨d, false⟩) = _ ∧ _
  rw [exec_go (demo_name fl old B _ true)]
  have q1 : ∀ {C : List Byte} {p k : Nat} {w : Word}, p + k ≤ C.length → (splice C p (leBytes k w)).length = C.length := fun hp =>
    splice_length' (by rw [leBytes_length]; exact hp)
  by_cases h : 10 ≤ B.length
  · rw [exec_go (enc0_go (by omega)), exec_go (enc1_go (by rw [q1] <;> omega)),
      exec_go (enc2_go (by rw [q1 (by rw [q1] <;> omega), q1] <;> omega)),
      exec_go (enc3_go (by rw [q1 (by rw [q1 (by rw [q1] <;> omega), q1] <;> omega), q1 (by rw [q1] <;> omega), q1] <;> omega)),
      exec_halt (demo_end ..), if_pos h]
    refine ⟨_, rfl, rfl, ?_, fun _ => ⟨?_, ?_, rfl⟩⟩
    · obtain ⟨b0, b1, b2, b3, b4, b5, b6, b7, b8, b9, rest, rfl⟩ := ten h
      rfl
    · obtain ⟨b0, b1, b2, b3, b4, b5, b6, b7, b8, b9, rest, rfl⟩ := ten h
      obtain ⟨x0, x1, x2, x3, hx, gx⟩ := four_bytes d.device
      obtain ⟨y0, y1, y2, y3, hy, gy⟩ := four_bytes d.temp
      refine ⟨x0, x1, x2, x3, y0, y1, y2, y3, rest, ?_, gx, gy⟩
      show splice (splice (splice (splice _ 0 (leBytes 4 (d.device.setWidth 64))) 4 (leBytes 4 (d.temp.setWidth 64))) 8 _) 9 _ = _
      rw [hx, hy]
      simp [splice, leBytes]
    · obtain ⟨b0, b1, b2, b3, b4, b5, b6, b7, b8, b9, rest, rfl⟩ := ten h
      rfl
  · rw [if_neg h]
    by_cases h0 : 4 ≤ B.length
    · rw [exec_go (enc0_go h0)]
      by_cases h1 : 8 ≤ B.length
      · rw [exec_go (enc1_go (by rw [q1] <;> omega))]
        by_cases h2 : 9 ≤ B.length
        · rw [exec_go (enc2_go (by rw [q1 (by rw [q1] <;> omega), q1] <;> omega)),
            exec_halt ((enc3 ..).trans (if_pos (by rw [q1 (by rw [q1 (by rw [q1] <;> omega), q1] <;> omega), q1 (by rw [q1] <;> omega), q1] <;> omega)))]
          refine ⟨_, rfl, rfl, ?_, fun g => absurd g h⟩
          show (splice _ _ _).length = _
          rw [q1 (by rw [q1 (by rw [q1] <;> omega), q1] <;> omega), q1 (by rw [q1] <;> omega), q1] <;> omega
        · rw [exec_halt ((enc2 ..).trans (if_pos (by rw [q1 (by rw [q1] <;> omega), q1] <;> omega)))]
          refine ⟨_, rfl, rfl, ?_, fun g => absurd g h⟩
          show (splice _ _ _).length = _
          rw [q1 (by rw [q1] <;> omega), q1] <;> omega
      · rw [exec_halt ((enc1 ..).trans (if_pos (by rw [q1] <;> omega)))]
        refine ⟨_, rfl, rfl, ?_, fun g => absurd g h⟩
        show (splice _ _ _).length = _
        rw [q1]; omega
    · rw [exec_halt ((enc0 ..).trans (if_pos (by omega)))]
      exact ⟨_, rfl, rfl, rfl, fun g => absurd g h⟩

/-- Ten bytes or more are a record. -/
theorem tel_total {D : List Byte} (h : 10 ≤ D.length) : ∃ d : Telemetry, d.In D := by
  obtain ⟨b0, b1, b2, b3, b4, b5, b6, b7, b8, b9, rest, rfl⟩ := ten h
  exact ⟨⟨(leWord [b0, b1, b2, b3]).setWidth 32, (leWord [b4, b5, b6, b7]).setWidth 32, b8, b9⟩, b0, b1, b2, b3, b4, b5, b6, b7, rest, rfl,
    four_word .., four_word ..⟩

/-- **C97**, decoding: from bytes that begin with a record the VM and the callback take that record, whatever the application's record
was before and whatever follows. -/
theorem C97_decode (fl : FloatOps) (n : Nat) (hn : 6 ≤ n) (old : St DemoSt) (D : List Byte) (d0 d : Telemetry) (hd : d.In D) :
    ∃ s, exec (demoEnv false fl) n (initSt old D ⟨d0, false⟩) = .stop .ok s ∧ s.host = ⟨d, false⟩ ∧ s.buf = D ∧ s.cursor = 10 := by
  obtain ⟨m, rfl⟩ : ∃ m, n = m + 6 := ⟨n - 6, by omega⟩
  show ∃ s, exec _ (m + 6) (demoAt old 0 0 D ⟨d0, false⟩) = _ ∧ _
  obtain ⟨a0, a1, a2, a3, t0, t1, t2, t3, rest, rfl, ga, gt⟩ := hd
  rw [exec_go (demo_name fl old _ _ false), exec_go (dec0_go (by simp)), exec_go (dec1_go (by simp)), exec_go (dec2_go (by simp)),
    exec_go (dec3_go (by simp)), exec_halt (demo_end ..)]
  refine ⟨_, rfl, ?_, rfl, rfl⟩
  have e1 : ((leWord [a0, a1, a2, a3]).setWidth 32) = d.device := BitVec.eq_of_toNat_eq ((four_word ..).trans ga.symm)
  have e2 : ((leWord [t0, t1, t2, t3]).setWidth 32) = d.temp := BitVec.eq_of_toNat_eq ((four_word ..).trans gt.symm)
  have e3 : ∀ b : Byte, (leWord [b]).setWidth 8 = b := flags_cast
  show (⟨⟨(leWord [a0, a1, a2, a3]).setWidth 32, (leWord [t0, t1, t2, t3]).setWidth 32, (leWord [d.battery]).setWidth 8,
    (leWord [d.status]).setWidth 8⟩, false⟩ : DemoSt) = _
  rw [e1, e2, e3, e3]

/-- **C97**: less than ten bytes are refused. -/
theorem C97_short (fl : FloatOps) (n : Nat) (hn : 6 ≤ n) (old : St DemoSt) (D : List Byte) (d0 : Telemetry) (h : D.length < 10) :
    ∃ s, exec (demoEnv false fl) n (initSt old D ⟨d0, false⟩) = .stop .oob s ∧ s.host.crash = false ∧ s.buf = D := by
  obtain ⟨m, rfl⟩ : ∃ m, n = m + 6 := ⟨n - 6, by omega⟩
  show ∃ s, exec _ (m + 6) (demoAt old 0 0 D ⟨d0, false⟩) = _ ∧ _
  rw [exec_go (demo_name fl old _ _ false)]
  by_cases h0 : 4 ≤ D.length
  · rw [exec_go (dec0_go h0)]
    by_cases h1 : 8 ≤ D.length
    · rw [exec_go (dec1_go h1)]
      by_cases h2 : 9 ≤ D.length
      · rw [exec_go (dec2_go h2), exec_halt ((dec3 ..).trans (if_pos (by omega)))]
        exact ⟨_, rfl, rfl, rfl⟩
      · rw [exec_halt ((dec2 ..).trans (if_pos (by omega)))]
        exact ⟨_, rfl, rfl, rfl⟩
    · rw [exec_halt ((dec1 ..).trans (if_pos (by omega)))]
      exact ⟨_, rfl, rfl, rfl⟩
  · rw [exec_halt ((dec0 ..).trans (if_pos (by omega)))]
    exact ⟨_, rfl, rfl, rfl⟩

/-! ### The loaders -/

/-- **C97**, loaders: on every file the library's loader accepts, the C++ program and the wasm bridge, which read the offset of the bytecode
themselves, run the same bytecode. -/
theorem C97_load (img : List Byte) (P : Program) (h : loadIl img = .ok P) :
    cLoad img = .code P.code ∧ cppLoad img = .code P.code ∧ wasmLoad img = .code P.code := by
  have h1 : cLoad img = .code P.code := by unfold cLoad; rw [h]
  have h2 : rawLoad img = .code P.code ∧ ¬ img.length < 16 := by
    unfold loadIl at h
    split at h
    · cases h
    · rename_i hl
      split at h
      · cases h
      · split at h
        · cases h
        · dsimp only at h
          split at h
          · cases h
          · rename_i hb
            injection h with h
            subst h
            unfold rawLoad
            rw [if_neg hl]
            dsimp only
            rw [if_neg fun g => hb (.inr g)]
            exact ⟨rfl, hl⟩
  refine ⟨h1, ?_, h2.1⟩
  unfold cppLoad
  rw [if_neg h2.2]
  exact h2.1

/-- **C97**, whole programs. The compiler makes an image of the demonstration schema; with it both programs encode every record, into a packet
of ten bytes in the given format, and decode the packet to the same record, whatever was in the variable of the context. -/
theorem C97_round (P : PEnv) (fuel : Nat) (hf : 16 * telSrc.length + 18 ≤ fuel) : ∃ img, compile P fuel telSrc = .image img ∧
    ∀ load, load = cLoad ∨ load = cppLoad → ∀ (n : Nat) (_ : 6 ≤ n) (ctx : St DemoSt) (d : Telemetry),
      ∃ packet, demoMain load P.fl n ctx img d = .done packet d ∧ packet.length = 10 ∧ d.In packet := by
  refine ⟨telImage, tel_compile P fuel hf, fun load hload n hn ctx d => ?_⟩
  have hl := C97_load telImage _ (load_writeImage telTab telCode (by decide +kernel))
  have hc : load telImage = .code telCode := by
    rcases hload with rfl | rfl
    · exact hl.1
    · exact hl.2.1
  unfold demoMain
  rw [hc]
  dsimp only
  unfold demoBody
  obtain ⟨s, e1, e2, e3, e4⟩ := C97_encode P.fl n hn ctx (List.replicate 128 0) d
  rw [if_pos (by simp)] at e1
  obtain ⟨g1, _, g3⟩ := e4 (by simp)
  have hin : d.In (s.buf.take s.cursor) ∧ (s.buf.take s.cursor).length = 10 := by
    rw [g3]
    obtain ⟨a0, a1, a2, a3, t0, t1, t2, t3, rest, ge, ga, gt⟩ := g1
    rw [ge]
    exact ⟨⟨a0, a1, a2, a3, t0, t1, t2, t3, [], rfl, ga, gt⟩, rfl⟩
  obtain ⟨t, f1, f2, _⟩ := C97_decode P.fl n hn s _ ⟨0, 0, 0, 0⟩ d hin.1
  refine ⟨_, ?_, hin.2, hin.1⟩
  unfold demoEnv at e1 f1
  rw [e1]
  dsimp only
  rw [e2]
  dsimp only
  rw [f1]
  dsimp only
  rw [f2]
  rfl

/-- **C97**, images of all texts: what the compiler writes (if the offset of the bytecode fits the header) is loaded by all three to the same
bytecode, which is the end of the file. -/
theorem C97_compiled (P : PEnv) (fuel : Nat) (src img : List Byte) (h : compile P fuel src = .image img) (hlen : img.length < 2 ^ 32) :
    ∃ code, code <:+ img ∧ cLoad img = .code code ∧ cppLoad img = .code code ∧ wasmLoad img = .code code := by
  obtain ⟨toks, _, hl⟩ := lexAll_total src
  unfold compile at h
  rw [hl] at h
  obtain ⟨s, _, _, h3⟩ := image_parse h
  have hlo : ∃ I, loadIl img = .ok I := by
    subst h3
    refine ⟨_, load_writeImage _ _ ?_⟩
    rw [writeImage_eq, List.length_append, List.length_append, headBytes_length] at hlen
    omega
  obtain ⟨I, hI⟩ := hlo
  exact ⟨I.code, (C36_suffix img I hI).2.1, C97_load img I hI⟩

/-! ### Examples -/

example : telImage.length < 2 ^ 32 ∧ cLoad telImage = .code telCode ∧ cppLoad telImage = .code telCode ∧ wasmLoad telImage = .code telCode := by
  decide +kernel

/-- What the two programs write, with their own records. -/
example : demoMain cLoad Demo.fl 6 (zeroSt ⟨⟨0, 0, 0, 0⟩, false⟩) telImage demoCRecord =
      .done [0x78, 0x56, 0x34, 0x12, 0x00, 0x00, 0xCC, 0x41, 85, 1] demoCRecord ∧
    demoMain cppLoad Demo.fl 6 (zeroSt ⟨⟨0, 0, 0, 0⟩, false⟩) telImage demoCppRecord =
      .done [0xBE, 0xBA, 0xFE, 0xCA, 0x66, 0x66, 0x12, 0x42, 100, 0] demoCppRecord := by
  decide +kernel

example : demoCRecord.In [0x78, 0x56, 0x34, 0x12, 0x00, 0x00, 0xCC, 0x41, 85, 1, 9, 9] :=
  ⟨_, _, _, _, _, _, _, _, [9, 9], rfl, by decide, by decide⟩

/-! ### Where the short loaders differ -/

/-- **The wasm bridge reads behind every file of less than 16 bytes**, such as an empty one, which the other two refuse. -/
theorem C97_false_short (img : List Byte) (h : img.length < 16) : wasmLoad img = .ub ∧ cppLoad img = .fail ∧ cLoad img = .fail := by
  refine ⟨?_, ?_, ?_⟩
  · unfold wasmLoad rawLoad; rw [if_pos h]
  · unfold cppLoad; rw [if_pos h]
  · unfold cLoad loadIl; rw [if_pos h]

/-- **A file whose header names an offset behind its end**: the length of the program wraps to almost the whole address space in the bridge and the
C++ program; the library's loader refuses the file. -/
theorem C97_false_offset (img : List Byte) (h : 16 ≤ img.length) (ho : img.length < (leWord ((img.drop 12).take 4)).toNat) :
    wasmLoad img = .ub ∧ cppLoad img = .ub ∧ cLoad img = .fail := by
  have hr : rawLoad img = .ub := by
    unfold rawLoad
    rw [if_neg (by omega)]
    dsimp only
    rw [if_pos ho]
  refine ⟨hr, ?_, ?_⟩
  · unfold cppLoad; rw [if_neg (by omega)]; exact hr
  · unfold cLoad loadIl
    rw [if_neg (by omega)]
    split
    · rename_i P hP
      split at hP
      · cases hP
      · split at hP
        · cases hP
        · dsimp only at hP
          rw [if_pos (.inr ho)] at hP
          cases hP
    · rfl

example : let img : List Byte := telImage.take 12 ++ [0, 1, 0, 0] ++ telImage.drop 16
    16 ≤ img.length ∧ img.length < (leWord ((img.drop 12).take 4)).toNat := by decide +kernel

/-- **Any file is run**: 32 zero bytes are no image, but the bridge and the C++ program execute them. -/
theorem C97_false_magic : cLoad (List.replicate 32 0) = .fail ∧ cppLoad (List.replicate 32 0) = .code (List.replicate 32 0) ∧
    wasmLoad (List.replicate 32 0) = .code (List.replicate 32 0) := by decide +kernel

set_option maxRecDepth 4000 in
/-- **The callbacks trust the schema**: with an image whose first field is a u8 they write four bytes to a variable of one. -/
theorem C97_false_schema : ∀ fl d, demoMain cLoad fl 9 (zeroSt ⟨⟨0, 0, 0, 0⟩, false⟩) (writeImage [word "a", word "P"] [0x07, 1, 0, 0x10, 0, 0]) d = .ub := by
  intro fl d
  have hl : cLoad (writeImage [word "a", word "P"] [0x07, 1, 0, 0x10, 0, 0]) = .code [0x07, 1, 0, 0x10, 0, 0] := by decide +kernel
  unfold demoMain
  rw [hl]
  rfl

/-- The image is that of a schema. -/
example : compile demoP 2000 (word "packet P { u8 a; }") = .image (writeImage [word "a", word "P"] [0x07, 1, 0, 0x10, 0, 0]) := by decide +kernel

end Cnd
