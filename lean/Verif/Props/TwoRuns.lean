import Verif.Pair
import Verif.Twin
import Verif.Demo
/-
  C33: cnd_init makes a run independent of the context's history.
  C34: the packet does not depend on what the buffer held before.
-/

namespace Cnd
variable {σ : Type}

/-- What the caller and the host can observe of a run: how it stands (running, error code or undefined
behaviour), the packet, the position and the host's state. -/
inductive Seen (σ : Type)
  | running (buf : List Byte) (cursor bit : Nat) (be : Bool) (h : σ)
  | stopped (e : Err) (buf : List Byte) (cursor bit : Nat) (be : Bool) (h : σ)
  | undef (u : UB)

def Res.seen : Res σ → Seen σ
  | .run s => .running s.buf s.cursor s.bit s.be s.host
  | .stop e s => .stopped e s.buf s.cursor s.bit s.be s.host
  | .ub u => .undef u

/-- **C33.** After cnd_init, a run goes the same way whatever the context held before: at every point in time the
same packet, position and host state, and in the end the same result code. -/
theorem C33_history (E : Env σ) (old old' : St σ) (buf : List Byte) (user : σ) (n : Nat) :
    (exec E n (initSt old buf user)).seen = (exec E n (initSt old' buf user)).seen := by
  have h : Fresh (initSt old buf user) (initSt old' buf user) :=
    ⟨⟨old'.polyPos, old'.polyCnt, old'.splPos, old'.splCnt⟩, rfl, (fun h => by cases h), (fun h => by cases h)⟩
  have := exec_fresh (E := E) n h
  revert this
  cases exec E n (initSt old buf user) <;> cases exec E n (initSt old' buf user) <;> intro hp
  case run.run a b => obtain ⟨r, rfl, _⟩ := hp; rfl
  case stop.stop e a e' b => obtain ⟨rfl, r, rfl, _⟩ := hp; rfl
  case ub.ub u u' => cases hp; rfl
  all_goals exact hp.elim

/-- A context left over from an aborted run (pending polynomial, open loop, half a byte) against a new one. -/
example :
    Demo.obs (exec (Demo.env [0x10, 1, 0] false) 5 (initSt { Demo.blank with
        trans := .poly, polyPos := 77, polyCnt := 3, loops := [⟨4, 2⟩], stack := [1, 2], bit := 3, opt := true, be := true } [9] {})) =
      .stopped .ok [9] 1 0 { log := [(1, 0x10, 9)] } ∧
    Demo.obs (exec (Demo.env [0x10, 1, 0] false) 5 (initSt Demo.blank [9] {})) =
      .stopped .ok [9] 1 0 { log := [(1, 0x10, 9)] } := by
  decide +kernel

/-! ### C34 -/

/-- No instruction of the run from `s0` abandons or spoils a byte of which only some bits are written: no aligning
instruction, EMIT or change of byte order in the middle of a byte. -/
def WholeBytes (E : Env σ) (s0 : St σ) : Prop :=
  ∀ s, Reach E s0 s → ∀ op, E.prog[s.ip]? = some op → breaksByte op s.be = true → s.bit = 0

theorem exec_twin {E : Env σ} (henc : E.enc = true) (hD : Declines E.host) (n : Nat) {a b : St σ} (h : Twin a b)
    (hi : Inv a) (hw : WholeBytes E a) : Pair Twin (exec E n a) (exec E n b) := by
  induction n generalizing a b with
  | zero => exact h
  | succ n ih =>
    have hs := step_twin henc hD h hi (fun op hop hb => hw a (Reach.refl _ _) op hop hb)
    rw [exec_succ, exec_succ]
    cases ha : step E a <;> cases hb : step E b <;> rw [ha, hb] at hs
    · exact ih hs (step_inv hi ha) fun s hr => hw s ((Reach.one ha).trans hr)
    all_goals first | exact hs | exact hs.elim

/-- What two encoding runs into different buffers have in common at their ends. -/
structure SamePacket (s s' : St σ) : Prop where
  cursor : s'.cursor = s.cursor
  bit : s'.bit = s.bit
  be : s'.be = s.be
  host : s'.host = s.host
  len : s'.buf.length = s.buf.length
  bytes : s'.buf.take s.cursor = s.buf.take s.cursor
  bits : ∀ k, k < 8 * s.cursor + s.bit → bitAt s.be s'.buf k = bitAt s.be s.buf k

/-- **C34 (partial).** Two encoding runs of the same program with the same host into two buffers of the same length
end with the same result code, position and host state, and the same bytes up to the cursor and bits up to the
position, whatever the two buffers and the two contexts held before. What is missing from C34: runs in which a byte is
left partly written (`WholeBytes`, see `C34_false`), and hosts that write to the packet themselves. -/
theorem C34_packet_partial (E : Env σ) (henc : E.enc = true) (hD : Declines E.host) (old old' : St σ)
    (buf buf' : List Byte) (hlen : buf'.length = buf.length) (user : σ) (hw : WholeBytes E (initSt old buf user))
    (n : Nat) :
    (∀ e s, exec E n (initSt old buf user) = .stop e s →
      ∃ s', exec E n (initSt old' buf' user) = .stop e s' ∧ SamePacket s s') ∧
    (∀ s, exec E n (initSt old buf user) = .run s →
      ∃ s', exec E n (initSt old' buf' user) = .run s' ∧ SamePacket s s') ∧
    (∀ u, exec E n (initSt old buf user) = .ub u → exec E n (initSt old' buf' user) = .ub u) := by
  have ht : Twin (initSt old buf user) (initSt old buf' user) :=
    ⟨buf', rfl, hlen, by simp [initSt]⟩
  have h1 := exec_twin henc hD n ht (init_inv _ _ _) hw
  have hf : Fresh (initSt old buf' user) (initSt old' buf' user) :=
    ⟨⟨old'.polyPos, old'.polyCnt, old'.splPos, old'.splCnt⟩, rfl, (fun h => by cases h), (fun h => by cases h)⟩
  have h2 := exec_fresh (E := E) n hf
  have same : ∀ s s1 s2 : St σ, Twin s s1 → Fresh s1 s2 → SamePacket s s2 := by
    rintro s s1 s2 ⟨B, rfl, hT⟩ ⟨r, rfl, _⟩
    refine ⟨rfl, rfl, rfl, rfl, hT.len, ?_, hT.bits⟩
    apply List.ext_getElem?
    intro i
    rw [List.getElem?_take, List.getElem?_take]
    split
    · exact hT.byte i (by assumption)
    · rfl
  refine ⟨?_, ?_, ?_⟩
  · intro e s he
    rw [he] at h1
    cases hm : exec E n (initSt old buf' user) with
    | run s1 => rw [hm] at h1; exact h1.elim
    | ub u => rw [hm] at h1; exact h1.elim
    | stop e1 s1 =>
      rw [hm] at h1 h2
      cases hn : exec E n (initSt old' buf' user) with
      | run s2 => rw [hn] at h2; exact h2.elim
      | ub u => rw [hn] at h2; exact h2.elim
      | stop e2 s2 =>
        rw [hn] at h2
        obtain ⟨rfl, h1⟩ := h1
        obtain ⟨rfl, h2⟩ := h2
        exact ⟨s2, rfl, same _ _ _ h1 h2⟩
  · intro s he
    rw [he] at h1
    cases hm : exec E n (initSt old buf' user) with
    | stop e1 s1 => rw [hm] at h1; exact h1.elim
    | ub u => rw [hm] at h1; exact h1.elim
    | run s1 =>
      rw [hm] at h1 h2
      cases hn : exec E n (initSt old' buf' user) with
      | stop e s2 => rw [hn] at h2; exact h2.elim
      | ub u => rw [hn] at h2; exact h2.elim
      | run s2 =>
        rw [hn] at h2
        exact ⟨s2, rfl, same _ _ _ h1 h2⟩
  · intro u he
    rw [he] at h1
    cases hm : exec E n (initSt old buf' user) with
    | stop e1 s1 => rw [hm] at h1; exact h1.elim
    | run s1 => rw [hm] at h1; exact h1.elim
    | ub u1 =>
      rw [hm] at h1 h2
      cases hn : exec E n (initSt old' buf' user) with
      | stop e s2 => rw [hn] at h2; exact h2.elim
      | run s2 => rw [hn] at h2; exact h2.elim
      | ub u2 =>
        rw [hn] at h2
        exact congrArg _ ((h1.trans h2).symm)

/-- Checks `WholeBytes` along a run of at most `n` instructions. -/
def wholeRun (E : Env σ) : Nat → St σ → Bool
  | 0, _ => false
  | n + 1, s =>
    (match E.prog[s.ip]? with
      | none => true
      | some op => !breaksByte op s.be || s.bit == 0) &&
    (match step E s with
      | .run s' => wholeRun E n s'
      | _ => true)

theorem wholeRun_sound {E : Env σ} {n : Nat} {s0 : St σ} (h : wholeRun E n s0 = true) : WholeBytes E s0 := by
  rintro s ⟨m, hm⟩ op hop hb
  induction m generalizing n s0 with
  | zero =>
    injection hm with hm
    subst hm
    cases n with
    | zero => cases h
    | succ n =>
      unfold wholeRun at h
      rw [hop] at h
      simp only [Bool.and_eq_true, Bool.or_eq_true, hb, Bool.not_true, Bool.false_eq_true, false_or, beq_iff_eq] at h
      exact h.1
  | succ m ih =>
    cases n with
    | zero => cases h
    | succ n =>
      unfold wholeRun at h
      simp only [Bool.and_eq_true] at h
      rw [exec_succ] at hm
      cases hs : step E s0 with
      | stop e s1 => rw [hs] at hm; cases hm
      | ub u => rw [hs] at hm; cases hm
      | run s1 =>
        rw [hs] at hm h
        exact ih h.2 hm

/-- Bit fields completed by a fill, a big-endian number, a string, a one-element array and a checksum: the hypotheses
hold, and two different buffers get the same ten bytes. -/
def Demo.tidyProg : List Byte :=
  [0x20, 1, 0, 3, 0x21, 2, 0, 4, 0x24, 1, 0x02, 0x11, 3, 0, 0x31, 4, 0, 0x35, 5, 0, 0x10, 6, 0, 0x38,
   0x44, 0x21, 0x10, 0xFF, 0xFF, 0, 0, 0]

def Demo.tidyTape : Demo.Tape := { inp := [5, 9, 0x1234, 1, 7], strs := [[72, 105]] }

example : Declines Demo.giver ∧ WholeBytes (Demo.env Demo.tidyProg true) (initSt Demo.blank (List.replicate 12 0) Demo.tidyTape) :=
  ⟨fun _ _ _ _ _ _ => rfl, wholeRun_sound (n := 50) (by decide +kernel)⟩

def Demo.packetOf (prog : List Byte) (buf : List Byte) (t : Demo.Tape) : Option (List Byte) :=
  match exec (Demo.env prog true) 50 (initSt Demo.blank buf t) with
  | .stop .ok s => some (s.buf.take (s.cursor + if s.bit = 0 then 0 else 1))
  | _ => none

example : Demo.packetOf Demo.tidyProg (List.replicate 12 0) Demo.tidyTape = some [0xCD, 0x12, 0x34, 2, 72, 105, 1, 7, 0xFB, 0x4E] ∧
    Demo.packetOf Demo.tidyProg (List.replicate 12 0xFF) Demo.tidyTape = some [0xCD, 0x12, 0x34, 2, 72, 105, 1, 7, 0xFB, 0x4E] := by
  decide +kernel

/-- **C34 fails** when a byte is left partly written: the bits that the packet does not define are whatever the buffer
held. Here a three-bit field alone, and a three-bit field followed by a u8. -/
theorem C34_false :
    (∃ prog t b b', b'.length = b.length ∧ Demo.packetOf prog b t = some [5] ∧ Demo.packetOf prog b' t = some [0xFD]) ∧
    (∃ prog t b b', b'.length = b.length ∧ Demo.packetOf prog b t = some [5, 7] ∧
      Demo.packetOf prog b' t = some [0xFD, 7]) :=
  ⟨⟨[0x20, 1, 0, 3], { inp := [5] }, [0], [0xFF], rfl, by decide +kernel, by decide +kernel⟩,
   ⟨[0x20, 1, 0, 3, 0x10, 2, 0], { inp := [5, 7] }, [0, 0], [0xFF, 0xFF], rfl, by decide +kernel, by decide +kernel⟩⟩

end Cnd
