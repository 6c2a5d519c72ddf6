/-
  C78: what the VM hands to callbacks.
-/
import Verif.SweepCall
import Verif.Demo

namespace Cnd

/-- A call of the host with what it is given. -/
inductive HostCall
  | notify (key : Nat) (op : Byte)
  | scalar (key : Nat) (op : Byte) (v : Word)
  | str (key : Nat) (op : Byte)
  | bytes (key : Nat) (op : Byte) (be : Bool) (buf : List Byte) (p : Nat)
  deriving DecidableEq, Repr

/-- Any host, with a list of its calls. -/
def logged {σ : Type} (H : Host σ) : Host (σ × List HostCall) where
  notify s key op := let r := H.notify s.1 key op; (r.1, r.2, s.2 ++ [.notify key op])
  scalar s key op v := let r := H.scalar s.1 key op v; (r.1, r.2.1, r.2.2, s.2 ++ [.scalar key op v])
  str s key op := let r := H.str s.1 key op; (r.1, r.2.1, r.2.2, s.2 ++ [.str key op])
  bytesAt s key op be buf p := let r := H.bytesAt s.1 key op be buf p; (r.1, r.2.1, r.2.2, s.2 ++ [.bytes key op be buf p])

/-- Number stored in `n` bytes. -/
def bytesNum (be : Bool) (bs : List Byte) : Nat :=
  (if be then bs.reverse else bs).foldr (fun b r => b.toNat + 256 * r) 0

/-- What the interface promises. Calls without data are those at the beginning and end of structures and at the end of arrays. Numbers come with
one of the opcodes of scalars, bit fields, array counts, questions and variables. A string is asked for only when encoding and only with a string
opcode. A pointer into the packet is one to raw bytes, or to a string when decoding, in which case a NUL-terminated string begins in the packet and
one with a length before it lies in the packet with its length and all its bytes. -/
def HostCall.Promised (enc : Bool) (N : Nat) : HostCall → Prop
  | .notify _ op => op ∈ [(0x03 : Byte), 0x04, 0x38]
  | .scalar _ op _ => op ∈ [(0x10 : Byte), 0x11, 0x12, 0x13, 0x14, 0x15, 0x16, 0x17, 0x18, 0x19, 0x1A, 0x20, 0x21, 0x22, 0x34, 0x35, 0x36, 0x37,
      0x3B, 0x06, 0x60, 0x78]
  | .str _ op => enc = true ∧ op ∈ [(0x30 : Byte), 0x31, 0x32, 0x33]
  | .bytes _ op be buf p => buf.length = N ∧ (op = 0x39 ∧ p ≤ N ∨ enc = false ∧ (op = 0x30 ∧ p < N ∨
      ∃ n, (op, n) ∈ [((0x31 : Byte), 1), (0x32, 2), (0x33, 4)] ∧ n ≤ p ∧ p + bytesNum be ((buf.drop (p - n)).take n) ≤ N))

theorem bytesNum_rdWord (be : Bool) (bs : List Byte) (h : bs.length ≤ 8) : bytesNum be bs = (rdWord be bs).toNat := by
  have key : ∀ l : List Byte, l.foldr (fun b r => b.toNat + 256 * r) 0 = leNat l := by
    intro l
    induction l with
    | nil => rfl
    | cons b l ih => simp only [List.foldr_cons, ih, leNat]
  unfold bytesNum rdWord
  rw [key]
  cases be
  · simp [toNat_leWord _ h]
  · simp [toNat_leWord bs.reverse (by simpa using h)]

/-- C78: in every run of every program, on every packet, with every host, whatever it answers and however it changes the packet where it may, every call
is as promised; the packet never changes its length. -/
theorem C78_calls {σ : Type} (prog : List Byte) (enc : Bool) (H : Host σ) (fl : FloatOps) (n : Nat) (old : St (σ × List HostCall)) (buf : List Byte) (u : σ)
    (s : St (σ × List HostCall))
    (h : exec { prog := prog, enc := enc, host := logged H, fl := fl } n (initSt old buf (u, [])) = .run s ∨
      ∃ e, exec { prog := prog, enc := enc, host := logged H, fl := fl } n (initSt old buf (u, [])) = .stop e s) :
    ∀ c ∈ s.host.2, c.Promised enc buf.length := by
  have hK : HostKeep enc buf.length (logged H) (fun a b => (∀ c ∈ a.2, c.Promised enc buf.length) → ∀ c ∈ b.2, c.Promised enc buf.length) := by
    have snoc : ∀ {l : List HostCall} {x : HostCall}, x.Promised enc buf.length → (∀ c ∈ l, c.Promised enc buf.length) →
        ∀ c ∈ l ++ [x], c.Promised enc buf.length := by
      intro l x hx hl c hc
      rcases List.mem_append.1 hc with hc | hc
      · exact hl c hc
      · rw [List.mem_singleton.1 hc]; exact hx
    refine ⟨fun _ h => h, fun f g h => g (f h), ?_, ?_, ?_, ?_⟩
    · intro h key op b h' ho e hl
      simp only [logged, Prod.mk.injEq] at e
      rw [← e.2]
      exact snoc (by rcases ho with rfl | rfl | rfl <;> simp [HostCall.Promised]) hl
    · intro h key op v b w h' ho e hl
      simp only [logged, Prod.mk.injEq] at e
      rw [← e.2.2]
      refine snoc ?_ hl
      have key : ∀ op : Byte, goCell op ≠ 0 → op ∈ [(0x10 : Byte), 0x11, 0x12, 0x13, 0x14, 0x15, 0x16, 0x17, 0x18, 0x19, 0x1A, 0x20, 0x21, 0x22, 0x34, 0x35,
        0x36, 0x37, 0x3B, 0x06, 0x60, 0x78] := by decide +kernel
      exact key op ho
    · intro h key op b w h' he ho e hl
      simp only [logged, Prod.mk.injEq] at e
      rw [← e.2.2]
      refine snoc ⟨he, ?_⟩ hl
      have key : ∀ op : Byte, strPrefix op ≠ none → op ∈ [(0x30 : Byte), 0x31, 0x32, 0x33] := by decide +kernel
      exact key op ho
    · intro h key op be B p b w h' ho hN e hl
      simp only [logged, Prod.mk.injEq] at e
      rw [← e.2.2]
      refine snoc ⟨hN, ?_⟩ hl
      rw [← hN]
      rcases ho with ho | ⟨he, ho | ⟨m, hm, h1, h2⟩⟩
      · exact .inl ho
      · exact .inr ⟨he, .inl ho⟩
      · refine .inr ⟨he, .inr ⟨m + 1, ?_, h1, ?_⟩⟩
        · have key : ∀ op : Byte, strPrefix op = none ∨ strPrefix op = some 0 ∨ (op, (strPrefix op).getD 0) ∈ [((0x31 : Byte), 1), (0x32, 2), (0x33, 4)] := by
            decide +kernel
          rcases key op with e | e | e
          · rw [e] at hm; cases hm
          · rw [e] at hm; simp at hm
          · rw [hm] at e; exact e
        · have hm4 : m + 1 ≤ 4 := by
            have key : ∀ op : Byte, (strPrefix op).getD 0 ≤ 4 := by decide +kernel
            have := key op
            rw [hm] at this
            exact this
          rw [bytesNum_rdWord _ _ (by rw [List.length_take]; omega)]
          exact h2
  have hg := exec_keep (E := { prog := prog, enc := enc, host := logged H, fl := fl }) hK n (initSt old buf (u, [])) (init_inv _ _ _) rfl
  rcases h with h | ⟨e, h⟩
  · rw [h] at hg
    exact hg (fun _ h => (by cases h))
  · rw [h] at hg
    exact hg (fun _ h => (by cases h))

namespace Demo

/-- A number, and strings of up to two bytes; the host takes everything. -/
def callsProg : List Byte := [0x10, 1, 0, 0x31, 2, 0, 0x30, 3, 0, 2, 0]

def callsRun (packet : List Byte) : List HostCall × Bool :=
  match exec { prog := callsProg, enc := false, host := logged taker, fl := fl } 9
    (initSt ⟨[], 0, 0, 0, false, .none, 0, 0, 0, 0, 0, 0, 0, false, [], [], ({}, [])⟩ packet ({}, [])) with
  | .stop .ok s => (s.host.2, true)
  | .stop _ s => (s.host.2, false)
  | .run s => (s.host.2, false)
  | .ub _ => ([], false)

end Demo

/-- The calls of a run: a number, a string of two bytes with its length, a NUL-terminated string. -/
example : Demo.callsRun [7, 2, 65, 66, 67, 0] = ([.scalar 1 0x10 7, .bytes 2 0x31 false [7, 2, 65, 66, 67, 0] 2,
    .bytes 3 0x30 false [7, 2, 65, 66, 67, 0] 4], true) := by decide +kernel

/-- A NUL-terminated string shown to the host need not be terminated in the packet: if there are as many bytes as the field allows, and one more, none of
them NUL, the host is shown them (and reads on behind the packet). -/
theorem C78_terminated_false : ∃ calls, Demo.callsRun [7, 2, 65, 66, 67, 68, 69] = (calls, true) ∧
    .bytes 3 0x30 false [7, 2, 65, 66, 67, 68, 69] 4 ∈ calls ∧ (0 : Byte) ∉ ([7, 2, 65, 66, 67, 68, 69] : List Byte) := by
  refine ⟨_, rfl, ?_, ?_⟩ <;> decide +kernel

end Cnd
