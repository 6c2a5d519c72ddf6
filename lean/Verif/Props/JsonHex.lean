import Verif.JsonHex
import Verif.Props.JsonFind
import Verif.Props.Total
/-
  C85: `cnd decode --hex` shows what `cnd decode` shows, with arrays of bytes as hexadecimal digits.
-/

namespace Cnd

/-- The callback never takes an array for one of bytes: what it looks at is not OP_IO_U8. -/
def NoPeek (prog : List Byte) : Prop := ∀ ip, peekAt prog ip ≠ some 0x10

def noPeekB (prog : List Byte) : Bool := (List.range prog.length).all fun i => decide (peekAt prog i ≠ some 0x10)

theorem noPeek_of {prog : List Byte} (h : noPeekB prog = true) : NoPeek prog := by
  intro ip
  by_cases hi : ip < prog.length
  · exact of_decide_eq_true (List.all_eq_true.1 h ip (List.mem_range.2 hi))
  · unfold peekAt
    rw [List.getElem?_eq_none (by omega)]
    exact fun e => (by cases e)

section
variable {F : FloatOps} {names : List (List Byte)} {hid : Nat → Bool} {peek : Option Byte}

/-- The state of the binding outside byte arrays. -/
def JHex.idle (b : JSt) : JHex := ⟨b, false, []⟩

theorem taker_hex (hp : peek ≠ some 0x10) (hA : HidApart names hid) {G : List Ev} (hC : JClean F names hid G) :
    Mimics false (taker (jsonView F names hid)) (hexHost F names peek) (fun g => g <+: G) (fun g b => b = JHex.idle (jBuild F names g)) := by
  have M := taker_json hA hC
  refine ⟨?_, M.notifyMono, ?_, M.scalarMono, fun h => (by cases h), fun h => (by cases h), fun h => (by cases h), ?_, M.bytesMono, fun _ h => (by cases h)⟩
  · rintro a b key op a' rfl h ho
    obtain ⟨b', h1, rfl⟩ := M.notify rfl h ho
    refine ⟨_, ?_, rfl⟩
    simp only [jsonHost, hexHost, JHex.idle, hexEnd] at h1 ⊢
    split
    · rename_i h3
      rw [if_pos h3] at h1
      simp only [h1]
    · rename_i h3
      rw [if_neg h3] at h1
      split
      · rename_i h4
        rw [if_pos h4] at h1
        simp only [Prod.mk.injEq, true_and] at h1 ⊢
        rw [h1]
      · rename_i h4
        rw [if_neg h4] at h1
        simp only [Prod.mk.injEq, true_and] at h1 ⊢
        rw [if_neg (fun h => by cases h), h1]
  · rintro a b key op v w a' rfl h ho
    obtain ⟨b', h1, rfl⟩ := M.scalar rfl h ho
    refine ⟨_, ?_, rfl⟩
    simp only [hexHost]
    rw [if_neg (fun h => hp h.2), if_neg (fun h => by cases h.1)]
    simp only [JHex.idle, h1]
  · rintro he a b key op be D p D' a' hop rfl h ho
    obtain ⟨b', h1, rfl⟩ := M.bytes he hop rfl h ho
    refine ⟨_, ?_, rfl⟩
    simp only [hexHost]
    rw [if_neg hop]
    simp only [JHex.idle, h1]

theorem hex_mimics (hA : HidApart names hid) {G : List Ev} (hC : JClean F names hid G) {prog : List Byte} (hB : NoBulk prog) (hP : NoPeek prog)
    {n : Nat} {s sf : St (List Ev)} {b : JHex}
    (h : exec { prog := prog, enc := false, host := taker (jsonView F names hid), fl := F } n s = .stop .ok sf) (ho : sf.host <+: G)
    (hR : b = JHex.idle (jBuild F names s.host)) :
    hexExec F names prog n (s.wh b) = .stop .ok (sf.wh (JHex.idle (jBuild F names sf.host))) := by
  have hS : ∀ ip, Same { prog := prog, enc := false, host := taker (jsonView F names hid), fl := F }
      { prog := prog, enc := false, host := hexHost F names (peekAt prog ip), fl := F } (fun g => g <+: G)
      (fun g b => b = JHex.idle (jBuild F names g)) := fun ip => ⟨rfl, rfl, rfl, taker_hex (hP ip) hA hC, .inl hB⟩
  induction n generalizing s b with
  | zero => simp [exec_zero] at h
  | succ n ih =>
    have hf := step_fol (hS s.ip) hR
    rw [exec_succ] at h
    unfold hexExec hexStep
    rw [show (s.wh b).ip = s.ip from rfl]
    cases hr : step { prog := prog, enc := false, host := taker (jsonView F names hid), fl := F } s with
    | run s1 =>
      rw [hr] at h hf
      replace h : exec _ n s1 = .stop .ok sf := h
      have ho1 : s1.host <+: G := by
        by_cases hn : s1.host <+: G
        · exact hn
        · have := exec_dead (hS 0) n hn
          rw [h] at this
          exact absurd ho this
      obtain ⟨b1, hb, hR1⟩ := hf ho1
      rw [hb]
      exact ih h hR1
    | stop e s1 =>
      rw [hr] at h hf
      simp only [Res.stop.injEq] at h
      obtain ⟨rfl, rfl⟩ := h
      obtain ⟨b1, hb, hR1⟩ := hf ho
      rw [hb, hR1]
    | ub u => rw [hr] at h; cases h

end

/-- **C85.** For a program without arrays of single bytes and without an instruction the callback mistakes for one, `cnd decode --hex` ends
as `cnd decode` does and shows the same document. -/
theorem C85_same_partial (F : FloatOps) (names : List (List Byte)) (hid : Nat → Bool) (hA : HidApart names hid) (prog : List Byte) (hB : NoBulk prog)
    (hP : NoPeek prog) (n : Nat) (old : St JSt) (old' : St JHex) (hold : old' = old.wh old'.host) (buf : List Byte) (sd : St (List Ev))
    (h : exec { prog := prog, enc := false, host := taker (jsonView F names hid), fl := F } n (initSt (old.wh []) buf []) = .stop .ok sd)
    (d : Items) (hdoc : DocOf F names hid 0 0 false sd.host d) (hd : d.Distinct false) :
    ∃ b, jsonDecode F names prog n old buf = .stop .ok (sd.wh b) ∧ b.doc = d ∧ b.ub = false ∧
      hexDecode F names prog n old' buf = .stop .ok (sd.wh (JHex.idle b)) := by
  obtain ⟨hC, h1, h2⟩ := hdoc.clean hd
  obtain ⟨b, hb, hR⟩ := exec_mimics (EA := { prog := prog, enc := false, host := taker (jsonView F names hid), fl := F })
    (EB := { prog := prog, enc := false, host := jsonHost F names false, fl := F }) (b := JSt.start .nil)
    ⟨rfl, rfl, rfl, taker_json hA hC, .inl hB⟩ h (List.prefix_refl _) rfl
  refine ⟨b, hb, by rw [hR, h1], by rw [hR, h2], ?_⟩
  have := hex_mimics hA hC hB hP h (List.prefix_refl _) (b := JHex.start) rfl
  rw [hR, ← this]
  unfold hexDecode
  rw [hold]
  rfl


/-- **C85, packets.** A packet description and a record with its document `d`, as in `C63_packet_partial`. What `cnd encode` writes for `d`
is shown as `d` by `cnd decode --hex` too. -/
theorem C85_packet_partial (F : FloatOps) (names : List (List Byte)) (f : Sch) (hdep : f.depth ≤ 8) (hlen : f.code.length < 2 ^ 31)
    (hB : NoBulk f.code) (hP : NoPeek f.code) (q : P) (hrec : SRec F (jsonView F names fun _ => false) f ⟨0, false, []⟩ q)
    (d : Items) (hdoc : DocOf F names (fun _ => false) 0 0 false q.evs d) (hd : d.Distinct false)
    (old : St JSt) (buf : List Byte) (hbuf : q.pos ≤ 8 * buf.length) :
    ∃ n se, jsonEncode F names f.code n old buf d = .stop .ok se ∧ se.host.ub = false ∧
      ∀ (old' : St JHex) (rest : List Byte),
        ∃ sd, hexDecode F names f.code n old' (se.packet ++ rest) = .stop .ok sd ∧ sd.host.js.doc = d ∧ sd.host.js.ub = false ∧
          sd.cursor = se.cursor ∧ sd.bit = se.bit := by
  obtain ⟨n, sf, h1, h2, h3, h4, _, h5⟩ := C61_packet (jsonView F names fun _ => false) F f hdep hlen q hrec (old.wh ⟨[], []⟩) buf hbuf
  have hA := hidApart_none names
  obtain ⟨b, hb, _, hu⟩ := C63_encode F names (fun _ => false) hA f.code hB n old buf q.evs q.evs (vis_all _ _) sf h1 h2 d hdoc hd
  refine ⟨n, _, hb, hu, fun old' rest => ?_⟩
  obtain ⟨sd, k1, k2, k3, k4, _⟩ := h5 (old'.wh []) rest
  have k2' : sd.host = q.evs := by rw [← k2]; exact (vis_all _ _).symm
  obtain ⟨b', _, hdoc', hu', hx⟩ := C85_same_partial F names (fun _ => false) hA f.code hB hP n (old'.wh (JSt.start .nil)) old' rfl _ sd k1 d
    (by rw [k2']; exact hdoc) hd
  exact ⟨_, hx, hdoc', hu', k3, k4⟩

/-- The further hypothesis holds of the packet description that stands beside `C63_packet_partial`, which has an array of
structs with texts in it. -/
example : NoBulk Demo.jsonSch.code ∧ NoPeek Demo.jsonSch.code := ⟨noBulk_of (by decide +kernel), noPeek_of (by decide +kernel)⟩

/-- The byte two hexadecimal digits stand for: a reading of the digits that does not know how they are written. -/
def unhex : List Byte → Option (List Byte)
  | [] => some []
  | [_] => none
  | a :: b :: r => do
    let v := fun (c : Byte) => if 0x30 ≤ c.toNat ∧ c.toNat ≤ 0x39 then some (c.toNat - 0x30)
      else if 0x41 ≤ c.toNat ∧ c.toNat ≤ 0x46 then some (c.toNat - 0x41 + 10) else none
    let x ← v a
    let y ← v b
    let t ← unhex r
    some (BitVec.ofNat 8 (16 * x + y) :: t)

theorem unhex_pair (b : Byte) (r t : List Byte) (h : unhex r = some t) :
    unhex (hexDigit (b.toNat / 16) :: hexDigit (b.toNat % 16) :: r) = some (b :: t) := by
  have key : ∀ b : Byte, unhex [hexDigit (b.toNat / 16), hexDigit (b.toNat % 16)] = some [b] := by decide +kernel
  have hb := key b
  simp only [unhex, Option.bind_eq_bind] at hb ⊢
  rw [h]
  revert hb
  generalize (if 0x30 ≤ (hexDigit (b.toNat / 16)).toNat ∧ (hexDigit (b.toNat / 16)).toNat ≤ 0x39 then
    some ((hexDigit (b.toNat / 16)).toNat - 0x30) else if 0x41 ≤ (hexDigit (b.toNat / 16)).toNat ∧ (hexDigit (b.toNat / 16)).toNat ≤ 0x46 then
    some ((hexDigit (b.toNat / 16)).toNat - 0x41 + 10) else none) = u
  generalize (if 0x30 ≤ (hexDigit (b.toNat % 16)).toNat ∧ (hexDigit (b.toNat % 16)).toNat ≤ 0x39 then
    some ((hexDigit (b.toNat % 16)).toNat - 0x30) else if 0x41 ≤ (hexDigit (b.toNat % 16)).toNat ∧ (hexDigit (b.toNat % 16)).toNat ≤ 0x46 then
    some ((hexDigit (b.toNat % 16)).toNat - 0x41 + 10) else none) = w
  cases u <;> cases w <;> simp

theorem unhex_append (bs r t : List Byte) (h : unhex r = some t) :
    unhex (bs.flatMap (fun b => [hexDigit (b.toNat / 16), hexDigit (b.toNat % 16)]) ++ r) = some (bs ++ t) := by
  induction bs with
  | nil => exact h
  | cons b bs ih => exact unhex_pair b _ _ ih

theorem append_digits (s : JHex) (bs : List Byte) :
    bs.foldl JHex.append s = { s with digits := s.digits ++ bs.flatMap (fun b => [hexDigit (b.toNat / 16), hexDigit (b.toNat % 16)]) } := by
  induction bs generalizing s with
  | nil => simp
  | cons b bs ih => simp [ih, JHex.append]

/-- **C85, the digits.** Whatever bytes have been gathered since the array began, the string says which, two digits a byte. -/
theorem C85_digits (s : JHex) (hs : s.digits = []) (bs : List Byte) : unhex (bs.foldl JHex.append s).digits = some bs := by
  rw [append_digits, hs, List.nil_append]
  have := unhex_append bs [] [] rfl
  rwa [List.append_nil, List.append_nil] at this

namespace Items

/-- The document as it is printed: only objects and arrays show what is in them. -/
def shown : Items → Items
  | .nil => .nil
  | .item n v kids next => .item n v (if v = .obj ∨ v = .arr then kids.shown else .nil) next.shown

end Items

open Demo

/-- The run succeeds and prints the document `d`; digits that were never printed. -/
def hexB (d : Items) (lost : List Byte) : Res JHex → Bool
  | .stop .ok s => decide (s.host.js.doc.shown = d ∧ s.host.js.ub = false ∧ s.host.digits = lost)
  | _ => false

def hexNames (l : List String) (prog packet : List Byte) : Res JHex := hexDecode Soft.fl (l.map word) prog 300 (zeroSt JHex.start) packet

/-- **Arrays of bytes are not shown.** `data` appears as an empty array and again as an empty string, the byte behind it is taken for one
of its bytes and never printed, and the field behind that is gone too. -/
theorem C85_false_bytes :
    CompilesTo (word "packet P { u8 data[4]; u8 n; u16 m; }") [0x07, 3, 0, 0x34, 0, 0, 4, 0, 0, 0, 0x10, 0, 0, 0x38, 0x10, 1, 0, 0x11, 2, 0] ∧
    hexB (.item (word "data") .arr .nil (jmem (word "data") (.str []))) (word "05")
      (hexNames ["data", "n", "m", "P"] [0x07, 3, 0, 0x34, 0, 0, 4, 0, 0, 0, 0x10, 0, 0, 0x38, 0x10, 1, 0, 0x11, 2, 0] [1, 2, 3, 4, 5, 6, 0]) = true :=
  ⟨compilesTo _ [.decl [] (.packet (word "P") (bodyOf [fieldOf [] "u8" "data" none (.fixed (word "4")), fieldOf [] "u8" "n", fieldOf [] "u16" "m"]))]
    (["data", "n", "m", "P"].map word) [0x07, 3, 0, 0x34, 0, 0, 4, 0, 0, 0, 0x10, 0, 0, 0x38, 0x10, 1, 0, 0x11, 2, 0] (["data", "n", "m", "P"].map word) _
    (by decide +kernel) (by decide +kernel) (by decide +kernel) (by decide +kernel), by decide +kernel⟩

/-- **Arrays of structs are taken for bytes.** The byte the callback looks at belongs to the second field of the struct: two structs become
the string of their bytes `b`, and `a` is not shown. -/
theorem C85_false_structs :
    CompilesTo (word "struct S { u16 a; u8 b; } packet P { S items[2]; }")
      [0x07, 3, 0, 0x34, 0, 0, 2, 0, 0, 0, 0x03, 0, 0, 0x11, 1, 0, 0x10, 2, 0, 0x04, 0x38] ∧
    hexB (jmem (word "items") (.str (word "ABCD"))) []
      (hexNames ["items", "items.a", "items.b", "P"] [0x07, 3, 0, 0x34, 0, 0, 2, 0, 0, 0, 0x03, 0, 0, 0x11, 1, 0, 0x10, 2, 0, 0x04, 0x38]
        [1, 0, 0xAB, 2, 0, 0xCD]) = true :=
  ⟨compilesTo _ [.decl [] (.struct (word "S") (bodyOf [fieldOf [] "u16" "a", fieldOf [] "u8" "b"])),
      .decl [] (.packet (word "P") (bodyOf [fieldOf [] "S" "items" none (.fixed (word "2"))]))]
    (["a", "b", "items", "items.a", "items.b", "P"].map word) [0x07, 5, 0, 0x34, 2, 0, 2, 0, 0, 0, 0x03, 2, 0, 0x11, 3, 0, 0x10, 4, 0, 0x04, 0x38]
    (["items", "items.a", "items.b", "P"].map word) _ (by decide +kernel) (by decide +kernel) (by decide +kernel) (by decide +kernel), by decide +kernel⟩

/-- **Which arrays become digits depends on their limits.** Bytes up to 16 are shown as digits, bytes up to 15 as numbers: the callback
looks at the limit. -/
theorem C85_false_limits :
    CompilesTo (word "packet P { @range(0, 16) u8 data[3]; @range(0, 15) u8 more[2]; }")
      [0x07, 2, 0, 0x34, 0, 0, 3, 0, 0, 0, 0x10, 0, 0, 0x42, 0x10, 0, 16, 0x38, 0x34, 1, 0, 2, 0, 0, 0, 0x10, 1, 0, 0x42, 0x10, 0, 15, 0x38] ∧
    hexB (jmem (word "data") (.str (word "010210")) (.item (word "more") .arr (jmem [] (jnum 4) (jmem [] (jnum 5))) .nil)) []
      (hexNames ["data", "more", "P"]
        [0x07, 2, 0, 0x34, 0, 0, 3, 0, 0, 0, 0x10, 0, 0, 0x42, 0x10, 0, 16, 0x38, 0x34, 1, 0, 2, 0, 0, 0, 0x10, 1, 0, 0x42, 0x10, 0, 15, 0x38]
        [1, 2, 16, 4, 5]) = true :=
  ⟨compilesTo _ [.decl [] (.packet (word "P") (bodyOf [fieldOf [.range (word "0") (word "16")] "u8" "data" none (.fixed (word "3")),
      fieldOf [.range (word "0") (word "15")] "u8" "more" none (.fixed (word "2"))]))]
    (["data", "more", "P"].map word)
    [0x07, 2, 0, 0x34, 0, 0, 3, 0, 0, 0, 0x10, 0, 0, 0x42, 0x10, 0, 16, 0x38, 0x34, 1, 0, 2, 0, 0, 0, 0x10, 1, 0, 0x42, 0x10, 0, 15, 0x38]
    (["data", "more", "P"].map word) _ (by decide +kernel) (by decide +kernel) (by decide +kernel) (by decide +kernel), by decide +kernel⟩

end Cnd
