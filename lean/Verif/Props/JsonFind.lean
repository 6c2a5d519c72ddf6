import Verif.Props.Json
import Verif.Props.EndToEnd
/-
  C63: what the JSON tools do with records outside the theorems of Verif/Props/Json.lean. All of these are witnesses with IEEE double
  precision (`Soft.fl`): small programs, packets and documents.
-/

namespace Cnd

/-- The run succeeds and leaves the document `d`; `u` tells whether the binding did something undefined. -/
def docB (d : Items) (u : Bool) : Res JSt → Bool
  | .stop .ok s => decide (s.host.doc = d ∧ s.host.ub = u)
  | _ => false

def callbackB {σ : Type} : Res σ → Bool
  | .stop .callback _ => true
  | _ => false

namespace Demo

/-- Names `a`, `b`, `a.x`, `A`. -/
def jn : List (List Byte) := [[0x61], [0x62], [0x61, 0x2E, 0x78], [0x41]]

def jdec (prog packet : List Byte) : Res JSt := jsonDecode Soft.fl jn prog 200 (zeroSt (JSt.start .nil)) packet
def jenc (prog buf : List Byte) (d : Items) : Res JSt := jsonEncode Soft.fl jn prog 200 (zeroSt (JSt.start .nil)) buf d

/-- The number `n`. -/
def jnum (n : Nat) : JVal := .num (BitVec.ofNat 64 (Soft.bitsOfNat n))

/-- One member after others. -/
def jmem (name : List Byte) (v : JVal) (next : Items := .nil) : Items := .item name v .nil next

end Demo

open Demo

/-- `uint32` from 2^31: the packet is shown right, but encoding what was shown gives another packet. -/
theorem C63_u32_witness :
    docB (jmem [0x61] (jnum 0x80000000)) false (jdec [0x12, 0, 0] [0, 0, 0, 0x80]) = true ∧
    wroteB [0xFF, 0xFF, 0xFF, 0x7F] (jenc [0x12, 0, 0] [0, 0, 0, 0] (jmem [0x61] (jnum 0x80000000))) = true := by decide +kernel

/-- `uint64` above 2^53 is shown rounded: two packets, one document. -/
theorem C63_u64_witness :
    docB (jmem [0x61] (jnum (2 ^ 53))) false (jdec [0x13, 0, 0] [0, 0, 0, 0, 0, 0, 0x20, 0]) = true ∧
    docB (jmem [0x61] (jnum (2 ^ 53))) false (jdec [0x13, 0, 0] [1, 0, 0, 0, 0, 0, 0x20, 0]) = true := by decide +kernel

/-- An array of bytes `a` (three of them) and a byte `b`. Decoding: `a` twice, the first empty, the second with the value of `b`; none of
the bytes of the array is shown, and there is no `b`. -/
theorem C63_bytes_decode_witness :
    docB (.item [0x61] .arr .nil (.item [0x61] .arr (jmem [] (jnum 4)) .nil)) false
      (jdec [0x34, 0, 0, 3, 0, 0, 0, 0x10, 0, 0, 0x38, 0x10, 1, 0] [1, 2, 3, 4]) = true := by decide +kernel

/-- Encoding: the bytes of the array are left as they are in the buffer (zero), and `b` is the array's first element. -/
theorem C63_bytes_encode_witness :
    wroteB [0, 0, 0, 1] (jenc [0x34, 0, 0, 3, 0, 0, 0, 0x10, 0, 0, 0x38, 0x10, 1, 0] [0, 0, 0, 0]
      (.item [0x61] .arr (jmem [] (jnum 1) (jmem [] (jnum 2) (jmem [] (jnum 3)))) (jmem [0x62] (jnum 4)))) = true := by decide +kernel

/-- An empty array `a` of `uint16` and a byte `b`: decoding shows `b` as an element of the array, encoding `{"a": [], "b": 4}` writes 0
for `b`. -/
theorem C63_empty_witness :
    docB (.item [0x61] .arr (jmem [] (jnum 4)) .nil) false (jdec [0x35, 0, 0, 0x11, 0, 0, 0x38, 0x10, 1, 0] [0, 4]) = true ∧
    wroteB [0, 0] (jenc [0x35, 0, 0, 0x11, 0, 0, 0x38, 0x10, 1, 0] [9, 9] (.item [0x61] .arr .nil (jmem [0x62] (jnum 4)))) = true := by
  decide +kernel

/-- A string with a 32-bit big-endian length: the VM reads the length 1, the binding 2^24. -/
theorem C63_prefix_witness : docB .nil true (jdec [0x02, 0x33, 0, 0] [0, 0, 0, 1, 0x41]) = true := by decide +kernel

/-- A string of the maximal length (2) whose end mark is missing: the VM takes the byte after it for the mark, the binding reads on,
here past the end of the packet; and with more fields behind, into them. -/
theorem C63_string_witness :
    docB .nil true (jdec [0x30, 0, 0, 2, 0] [0x41, 0x42, 0x43]) = true ∧
    docB (jmem [0x61] (.str [0x41, 0x42, 0x43, 0x44]) (jmem [0x62] (jnum 0x44) (jmem [0x78] (jnum 0)))) false
      (jdec [0x30, 0, 0, 2, 0, 0x10, 1, 0, 0x10, 2, 0] [0x41, 0x42, 0x43, 0x44, 0]) = true := by decide +kernel

/-- Thirty-two structs inside one another write behind the binding's stack; thirty-one do not. -/
theorem C63_nesting_witness :
    (match jdec (List.replicate 32 [0x03, 0, 0]).flatten [] with
      | .stop .ok s => s.host.ub
      | _ => false) = true ∧
    (match jdec (List.replicate 31 [0x03, 0, 0]).flatten [] with
      | .stop .ok s => !s.host.ub
      | _ => false) = true := by decide +kernel

/-- Two fields `a` and `A`: encoding takes the first for both. -/
theorem C63_case_witness :
    docB (jmem [0x61] (jnum 1) (jmem [0x41] (jnum 2))) false (jdec [0x10, 0, 0, 0x10, 3, 0] [1, 2]) = true ∧
    wroteB [1, 1] (jenc [0x10, 0, 0, 0x10, 3, 0] [0, 0] (jmem [0x61] (jnum 1) (jmem [0x41] (jnum 2)))) = true := by decide +kernel

/-- A condition on a member `a.x` of a struct `a` that has ended: the binding asks for `x` in the outer object, and decoding fails. -/
theorem C63_member_witness : callbackB (jdec [0x03, 0, 0, 0x10, 2, 0, 0x04, 0x60, 2, 0] [1]) = true := by decide +kernel

/-- Array elements with a constant and a byte (two of them): all are shown, but encoding does not step over the constants. -/
theorem C63_constant_witness :
    docB (.item [0x61] .arr (jmem [] (jnum 7) (jmem [] (jnum 1) (jmem [] (jnum 7) (jmem [] (jnum 2))))) .nil) false
      (jdec ([0x34, 0, 0, 2, 0, 0, 0] ++ [0x40, 1, 0, 0x10, 7] ++ [0x10, 1, 0, 0x01] ++ [0x38]) [7, 1, 7, 2]) = true ∧
    wroteB [7, 7, 7, 1] (jenc ([0x34, 0, 0, 2, 0, 0, 0] ++ [0x40, 1, 0, 0x10, 7] ++ [0x10, 1, 0, 0x01] ++ [0x38]) [0, 0, 0, 0]
      (.item [0x61] .arr (jmem [] (jnum 7) (jmem [] (jnum 1) (jmem [] (jnum 7) (jmem [] (jnum 2))))) .nil)) = true := by decide +kernel

end Cnd
