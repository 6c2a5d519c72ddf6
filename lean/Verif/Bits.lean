import Verif.Bytes
/-
  Bit-field access.  Models /repo/src/vm/vm_internal.h lines 97-135 (read_bits) and
  189-230 (write_bits), and sign_extend (/repo/src/vm/vm_exec.c lines 422-426).
-/

namespace Cnd

/-- Position after consuming one bit: vm_internal.h 128-132 and 224-228. -/
def bumpBit (cur bit : Nat) : Nat × Nat :=
  if bit + 1 ≥ 8 then (cur + 1, 0) else (cur, bit + 1)

/-- One bit of the packet at (`cur`,`bit`): vm_internal.h 113-125. Big-endian streams run from the
most significant bit of each byte. -/
def streamBit (be : Bool) (b : Byte) (bit : Nat) : Bool :=
  if be then b.getLsbD (7 - bit) else b.getLsbD bit

/-- The loop of read_bits, vm_internal.h 109-134: `n` iterations left, loop counter `i`.
`none` is the undefined shift `1 << i` with `i >= 64` (line 125). -/
def readLoop (buf : List Byte) (be : Bool) :
    (n i cur bit : Nat) → (val : Word) → Option (Word × Nat × Nat)
  | 0, _, cur, bit, val => some (val, cur, bit)
  | n + 1, i, cur, bit, val =>
    match buf[cur]? with
    | none => some (val, cur, bit)                                   -- line 111: break
    | some b =>
      let s := streamBit be b bit
      let pos := bumpBit cur bit
      if be then
        readLoop buf be n (i + 1) pos.1 pos.2 ((val <<< 1) ||| (if s then 1 else 0))
      else if s then
        if i ≥ 64 then none
        else readLoop buf be n (i + 1) pos.1 pos.2 (val ||| ((1 : Word) <<< i))
      else readLoop buf be n (i + 1) pos.1 pos.2 val

/-- read_bits, vm_internal.h 97-135: value and new position; `none` is undefined behaviour. -/
def readBits (buf : List Byte) (be : Bool) (cur bit count : Nat) : Option (Word × Nat × Nat) :=
  let bytes := count / 8
  if bit = 0 ∧ count % 8 = 0 ∧ cur + bytes ≤ buf.length ∧
      (bytes = 1 ∨ bytes = 2 ∨ bytes = 4 ∨ bytes = 8) then
    some (rdWord be ((buf.drop cur).take bytes), cur + bytes, 0)
  else readLoop buf be count 0 cur bit 0

/-- Set or clear one stream bit of a byte: vm_internal.h 207-220. -/
def setStreamBit (be : Bool) (b : Byte) (bit : Nat) (v : Bool) : Byte :=
  let mask : Byte := (1 : Byte) <<< (if be then 7 - bit else bit)
  if v then b ||| mask else b &&& ~~~mask

/-- The loop of write_bits, vm_internal.h 201-229: `n` iterations left of `count`, loop counter `i`.
`none` is an undefined shift `val >> k` with `k >= 64` (lines 209, 213). -/
def writeLoop (be : Bool) (val : Word) (count : Nat) :
    (n i : Nat) → (buf : List Byte) → (cur bit : Nat) → Option (List Byte × Nat × Nat)
  | 0, _, buf, cur, bit => some (buf, cur, bit)
  | n + 1, i, buf, cur, bit =>
    match buf[cur]? with
    | none => some (buf, cur, bit)                                   -- line 202: return
    | some b =>
      let k := if be then count - 1 - i else i
      if k ≥ 64 then none
      else
        let pos := bumpBit cur bit
        writeLoop be val count n (i + 1)
          (buf.set cur (setStreamBit be b bit (val.getLsbD k))) pos.1 pos.2

/-- write_bits, vm_internal.h 189-230: new buffer and position; `none` is undefined behaviour. -/
def writeBits (buf : List Byte) (be : Bool) (cur bit : Nat) (val : Word) (count : Nat) :
    Option (List Byte × Nat × Nat) :=
  let bytes := count / 8
  if bit = 0 ∧ count % 8 = 0 ∧ cur + bytes ≤ buf.length ∧
      (bytes = 1 ∨ bytes = 2 ∨ bytes = 4 ∨ bytes = 8) then
    some (splice buf cur (wrBytes be bytes val), cur + bytes, 0)
  else writeLoop be val count count 0 buf cur bit

/-- sign_extend, vm_exec.c 422-426; `bits = 0` shifts by -1, which is undefined (`none`). -/
def signExtendBits (val : Word) (bits : Nat) : Option Word :=
  if bits ≥ 64 then some val
  else if bits = 0 then none
  else
    let m : Word := (1 : Word) <<< (bits - 1)
    some ((val ^^^ m) - m)

end Cnd
