/-
  Utilities of the compiler: the string table, number literals and struct inlining.

  Models /repo/src/compiler/cnd_utils.c lines 30-167 (get_opcode_size_and_keyid_offset),
  169-231 (buf_append_with_prefix), 304-324 (strtab_add), 434-493 (hex_char_to_int,
  parse_number_u32, parse_number_i64).

  A C string is the list of its bytes without the terminating NUL; growing buffers
  (buf_append, buf_push, realloc) are lists, memory exhaustion is not modelled.
-/
import Verif.VM

namespace Cnd

/-! ### The string table -/

/-- The first position of `name` in the table: the loop of cnd_utils.c 311-315 (`strlen` and
`strncmp` together compare whole strings). -/
def nameIdx (tab : List (List Byte)) (name : List Byte) : Option Nat :=
  tab.findIdx? (· = name)

/-- cnd_utils.c 310-324, strtab_add: the new table and the id, cut to 16 bits. -/
def strtabAdd (tab : List (List Byte)) (name : List Byte) : List (List Byte) × Nat :=
  match nameIdx tab name with
  | some i => (tab, i % 65536)
  | none => (tab ++ [name], tab.length % 65536)

/-! ### Number literals -/

/-- cnd_utils.c 436-441, hex_char_to_int. -/
def hexVal (c : Byte) : Nat :=
  if 0x30 ≤ c.toNat ∧ c.toNat ≤ 0x39 then c.toNat - 0x30
  else if 0x61 ≤ c.toNat ∧ c.toNat ≤ 0x66 then c.toNat - 0x61 + 10
  else if 0x41 ≤ c.toNat ∧ c.toNat ≤ 0x46 then c.toNat - 0x41 + 10
  else 0

/-- `c >= '0' && c <= '9'`. -/
def isDigit (c : Byte) : Bool := 0x30 ≤ c.toNat ∧ c.toNat ≤ 0x39

/-- The test for a `0x` prefix with something behind it, cnd_utils.c 446 and 474. -/
def hexBody : List Byte → Option (List Byte)
  | z :: x :: d :: ds =>
    if z = 0x30 ∧ (x = 0x78 ∨ x = 0x58) then some (d :: ds) else none
  | _ => none

/-- cnd_utils.c 447-449 and 475-478: `res = (res << 4) | digit` in a `w`-bit unsigned integer. -/
def hexLoop (w : Nat) (res : BitVec w) : List Byte → BitVec w
  | [] => res
  | c :: cs => hexLoop w ((res <<< 4) ||| BitVec.ofNat w (hexVal c)) cs

/-- cnd_utils.c 451-455 and 480-485: other characters than digits are skipped. -/
def decLoop (w : Nat) (res : BitVec w) : List Byte → BitVec w
  | [] => res
  | c :: cs =>
    if isDigit c then decLoop w (res * 10 + BitVec.ofNat w (c.toNat - 0x30)) cs
    else decLoop w res cs

/-- The magnitude part shared by both functions. -/
def magnitude (w : Nat) (s : List Byte) : BitVec w :=
  match hexBody s with
  | some ds => hexLoop w 0 ds
  | none => decLoop w 0 s

/-- cnd_utils.c 443-458, parse_number_u32. -/
def parseU32 (s : List Byte) : BitVec 32 := magnitude 32 s

/-- cnd_utils.c 460-488, parse_number_i64; `none` is the signed overflow of `-(int64_t)res` for
`res = 2^63`. -/
def parseI64 (s : List Byte) : Option Word :=
  match s with
  | [] => some 0
  | c :: cs =>
    if c = 0x2D then
      let r := magnitude 64 cs
      if r = BitVec.intMin 64 then none else some (-r)
    else if c = 0x2B then some (magnitude 64 cs)
    else some (magnitude 64 s)

/-! ### Struct inlining -/

/-- cnd_utils.c 31-167, get_opcode_size_and_keyid_offset: the size of an instruction and whether a
key follows the opcode byte (the C function's offset is 1 whenever there is one); `none` is the
answer -1. -/
def inlineSize (op : Byte) : Option (Nat × Bool) :=
  let n := op.toNat
  -- 36-93: no operands
  if n = 0x00 ∨ n = 0x01 ∨ n = 0x02 ∨ n = 0x04 ∨ n = 0x38 ∨ n = 0x26 ∨ n = 0x25 ∨
      (0x69 ≤ n ∧ n ≤ 0x77) ∨ (0xA0 ≤ n ∧ n ≤ 0xA5) ∨ n = 0x62 ∨ n = 0x63 ∨ n = 0x64 ∨
      (0x80 ≤ n ∧ n ≤ 0x8B) ∨ (0x90 ≤ n ∧ n ≤ 0x97) then some (1, false)
  -- 95-98: ALIGN_PAD, ALIGN_FILL, EMIT
  else if n = 0x23 ∨ n = 0x24 ∨ n = 0x65 then some (2, false)
  -- 101-121: opcode and key
  else if n = 0x03 ∨ n = 0x07 ∨ n = 0x05 ∨ (0x10 ≤ n ∧ n ≤ 0x1A) ∨ n = 0x22 ∨ n = 0x60 ∨
      n = 0x78 ∨ n = 0x3A then some (3, true)
  -- 123-126: IO_BIT_U, IO_BIT_I
  else if n = 0x20 ∨ n = 0x21 then some (4, true)
  -- 128-130: STR_NULL
  else if n = 0x30 then some (5, true)
  -- 132-139: prefixed strings and arrays
  else if (0x31 ≤ n ∧ n ≤ 0x33) ∨ (0x35 ≤ n ∧ n ≤ 0x37) then some (3, true)
  -- 141-144: ARR_FIXED, RAW_BYTES
  else if n = 0x34 ∨ n = 0x39 then some (7, true)
  -- 146-148: ARR_DYNAMIC
  else if n = 0x3B then some (5, true)
  -- 150-152: JUMP, JUMP_IF_NOT
  else if n = 0x52 ∨ n = 0x50 then some (5, false)
  -- 154-155: PUSH_IMM
  else if n = 0x61 then some (9, false)
  -- 157-159: SWITCH
  else if n = 0x51 then some (7, true)
  else none

/-- cnd_utils.c 192-209: the name a key gets under the prefix.  `none` stands for the fallback for
names of 512 bytes and more, which copies past the end of a 512-byte array or hands uninitialised
bytes to strtab_add. -/
def prefixedName (pre : List Byte) (tab : List (List Byte)) (key : Nat) : Option (List Byte) :=
  let old := tab.getD key []
  if pre.length + 1 + old.length < 512 then some (pre ++ 0x2E :: old) else none

/-- cnd_utils.c 169-231, buf_append_with_prefix: the bytes appended and the new table; at most
`fuel` instructions (the length of `src` is always enough). -/
def inlineCode (pre : List Byte) : Nat → List (List Byte) → List Byte →
    Option (List Byte × List (List Byte))
  | 0, tab, src => some (src, tab)
  | fuel + 1, tab, src =>
    match src with
    | [] => some ([], tab)
    | op :: _ =>
      match inlineSize op with
      | none => some (src, tab)
      | some (size, hasKey) =>
        if src.length < size then some (src, tab)
        else if hasKey then
          match prefixedName pre tab (leWord ((src.drop 1).take 2)).toNat with
          | none => none
          | some name =>
            let r := strtabAdd tab name
            (inlineCode pre fuel r.1 (src.drop size)).map fun q =>
              (op :: leBytes 2 (BitVec.ofNat 64 r.2) ++ (src.drop 3).take (size - 3) ++ q.1, q.2)
        else
          (inlineCode pre fuel tab (src.drop size)).map fun q => (src.take size ++ q.1, q.2)

end Cnd
