/-
  Bytes, machine words and byte-order conversions.

  Models /repo/src/vm/vm_internal.h lines 53-95 (read_u8..read_u64) and 137-187
  (write_u8..write_u64), plus the instruction-operand fetch macros of
  /repo/src/vm/vm_exec.c lines 678-683 and read_il_* / peek_il_u32
  (vm_internal.h lines 8-51).
-/

namespace Cnd

/-- A byte of the packet buffer or of the bytecode (`uint8_t`). -/
abbrev Byte := BitVec 8

/-- `uint64_t`: the type of expression-stack slots; scalars of all widths are carried in it,
zero-extended. -/
abbrev Word := BitVec 64

/-- vm_internal.h 59-95, little-endian branch: `b[0] | b[1]<<8 | b[2]<<16 | ...`
(the C code unrolls this for 2, 4 and 8 bytes). -/
def leWord : List Byte → Word
  | [] => 0
  | b :: bs => b.setWidth 64 ||| (leWord bs <<< 8)

/-- vm_internal.h 59-95: value of `bs` in the current byte order; big-endian reads
the same bytes from the other end (`b[0]<<8 | b[1]`, ...). -/
def rdWord (be : Bool) (bs : List Byte) : Word :=
  if be then leWord bs.reverse else leWord bs

/-- vm_internal.h 143-187, little-endian branch: `buf[i] = (val >> 8*i) & 0xFF`, `n` bytes. -/
def leBytes : Nat → Word → List Byte
  | 0, _ => []
  | n + 1, w => w.setWidth 8 :: leBytes n (w >>> 8)

/-- vm_internal.h 139-187: the `n` bytes written for `w` in the given byte order. -/
def wrBytes (be : Bool) (n : Nat) (w : Word) : List Byte :=
  if be then (leBytes n w).reverse else leBytes n w

/-- Bounds-checked read of `n` bytes at `p`; `none` is an access outside the object. -/
def slice (buf : List Byte) (p n : Nat) : Option (List Byte) :=
  if p + n ≤ buf.length then some ((buf.drop p).take n) else none

/-- Overwrite `bs` at `p` (meaningful when it fits). -/
def splice (buf : List Byte) (p : Nat) (bs : List Byte) : List Byte :=
  buf.take p ++ bs ++ buf.drop (p + bs.length)

/-- Bounds-checked write of `bs` at `p`; `none` is an access outside the object. -/
def store (buf : List Byte) (p : Nat) (bs : List Byte) : Option (List Byte) :=
  if p + bs.length ≤ buf.length then some (splice buf p bs) else none

/-- vm_exec.c 680-683 (FETCH_IL_U8/U16/U32/U64) and vm_internal.h 8-45 (read_il_*): read an
`n`-byte little-endian operand at `ip`; if the operand is truncated the result is 0 and the
instruction pointer does not move. -/
def fetch (prog : List Byte) (ip n : Nat) : Word × Nat :=
  if ip + n ≤ prog.length then (leWord ((prog.drop ip).take n), ip + n) else (0, ip)

/-- Keep the low `n` bytes of a word: a C conversion to an unsigned type of `n` bytes. -/
def truncB (n : Nat) (w : Word) : Word := BitVec.ofNat 64 (w.toNat % 2 ^ (8 * n))

/-- Interpret the low `n` bytes of a word as a signed `n`-byte integer and convert to `int64_t`
(given as its 64-bit pattern). -/
def sextB (n : Nat) (w : Word) : Word :=
  if n = 1 then (w.setWidth 8).signExtend 64
  else if n = 2 then (w.setWidth 16).signExtend 64
  else if n = 4 then (w.setWidth 32).signExtend 64
  else w

/-- Integer wire types, /repo/include/concordia.h lines 28-37. -/
inductive Ty
  | u8 | u16 | u32 | u64 | i8 | i16 | i32 | i64
  deriving DecidableEq, Repr

namespace Ty
/-- `sizeof` of the C type used for the field (vm_exec.c 937-945). -/
def size : Ty → Nat
  | u8 | i8 => 1
  | u16 | i16 => 2
  | u32 | i32 => 4
  | u64 | i64 => 8

/-- Signedness of the C type. -/
def signed : Ty → Bool
  | i8 | i16 | i32 | i64 => true
  | _ => false
end Ty

/-- `(int64_t)raw` for a value of C type `t` held zero-extended in a word
(vm_exec.c 185, and the comparisons of CHECK_RANGE after the usual promotions). -/
def Ty.toI64 (t : Ty) (w : Word) : Word :=
  if t.signed then sextB t.size w else w

end Cnd
