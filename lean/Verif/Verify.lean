/-
  The bytecode verifier: /repo/src/vm/vm_verify.c 4-283.

  `ip`, `len` and `instr_len` are `uint32_t`, so their sums wrap modulo 2^32 (`u32`); `len` itself is
  `(uint32_t)bytecode_len`.  A read outside the program is the outcome `ub`.  Left out: the null
  checks of lines 6-8 (the model always has a program), and the C rule that `byte << 24` of a byte
  ≥ 0x80 overflows a 32-bit `int` (taken to give the two's-complement result, as the compilers do).
-/
import Verif.VM

namespace Cnd

def u32 (n : Nat) : Nat := n % 2 ^ 32

/-- Outcome of the verifier: still walking at `ip`, returned a code, or read outside the program. -/
inductive VRes
  | next (ip : Nat)
  | done (e : Err)
  | ub
  deriving DecidableEq, Repr

/-- The bytes `prog[at .. at+n)` as a little-endian number; `none` if one is outside the program. -/
def peekLe (prog : List Byte) (at_ n : Nat) : Option Word :=
  if at_ + n ≤ prog.length then some (leWord ((prog.drop at_).take n)) else none

/-- The `switch (opcode)` of vm_verify.c 21-256: the length the verifier assigns to an instruction;
`none` is the default case, INVALID_OP. -/
def verLen (b : Byte) : Option Nat :=
  match b.toNat with
  -- lines 23-82
  | 0x00 | 0x01 | 0x02 | 0x03 | 0x04 | 0x05 | 0x07 | 0x38 | 0x3A | 0x3B | 0x62 | 0x63 | 0x64 | 0x65
  | 0x72 | 0x73 | 0x74 | 0x75 | 0x76 | 0x77
  | 0x80 | 0x81 | 0x82 | 0x83 | 0x84 | 0x85 | 0x86 | 0x87 | 0x88 | 0x89 | 0x8A | 0x8B
  | 0x90 | 0x91 | 0x92 | 0x93 | 0x94 | 0x95 | 0x96 | 0x97
  | 0xA0 | 0xA1 | 0xA2 | 0xA3 | 0xA4 | 0xA5
  | 0x69 | 0x6A | 0x6B | 0x6C | 0x6D | 0x6E | 0x6F | 0x70 | 0x71
  | 0x60 | 0x78 | 0x4A | 0x25 | 0x26 => some 1
  -- lines 85-88
  | 0x23 | 0x24 => some 2
  -- lines 91-113
  | 0x06 | 0x10 | 0x11 | 0x12 | 0x13 | 0x14 | 0x15 | 0x16 | 0x17 | 0x18 | 0x19 | 0x1A
  | 0x20 | 0x21 | 0x22 | 0x31 | 0x35 | 0x32 | 0x36 | 0x33 | 0x37 => some 3
  | 0x34 => some 7   -- 116-118
  | 0x30 => some 5   -- 120-122
  | 0x39 => some 7   -- 124-126
  | 0x40 | 0x41 => some 12 -- 128-132
  | 0x42 => some 20  -- 134-137
  | 0x43 => some 19  -- 139-142
  | 0x44 | 0x49 => some 1 -- 144-159
  | 0x61 => some 9   -- 161-163
  | 0x52 | 0x50 => some 5 -- 165-168
  | 0x51 | 0x53 => some 7 -- 170-210, 212-255
  | _ => none

/-- `target < 0 || target >= len` negated, for a 32-bit signed offset (e.g. vm_verify.c 193-195). -/
def tgtOk (len base : Nat) (off : Word) : Bool :=
  let t : Int := (base : Int) + (off.setWidth 32).toInt
  decide (0 ≤ t ∧ t < (len : Int))

/-- The loops over case offsets (vm_verify.c 198-203 and 246-251): `n` four-byte offsets, the first at
`at_`, `stride` apart.  `none` is a read outside the program. -/
def offsOk (prog : List Byte) (len base stride : Nat) : Nat → Nat → Option Bool
  | 0, _ => some true
  | n + 1, at_ =>
    match peekLe prog at_ 4 with
    | none => none
    | some o => if tgtOk len base o then offsOk prog len base stride n (at_ + stride) else some false

/-- The checks inside `case OP_SWITCH` (vm_verify.c 170-207): `none` means passed. -/
def verSwitch (prog : List Byte) (len ip : Nat) : Option VRes :=
  if u32 (ip + 7) > len then some (.done .oob)
  else match peekLe prog (ip + 3) 4 with
  | none => some .ub
  | some rel =>
    let ts := u32 (u32 (ip + 7) + rel.toNat)
    if ts > len then some (.done .oob)
    else if ts + 6 > len then some (.done .oob)
    else match peekLe prog ts 2, peekLe prog (ts + 2) 4 with
    | some count, some dflt =>
      if ts + (6 + 12 * count.toNat) > len then some (.done .oob)
      else if tgtOk len (u32 (ip + 7)) dflt = false then some (.done .oob)
      else match offsOk prog len (u32 (ip + 7)) 12 count.toNat (ts + 14) with
        | none => some .ub
        | some false => some (.done .oob)
        | some true => none
    | _, _ => some .ub

/-- The checks inside `case OP_SWITCH_TABLE` (vm_verify.c 212-252): `none` means passed.  `count` is
`uint64_t` and wraps to 0 for the full range. -/
def verTable (prog : List Byte) (len ip : Nat) : Option VRes :=
  if u32 (ip + 7) > len then some (.done .oob)
  else match peekLe prog (ip + 3) 4 with
  | none => some .ub
  | some rel =>
    let ts := u32 (u32 (ip + 7) + rel.toNat)
    if ts > len then some (.done .oob)
    else if ts + 20 > len then some (.done .oob)
    else match peekLe prog ts 8, peekLe prog (ts + 8) 8, peekLe prog (ts + 16) 4 with
    | some mn, some mx, some dflt =>
      if mx.toNat < mn.toNat then some (.done .validation)
      else
        let count := (mx.toNat - mn.toNat + 1) % 2 ^ 64
        if count > 0xFFFFFFFF then some (.done .oob)
        else if 20 + count * 4 > 0xFFFFFFFF then some (.done .oob)
        else if ts + (20 + count * 4) > len then some (.done .oob)
        else if tgtOk len (u32 (ip + 7)) dflt = false then some (.done .oob)
        else match offsOk prog len (u32 (ip + 7)) 4 count (ts + 20) with
          | none => some .ub
          | some false => some (.done .oob)
          | some true => none
    | _, _, _ => some .ub

/-- What precedes the fit check: the two switch cases have checks of their own. -/
def verTables (prog : List Byte) (len ip : Nat) (op : Byte) : Option VRes :=
  if op = 0x51 then verSwitch prog len ip
  else if op = 0x53 then verTable prog len ip
  else none

/-- One round of the `while` loop, vm_verify.c 14-280. -/
def verStep (prog : List Byte) (ip : Nat) : VRes :=
  let len := u32 prog.length
  match prog[ip]? with
  | none => .ub
  | some op =>
    match verLen op with
    | none => .done .invalidOp
    | some n =>
      match verTables prog len ip op with
      | some r => r
      | none =>
        if u32 (ip + n) > len then .done .oob
        else if op = 0x52 ∨ op = 0x50 then
          match peekLe prog (ip + 1) 4 with
          | none => .ub
          | some o => if tgtOk len (ip + 5) o then .next (u32 (ip + n)) else .done .oob
        else .next (u32 (ip + n))

/-- `fuel` rounds of the loop from `ip`. -/
def verRun (prog : List Byte) : Nat → Nat → VRes
  | 0, ip => .next ip
  | f + 1, ip =>
    if ip < u32 prog.length then
      match verStep prog ip with
      | .next ip' => verRun prog f ip'
      | r => r
    else .done .ok

/-- cnd_verify_program returns CND_ERR_OK. -/
def Accepted (prog : List Byte) : Prop := ∃ f, verRun prog f 0 = .done .ok

end Cnd
