/-
  The bytecode walk of `cnd inspect`: /repo/src/cli/cmd_inspect.c 196-445.

  Only the movement of the pointer is modelled, not the printed text. The list is the memory from the pointer to
  the end of the file.
-/
import Verif.Bytes

namespace Cnd

/-- read_u8 … read_u64, cmd_inspect.c 9-35: the pointer stays where it is if there are too few bytes. -/
def adv (n : Nat) (l : List Byte) : List Byte := if l.length < n then l else l.drop n

/-- The value read by read_u8 and read_u16. -/
def insVal (n : Nat) (l : List Byte) : Nat := if l.length < n then 0 else (leWord (l.take n)).toNat

/-- Repeat a read. -/
def advN : Nat → Nat → List Byte → List Byte
  | 0, _, l => l
  | k + 1, n, l => advN k n (adv n l)

/-- Size of a value of an integer type, 0 for other type bytes (cmd_inspect.c 306-309, 384-391). -/
def insSize (t : Nat) : Nat :=
  match t with
  | 0x10 | 0x14 => 1
  | 0x11 | 0x15 => 2
  | 0x12 | 0x16 => 4
  | 0x13 | 0x17 => 8
  | _ => 0

/-- The operands of one instruction, cmd_inspect.c 206-440; `none` if the pointer is moved behind the end of the file. -/
def insOperands (op : Byte) (l : List Byte) : Option (List Byte) :=
  match op.toNat with
  | 0x05 => some (adv 1 l)                                   -- 207-211 META_VERSION
  | 0x07 => some (adv 2 l)                                   -- 213-217 META_NAME
  | 0x10 | 0x11 | 0x12 | 0x13 | 0x14 | 0x15 | 0x16 | 0x17 | 0x18 | 0x19 | 0x1A | 0x03 => some (adv 2 l)
                                                             -- 219-232 IO_*, ENTER_STRUCT
  | 0x30 => some (adv 2 (adv 2 l))                           -- 238-243 STR_NULL
  | 0x31 | 0x32 | 0x33 | 0x35 | 0x36 | 0x37 => some (adv 2 l) -- 245-252
  | 0x20 | 0x21 => some (adv 1 (adv 2 l))                    -- 257-263
  | 0x22 => some (adv 2 l)                                   -- 265-267
  | 0x34 => some (adv 4 (adv 2 l))                           -- 269-274 ARR_FIXED
  | 0x3B => some (adv 2 (adv 2 l))                           -- 276-281 ARR_DYNAMIC
  | 0x39 => some (adv 4 (adv 2 l))                           -- 283-288 RAW_BYTES
  | 0x41 =>                                                  -- 290-298 CONST_WRITE
    let t := insVal 1 l
    some (if t = 0x10 ∨ t = 0x11 ∨ t = 0x12 ∨ t = 0x13 then adv (insSize t) (adv 1 l) else adv 1 l)
  | 0x40 =>                                                  -- 300-309 CONST_CHECK
    let t := insVal 1 (adv 2 l)
    some (adv (insSize t) (adv 1 (adv 2 l)))
  | 0x42 =>                                                  -- 311-325 RANGE_CHECK
    let t := insVal 1 l
    if t = 0x18 then if (adv 1 l).length < 8 then none else some ((adv 1 l).drop 8)
    else if t = 0x19 then if (adv 1 l).length < 16 then none else some ((adv 1 l).drop 16)
    else some (adv (insSize t) (adv (insSize t) (adv 1 l)))
  | 0x43 => some (adv 8 (adv 8 l))                           -- 327-335 SCALE_LIN
  | 0x45 | 0x46 | 0x47 | 0x48 => some (adv 8 l)              -- 337-342
  | 0x4C => some (advN (insVal 1 l) 8 (adv 1 l))             -- 344-355 TRANS_POLY
  | 0x4D => some (advN (2 * insVal 1 l) 8 (adv 1 l))         -- 357-370 TRANS_SPLINE
  | 0x44 => some (adv 1 (adv 2 (adv 2 (adv 2 l))))           -- 372-375 CRC_16
  | 0x49 => some (adv 1 (adv 4 (adv 4 (adv 4 l))))           -- 377-380 CRC_32
  | 0x4B => some (advN (insVal 2 (adv 1 l)) (insSize (insVal 1 l)) (adv 2 (adv 1 l))) -- 382-399 ENUM_CHECK
  | 0x51 => some (adv 4 (adv 2 l))                           -- 401-406 SWITCH
  | 0x52 | 0x50 => some (adv 4 l)                            -- 408-418
  | 0x60 | 0x78 => some (adv 2 l)                            -- 420-430
  | 0x61 => some (adv 8 l)                                   -- 432-436 PUSH_IMM
  | 0x65 => some (adv 1 l)                                   -- 438-442 EMIT
  | 0x23 | 0x24 => some (adv 1 l)                            -- 444-447
  | _ => some l

/-- The loop, cmd_inspect.c 201-450: the offsets printed at the start of the lines, beginning with `off`; `none` if the pointer
is moved behind the end of the file. `fuel` bounds the number of instructions (the length always suffices). -/
def insWalk : Nat → Nat → List Byte → Option (List Nat)
  | 0, _, _ => some []
  | _ + 1, _, [] => some []
  | fuel + 1, off, op :: l =>
    match insOperands op l with
    | none => none
    | some r => (insWalk fuel (off + (l.length + 1 - r.length)) r).map (off :: ·)

end Cnd
