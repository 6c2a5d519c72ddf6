/-
  Dead-string elimination: optimize_strings, /repo/src/compiler/cndc.c 17-255.

  The bytecode is the list from the current offset to the end. An offset that runs past the end ends the loop, as an empty list
  does here.
-/
import Verif.CompUtil

namespace Cnd

/-- get_type_size, cndc.c 6-15. -/
def optTypeSize (b : Byte) : Nat :=
  match b.toNat with
  | 0x10 | 0x14 | 0x1A => 1
  | 0x11 | 0x15 => 2
  | 0x12 | 0x16 | 0x18 => 4
  | 0x13 | 0x17 | 0x19 => 8
  | _ => 0

/-- The opcodes taken to be followed by a string id, cndc.c 31-43 and 154-166. -/
def optKeyed (op : Byte) : Bool :=
  let n := op.toNat
  n = 0x07 ∨ n = 0x03 ∨ (0x10 ≤ n ∧ n ≤ 0x1A) ∨ (0x20 ≤ n ∧ n ≤ 0x22) ∨ (0x30 ≤ n ∧ n ≤ 0x33) ∨ (0x34 ≤ n ∧ n ≤ 0x37) ∨
    n = 0x3A ∨ n = 0x3B ∨ n = 0x40 ∨ n = 0x51 ∨ n = 0x60 ∨ n = 0x06 ∨ n = 0x78

/-- The other arguments, cndc.c 51-128 (`third = false`) and 177-243 (`third = true`): how far the offset moves, `l` being the bytes
behind the opcode and the id. ARR_DYNAMIC is treated in the loops. -/
def optSkip (third : Bool) (op : Byte) (l : List Byte) : Nat :=
  match op.toNat with
  | 0x05 => 1
  | 0x20 | 0x21 | 0x22 => 1
  | 0x23 | 0x24 => 1
  | 0x34 => 4
  | 0x39 => if l.length < 4 then 0 else 4 + (leWord (l.take 4)).toNat
  | 0x40 | 0x41 | 0x61 =>
    match l with
    | [] => 0
    | t :: _ => 1 + optTypeSize t
  | 0x42 =>
    match l with
    | [] => 0
    | t :: _ => 1 + optTypeSize t * 2
  | 0x4B =>
    match l with
    | t :: c0 :: c1 :: _ => 3 + (leWord [c0, c1]).toNat * optTypeSize t
    | _ => 0
  | 0x44 => 7
  | 0x49 => 13
  | 0x43 => 16
  | 0x45 | 0x46 | 0x47 | 0x48 => 8
  | 0x4C =>
    if third then 0 else
    match l with
    | [] => 0
    | c :: _ => 1 + c.toNat * 8
  | 0x4D =>
    if third then 0 else
    match l with
    | [] => 0
    | c :: _ => 1 + c.toNat * 16
  | 0x50 | 0x52 => 4
  | 0x51 => if l.length < 4 then 0 else 4
  | 0x30 => 2
  | _ => 0

/-- The first loop, cndc.c 27-129: the ids met, in this order. -/
def optMarks : Nat → List Byte → List Nat
  | 0, _ => []
  | _ + 1, [] => []
  | fuel + 1, op :: l =>
    if optKeyed op then
      match l with
      | k0 :: k1 :: l =>
        (leWord [k0, k1]).toNat ::
        if op = 0x3B then
          match l with
          | r0 :: r1 :: l => (leWord [r0, r1]).toNat :: optMarks fuel l
          | l => optMarks fuel l
        else optMarks fuel (l.drop (optSkip false op l))
      | _ => []
    else optMarks fuel (l.drop (optSkip false op l))

/-- The second loop, cndc.c 132-144: the new table and the map, for the strings from number `i` on. -/
def optTable (marks : List Nat) : Nat → List (List Byte) → List (List Byte) → List (List Byte) × List Nat
  | _, new, [] => (new, [])
  | i, new, name :: rest =>
    if i ∈ marks then
      let r := strtabAdd new name
      let q := optTable marks (i + 1) r.1 rest
      (q.1, r.2 :: q.2)
    else
      let q := optTable marks (i + 1) new rest
      (q.1, 0 :: q.2)

/-- Replacing one id, cndc.c 168-172. -/
def optId (map : List Nat) (k0 k1 : Byte) : List Byte :=
  match map[(leWord [k0, k1]).toNat]? with
  | some n => leBytes 2 (BitVec.ofNat 64 n)
  | none => [k0, k1]

/-- The third loop, cndc.c 147-244: the new bytecode. -/
def optRewrite (map : List Nat) : Nat → List Byte → List Byte
  | 0, l => l
  | _ + 1, [] => []
  | fuel + 1, op :: l =>
    if optKeyed op then
      match l with
      | k0 :: k1 :: l =>
        op :: (optId map k0 k1 ++
        if op = 0x3B then
          match l with
          | r0 :: r1 :: l => optId map r0 r1 ++ optRewrite map fuel l
          | l => optRewrite map fuel l
        else l.take (optSkip true op l) ++ optRewrite map fuel (l.drop (optSkip true op l)))
      | l => op :: l
    else op :: (l.take (optSkip true op l) ++ optRewrite map fuel (l.drop (optSkip true op l)))

/-- optimize_strings, cndc.c 17-255: the new table and the new bytecode. -/
def optimizeStrings (tab : List (List Byte)) (code : List Byte) : List (List Byte) × List Byte :=
  if tab.length = 0 then (tab, code)
  else
    let marks := optMarks code.length code
    let t := optTable marks 0 [] tab
    (t.1, optRewrite t.2 code.length code)

end Cnd
