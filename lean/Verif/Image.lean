/-
  The compiled image (.il file): writing it, loading it and looking names up in it.

  Models /repo/src/compiler/cndc.c lines 307-321 (the writer in cnd_compile_file) and
  /repo/src/vm/vm_exec.c lines 538-592 (cnd_program_load, cnd_program_load_il,
  cnd_get_key_name, cnd_get_key_id).

  Pointers into the image are offsets; a read at or after the end of the image is the distinct
  outcome `ub` (in C: a read outside the object).  Not modelled: NULL arguments (the C code
  answers INVALID_OP / NULL / 0xFFFF) and the shift of a byte >= 128 by 24 places, which is a
  signed overflow by the letter of the C standard and taken to have the two's complement value.
-/
import Verif.VM

namespace Cnd

/-- The magic "CNDIL", vm_exec.c 551 and cndc.c 307. -/
def magic : List Byte := [0x43, 0x4E, 0x44, 0x49, 0x4C]

/-- cndc.c 317: the strings one after the other, each with its terminating NUL. -/
def strBytes : List (List Byte) → List Byte
  | [] => []
  | n :: ns => n ++ 0 :: strBytes ns

/-- cndc.c 307-319: the whole image.  `str_count` is cut to 16 bits, `bytecode_offset` to 32. -/
def writeImage (names : List (List Byte)) (code : List Byte) : List Byte :=
  magic ++ 1 :: leBytes 2 (BitVec.ofNat 64 names.length) ++ leBytes 4 16 ++
    leBytes 4 (BitVec.ofNat 64 (16 + (strBytes names).length)) ++ strBytes names ++ code

/-- `cnd_program`, concordia.h: the image it points into, the offset of the string table, the
number of strings and the bytecode. -/
structure Program where
  image : List Byte
  strOff : Nat
  count : Nat
  code : List Byte
  deriving DecidableEq, Repr

/-- What the loader gives: a program or an error code. -/
inductive Loaded
  | ok (P : Program)
  | error (e : Err)
  deriving DecidableEq, Repr

/-- vm_exec.c 546-568, cnd_program_load_il. -/
def loadIl (img : List Byte) : Loaded :=
  if img.length < 16 then .error .oob
  else if img.take 5 ≠ magic then .error .invalidOp
  else if img.getD 5 0 ≠ 1 then .error .invalidOp
  else
    let count := (leWord ((img.drop 6).take 2)).toNat
    let so := (leWord ((img.drop 8).take 4)).toNat
    let bo := (leWord ((img.drop 12).take 4)).toNat
    if so > img.length ∨ bo > img.length then .error .oob
    else .ok ⟨img, so, count, img.drop bo⟩

/-- What a name lookup gives. -/
inductive Look (α : Type)
  | none            -- NULL / 0xFFFF
  | found (a : α)
  | ub              -- read outside the image
  deriving DecidableEq, Repr

/-- vm_exec.c 575-576 (and 586-587): `while (*ptr) ptr++; ptr++;` from offset `p` whose remaining
bytes are given; `none` if the walk leaves the image. -/
def afterNul : List Byte → Nat → Option Nat
  | [], _ => Option.none
  | b :: bs, p => if b = 0 then some (p + 1) else afterNul bs (p + 1)

/-- vm_exec.c 574-577: skip `n` strings. -/
def skipNames (img : List Byte) : Nat → Nat → Option Nat
  | 0, p => some p
  | n + 1, p => (afterNul (img.drop p) p).bind (skipNames img n)

/-- vm_exec.c 570-579, cnd_get_key_name: the offset of the name. -/
def keyName (P : Program) (key : Nat) : Look Nat :=
  if key ≥ P.count then .none
  else match skipNames P.image key P.strOff with
    | some p => .found p
    | Option.none => .ub

/-- `strcmp(ptr, name) == 0` for a C string `name` and the bytes from `ptr` on: the comparison
stops at the first difference; `none` if it leaves the image. -/
def strEq : List Byte → List Byte → Option Bool
  | [], _ => Option.none
  | b :: _, [] => some (b = 0)
  | b :: bs, c :: cs => if b = c then strEq bs cs else some false

/-- vm_exec.c 585-588, one lookup loop: `n` strings left, the current index is `i`. -/
def findName (img name : List Byte) : Nat → Nat → Nat → Look Nat
  | 0, _, _ => .none
  | n + 1, i, p =>
    match strEq (img.drop p) name with
    | Option.none => .ub
    | some true => .found i
    | some false =>
      match afterNul (img.drop p) p with
      | Option.none => .ub
      | some q => findName img name n (i + 1) q

/-- vm_exec.c 581-592, cnd_get_key_id (`none` stands for 0xFFFF). -/
def keyId (P : Program) (name : List Byte) : Look Nat :=
  findName P.image name P.count 0 P.strOff

/-- The C string at offset `p`: what a caller of cnd_get_key_name (or strlen) reads; `none` if
there is no NUL in the rest of the image. -/
def cstrAt (img : List Byte) (p : Nat) : Option (List Byte) :=
  if (0 : Byte) ∈ img.drop p then some ((img.drop p).takeWhile (· ≠ 0)) else Option.none

end Cnd
