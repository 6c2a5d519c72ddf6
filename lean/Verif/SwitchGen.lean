import Verif.VM
/-
  The table part of parse_switch, /repo/src/compiler/cnd_parser.c 639-710: which of the two switch encodings is
  used and what is put into the table. Case and default offsets are taken as already computed (they are
  positions of the code emitted for each case).
-/

namespace Cnd

/-- The linear search of cnd_parser.c 687-692: offset of the first case with this value, else the default. -/
def caseTarget (cases : List (Word × Word)) (dflt v : Word) : Word :=
  match cases.find? (fun c => c.1 == v) with
  | some c => c.2
  | none => dflt

/-- min_val, cnd_parser.c 645-648 (unsigned comparison, starting from the first case). -/
def minCase (first : Word) (rest : List (Word × Word)) : Word :=
  rest.foldl (fun m c => if c.1.ult m then c.1 else m) first

/-- max_val, cnd_parser.c 645-649. -/
def maxCase (first : Word) (rest : List (Word × Word)) : Word :=
  rest.foldl (fun m c => if m.ult c.1 then c.1 else m) first

/-- use_jump_table, cnd_parser.c 640-658: more than three cases, and a range below 256. -/
def useJumpTable (cases : List (Word × Word)) : Bool :=
  match cases with
  | [] => false
  | c :: cs => decide (cases.length > 3) && decide ((maxCase c.1 cs - minCase c.1 cs).toNat < 256)

/-- The offsets of the jump table, cnd_parser.c 682-694: one per value from min_val to max_val. -/
def tableOffsets (cases : List (Word × Word)) (dflt mn : Word) (range : Nat) : List Word :=
  (List.range (range + 1)).map fun i => caseTarget cases dflt (mn + BitVec.ofNat 64 i)

end Cnd
