/-
  Where control can go in a program, and which bytes belong to an instruction: the specification for C82. Nothing here models C code; the
  instruction lengths and jumps are those of the VM (Walk.lean, VM.lean).
-/
import Verif.CodeShape
import Verif.Code

namespace Cnd

/-- Instructions that do not fall through to the next one. -/
def Op.leaves : Op → Bool
  | .jump | .switch | .switchTable => true
  | _ => false

/-- Where the instruction at `p` can jump to; `none` stands for a place outside the program. -/
def jumps (prog : List Byte) (p : Nat) : List (Option Nat) :=
  match (prog[p]?).map decodeOp with
  | some .jump | some .jumpIfNot => [branch prog.length (p + 5) (fetch prog (p + 1) 4).1]
  | some .switch => (switchOffs prog (p + 7 + (fetch prog (p + 3) 4).1.toNat)).map (branch prog.length (p + 7))
  | some .switchTable => (tableOffs prog (p + 7 + (fetch prog (p + 3) 4).1.toNat)).map (branch prog.length (p + 7))
  | _ => []

/-- The places of a program that control can come to, read off the program alone: the start, the instruction behind one that falls through,
and the targets of jumps. -/
inductive Flow (prog : List Byte) : Nat → Prop
  | start : Flow prog 0
  | next {p n : Nat} {op : Byte} : Flow prog p → prog[p]? = some op → vmLen (prog.drop p) = some n → (decodeOp op).leaves = false →
      Flow prog (p + n)
  | goes {p t : Nat} : Flow prog p → some t ∈ jumps prog p → Flow prog t

/-- The byte at `x` belongs to the table of the switch at `p`. -/
def inTable (prog : List Byte) (p x : Nat) : Prop :=
  match (prog[p]?).map decodeOp with
  | some .switch =>
    let tbl := p + 7 + (fetch prog (p + 3) 4).1.toNat
    tbl ≤ x ∧ x < tbl + 6 + 12 * (fetch prog tbl 2).1.toNat
  | some .switchTable =>
    let tbl := p + 7 + (fetch prog (p + 3) 4).1.toNat
    tbl ≤ x ∧ x < tbl + 20 + 4 * ((fetch prog (tbl + 8) 8).1.toNat - (fetch prog tbl 8).1.toNat + 1)
  | _ => False

/-- The byte at `x` belongs to the instruction at `p`: it is one of its own bytes, or of its table. -/
def owns (prog : List Byte) (p x : Nat) : Prop :=
  (∃ n, vmLen (prog.drop p) = some n ∧ p ≤ x ∧ x < p + n) ∨ inTable prog p x

/-- Every array of the program, when it is empty, is skipped up to an instruction (or the end). -/
def SkipsWell (prog : List Byte) : Prop :=
  ∀ p op n, Flow prog p → prog[p]? = some op → (decodeOp op).arr = true → vmLen (prog.drop p) = some n →
    skipBody prog (p + n) = prog.length ∨ Flow prog (skipBody prog (p + n))

/-- The range check of a boolean, an instruction the VM refuses. -/
def Dud (prog : List Byte) (p : Nat) : Prop := At prog p [0x42, 0x1A]

end Cnd
