/-
  The shape of compiled code, and a check on the tokens of a source text: the specification for C80. Nothing here models C code; the
  instruction lengths are those of the VM (Walk.lean).
-/
import Verif.Parse
import Verif.Walk

namespace Cnd

/-- Instructions of a packet's body that leave control alone. -/
def Op.plain : Op → Bool
  | .jump | .jumpIfNot | .switch | .switchTable | .arrEnd | .arrFixed | .arrPre _ | .arrEof | .arrDynamic | .metaVersion | .metaName
  | .rawBytes | .constWrite | .other => false
  | _ => true

/-- A complete instruction of that kind. SWAP (0x63), which the compiler emits and the VM does not have, counts as one. -/
def Plain (i : List Byte) : Prop :=
  vmLen i = some i.length ∧ ∃ op r, i = op :: r ∧ ((decodeOp op).plain = true ∨ op = 0x63)

/-- A complete instruction that opens an array. -/
def Opens (i : List Byte) : Prop := vmLen i = some i.length ∧ ∃ op r, i = op :: r ∧ (decodeOp op).arr = true

/-- The code of the cases of a switch: each is followed by a jump over the rest and the table, which has `tl` bytes. -/
def caseCode (tl : Nat) : List (List Byte) → List Byte
  | [] => []
  | p :: ps => p ++ 0x52 :: (u32le ((caseCode tl ps).length + tl) ++ caseCode tl ps)

/-- Where the cases start, from `k` on. -/
def caseStarts : Nat → List (List Byte) → List Nat
  | _, [] => []
  | k, p :: ps => k :: caseStarts (k + p.length + 5) ps

/-- A table of labels and places: SWITCH. -/
def sparse (dflt : Nat) (cs : List (Word × Nat)) : List Byte :=
  u16le cs.length ++ (u32le dflt ++ (cs.map fun c => leBytes 8 c.1 ++ u32le c.2).flatten)

/-- A table of one place for every value from `mn` to `mx`: SWITCH_TABLE. -/
def dense (dflt : Nat) (mn mx : Word) (ts : List Nat) : List Byte :=
  leBytes 8 mn ++ (leBytes 8 mx ++ (u32le dflt ++ (ts.map u32le).flatten))

/-- Structured code. The flag `q` admits three pieces of code that are not what the compiler's author meant, the flag `w`
admits switches. -/
inductive Blk (q : Bool) : Bool → List Byte → Prop
  | nil {w} : Blk q w []
  | seq {w a b} : Blk q w a → Blk q w b → Blk q w (a ++ b)
  /-- an instruction -/
  | instr {w i} : Plain i → Blk q w i
  /-- a range check of a boolean: the VM refuses the type -/
  | dud {w} : Blk q w [0x42, 0x1A]
  /-- an array -/
  | loop {w o a} : Opens o → Blk q w a → Blk q w (o ++ (a ++ [0x38]))
  /-- the end of an array whose beginning is missing -/
  | stray {w} : Blk q w [0x38]
  /-- a conditional: over the first part and its jump, or over the second part -/
  | cond {w a b} : Blk q w a → Blk q w b →
      Blk q w (0x50 :: (u32le (a.length + 5) ++ (a ++ 0x52 :: (u32le b.length ++ b))))
  /-- a switch with a table of labels -/
  | switch {k0 k1 : Byte} {ps : List (List Byte)} {d : Nat} {cs : List (Word × Nat)} : (∀ p ∈ ps, Blk q true p) →
      (∀ c ∈ cs, c.2 ∈ caseStarts 0 ps) →
      (d ∈ caseStarts 0 ps ∨ d = (caseCode (sparse d cs).length ps).length + (sparse d cs).length) →
      Blk q true (0x51 :: k0 :: k1 :: (u32le (caseCode (sparse d cs).length ps).length ++
        (caseCode (sparse d cs).length ps ++ sparse d cs)))
  /-- a switch with a jump table -/
  | table {k0 k1 : Byte} {ps : List (List Byte)} {d : Nat} {mn mx : Word} {ts : List Nat} : (∀ p ∈ ps, Blk q true p) →
      mn.toNat ≤ mx.toNat → ts.length = mx.toNat - mn.toNat + 1 → (∀ t ∈ ts, t ∈ caseStarts 0 ps ∨ t = d) →
      (d ∈ caseStarts 0 ps ∨ d = (caseCode (dense d mn mx ts).length ps).length + (dense d mn mx ts).length) →
      Blk q true (0x53 :: k0 :: k1 :: (u32le (caseCode (dense d mn mx ts).length ps).length ++
        (caseCode (dense d mn mx ts).length ps ++ dense d mn mx ts)))
  /-- a boolean bit field: the VM takes the width for an instruction -/
  | flag {w} {k0 k1 n : Byte} : q = true → Blk q w [0x22, k0, k1, n]
  /-- an enumeration of 65536 values or more: the count is cut -/
  | big {w i} : q = true → 65536 ≤ i.length → i.head? = some 0x4B → Blk q w i
  /-- code that has gone through the struct inliner, which mistakes the table of a switch for instructions -/
  | inlined {w a out pre n tab tab'} : q = true → Blk q w a → inlineCode pre n tab a = some (out, tab') → Blk q w out

/-- File-level instructions. -/
inductive Heads : List Byte → Prop
  | nil : Heads []
  | version {c n} : Heads c → Heads (c ++ [0x05, n])
  | little {c} : Heads c → Heads (c ++ [0x01])
  | big {c} : Heads c → Heads (c ++ [0x02])

/-- A whole program: file-level instructions, the one packet, more file-level instructions. -/
def Whole (q : Bool) (code : List Byte) : Prop :=
  ∃ a k0 k1 b c, code = a ++ 0x07 :: k0 :: k1 :: (b ++ c) ∧ Heads a ∧ Blk q true b ∧ Heads c

/-! ### The check on tokens -/

/-- Two or four tokens in a row: a boolean has no bit width but 1 (or 0, which is none), and the keywords `struct` and `packet` are not
where the expression parser would skip them. -/
def windowOk (t : Tok) (ts : List Tok) : Bool :=
  (match ts with
    | _ :: c :: n :: _ => !(t.isWord s_bool && decide (c.type = .colon)) || decide (((parseU32 n.text).setWidth 8 : Byte).toNat ≤ 1)
    | _ => true) &&
  (match ts with
    | n :: _ => !(decide (t.type = .lparen) || decide (t.type = .minus) || decide (t.type = .bang) || decide (t.type = .tilde)) ||
        (decide (n.type ≠ .kwStruct) && decide (n.type ≠ .kwPacket))
    | [] => true)

/-- Every place is like that, and there is no `switch` between a `struct` and the next `packet`. The flag: the last of these two keywords
was `struct`. -/
def Nice : Bool → List Tok → Bool
  | _, [] => true
  | b, t :: ts => windowOk t ts && !(b && decide (t.type = .kwSwitch)) &&
      Nice (if t.type = .kwStruct then true else if t.type = .kwPacket then false else b) ts

end Cnd
