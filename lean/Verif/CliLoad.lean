/-
  The image loader of the command line tools and of the Go binding.

  Models /repo/src/cli/cli_helpers.c 59-85 (load_il) and /repo/go/concordia.go 111-155 (LoadProgram), on the contents of the file; file
  input and memory allocation failures are not modelled. Reads outside the file's contents are the distinct outcome `ub`.
-/
import Verif.Image

namespace Cnd

/-- What load_il gives: 0 (refused), or the string table and the bytecode of `ILFile`. -/
inductive CliLoaded
  | refused
  | ub
  | ok (names : List (List Byte)) (code : List Byte)
  deriving DecidableEq, Repr

/-- cli_helpers.c 75-78: `n` strings from offset `p`; `none` if strlen leaves the file's contents. -/
def cliNames (img : List Byte) : Nat → Nat → Option (List (List Byte))
  | 0, _ => some []
  | n + 1, p => match cstrAt img p with
    | Option.none => Option.none
    | some s => (cliNames img n (p + s.length + 1)).map (s :: ·)

/-- cli_helpers.c 59-85, load_il. The version byte is not looked at. -/
def cliLoad (img : List Byte) : CliLoaded :=
  if img.length < 16 ∨ img.take 5 ≠ magic then .refused
  else
    let count := (leWord ((img.drop 6).take 2)).toNat
    let so := (leWord ((img.drop 8).take 4)).toNat
    let bo := (leWord ((img.drop 12).take 4)).toNat
    if so > img.length ∨ bo > img.length then .refused
    else match cliNames img count so with
      | Option.none => .ub
      | some names => .ok names (img.drop bo)

/-- concordia.go 111-155, LoadProgram: an image if it begins like one and is long enough, else bare bytecode. -/
def goLoad (data : List Byte) : Loaded :=
  if data.length = 0 then .error .invalidOp
  else if 16 ≤ data.length ∧ data.take 5 = magic then loadIl data
  else .ok ⟨[], 0, 0, data⟩

end Cnd
