/-
  The command line tool `cnd` on a file system.

  Models /repo/src/cli/main.c 21-64, cmd_compile.c 6-24 with cnd_compile_file (cndc.c 258-333), cmd_fmt.c 5-15 with cnd_format_file
  (cnd_fmt.c 217-253), cmd_inspect.c 144-457, cmd_encode.c 3-52, cmd_decode.c 3-59 and the file helpers of cli_helpers.c 11-53: which
  files are read and written, and the exit code. Messages are not modelled, nor is `cnd lsp`, which reads its standard input.

  Simplified: reading a file that could be opened gives all of it and writing a file that could be opened succeeds; memory is never
  short, and an empty file is read as an empty block (malloc(0) is not NULL); directories cannot be opened. What realpath makes of a
  path is not changed by the commands.
-/
import Verif.CliLoad
import Verif.Fmt
import Verif.Import
import Verif.Inspect
import Verif.JsonHex
import Verif.Props.Json
import Verif.Props.ParseTerm

namespace Cnd

/-- The file system. A path names a file (`node`), and several paths may name the same one; `data` are the contents of the files that
can be opened for reading, `locked` tells which cannot be opened for writing; `canon` is cnd_canonicalize_path. -/
structure Disk where
  canon : List Byte → List Byte
  node : List Byte → Nat
  data : Nat → Option (List Byte)
  locked : Nat → Bool

namespace Disk

/-- `fopen(path, "rb")` and reading it all, cli_helpers.c 11-37. -/
def read (d : Disk) (p : List Byte) : Option (List Byte) := d.data (d.node p)

/-- `fopen(path, "wb")`, writing and closing, cli_helpers.c 39-53; `none` if it cannot be opened. -/
def write (d : Disk) (p bs : List Byte) : Option Disk :=
  if d.locked (d.node p) then none else some { d with data := fun m => if m = d.node p then some bs else d.data m }

/-- What the compiler sees of it. -/
def files (d : Disk) : Files := ⟨d.canon, d.read⟩

end Disk

/-- What is not part of the repository or left open by it: the float operations and strtod, cJSON's parser (the members of the root; none
if the text is refused) and printer, and what the VM's memory held before. -/
structure Sys where
  P : PEnv
  parse : List Byte → Option Items
  print : Items → List Byte
  oldJ : St JSt
  oldH : St JHex

/-- How a command ends: with an exit code, the disk and the formatted text on standard output; in a server; in undefined behaviour; or
not within the steps allowed. -/
inductive Ending
  | exit (code : Nat) (d : Disk) (said : List Byte)
  | server
  | broken
  | running

/-- `cnd compile in out`, cmd_compile.c 6-24 and cndc.c 258-333. The options only change messages. -/
def cmdCompile (S : Sys) (n : Nat) (d : Disk) (args : List (List Byte)) : Ending :=
  match args with
  | _ :: inp :: out :: _ =>
    match compileFile S.P d.files n inp with
    | .refused => .exit 1 d []
    | .image bs =>
      match d.write out bs with
      | none => .exit 1 d []
      | some d' => .exit 0 d' []
    | .ub => .broken
    | .imports => .broken
    | .stuck => .running
  | _ => .exit 1 d []

/-- `cnd fmt in [out]`, cmd_fmt.c 5-15 and cnd_fmt.c 217-253. -/
def cmdFmt (d : Disk) (args : List (List Byte)) : Ending :=
  match args with
  | _ :: inp :: more =>
    match d.read inp with
    | none => .exit 1 d []
    | some src =>
      match fmtSource (src ++ [0]) with
      | none => .broken
      | some text =>
        match more with
        | [] => .exit 0 d text
        | out :: _ =>
          match d.write out text with
          | none => .exit 1 d []
          | some d' => .exit 0 d' []
  | _ => .exit 1 d []

/-- `cnd inspect file`, cmd_inspect.c 144-457. The offsets are put together as `int`s (175-176). -/
def cmdInspect (d : Disk) (args : List (List Byte)) : Ending :=
  match args with
  | _ :: path :: _ =>
    match d.read path with
    | none => .exit 1 d []
    | some img =>
      if img.length < 16 ∨ img.take 5 ≠ magic then .exit 1 d []
      else
        let count := (leWord ((img.drop 6).take 2)).toNat
        let so := (leWord ((img.drop 8).take 4)).toNat
        let bo := (leWord ((img.drop 12).take 4)).toNat
        if so ≥ 2 ^ 31 ∨ bo ≥ 2 ^ 31 then .broken
        else if so < img.length ∧ cliNames img count so = none then .broken
        else
          match insWalk img.length 0 (img.drop bo) with
          | none => .broken
          | some _ => .exit 0 d []
  | _ => .exit 1 d []

/-- `cnd encode schema in out`, cmd_encode.c 3-52. What write_file_bytes returns is ignored (45). -/
def cmdEncode (S : Sys) (n : Nat) (d : Disk) (args : List (List Byte)) : Ending :=
  match args with
  | _ :: il :: inp :: out :: _ =>
    match d.read il with
    | none => .exit 1 d []
    | some img =>
      match cliLoad img with
      | .refused => .exit 1 d []
      | .ub => .broken
      | .ok names code =>
        match d.read inp with
        | none => .exit 1 d []
        | some text =>
          match S.parse (upToNul text) with
          | none => .exit 1 d []
          | some doc =>
            match jsonEncode S.P.fl names code n S.oldJ (List.replicate 1024 0) doc with
            | .run _ => .running
            | .ub _ => .broken
            | .stop e s =>
              if s.host.ub then .broken
              else if e ≠ .ok then .exit 1 d []
              else .exit 0 ((d.write out (s.buf.take (s.cursor + if s.bit > 0 then 1 else 0))).getD d) []
  | _ => .exit 1 d []

/-- After the run of `cnd decode`, cmd_decode.c 40-58. What write_file_text returns is ignored (51). -/
def decodeEnd (S : Sys) (d : Disk) (out : List Byte) (r : Res σ) (js : σ → JSt) : Ending :=
  match r with
  | .run _ => .running
  | .ub _ => .broken
  | .stop e s =>
    if (js s.host).ub then .broken
    else if e ≠ .ok then .exit 1 d []
    else .exit 0 ((d.write out (S.print (js s.host).doc)).getD d) []

/-- `cnd decode schema in out [--hex]`, cmd_decode.c 3-59. -/
def cmdDecode (S : Sys) (n : Nat) (d : Disk) (args : List (List Byte)) : Ending :=
  match args with
  | _ :: il :: inp :: out :: more =>
    match d.read il with
    | none => .exit 1 d []
    | some img =>
      match cliLoad img with
      | .refused => .exit 1 d []
      | .ub => .broken
      | .ok names code =>
        match d.read inp with
        | none => .exit 1 d []
        | some bin =>
          if more.head? = some (word "--hex") then decodeEnd S d out (hexDecode S.P.fl names code n S.oldH bin) JHex.js
          else decodeEnd S d out (jsonDecode S.P.fl names code n S.oldJ bin) id
  | _ => .exit 1 d []

/-- main.c 21-64; `args` are argv[1] and so on. -/
def cndMain (S : Sys) (n : Nat) (d : Disk) (args : List (List Byte)) : Ending :=
  match args with
  | [] => .exit 1 d []
  | c :: _ =>
    if c = word "compile" then cmdCompile S n d args
    else if c = word "fmt" then cmdFmt d args
    else if c = word "inspect" then cmdInspect d args
    else if c = word "encode" then cmdEncode S n d args
    else if c = word "decode" then cmdDecode S n d args
    else if c = word "lsp" then .server
    else if c = word "help" ∨ c = word "-h" ∨ c = word "--help" then .exit 0 d []
    else if c = word "version" ∨ c = word "-v" ∨ c = word "--version" then .exit 0 d []
    else .exit 1 d []

end Cnd
