/-
  The helpers for build scripts: /repo/include/nob_concordia.h 101-128 (cnd_compile, cnd_encode, cnd_decode).

  Each runs the command line tool with a list of words and tells whether its exit code was 0 (nob.h 1360-1428,
  nob_proc_wait). Not modelled: a tool that cannot be started, and the functions that fetch and build the tool (8-97).
-/
import Verif.Cli

namespace Cnd

/-- What a helper comes to: its answer and the disk; the tool met undefined behaviour; the tool has not ended. -/
inductive Helped
  | answer (ok : Bool) (d : Disk)
  | broken
  | running

/-- nob_cmd_run_sync on the words behind the name of the tool, nob.h 1506-1510 and 1360-1428. -/
def nobRun (S : Sys) (n : Nat) (d : Disk) (args : List (List Byte)) : Helped :=
  match cndMain S n d args with
  | .exit code d' _ => .answer (code == 0) d'
  | .server => .running
  | .broken => .broken
  | .running => .running

/-- cnd_compile, nob_concordia.h 103-109. -/
def nobCompile (S : Sys) (n : Nat) (d : Disk) (inp out : List Byte) : Helped :=
  nobRun S n d [word "compile", inp, word "-o", out]

/-- cnd_encode, nob_concordia.h 113-119. -/
def nobEncode (S : Sys) (n : Nat) (d : Disk) (schema json out : List Byte) : Helped :=
  nobRun S n d [word "encode", schema, json, word "-o", out]

/-- cnd_decode, nob_concordia.h 122-128. -/
def nobDecode (S : Sys) (n : Nat) (d : Disk) (schema bin : List Byte) : Helped :=
  nobRun S n d [word "decode", schema, bin]

end Cnd
