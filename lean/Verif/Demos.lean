/-
  The demonstration programs: /repo/demos/demo_c.c, /repo/demos/demo_cpp.cpp and the loader of /repo/demos/wasm/wasm_bridge.c.

  The machine is little-endian. Not modelled: messages printed, failures of fopen and malloc, the JavaScript behind the wasm bridge.
-/
import Verif.VM
import Verif.Image
import Verif.GoBind

namespace Cnd

/-- TelemetryData, demo_c.c 7-12 (demo_cpp.cpp 9-14); the float is its bits. -/
structure Telemetry where
  device : BitVec 32
  temp : BitVec 32
  battery : Byte
  status : Byte
  deriving DecidableEq, Repr

/-- The application's side of a run: the record, and whether memory was touched that is not the variable the VM passed. -/
structure DemoSt where
  data : Telemetry
  crash : Bool
  deriving DecidableEq, Repr

/-- A case of the callback's switch: `*(T*)ptr = data->f` when encoding, `data->f = *(T*)ptr` when decoding, with `n` the size of T and a
variable of `m` bytes at `ptr`. -/
def demoCase (enc : Bool) (n m : Nat) (val : Word) (set : Word → Telemetry) (s : DemoSt) (cell : Word) : Bool × Word × DemoSt :=
  if m < n then (true, cell, { s with crash := true })
  else if enc then (true, cellSet n val cell, s)
  else (true, cell, { s with data := set cell })

/-- my_io_callback, demo_c.c 23-53, and cpp_io_callback, demo_cpp.cpp 19-44, with a pointer to a variable of `m` bytes holding `cell`
(`m = 0`: NULL). The callback does not look at the type it is given. -/
def demoCb (enc : Bool) (s : DemoSt) (key m : Nat) (cell : Word) : Bool × Word × DemoSt :=
  match key with
  | 0 => demoCase enc 4 m (s.data.device.setWidth 64) (fun w => { s.data with device := w.setWidth 32 }) s cell
  | 1 => demoCase enc 4 m (s.data.temp.setWidth 64) (fun w => { s.data with temp := w.setWidth 32 }) s cell
  | 2 => demoCase enc 1 m (s.data.battery.setWidth 64) (fun w => { s.data with battery := w.setWidth 8 }) s cell
  | 3 => demoCase enc 1 m (s.data.status.setWidth 64) (fun w => { s.data with status := w.setWidth 8 }) s cell
  | _ => (false, cell, s)

/-- The callback as a host of the VM. Where the VM passes the address of a string pointer or of the packet itself, the callback reads or
writes something that is not its variable; all of that counts as `crash`. -/
def demoHost (enc : Bool) : Host DemoSt where
  notify s key _ := let r := demoCb enc s key 0 0; (r.1, r.2.2)
  scalar s key op cell := demoCb enc s key (goCell op) cell
  str s key _ := if key < 4 then (true, none, { s with crash := true }) else (false, none, s)
  bytesAt s key _ _ buf _ := if key < 4 then (true, buf, { s with crash := true }) else (false, buf, s)

/-- How a program gets at its bytecode: it gives up, memory outside the file is taken for bytecode, or the bytecode. -/
inductive DemoLoad
  | fail
  | ub
  | code (bs : List Byte)
  deriving DecidableEq, Repr

/-- demo_c.c 83-88, by cnd_program_load_il. -/
def cLoad (img : List Byte) : DemoLoad :=
  match loadIl img with
  | .ok P => .code P.code
  | .error _ => .fail

/-- `*(uint32_t*)(data + 12)` and cnd_program_load with `data + bytecode_offset` and `size - bytecode_offset`, vm_exec.c 540-546. From a
file of less than 16 bytes, and for an offset behind the end of the file, the read or the program is outside the file. -/
def rawLoad (img : List Byte) : DemoLoad :=
  if img.length < 16 then .ub
  else
    let bo := (leWord ((img.drop 12).take 4)).toNat
    if bo > img.length then .ub else .code (img.drop bo)

/-- demo_cpp.cpp 63-68. -/
def cppLoad (img : List Byte) : DemoLoad := if img.length < 16 then .fail else rawLoad img

/-- init_vm, wasm_bridge.c 29-39. -/
def wasmLoad (img : List Byte) : DemoLoad := rawLoad img

/-- What becomes of a demonstration program: it stops with status 1, is undefined, is still running, or has written the packet and decoded
it. -/
inductive DemoOut
  | fail
  | ub
  | going
  | done (packet : List Byte) (back : Telemetry)
  deriving DecidableEq, Repr

/-- demo_c.c 90-140 and demo_cpp.cpp 70-103: encode `d` into a buffer of 128 zero bytes, decode what was encoded into an empty record. The
context `ctx` is an uninitialised variable. `n` bounds the instructions of each run. -/
def demoBody (fl : FloatOps) (n : Nat) (ctx : St DemoSt) (code : List Byte) (d : Telemetry) : DemoOut :=
  match exec { prog := code, enc := true, host := demoHost true, fl := fl } n (initSt ctx (List.replicate 128 0) ⟨d, false⟩) with
  | .run _ => .going
  | .ub _ => .ub
  | .stop .ok s =>
    if s.host.crash then .ub
    else match exec { prog := code, enc := false, host := demoHost false, fl := fl } n (initSt s (s.buf.take s.cursor) ⟨⟨0, 0, 0, 0⟩, false⟩) with
      | .run _ => .going
      | .ub _ => .ub
      | .stop .ok t => if t.host.crash then .ub else .done (s.buf.take s.cursor) t.host.data
      | .stop _ t => if t.host.crash then .ub else .fail
  | .stop _ s => if s.host.crash then .ub else .fail

/-- `main` of demo_c.c 68-142 and of demo_cpp.cpp 46-104 on a file, with the loader and the record of either. -/
def demoMain (load : List Byte → DemoLoad) (fl : FloatOps) (n : Nat) (ctx : St DemoSt) (img : List Byte) (d : Telemetry) : DemoOut :=
  match load img with
  | .fail => .fail
  | .ub => .ub
  | .code bs => demoBody fl n ctx bs d

/-- demo_c.c 92-97: 0x12345678, 25.5, 85, 1. -/
def demoCRecord : Telemetry := ⟨0x12345678, 0x41CC0000, 85, 1⟩

/-- demo_cpp.cpp 72: 0xCAFEBABE, 36.6, 100, 0. -/
def demoCppRecord : Telemetry := ⟨0xCAFEBABE, 0x42126666, 100, 0⟩

end Cnd
