/-
  The two small tools: /repo/src/tools/vm_fuzzer.c (the generator of random numbers and the mode "data") and
  /repo/src/tools/hexview.c.

  Not modelled: reading of files and arguments, the progress lines of the fuzzer (68-71), what its mode "il" does with the
  loader's answer (it ignores it), and the seconds taken for the seed (121), which is a parameter.
-/
import Verif.VM

namespace Cnd

/-- xorshift32, vm_fuzzer.c 10-17: the new `rand_state`, which is also the number returned. -/
def xorshift (x : BitVec 32) : BitVec 32 :=
  let a := x ^^^ (x <<< 13)
  let b := a ^^^ (a >>> 17)
  b ^^^ (b <<< 5)

/-- fill_random, vm_fuzzer.c 19-23: `n` bytes, and `rand_state` afterwards. -/
def fillRandom : Nat → BitVec 32 → List Byte × BitVec 32
  | 0, x => ([], x)
  | n + 1, x =>
    let y := xorshift x
    let r := fillRandom n y
    ((y &&& 0xFF).setWidth 8 :: r.1, r.2)

/-- vm_fuzzer.c 55-58: one packet of the mode "data", and `rand_state` afterwards. -/
def fuzzPacket (x : BitVec 32) : List Byte × BitVec 32 :=
  let y := xorshift x
  fillRandom (y.toNat % 4097) y

/-- fuzz_cb, vm_fuzzer.c 26-29: answers CND_ERR_OK and writes nothing. -/
def fuzzHost : Host Unit where
  notify _ _ _ := (true, ())
  scalar _ _ _ w := (true, w, ())
  str _ _ _ := (true, none, ())
  bytesAt _ _ _ _ buf _ := (true, buf, ())

/-- The environment of the runs, vm_fuzzer.c 63. -/
def fuzzEnv (prog : List Byte) (fl : FloatOps) : Env Unit := { prog := prog, enc := false, host := fuzzHost, fl := fl }

/-- The value of an error code, concordia.h 150-160. -/
def Err.fuzzCode : Err → Nat
  | .ok => 0
  | .oob => 1
  | .invalidOp => 2
  | .validation => 3
  | .callback => 4
  | .stackOverflow => 5
  | .stackUnderflow => 6
  | .crcMismatch => 7
  | .arithmetic => 8

/-- What the fuzzer comes to: the counters, undefined behaviour, or a run that is not over. -/
inductive Fuzzed
  | done (counts : List Nat)
  | ub (u : UB)
  | hang
  deriving DecidableEq

/-- vm_fuzzer.c 66: `error_counts[err]++` where the index is in range. -/
def bumpCount (t : List Nat) (e : Err) : List Nat :=
  if e.fuzzCode < 10 then t.set e.fuzzCode (t.getD e.fuzzCode 0 + 1) else t

/-- The loop of fuzz_data, vm_fuzzer.c 53-72: `k` iterations to go, the context (kept from one iteration to the next),
`rand_state`, the counters. Each run is watched for `n` instructions. -/
def fuzzLoop (E : Env Unit) (n : Nat) : Nat → St Unit → BitVec 32 → List Nat → Fuzzed
  | 0, _, _, t => .done t
  | k + 1, ctx, x, t =>
    let p := fuzzPacket x
    match exec E n (initSt ctx p.1 ()) with
    | .stop e s => fuzzLoop E n k s p.2 (bumpCount t e)
    | .ub u => .ub u
    | .run _ => .hang

/-- fuzz_data, vm_fuzzer.c 31-80, after loading: `ctx` is the uninitialised context of line 50. -/
def fuzzData (prog : List Byte) (fl : FloatOps) (n k : Nat) (ctx : St Unit) (seed : BitVec 32) : Fuzzed :=
  fuzzLoop (fuzzEnv prog fl) n k ctx seed (List.replicate 10 0)

/-- vm_fuzzer.c 75-77: the numbers printed, for the codes up to CND_ERR_CRC_MISMATCH. -/
def fuzzReport (t : List Nat) : List Nat := t.take (Err.fuzzCode .crcMismatch + 1)

/-- A digit of `%02X`. -/
def upperHex (n : Nat) : Byte := BitVec.ofNat 8 (if n < 10 then 0x30 + n else 0x41 + (n - 10))

/-- The loop of hexview, hexview.c 20-24, with the `int` `count`: the text printed and the final count; `none` if the
count overflows (undefined in C). -/
def viewLoop : List Byte → Nat → Option (List Byte × Nat)
  | [], c => some ([], c)
  | b :: bs, c =>
    if c = 0x7FFFFFFF then none
    else
      match viewLoop bs (c + 1) with
      | none => none
      | some (t, c') =>
        some (upperHex (b.toNat / 16) :: upperHex (b.toNat % 16) :: 0x20 :: (if (c + 1) % 16 = 0 then 0x0A :: t else t), c')

/-- hexview, hexview.c 17-25: what is printed after the heading. -/
def hexview (file : List Byte) : Option (List Byte) :=
  match viewLoop file 0 with
  | none => none
  | some (t, c) => some (if c % 16 ≠ 0 then t ++ [0x0A] else t)

end Cnd
