/-
  The Go binding: /repo/go/concordia.go (Context, Value, Execute, go_io_callback_gateway; LoadProgram is in CliLoad.lean).

  A user callback is Go code that may do anything with the `Value` it is given; it is represented by the tree of what it does with it,
  one step after the other, ending with the error it returns. The machine is little-endian with 64-bit `int`. What is memory outside the
  object a pointer points to, and Go's run-time panics, are one outcome, `none` (crash). Not modelled: cgo handles, goroutines, failures of
  malloc, the text of error values.
-/
import Verif.VM
import Verif.Image
import Verif.CliLoad

namespace Cnd

/-- What a callback does with its `Value`: `ctx.Mode()` (is it encoding), `UnsafeAddr() == nil`, a getter of `n` bytes (`Uint8` ... `Float64`,
`Bool`), a setter of `n` bytes, `String()`, `SetString`. Signed numbers and floats are their bits. -/
inductive GoCall (σ : Type)
  | ret (ok : Bool) (u : σ)
  | mode (k : Bool → GoCall σ)
  | isNil (k : Bool → GoCall σ)
  | load (n : Nat) (k : Word → GoCall σ)
  | store (n : Nat) (w : Word) (k : GoCall σ)
  | text (k : List Byte → GoCall σ)
  | setText (bs : List Byte) (k : GoCall σ)

/-- What `Value.ptr` points to: nothing, a cell of `m` bytes (and whether it was written to), a `const char*` variable of the VM (here with the number of the C string and its
bytes), position `p` of the packet. -/
inductive GoPtr
  | nil
  | cell (m : Nat) (w : Word) (set : Bool)
  | slot (v : Option (Nat × List Byte))
  | packet (D : List Byte) (p : Nat)

/-- The C strings made by SetString: those allocated and not freed, `pendingStrings`, the number of the next one, and whether one was freed
that was not allocated. -/
structure GoHeap where
  live : List Nat
  pending : List Nat
  next : Nat
  bad : Bool
  deriving DecidableEq, Repr

/-- FreePending, concordia.go 83-88. -/
def GoHeap.free (h : GoHeap) : GoHeap :=
  h.pending.foldl (fun h i => if i ∈ h.live then { h with live := h.live.erase i } else { h with bad := true }) { h with pending := [] }

/-- C.CString and the append to `pendingStrings`, concordia.go 322-324. -/
def GoHeap.alloc (h : GoHeap) : GoHeap := { h with live := h.live ++ [h.next], pending := h.pending ++ [h.next], next := h.next + 1 }

/-- The first `n` bytes of a cell replaced. -/
def cellSet (n : Nat) (w old : Word) : Word := BitVec.ofNat 64 (old.toNat / 2 ^ (8 * n) * 2 ^ (8 * n) + w.toNat % 2 ^ (8 * n))

/-- Value.String, concordia.go 282-319. A length from 2^31 on becomes a negative `C.int`, with which C.GoStringN panics. -/
def goText (op : Byte) (be : Bool) (ptr : GoPtr) : Option (List Byte) :=
  let pre (n : Nat) : Option (List Byte) :=
    match ptr with
    | .packet D p =>
      if p < n then none
      else
        let len := (rdWord be ((D.drop (p - n)).take n)).toNat
        if len ≥ 2 ^ 31 ∨ p + len > D.length then none else some ((D.drop p).take len)
    | _ => none
  match op.toNat with
  | 0x30 => match ptr with
    | .packet D p => cstrAt D p
    | _ => none
  | 0x31 => pre 1
  | 0x32 => pre 2
  | 0x33 => pre 4
  | _ => some []

/-- A getter, concordia.go 328-425. -/
def goLoadAt (n : Nat) : GoPtr → Option Word
  | .cell m w _ => if n ≤ m then some (truncB n w) else none
  | .packet D p => (slice D p n).map leWord
  | _ => none

/-- A setter. -/
def goStoreAt (n : Nat) (w : Word) : GoPtr → Option GoPtr
  | .cell m old _ => if n ≤ m then some (.cell m (cellSet n w old) true) else none
  | .packet D p => (store D p (leBytes n w)).map fun D => .packet D p
  | _ => none

/-- Running a callback on what its value points to. -/
def GoCall.run {σ : Type} (enc : Bool) (op : Byte) (be : Bool) : GoCall σ → GoPtr → GoHeap → Option (Bool × σ × GoPtr × GoHeap)
  | .ret ok u, p, h => some (ok, u, p, h)
  | .mode k, p, h => (k enc).run enc op be p h
  | .isNil k, p, h => (k (match p with | .nil => true | _ => false)).run enc op be p h
  | .load n k, p, h => match goLoadAt n p with
    | none => none
    | some w => (k w).run enc op be p h
  | .store n w k, p, h => match goStoreAt n w p with
    | none => none
    | some p => k.run enc op be p h
  | .text k, p, h => match goText op be p with
    | none => none
    | some bs => (k bs).run enc op be p h
  | .setText bs k, p, h => match p with
    | .slot _ => k.run enc op be (.slot (some (h.next, bs))) h.alloc
    | _ => none

/-- Bytes of the variable whose address the VM passes with an opcode: vm_exec.c 124-279 (scalars, also under transforms, where the opcode
passed is OP_IO_F64 or OP_IO_I64), 980-1038 (bit fields), 359-386 and 1116-1180 (counts), 1237-1403 (context). -/
def goCell (op : Byte) : Nat :=
  match op.toNat with
  | 0x10 | 0x14 | 0x1A | 0x22 | 0x35 => 1
  | 0x11 | 0x15 | 0x36 => 2
  | 0x12 | 0x16 | 0x18 | 0x34 | 0x37 | 0x3B => 4
  | 0x13 | 0x17 | 0x19 | 0x20 | 0x21 | 0x06 | 0x60 | 0x78 => 8
  | _ => 0

/-- The binding's side of a run: the user's state, the C strings, whether the program has crashed. -/
structure GoSt (σ : Type) where
  user : σ
  heap : GoHeap
  crash : Bool
  deriving DecidableEq, Repr

/-- go_io_callback_gateway, concordia.go 256-277: the strings of the call before are freed, then the user's callback runs. -/
def goGate {σ : Type} (cb : σ → Nat → Byte → GoCall σ) (enc : Bool) (s : GoSt σ) (key : Nat) (op : Byte) (be : Bool) (p : GoPtr) :
    Bool × GoPtr × GoSt σ :=
  if s.crash then (false, p, s)
  else match (cb s.user key op).run enc op be p s.heap.free with
    | none => (false, p, { s with crash := true })
    | some (ok, u, p', h) => (ok, p', ⟨u, h, false⟩)

/-- The callback the VM sees. A string left in the VM's variable is read after the call; reading one that is no longer allocated would be a
crash. -/
def goHost {σ : Type} (cb : σ → Nat → Byte → GoCall σ) (enc : Bool) : Host (GoSt σ) where
  notify s key op :=
    let r := goGate cb enc s key op false .nil
    (r.1, r.2.2)
  scalar s key op v :=
    let r := goGate cb enc s key op false (.cell (goCell op) (truncB (goCell op) v) false)
    (r.1, (match r.2.1 with | .cell _ w true => w | _ => v), r.2.2)
  str s key op :=
    let r := goGate cb enc s key op false (.slot none)
    match r.2.1 with
    | .slot (some (i, bs)) => if i ∈ r.2.2.heap.live then (r.1, some (bs ++ [0]), r.2.2) else (false, none, { r.2.2 with crash := true })
    | _ => (r.1, none, r.2.2)
  bytesAt s key op be D p :=
    let r := goGate cb enc s key op be (.packet D p)
    (r.1, (match r.2.1 with | .packet D' _ => D' | _ => D), r.2.2)

/-- The context Execute allocates, concordia.go 203-218: all zero (cnd_init is not called). -/
def goStart {σ : Type} (data : List Byte) (u : σ) : St (GoSt σ) :=
  { buf := data, ip := 0, cursor := 0, bit := 0, be := false, trans := .none, fFactor := 0, fOffset := 0, iVal := 0, polyPos := 0,
    polyCnt := 0, splPos := 0, splCnt := 0, opt := false, loops := [], stack := [], host := ⟨u, ⟨[], [], 0, false⟩, false⟩ }

/-- The error values of the package, concordia.go 28-37, and errors.New of a text. -/
inductive GoErr
  | oob | invalidOp | stackOverflow | stackUnderflow | validation | callback
  | text (s : String)
  deriving DecidableEq, Repr

/-- parseError, concordia.go 44-63, with cnd_error_string, vm_exec.c 1678-1691; `none` is nil. -/
def goError : Err → Option GoErr
  | .ok => none
  | .oob => some .oob
  | .invalidOp => some .invalidOp
  | .stackOverflow => some .stackOverflow
  | .stackUnderflow => some .stackUnderflow
  | .validation => some .validation
  | .callback => some .callback
  | .crcMismatch => some (.text "CRC Mismatch")
  | .arithmetic => some (.text "Arithmetic Error")

/-- Copying back, concordia.go 239-241: C.int of the length is its low 32 bits as a signed number, and C.GoBytes panics if it is
negative. -/
def goCopyBack (data out : List Byte) : Option (List Byte) :=
  if data.length = 0 then some data
  else
    let n := data.length % 2 ^ 32
    if n ≥ 2 ^ 31 then none else some (out.take n ++ data.drop n)

/-- Outcome of Execute: the returned error, the caller's slice and the user's state afterwards, and the C strings after the last FreePending;
a crash; undefined behaviour of the VM; not ended within the given number of steps. -/
inductive GoRun (σ : Type)
  | done (e : Option GoErr) (data : List Byte) (u : σ) (h : GoHeap)
  | crash
  | ub (u : UB)
  | running

/-- Program.Execute, concordia.go 191-246. -/
def goExecute {σ : Type} (fl : FloatOps) (pr : Program) (n : Nat) (data : List Byte) (enc : Bool) (cb : σ → Nat → Byte → GoCall σ) (u : σ) :
    GoRun σ :=
  match exec { prog := pr.code, enc := enc, host := goHost cb enc, fl := fl } n (goStart data u) with
  | .stop e s =>
    if s.host.crash then .crash
    else match goCopyBack data s.buf with
      | none => .crash
      | some d => .done (goError e) d s.host.user s.host.heap.free
  | .ub u => .ub u
  | .run s => if s.host.crash then .crash else .running

/-- Execute of a program image, concordia.go 248-256: `none` if the program cannot be loaded. -/
def goExecuteImage {σ : Type} (fl : FloatOps) (img : List Byte) (n : Nat) (data : List Byte) (enc : Bool) (cb : σ → Nat → Byte → GoCall σ)
    (u : σ) : Option (GoRun σ) :=
  match goLoad img with
  | .ok pr => some (goExecute fl pr n data enc cb u)
  | .error _ => none

end Cnd
