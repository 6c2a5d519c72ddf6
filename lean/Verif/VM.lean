import Verif.Bits
import Verif.Crc
/-
  The virtual machine.  Models /repo/src/vm/vm_exec.c (cnd_init lines 593-620, cnd_execute lines
  671-1676 and its helpers) over the types of /repo/include/concordia.h lines 150-250.
-/

namespace Cnd

/-- Error codes, concordia.h lines 150-160 (`CND_ERR_OK` is the outcome `.stop .ok`). -/
inductive Err
  | ok | oob | invalidOp | validation | callback | stackOverflow | stackUnderflow
  | crcMismatch | arithmetic
  deriving DecidableEq, Repr

/-- Kinds of undefined behaviour the C code can run into. -/
inductive UB
  | dataOOB   -- packet buffer accessed outside [0, data_len)
  | codeOOB   -- bytecode accessed outside [0, bytecode_len)
  | shift     -- shift amount outside the type's width
  | overflow  -- signed 64-bit overflow
  | fconv     -- float-to-integer conversion out of range
  deriving DecidableEq, Repr

/-- concordia.h 172-181 (cnd_trans_t). -/
inductive Trans
  | none | scale | add | sub | mul | div | poly | spline
  deriving DecidableEq, Repr

/-- concordia.h 186-189 (cnd_loop_frame). -/
structure Frame where
  start : Nat
  rem : Nat
  deriving DecidableEq, Repr

/-- Floating point is a parameter of the model: `double` is a `Word` (its bit pattern), `float` a
`BitVec 32`. `none` for the conversions to integers is C's undefined out-of-range conversion. -/
structure FloatOps where
  add : Word → Word → Word
  sub : Word → Word → Word
  mul : Word → Word → Word
  div : Word → Word → Word
  neg : Word → Word
  eq : Word → Word → Bool
  lt : Word → Word → Bool
  le : Word → Word → Bool
  sin : Word → Word
  cos : Word → Word
  tan : Word → Word
  sqrt : Word → Word
  log : Word → Word
  abs : Word → Word
  floor : Word → Word
  pow : Word → Word → Word
  /-- `(double)(int64_t)x` -/
  ofI64 : Word → Word
  /-- `(double)(uint64_t)x` -/
  ofU64 : Word → Word
  /-- `(ctype)d` for an integer type -/
  toTy : Ty → Word → Option Word
  /-- `(float)d` -/
  toF32 : Word → BitVec 32
  /-- `(double)f` -/
  ofF32 : BitVec 32 → Word
  sub32 : BitVec 32 → BitVec 32 → BitVec 32
  lt32 : BitVec 32 → BitVec 32 → Bool
  /-- `(float)(int64_t)x` -/
  f32ofI64 : Word → BitVec 32
  /-- `(int64_t)f` -/
  f32toI64 : BitVec 32 → Option Word

/-- The host callback (concordia.h 197-202), one function per kind of `data_ptr` the VM passes:
`notify` (NULL), `scalar` (pointer to an integer/float cell, which the host may read and/or
overwrite), `str` (pointer to a `const char*` to be set; `none` is NULL), `bytesAt` (pointer to
position `pos` of the packet buffer; the host may overwrite the packet; `be` is `ctx->endianness`,
which the host sees because the callback receives the context). `true` is `CND_ERR_OK`. -/
structure Host (σ : Type) where
  notify : σ → (key : Nat) → (op : Byte) → Bool × σ
  scalar : σ → (key : Nat) → (op : Byte) → (cell : Word) → Bool × Word × σ
  str : σ → (key : Nat) → (op : Byte) → Bool × Option (List Byte) × σ
  bytesAt : σ → (key : Nat) → (op : Byte) → (be : Bool) → (buf : List Byte) → (pos : Nat) → Bool × List Byte × σ

/-- The fixed part of a run: bytecode, mode, host, floating point. -/
structure Env (σ : Type) where
  prog : List Byte
  enc : Bool
  host : Host σ
  fl : FloatOps

/-- The mutable part of `cnd_vm_ctx` (concordia.h 211-250) together with the packet buffer and the host's
own state. `data_len` is `buf.length`; `loops` and `stack` have their top first. -/
structure St (σ : Type) where
  buf : List Byte
  ip : Nat
  cursor : Nat
  bit : Nat
  be : Bool
  trans : Trans
  fFactor : Word
  fOffset : Word
  iVal : Word
  polyPos : Nat
  polyCnt : Nat
  splPos : Nat
  splCnt : Nat
  opt : Bool
  loops : List Frame
  stack : List Word
  host : σ

/-- Result of one instruction: continue, return from cnd_execute with a code, or undefined behaviour. -/
inductive Res (σ : Type)
  | run (s : St σ)
  | stop (e : Err) (s : St σ)
  | ub (u : UB)

/-- CND_MAX_LOOP_DEPTH and CND_MAX_EXPR_STACK, concordia.h 183-184. -/
def maxDepth : Nat := 8

/-- cnd_init, vm_exec.c 593-620. The fields that cnd_init leaves alone (polynomial and spline
pointers and counts) keep their previous values from `old`; the stacks' storage above the new depth 0
is never read, so only the depths are kept. 0x3FF0000000000000 is 1.0. -/
def initSt {σ : Type} (old : St σ) (buf : List Byte) (user : σ) : St σ :=
  { old with
    buf := buf, ip := 0, cursor := 0, bit := 0, be := false, loops := [], stack := [],
    trans := .none, fFactor := 0x3FF0000000000000, fOffset := 0, iVal := 0, opt := false,
    host := user }

/-! ### Integer transforms (vm_exec.c 98-116) -/

/-- An `int64_t` arithmetic result, `none` on signed overflow. -/
def i64? (x : Int) : Option Word :=
  if -(2 ^ 63 : Int) ≤ x ∧ x < 2 ^ 63 then some (BitVec.ofInt 64 x) else none

/-- vm_math_int_to_eng, vm_exec.c 98-106 (and the same switch at 252-258). -/
def intToEng (t : Trans) (iv raw : Word) : Option Word :=
  match t with
  | .add => i64? (raw.toInt + iv.toInt)
  | .sub => i64? (raw.toInt - iv.toInt)
  | .mul => i64? (raw.toInt * iv.toInt)
  | .div => if iv ≠ 0 then i64? (raw.toInt.tdiv iv.toInt) else some raw
  | _ => some raw

/-- vm_math_int_to_raw, vm_exec.c 108-116 (and the same switch at 240-246). -/
def intToRaw (t : Trans) (iv eng : Word) : Option Word :=
  match t with
  | .add => i64? (eng.toInt - iv.toInt)
  | .sub => i64? (eng.toInt + iv.toInt)
  | .mul => if iv ≠ 0 then i64? (eng.toInt.tdiv iv.toInt) else some eng
  | .div => i64? (eng.toInt * iv.toInt)
  | _ => some eng

/-! ### Polynomial and spline transforms (vm_exec.c 17-96) -/

/-- The `n` doubles stored in the bytecode from `pos` (memcpy, little-endian machine). -/
def doublesAt (prog : List Byte) (pos n : Nat) : List Word :=
  (List.range n).map fun i => leWord ((prog.drop (pos + 8 * i)).take 8)

/-- vm_math_poly_eval, vm_exec.c 17-31 (Horner from the last coefficient). -/
def polyEval (F : FloatOps) (cs : List Word) (x : Word) : Word :=
  match cs.reverse with
  | [] => 0
  | c :: rest => rest.foldl (fun y c => F.add (F.mul y x) c) c

/-- Value and derivative, vm_exec.c 36-49. -/
def polyEvalD (F : FloatOps) (cs : List Word) (x : Word) : Word × Word :=
  match cs.reverse with
  | [] => (0, 0)
  | c :: rest => rest.foldl (fun (y, dy) c => (F.add (F.mul y x) c, F.add (F.mul dy x) y)) (c, 0)

/-- vm_math_poly_solve, vm_exec.c 33-56: Newton iteration, `n` rounds left
(constants are the bit patterns of -0.001 and 0.001). -/
def polySolve (F : FloatOps) (cs : List Word) (target : Word) : Nat → Word → Word
  | 0, x => x
  | n + 1, x =>
    let yd := polyEvalD F cs x
    let diff := F.sub yd.1 target
    if F.lt 0xBF50624DD2F1A9FC diff && F.lt diff 0x3F50624DD2F1A9FC then x
    else if F.eq yd.2 0 then x
    else polySolve F cs target n (F.sub x (F.div diff yd.2))

/-- The loop of vm_math_spline_eval, vm_exec.c 61-73, over the flat list x0,y0,x1,y1,... -/
def splineEval (F : FloatOps) (x : Word) : List Word → Word
  | x0 :: y0 :: x1 :: y1 :: rest =>
    if (F.le x0 x && F.le x x1) || rest.length < 2 then
      if F.eq x1 x0 then y0
      else F.add y0 (F.div (F.mul (F.sub x x0) (F.sub y1 y0)) (F.sub x1 x0))
    else splineEval F x (x1 :: y1 :: rest)
  | _ => 0

/-- The loop of vm_math_spline_solve, vm_exec.c 81-93. -/
def splineSolve (F : FloatOps) (ty : Word) : List Word → Word
  | x0 :: y0 :: x1 :: y1 :: rest =>
    if (F.le y0 ty && F.le ty y1) || (F.le ty y0 && F.le y1 ty) then
      if F.eq y1 y0 then x0
      else F.add x0 (F.div (F.mul (F.sub ty y0) (F.sub x1 x0)) (F.sub y1 y0))
    else splineSolve F ty (x1 :: y1 :: rest)
  | _ => 0

/-! ### Opcodes -/

/-- Width of a length prefix: 1, 2 or 4 bytes. -/
inductive Pre
  | p1 | p2 | p4
  deriving DecidableEq, Repr

def Pre.size : Pre → Nat
  | .p1 => 1
  | .p2 => 2
  | .p4 => 4

/-- Binary expression operators on integers. -/
inductive IBin
  | add | sub | mul | div | mod | eq | neq | gt | lt | gte | lte | land | lor
  | band | bor | bxor | shl | shr
  deriving DecidableEq, Repr

/-- Binary expression operators on doubles. -/
inductive FBin
  | add | sub | mul | div | pow | eq | neq | gt | lt | gte | lte
  deriving DecidableEq, Repr

/-- Unary expression operators. -/
inductive Un
  | neg | bnot | lnot | fneg | sin | cos | tan | sqrt | log | abs | itof | ftoi
  deriving DecidableEq, Repr

/-- Instructions by family. `other` is every byte for which cnd_execute takes `default: break`
(vm_exec.c 1669-1670); this includes OP_SWAP (0x63) and OP_CTX_QUERY (0x06). -/
inductive Op
  | noop | setLE | setBE | enterStruct | exitStruct | metaVersion | metaName
  | io (t : Ty) | ioF32 | ioF64 | ioBool
  | bitU | bitI | bitBool | alignPad | alignFill | enterBit | exitBit
  | strNull | strPre (p : Pre) | arrFixed | arrPre (p : Pre) | arrEnd | rawBytes | arrEof
  | arrDynamic
  | constCheck | constWrite | rangeCheck | scaleLin | crc16 | crc32 | transI (t : Trans)
  | markOptional | enumCheck | transPoly | transSpline
  | jumpIfNot | switch | jump | switchTable
  | loadCtx | pushImm | pop | dup | emit | storeCtx
  | ibin (o : IBin) | fbin (o : FBin) | un (o : Un)
  | other
  deriving DecidableEq, Repr

/-- Opcode numbers, /repo/include/concordia.h lines 15-146, grouped as in the switch of cnd_execute. -/
def decodeOp (b : Byte) : Op :=
  match b.toNat with
  | 0x00 => .noop | 0x01 => .setLE | 0x02 => .setBE | 0x03 => .enterStruct | 0x04 => .exitStruct
  | 0x05 => .metaVersion | 0x07 => .metaName
  | 0x10 => .io .u8 | 0x11 => .io .u16 | 0x12 => .io .u32 | 0x13 => .io .u64
  | 0x14 => .io .i8 | 0x15 => .io .i16 | 0x16 => .io .i32 | 0x17 => .io .i64
  | 0x18 => .ioF32 | 0x19 => .ioF64 | 0x1A => .ioBool
  | 0x20 => .bitU | 0x21 => .bitI | 0x22 => .bitBool | 0x23 => .alignPad | 0x24 => .alignFill
  | 0x25 => .enterBit | 0x26 => .exitBit
  | 0x30 => .strNull | 0x31 => .strPre .p1 | 0x32 => .strPre .p2 | 0x33 => .strPre .p4
  | 0x34 => .arrFixed | 0x35 => .arrPre .p1 | 0x36 => .arrPre .p2 | 0x37 => .arrPre .p4
  | 0x38 => .arrEnd | 0x39 => .rawBytes | 0x3A => .arrEof | 0x3B => .arrDynamic
  | 0x40 => .constCheck | 0x41 => .constWrite | 0x42 => .rangeCheck | 0x43 => .scaleLin
  | 0x44 => .crc16 | 0x45 => .transI .add | 0x46 => .transI .sub | 0x47 => .transI .mul
  | 0x48 => .transI .div | 0x49 => .crc32 | 0x4A => .markOptional | 0x4B => .enumCheck
  | 0x4C => .transPoly | 0x4D => .transSpline
  | 0x50 => .jumpIfNot | 0x51 => .switch | 0x52 => .jump | 0x53 => .switchTable
  | 0x60 => .loadCtx | 0x61 => .pushImm | 0x62 => .pop | 0x64 => .dup | 0x65 => .emit
  | 0x69 => .ibin .eq | 0x6A => .ibin .neq | 0x6B => .ibin .gt | 0x6C => .ibin .lt
  | 0x6D => .ibin .gte | 0x6E => .ibin .lte | 0x6F => .ibin .land | 0x70 => .ibin .lor
  | 0x71 => .un .lnot
  | 0x72 => .ibin .add | 0x73 => .ibin .sub | 0x74 => .ibin .mul | 0x75 => .ibin .div
  | 0x76 => .ibin .mod | 0x77 => .un .neg | 0x78 => .storeCtx
  | 0x80 => .fbin .add | 0x81 => .fbin .sub | 0x82 => .fbin .mul | 0x83 => .fbin .div
  | 0x84 => .un .fneg | 0x85 => .un .sin | 0x86 => .un .cos | 0x87 => .un .tan
  | 0x88 => .un .sqrt | 0x89 => .fbin .pow | 0x8A => .un .log | 0x8B => .un .abs
  | 0x90 => .un .itof | 0x91 => .un .ftoi
  | 0x92 => .fbin .eq | 0x93 => .fbin .neq | 0x94 => .fbin .gt | 0x95 => .fbin .lt
  | 0x96 => .fbin .gte | 0x97 => .fbin .lte
  | 0xA0 => .ibin .band | 0xA1 => .ibin .bor | 0xA2 => .ibin .bxor | 0xA3 => .un .bnot
  | 0xA4 => .ibin .shl | 0xA5 => .ibin .shr
  | _ => .other

/-- ALIGN_TABLE, vm_exec.c 511-536. -/
def aligns (b : Byte) : Bool :=
  let n := b.toNat
  (0x10 ≤ n && n ≤ 0x1F) || (0x30 ≤ n && n ≤ 0x3F) || n == 0x40 || n == 0x41 || n == 0x44 ||
    n == 0x49 || (0x4B ≤ n && n ≤ 0x4F)

/-- The type tag operand of CONST/RANGE/ENUM/EMIT instructions, if it names an integer type. -/
def tyTag (b : Word) : Option Ty :=
  match b.toNat with
  | 0x10 => some .u8 | 0x11 => some .u16 | 0x12 => some .u32 | 0x13 => some .u64
  | 0x14 => some .i8 | 0x15 => some .i16 | 0x16 => some .i32 | 0x17 => some .i64
  | _ => none

section
variable {σ : Type}

/-! ### Host calls and buffer access -/

/-- A callback whose data pointer is NULL (vm_exec.c 711, 718, 1212). -/
def callNotify (E : Env σ) (s : St σ) (key : Nat) (op : Byte) (k : St σ → Res σ) : Res σ :=
  let r := E.host.notify s.host key op
  if r.1 then k { s with host := r.2 } else .stop .callback { s with host := r.2 }

/-- A callback with a pointer to a cell of `n` bytes holding `v`; the continuation gets the cell's
contents after the call. -/
def callScalar (E : Env σ) (s : St σ) (key : Nat) (op : Byte) (n : Nat) (v : Word)
    (k : St σ → Word → Res σ) : Res σ :=
  let r := E.host.scalar s.host key op v
  if r.1 then k { s with host := r.2.2 } (truncB n r.2.1)
  else .stop .callback { s with host := r.2.2 }

/-- The packet after the host was given a pointer into it. Memory cannot change size. -/
def hostBuf (old new : List Byte) : List Byte := if new.length = old.length then new else old

/-- Read `n` bytes at `p` in the current byte order. -/
def rdAt (s : St σ) (p n : Nat) (k : Word → Res σ) : Res σ :=
  match slice s.buf p n with
  | none => .ub .dataOOB
  | some bs => k (rdWord s.be bs)

/-- Write the low `n` bytes of `w` at `p` in the current byte order. -/
def wrAt (s : St σ) (p n : Nat) (w : Word) (k : St σ → Res σ) : Res σ :=
  match store s.buf p (wrBytes s.be n w) with
  | none => .ub .dataOOB
  | some b => k { s with buf := b }

/-- Instruction operand fetch (vm_exec.c 680-683). -/
def fet (E : Env σ) (s : St σ) (n : Nat) (k : Word → St σ → Res σ) : Res σ :=
  let r := fetch E.prog s.ip n
  k r.1 { s with ip := r.2 }

/-! ### Scalars -/

/-- HANDLE_PRIMITIVE, vm_exec.c 124-205; `op` is the opcode byte. -/
def handlePrim (E : Env σ) (t : Ty) (op : Byte) (s : St σ) : Res σ :=
  fet E s 2 fun key s =>
  let key := key.toNat
  if s.cursor + t.size > s.buf.length then
    if s.opt then
      callScalar E { s with opt := false } key op t.size 0 fun s _ => .run s
    else .stop .oob s
  else
    let fin (s : St σ) : Res σ :=
      .run { s with trans := .none, cursor := s.cursor + t.size, opt := false }
    -- a floating-point view of the field: `down` maps host value to raw, `up` maps raw to host value
    let viaF64 (down : Word → Option Word) (up : Word → Word) : Res σ :=
      if E.enc then
        callScalar E s key 0x19 8 0 fun s eng =>
        match down eng with
        | none => .ub .fconv
        | some v => wrAt s s.cursor t.size v fin
      else
        rdAt s s.cursor t.size fun raw =>
        callScalar E s key 0x19 8 (up raw) fun s _ => fin s
    let toDbl (raw : Word) : Word :=
      if t = .u64 then E.fl.ofU64 raw else E.fl.ofI64 (t.toI64 raw)
    match s.trans with
    | .none =>
      if E.enc then
        callScalar E s key op t.size 0 fun s v => wrAt s s.cursor t.size v fin
      else
        rdAt s s.cursor t.size fun v => callScalar E s key op t.size v fun s _ => fin s
    | .scale =>
      viaF64 (fun eng => E.fl.toTy t (E.fl.div (E.fl.sub eng s.fOffset) s.fFactor))
        (fun raw => E.fl.add (E.fl.mul (toDbl raw) s.fFactor) s.fOffset)
    | .poly =>
      if s.polyPos + 8 * s.polyCnt > E.prog.length then .ub .codeOOB
      else
        let cs := doublesAt E.prog s.polyPos s.polyCnt
        viaF64 (fun eng => E.fl.toTy t (polySolve E.fl cs eng 20 0))
          (fun raw => polyEval E.fl cs (toDbl raw))
    | .spline =>
      if s.splPos + 16 * s.splCnt > E.prog.length then .ub .codeOOB
      else
        let ps := doublesAt E.prog s.splPos (2 * s.splCnt)
        viaF64 (fun eng => E.fl.toTy t (splineSolve E.fl eng ps))
          (fun raw => splineEval E.fl (toDbl raw) ps)
    | tr =>
      if E.enc then
        callScalar E s key 0x17 8 0 fun s eng =>
        match intToRaw tr s.iVal eng with
        | none => .ub .overflow
        | some v => wrAt s s.cursor t.size v fin
      else
        rdAt s s.cursor t.size fun raw =>
        match intToEng tr s.iVal (t.toI64 raw) with
        | none => .ub .overflow
        | some eng => callScalar E s key 0x17 8 eng fun s _ => fin s

/-- HANDLE_FLOAT, vm_exec.c 208-279; `dbl` selects double (8 bytes) or float (4 bytes). -/
def handleFloat (E : Env σ) (dbl : Bool) (op : Byte) (s : St σ) : Res σ :=
  let size := if dbl then 8 else 4
  let toD (t : Word) : Word := if dbl then t else E.fl.ofF32 (t.setWidth 32)
  let ofD (d : Word) : Word := if dbl then d else (E.fl.toF32 d).setWidth 64
  let ofI (i : Word) : Word := if dbl then E.fl.ofI64 i else (E.fl.f32ofI64 i).setWidth 64
  let toI (t : Word) : Option Word := if dbl then E.fl.toTy .i64 t else E.fl.f32toI64 (t.setWidth 32)
  fet E s 2 fun key s =>
  let key := key.toNat
  if s.cursor + size > s.buf.length then
    if s.opt then
      callScalar E { s with opt := false } key op size 0 fun s _ => .run s
    else .stop .oob s
  else
    let fin (s : St σ) : Res σ :=
      .run { s with trans := .none, cursor := s.cursor + size, opt := false }
    match s.trans with
    | .none =>
      if E.enc then
        callScalar E s key op size 0 fun s v => wrAt s s.cursor size v fin
      else
        rdAt s s.cursor size fun v => callScalar E s key op size v fun s _ => fin s
    | .scale =>
      if E.enc then
        callScalar E s key 0x19 8 0 fun s eng =>
          wrAt s s.cursor size (ofD (E.fl.div (E.fl.sub eng s.fOffset) s.fFactor)) fin
      else
        rdAt s s.cursor size fun raw =>
        callScalar E s key 0x19 8 (E.fl.add (E.fl.mul (toD raw) s.fFactor) s.fOffset)
          fun s _ => fin s
    | tr =>
      if E.enc then
        callScalar E s key 0x17 8 0 fun s eng =>
        match intToRaw tr s.iVal eng with
        | none => .ub .overflow
        | some v => wrAt s s.cursor size (ofI v) fin
      else
        rdAt s s.cursor size fun raw =>
        match toI raw with
        | none => .ub .fconv
        | some r =>
          match intToEng tr s.iVal r with
          | none => .ub .overflow
          | some eng => callScalar E s key 0x17 8 eng fun s _ => fin s

/-- OP_IO_BOOL, vm_exec.c 947-974. -/
def handleBool (E : Env σ) (op : Byte) (s : St σ) : Res σ :=
  fet E s 2 fun key s =>
  let key := key.toNat
  if s.cursor + 1 > s.buf.length then
    if s.opt then
      callScalar E { s with opt := false } key op 1 0 fun s _ => .run s
    else .stop .oob s
  else
    let fin (s : St σ) : Res σ := .run { s with cursor := s.cursor + 1, opt := false }
    if E.enc then
      callScalar E s key op 1 0 fun s v =>
      if v.toNat > 1 then .stop .validation s else wrAt s s.cursor 1 v fin
    else
      rdAt s s.cursor 1 fun v =>
      if v.toNat > 1 then .stop .validation s
      else callScalar E s key op 1 v fun s _ => fin s

/-! ### Bit fields -/

/-- write_bits on the VM state. -/
def putBits (s : St σ) (v : Word) (n : Nat) (k : St σ → Res σ) : Res σ :=
  match writeBits s.buf s.be s.cursor s.bit v n with
  | none => .ub .shift
  | some (b, c, o) => k { s with buf := b, cursor := c, bit := o }

/-- read_bits on the VM state. -/
def getBits (s : St σ) (n : Nat) (k : Word → St σ → Res σ) : Res σ :=
  match readBits s.buf s.be s.cursor s.bit n with
  | none => .ub .shift
  | some (v, c, o) => k v { s with cursor := c, bit := o }

/-- OP_IO_BIT_U, vm_exec.c 980. -/
def handleBitU (E : Env σ) (op : Byte) (s : St σ) : Res σ :=
  fet E s 2 fun key s => fet E s 1 fun b s =>
  if E.enc then
    callScalar E s key.toNat op 8 0 fun s v => putBits s v b.toNat .run
  else
    getBits s b.toNat fun v s => callScalar E s key.toNat op 8 v fun s _ => .run s

/-- OP_IO_BIT_I, vm_exec.c 1008-1023. -/
def handleBitI (E : Env σ) (op : Byte) (s : St σ) : Res σ :=
  fet E s 2 fun key s => fet E s 1 fun b s =>
  if E.enc then
    callScalar E s key.toNat op 8 0 fun s v => putBits s v b.toNat .run
  else
    getBits s b.toNat fun raw s =>
    match signExtendBits raw b.toNat with
    | none => .ub .shift
    | some v => callScalar E s key.toNat op 8 v fun s _ => .run s

/-- OP_IO_BIT_BOOL, vm_exec.c 1024-1039. -/
def handleBitBool (E : Env σ) (op : Byte) (s : St σ) : Res σ :=
  fet E s 2 fun key s =>
  if E.enc then
    callScalar E s key.toNat op 1 0 fun s v =>
    if v.toNat > 1 then .stop .validation s else putBits s v 1 .run
  else
    getBits s 1 fun v s => callScalar E s key.toNat op 1 v fun s _ => .run s

/-- OP_ALIGN_PAD, vm_exec.c 1040-1050. -/
def handlePad (E : Env σ) (s : St σ) : Res σ :=
  fet E s 1 fun b s =>
  if E.enc then putBits s 0 b.toNat .run
  else
    let total := s.bit + b.toNat
    .run { s with cursor := s.cursor + total / 8, bit := total % 8 }

/-- OP_ALIGN_FILL, vm_exec.c 994-1007. -/
def handleFill (E : Env σ) (s : St σ) : Res σ :=
  fet E s 1 fun fill s =>
  if s.bit > 0 then
    if E.enc then putBits s (if fill ≠ 0 then 0xFFFFFFFFFFFFFFFF else 0) (8 - s.bit) .run
    else getBits s (8 - s.bit) fun _ s => .run s
  else .run s

/-! ### Strings -/

/-- Bytes `strlen` counts: up to the first NUL; a NULL pointer counts as empty (vm_exec.c 401, 1069). -/
def cstr : Option (List Byte) → List Byte
  | none => []
  | some bs => bs.takeWhile (· ≠ 0)

/-- The callback asking the host for a string (vm_exec.c 394-400, 1061-1067). -/
def callStr (E : Env σ) (s : St σ) (key : Nat) (op : Byte) (k : St σ → List Byte → Res σ) : Res σ :=
  let r := E.host.str s.host key op
  if r.1 then k { s with host := r.2.2 } (cstr r.2.1)
  else if s.opt then .run { s with host := r.2.2, opt := false }
  else .stop .callback { s with host := r.2.2 }

/-- A callback with a pointer to packet position `p`. -/
def callAt (E : Env σ) (s : St σ) (key : Nat) (op : Byte) (p : Nat) (k : St σ → Res σ)
    (bad : St σ → Res σ) : Res σ :=
  let r := E.host.bytesAt s.host key op s.be s.buf p
  let s := { s with host := r.2.2, buf := hostBuf s.buf r.2.1 }
  if r.1 then k s else bad s

/-- Write raw bytes at the cursor position `p`. -/
def wrRaw (s : St σ) (p : Nat) (bs : List Byte) (k : St σ → Res σ) : Res σ :=
  match store s.buf p bs with
  | none => .ub .dataOOB
  | some b => k { s with buf := b }

/-- OP_STR_NULL, vm_exec.c 1054-1106. -/
def handleStrNull (E : Env σ) (op : Byte) (s : St σ) : Res σ :=
  fet E s 2 fun key s => fet E s 2 fun maxLen s =>
  let m := maxLen.toNat
  if E.enc then
    callStr E s key.toNat op fun s str =>
    let bs := str.take m
    if s.cursor + bs.length + 1 > s.buf.length then .stop .oob s
    else
      wrRaw s s.cursor (bs ++ [0]) fun s =>
      .run { s with cursor := s.cursor + bs.length + 1, opt := false }
  else if s.cursor > s.buf.length then
    -- `data_len - cursor` wraps (line 1083): memchr searches past the end of the buffer;
    -- with max_len = 0 nothing is searched and the bounds check of line 1096 fires
    if m = 0 then .stop .oob s else .ub .dataOOB
  else
    let window := (s.buf.drop s.cursor).take m
    let len := (window.takeWhile (· ≠ 0)).length
    let start := s.cursor
    let s : St σ := { s with cursor := s.cursor + len }
    if s.cursor ≥ s.buf.length then .stop .oob s
    else
      callAt E s key.toNat op start
        (fun s => .run { s with cursor := s.cursor + 1, opt := false })
        (fun s => .stop .callback s)

/-- HANDLE_STRING_PRE, vm_exec.c 388-420. -/
def handleStrPre (E : Env σ) (p : Pre) (op : Byte) (s : St σ) : Res σ :=
  fet E s 2 fun key s =>
  if E.enc then
    callStr E s key.toNat op fun s str =>
    let bs := str.take (2 ^ (8 * p.size) - 1)
    if s.cursor + p.size + bs.length > s.buf.length then .stop .oob s
    else
      wrAt s s.cursor p.size (BitVec.ofNat 64 bs.length) fun s =>
      wrRaw s (s.cursor + p.size) bs fun s =>
      .run { s with cursor := s.cursor + p.size + bs.length, opt := false }
  else if s.cursor + p.size > s.buf.length then .stop .oob s
  else
    rdAt s s.cursor p.size fun len =>
    if s.cursor + p.size + len.toNat > s.buf.length then .stop .oob s
    else
      callAt E s key.toNat op (s.cursor + p.size)
        (fun s => .run { s with cursor := s.cursor + p.size + len.toNat, opt := false })
        (fun s => .stop .callback s)

/-! ### Arrays -/

/-- Opcodes that open an array, as recognised by skip_loop_body (vm_exec.c 310-311). -/
def isArrOp (b : Byte) : Bool :=
  b == 0x34 || b == 0x35 || b == 0x36 || b == 0x37 || b == 0x3A || b == 0x3B

/-- The scan of skip_loop_body, vm_exec.c 306-315, over the bytes from `ip` on: number of bytes
skipped at nesting `depth`. -/
def skipScan : List Byte → Nat → Nat
  | [], _ => 0
  | _ :: _, 0 => 0
  | b :: bs, d + 1 =>
    1 + skipScan bs (if isArrOp b then d + 2 else if b == 0x38 then d else d + 1)

/-- skip_loop_body, vm_exec.c 306-315. -/
def skipBody (prog : List Byte) (ip : Nat) : Nat := ip + skipScan (prog.drop ip) 1

/-- loop_push (vm_exec.c 317-323) and its failure `return CND_ERR_OOB` (379, 1136, 1182). -/
def pushLoop (s : St σ) (count : Nat) : Res σ :=
  if s.loops.length ≥ maxDepth then .stop .oob s
  else .run { s with loops := ⟨s.ip, count⟩ :: s.loops }

/-- try_optimize_byte_array followed by loop_push / skip_loop_body: vm_exec.c 331-355 and
376-384, 1133-1141, 1180-1186. -/
def enterArray (E : Env σ) (s : St σ) (count : Nat) : Res σ :=
  if count = 0 then .run { s with ip := skipBody E.prog s.ip }
  else
    match E.prog[s.ip]?, E.prog[s.ip + 3]? with
    | some nextOp, some afterOp =>
      if (nextOp == 0x10 || nextOp == 0x14) && afterOp == 0x38 &&
          decide (s.cursor + count ≤ s.buf.length) then
        let key := leWord ((E.prog.drop (s.ip + 1)).take 2)
        callAt E s key.toNat 0x39 s.cursor
          (fun s => .run { s with cursor := s.cursor + count, ip := s.ip + 4 })
          (fun s => pushLoop s count)
      else pushLoop s count
    | _, _ => pushLoop s count

/-- HANDLE_ARRAY_PRE, vm_exec.c 359-386. -/
def handleArrPre (E : Env σ) (p : Pre) (op : Byte) (s : St σ) : Res σ :=
  fet E s 2 fun key s =>
  if E.enc then
    callScalar E s key.toNat op p.size 0 fun s count =>
    if s.cursor + p.size > s.buf.length then .stop .oob s
    else
      wrAt s s.cursor p.size count fun s =>
      enterArray E { s with cursor := s.cursor + p.size } count.toNat
  else if s.cursor + p.size > s.buf.length then .stop .oob s
  else
    rdAt s s.cursor p.size fun count =>
    callScalar E { s with cursor := s.cursor + p.size } key.toNat op p.size count fun s count =>
    enterArray E s count.toNat

/-- OP_ARR_FIXED, vm_exec.c 1116-1143. -/
def handleArrFixed (E : Env σ) (op : Byte) (s : St σ) : Res σ :=
  fet E s 2 fun key s => fet E s 4 fun count s =>
  callScalar E s key.toNat op 4 count fun s count => enterArray E s count.toNat

/-- OP_ARR_EOF, vm_exec.c 1145-1163. -/
def handleArrEof (E : Env σ) (s : St σ) : Res σ :=
  fet E s 2 fun _ s =>
  if s.loops.length ≥ maxDepth then .stop .stackOverflow s
  else
    let s := { s with loops := ⟨s.ip, 0xFFFFFFFF⟩ :: s.loops }
    if s.cursor ≥ s.buf.length then .run { s with ip := skipBody E.prog s.ip } else .run s

/-- OP_ARR_DYNAMIC, vm_exec.c 1165-1188 (0x06 is OP_CTX_QUERY). -/
def handleArrDynamic (E : Env σ) (op : Byte) (s : St σ) : Res σ :=
  fet E s 2 fun key s => fet E s 2 fun ref s =>
  callScalar E s ref.toNat 0x06 8 0 fun s cv =>
  if cv.toNat > 0xFFFFFFFF then .stop .arithmetic s
  else callScalar E s key.toNat op 4 cv fun s count => enterArray E s count.toNat

/-- OP_ARR_END, vm_exec.c 1190-1216. -/
def handleArrEnd (E : Env σ) (s : St σ) : Res σ :=
  match s.loops with
  | [] => .stop .invalidOp s
  | f :: fs =>
    let eof : Bool := f.rem == 0xFFFFFFFF
    let rem := if eof then f.rem else f.rem - 1
    let cont : Bool := if eof then decide (s.cursor < s.buf.length) else decide (rem > 0)
    let s := { s with loops := ⟨f.start, rem⟩ :: fs }
    if cont then .run { s with ip := f.start }
    else callNotify E s 0 0x38 fun s => .run { s with loops := fs }

/-- OP_RAW_BYTES, vm_exec.c 1218-1235. -/
def handleRaw (E : Env σ) (op : Byte) (s : St σ) : Res σ :=
  fet E s 2 fun key s => fet E s 4 fun count s =>
  if s.cursor + count.toNat > s.buf.length then .stop .oob s
  else
    callAt E s key.toNat op s.cursor
      (fun s => .run { s with cursor := s.cursor + count.toNat })
      (fun s => .stop .callback s)

/-! ### Validation -/

/-- OP_CONST_WRITE, vm_exec.c 732-751 (writes in both modes; unsigned type tags only). -/
def handleConstWrite (E : Env σ) (s : St σ) : Res σ :=
  fet E s 1 fun tag s =>
  match tyTag tag with
  | none => .stop .invalidOp s
  | some t =>
    if t.signed then .stop .invalidOp s
    else
      fet E s t.size fun val s =>
      if s.cursor + t.size > s.buf.length then .stop .oob s
      else wrAt s s.cursor t.size val fun s => .run { s with cursor := s.cursor + t.size }

/-- OP_CONST_CHECK, vm_exec.c 753-789. -/
def handleConstCheck (E : Env σ) (s : St σ) : Res σ :=
  fet E s 2 fun key s => fet E s 1 fun tag s =>
  match tyTag tag with
  | none => .stop .invalidOp s
  | some t =>
    fet E s t.size fun expected s =>
    if s.cursor + t.size > s.buf.length then .stop .oob s
    else if E.enc then
      wrAt s s.cursor t.size expected fun s => .run { s with cursor := s.cursor + t.size }
    else
      rdAt s s.cursor t.size fun actual =>
      if actual ≠ expected then .stop .validation s
      else
        callScalar E s key.toNat (tag.setWidth 8) t.size actual fun s _ =>
        .run { s with cursor := s.cursor + t.size }

/-- The loop of CHECK_ENUM, vm_exec.c 798-809: `n` entries left. Returns the instruction pointer after
the list if the value was found. -/
def enumScan (prog : List Byte) (size : Nat) (actual : Word) : Nat → Nat → Option Nat
  | 0, _ => none
  | n + 1, ip =>
    let r := fetch prog ip size
    if actual = r.1 then some (r.2 + n * size) else enumScan prog size actual n r.2

/-- OP_ENUM_CHECK, vm_exec.c 791-833. The field is read back from just before the cursor
without checking that the cursor is that far into the buffer. -/
def handleEnum (E : Env σ) (s : St σ) : Res σ :=
  fet E s 1 fun tag s => fet E s 2 fun count s =>
  match tyTag tag with
  | none => .stop .invalidOp s
  | some t =>
    if s.cursor < t.size then .ub .dataOOB
    else
      rdAt s (s.cursor - t.size) t.size fun actual =>
      match enumScan E.prog t.size actual count.toNat s.ip with
      | none => .stop .validation s
      | some ip => .run { s with ip := ip }

/-- Comparison of two values of C type `t` (vm_exec.c 287). -/
def tyLt (t : Ty) (a b : Word) : Bool :=
  if t.signed then (sextB t.size a).slt (sextB t.size b) else a.ult b

/-- OP_RANGE_CHECK, vm_exec.c 835-853 with CHECK_RANGE (281-288) and CHECK_RANGE_FLOAT (290-302). -/
def handleRange (E : Env σ) (s : St σ) : Res σ :=
  fet E s 1 fun tag s =>
  match tyTag tag with
  | some t =>
    fet E s t.size fun lo s => fet E s t.size fun hi s =>
    if s.cursor < t.size then .stop .oob s
    else
      rdAt s (s.cursor - t.size) t.size fun v =>
      if tyLt t v lo || tyLt t hi v then .stop .validation s else .run s
  | none =>
    if tag = 0x18 then
      fet E s 4 fun lo s => fet E s 4 fun hi s =>
      if s.cursor < 4 then .stop .oob s
      else
        rdAt s (s.cursor - 4) 4 fun v =>
        if E.fl.lt32 (v.setWidth 32) (lo.setWidth 32) || E.fl.lt32 (hi.setWidth 32) (v.setWidth 32)
        then .stop .validation s else .run s
    else if tag = 0x19 then
      fet E s 8 fun lo s => fet E s 8 fun hi s =>
      if s.cursor < 8 then .stop .oob s
      else
        rdAt s (s.cursor - 8) 8 fun v =>
        if E.fl.lt v lo || E.fl.lt hi v then .stop .validation s else .run s
    else .stop .invalidOp s

/-- OP_CRC_16 and OP_CRC_32, vm_exec.c 855-893: the checksum covers the packet from its start to the
cursor and is computed before the bounds check. -/
def handleCrc (E : Env σ) (w32 : Bool) (s : St σ) : Res σ :=
  let n := if w32 then 4 else 2
  fet E s n fun poly s => fet E s n fun init s => fet E s n fun xorout s => fet E s 1 fun flags s =>
  match slice s.buf 0 s.cursor with
  | none => .ub .dataOOB
  | some data =>
    let crc := calcCrc data (poly.setWidth 32) (init.setWidth 32) (xorout.setWidth 32)
      (flags.setWidth 8) w32
    if s.cursor + n > s.buf.length then .stop .oob s
    else if E.enc then
      wrAt s s.cursor n (crc.setWidth 64) fun s => .run { s with cursor := s.cursor + n }
    else
      rdAt s s.cursor n fun actual =>
      if actual ≠ truncB n (crc.setWidth 64) then .stop .crcMismatch s
      else .run { s with cursor := s.cursor + n }

/-! ### Control flow -/

/-- Signed relative branch, vm_exec.c 1351-1360, 1370-1379, 1274-1284, 1328-1338: `none` is
`return CND_ERR_OOB`. -/
def branch (len base : Nat) (off : Word) : Option Nat :=
  let o := (off.setWidth 32).toInt
  let t : Option Nat :=
    if o < 0 then (if base < o.natAbs then none else some (base - o.natAbs))
    else some (base + o.toNat)
  match t with
  | none => none
  | some t => if t > len then none else some t

def goto (E : Env σ) (s : St σ) (base : Nat) (off : Word) : Res σ :=
  match branch E.prog.length base off with
  | none => .stop .oob s
  | some t => .run { s with ip := t }

/-- OP_JUMP, vm_exec.c 1366-1382. -/
def handleJump (E : Env σ) (s : St σ) : Res σ :=
  fet E s 4 fun off s => goto E s s.ip off

/-- OP_JUMP_IF_NOT, vm_exec.c 1343-1364. -/
def handleJumpIfNot (E : Env σ) (s : St σ) : Res σ :=
  fet E s 4 fun off s =>
  match s.stack with
  | [] => .stop .stackUnderflow s
  | c :: rest =>
    let s := { s with stack := rest }
    if c = 0 then goto E s s.ip off else .run s

/-- The case loop of OP_SWITCH, vm_exec.c 1261-1269: `n` entries left at `ip`. -/
def switchScan (prog : List Byte) (disc : Word) : Nat → Nat → Bool → Word → Word
  | 0, _, _, target => target
  | n + 1, ip, found, target =>
    let v := fetch prog ip 8
    let o := fetch prog v.2 4
    if !found && disc == v.1 then switchScan prog disc n o.2 true o.1
    else switchScan prog disc n o.2 found target

/-- OP_SWITCH, vm_exec.c 1237-1287. -/
def handleSwitch (E : Env σ) (s : St σ) : Res σ :=
  fet E s 2 fun key s => fet E s 4 fun rel s =>
  let tbl := s.ip + rel.toNat
  if tbl > E.prog.length then .stop .oob s
  else
    let count := fetch E.prog tbl 2
    let dflt := fetch E.prog count.2 4
    callScalar E s key.toNat 0x06 8 0 fun s disc =>
    goto E s s.ip (switchScan E.prog disc count.1.toNat dflt.2 false dflt.1)

/-- OP_SWITCH_TABLE, vm_exec.c 1289-1341. `offset_loc` and `offset_loc + 4` are computed modulo 2^64
(lines 1315-1321, and again in peek_il_u32, vm_internal.h 48). -/
def handleSwitchTable (E : Env σ) (s : St σ) : Res σ :=
  fet E s 2 fun key s => fet E s 4 fun rel s =>
  let tbl := s.ip + rel.toNat
  if tbl + 20 > E.prog.length then .stop .oob s
  else
    let mn := (fetch E.prog tbl 8).1
    let mx := (fetch E.prog (tbl + 8) 8).1
    let dflt := (fetch E.prog (tbl + 16) 4).1
    callScalar E s key.toNat 0x06 8 0 fun s disc =>
    if mn.toNat ≤ disc.toNat ∧ disc.toNat ≤ mx.toNat then
      let index := disc.toNat - mn.toNat
      let loc := (tbl + 20 + (index * 4) % 2 ^ 64) % 2 ^ 64
      if (loc + 4) % 2 ^ 64 > E.prog.length then .stop .oob s
      else if loc + 4 ≤ E.prog.length then goto E s s.ip (fetch E.prog loc 4).1
      else .ub .codeOOB
    else goto E s s.ip dflt

/-! ### Expression stack (vm_exec.c 623-669, 1386-1667) -/

/-- Result of an ALU operation. -/
inductive Alu
  | val (w : Word)
  | err (e : Err)
  | ub (u : UB)
  deriving DecidableEq, Repr

def b2w (b : Bool) : Word := if b then 1 else 0

/-- Integer binary operators, vm_exec.c 1544-1560, 1649-1666. -/
def ibinEval (o : IBin) (a b : Word) : Alu :=
  match o with
  | .add => .val (a + b)
  | .sub => .val (a - b)
  | .mul => .val (a * b)
  | .div => if b = 0 then .err .arithmetic else .val (a / b)
  | .mod => if b = 0 then .err .arithmetic else .val (a % b)
  | .eq => .val (b2w (a == b))
  | .neq => .val (b2w (a != b))
  | .gt => .val (b2w (b.ult a))
  | .lt => .val (b2w (a.ult b))
  | .gte => .val (b2w (b.ule a))
  | .lte => .val (b2w (a.ule b))
  | .land => .val (b2w (a != 0 && b != 0))
  | .lor => .val (b2w (a != 0 || b != 0))
  | .band => .val (a &&& b)
  | .bor => .val (a ||| b)
  | .bxor => .val (a ^^^ b)
  | .shl => if b.toNat ≥ 64 then .ub .shift else .val (a <<< b.toNat)
  | .shr => if b.toNat ≥ 64 then .ub .shift else .val (a >>> b.toNat)

/-- Double binary operators, vm_exec.c 1570-1582, 1609-1621, 1641-1646. -/
def fbinEval (F : FloatOps) (o : FBin) (a b : Word) : Alu :=
  match o with
  | .add => .val (F.add a b)
  | .sub => .val (F.sub a b)
  | .mul => .val (F.mul a b)
  | .div => if F.eq b 0 then .err .arithmetic else .val (F.div a b)
  | .pow =>
    if F.lt a 0 && !F.eq (F.floor b) b then .err .arithmetic
    else if F.eq a 0 && F.le b 0 then .err .arithmetic
    else .val (F.pow a b)
  | .eq => .val (b2w (F.eq a b))
  | .neq => .val (b2w (!F.eq a b))
  | .gt => .val (b2w (F.lt b a))
  | .lt => .val (b2w (F.lt a b))
  | .gte => .val (b2w (F.le b a))
  | .lte => .val (b2w (F.le a b))

/-- Unary operators, vm_exec.c 1561-1567, 1583-1608, 1625-1638, 1652, 1667. -/
def unEval (F : FloatOps) (o : Un) (a : Word) : Alu :=
  match o with
  | .neg => if a = 0x8000000000000000 then .ub .overflow else .val (-a)
  | .bnot => .val (~~~a)
  | .lnot => .val (b2w (a == 0))
  | .fneg => .val (F.neg a)
  | .sin => .val (F.sin a)
  | .cos => .val (F.cos a)
  | .tan => .val (F.tan a)
  | .sqrt => if F.lt a 0 then .err .arithmetic else .val (F.sqrt a)
  | .log => if F.le a 0 then .err .arithmetic else .val (F.log a)
  | .abs => .val (F.abs a)
  | .itof => .val (F.ofI64 a)
  | .ftoi => match F.toTy .i64 a with
    | none => .ub .fconv
    | some w => .val w

/-- stack_push, vm_exec.c 623-627. -/
def push (s : St σ) (v : Word) : Res σ :=
  if s.stack.length ≥ maxDepth then .stop .stackOverflow s
  else .run { s with stack := v :: s.stack }

def aluDone (s : St σ) : Alu → Res σ
  | .val w => push s w
  | .err e => .stop e s
  | .ub u => .ub u

/-- BINARY_OP / BINARY_OP_F / ..., vm_exec.c 636-661. -/
def binary (s : St σ) (f : Word → Word → Alu) : Res σ :=
  match s.stack with
  | [] => .stop .stackUnderflow s
  | [_] => .stop .stackUnderflow { s with stack := [] }
  | b :: a :: rest => aluDone { s with stack := rest } (f a b)

/-- UNARY_OP / UNARY_OP_F, vm_exec.c 642-669. -/
def unary (s : St σ) (f : Word → Alu) : Res σ :=
  match s.stack with
  | [] => .stop .stackUnderflow s
  | a :: rest => aluDone { s with stack := rest } (f a)

/-- OP_LOAD_CTX, vm_exec.c 1386-1393. -/
def handleLoadCtx (E : Env σ) (op : Byte) (s : St σ) : Res σ :=
  fet E s 2 fun key s => callScalar E s key.toNat op 8 0 fun s v => push s v

/-- OP_STORE_CTX, vm_exec.c 1395-1402. -/
def handleStoreCtx (E : Env σ) (op : Byte) (s : St σ) : Res σ :=
  fet E s 2 fun key s =>
  match s.stack with
  | [] => .stop .stackUnderflow s
  | v :: rest => callScalar E { s with stack := rest } key.toNat op 8 v fun s _ => .run s

/-- Size of an OP_EMIT type tag, vm_exec.c 1430-1434 and 1505-1509. -/
def emitSize (tag : Word) : Option Nat :=
  match tag.toNat with
  | 0x10 | 0x14 | 0x1A => some 1
  | 0x11 | 0x15 => some 2
  | 0x12 | 0x16 | 0x18 => some 4
  | 0x13 | 0x17 | 0x19 => some 8
  | _ => none

/-- OP_EMIT, vm_exec.c 1423-1541 (0x3727C5AC is 0.00001f, 0x3E7AD7F29ABCAF48 is 0.0000001). -/
def handleEmit (E : Env σ) (s : St σ) : Res σ :=
  fet E s 1 fun tag s =>
  match s.stack with
  | [] => .stop .stackUnderflow s
  | val :: rest =>
    let s := { s with stack := rest }
    match emitSize tag with
    | none => .stop .invalidOp s
    | some n =>
      if s.cursor + n > s.buf.length then .stop .oob s
      else if E.enc then
        let w : Word := if tag = 0x18 then (E.fl.toF32 val).setWidth 64 else val
        wrAt s s.cursor n w fun s => .run { s with cursor := s.cursor + n }
      else
        rdAt s s.cursor n fun bin =>
        let bad : Bool :=
          if tag = 0x18 then
            let diff := E.fl.sub32 (E.fl.toF32 val) (bin.setWidth 32)
            E.fl.lt32 diff 0xB727C5AC || E.fl.lt32 0x3727C5AC diff
          else if tag = 0x19 then
            let diff := E.fl.sub val bin
            E.fl.lt diff 0xBE7AD7F29ABCAF48 || E.fl.lt 0x3E7AD7F29ABCAF48 diff
          else bin != val
        if bad then .stop .validation s else .run { s with cursor := s.cursor + n }

/-! ### The instruction loop -/

/-- One case of the switch of cnd_execute, vm_exec.c 700-1671, after opcode fetch and alignment. -/
def execOp (E : Env σ) (op : Byte) (s : St σ) : Res σ :=
  match decodeOp op with
  | .noop => .run s
  | .setLE => .run { s with be := false }
  | .setBE => .run { s with be := true }
  | .enterStruct => fet E s 2 fun key s => callNotify E s key.toNat op .run
  | .exitStruct => callNotify E s 0 op .run
  | .metaVersion => fet E s 1 fun _ s => .run s
  | .metaName => fet E s 2 fun _ s => .run s
  | .io t => handlePrim E t op s
  | .ioF32 => handleFloat E false op s
  | .ioF64 => handleFloat E true op s
  | .ioBool => handleBool E op s
  | .bitU => handleBitU E op s
  | .bitI => handleBitI E op s
  | .bitBool => handleBitBool E op s
  | .alignPad => handlePad E s
  | .alignFill => handleFill E s
  | .enterBit => .run s
  | .exitBit => if s.bit > 0 then .stop .validation s else .run s
  | .strNull => handleStrNull E op s
  | .strPre p => handleStrPre E p op s
  | .arrFixed => handleArrFixed E op s
  | .arrPre p => handleArrPre E p op s
  | .arrEnd => handleArrEnd E s
  | .rawBytes => handleRaw E op s
  | .arrEof => handleArrEof E s
  | .arrDynamic => handleArrDynamic E op s
  | .constCheck => handleConstCheck E s
  | .constWrite => handleConstWrite E s
  | .rangeCheck => handleRange E s
  | .scaleLin => fet E s 8 fun fac s => fet E s 8 fun off s =>
      .run { s with trans := .scale, fFactor := fac, fOffset := off }
  | .crc16 => handleCrc E false s
  | .crc32 => handleCrc E true s
  | .transI t => fet E s 8 fun v s => .run { s with trans := t, iVal := v }
  | .markOptional => .run { s with opt := true }
  | .enumCheck => handleEnum E s
  | .transPoly => fet E s 1 fun n s =>
      let s' := { s with trans := .poly, polyCnt := n.toNat, polyPos := s.ip, ip := s.ip + n.toNat * 8 }
      if s'.ip > E.prog.length then .stop .oob s' else .run s'
  | .transSpline => fet E s 1 fun n s =>
      let s' := { s with trans := .spline, splCnt := n.toNat, splPos := s.ip,
                         ip := s.ip + n.toNat * 16 }
      if s'.ip > E.prog.length then .stop .oob s' else .run s'
  | .jumpIfNot => handleJumpIfNot E s
  | .switch => handleSwitch E s
  | .jump => handleJump E s
  | .switchTable => handleSwitchTable E s
  | .loadCtx => handleLoadCtx E op s
  | .pushImm => fet E s 8 fun v s => push s v
  | .pop => match s.stack with
    | [] => .stop .stackUnderflow s
    | _ :: rest => .run { s with stack := rest }
  | .dup => match s.stack with
    | [] => .stop .stackUnderflow s
    | v :: _ => push s v
  | .emit => handleEmit E s
  | .storeCtx => handleStoreCtx E op s
  | .ibin o => binary s (ibinEval o)
  | .fbin o => binary s (fbinEval E.fl o)
  | .un o => unary s (unEval E.fl o)
  | .other => .run s

/-- The alignment step, vm_exec.c 693-698. -/
def alignSt (op : Byte) (s : St σ) : St σ :=
  if aligns op && s.bit != 0 then { s with cursor := s.cursor + 1, bit := 0 } else s

/-- One iteration of the loop of cnd_execute, vm_exec.c 688-1672; at the end of the bytecode
cnd_execute returns CND_ERR_OK (line 1675). -/
def step (E : Env σ) (s : St σ) : Res σ :=
  match E.prog[s.ip]? with
  | none => .stop .ok s
  | some op => execOp E op (alignSt op { s with ip := s.ip + 1 })

/-- cnd_execute limited to `n` iterations: `.run s` means it is still running. -/
def exec (E : Env σ) : Nat → St σ → Res σ
  | 0, s => .run s
  | n + 1, s =>
    match step E s with
    | .run s' => exec E n s'
    | r => r

end

end Cnd
