/-
  The JSON binding of the command line tool: `cnd encode` and `cnd decode`.

  Models /repo/src/cli/json_binding.c (json_io_callback and its helpers), the callback that /repo/src/cli/cmd_decode.c and
  /repo/src/cli/cmd_encode.c give to the VM, with `hex_mode` off, and the name table of /repo/src/cli/cli_helpers.c 58-84 as a list.
  cJSON is not part of the repository; its functions are modelled after its documentation (version 1.7): items are linked lists
  with a child list, `cJSON_GetObjectItem` compares without case, `valueint` is the double cut off and limited to the range of `int`,
  adding to an array or object appends. Not modelled: the JSON text (cJSON_Parse, cJSON_Print), allocation failures, hex mode.

  Pointers into the document are paths (positions counted from the root); documents only grow at the ends of child lists, so a path
  keeps pointing at its item. Undefined behaviour in the callback sets the flag `ub`.
-/
import Verif.VM
import Verif.Image

namespace Cnd

/-- The type and value of a cJSON item; a number is the bits of its `valuedouble`. -/
inductive JVal
  | null
  | bool (b : Bool)
  | num (d : Word)
  | str (s : List Byte)
  | arr
  | obj
  deriving DecidableEq, Repr

/-- A list of cJSON items: name (`string`), value, children (`child`), next item (`next`). -/
inductive Items
  | nil
  | item (name : List Byte) (v : JVal) (kids : Items) (next : Items)
  deriving DecidableEq, Repr

namespace Items

/-- The names and values of the items of a list. -/
def shape : Items → List (List Byte × JVal)
  | .nil => []
  | .item n v _ next => (n, v) :: next.shape

/-- cJSON_GetArraySize. -/
def size (l : Items) : Nat := l.shape.length

/-- The children of the item at a position. -/
def kid? : Items → Nat → Option Items
  | .nil, _ => none
  | .item _ _ kids _, 0 => some kids
  | .item _ _ _ next, i + 1 => next.kid? i

/-- tolower in the C locale. -/
def lower (b : Byte) : Byte := if 0x41 ≤ b.toNat ∧ b.toNat ≤ 0x5A then b + 0x20 else b

/-- cJSON_GetObjectItem: the position of the first item of that name, without regard to case. -/
def index (name : List Byte) (l : Items) : Option Nat := l.shape.findIdx? fun x => x.1.map lower == name.map lower

/-- Adding an item at the end of the list. -/
def snoc : Items → List Byte → JVal → Items
  | .nil, n, v => .item n v .nil .nil
  | .item n' v' kids next, n, v => .item n' v' kids (next.snoc n v)

/-- Changing the children of the item at a position. -/
def modify : Items → Nat → (Items → Items) → Items
  | .nil, _, _ => .nil
  | .item n v kids next, 0, f => .item n v (f kids) next
  | .item n v kids next, i + 1, f => .item n v kids (next.modify i f)

/-- The path leads to an item. -/
def valid : Items → List Nat → Bool
  | _, [] => true
  | l, i :: p => match l.kid? i with
    | none => false
    | some k => k.valid p

/-- The children of the item a path leads to. -/
def kidsAt : Items → List Nat → Items
  | l, [] => l
  | l, i :: p => match l.kid? i with
    | none => .nil
    | some k => k.kidsAt p

/-- Adding an item to the children of the item a path leads to. -/
def addAt : Items → List Nat → List Byte → JVal → Items
  | l, [], n, v => l.snoc n v
  | l, i :: p, n, v => l.modify i fun k => k.addAt p n v

end Items

/-- An array being read or written: the item, the index of the next element, the depth at which it was opened. -/
structure ArrFrame where
  path : List Nat
  idx : Nat
  depth : Nat
  deriving DecidableEq, Repr

/-- IOCtx, cli_helpers.h 33-50, with the children of the root. `stack` and `arrs` have their top first; `io->depth` is the length of
`stack` less one. -/
structure JSt where
  doc : Items
  stack : List (List Nat)
  arrs : List ArrFrame
  ub : Bool
  deriving DecidableEq, Repr

/-- The state both commands start with, cmd_encode.c 23-27, cmd_decode.c 22-33. -/
def JSt.start (doc : Items) : JSt := ⟨doc, [[]], [], false⟩

namespace JSt

/-- `io->stack[io->depth]`. -/
def cur (s : JSt) : List Nat := s.stack.headD []

/-- `io->array_depth > 0 && io->depth == io->array_start_depth[io->array_depth - 1]`: the array whose elements come next. -/
def inArr (s : JSt) : Option ArrFrame :=
  match s.arrs with
  | [] => none
  | f :: _ => if f.depth = s.stack.length then some f else none

/-- `io->array_index_stack[io->array_depth - 1]++`. -/
def bump (s : JSt) : JSt :=
  match s.arrs with
  | [] => s
  | f :: fs => { s with arrs := { f with idx := f.idx + 1 } :: fs }

/-- `io->stack[++io->depth] = item;`, json_binding.c 261: the array has 32 places. -/
def push (s : JSt) (p : List Nat) : JSt :=
  if s.stack.length ≥ 32 then { s with ub := true } else { s with stack := p :: s.stack }

/-- Children of an item. -/
def kids (s : JSt) (p : List Nat) : Items := s.doc.kidsAt p

/-- Adding an item to the array in progress or else to the current object. -/
def add (s : JSt) (name : List Byte) (v : JVal) : JSt :=
  match s.inArr with
  | some f => { s with doc := s.doc.addAt f.path [] v }.bump
  | none => { s with doc := s.doc.addAt s.cur name v }

/-- The array in progress is read at its index, the current object by name: path and value of the item, and the state after. -/
def find (s : JSt) (name : List Byte) : Option (List Nat × JVal) × JSt :=
  match s.inArr with
  | some f => ((s.kids f.path).shape[f.idx]?.map fun x => (f.path ++ [f.idx], x.2), s.bump)
  | none =>
    (((s.kids s.cur).index name).bind fun i => (s.kids s.cur).shape[i]?.map fun x => (s.cur ++ [i], x.2), s)

end JSt

/-- get_json_key, json_binding.c 221-224: what is behind the last dot. -/
def jsonKey (name : List Byte) : List Byte := (name.reverse.takeWhile (· ≠ 0x2E)).reverse

/-- The name looked up in the document, json_binding.c 229-234. -/
def jsonName (names : List (List Byte)) (key : Nat) : List Byte := jsonKey (names.getD key [])

/-- The bits of 2147483647.0 and -2147483648.0. -/
def dblIntMax : Word := 0x41DFFFFFFFC00000
def dblIntMin : Word := 0xC1E0000000000000

/-- `item->valueint` of a number (cJSON_CreateNumber, parse_number), as a 64-bit two's complement number; `none` is undefined
(NaN). -/
def valueInt (F : FloatOps) (d : Word) : Option Word :=
  if F.le dblIntMax d then some 0x7FFFFFFF
  else if F.le d dblIntMin then some (BitVec.ofInt 64 (-2147483648))
  else (F.toTy .i32 d).map (Ty.toI64 .i32)

/-- `item->valueint` (cJSON_Parse sets it to 1 for `true`). -/
def JVal.int (F : FloatOps) : JVal → Option Word
  | .num d => valueInt F d
  | .bool true => some 1
  | _ => some 0

/-- `item->valuedouble`. -/
def JVal.dbl : JVal → Word
  | .num d => d
  | _ => 0

/-- Extracting a value, handle_primitive, json_binding.c 110-125: what is written to the cell; `none` is an undefined
conversion. -/
def jsonGet (F : FloatOps) (op : Byte) (v : JVal) : Option Word :=
  match op.toNat with
  | 0x10 | 0x14 => (v.int F).map (truncB 1)
  | 0x11 | 0x15 => (v.int F).map (truncB 2)
  | 0x12 | 0x16 => (v.int F).map (truncB 4)
  | 0x13 => F.toTy .u64 v.dbl
  | 0x17 => F.toTy .i64 v.dbl
  | 0x18 => some ((F.toF32 v.dbl).setWidth 64)
  | 0x19 => some v.dbl
  | 0x20 | 0x21 => v.int F
  | 0x1A | 0x22 => some (if v = .bool true then 1 else 0)
  | _ => some 0

/-- Building an item, json_binding.c 331-345: the number or boolean for a cell; `none` if the type is not listed. -/
def jsonPut (F : FloatOps) (op : Byte) (w : Word) : Option JVal :=
  match op.toNat with
  | 0x10 | 0x11 | 0x12 => some (.num (F.ofI64 w))
  | 0x13 => some (.num (F.ofU64 w))
  | 0x14 => some (.num (F.ofI64 (Ty.toI64 .i8 w)))
  | 0x15 => some (.num (F.ofI64 (Ty.toI64 .i16 w)))
  | 0x16 => some (.num (F.ofI64 (Ty.toI64 .i32 w)))
  | 0x17 => some (.num (F.ofI64 w))
  | 0x18 => some (.num (F.ofF32 (w.setWidth 32)))
  | 0x19 => some (.num w)
  | 0x20 => some (.num (F.ofU64 w))
  | 0x21 => some (.num (F.ofI64 w))
  | 0x1A | 0x22 => some (.bool (w.setWidth 8 ≠ (0 : Byte)))
  | _ => none

/-- json_io_callback for OP_ENTER_STRUCT, json_binding.c 240-263. -/
def jsonEnter (enc : Bool) (name : List Byte) (s : JSt) : Bool × JSt :=
  if enc then
    match s.find name with
    | (none, s) => (false, s)
    | (some r, s) => (true, s.push r.1)
  else
    match s.inArr with
    | some f => (true, (s.add name .obj).push (f.path ++ [(s.kids f.path).size]))
    | none => (true, (s.add name .obj).push (s.cur ++ [(s.kids s.cur).size]))

/-- OP_EXIT_STRUCT, json_binding.c 265-268, and OP_ARR_END, 275-289. -/
def jsonExit (s : JSt) : JSt := if s.stack.length > 1 then { s with stack := s.stack.tail } else s
def jsonArrEnd (s : JSt) : JSt := { s with arrs := s.arrs.tail }

/-- handle_array_start, json_binding.c 25-94 (without hex mode): whether it succeeds, what is in the cell, the new state. -/
def jsonArr (enc : Bool) (op : Byte) (name : List Byte) (cell : Word) (s : JSt) : Bool × Word × JSt :=
  if enc then
    match (s.kids s.cur).index name with
    | none => (true, if op = 0x3B then cell else 0, s)
    | some i =>
      let v := (s.kids s.cur).shape[i]?.map (·.2)
      let isStr : Bool := match v with
        | some (JVal.str _) => true
        | _ => false
      if v ≠ some .arr ∧ ¬ (op = 0x39 ∧ isStr) then (true, if op = 0x3B then cell else 0, s)
      else if s.arrs.length ≥ 31 then (false, cell, s)
      else
        let n : Word := BitVec.ofNat 64 (s.kids (s.cur ++ [i])).size
        (true,
          if op = 0x35 then truncB 1 n else if op = 0x36 then truncB 2 n else if op = 0x37 then truncB 4 n else cell,
          { s with arrs := ⟨s.cur ++ [i], 0, s.stack.length⟩ :: s.arrs })
  else if s.arrs.length ≥ 31 then (false, cell, s)
  else
    (true, cell, { s with doc := s.doc.addAt s.cur name .arr,
                          arrs := ⟨s.cur ++ [(s.kids s.cur).size], 0, s.stack.length⟩ :: s.arrs })

/-- OP_CTX_QUERY and OP_LOAD_CTX, json_binding.c 292-301. -/
def jsonQuery (F : FloatOps) (name : List Byte) (cell : Word) (s : JSt) : Bool × Word × JSt :=
  match (s.kids s.cur).index name with
  | none => (false, cell, s)
  | some i =>
    match (s.kids s.cur).shape[i]? with
    | some (_, .bool b) => (true, if b then 1 else 0, s)
    | some (_, v) => match F.toTy .u64 v.dbl with
      | some w => (true, w, s)
      | none => (true, cell, { s with ub := true })
    | none => (false, cell, s)

/-- The other calls with a cell, json_binding.c 311-380 and handle_primitive 96-125. -/
def jsonPrim (F : FloatOps) (enc : Bool) (op : Byte) (name : List Byte) (cell : Word) (s : JSt) : Bool × Word × JSt :=
  if enc then
    let r := s.find name
    match r.1 with
    | none => (true, 0, r.2)
    | some (_, v) => match jsonGet F op v with
      | some w => (true, w, r.2)
      | none => (true, cell, { r.2 with ub := true })
  else
    match jsonPut F op cell with
    | some v => (true, cell, s.add name v)
    | none => (true, cell, s)

/-- The string found at a position of the packet, json_binding.c 346-362. The 32-bit prefix is always read as little-endian. `none`
is a read outside the packet. -/
def jsonStr (op : Byte) (be : Bool) (D : List Byte) (p : Nat) : Option (List Byte) :=
  let pre (n : Nat) (be : Bool) : Option (List Byte) :=
    if p < n then none
    else
      let len := (rdWord be ((D.drop (p - n)).take n)).toNat
      if p + len > D.length then none else some (((D.drop p).take len).takeWhile (· ≠ 0))
  match op.toNat with
  | 0x30 => cstrAt D p
  | 0x31 => pre 1 be
  | 0x32 => pre 2 be
  | _ => pre 4 false

/-- json_io_callback, json_binding.c 226-381. -/
def jsonHost (F : FloatOps) (names : List (List Byte)) (enc : Bool) : Host JSt where
  notify s key op :=
    if op = 0x03 then jsonEnter enc (jsonName names key) s
    else if op = 0x04 then (true, jsonExit s)
    else (true, jsonArrEnd s)
  scalar s key op cell :=
    let n := op.toNat
    if n = 0x34 ∨ n = 0x35 ∨ n = 0x36 ∨ n = 0x37 ∨ n = 0x3B then jsonArr enc op (jsonName names key) cell s
    else if n = 0x06 ∨ n = 0x60 then jsonQuery F (jsonName names key) cell s
    else if n = 0x78 then
      (true, cell, if enc then s else { s with doc := s.doc.addAt s.cur (jsonName names key) (.num (F.ofU64 cell)) })
    else jsonPrim F enc op (jsonName names key) cell s
  str s key _ :=
    let r := s.find (jsonName names key)
    match r.1 with
    | none => (true, none, r.2)
    | some (_, .str t) => (true, some (t ++ [0]), r.2)
    | some _ => (true, some [0], r.2)
  bytesAt s key op be D p :=
    if op = 0x39 then
      let r := jsonArr enc 0x39 (jsonName names key) 0 s
      (r.1, D, r.2.2)
    else
      match jsonStr op be D p with
      | some t => (true, D, s.add (jsonName names key) (.str t))
      | none => (true, D, { s with ub := true })

end Cnd
