import Verif.Json
/-
  `cnd decode --hex`: byte arrays are to be shown as strings of hexadecimal digits.

  Models the hex mode of /repo/src/cli/json_binding.c (14-24, 27-45, 73-84, 276-289, 323-327) on top of `Verif/Json.lean`; decoding only,
  as /repo/src/cli/cmd_encode.c never sets it. The callback looks at the bytecode through `ctx->ip`, so the host depends on the
  instruction that calls it.
-/

namespace Cnd

namespace Items

/-- Changing the value of the item at a position. -/
def setHere : Items → Nat → JVal → Items
  | .nil, _, _ => .nil
  | .item n _ kids next, 0, v => .item n v kids next
  | .item n v' kids next, i + 1, v => .item n v' kids (next.setHere i v)

/-- Changing the value of the item a path leads to. -/
def setAt : Items → List Nat → JVal → Items
  | l, [], _ => l
  | l, [i], v => l.setHere i v
  | l, i :: p, v => l.modify i fun k => k.setAt p v

/-- The value of the item a path leads to. -/
def valAt (l : Items) (p : List Nat) : Option JVal := (l.kidsAt p.dropLast).shape[p.getLastD 0]?.map (·.2)

end Items

/-- IOCtx with the fields for hex mode, cli_helpers.h 45-51: `hex_str_buffer` is NULL as long as no byte has been added. -/
structure JHex where
  js : JSt
  inHex : Bool
  digits : List Byte
  deriving DecidableEq, Repr

def JHex.start : JHex := ⟨JSt.start .nil, false, []⟩

/-- One digit of `%02X`. -/
def hexDigit (n : Nat) : Byte := BitVec.ofNat 8 (if n < 10 then 0x30 + n else 0x37 + n)

/-- append_hex_byte, json_binding.c 14-23. -/
def JHex.append (s : JHex) (b : Byte) : JHex := { s with digits := s.digits ++ [hexDigit (b.toNat / 16), hexDigit (b.toNat % 16)] }

/-- The byte the callback takes for the opcode of the elements, json_binding.c 32-42. `ctx->ip` is already behind the operands
(SYNC_IP, vm_exec.c 366-372, 1127, 1176), and the callback skips them once more. -/
def peekAt (prog : List Byte) (ip : Nat) : Option Byte :=
  match prog[ip]? with
  | some op =>
    if op = 0x34 then prog[ip + 7 + 6]?
    else if op = 0x35 ∨ op = 0x36 ∨ op = 0x37 then prog[ip + 3 + 2]?
    else if op = 0x3B then prog[ip + 5 + 2]?
    else none
  | none => none

/-- handle_array_start for what it takes for an array of bytes, json_binding.c 72-92. -/
def hexArr (name : List Byte) (s : JHex) : Bool × JHex :=
  if s.js.arrs.length ≥ 31 then (false, s)
  else
    (true, ⟨{ s.js with doc := s.js.doc.addAt s.js.cur name (.str []),
                        arrs := ⟨s.js.cur ++ [(s.js.kids s.js.cur).size], 0, s.js.stack.length⟩ :: s.js.arrs }, true, []⟩)

/-- OP_ARR_END, json_binding.c 275-289. cJSON_SetValuestring changes strings only. -/
def hexEnd (s : JHex) : JHex :=
  if s.inHex then
    match s.js.arrs with
    | [] => { s with js := { s.js with ub := true } }
    | f :: fs =>
      let str : Bool := match s.js.doc.valAt f.path with
        | some (.str _) => true
        | _ => false
      ⟨{ s.js with doc := if s.digits ≠ [] ∧ str = true then s.js.doc.setAt f.path (.str s.digits) else s.js.doc, arrs := fs }, false, []⟩
  else { s with js := jsonArrEnd s.js }

/-- json_io_callback with `hex_mode` set, decoding, json_binding.c 226-381; `peek` is `peekAt` of the calling instruction. -/
def hexHost (F : FloatOps) (names : List (List Byte)) (peek : Option Byte) : Host JHex where
  notify s key op :=
    if op = 0x03 then let r := jsonEnter false (jsonName names key) s.js; (r.1, { s with js := r.2 })
    else if op = 0x04 then (true, { s with js := jsonExit s.js })
    else (true, hexEnd s)
  scalar s key op cell :=
    let n := op.toNat
    if (n = 0x34 ∨ n = 0x35 ∨ n = 0x36 ∨ n = 0x37 ∨ n = 0x3B) ∧ peek = some 0x10 then
      let r := hexArr (jsonName names key) s
      (r.1, cell, r.2)
    else if s.inHex = true ∧ n = 0x10 then (true, cell, s.append (cell.setWidth 8))
    else
      let r := (jsonHost F names false).scalar s.js key op cell
      (r.1, r.2.1, { s with js := r.2.2 })
  str s key op :=
    let r := (jsonHost F names false).str s.js key op
    (r.1, r.2.1, { s with js := r.2.2 })
  bytesAt s key op be D p :=
    if op = 0x39 then
      let r := hexArr (jsonName names key) s
      (r.1, D, r.2)
    else
      let r := (jsonHost F names false).bytesAt s.js key op be D p
      (r.1, r.2.1, { s with js := r.2.2 })

/-- One instruction of `cnd decode --hex`. -/
def hexStep (F : FloatOps) (names : List (List Byte)) (prog : List Byte) (s : St JHex) : Res JHex :=
  step { prog := prog, enc := false, host := hexHost F names (peekAt prog s.ip), fl := F } s

def hexExec (F : FloatOps) (names : List (List Byte)) (prog : List Byte) : Nat → St JHex → Res JHex
  | 0, s => .run s
  | n + 1, s =>
    match hexStep F names prog s with
    | .run s' => hexExec F names prog n s'
    | r => r

/-- The run of `cnd decode --hex` on a packet, cmd_decode.c 21-38. -/
def hexDecode (F : FloatOps) (names : List (List Byte)) (prog : List Byte) (n : Nat) (old : St JHex) (buf : List Byte) : Res JHex :=
  hexExec F names prog n (initSt old buf JHex.start)

end Cnd
