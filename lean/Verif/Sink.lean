/-
  The callback of the example /repo/examples/kitchen_sink/kitchen_sink.c, when decoding (sink_cb, 96-349).

  Kept of the record: the numbers that are asked for again or that bound an array, the indices of the arrays, the string `reason`, the stores
  behind the end of an array, and whether memory outside the packet was read. Not modelled: the other contents of the record, the answers to a query of
  `position.x`, `.y` and `.z` (left as the VM passes them), encoding, `main`.
-/
import Verif.VM
import Verif.Source

namespace Cnd

/-- What is kept of KitchenSink, kitchen_sink.c 18-88. `num` gives the numbers by name; `over` are the stores behind the end
of an array, with the name of the array and the index; `past`: something outside the packet, or outside the VM's variable, was read. -/
structure Sink where
  num : List Byte → Word
  wayIdx : Nat
  inWay : Bool
  matIdx : Nat
  ptsLen : Nat
  ptsIdx : Nat
  dynIdx : Nat
  strIdx : Nat
  restLen : Nat
  reason : List Byte
  over : List (List Byte × Nat)
  past : Bool

/-- `KitchenSink out = {0}`, kitchen_sink.c 406. -/
def sinkZero : Sink :=
  { num := fun _ => 0, wayIdx := 0, inWay := false, matIdx := 0, ptsLen := 0, ptsIdx := 0, dynIdx := 0, strIdx := 0, restLen := 0,
    reason := [], over := [], past := false }

/-- `dynamic_len`, an uint16_t. -/
def Sink.dynLen (s : Sink) : Nat := (s.num (word "dynamic_len")).toNat

/-- `str_count`, an uint8_t. -/
def Sink.strCount (s : Sink) : Nat := (s.num (word "str_count")).toNat

/-- A read of something that is there if `ok`. -/
def Sink.need (s : Sink) (ok : Bool) : Sink := { s with past := s.past || !ok }

/-- A store to element `i` of an array of `size`. -/
def Sink.put (s : Sink) (k : List Byte) (i size : Nat) : Sink := if i < size then s else { s with over := (k, i) :: s.over }

/-- The numbers asked for in queries, with their size; kitchen_sink.c 112-119. -/
def sinkNums : List (List Byte × Nat) :=
  [(word "status", 1), (word "has_extra", 1), (word "adv_mode", 1), (word "adv_has_details", 1), (word "val_add", 1), (word "val_sub", 1),
   (word "dynamic_len", 2), (word "str_count", 1)]

/-- The strings of the record. -/
def sinkStrs : List (List Byte) := [word "dynamic_strings", word "name", word "reason", word "extra_data", word "adv_details"]

/-- `obj->f = *(T*)ptr` for a number; a bool is 0 or 1. -/
def Sink.setNum (s : Sink) (k : List Byte) (n : Nat) (cell : Word) : Sink :=
  let v := truncB n cell
  let v := if k = word "has_extra" ∨ k = word "adv_has_details" then (if v = 0 then 0 else 1) else v
  { s with num := fun x => if x = k then v else s.num x }

/-- sink_cb with a pointer to a variable, kitchen_sink.c 110-348. A string field for which the VM passes a variable is read outside it. -/
def sinkVar (names : List (List Byte)) (s : Sink) (key : Nat) (op : Byte) (cell : Word) : Word × Sink :=
  match names[key]? with
  | none => (cell, s)
  | some k =>
    if op = 0x06 ∨ op = 0x60 then
      match sinkNums.lookup k with
      | some _ => (s.num k, s)
      | none => (cell, s)
    else if op = 0x34 then
      if k = word "matrix" then (cell, { s with matIdx := 0 })
      else if k = word "waypoints" then (cell, { s with wayIdx := 0, inWay := true })
      else (cell, s)
    else if op = 0x35 then
      if k = word "points" then (cell, { s with ptsIdx := 0, ptsLen := (truncB 1 cell).toNat }) else (cell, s)
    else if op = 0x3B then
      if k = word "dynamic_bytes" then (cell, { s with dynIdx := 0 })
      else if k = word "dynamic_strings" then (cell, { s with strIdx := 0 })
      else (cell, s)
    else if k = word "waypoints.x" ∨ k = word "waypoints.y" ∨ k = word "waypoints.z" then
      if s.wayIdx < 4 then (cell, s.put (word "waypoints") s.wayIdx 4) else (cell, s)
    else if k = word "matrix" ∧ op = 0x10 then
      if s.matIdx < 4 then (cell, { s.put k s.matIdx 4 with matIdx := s.matIdx + 1 }) else (cell, s)
    else if k = word "points" ∧ op = 0x11 then
      if s.ptsIdx < s.ptsLen then (cell, { s.put k s.ptsIdx 255 with ptsIdx := s.ptsIdx + 1 }) else (cell, s)
    else if k = word "dynamic_bytes" ∧ op = 0x10 then
      if s.dynIdx < s.dynLen then (cell, { s.put k s.dynIdx 256 with dynIdx := s.dynIdx + 1 }) else (cell, s)
    else if k = word "rest_of_stream" ∧ op = 0x10 then
      if s.restLen < 1024 then (cell, { s.put k s.restLen 1024 with restLen := s.restLen + 1 }) else (cell, s)
    else if k ∈ sinkStrs then (cell, s.need false)
    else match sinkNums.lookup k with
      | some n => (cell, s.setNum k n cell)
      | none => (cell, s)

/-- `strncpy(dst, ptr, n)` with `ptr` at `p` in the packet stays inside the packet: there are `n` bytes, or a zero before the end. -/
def copyFits (buf : List Byte) (p n : Nat) : Bool := decide (p + n ≤ buf.length) || (buf.drop p).contains 0

/-- A string with its length in the byte before it, into `size` bytes; kitchen_sink.c 242-245, 326-329, 340-343. The length is capped, so the
stores are inside the array. -/
def Sink.copyPre (s : Sink) (buf : List Byte) (p size : Nat) : Sink :=
  match p with
  | 0 => s.need false
  | q + 1 => s.need (decide (q < buf.length) && copyFits buf p (min (buf.getD q 0).toNat (size - 1)))

/-- sink_cb with a pointer into the packet: bulk transfers, kitchen_sink.c 162-174, and strings, 238-249, 263-269, 276-279, 323-331,
337-345. -/
def sinkPkt (names : List (List Byte)) (s : Sink) (key : Nat) (op : Byte) (buf : List Byte) (p : Nat) : Sink :=
  match names[key]? with
  | none => s
  | some k =>
    if op = 0x39 then
      if k = word "matrix" then s.need (p + 4 ≤ buf.length)
      else if k = word "dynamic_bytes" then (if s.dynLen = 0 then s else s.put k (s.dynLen - 1) 256).need (p + s.dynLen ≤ buf.length)
      else s
    else if k = word "dynamic_strings" then
      if s.strIdx < s.strCount then { (s.put k s.strIdx 10).copyPre buf p 64 with strIdx := s.strIdx + 1 } else s
    else if k = word "name" then s.need (copyFits buf p 32)
    else if k = word "reason" then
      { s.need (copyFits buf p 255) with reason := ((buf.drop p).take 255).takeWhile (· != 0) }
    else if k = word "extra_data" ∨ k = word "adv_details" then s.copyPre buf p 64
    else s

/-- sink_cb without a pointer, kitchen_sink.c 182-192. -/
def sinkTell (names : List (List Byte)) (s : Sink) (key : Nat) (op : Byte) : Sink :=
  match names[key]? with
  | none => s
  | some _ =>
    if op = 0x38 then { s with inWay := false }
    else if op = 0x04 then (if s.inWay && decide (s.wayIdx < 4) then { s with wayIdx := s.wayIdx + 1 } else s)
    else s

/-- The callback as a host of the VM when decoding. It accepts everything. -/
def sinkHost (names : List (List Byte)) : Host Sink where
  notify s key op := (true, sinkTell names s key op)
  scalar s key op cell := (true, sinkVar names s key op cell)
  str s _ _ := (true, none, s)
  bytesAt s key op _ buf p := (true, buf, sinkPkt names s key op buf p)

end Cnd
