/-
  The compiler's growing memory: Buffer, StringTable and StringBuilder of /repo/src/compiler/cnd_utils.c with malloc, realloc and free.
  Elsewhere in the model these are lists.

  Memory is a set of blocks of cells. A cell is a byte, a pointer (which takes one cell here) or was never written. `realloc` always moves.
  Sizes are natural numbers and allocation never fails: wrapping of `size_t` is not modelled. An access outside a block, to a block that
  was freed, or of a cell that was never written is `none`.
-/
import Verif.Bytes
import Verif.CompUtil

namespace Cnd.Mem

inductive Cell
  | junk
  | byte (b : Byte)
  | ptr (p : Nat)
  deriving DecidableEq, Repr

structure Heap where
  next : Nat
  blk : Nat → Option (List Cell)

/-- Memory with another block at `p`. -/
def Heap.put (H : Heap) (p : Nat) (c : Option (List Cell)) : Heap := { H with blk := fun q => if q = p then c else H.blk q }

/-- `malloc`. -/
def malloc (H : Heap) (n : Nat) : Heap × Nat :=
  ({ (H.put H.next (some (List.replicate n .junk))) with next := H.next + 1 }, H.next)

/-- `free`. -/
def free (H : Heap) (p : Nat) : Option Heap := (H.blk p).map fun _ => H.put p none

/-- `realloc`, with the result in a new block. -/
def realloc (H : Heap) (p n : Nat) : Option (Heap × Nat) :=
  (H.blk p).map fun c =>
    ({ ((H.put p none).put H.next (some (c.take n ++ List.replicate (n - c.length) .junk))) with next := H.next + 1 }, H.next)

/-- Writing to `p + off`, also by `memcpy`. -/
def poke (H : Heap) (p off : Nat) (cs : List Cell) : Option Heap :=
  (H.blk p).bind fun c => if off + cs.length ≤ c.length then some (H.put p (some (c.take off ++ cs ++ c.drop (off + cs.length)))) else none

/-- Reading `n` cells at `p + off`. -/
def peek (H : Heap) (p off n : Nat) : Option (List Cell) :=
  (H.blk p).bind fun c => if off + n ≤ c.length then some ((c.drop off).take n) else none

def asBytes : List Cell → Option (List Byte)
  | [] => some []
  | .byte b :: cs => (asBytes cs).map (b :: ·)
  | _ :: _ => none

def asPtrs : List Cell → Option (List Nat)
  | [] => some []
  | .ptr p :: cs => (asPtrs cs).map (p :: ·)
  | _ :: _ => none

/-- The C string in the cells (`strlen` and reading up to there). -/
def cstr : List Cell → Option (List Byte)
  | .byte b :: cs => if b = 0 then some [] else (cstr cs).map (b :: ·)
  | _ => none

/-! ### Buffer -/

/-- Buffer, cnd_internal.h 115-119. -/
structure Buf where
  data : Nat
  size : Nat
  cap : Nat
  deriving DecidableEq, Repr

/-- buf_init, cnd_utils.c 235-239. -/
def bufInit (H : Heap) : Heap × Buf :=
  let r := malloc H 1024
  (r.1, ⟨r.2, 0, 1024⟩)

/-- `while (need > capacity) capacity *= 2`, cnd_utils.c 247; a capacity of 0, with which the loop would not end, stays. -/
def grow (need cap : Nat) : Nat := if cap < need ∧ 0 < cap then grow need (cap * 2) else cap
termination_by need - cap
decreasing_by omega

/-- cnd_utils.c 246-249. -/
def bufRoom (H : Heap) (b : Buf) (need : Nat) : Option (Heap × Buf) :=
  if b.cap < need then
    (realloc H b.data (grow need b.cap)).map fun r => (r.1, { b with data := r.2, cap := grow need b.cap })
  else some (H, b)

/-- buf_append, cnd_utils.c 245-252, from memory that is none of the blocks here. -/
def bufAppend (H : Heap) (b : Buf) (bs : List Byte) : Option (Heap × Buf) :=
  (bufRoom H b (b.size + bs.length)).bind fun r =>
  (poke r.1 r.2.data r.2.size (bs.map .byte)).map fun H => (H, { r.2 with size := r.2.size + bs.length })

/-- buf_append from a block: cnd_parser.c 1515, and the pieces copied by buf_append_with_prefix, cnd_utils.c 174-231. The source is read
after the buffer has grown. -/
def bufCopy (H : Heap) (b : Buf) (src off n : Nat) : Option (Heap × Buf) :=
  (bufRoom H b (b.size + n)).bind fun r =>
  (peek r.1 src off n).bind fun cs =>
  (poke r.1 r.2.data r.2.size cs).map fun H => (H, { r.2 with size := r.2.size + n })

/-- buf_push, cnd_utils.c 254-260. buf_push_u16, _u32 and _u64 (262-277) are sequences of it. -/
def bufPush (H : Heap) (b : Buf) (x : Byte) : Option (Heap × Buf) :=
  (if b.cap ≤ b.size then (realloc H b.data (b.cap * 2)).map fun r => (r.1, { b with data := r.2, cap := b.cap * 2 }) else some (H, b)).bind fun r =>
  (poke r.1 r.2.data r.2.size [.byte x]).map fun H => (H, { r.2 with size := r.2.size + 1 })

/-- buf_write_u8_at, _u16_at, _u32_at, cnd_utils.c 279-296, with the bytes of the number. -/
def bufPatch (H : Heap) (b : Buf) (off : Nat) (bs : List Byte) : Option (Heap × Buf) :=
  if off + bs.length > b.size then some (H, b) else (poke H b.data off (bs.map .byte)).map fun H => (H, b)

/-! ### StringBuilder -/

/-- StringBuilder, cnd_internal.h 149-153. -/
structure Sb where
  data : Nat
  len : Nat
  cap : Nat
  deriving DecidableEq, Repr

/-- sb_init, cnd_utils.c 501-506. -/
def sbInit (H : Heap) : Option (Heap × Sb) :=
  let r := malloc H 64
  (poke r.1 r.2 0 [.byte 0]).map fun H => (H, ⟨r.2, 0, 64⟩)

/-- cnd_utils.c 523-525: the capacity. -/
def sbGrow (need cap : Nat) : Nat := if cap = 0 then grow need 64 else grow need cap

/-- sb_append_n, cnd_utils.c 521-531; sb_append (515-519) with `strlen`; sb_append_c (533-542) is the case of one byte. -/
def sbAppend (H : Heap) (b : Sb) (bs : List Byte) : Option (Heap × Sb) :=
  (if b.len + bs.length + 1 > b.cap then
    (realloc H b.data (sbGrow (b.len + bs.length + 1) b.cap)).map fun r => (r.1, { b with data := r.2, cap := sbGrow (b.len + bs.length + 1) b.cap })
  else some (H, b)).bind fun r =>
  (poke r.1 r.2.data r.2.len (bs.map .byte)).bind fun H =>
  (poke H r.2.data (r.2.len + bs.length) [.byte 0]).map fun H => (H, { r.2 with len := r.2.len + bs.length })

/-- sb_reset, cnd_utils.c 544-547. -/
def sbReset (H : Heap) (b : Sb) : Option (Heap × Sb) := (poke H b.data 0 [.byte 0]).map fun H => (H, { b with len := 0 })

/-- sb_build, cnd_utils.c 549-554: the address of the string. -/
def sbBuild (H : Heap) (b : Sb) : Option (Heap × Nat) :=
  let r := malloc H (b.len + 1)
  (peek r.1 b.data 0 b.len).bind fun cs =>
  (poke r.1 r.2 0 cs).bind fun H =>
  (poke H r.2 b.len [.byte 0]).map fun H => (H, r.2)

/-! ### StringTable -/

/-- StringTable, cnd_internal.h 134-138. -/
structure Tab where
  strings : Nat
  count : Nat
  cap : Nat
  deriving DecidableEq, Repr

/-- strtab_init, cnd_utils.c 304-308. -/
def tabInit (H : Heap) : Heap × Tab :=
  let r := malloc H 32
  (r.1, ⟨r.2, 0, 32⟩)

/-- The loop of strtab_add, cnd_utils.c 311-315, over the pointers left, the first having number `i`. -/
def tabFind (H : Heap) (name : List Byte) : List Nat → Nat → Option (Option Nat)
  | [], _ => some none
  | p :: ps, i =>
    ((H.blk p).bind cstr).bind fun s => if s = name then some (some i) else tabFind H name ps (i + 1)

/-- strtab_add, cnd_utils.c 310-325. -/
def tabAdd (H : Heap) (t : Tab) (name : List Byte) : Option (Heap × Tab × Nat) :=
  ((peek H t.strings 0 t.count).bind asPtrs).bind fun ps =>
  (tabFind H name ps 0).bind fun f =>
  match f with
  | some i => some (H, t, i % 65536)
  | none =>
    (if t.cap ≤ t.count then
      (realloc H t.strings (if t.cap = 0 then 8 else t.cap * 2)).map fun r =>
        (r.1, { t with strings := r.2, cap := if t.cap = 0 then 8 else t.cap * 2 })
    else some (H, t)).bind fun g =>
    let r := malloc g.1 (name.length + 1)
    (poke r.1 r.2 0 (name.map .byte)).bind fun H =>
    (poke H r.2 name.length [.byte 0]).bind fun H =>
    (poke H g.2.strings g.2.count [.ptr r.2]).map fun H => (H, { g.2 with count := g.2.count + 1 }, g.2.count % 65536)

def freeAll (H : Heap) : List Nat → Option Heap
  | [] => some H
  | p :: ps => (free H p).bind fun H => freeAll H ps

/-- strtab_free, cnd_utils.c 327-335. -/
def tabFree (H : Heap) (t : Tab) : Option Heap :=
  ((peek H t.strings 0 t.count).bind asPtrs).bind fun ps =>
  (freeAll H ps).bind fun H => free H t.strings

/-! ### Any number of them, used in any order -/

/-- What the compiler does with them. -/
inductive MemOp
  | newBuf | newSb | newTab
  | append (i : Nat) (bs : List Byte)
  | copy (i j off n : Nat)
  | push (i : Nat) (b : Byte)
  | patch (i off : Nat) (bs : List Byte)
  | text (i : Nat) (bs : List Byte)
  | reset (i : Nat)
  | build (i : Nat)
  | add (i : Nat) (name : List Byte)
  | free (i : Nat)

inductive CObj
  | buf (b : Buf)
  | sb (b : Sb)
  | tab (t : Tab)
  | str (p : Nat)
  | dead
  deriving DecidableEq, Repr

/-- One call; the number is what strtab_add returns. -/
def cstep (H : Heap) (cs : List CObj) : MemOp → Option (Heap × List CObj × Option Nat)
  | .newBuf => let r := bufInit H; some (r.1, cs ++ [.buf r.2], none)
  | .newSb => (sbInit H).map fun r => (r.1, cs ++ [.sb r.2], none)
  | .newTab => let r := tabInit H; some (r.1, cs ++ [.tab r.2], none)
  | .append i bs => match cs[i]? with
    | some (.buf b) => (bufAppend H b bs).map fun r => (r.1, cs.set i (.buf r.2), none)
    | _ => none
  | .copy i j off n => match cs[i]?, cs[j]? with
    | some (.buf b), some (.buf c) => (bufCopy H b c.data off n).map fun r => (r.1, cs.set i (.buf r.2), none)
    | _, _ => none
  | .push i x => match cs[i]? with
    | some (.buf b) => (bufPush H b x).map fun r => (r.1, cs.set i (.buf r.2), none)
    | _ => none
  | .patch i off bs => match cs[i]? with
    | some (.buf b) => (bufPatch H b off bs).map fun r => (r.1, cs.set i (.buf r.2), none)
    | _ => none
  | .text i bs => match cs[i]? with
    | some (.sb b) => (sbAppend H b bs).map fun r => (r.1, cs.set i (.sb r.2), none)
    | _ => none
  | .reset i => match cs[i]? with
    | some (.sb b) => (sbReset H b).map fun r => (r.1, cs.set i (.sb r.2), none)
    | _ => none
  | .build i => match cs[i]? with
    | some (.sb b) => (sbBuild H b).map fun r => (r.1, cs ++ [.str r.2], none)
    | _ => none
  | .add i name => match cs[i]? with
    | some (.tab t) => (tabAdd H t name).map fun r => (r.1, cs.set i (.tab r.2.1), some r.2.2)
    | _ => none
  | .free i => match cs[i]? with
    | some (.buf b) => (free H b.data).map fun H => (H, cs.set i .dead, none)
    | some (.sb b) => (free H b.data).map fun H => (H, cs.set i .dead, none)
    | some (.tab t) => (tabFree H t).map fun H => (H, cs.set i .dead, none)
    | some (.str p) => (free H p).map fun H => (H, cs.set i .dead, none)
    | _ => none

def crun (H : Heap) (cs : List CObj) : List MemOp → Option (Heap × List CObj × List Nat)
  | [] => some (H, cs, [])
  | op :: ops => (cstep H cs op).bind fun r => (crun r.1 r.2.1 ops).map fun t => (t.1, t.2.1, r.2.2.toList ++ t.2.2)

end Cnd.Mem
