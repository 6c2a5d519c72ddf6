import Verif.VM
/-
  A small concrete host and context, used only in the examples beside the theorems and in
  counterexamples. The host supplies values from a list when asked and logs what it is given.
-/

namespace Cnd.Demo

/-- Floating-point stand-in for examples that do no floating point. -/
def fl : FloatOps where
  add _ _ := 0
  sub _ _ := 0
  mul _ _ := 0
  div _ _ := 0
  neg _ := 0
  eq a b := a == b
  lt _ _ := false
  le _ _ := false
  sin _ := 0
  cos _ := 0
  tan _ := 0
  sqrt _ := 0
  log _ := 0
  abs _ := 0
  floor _ := 0
  pow _ _ := 0
  ofI64 _ := 0
  ofU64 _ := 0
  toTy _ _ := some 0
  toF32 _ := 0
  ofF32 _ := 0
  sub32 _ _ := 0
  lt32 _ _ := false
  f32ofI64 _ := 0
  f32toI64 _ := some 0

/-- Host state: values still to supply, strings still to supply, log of (key, opcode, value). -/
structure Tape where
  inp : List Word := []
  strs : List (List Byte) := []
  log : List (Nat × Nat × Nat) := []
  deriving DecidableEq, Repr

/-- A host that supplies values (encoder side) and declines bulk transfers. -/
def giver : Host Tape where
  notify t key op := (true, { t with log := t.log ++ [(key, op.toNat, 0)] })
  scalar t key op _ := match t.inp with
    | [] => (false, 0, t)
    | w :: ws => (true, w, { t with inp := ws, log := t.log ++ [(key, op.toNat, w.toNat)] })
  str t key op := match t.strs with
    | [] => (false, none, t)
    | w :: ws => (true, some w, { t with strs := ws, log := t.log ++ [(key, op.toNat, w.length)] })
  bytesAt t _ _ _ buf _ := (false, buf, t)

/-- A host that takes values (decoder side); on context queries it supplies values. -/
def taker : Host Tape where
  notify t key op := (true, { t with log := t.log ++ [(key, op.toNat, 0)] })
  scalar t key op v :=
    if op = 0x06 ∨ op = 0x60 then match t.inp with
      | [] => (false, 0, t)
      | w :: ws => (true, w, { t with inp := ws })
    else (true, v, { t with log := t.log ++ [(key, op.toNat, v.toNat)] })
  str t _ _ := (true, none, t)
  bytesAt t key op _ buf pos :=
    if op = 0x39 then (false, buf, t)
    else (true, buf, { t with log := t.log ++ [(key, op.toNat, pos)] })

def env (prog : List Byte) (enc : Bool) : Env Tape :=
  { prog := prog, enc := enc, host := if enc then giver else taker, fl := fl }

/-- A context that was never used. -/
def blank : St Tape :=
  { buf := [], ip := 0, cursor := 0, bit := 0, be := false, trans := .none, fFactor := 0, fOffset := 0,
    iVal := 0, polyPos := 0, polyCnt := 0, splPos := 0, splCnt := 0, opt := false, loops := [],
    stack := [], host := {} }

def start (buf : List Byte) (t : Tape) : St Tape := initSt blank buf t

/-- What can be observed of a result: error code if stopped, undefined behaviour kind, packet,
cursor, host. -/
inductive Obs
  | running (buf : List Byte) (cursor bit : Nat) (t : Tape)
  | stopped (e : Err) (buf : List Byte) (cursor bit : Nat) (t : Tape)
  | undef (u : UB)
  deriving DecidableEq, Repr

def obs : Res Tape → Obs
  | .run s => .running s.buf s.cursor s.bit s.host
  | .stop e s => .stopped e s.buf s.cursor s.bit s.host
  | .ub u => .undef u

theorem ub_of_obs {r : Res Tape} {u : UB} (h : obs r = .undef u) : r = .ub u := by
  cases r <;> simp [obs] at h; rw [h]

end Cnd.Demo
