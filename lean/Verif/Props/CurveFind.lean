import Verif.Props.Curves
import Verif.Parse
import Verif.Demo
/-
  C83, where it is false: numbers that decoding through a curve gives, and that encoding turns into other bytes. The doubles are those of
  IEEE 754 (`Soft.ieee`), and the programs are compiled from source text.
-/

namespace Cnd

/-- The constants of the examples: small decimal numbers, and the doubles next to 0.01 and 0.0001. -/
def curveDbl (t : List Byte) : Word :=
  if t = word "0.01" then 0x3F847AE147AE147B
  else if t = word "0.0001" then 0x3F1A36E2EB1C432D
  else if t = word "-1" then 0xBFF0000000000000
  else Soft.ieee.ofU64 ((parseU32 t).setWidth 64)

def curveP : PEnv := ⟨curveDbl, Soft.ieee⟩

/-- The source text is compiled to a program that decodes the packet `b` to the double `y`, and encodes `y` as the packet `b'`. -/
def Turns (src : String) (c : Curve) (b : Byte) (y : Word) (b' : Byte) : Prop :=
  compile curveP 1000 (word src) = .image (writeImage [word "x", word "P"] ([7, 1, 0] ++ c.code ++ [0x10, 0, 0])) ∧
  Demo.obs (exec { Demo.env ([7, 1, 0] ++ c.code ++ [0x10, 0, 0]) false with fl := Soft.ieee } 99 (Demo.start [b] {})) =
    .stopped .ok [b] 1 0 { log := [(0, 0x19, y.toNat)] } ∧
  Demo.obs (exec { Demo.env ([7, 1, 0] ++ c.code ++ [0x10, 0, 0]) true with fl := Soft.ieee } 99 (Demo.start [0] { inp := [y] })) =
    .stopped .ok [b'] 1 0 { log := [(0, 0x19, y.toNat)] }

instance (src : String) (c : Curve) (b : Byte) (y : Word) (b' : Byte) : Decidable (Turns src c b y b') := by
  unfold Turns; infer_instance

/-- **Encoding cuts instead of rounding.** With `@scale(0.01)`, 29 is decoded to 0.29, and 0.29 is encoded as 28: 0.29 / 0.01 is
28.999999999999996 and the VM casts it to an integer (vm_exec.c 171-178). -/
theorem C83_false_scale : Turns "packet P { @scale(0.01) u8 x; }" (.scale 0x3F847AE147AE147B 0) 29 0x3FD28F5C28F5C28F 28 := by decide +kernel

/-- **The square root is not found.** With `@poly(0, 0, 1)`, 5 is decoded to 25, and 25 is encoded as 0: Newton's method is begun at 0,
where the slope is 0, and given up (vm_exec.c 35-56). -/
theorem C83_false_square : Turns "packet P { @poly(0, 0, 1) u8 x; }" (.poly [0, 0, 0x3FF0000000000000]) 5 0x4039000000000000 0 := by
  decide +kernel

/-- **Small values are taken for 0.** With `@poly(0, 0.0001)`, 5 is decoded to 0.0005, and 0.0005 is encoded as 0: it is less than 0.001
away from the value at 0, and 0.001 is the fixed bound (vm_exec.c 51). -/
theorem C83_false_small : Turns "packet P { @poly(0, 0.0001) u8 x; }" (.poly [0, 0x3F1A36E2EB1C432D]) 5 0x3F40624DD2F1A9FC 0 := by
  decide +kernel

/-- **Newton's method from below is cut.** With `@poly(0, 100, -1)`, 5 is decoded to 475, and 475 is encoded as 4: the method stops close
below 5 (vm_exec.c 51-54). -/
theorem C83_false_below : Turns "packet P { @poly(0, 100, -1) u8 x; }" (.poly [0, 0x4059000000000000, 0xBFF0000000000000]) 5
    0x407DB00000000000 4 := by decide +kernel

/-- **Above the points.** With `@spline(0, 0, 10, 100)`, 20 is decoded to 200 on the last line continued, and 200 is encoded as 0: the
encoder looks between the points only (vm_exec.c 70, 89). -/
theorem C83_false_outside : Turns "packet P { @spline(0, 0, 10, 100) u8 x; }" (.spline [0, 0, 0x4024000000000000, 0x4059000000000000]) 20
    0x4069000000000000 0 := by decide +kernel

/-- **Below the points.** With `@spline(10, 0, 20, 10, 30, 100)`, 5 is decoded to -125: not on the first line, which has -5 there, but on the
last one (vm_exec.c 70: `i == count - 2`). It is encoded as 0. -/
theorem C83_false_under : Turns "packet P { @spline(10, 0, 20, 10, 30, 100) u8 x; }"
    (.spline [0x4024000000000000, 0, 0x4034000000000000, 0x4024000000000000, 0x403E000000000000, 0x4059000000000000]) 5
    0xC05F400000000000 0 := by decide +kernel

/-- **Points with the same y.** With `@spline(0, 7, 10, 7, 20, 30)`, 4 is decoded to 7, which is encoded as 0. The curve has 7 at all of
0 to 10, so no encoder could do better. -/
example : Turns "packet P { @spline(0, 7, 10, 7, 20, 30) u8 x; }"
    (.spline [0, 0x401C000000000000, 0x4024000000000000, 0x401C000000000000, 0x4034000000000000, 0x403E000000000000]) 4
    0x401C000000000000 0 := by decide +kernel

end Cnd
