import Verif.Props.EndToEnd
/-
  C42: two schemas of the repository's own feature examples that its compiler refuses.
-/

namespace Cnd

/-- The bytes of /repo/examples/features/conditionals/if_else.cnd, the whole file. Its line 30 is `if ((a > 10) && (b < 5)) {`. -/
def ifElseSrc : List Byte := ([
   112, 97, 99, 107, 101, 116, 32, 73, 102, 69, 108, 115, 101, 69, 120, 97, 109, 112, 108, 101, 32, 123, 10, 32, 32, 32, 32, 47, 47, 32, 83, 105,
   109, 112, 108, 101, 32, 98, 111, 111, 108, 101, 97, 110, 32, 99, 104, 101, 99, 107, 10, 32, 32, 32, 32, 98, 111, 111, 108, 32, 104, 97, 115,
   95, 110, 97, 109, 101, 59, 10, 32, 32, 32, 32, 105, 102, 32, 40, 104, 97, 115, 95, 110, 97, 109, 101, 41, 32, 123, 10, 32, 32, 32, 32, 32, 32,
   32, 32, 115, 116, 114, 105, 110, 103, 32, 110, 97, 109, 101, 32, 112, 114, 101, 102, 105, 120, 32, 117, 105, 110, 116, 56, 59, 10, 32, 32, 32,
   32, 125, 10, 10, 32, 32, 32, 32, 47, 47, 32, 67, 111, 109, 112, 97, 114, 105, 115, 111, 110, 32, 99, 104, 101, 99, 107, 10, 32, 32, 32, 32,
   117, 105, 110, 116, 56, 32, 116, 121, 112, 101, 59, 10, 32, 32, 32, 32, 105, 102, 32, 40, 116, 121, 112, 101, 32, 61, 61, 32, 49, 41, 32, 123,
   10, 32, 32, 32, 32, 32, 32, 32, 32, 117, 105, 110, 116, 51, 50, 32, 105, 100, 59, 10, 32, 32, 32, 32, 125, 32, 101, 108, 115, 101, 32, 123,
   10, 32, 32, 32, 32, 32, 32, 32, 32, 117, 105, 110, 116, 49, 54, 32, 115, 104, 111, 114, 116, 95, 105, 100, 59, 10, 32, 32, 32, 32, 125, 10,
   32, 32, 32, 32, 10, 32, 32, 32, 32, 47, 47, 32, 78, 101, 115, 116, 101, 100, 32, 105, 102, 47, 101, 108, 115, 101, 10, 32, 32, 32, 32, 98,
   111, 111, 108, 32, 104, 97, 115, 95, 110, 101, 115, 116, 101, 100, 59, 10, 32, 32, 32, 32, 105, 102, 32, 40, 104, 97, 115, 95, 110, 101, 115,
   116, 101, 100, 41, 32, 123, 10, 32, 32, 32, 32, 32, 32, 32, 32, 98, 111, 111, 108, 32, 105, 115, 95, 100, 101, 101, 112, 59, 10, 32, 32, 32,
   32, 32, 32, 32, 32, 105, 102, 32, 40, 105, 115, 95, 100, 101, 101, 112, 41, 32, 123, 10, 32, 32, 32, 32, 32, 32, 32, 32, 32, 32, 32, 32, 117,
   105, 110, 116, 54, 52, 32, 100, 101, 101, 112, 95, 118, 97, 108, 59, 10, 32, 32, 32, 32, 32, 32, 32, 32, 125, 32, 101, 108, 115, 101, 32, 123,
   10, 32, 32, 32, 32, 32, 32, 32, 32, 32, 32, 32, 32, 117, 105, 110, 116, 51, 50, 32, 115, 104, 97, 108, 108, 111, 119, 95, 118, 97, 108, 59,
   10, 32, 32, 32, 32, 32, 32, 32, 32, 125, 10, 32, 32, 32, 32, 125, 10, 32, 32, 32, 32, 10, 32, 32, 32, 32, 47, 47, 32, 67, 111, 109, 112, 108,
   101, 120, 32, 101, 120, 112, 114, 101, 115, 115, 105, 111, 110, 10, 32, 32, 32, 32, 117, 105, 110, 116, 56, 32, 97, 59, 10, 32, 32, 32, 32,
   117, 105, 110, 116, 56, 32, 98, 59, 10, 32, 32, 32, 32, 105, 102, 32, 40, 40, 97, 32, 62, 32, 49, 48, 41, 32, 38, 38, 32, 40, 98, 32, 60, 32,
   53, 41, 41, 32, 123, 10, 32, 32, 32, 32, 32, 32, 32, 32, 117, 105, 110, 116, 56, 32, 115, 112, 101, 99, 105, 97, 108, 95, 118, 97, 108, 59,
   10, 32, 32, 32, 32, 125, 10, 125, 10] : List Nat).map (BitVec.ofNat 8)

/-- The bytes of /repo/examples/features/arrays/array_pre.cnd, the whole file. Its field is `uint8[] data prefix uint8;`. -/
def arrayPreSrc : List Byte := ([
   112, 97, 99, 107, 101, 116, 32, 86, 97, 114, 105, 97, 98, 108, 101, 65, 114, 114, 97, 121, 84, 101, 115, 116, 32, 123, 10, 32, 32, 32, 32,
   117, 105, 110, 116, 56, 91, 93, 32, 100, 97, 116, 97, 32, 112, 114, 101, 102, 105, 120, 32, 117, 105, 110, 116, 56, 59, 10, 125, 10] : List Nat).map (BitVec.ofNat 8)

theorem compiled_image {c : Compiled} (h : (match c with | .image _ => true | _ => false) = true) : ∃ img, c = .image img := by
  cases c <;> first | exact ⟨_, rfl⟩ | cases h

/-- **The repository's example of conditionals is refused by its compiler**, because of the parentheses in its last condition: with
`if (a > 10 && b < 5)` in place of `if ((a > 10) && (b < 5))` the same file is compiled. -/
theorem C42_false_example :
    (ifElseSrc.drop 525).take 24 = word "if ((a > 10) && (b < 5))" ∧
    compile demoP 2000 ifElseSrc = .refused ∧
    ∃ img, compile demoP 2000 (ifElseSrc.take 525 ++ word "if (a > 10 && b < 5)" ++ ifElseSrc.drop 549) = .image img :=
  ⟨by decide +kernel, by decide +kernel, compiled_image (by decide +kernel)⟩

/-- **The repository's example of variable arrays is refused too**: the brackets belong behind the name (parse_field, cnd_parser.c 986-1018). The
same field written `uint8 data[] prefix uint8;` is compiled. -/
theorem arrayExample_refused :
    compile demoP 2000 arrayPreSrc = .refused ∧
    ∃ img, compile demoP 2000 (word "packet VariableArrayTest { uint8 data[] prefix uint8; }") = .image img :=
  ⟨by decide +kernel, compiled_image (by decide +kernel)⟩

end Cnd
