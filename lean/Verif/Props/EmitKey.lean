import Verif.Props.EndToEnd
/-
  C62, C48: behind a computed field the next expression may read another field than the source says.

  Dead-string elimination (cndc.c 17-133) does not know that OP_EMIT is followed by a type: it takes the type for the opcode of a field and the
  next two bytes for its key. If those two bytes begin an OP_LOAD_CTX, its key is not renumbered.
-/

namespace Cnd

def exSrc62k : List Byte := word "struct V { u8 y; } packet P { V p; @expr(1) u8 a; @expr(p.y) u8 b; }"

def exProg62k : List Item :=
  [.decl [] (.struct (word "V") (bodyOf [fieldOf [] "u8" "y"])),
   .decl [] (.packet (word "P") (bodyOf [fieldOf [] "V" "p", fieldOf [.expr (leafNum "1")] "u8" "a",
     fieldOf [.expr (.leaf (tId (word "p")) [(tDot, tId (word "y"))])] "u8" "b"]))]

theorem ex62k_lex : (lexAll (exSrc62k.length + 1) (exSrc62k ++ [0]) 1).map (fun l => l.map Tok.bare) =
    some (exProg62k.flatMap Item.toks ++ [eofTok]) := by
  decide +kernel

def exTab62k : List (List Byte) := ["y", "p", "p.y", "a", "b", "P"].map word

/-- The packet the source describes: `a` is 1, and `b` is `p.y` (key 2). -/
def exSch62k : Sch :=
  .seq (.fld (.name 5 0)) (.seq (.seq (.seq (.struct 1 0 (.seq (.seq (.fld (.scalar 0x10 2 0)) (.fld .empty)) (.fld .empty))) (.fld .empty))
    (.seq (.seq (.calc (.lit 1) false 0x10 3 0) (.fld .empty))
    (.seq (.seq (.calc (.fld 2 0) false 0x10 4 0) (.fld .empty)) (.fld .empty)))) (.fld .empty))

theorem ex62k_prog : progSch demoP.dbl demoP.fl exProg62k = some (exTab62k, exSch62k) := by decide +kernel

/-- The code of the image; `0x60, 2, 0` loads `a`, the name with number 2 in the image. -/
def exCode62k : List Byte :=
  [0x07, 4, 0, 0x03, 0, 0, 0x10, 1, 0, 0x04, 0x61, 1, 0, 0, 0, 0, 0, 0, 0, 0x64, 0x78, 2, 0, 0x65, 0x10, 0x60, 2, 0, 0x64, 0x78, 3, 0, 0x65, 0x10]

/-- **The round trip fails for some programs, through a wrong field.** In the source `b` is `p.y`, and `p.y = 7`, `a = 1`, `b = 7` is a record of the
packet in the bytes 07 01 07. In the compiled image `b` is computed from `a`: the image refuses those bytes, and a packet it encodes has 1
for `b`. -/
theorem C62_false_key :
    SRec demoP.fl (.plain fun _ => false) exSch62k ⟨0, false, []⟩
      ⟨8 * 3, false, [.note 1 0x03, .num 2 0x10 7, .note 0 0x04, .num 3 0x78 1, .num 4 0x78 7]⟩ ∧
    ∃ img pr, (∀ fuel, 16 * exSrc62k.length + 18 ≤ fuel → compile demoP fuel exSrc62k = .image img) ∧ loadIl img = .ok pr ∧
      (∃ s, exec { prog := pr.code, enc := false, host := taker (.plain fun _ => false), fl := demoP.fl } 100
        (initSt (zeroSt []) [7, 1, 7] []) = .stop .validation s) ∧
      ∃ s, exec { prog := pr.code, enc := true, host := giver (.plain fun _ => false), fl := demoP.fl } 100
        (initSt (zeroSt ⟨[], []⟩) [0, 0, 0] ⟨[], [.note 0 0x03, .num 1 0x10 7, .note 0 0x04, .num 2 0x78 1, .num 3 0x78 1]⟩) = .stop .ok s ∧
        s.buf = [7, 1, 1] := by
  constructor
  · unfold exSch62k
    simp only [SRec, Rec]
    exact ⟨_, rfl, _, ⟨_, ⟨_, ⟨_, ⟨_, ⟨_, ⟨1, 7, rfl, ⟨by decide, by decide⟩, rfl, rfl⟩, rfl⟩, rfl⟩, rfl⟩, rfl⟩, _,
      ⟨_, ⟨1, 1, rfl, ⟨by decide, by decide⟩, by decide, by decide, by decide, rfl, rfl⟩, rfl⟩, _,
      ⟨_, ⟨1, 7, rfl, ⟨by decide, by decide⟩, by decide, by decide, by decide, rfl, rfl⟩, rfl⟩, rfl⟩, rfl⟩
  · obtain ⟨toks, h1, h2⟩ := lexAll_total exSrc62k
    have e := ex62k_lex
    rw [h2, Option.map_some, Option.some.injEq] at e
    have ho : optimizeStrings exTab62k exSch62k.code = (["p", "p.y", "a", "b", "P"].map word, exCode62k) := by decide +kernel
    obtain ⟨pr, p1, p2, _⟩ := C35_round_trip_partial (["p", "p.y", "a", "b", "P"].map word) exCode62k (by unfold NulFree; decide +kernel) (by decide +kernel)
      (by decide) (by decide +kernel)
    refine ⟨_, pr, fun fuel hf => ?_, p1, ?_, ?_⟩
    · have hc := C59_source demoP exProg62k exTab62k exSch62k.code (progSch_code ex62k_prog) exSrc62k toks h1 e fuel hf
      rw [ho] at hc
      exact hc
    · rw [p2]
      exact invalidB_iff (by decide +kernel)
    · rw [p2]
      exact wroteB_iff (by decide +kernel)

/-- The same by dead-string elimination alone: the load of name 1 keeps its number though the name has number 0 in the new table. -/
theorem C48_false_emit :
    optimizeStrings [[0x61], [0x62], [0x63]] [0x65, 0x10, 0x60, 1, 0, 0x10, 1, 0, 0x10, 2, 0] =
      ([[0x62], [0x63]], [0x65, 0x10, 0x60, 1, 0, 0x10, 0, 0, 0x10, 1, 0]) := by decide +kernel

end Cnd
