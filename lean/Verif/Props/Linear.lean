import Verif.PaceRuns
import Verif.Props.Total
/-
  C92: how long encoding and decoding take.
-/

set_option linter.unusedVariables false

namespace Cnd
variable {σ : Type}

/-- **C92** for the programs of checked packet descriptions: whatever the host does, whatever is in the packet and whatever context is
used, not more instructions are carried out than a number linear in the size of the packet; its factor is the size of the code times
the nesting depth of arrays.
Missing: descriptions with arrays whose elements can be had without a byte of the packet; `C92_false_bits` shows why they must be
excluded. What a single instruction costs is not counted: a string or a checksum is one instruction. -/
theorem C92_linear_partial (E : Env σ) (f : Sch) (hp : E.prog = f.code) (ht : f.swift = true) (hlen : f.code.length < 2 ^ 31)
    (old : St σ) (buf : List Byte) (user : σ) :
    ∃ n, n ≤ f.code.length * (1 + f.depth * buf.length) + 1 ∧ ∀ s', exec E n (initSt old buf user) ≠ .run s' := by
  obtain ⟨n, h1, h2⟩ := sch_swift f hp ht hlen old buf user
  refine ⟨n, ?_, h2⟩
  have : f.depth * f.code.length * buf.length = f.code.length * (f.depth * buf.length) := by
    rw [Nat.mul_comm f.depth, Nat.mul_assoc]
  rw [Nat.mul_add, Nat.mul_one]
  omega

/-- **C92** with C66: the run ends with a result within that number of instructions. -/
theorem C92_handled_partial (E : Env σ) (f : Sch) (hp : E.prog = f.code) (ht : f.tame E.enc = true) (hs : f.swift = true)
    (hlen : f.code.length < 2 ^ 31) (old : St σ) (buf : List Byte) (user : σ) :
    ∃ n e s', n ≤ f.code.length * (1 + f.depth * buf.length) + 1 ∧ exec E n (initSt old buf user) = .stop e s' := by
  obtain ⟨n, h1, h2⟩ := C92_linear_partial E f hp hs hlen old buf user
  obtain ⟨_, h3⟩ := C66_every_input_partial E f hp ht hlen old buf user
  cases h : exec E n (initSt old buf user) with
  | run s' => exact absurd h (h2 s')
  | stop e s' => exact ⟨n, e, s', h1, h⟩
  | ub u => exact absurd h (h3 n u)

/-- **C92** from the source text to the result. -/
theorem C92_source_partial (P : PEnv) (prog : List Item) (tab : List (List Byte)) (f g : Sch)
    (h : progSch P.dbl P.fl prog = some (tab, f)) (hg : (optimizeStrings tab f.code).2 = g.code)
    (src : List Byte) (toks : List Tok)
    (hl : Lexes (upToNul src) 1 toks) (ht : toks.map Tok.bare = prog.flatMap Item.toks ++ [eofTok])
    (fuel : Nat) (hf : 16 * src.length + 18 ≤ fuel)
    (hsize : 16 + (strBytes (optimizeStrings tab f.code).1).length < 2 ^ 32) (hlen : g.code.length < 2 ^ 31) (hs : g.swift = true) :
    ∃ img pr, compile P fuel src = .image img ∧ loadIl img = .ok pr ∧
      ∀ (enc : Bool) (σ : Type) (host : Host σ) (fl : FloatOps) (old : St σ) (buf : List Byte) (user : σ),
        ∃ n, n ≤ pr.code.length * (1 + g.depth * buf.length) + 1 ∧
          ∀ s', exec { prog := pr.code, enc := enc, host := host, fl := fl } n (initSt old buf user) ≠ .run s' := by
  refine ⟨_, _, C59_source P prog tab f.code (progSch_code h) src toks hl ht fuel hf, load_writeImage _ _ hsize, ?_⟩
  intro enc σ host fl old buf user
  obtain ⟨n, h1, h2⟩ := C92_linear_partial (E := { prog := (optimizeStrings tab f.code).2, enc := enc, host := host, fl := fl }) g hg hs hlen old buf user
  exact ⟨n, by rw [← hg] at h1; exact h1, h2⟩

/-! ### Examples -/

theorem ex66_swift : exOpt66.swift = true ∧ exOpt66.depth = 1 := by decide +kernel

/-- All hypotheses hold for the program of C66: structs, an enum, bit fields, arrays, a choice. -/
example (fuel : Nat) (hf : 16 * exSrc66.length + 18 ≤ fuel) :
    ∃ img pr, compile demoP fuel exSrc66 = .image img ∧ loadIl img = .ok pr ∧
      ∀ (enc : Bool) (σ : Type) (host : Host σ) (fl : FloatOps) (old : St σ) (buf : List Byte) (user : σ),
        ∃ n, n ≤ pr.code.length * (1 + 1 * buf.length) + 1 ∧
          ∀ s', exec { prog := pr.code, enc := enc, host := host, fl := fl } n (initSt old buf user) ≠ .run s' := by
  obtain ⟨toks, h1, h2⟩ := lexAll_total exSrc66
  have e := ex66_lex
  rw [h2, Option.map_some, Option.some.injEq] at e
  have := C92_source_partial demoP exProg66 _ _ exOpt66 ex66_prog (by rw [ex66_opt]) exSrc66 toks h1 e fuel hf
    (by rw [ex66_opt]; decide +kernel) (by decide +kernel) ex66_swift.1
  rw [ex66_swift.2] at this
  exact this

/-- Arrays in arrays, counted by the packet: two levels. -/
def exSch92 : Sch := .arrPre .p4 0 0 (.struct 0 0 (.seq (.arrPre .p2 1 0 (.seq .opt (.seq (.fld (.scalar 0x10 2 0)) (.fld (.const .u8 3 0 7))))) (.fld (.strPre .p1 4 0))))

example : exSch92.swift = true ∧ exSch92.tame true = true ∧ exSch92.tame false = true ∧ exSch92.depth = 2 ∧ exSch92.code.length < 2 ^ 31 := by
  decide +kernel

/-! ### A program that fails the check -/

def exSrc92 : List Byte := word "struct B { u8 a : 4; } packet P { B bs[] prefix u32; }"

def exProg92 : List Item :=
  [.decl [] (.struct (word "B") (bodyOf [fieldOf [] "u8" "a" "4"])),
   .decl [] (.packet (word "P") (bodyOf [fieldOf [] "B" "bs" none .empty (.pre (word "u32"))]))]

def exCode92 : List Byte := [0x07, 2, 0, 0x37, 0, 0, 0x03, 0, 0, 0x20, 1, 0, 4, 0x04, 0x38]

theorem ex92_code : CompilesTo exSrc92 exCode92 :=
  compilesTo exSrc92 exProg92 (["a", "bs", "bs.a", "P"].map word)
    [0x07, 3, 0, 0x37, 1, 0, 0x03, 1, 0, 0x20, 2, 0, 4, 0x04, 0x38] (["bs", "bs.a", "P"].map word) _ (by decide +kernel) (by decide +kernel)
    (by decide +kernel) (by decide +kernel)

/-- In the array, at the end of a packet of four bytes, `r` rounds to go. -/
def mid92 (b0 b1 b2 b3 : Byte) (r : Nat) : St Unit :=
  { startWith [b0, b1, b2, b3] with ip := 6, cursor := 4, loops := [⟨6, r⟩] }

theorem round92 (b0 b1 b2 b3 : Byte) (r : Nat) (h1 : 1 < r) (h2 : r ≠ 0xFFFFFFFF) :
    exec (decAgree exCode92 0) 4 (mid92 b0 b1 b2 b3 r) = .run (mid92 b0 b1 b2 b3 (r - 1)) := by
  have e1 : step (decAgree exCode92 0) (mid92 b0 b1 b2 b3 r) = .run { mid92 b0 b1 b2 b3 r with ip := 9 } := rfl
  have e2 : step (decAgree exCode92 0) { mid92 b0 b1 b2 b3 r with ip := 9 } = .run { mid92 b0 b1 b2 b3 r with ip := 13 } := rfl
  have e3 : step (decAgree exCode92 0) { mid92 b0 b1 b2 b3 r with ip := 13 } = .run { mid92 b0 b1 b2 b3 r with ip := 14 } := rfl
  have e4 : step (decAgree exCode92 0) { mid92 b0 b1 b2 b3 r with ip := 14 } = .run (mid92 b0 b1 b2 b3 (r - 1)) := by
    show handleArrEnd (decAgree exCode92 0) { mid92 b0 b1 b2 b3 r with ip := 15 } = _
    unfold handleArrEnd mid92
    have h3 : (r == 0xFFFFFFFF) = false := by simpa using h2
    simp only [h3, Bool.false_eq_true, if_false]
    rw [if_pos (by simp only [decide_eq_true_eq]; omega)]
  rw [exec_run_succ e1, exec_run_succ e2, exec_run_succ e3, exec_run_succ e4]
  rfl

theorem rounds92 (b0 b1 b2 b3 : Byte) (n : Nat) (h : n + 1 < 0xFFFFFFFF) :
    exec (decAgree exCode92 0) (4 * n) (mid92 b0 b1 b2 b3 (n + 1)) = .run (mid92 b0 b1 b2 b3 1) := by
  induction n with
  | zero => rfl
  | succ n ih =>
    rw [show 4 * (n + 1) = 4 + 4 * n by omega, exec_add_run (round92 b0 b1 b2 b3 (n + 1 + 1) (by omega) (by omega))]
    exact ih (by omega)

/-- **A packet of four bytes is decoded in as many instructions as it likes**, up to 2^34: the first four bytes are the number of
elements, and bit fields do not stop at the end of the packet, they read zeros. -/
theorem C92_false_bits : CompilesTo exSrc92 exCode92 ∧ ∀ n : Nat, 0 < n → n < 2 ^ 32 - 1 →
    ∃ s, exec (decAgree exCode92 0) (4 * n) (startWith (leBytes 4 (BitVec.ofNat 64 n))) = .run s := by
  refine ⟨ex92_code, fun n hn hlt => ?_⟩
  obtain ⟨n, rfl⟩ := Nat.exists_eq_succ_of_ne_zero (Nat.ne_of_gt hn)
  have hw : leWord (leBytes 4 (BitVec.ofNat 64 (n + 1))) = BitVec.ofNat 64 (n + 1) :=
    leWord_leBytes_lt (by omega) (by simp only [BitVec.toNat_ofNat]; omega)
  obtain ⟨b0, b1, b2, b3, hb⟩ : ∃ b0 b1 b2 b3, leBytes 4 (BitVec.ofNat 64 (n + 1)) = [b0, b1, b2, b3] := ⟨_, _, _, _, rfl⟩
  rw [Nat.succ_eq_add_one, hb]
  rw [hb] at hw
  have e1 : step (decAgree exCode92 0) (startWith [b0, b1, b2, b3]) = .run { startWith [b0, b1, b2, b3] with ip := 3 } := rfl
  have e2 : step (decAgree exCode92 0) { startWith [b0, b1, b2, b3] with ip := 3 } = .run (mid92 b0 b1 b2 b3 (n + 1)) := by
    have h1 : (truncB 4 (leWord [b0, b1, b2, b3])).toNat = n + 1 := by
      rw [hw, toNat_truncB]
      simp only [BitVec.toNat_ofNat]
      omega
    show enterArray (decAgree exCode92 0) { startWith [b0, b1, b2, b3] with ip := 6, cursor := 4 } (truncB 4 (leWord [b0, b1, b2, b3])).toNat = _
    rw [h1]
    rfl
  have h := rounds92 b0 b1 b2 b3 n (by omega)
  have e3 : exec (decAgree exCode92 0) 2 (mid92 b0 b1 b2 b3 1) = .run { mid92 b0 b1 b2 b3 1 with ip := 13 } := rfl
  refine ⟨{ mid92 b0 b1 b2 b3 1 with ip := 13 }, ?_⟩
  rw [show 4 * (n + 1) = 4 * n + 2 + 1 + 1 by omega, exec_run_succ e1, exec_run_succ e2, exec_add_run h]
  exact e3

end Cnd
