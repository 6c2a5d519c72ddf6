import Verif.TameRuns
import Verif.Props.EndToEnd
/-
  C66: every compiled packet program handles every input.
-/

set_option linter.unusedVariables false

namespace Cnd
variable {σ : Type}

/-- A run comes to an end with a result, and undefined behaviour is not met, however long one looks. -/
def Handled (E : Env σ) (s : St σ) : Prop :=
  (∃ n e s', exec E n s = .stop e s') ∧ ∀ n u, exec E n s ≠ .ub u

theorem handled_of_stop {E : Env σ} {s : St σ} (h : ∃ n e s', exec E n s = .stop e s') : Handled E s := by
  refine ⟨h, fun m u hm => ?_⟩
  obtain ⟨n, e, s', hn⟩ := h
  rcases Nat.le_total n m with hl | hl
  · obtain ⟨d, rfl⟩ := Nat.le.dest hl
    rw [exec_add, hn] at hm
    cases hm
  · obtain ⟨d, rfl⟩ := Nat.le.dest hl
    rw [exec_add, hm] at hn
    cases hn

/-- **C66** for the programs of checked packet descriptions: whatever the host does, whatever is in the packet and whatever
context is used, encoding and decoding end with a result and no undefined behaviour is met.
Missing: descriptions that fail the check; see the counterexamples below for why they must be excluded. -/
theorem C66_every_input_partial (E : Env σ) (f : Sch) (hp : E.prog = f.code) (ht : f.tame E.enc = true)
    (hlen : f.code.length < 2 ^ 31) (old : St σ) (buf : List Byte) (user : σ) : Handled E (initSt old buf user) := by
  apply handled_of_stop
  obtain ⟨r, hr⟩ := Option.isSome_iff_exists.1 ht
  have h := sch_seg (E := E) (by rw [hp]; exact hlen) f .start r hr (initSt old buf user) (by rw [hp]; exact ⟨[], by simp [initSt]⟩)
    ⟨by simp [initSt], rfl, by simp [initSt], by simp [initSt, St.at], by simp [initSt]⟩
  refine h.exec fun s' hs => ?_
  rw [hs.ip, hp]
  simp [initSt]

/-- **C66** from the source text to the result: if the source text is a program, if `g` describes the code that dead-string
elimination leaves, and if `g` passes the check, then the compiler gives an image, the image loads, and the loaded program
handles every packet with every host. -/
theorem C66_source_partial (P : PEnv) (prog : List Item) (tab : List (List Byte)) (f g : Sch)
    (h : progSch P.dbl P.fl prog = some (tab, f)) (hg : (optimizeStrings tab f.code).2 = g.code)
    (src : List Byte) (toks : List Tok)
    (hl : Lexes (upToNul src) 1 toks) (ht : toks.map Tok.bare = prog.flatMap Item.toks ++ [eofTok])
    (fuel : Nat) (hf : 16 * src.length + 18 ≤ fuel)
    (hsize : 16 + (strBytes (optimizeStrings tab f.code).1).length < 2 ^ 32) (hlen : g.code.length < 2 ^ 31) :
    ∃ img pr, compile P fuel src = .image img ∧ loadIl img = .ok pr ∧
      ∀ enc, g.tame enc = true → ∀ (σ : Type) (host : Host σ) (fl : FloatOps) (old : St σ) (buf : List Byte) (user : σ),
        Handled { prog := pr.code, enc := enc, host := host, fl := fl } (initSt old buf user) := by
  refine ⟨_, _, C59_source P prog tab f.code (progSch_code h) src toks hl ht fuel hf, load_writeImage _ _ hsize, ?_⟩
  intro enc htame σ host fl old buf user
  exact C66_every_input_partial _ g hg htame hlen old buf user

/-! ### A program that passes the check -/

def exSrc66 : List Byte := word "enum Kind : u8 { A = 1, B, C = 7 }
struct Point { @be i16 x; @mul(3) u8 y; }
@unaligned_bytes struct Bits { u8 a : 3; u8 b : 5; }
packet P {
  Kind k;
  Bits f;
  Point pts[2];
  if (k == 2 && pts.x < 9) { @range(1, 9) u16 y; } else { @const(5) u8 z; }
  switch (k) {
    case Kind.A: { u8 a; }
    case 9: string s max 10;
    default: { u32 d[] prefix u32; }
  }
  @optional u8 last;
}"

def exProg66 : List Item :=
  [.decl [] (.enum (word "Kind") (some (word "u8"))
     [⟨word "A", some (word "1"), true⟩, ⟨word "B", none, true⟩, ⟨word "C", some (word "7"), false⟩]),
   .decl [] (.struct (word "Point") (bodyOf [fieldOf [.be false] "i16" "x", fieldOf [.mul (word "3")] "u8" "y"])),
   .decl [.unaligned] (.struct (word "Bits") (bodyOf [fieldOf [] "u8" "a" "3", fieldOf [] "u8" "b" "5"])),
   .decl [] (.packet (word "P") (bodyOf
     [fieldOf [] "Kind" "k", fieldOf [] "Bits" "f", fieldOf [] "Point" "pts" none (.fixed (word "2")),
      .ite (.node (.node (leafId "k") (tk .eqEq (word "==")) (leafNum "2")) (tk .ampAmp (word "&&"))
          (.node (.leaf (tId (word "pts")) [(tDot, tId (word "x"))]) (tk .lt (word "<")) (leafNum "9")))
        (bodyOf [fieldOf [.range (word "1") (word "9")] "u16" "y"])
        (.block (bodyOf [fieldOf [.const true (word "5")] "u8" "z"])),
      .switch (word "k")
        (.block (.enum (word "Kind") (word "A")) (bodyOf [fieldOf [] "u8" "a"])
          (.stmt (.num (word "9")) (fieldOf [] "string" "s" none .none (.lim none (some (word "10"))))
            (.block .default (bodyOf [fieldOf [] "u32" "d" none .empty (.pre (word "u32"))]) .done))),
      fieldOf [.optional] "u8" "last"]))]

theorem ex66_lex : (lexAll (exSrc66.length + 1) (exSrc66 ++ [0]) 1).map (fun l => l.map Tok.bare) =
    some (exProg66.flatMap Item.toks ++ [eofTok]) := by
  decide +kernel

def exTab66 : List (List Byte) :=
  ["x", "y", "a", "b", "k", "f", "f.a", "f.b", "pts", "pts.x", "z", "s", "d", "last", "P"].map word

/-- Its packet. -/
def exSch66 : Sch :=
  .seq (.fld (.name 14 0)) (.seq (.seq (.seq (.fld (.enum .u8 4 0 [1, 2, 7])) (.fld .empty)) (.seq (.seq (.struct 5 0 (.seq
    (.fld .enterBit) (.seq (.fld .setBE) (.seq (.seq (.seq (.fld (.bitU 6 0 3)) (.fld .empty)) (.seq (.seq (.fld (.bitU 7 0 5))
    (.fld .empty)) (.fld .empty))) (.seq (.fld .exitBit) (.fld .empty)))))) (.fld .empty)) (.seq (.seq (.arrFixed 8 0 2 (.struct 8
    0 (.seq (.seq (.fld .setBE) (.seq (.fld (.scalar 0x15 9 0)) (.seq (.fld .setLE) (.fld .empty)))) (.seq (.seq (.trans .mul 3
    false .u8 1 0) (.fld .empty)) (.fld .empty))))) (.fld .empty)) (.seq (.ite (.bin .land (.bin .eq (.fld 4 0) (.lit 2)) (.bin
    .lt (.fld 9 0) (.lit 9))) (.seq (.seq (.fld (.range .u16 1 0 1 9)) (.fld .empty)) (.fld .empty)) (.seq (.seq (.fld (.const .u8
    10 0 5)) (.fld .empty)) (.fld .empty))) (.seq (.switch 4 0 (.cons (some 1) (.seq (.seq (.fld (.scalar 0x10 2 0)) (.fld
    .empty)) (.fld .empty)) (.cons (some 9) (.seq (.fld (.strNull 11 0 10 0)) (.fld .empty)) (.cons none (.seq (.seq (.arrPre .p4
    12 0 (.fld (.scalar 0x12 12 0))) (.fld .empty)) (.fld .empty)) .nil)))) (.seq (.seq .opt (.seq (.fld (.scalar 0x10 13 0))
    (.fld .empty))) (.fld .empty))))))) (.fld .empty))

theorem ex66_prog : progSch demoP.dbl demoP.fl exProg66 = some (exTab66, exSch66) := by decide +kernel

/-- Dead-string elimination drops the name `b`, which no code refers to, and moves the keys behind it. -/
def exOpt66 : Sch := exSch66.mapKeys fun k => if k < 3 then k else k - 1

theorem ex66_opt : optimizeStrings exTab66 exSch66.code =
    (["x", "y", "a", "k", "f", "f.a", "f.b", "pts", "pts.x", "z", "s", "d", "last", "P"].map word, exOpt66.code) := by decide +kernel

theorem ex66_tame : exOpt66.tame true = true ∧ exOpt66.tame false = true := by decide +kernel

/-- All hypotheses hold for the example: its compiled image handles every packet with every host, in both directions. -/
example (fuel : Nat) (hf : 16 * exSrc66.length + 18 ≤ fuel) :
    ∃ img pr, compile demoP fuel exSrc66 = .image img ∧ loadIl img = .ok pr ∧
      ∀ (enc : Bool) (σ : Type) (host : Host σ) (fl : FloatOps) (old : St σ) (buf : List Byte) (user : σ),
        Handled { prog := pr.code, enc := enc, host := host, fl := fl } (initSt old buf user) := by
  obtain ⟨toks, h1, h2⟩ := lexAll_total exSrc66
  have e := ex66_lex
  rw [h2, Option.map_some, Option.some.injEq] at e
  obtain ⟨img, pr, i1, i2, i3⟩ := C66_source_partial demoP exProg66 _ _ exOpt66 ex66_prog (by rw [ex66_opt]) exSrc66 toks h1 e fuel hf
    (by rw [ex66_opt]; decide +kernel) (by decide +kernel)
  exact ⟨img, pr, i1, i2, fun enc => i3 enc (by cases enc; exact ex66_tame.2; exact ex66_tame.1)⟩

/-! ### Programs that fail the check, and what they do -/

/-- The compiler gives an image for the text, and the image loads with this code. -/
def CompilesTo (src code : List Byte) : Prop :=
  ∃ img pr, (∀ fuel, 16 * src.length + 18 ≤ fuel → compile demoP fuel src = .image img) ∧ loadIl img = .ok pr ∧ pr.code = code

theorem compilesTo (src : List Byte) (prog : List Item) (tab code tab' code')
    (hlex : (lexAll (src.length + 1) (src ++ [0]) 1).map (fun l => l.map Tok.bare) = some (prog.flatMap Item.toks ++ [eofTok]))
    (hcode : progCode demoP.dbl demoP.fl prog = some (tab, code)) (hopt : optimizeStrings tab code = (tab', code'))
    (hsize : 16 + (strBytes tab').length < 2 ^ 32) : CompilesTo src code' := by
  obtain ⟨toks, h1, h2⟩ := lexAll_total src
  rw [h2, Option.map_some, Option.some.injEq] at hlex
  refine ⟨_, _, fun fuel hf => ?_, load_writeImage tab' code' hsize, rfl⟩
  have hc := C59_source demoP prog tab code hcode src toks h1 hlex fuel hf
  rwa [hopt] at hc

/-- A host that agrees to everything, keeps nothing, and answers `w` to questions about fields that were decoded. -/
def agreeing (w : Word) : Host Unit where
  notify _ _ _ := (true, ())
  scalar _ _ op cell := (true, if op = 0x60 ∨ op = 0x06 then w else cell, ())
  str _ _ _ := (true, some [], ())
  bytesAt _ _ op _ buf _ := (op != 0x39, buf, ())

deriving instance DecidableEq for St

def runB (s : St Unit) : Res Unit → Bool
  | .run t => decide (t = s)
  | _ => false

theorem runB_iff {s : St Unit} {r : Res Unit} (h : runB s r = true) : r = .run s := by
  unfold runB at h
  split at h
  · rw [of_decide_eq_true h]
  · cases h

def ubB (u : UB) : Res σ → Bool
  | .ub v => decide (v = u)
  | _ => false

theorem ubB_iff {u : UB} {r : Res σ} (h : ubB u r = true) : r = .ub u := by
  unfold ubB at h
  split at h
  · rw [of_decide_eq_true h]
  · cases h

/-- A run that comes back to a state never ends. -/
theorem runs_on {E : Env σ} {k p : Nat} {s m : St σ} (h1 : exec E k s = .run m) (h2 : exec E (p + 1) m = .run m) (n : Nat) :
    ∃ s', exec E n s = .run s' := by
  have h3 : ∀ j, exec E (k + j * (p + 1)) s = .run m := by
    intro j
    induction j with
    | zero => simpa using h1
    | succ j ih =>
      have : k + (j + 1) * (p + 1) = (k + j * (p + 1)) + (p + 1) := by rw [Nat.succ_mul]; omega
      rw [this, exec_add_run ih, h2]
  have hle : n ≤ k + n * (p + 1) := by
    have : n * 1 ≤ n * (p + 1) := Nat.mul_le_mul_left n (by omega)
    omega
  obtain ⟨d, hd⟩ := Nat.le.dest hle
  have h4 := h3 n
  rw [← hd, exec_add] at h4
  split at h4
  · rename_i s' e; exact ⟨s', e⟩
  · rename_i r hr
    rw [h4] at hr
    exact absurd rfl (hr m)

/-- The decoder of code `code`, on packet `buf`, with the agreeing host. -/
def decAgree (code : List Byte) (w : Word) : Env Unit := { prog := code, enc := false, host := agreeing w, fl := demoP.fl }
def encAgree (code : List Byte) (w : Word) : Env Unit := { prog := code, enc := true, host := agreeing w, fl := demoP.fl }
def startWith (buf : List Byte) : St Unit := initSt (zeroSt ()) buf ()

/-- What the state is after `n` instructions, if the run still goes on. -/
def stateAfter (E : Env Unit) (n : Nat) (s : St Unit) : St Unit :=
  match exec E n s with
  | .run t => t
  | _ => s

def exSrc66a : List Byte := word "struct S { @optional u16 x; } packet P { S items[] prefix u32; }"

def exProg66a : List Item :=
  [.decl [] (.struct (word "S") (bodyOf [fieldOf [.optional] "u16" "x"])),
   .decl [] (.packet (word "P") (bodyOf [fieldOf [] "S" "items" none .empty (.pre (word "u32"))]))]

def exCode66a : List Byte := [0x07, 2, 0, 0x37, 1, 0, 0x03, 1, 0, 0x4A, 0x11, 0, 0, 0x04, 0x38]

theorem ex66a_code : CompilesTo exSrc66a exCode66a :=
  compilesTo exSrc66a exProg66a (["x", "items", "P"].map word) exCode66a (["x", "items", "P"].map word) _ (by decide +kernel) (by decide +kernel)
    (by decide +kernel) (by decide +kernel)

/-- **A packet of five bytes keeps the decoder busy for ever.** The count 0xFFFFFFFF means "to the end of the packet", and an
element whose only field is optional uses no byte when fewer than two are left. -/
theorem C66_false_endless : CompilesTo exSrc66a exCode66a ∧
    ∀ n, ∃ s, exec (decAgree exCode66a 0) n (startWith [0xFF, 0xFF, 0xFF, 0xFF, 0]) = .run s := by
  refine ⟨ex66a_code, runs_on (k := 2) (p := 4) (m := stateAfter (decAgree exCode66a 0) 2 (startWith [0xFF, 0xFF, 0xFF, 0xFF, 0])) ?_ ?_⟩
  · exact runB_iff (by decide +kernel)
  · exact runB_iff (by decide +kernel)

def exSrc66b : List Byte := word "enum K : u8 { A = 1 } packet P { @optional K k; }"

def exProg66b : List Item :=
  [.decl [] (.enum (word "K") (some (word "u8")) [⟨word "A", some (word "1"), false⟩]),
   .decl [] (.packet (word "P") (bodyOf [fieldOf [.optional] "K" "k"]))]

def exCode66b : List Byte := [0x07, 1, 0, 0x4A, 0x10, 0, 0, 0x4B, 0x10, 1, 0, 1]

theorem ex66b_code : CompilesTo exSrc66b exCode66b :=
  compilesTo exSrc66b exProg66b (["k", "P"].map word) exCode66b (["k", "P"].map word) _ (by decide +kernel) (by decide +kernel)
    (by decide +kernel) (by decide +kernel)

/-- **An optional enum field on an empty packet** is read from before the packet. -/
theorem C66_false_optional_enum : CompilesTo exSrc66b exCode66b ∧ exec (decAgree exCode66b 0) 4 (startWith []) = .ub .dataOOB :=
  ⟨ex66b_code, ubB_iff (by decide +kernel)⟩

def exSrc66c : List Byte := word "packet P { @add(1) i64 x; }"

def exProg66c : List Item :=
  [.decl [] (.packet (word "P") (bodyOf [fieldOf [.add (word "1")] "i64" "x"]))]

def exCode66c : List Byte := [0x07, 1, 0, 0x45, 1, 0, 0, 0, 0, 0, 0, 0, 0x17, 0, 0]

theorem ex66c_code : CompilesTo exSrc66c exCode66c :=
  compilesTo exSrc66c exProg66c (["x", "P"].map word) exCode66c (["x", "P"].map word) _ (by decide +kernel) (by decide +kernel)
    (by decide +kernel) (by decide +kernel)

/-- **`@add` overflows on a packet** with the largest number. -/
theorem C66_false_add : CompilesTo exSrc66c exCode66c ∧
    exec (decAgree exCode66c 0) 3 (startWith [0xFF, 0xFF, 0xFF, 0xFF, 0xFF, 0xFF, 0xFF, 0x7F]) = .ub .overflow :=
  ⟨ex66c_code, ubB_iff (by decide +kernel)⟩

def exSrc66d : List Byte := word "packet P { u8 n; @expr(1 << n) u8 m; }"

def exProg66d : List Item :=
  [.decl [] (.packet (word "P") (bodyOf [fieldOf [] "u8" "n",
     fieldOf [.expr (.node (leafNum "1") (tk .lshift (word "<<")) (leafId "n"))] "u8" "m"]))]

def exCode66d : List Byte := [0x07, 2, 0, 0x10, 0, 0, 0x61, 1, 0, 0, 0, 0, 0, 0, 0, 0x60, 0, 0, 0xA4, 0x64, 0x78, 1, 0, 0x65, 0x10]

theorem ex66d_code : CompilesTo exSrc66d exCode66d :=
  compilesTo exSrc66d exProg66d (["n", "m", "P"].map word) exCode66d (["n", "m", "P"].map word) _ (by decide +kernel) (by decide +kernel)
    (by decide +kernel) (by decide +kernel)

/-- **A shift by a field** of the packet that says 64. The host answers with the number it was given. -/
theorem C66_false_shift : CompilesTo exSrc66d exCode66d ∧ exec (decAgree exCode66d 64) 5 (startWith [64, 0]) = .ub .shift :=
  ⟨ex66d_code, ubB_iff (by decide +kernel)⟩

def exSrc66e : List Byte := word "packet P { u8 a; @pad(72); }"

def exProg66e : List Item :=
  [.decl [] (.packet (word "P") (bodyOf [fieldOf [] "u8" "a", .lone [.pad (word "72")]]))]

def exCode66e : List Byte := [0x07, 1, 0, 0x10, 0, 0, 0x23, 72]

theorem ex66e_code : CompilesTo exSrc66e exCode66e :=
  compilesTo exSrc66e exProg66e (["a", "P"].map word) exCode66e (["a", "P"].map word) _ (by decide +kernel) (by decide +kernel)
    (by decide +kernel) (by decide +kernel)

/-- **Encoding padding of more than 64 bits** shifts a 64-bit number too far, with every host and value. -/
theorem C66_false_pad : CompilesTo exSrc66e exCode66e ∧ exec (encAgree exCode66e 0) 3 (startWith (List.replicate 10 0)) = .ub .shift :=
  ⟨ex66e_code, ubB_iff (by decide +kernel)⟩

def exSrc66f : List Byte := word "packet P { u8 a; @pad(16); string s max 5; }"

def exProg66f : List Item :=
  [.decl [] (.packet (word "P") (bodyOf [fieldOf [] "u8" "a", .lone [.pad (word "16")],
     fieldOf [] "string" "s" none .none (.lim none (some (word "5")))]))]

def exCode66f : List Byte := [0x07, 2, 0, 0x10, 0, 0, 0x23, 16, 0x30, 1, 0, 5, 0]

theorem ex66f_code : CompilesTo exSrc66f exCode66f :=
  compilesTo exSrc66f exProg66f (["a", "s", "P"].map word) exCode66f (["a", "s", "P"].map word) _ (by decide +kernel) (by decide +kernel)
    (by decide +kernel) (by decide +kernel)

/-- **Padding behind the end of a short packet**: the string after it is read from outside the packet. -/
theorem C66_false_short : CompilesTo exSrc66f exCode66f ∧ exec (decAgree exCode66f 0) 4 (startWith [7]) = .ub .dataOOB :=
  ⟨ex66f_code, ubB_iff (by decide +kernel)⟩

end Cnd
