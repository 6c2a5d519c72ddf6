import Verif.Props.Fuzz
import Verif.Props.Total
/-
  C101 for compiled programs: over a schema that passes the check of C66 the fuzzer finds nothing.
-/

namespace Cnd

theorem fuzzEnd_mono {E : Env Unit} {n m : Nat} (h : n ≤ m) {buf : List Byte} {e : Err} (he : fuzzEnd E n buf = some e) :
    fuzzEnd E m buf = some e := by
  obtain ⟨s, hs⟩ := (fuzzEnd_of E n buf newCtx e).1 he
  refine (fuzzEnd_of E m buf newCtx e).2 ⟨s, ?_⟩
  obtain ⟨d, rfl⟩ := Nat.le.dest h
  rw [exec_add, hs]

theorem fuzz_bound (E : Env Unit) (pkt : Nat → List Byte) (h : ∀ buf, ∃ n e, fuzzEnd E n buf = some e) :
    ∀ k : Nat, ∃ N, ∀ n, N ≤ n → ∀ i, i < k → ∃ e, fuzzEnd E n (pkt i) = some e
  | 0 => ⟨0, fun _ _ i hi => by omega⟩
  | k + 1 => by
    obtain ⟨N, hN⟩ := fuzz_bound E pkt h k
    obtain ⟨m, e, hm⟩ := h (pkt k)
    refine ⟨N + m, fun n hn i hi => ?_⟩
    by_cases hik : i = k
    · subst hik
      exact ⟨e, fuzzEnd_mono (by omega) hm⟩
    · exact hN n (by omega) i (by omega)

/-- **C101, programs that handle every packet.** If every packet is handled, the fuzzer comes to its end without undefined behaviour, whatever the
seed and the number of iterations. -/
theorem C101_handled (prog : List Byte) (fl : FloatOps) (h : ∀ old buf, Handled (deafEnv prog fl) (initSt old buf ())) (k : Nat) (ctx : St Unit)
    (seed : BitVec 32) : ∃ N, ∀ n, N ≤ n → ∃ t, fuzzData prog fl n k ctx seed = .done t := by
  obtain ⟨N, hN⟩ := fuzz_bound (deafEnv prog fl) (rndPacket seed) (fun buf => by
    obtain ⟨n, e, s, hs⟩ := (h newCtx buf).1
    exact ⟨n, e, (fuzzEnd_of _ n buf newCtx e).2 ⟨s, hs⟩⟩) k
  exact ⟨N, fun n hn => (C101_counters prog fl n k ctx seed).1.2 (hN n hn)⟩

/-- **C101, from the source text (partial).** If the source text is a program and the description of its code passes the check of C66 for decoding,
the compiler gives an image, the image loads, and the fuzzer comes to its end over it, whatever the seed and the number of iterations: it meets
no undefined behaviour and does not hang. Missing: programs that fail the check (there are some that hang the decoder: `C66_false_endless`). -/
theorem C101_source_partial (P : PEnv) (prog : List Item) (tab : List (List Byte)) (f g : Sch)
    (h : progSch P.dbl P.fl prog = some (tab, f)) (hg : (optimizeStrings tab f.code).2 = g.code)
    (src : List Byte) (toks : List Tok)
    (hl : Lexes (upToNul src) 1 toks) (ht : toks.map Tok.bare = prog.flatMap Item.toks ++ [eofTok])
    (fuel : Nat) (hf : 16 * src.length + 18 ≤ fuel)
    (hsize : 16 + (strBytes (optimizeStrings tab f.code).1).length < 2 ^ 32) (hlen : g.code.length < 2 ^ 31) (htame : g.tame false = true) :
    ∃ img pr, compile P fuel src = .image img ∧ loadIl img = .ok pr ∧
      ∀ (fl : FloatOps) (k : Nat) (ctx : St Unit) (seed : BitVec 32), ∃ N, ∀ n, N ≤ n → ∃ t, fuzzData pr.code fl n k ctx seed = .done t := by
  obtain ⟨img, pr, h1, h2, h3⟩ := C66_source_partial P prog tab f g h hg src toks hl ht fuel hf hsize hlen
  exact ⟨img, pr, h1, h2, fun fl k ctx seed => C101_handled pr.code fl (fun old buf => h3 false htame Unit _ fl old buf ()) k ctx seed⟩

/-- The hypotheses hold of the program of C66 with an enum, bit fields, structs, arrays, `if`, `switch` and an optional field. -/
example (fuel : Nat) (hf : 16 * exSrc66.length + 18 ≤ fuel) :
    ∃ img pr, compile demoP fuel exSrc66 = .image img ∧ loadIl img = .ok pr ∧
      ∀ (fl : FloatOps) (k : Nat) (ctx : St Unit) (seed : BitVec 32), ∃ N, ∀ n, N ≤ n → ∃ t, fuzzData pr.code fl n k ctx seed = .done t := by
  obtain ⟨toks, h1, h2⟩ := lexAll_total exSrc66
  have e := ex66_lex
  rw [h2, Option.map_some, Option.some.injEq] at e
  exact C101_source_partial demoP exProg66 _ _ exOpt66 ex66_prog (by rw [ex66_opt]) exSrc66 toks h1 e fuel hf
    (by rw [ex66_opt]; decide +kernel) (by decide +kernel) ex66_tame.2

end Cnd
