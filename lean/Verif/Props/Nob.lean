import Verif.Nob
import Verif.Props.Cli
/-
  C103: the helpers for build scripts.
-/

namespace Cnd

open Demo

theorem nobRun_answer {S : Sys} {n : Nat} {d d' : Disk} {args : List (List Byte)} {ok : Bool} (h : nobRun S n d args = .answer ok d') :
    ∃ code said, cndMain S n d args = .exit code d' said ∧ (ok = true ↔ code = 0) := by
  unfold nobRun at h
  split at h
  · rename_i code d1 said hm
    cases h
    exact ⟨code, said, hm, by simp⟩
  · cases h
  · cases h
  · cases h

/-- **C103, cnd_compile (partial).** It answers yes exactly if the compiler accepts the program and a file named `-o` can be written; the image is then
in that file, and all others are as they were. Missing: the image in the file that was named as output; see `C103_false_compile`. -/
theorem C103_compile_partial (S : Sys) (n : Nat) (d d' : Disk) (inp out : List Byte) :
    nobCompile S n d inp out = .answer true d' ↔ ∃ bs, compileFile S.P d.files n inp = .image bs ∧ Put d (word "-o") bs d' := by
  constructor
  · intro h
    obtain ⟨code, said, h1, h2⟩ := nobRun_answer h
    rw [h2.1 rfl] at h1
    exact ((C94_compile S n d d' inp (word "-o") [out] said).1 h1).2
  · intro h
    unfold nobCompile nobRun
    rw [(C94_compile S n d d' inp (word "-o") [out] []).2 ⟨rfl, h⟩]
    rfl

/-- **C103, cnd_encode (partial).** It answers yes only after a run of the VM that succeeded; if a file named `-o` can be written, the packet is in it.
Missing: the packet in the file that was named as output; see `C103_false_encode`. -/
theorem C103_encode_partial (S : Sys) (n : Nat) (d d' : Disk) (schema json out : List Byte) (h : nobEncode S n d schema json out = .answer true d') :
    ∃ img names code text doc s, d.read schema = some img ∧ cliLoad img = .ok names code ∧ d.read json = some text ∧
      S.parse (upToNul text) = some doc ∧ jsonEncode S.P.fl names code n S.oldJ (List.replicate 1024 0) doc = .stop .ok s ∧
      (d.locked (d.node (word "-o")) = false → Put d (word "-o") s.packet d') := by
  obtain ⟨code, said, h1, h2⟩ := nobRun_answer h
  rw [h2.1 rfl] at h1
  obtain ⟨img, names, c, text, doc, s, k1, k2, k3, k4, k5, _, k7⟩ := C94_encode_partial S n d d' schema json (word "-o") [out] said h1
  exact ⟨img, names, c, text, doc, s, k1, k2, k3, k4, k5, k7⟩

/-- The third word behind the command is never the output of `compile`, nor the fourth of `encode`. -/
theorem nob_untouched (S : Sys) (n : Nat) (d d' : Disk) (args : List (List Byte)) (ok : Bool) (out : List Byte)
    (ho : ∀ o, outPath args = some o → o = word "-o") (hne : d.node out ≠ d.node (word "-o")) (h : nobRun S n d args = .answer ok d') :
    d'.read out = d.read out := by
  obtain ⟨code, said, h1, _⟩ := nobRun_answer h
  obtain ⟨_, h3, _, h5⟩ := C94_frame S n d d' args code said h1
  unfold Disk.read
  rw [h3]
  refine h5 _ (fun o e => .inl ?_)
  rw [ho o e]
  exact hne

/-- **C103 is false of cnd_compile and cnd_encode.** Whatever the program, the files and the answer, the file that was named as output is left as it
was (unless it is the file `-o`). -/
theorem C103_false_untouched (S : Sys) (n : Nat) (d d' : Disk) (ok : Bool) (a b out : List Byte) (hne : d.node out ≠ d.node (word "-o")) :
    (nobCompile S n d a out = .answer ok d' → d'.read out = d.read out) ∧
    (nobEncode S n d a b out = .answer ok d' → d'.read out = d.read out) := by
  refine ⟨nob_untouched S n d d' _ ok out (fun o h => ?_) hne, nob_untouched S n d d' _ ok out (fun o h => ?_) hne⟩
  · rw [outPath, if_pos (.inl rfl)] at h
    cases h; rfl
  · rw [outPath, if_neg (by decide +kernel), if_pos (.inl rfl)] at h
    cases h; rfl

/-- **C103 is false of cnd_decode.** It never succeeds: the tool is given too few words, exits with 1 and changes nothing. -/
theorem C103_false_decode (S : Sys) (n : Nat) (d : Disk) (schema bin : List Byte) : nobDecode S n d schema bin = .answer false d := by
  unfold nobDecode nobRun
  rw [C94_usage S n d [word "decode", schema, bin] (.inr ⟨_, _, rfl, .inr ⟨3, by simp [wordsNeeded], by simp⟩⟩)]
  rfl

/-- A program is compiled, the answer is yes, and there is no file of the name given as output. -/
theorem C103_false_compile : ∃ (S : Sys) (n : Nat) (d d' : Disk) (inp out : List Byte),
    nobCompile S n d inp out = .answer true d' ∧ d'.read out = none ∧ d'.read (word "-o") ≠ none := by
  obtain ⟨toks, h1, h2⟩ := lexAll_total exSrc65
  have e := ex65_lex
  rw [h2, Option.map_some, Option.some.injEq] at e
  obtain ⟨d1, _, _, _, ⟨n, k1⟩, _⟩ := C94_pipeline_partial (sys94 (word "{text}") exDoc65) exProg65 _ _ _ _ ex65_prog ex65_opt exSrc65
    toks h1 e (by decide) (by decide +kernel) (by decide) (by decide +kernel) (noBulk_of (by decide +kernel)) _ ex65_rec exDoc65 ex65_doc
    (by simp [Items.Distinct, exDoc65, Items.shape, jmem]; decide +kernel) (by decide)
    (disk94 exSrc65 (word "{text}") []) (word "p.cnd") (word "-o") (word "doc.json") (word "p.bin") (word "back.json") (word "{text}")
    (by decide +kernel) (by decide +kernel) (by decide +kernel) (by decide +kernel) (by decide +kernel) (by decide +kernel) (by decide +kernel) (by decide +kernel)
  obtain ⟨_, bs, k2, k3⟩ := (C94_compile _ n _ d1 _ _ [] []).1 k1
  refine ⟨_, n, _, d1, word "p.cnd", word "p.il", (C103_compile_partial _ n _ d1 _ _).2 ⟨bs, k2, k3⟩, ?_, ?_⟩
  · rw [k3.other (by decide +kernel)]
    decide +kernel
  · rw [k3.read]
    simp

/-- The same for a packet. -/
theorem C103_false_encode : ∃ (S : Sys) (n : Nat) (d d' : Disk) (schema json out : List Byte),
    nobEncode S n d schema json out = .answer true d' ∧ d'.read out = none ∧ d'.read (word "-o") = some [1] := by
  obtain ⟨s, h1, h2⟩ := endsIn_spec (p := fun s => !s.host.ub && decide (s.packet = [1]))
    (r := jsonEncode Soft.fl [[0x61]] [0x10, 0, 0] 10 (zeroSt (JSt.start .nil)) (List.replicate 1024 0) (jmem [0x61] (jnum 1))) (by decide +kernel)
  rw [Bool.and_eq_true] at h2
  have h := encode_run (sys94 (word "{a}") (jmem [0x61] (jnum 1))) 10 (disk94 [] (word "{a}") (writeImage [[0x61]] [0x10, 0, 0]))
    (word "s.il") (word "doc.json") (word "-o") [word "p.bin"] (img := writeImage [[0x61]] [0x10, 0, 0]) (names := [[0x61]]) (code := [0x10, 0, 0])
    (text := word "{a}") (by decide +kernel) (by decide +kernel) (by decide +kernel) (by decide +kernel) h1 (by simpa using h2.1)
  obtain ⟨d1, w1, w2⟩ := write_of (d := disk94 [] (word "{a}") (writeImage [[0x61]] [0x10, 0, 0])) (p := word "-o") s.packet (by decide +kernel)
  have h' : nobEncode (sys94 (word "{a}") (jmem [0x61] (jnum 1))) 10 (disk94 [] (word "{a}") (writeImage [[0x61]] [0x10, 0, 0])) (word "s.il")
      (word "doc.json") (word "p.bin") = .answer true d1 := by
    unfold nobEncode nobRun
    rw [h, w1]
    rfl
  refine ⟨_, _, _, d1, _, _, _, h', ?_, ?_⟩
  · rw [w2.other (by decide +kernel)]
    decide +kernel
  · rw [w2.read, of_decide_eq_true h2.2]

end Cnd
