import Verif.Cli
import Verif.Props.Tools
import Verif.Props.Fits
import Verif.Props.FmtTokens
import Verif.Props.ImportTerm
import Verif.Props.JsonHex
/-
  C94: the commands of the tool write only the file they were told to write, and only if they succeed; what they write is what they
  were asked for; and one after another they bring a document back.
-/

namespace Cnd

open Demo

/-! ### What a command line may touch -/

/-- The file named as output: the third word of `compile` and `fmt`, the fourth of `encode` and `decode`. -/
def outPath : List (List Byte) → Option (List Byte)
  | c :: _ :: a :: more =>
    if c = word "compile" ∨ c = word "fmt" then some a
    else if c = word "encode" ∨ c = word "decode" then more.head?
    else none
  | _ => none

/-- The disk after the bytes `bs` were put into the file of path `p`. -/
structure Put (d : Disk) (p bs : List Byte) (d' : Disk) : Prop where
  can : d.locked (d.node p) = false
  canon : d'.canon = d.canon
  node : d'.node = d.node
  locked : d'.locked = d.locked
  data : ∀ m, d'.data m = if m = d.node p then some bs else d.data m

theorem write_put {d d' : Disk} {p bs : List Byte} (h : d.write p bs = some d') : Put d p bs d' := by
  unfold Disk.write at h
  split at h
  · cases h
  · rename_i hl
    cases h
    exact ⟨by simpa using hl, rfl, rfl, rfl, fun _ => rfl⟩

theorem write_of {d : Disk} {p : List Byte} (bs : List Byte) (h : d.locked (d.node p) = false) : ∃ d', d.write p bs = some d' ∧ Put d p bs d' := by
  cases hw : d.write p bs with
  | none =>
    unfold Disk.write at hw
    rw [if_neg (by simp [h])] at hw
    cases hw
  | some d' => exact ⟨d', rfl, write_put hw⟩

theorem write_none {d : Disk} {p bs : List Byte} (h : d.locked (d.node p) = true) : d.write p bs = none := by
  unfold Disk.write
  rw [if_pos h]

theorem Put.read {d d' : Disk} {p bs : List Byte} (h : Put d p bs d') : d'.read p = some bs := by
  unfold Disk.read
  rw [h.data, h.node, if_pos rfl]

theorem Put.other {d d' : Disk} {p bs q : List Byte} (h : Put d p bs d') (hq : d.node q ≠ d.node p) : d'.read q = d.read q := by
  unfold Disk.read
  rw [h.data, h.node, if_neg hq]

/-- One of the ways a command may end. -/
def Orderly (d : Disk) (out : Option (List Byte)) : Ending → Prop
  | .exit c d' _ => (c = 0 ∨ (c = 1 ∧ d' = d)) ∧ (d' = d ∨ ∃ o bs, out = some o ∧ Put d o bs d')
  | _ => True

theorem orderly_fail (d : Disk) (out : Option (List Byte)) : Orderly d out (.exit 1 d []) := ⟨.inr ⟨rfl, rfl⟩, .inl rfl⟩
theorem orderly_same (d : Disk) (out : Option (List Byte)) (t : List Byte) : Orderly d out (.exit 0 d t) := ⟨.inl rfl, .inl rfl⟩

theorem orderly_put {d d' : Disk} {o bs : List Byte} (h : d.write o bs = some d') : Orderly d (some o) (.exit 0 d' []) :=
  ⟨.inl rfl, .inr ⟨o, bs, rfl, write_put h⟩⟩

theorem orderly_getD (d : Disk) (o bs : List Byte) : Orderly d (some o) (.exit 0 ((d.write o bs).getD d) []) := by
  cases h : d.write o bs with
  | none => exact orderly_same d _ _
  | some d' => exact orderly_put h

theorem compile_orderly (S : Sys) (n : Nat) (d : Disk) (c : List Byte) (args : List (List Byte)) :
    Orderly d args.tail.head? (cmdCompile S n d (c :: args)) := by
  unfold cmdCompile
  split
  · rename_i e
    cases e
    split
    · exact orderly_fail d _
    · split
      · exact orderly_fail d _
      · rename_i hw
        exact orderly_put hw
    all_goals trivial
  · exact orderly_fail d _

theorem fmt_orderly (d : Disk) (c : List Byte) (args : List (List Byte)) : Orderly d args.tail.head? (cmdFmt d (c :: args)) := by
  unfold cmdFmt
  split
  · rename_i e
    cases e
    split
    · exact orderly_fail d _
    · split
      · trivial
      · split
        · exact orderly_same d _ _
        · split
          · exact orderly_fail d _
          · rename_i hw
            exact orderly_put hw
  · exact orderly_fail d _

theorem inspect_orderly (d : Disk) (args : List (List Byte)) : Orderly d none (cmdInspect d args) := by
  unfold cmdInspect
  split
  · split
    · exact orderly_fail d _
    · split
      · exact orderly_fail d _
      · dsimp only
        split
        · trivial
        · split
          · trivial
          · split
            · trivial
            · exact orderly_same d _ _
  · exact orderly_fail d _

theorem encode_orderly (S : Sys) (n : Nat) (d : Disk) (c : List Byte) (args : List (List Byte)) :
    Orderly d args.tail.tail.head? (cmdEncode S n d (c :: args)) := by
  unfold cmdEncode
  split
  · rename_i e
    cases e
    split
    · exact orderly_fail d _
    · split
      · exact orderly_fail d _
      · trivial
      · split
        · exact orderly_fail d _
        · split
          · exact orderly_fail d _
          · split
            · trivial
            · trivial
            · split
              · trivial
              · split
                · exact orderly_fail d _
                · exact orderly_getD d _ _
  · exact orderly_fail d _

theorem decodeEnd_orderly (S : Sys) (d : Disk) (out : List Byte) (r : Res σ) (js : σ → JSt) : Orderly d (some out) (decodeEnd S d out r js) := by
  unfold decodeEnd
  split
  · trivial
  · trivial
  · split
    · trivial
    · split
      · exact orderly_fail d _
      · exact orderly_getD d _ _

theorem decode_orderly (S : Sys) (n : Nat) (d : Disk) (c : List Byte) (args : List (List Byte)) :
    Orderly d args.tail.tail.head? (cmdDecode S n d (c :: args)) := by
  unfold cmdDecode
  split
  · rename_i e
    cases e
    split
    · exact orderly_fail d _
    · split
      · exact orderly_fail d _
      · trivial
      · split
        · exact orderly_fail d _
        · split
          · exact decodeEnd_orderly S d _ _ _
          · exact decodeEnd_orderly S d _ _ _
  · exact orderly_fail d _

theorem Orderly.of_none {d : Disk} {out : Option (List Byte)} {E : Ending} (h : Orderly d none E) : Orderly d out E := by
  cases E with
  | exit c d' t =>
    refine ⟨h.1, .inl ?_⟩
    rcases h.2 with h | ⟨o, _, h, _⟩
    · exact h
    · cases h
  | _ => trivial

theorem word_apart : word "fmt" ≠ word "compile" ∧ word "encode" ≠ word "compile" ∧ word "encode" ≠ word "fmt" ∧ word "encode" ≠ word "inspect" ∧
    word "decode" ≠ word "compile" ∧ word "decode" ≠ word "fmt" ∧ word "decode" ≠ word "inspect" ∧ word "decode" ≠ word "encode" := by
  decide +kernel

theorem cndMain_orderly (S : Sys) (n : Nat) (d : Disk) (args : List (List Byte)) : Orderly d (outPath args) (cndMain S n d args) := by
  obtain ⟨w1, w2, w3, _, w5, w6, _, w8⟩ := word_apart
  unfold cndMain
  split
  · exact orderly_fail d _
  · rename_i c as
    by_cases h1 : c = word "compile"
    · rw [if_pos h1]
      have := compile_orderly S n d c as
      rcases as with _ | ⟨a, _ | ⟨b, bs⟩⟩
      · exact this
      · exact this
      · unfold outPath
        dsimp only
        rw [if_pos (Or.inl h1)]
        exact this
    rw [if_neg h1]
    by_cases h2 : c = word "fmt"
    · rw [if_pos h2]
      have := fmt_orderly d c as
      rcases as with _ | ⟨a, _ | ⟨b, bs⟩⟩
      · exact this
      · exact this
      · unfold outPath
        dsimp only
        rw [if_pos (Or.inr h2)]
        exact this
    rw [if_neg h2]
    by_cases h3 : c = word "inspect"
    · rw [if_pos h3]
      exact (inspect_orderly d _).of_none
    rw [if_neg h3]
    by_cases h4 : c = word "encode"
    · rw [if_pos h4]
      have := encode_orderly S n d c as
      rcases as with _ | ⟨a, _ | ⟨b, bs⟩⟩
      · exact this
      · exact this
      · unfold outPath
        dsimp only
        rw [if_neg (fun h => Or.elim h h1 h2), if_pos (Or.inl h4)]
        exact this
    rw [if_neg h4]
    by_cases h5 : c = word "decode"
    · rw [if_pos h5]
      have := decode_orderly S n d c as
      rcases as with _ | ⟨a, _ | ⟨b, bs⟩⟩
      · exact this
      · exact this
      · unfold outPath
        dsimp only
        rw [if_neg (fun h => Or.elim h h1 h2), if_pos (Or.inr h5)]
        exact this
    rw [if_neg h5]
    split
    · trivial
    · split
      · exact orderly_same d _ _
      · split
        · exact orderly_same d _ _
        · exact orderly_fail d _

/-- **C94, nothing else is touched.** Whatever the words of the command line, the files and the schema: a command that ends leaves every file
as it was except the one its output path names, and leaves all of them as they were if its command line names none. -/
theorem C94_frame (S : Sys) (n : Nat) (d d' : Disk) (args : List (List Byte)) (code : Nat) (said : List Byte)
    (h : cndMain S n d args = .exit code d' said) :
    d'.canon = d.canon ∧ d'.node = d.node ∧ d'.locked = d.locked ∧
      ∀ m, (∀ o, outPath args = some o → m ≠ d.node o ∨ d.locked m = true) → d'.data m = d.data m := by
  have ho := cndMain_orderly S n d args
  rw [h] at ho
  rcases ho.2 with rfl | ⟨o, bs, h1, h2⟩
  · exact ⟨rfl, rfl, rfl, fun _ _ => rfl⟩
  · refine ⟨h2.canon, h2.node, h2.locked, fun m hm => ?_⟩
    rw [h2.data]
    split
    · rename_i e
      rcases hm o h1 with h | h
      · exact absurd e h
      · rw [e, h2.can] at h
        cases h
    · rfl

/-- **C94, failure changes nothing.** A command that fails ends with exit code 1 and leaves every file as it was. -/
theorem C94_failure (S : Sys) (n : Nat) (d d' : Disk) (args : List (List Byte)) (code : Nat) (said : List Byte)
    (h : cndMain S n d args = .exit code d' said) (hc : code ≠ 0) : code = 1 ∧ d' = d := by
  have ho := cndMain_orderly S n d args
  rw [h] at ho
  rcases ho.1 with h | h
  · exact absurd h hc
  · exact h

/-- How many words each command needs behind its name. -/
def wordsNeeded : List (List Byte × Nat) :=
  [(word "compile", 2), (word "fmt", 1), (word "inspect", 1), (word "encode", 3), (word "decode", 3)]

def otherWords : List (List Byte) := [word "lsp", word "help", word "-h", word "--help", word "version", word "-v", word "--version"]

/-- **C94, wrong command lines** end with exit code 1 and change nothing: no words, an unknown command, too few words. -/
theorem C94_usage (S : Sys) (n : Nat) (d : Disk) (args : List (List Byte))
    (h : args = [] ∨ ∃ c as, args = c :: as ∧ ((c ∉ wordsNeeded.map (·.1) ∧ c ∉ otherWords) ∨ ∃ k, (c, k) ∈ wordsNeeded ∧ as.length < k)) :
    cndMain S n d args = .exit 1 d [] := by
  rcases h with rfl | ⟨c, as, rfl, ⟨h1, h2⟩ | ⟨k, h1, h2⟩⟩
  · rfl
  · simp only [wordsNeeded, otherWords, List.map_cons, List.map_nil, List.mem_cons, List.not_mem_nil, or_false, not_or] at h1 h2
    obtain ⟨a1, a2, a3, a4, a5⟩ := h1
    obtain ⟨b1, b2, b3, b4, b5, b6, b7⟩ := h2
    unfold cndMain
    dsimp only
    rw [if_neg a1, if_neg a2, if_neg a3, if_neg a4, if_neg a5, if_neg b1, if_neg (fun h => Or.elim h b2 (fun h => Or.elim h b3 b4)),
      if_neg (fun h => Or.elim h b5 (fun h => Or.elim h b6 b7))]
  · obtain ⟨w1, w2, w3, w4, w5, w6, w7, w8⟩ := word_apart
    have w9 : word "inspect" ≠ word "compile" ∧ word "inspect" ≠ word "fmt" := by decide +kernel
    simp only [wordsNeeded, List.mem_cons, List.not_mem_nil, or_false, Prod.mk.injEq] at h1
    unfold cndMain
    dsimp only
    rcases h1 with ⟨rfl, rfl⟩ | ⟨rfl, rfl⟩ | ⟨rfl, rfl⟩ | ⟨rfl, rfl⟩ | ⟨rfl, rfl⟩
    · rw [if_pos rfl]
      match as, h2 with
      | [], _ => rfl
      | [_], _ => rfl
    · rw [if_neg w1, if_pos rfl]
      match as, h2 with
      | [], _ => rfl
    · rw [if_neg w9.1, if_neg w9.2, if_pos rfl]
      match as, h2 with
      | [], _ => rfl
    · rw [if_neg w2, if_neg w3, if_neg w4, if_pos rfl]
      match as, h2 with
      | [], _ => rfl
      | [_], _ => rfl
      | [_, _], _ => rfl
    · rw [if_neg w5, if_neg w6, if_neg w7, if_neg w8, if_pos rfl]
      match as, h2 with
      | [], _ => rfl
      | [_], _ => rfl
      | [_, _], _ => rfl

/-- A misspelt command. -/
example (S : Sys) (n : Nat) (d : Disk) : cndMain S n d [word "compyle", word "a", word "b"] = .exit 1 d [] :=
  C94_usage S n d _ (.inr ⟨_, _, rfl, .inl (by decide +kernel)⟩)

/-! ### What is written -/

theorem Put.uniq {d d1 d2 : Disk} {p bs : List Byte} (h1 : Put d p bs d1) (h2 : Put d p bs d2) : d1 = d2 := by
  obtain ⟨a1, a2, a3, a4⟩ := d1
  obtain ⟨b1, b2, b3, b4⟩ := d2
  obtain rfl : a1 = b1 := h1.canon.trans h2.canon.symm
  obtain rfl : a2 = b2 := h1.node.trans h2.node.symm
  obtain rfl : a4 = b4 := h1.locked.trans h2.locked.symm
  obtain rfl : a3 = b3 := funext fun m => (h1.data m).trans (h2.data m).symm
  rfl

theorem write_iff {d d' : Disk} {p bs : List Byte} : d.write p bs = some d' ↔ Put d p bs d' := by
  refine ⟨write_put, fun h => ?_⟩
  obtain ⟨e, h1, h2⟩ := write_of bs h.can
  rw [h1, h2.uniq h]

theorem main_compile (S : Sys) (n : Nat) (d : Disk) (as : List (List Byte)) :
    cndMain S n d (word "compile" :: as) = cmdCompile S n d (word "compile" :: as) := by
  unfold cndMain
  exact if_pos rfl

theorem main_fmt (S : Sys) (n : Nat) (d : Disk) (as : List (List Byte)) : cndMain S n d (word "fmt" :: as) = cmdFmt d (word "fmt" :: as) := by
  unfold cndMain
  exact (if_neg word_apart.1).trans (if_pos rfl)

theorem main_encode (S : Sys) (n : Nat) (d : Disk) (as : List (List Byte)) :
    cndMain S n d (word "encode" :: as) = cmdEncode S n d (word "encode" :: as) := by
  obtain ⟨_, w2, w3, w4, _⟩ := word_apart
  unfold cndMain
  exact (if_neg w2).trans ((if_neg w3).trans ((if_neg w4).trans (if_pos rfl)))

theorem main_decode (S : Sys) (n : Nat) (d : Disk) (as : List (List Byte)) :
    cndMain S n d (word "decode" :: as) = cmdDecode S n d (word "decode" :: as) := by
  obtain ⟨_, _, _, _, w5, w6, w7, w8⟩ := word_apart
  unfold cndMain
  exact (if_neg w5).trans ((if_neg w6).trans ((if_neg w7).trans ((if_neg w8).trans (if_pos rfl))))

/-- **C94, `cnd compile`** succeeds exactly if the compiler accepts the program and the output can be written; then the output file holds the
image. -/
theorem C94_compile (S : Sys) (n : Nat) (d d' : Disk) (inp out : List Byte) (opts : List (List Byte)) (said : List Byte) :
    cndMain S n d (word "compile" :: inp :: out :: opts) = .exit 0 d' said ↔
      said = [] ∧ ∃ bs, compileFile S.P d.files n inp = .image bs ∧ Put d out bs d' := by
  rw [main_compile]
  unfold cmdCompile
  dsimp only
  constructor
  · intro h
    split at h
    · cases h
    · rename_i bs hc
      split at h
      · cases h
      · rename_i e hw
        cases h
        exact ⟨rfl, bs, hc, write_put hw⟩
    all_goals cases h
  · rintro ⟨rfl, bs, h1, h2⟩
    rw [h1]
    dsimp only
    rw [write_iff.2 h2]

theorem fmt_some (src : List Byte) : ∃ text, fmtSource (src ++ [0]) = some text := by
  obtain ⟨h1, post, h2⟩ := upToNul_split src
  obtain ⟨out, _, h3⟩ := C50_formatter _ h1
  exact ⟨out, by rw [h2, h3]⟩

/-- **C94, `cnd fmt`** always ends. It succeeds exactly if the input can be read and the output, if one is named, can be written; then the
formatted text is in the output file, or on standard output. -/
theorem C94_fmt (S : Sys) (n : Nat) (d : Disk) (inp : List Byte) (more : List (List Byte)) :
    ∃ code d' said, cndMain S n d (word "fmt" :: inp :: more) = .exit code d' said ∧
      (code = 0 ↔ d.read inp ≠ none ∧ ∀ o ∈ more.head?, d.locked (d.node o) = false) ∧
      (code = 0 → ∃ src text, d.read inp = some src ∧ fmtSource (src ++ [0]) = some text ∧
        match more with
        | [] => said = text ∧ d' = d
        | o :: _ => said = [] ∧ Put d o text d') := by
  rw [main_fmt]
  unfold cmdFmt
  dsimp only
  cases hr : d.read inp with
  | none => exact ⟨1, d, [], rfl, by simp, by simp⟩
  | some src =>
    obtain ⟨text, ht⟩ := fmt_some src
    simp only [ht]
    cases more with
    | nil => exact ⟨0, d, text, rfl, by simp, fun _ => ⟨src, text, rfl, ht, rfl, rfl⟩⟩
    | cons o os =>
      dsimp only
      cases hl : d.locked (d.node o) with
      | true =>
        rw [write_none hl]
        exact ⟨1, d, [], rfl, by simp [hl], by simp⟩
      | false =>
        obtain ⟨d', h1, h2⟩ := write_of text hl
        rw [h1]
        exact ⟨0, d', [], rfl, by simp [hl], fun _ => ⟨src, text, rfl, ht, rfl, h2⟩⟩

/-- **C94, `cnd encode`.** Exit code 0 comes from a run of the VM that succeeded; if the output file can be written, it then holds the packet. -/
theorem C94_encode_partial (S : Sys) (n : Nat) (d d' : Disk) (il inp out : List Byte) (more : List (List Byte)) (said : List Byte)
    (h : cndMain S n d (word "encode" :: il :: inp :: out :: more) = .exit 0 d' said) :
    ∃ img names code text doc s, d.read il = some img ∧ cliLoad img = .ok names code ∧ d.read inp = some text ∧
      S.parse (upToNul text) = some doc ∧ jsonEncode S.P.fl names code n S.oldJ (List.replicate 1024 0) doc = .stop .ok s ∧ s.host.ub = false ∧
      (d.locked (d.node out) = false → Put d out s.packet d') := by
  rw [main_encode] at h
  unfold cmdEncode at h
  dsimp only at h
  split at h
  · cases h
  rename_i img h1
  split at h
  · cases h
  · cases h
  rename_i names code h2
  split at h
  · cases h
  rename_i text h3
  split at h
  · cases h
  rename_i doc h4
  split at h
  · cases h
  · cases h
  rename_i e s h5
  split at h
  · cases h
  rename_i h6
  split at h
  · cases h
  rename_i h7
  have h7 : e = .ok := Classical.not_not.1 h7
  subst h7
  refine ⟨img, names, code, text, doc, s, h1, h2, h3, h4, h5, by simpa using h6, fun hl => ?_⟩
  obtain ⟨d1, w1, w2⟩ := write_of (s.buf.take (s.cursor + if s.bit > 0 then 1 else 0)) hl
  rw [w1] at h
  cases h
  have : s.packet = s.buf.take (s.cursor + if s.bit > 0 then 1 else 0) := by
    unfold St.packet
    congr 2
    by_cases hb : s.bit = 0 <;> simp [hb] <;> omega
  rw [this]
  exact w2

theorem encode_run (S : Sys) (n : Nat) (d : Disk) (il inp out : List Byte) (more : List (List Byte)) {img code text : List Byte}
    {names : List (List Byte)} {doc : Items} {s : St JSt} (h1 : d.read il = some img) (h2 : cliLoad img = .ok names code)
    (h3 : d.read inp = some text) (h4 : S.parse (upToNul text) = some doc)
    (h5 : jsonEncode S.P.fl names code n S.oldJ (List.replicate 1024 0) doc = .stop .ok s) (h6 : s.host.ub = false) :
    cndMain S n d (word "encode" :: il :: inp :: out :: more) = .exit 0 ((d.write out s.packet).getD d) [] := by
  have : s.packet = s.buf.take (s.cursor + if s.bit > 0 then 1 else 0) := by
    unfold St.packet
    congr 2
    by_cases hb : s.bit = 0 <;> simp [hb] <;> omega
  rw [main_encode]
  unfold cmdEncode
  simp only [h1, h2, h3, h4, h5, h6, this]
  rfl

/-- **C94, `cnd decode`.** Exit code 0 comes from a run of the VM that succeeded; if the output file can be written, it then holds the printed
document. -/
theorem C94_decode_partial (S : Sys) (n : Nat) (d d' : Disk) (il inp out : List Byte) (more : List (List Byte)) (said : List Byte)
    (h : cndMain S n d (word "decode" :: il :: inp :: out :: more) = .exit 0 d' said) :
    ∃ img names code bin js, d.read il = some img ∧ cliLoad img = .ok names code ∧ d.read inp = some bin ∧
      (if more.head? = some (word "--hex") then ∃ s, hexDecode S.P.fl names code n S.oldH bin = .stop .ok s ∧ s.host.js = js
        else ∃ s, jsonDecode S.P.fl names code n S.oldJ bin = .stop .ok s ∧ s.host = js) ∧ js.ub = false ∧
      (d.locked (d.node out) = false → Put d out (S.print js.doc) d') := by
  have key : ∀ {σ : Type} (r : Res σ) (f : σ → JSt), decodeEnd S d out r f = .exit 0 d' said →
      ∃ s, r = .stop .ok s ∧ (f s.host).ub = false ∧ (d.locked (d.node out) = false → Put d out (S.print (f s.host).doc) d') := by
    intro σ r f h
    unfold decodeEnd at h
    split at h
    · cases h
    · cases h
    rename_i e s
    split at h
    · cases h
    rename_i h6
    split at h
    · cases h
    rename_i h7
    have h7 : e = .ok := Classical.not_not.1 h7
    subst h7
    refine ⟨s, rfl, by simpa using h6, fun hl => ?_⟩
    obtain ⟨d1, w1, w2⟩ := write_of (S.print (f s.host).doc) hl
    rw [w1] at h
    cases h
    exact w2
  rw [main_decode] at h
  unfold cmdDecode at h
  dsimp only at h
  split at h
  · cases h
  rename_i img h1
  split at h
  · cases h
  · cases h
  rename_i names code h2
  split at h
  · cases h
  rename_i bin h3
  split at h
  · rename_i hx
    obtain ⟨s, k1, k2, k3⟩ := key _ _ h
    exact ⟨img, names, code, bin, s.host.js, h1, h2, h3, by rw [if_pos hx]; exact ⟨s, k1, rfl⟩, k2, k3⟩
  · rename_i hx
    obtain ⟨s, k1, k2, k3⟩ := key _ _ h
    exact ⟨img, names, code, bin, s.host, h1, h2, h3, by rw [if_neg hx]; exact ⟨s, k1, rfl⟩, k2, k3⟩

theorem decode_run (S : Sys) (n : Nat) (d : Disk) (il inp out : List Byte) {img code bin : List Byte}
    {names : List (List Byte)} {s : St JSt} (h1 : d.read il = some img) (h2 : cliLoad img = .ok names code)
    (h3 : d.read inp = some bin) (h5 : jsonDecode S.P.fl names code n S.oldJ bin = .stop .ok s) (h6 : s.host.ub = false) :
    cndMain S n d [word "decode", il, inp, out] = .exit 0 ((d.write out (S.print s.host.doc)).getD d) [] := by
  rw [main_decode]
  unfold cmdDecode
  simp only [h1, h2, h3, h5]
  rw [if_neg (by simp)]
  unfold decodeEnd
  exact (if_neg (by simp [h6])).trans (if_neg (fun h => h rfl))

/-! ### One command after another -/

/-- **C94, formatting before compiling.** `cnd fmt` on a file in place (plain text as in C89) changes nothing of what `cnd compile` then says
and writes, whether the file is the main file or an imported one. -/
theorem C94_fmt_compile (S : Sys) (m : Nat) (d d' : Disk) (f src : List Byte) (hr : d.read f = some src) (hn : NoNul src)
    (toks : List (TT × List Byte)) (ht : PlainText src toks) (said : List Byte) (h : cndMain S m d [word "fmt", f, f] = .exit 0 d' said)
    (n : Nat) (inp out bs : List Byte) :
    (∃ d1, cndMain S n d [word "compile", inp, out] = .exit 0 d1 [] ∧ Put d out bs d1) ↔
      (∃ d2, cndMain S n d' [word "compile", inp, out] = .exit 0 d2 [] ∧ Put d' out bs d2) := by
  obtain ⟨c, e, t, h1, _, h3⟩ := C94_fmt S m d f [f]
  rw [h] at h1
  cases h1
  obtain ⟨src', text, h4, h5, _, h6⟩ := h3 rfl
  rw [hr] at h4
  cases h4
  have hf : FilesFmt d.files d'.files := by
    have rd : ∀ q, d'.read q = if d.node q = d.node f then some text else d.read q := fun q => by
      unfold Disk.read
      rw [h6.data, h6.node]
    refine ⟨h6.canon, fun q hq => ?_, fun q a ha => ?_⟩
    · change d.read q = none at hq
      show d'.read q = none
      rw [rd, if_neg (fun e => ?_), hq]
      unfold Disk.read at hq hr
      rw [e, hr] at hq
      cases hq
    · change d.read q = some a at ha
      show ∃ b, d'.read q = some b ∧ _
      rw [rd]
      by_cases e : d.node q = d.node f
      · rw [if_pos e]
        have : a = src := by
          unfold Disk.read at ha hr
          rw [e, hr] at ha
          cases ha
          rfl
        subst this
        exact ⟨text, rfl, .inr ⟨hn, ⟨toks, ht⟩, h5⟩⟩
      · rw [if_neg e]
        exact ⟨a, ha, .inl rfl⟩
  have hc : compileFile S.P d'.files n inp = compileFile S.P d.files n inp := C89_files S.P _ _ hf n inp
  constructor
  · rintro ⟨d1, k1, k2⟩
    obtain ⟨_, bs', k3, k4⟩ := (C94_compile S n d d1 inp out [] []).1 k1
    have : bs' = bs := Option.some.inj (k4.read.symm.trans k2.read)
    subst this
    obtain ⟨d2, _, k5⟩ := write_of (d := d') (p := out) bs' (by rw [h6.locked, h6.node]; exact k2.can)
    exact ⟨d2, (C94_compile S n d' d2 inp out [] []).2 ⟨rfl, bs', hc.trans k3, k5⟩, k5⟩
  · rintro ⟨d1, k1, k2⟩
    obtain ⟨_, bs', k3, k4⟩ := (C94_compile S n d' d1 inp out [] []).1 k1
    have : bs' = bs := Option.some.inj (k4.read.symm.trans k2.read)
    subst this
    obtain ⟨d2, _, k5⟩ := write_of (d := d) (p := out) bs' (by have := k2.can; rw [h6.locked, h6.node] at this; exact this)
    exact ⟨d2, (C94_compile S n d d2 inp out [] []).2 ⟨rfl, bs', hc.symm.trans k3, k5⟩, k5⟩

/-- A run leaves the packet's length as it is. -/
theorem exec_buf_length {E : Env σ} {n : Nat} {s sf : St σ} {e : Err} (hi : Inv s) (h : exec E n s = .stop e sf) : sf.buf.length = s.buf.length := by
  induction n generalizing s with
  | zero => cases h
  | succ n ih =>
    rw [exec_succ] at h
    cases hop : E.prog[s.ip]? with
    | none =>
      rw [step_end hop] at h
      cases h
      rfl
    | some op =>
      have hm := step_mono hi hop
      have hb := (pre_fields op s).1
      cases hst : step E s with
      | ub u => rw [hst] at h; cases h
      | run t =>
        rw [hst] at h hm
        have h2 := ih (step_inv hi hst) h
        have := Mono.len hm
        rw [hb] at this
        omega
      | stop e' t =>
        rw [hst] at h hm
        cases h
        have := Mono.len hm
        rw [hb] at this
        exact this

/-- **C94, the round trip through files.** A program, a record of it and the record's document in a file: `cnd compile`, `cnd encode` and
`cnd decode` one after another succeed, the packet file is as long as the record and the last file holds the document. The output files may be any
that can be written, as long as the image is not written over the document's text and the packet not over the image. If cJSON reads what it
prints, encoding the last file gives the same packet once more. -/
theorem C94_pipeline_partial (S : Sys) (prog : List Item) (tab tab' : List (List Byte)) (f f' : Sch) (h : progSch S.P.dbl S.P.fl prog = some (tab, f))
    (ho : optSch tab f = some (tab', f')) (src : List Byte) (toks : List Tok)
    (hl : Lexes (upToNul src) 1 toks) (ht : toks.map Tok.bare = prog.flatMap Item.toks ++ [eofTok])
    (hcount : tab.length < 65536) (hsize : 16 + (strBytes tab).length < 2 ^ 32) (hdep : f.depth ≤ 8) (hlen : f.code.length < 2 ^ 31)
    (hB : NoBulk f'.code) (q : Cnd.P) (hrec : SRec S.P.fl (jsonView S.P.fl tab' fun _ => false) f' ⟨0, false, []⟩ q)
    (doc : Items) (hdoc : DocOf S.P.fl tab' (fun _ => false) 0 0 false q.evs doc) (hd : doc.Distinct false) (hbuf : q.pos ≤ 8 * 1024)
    (d : Disk) (cnd il json bin back text : List Byte)
    (h1 : d.read (d.canon cnd) = some src) (h2 : d.read json = some text) (h3 : S.parse (upToNul text) = some doc)
    (w1 : d.locked (d.node il) = false) (w2 : d.locked (d.node bin) = false) (w3 : d.locked (d.node back) = false)
    (a1 : d.node json ≠ d.node il) (a2 : d.node il ≠ d.node bin) :
    ∃ d1 d2 d3 packet, (∃ n, cndMain S n d [word "compile", cnd, il] = .exit 0 d1 []) ∧
      (∃ n, cndMain S n d1 [word "encode", il, json, bin] = .exit 0 d2 []) ∧
      (∃ n, cndMain S n d2 [word "decode", il, bin, back] = .exit 0 d3 []) ∧
      d2.read bin = some packet ∧ packet.length = (q.pos + 7) / 8 ∧ d3.read back = some (S.print doc) ∧
      (S.parse (upToNul (S.print doc)) = some doc → d.node il ≠ d.node back → ∀ again, d.locked (d.node again) = false →
        ∃ d4, (∃ n, cndMain S n d3 [word "encode", il, back, again] = .exit 0 d4 []) ∧ d4.read again = some packet) := by
  obtain ⟨img, names, code, c1, c2, n, se, c3, c4, c5, c6, c7⟩ := C65_tools_partial S.P prog tab tab' f f' h ho src toks hl ht
    (16 * src.length + 18) (Nat.le_refl _) hcount hsize hdep hlen hB q hrec doc hdoc hd hbuf S.oldJ
  obtain ⟨d1, _, p1⟩ := write_of img w1
  have r1 := (C94_compile S (16 * src.length + 18 + 1) d d1 cnd il [] []).2 ⟨rfl, img, by
    rw [C76_single S.P d.files cnd src _ h1 (by rw [c1]; simp) (by rw [c1]; simp), c1], p1⟩
  have e2 := encode_run S n d1 il json bin [] p1.read c2 (p1.other a1 |>.trans h2) h3 c3 c4
  obtain ⟨d2, u2, p2⟩ := write_of (d := d1) (p := bin) se.packet (by rw [p1.locked, p1.node]; exact w2)
  rw [u2] at e2
  obtain ⟨sd, c8, c9, c10, _⟩ := c7 S.oldJ []
  rw [List.append_nil] at c8
  have e3 := decode_run S n d2 il bin back ((p2.other (by rw [p1.node]; exact a2)).trans p1.read) c2 p2.read c8 c10
  obtain ⟨d3, u3, p3⟩ := write_of (d := d2) (p := back) (S.print sd.host.doc) (by rw [p2.locked, p2.node, p1.locked, p1.node]; exact w3)
  rw [u3] at e3
  have nd : d3.node = d.node := by rw [p3.node, p2.node, p1.node]
  have i2 : d2.read il = some img := (p2.other (by rw [p1.node]; exact a2)).trans p1.read
  refine ⟨d1, d2, d3, se.packet, ⟨_, r1⟩, ⟨n, e2⟩, ⟨n, e3⟩, p2.read, ?_, by rw [p3.read, c9], fun hp a3 again w4 => ?_⟩
  rotate_left
  · have e4 := encode_run S n d3 il back again [] ((p3.other (by rw [p2.node, p1.node]; exact a3)).trans i2) c2 (by rw [p3.read, c9]) hp c3 c4
    obtain ⟨d4, u4, p4⟩ := write_of (d := d3) (p := again) se.packet (by rw [p3.locked, p2.locked, p1.locked, nd]; exact w4)
    rw [u4] at e4
    exact ⟨d4, ⟨n, e4⟩, p4.read⟩
  have hlen := exec_buf_length (init_inv S.oldJ (List.replicate 1024 0) (JSt.start doc)) c3
  have hlen : se.buf.length = 1024 := by rw [hlen]; exact List.length_replicate
  unfold St.packet
  rw [List.length_take, hlen]
  split <;> omega

/-- **C94, too long for the tool.** A document of a record of more than 1024 bytes: `cnd encode` does not report success and, if it ends, has
not touched any file. -/
theorem C94_too_long_partial (S : Sys) (names : List (List Byte)) (f : Sch) (hf : Rigid f) (hB : NoBulk f.code) (q : P)
    (hrec : SRec S.P.fl (jsonView S.P.fl names fun _ => false) f ⟨0, false, []⟩ q) (doc : Items)
    (hdoc : DocOf S.P.fl names (fun _ => false) 0 0 false q.evs doc) (hd : doc.Distinct false) (hlong : 8 * 1024 < q.pos)
    (d : Disk) (il json bin img text : List Byte) (h1 : d.read il = some img) (h2 : cliLoad img = .ok names f.code)
    (h3 : d.read json = some text) (h4 : S.parse (upToNul text) = some doc) (n : Nat) (more : List (List Byte)) (code : Nat) (d' : Disk) (said : List Byte)
    (h : cndMain S n d (word "encode" :: il :: json :: bin :: more) = .exit code d' said) : code = 1 ∧ d' = d := by
  refine C94_failure S n d d' _ code said h fun e => ?_
  subst e
  obtain ⟨img', names', code, text', doc', s, k1, k2, k3, k4, k5, _⟩ := C94_encode_partial S n d d' il json bin more said h
  rw [h1] at k1
  cases k1
  rw [h2] at k2
  cases k2
  rw [h3] at k3
  cases k3
  rw [h4] at k4
  cases k4
  have := (C93_json_partial S.P.fl names f hf hB q hrec doc hdoc hd S.oldJ (List.replicate 1024 0)).1 ⟨n, s, k5⟩
  rw [List.length_replicate] at this
  omega

/-- **C94, cut off.** A file that holds the packet of a record without its last bytes: `cnd decode` does not report success and, if it ends,
has not touched any file. -/
theorem C94_cut_partial (S : Sys) (names : List (List Byte)) (f : Sch) (hf : Rigid f) (hB : NoBulk f.code) (q : P) (cut more : List Byte)
    (hp : Encoded S.P.fl (jsonView S.P.fl names fun _ => false) f q (cut ++ more)) (hm : more ≠ []) (doc : Items)
    (hdoc : DocOf S.P.fl names (fun _ => false) 0 0 false q.evs doc) (hd : doc.Distinct false)
    (d : Disk) (il bin out img : List Byte) (h1 : d.read il = some img) (h2 : cliLoad img = .ok names f.code)
    (h3 : d.read bin = some cut) (n : Nat) (code : Nat) (d' : Disk) (said : List Byte)
    (h : cndMain S n d [word "decode", il, bin, out] = .exit code d' said) : code = 1 ∧ d' = d := by
  refine C94_failure S n d d' _ code said h fun e => ?_
  subst e
  obtain ⟨img', names', code, cut', js, k1, k2, k3, k4, k5, _⟩ := C94_decode_partial S n d d' il bin out [] said h
  rw [h1] at k1
  cases k1
  rw [h2] at k2
  cases k2
  rw [h3] at k3
  cases k3
  rw [if_neg (fun e => by cases e)] at k4
  obtain ⟨s, k4, rfl⟩ := k4
  exact hm ((C93_json_decode_partial S.P.fl names f hf hB q cut more hp doc hdoc hd S.oldJ).1 ⟨n, s, k4, k5⟩)

/-! ### Success without output -/

namespace Demo

/-- A disk with the files `p.cnd`, `doc.json` and `s.il`; all paths but those below `ro/` can be written. -/
def disk94 (cnd json il : List Byte) : Disk where
  canon := id
  node p := if p = word "p.cnd" then 0 else if p = word "doc.json" then 1 else if p = word "s.il" then 2 else if p = word "p.il" then 3
    else if p = word "p.bin" then 4 else if p = word "back.json" then 5 else if p = word "again.bin" then 6 else if p = word "ro/out" then 7 else 8
  data m := if m = 0 then some cnd else if m = 1 then some json else if m = 2 then some il else none
  locked m := decide (m = 7)

/-- A parser that knows one text and a printer that knows one document. -/
def sys94 (text : List Byte) (doc : Items) : Sys := ⟨softP, fun t => if t = text then some doc else none, fun _ => text, zeroSt (JSt.start .nil), zeroSt JHex.start⟩

end Demo

/-- `{"a": 1}` for a packet of one byte `a`, into a file that cannot be opened for writing: `cnd encode` exits with 0 and nothing is written. -/
theorem C94_false_encode : ∃ (S : Sys) (n : Nat) (d : Disk) (il json out : List Byte),
    cndMain S n d [word "encode", il, json, out] = .exit 0 d [] ∧ d.read out = none := by
  obtain ⟨s, h1, h2⟩ := endsIn_spec (p := fun s => !s.host.ub)
    (r := jsonEncode Soft.fl [[0x61]] [0x10, 0, 0] 10 (zeroSt (JSt.start .nil)) (List.replicate 1024 0) (jmem [0x61] (jnum 1))) (by decide +kernel)
  have h := encode_run (sys94 (word "{a}") (jmem [0x61] (jnum 1))) 10 (disk94 [] (word "{a}") (writeImage [[0x61]] [0x10, 0, 0]))
    (word "s.il") (word "doc.json") (word "ro/out") [] (img := writeImage [[0x61]] [0x10, 0, 0]) (names := [[0x61]]) (code := [0x10, 0, 0])
    (text := word "{a}") (by decide +kernel) (by decide +kernel) (by decide +kernel) (by decide +kernel) h1 (by simpa using h2)
  rw [write_none (by decide +kernel)] at h
  exact ⟨_, _, _, _, _, _, h, by decide +kernel⟩

/-- The same for `cnd decode`. -/
theorem C94_false_decode : ∃ (S : Sys) (n : Nat) (d : Disk) (il bin out : List Byte),
    cndMain S n d [word "decode", il, bin, out] = .exit 0 d [] ∧ d.read out = none := by
  obtain ⟨s, h1, h2⟩ := endsIn_spec (p := fun s => !s.host.ub)
    (r := jsonDecode Soft.fl [[0x61]] [0x10, 0, 0] 10 (zeroSt (JSt.start .nil)) [1]) (by decide +kernel)
  have h := decode_run (sys94 (word "{a}") (jmem [0x61] (jnum 1))) 10 (disk94 [] [1] (writeImage [[0x61]] [0x10, 0, 0]))
    (word "s.il") (word "doc.json") (word "ro/out") (img := writeImage [[0x61]] [0x10, 0, 0]) (names := [[0x61]]) (code := [0x10, 0, 0])
    (bin := [1]) (by decide +kernel) (by decide +kernel) (by decide +kernel) h1 (by simpa using h2)
  rw [write_none (by decide +kernel)] at h
  exact ⟨_, _, _, _, _, _, h, by decide +kernel⟩

/-! ### Examples -/

/-- The program and the document of C65 in files: all four commands succeed. -/
example : ∃ d1 d2 d3 packet, (∃ n, cndMain (sys94 (word "{text}") exDoc65) n (disk94 exSrc65 (word "{text}") []) [word "compile", word "p.cnd", word "p.il"] = .exit 0 d1 []) ∧
    (∃ n, cndMain (sys94 (word "{text}") exDoc65) n d1 [word "encode", word "p.il", word "doc.json", word "p.bin"] = .exit 0 d2 []) ∧
    (∃ n, cndMain (sys94 (word "{text}") exDoc65) n d2 [word "decode", word "p.il", word "p.bin", word "back.json"] = .exit 0 d3 []) ∧
    d2.read (word "p.bin") = some packet ∧ packet.length = 10 ∧ d3.read (word "back.json") = some (word "{text}") ∧
    ∃ d4, (∃ n, cndMain (sys94 (word "{text}") exDoc65) n d3 [word "encode", word "p.il", word "back.json", word "again.bin"] = .exit 0 d4 []) ∧
      d4.read (word "again.bin") = some packet := by
  obtain ⟨toks, h1, h2⟩ := lexAll_total exSrc65
  have e := ex65_lex
  rw [h2, Option.map_some, Option.some.injEq] at e
  obtain ⟨d1, d2, d3, packet, k1, k2, k3, k4, k5, k6, k7⟩ := C94_pipeline_partial (sys94 (word "{text}") exDoc65) exProg65 _ _ _ _ ex65_prog ex65_opt exSrc65
    toks h1 e (by decide) (by decide +kernel) (by decide) (by decide +kernel) (noBulk_of (by decide +kernel)) _ ex65_rec exDoc65 ex65_doc
    (by simp [Items.Distinct, exDoc65, Items.shape, jmem]; decide +kernel) (by decide)
    (disk94 exSrc65 (word "{text}") []) (word "p.cnd") (word "p.il") (word "doc.json") (word "p.bin") (word "back.json") (word "{text}")
    (by decide +kernel) (by decide +kernel) (by decide +kernel) (by decide +kernel) (by decide +kernel) (by decide +kernel) (by decide +kernel) (by decide +kernel)
  exact ⟨d1, d2, d3, packet, k1, k2, k3, k4, k5, k6, k7 (by decide +kernel) (by decide +kernel) (word "again.bin") (by decide +kernel)⟩

/-- A command that fails: there is no such schema file. -/
example : cndMain (sys94 [] .nil) 0 (disk94 [] [] []) [word "encode", word "none.il", word "doc.json", word "p.bin"] = .exit 1 (disk94 [] [] []) [] := by
  rw [main_encode]
  unfold cmdEncode
  dsimp only
  rw [show (disk94 [] [] []).read (word "none.il") = none by decide +kernel]

/-- A packet of one string. -/
def exSrc94 : List Byte := word "packet P { string s prefix u16; }"
def exSch94 : Sch := .seq (.fld (.name 1 0)) (.fld (.strPre .p2 0 0))

theorem ex94_check : (lexAll (exSrc94.length + 1) (exSrc94 ++ [0]) 1).map (fun toks => Nice false (toks.map Tok.bare) &&
    (match parseTop demoP 1000 (parseStart (toks.map Tok.bare)).adv with
      | .ok s => decide (optimizeStrings s.tab s.out = (s.tab, s.out))
      | _ => true)) = some true := by decide +kernel

theorem ex94_load : (match loadIl (writeImage [word "s", word "P"] exSch94.code) with | .ok I => I.code | _ => []) = exSch94.code := by decide +kernel

theorem ex94_whole : Whole false exSch94.code := by
  obtain ⟨toks, h1, h2⟩ := Option.map_eq_some_iff.mp ex94_check
  rw [Bool.and_eq_true] at h2
  obtain ⟨I, g1, _, g2⟩ := C82_source_partial demoP 1000 exSrc94 (writeImage [word "s", word "P"] exSch94.code) toks (by decide +kernel) h1 h2.1 (fun s hs => by
    have h3 := h2.2
    rw [hs] at h3
    exact of_decide_eq_true h3) (by decide +kernel) (by decide +kernel)
  have := ex94_load
  rw [g1] at this
  dsimp only at this
  rwa [this] at g2

theorem ex94_ops : ∀ op ∈ exSch94.code, (decodeOp op).firm = true ∧ op ≠ 0x38 ∧ decodeOp op ≠ .arrPre .p4 ∧ decodeOp op ≠ .arrDynamic ∧ decodeOp op ≠ .arrFixed := by
  decide +kernel

theorem ex94_rigid : Rigid exSch94 where
  depth := by decide
  len := by decide +kernel
  whole := ex94_whole
  skips := C82_skips _ fun x hx => absurd rfl (ex94_ops _ (List.mem_of_getElem? hx)).2.1
  firm := fun p op _ h => (ex94_ops op (List.mem_of_getElem? h)).1

/-- A string of at least 1023 bytes is too long for `cnd encode`. -/
example (bs : List Byte) (hn : NulFree bs) (hl : 1023 ≤ bs.length) (hu : bs.length < 65536) (n : Nat) (code : Nat) (d' : Disk) (said : List Byte)
    (h : cndMain (sys94 (word "{text}") (jmem (word "s") (.str bs))) n (disk94 [] (word "{text}") (writeImage [word "s", word "P"] exSch94.code))
      [word "encode", word "s.il", word "doc.json", word "p.bin"] = .exit code d' said) :
    code = 1 ∧ d' = disk94 [] (word "{text}") (writeImage [word "s", word "P"] exSch94.code) := by
  refine C94_too_long_partial (sys94 (word "{text}") (jmem (word "s") (.str bs))) [word "s", word "P"] exSch94 ex94_rigid (noBulk_of (by decide +kernel))
    ⟨8 * (2 + bs.length), false, [.str 0 0x32 bs]⟩ ?_ (jmem (word "s") (.str bs)) ?_ ?_ (by dsimp only; omega) _ (word "s.il") (word "doc.json") (word "p.bin")
    (writeImage [word "s", word "P"] exSch94.code) (word "{text}")
    (by decide +kernel) (by decide +kernel) (by decide +kernel) ?_ n [] code d' said h
  · unfold exSch94
    simp only [SRec, Rec]
    refine ⟨_, rfl, bs, hn, by simp [Pre.size]; omega, ?_⟩
    simp [P.bytes, up8, Pre.size, Pre.strOp]
    rfl
  · exact .str (b := false) (k := 0) (by decide) hn .nil
  · simp [Items.Distinct, Items.shape, jmem]
  · rfl

/-- A packet of that description without its last bytes is refused by `cnd decode`. -/
example (S : Sys) (bs : List Byte) (hn : NulFree bs) (hu : bs.length < 65536) (cut more : List Byte) (hm : more ≠ [])
    (hp : Encoded S.P.fl (jsonView S.P.fl [word "s", word "P"] fun _ => false) exSch94 ⟨8 * (2 + bs.length), false, [.str 0 0x32 bs]⟩ (cut ++ more))
    (n : Nat) (code : Nat) (d' : Disk) (said : List Byte)
    (h : cndMain S n (disk94 [] cut (writeImage [word "s", word "P"] exSch94.code)) [word "decode", word "s.il", word "doc.json", word "p.bin"]
      = .exit code d' said) :
    code = 1 ∧ d' = disk94 [] cut (writeImage [word "s", word "P"] exSch94.code) :=
  C94_cut_partial S [word "s", word "P"] exSch94 ex94_rigid (noBulk_of (by decide +kernel)) _ cut more hp hm (jmem (word "s") (.str bs))
    (.str (b := false) (k := 0) (by decide) hn .nil) (by simp [Items.Distinct, Items.shape, jmem]) _ (word "s.il") (word "doc.json") (word "p.bin")
    (writeImage [word "s", word "P"] exSch94.code) rfl (by decide +kernel) rfl n code d' said h

/-- Formatting the main file in place does not change what is compiled. -/
example (S : Sys) (bs : List Byte) : ∃ d', (∃ n, cndMain S n (disk94 FmtDemo.src [] []) [word "fmt", word "p.cnd", word "p.cnd"] = .exit 0 d' []) ∧
    ∀ n, (∃ d1, cndMain S n (disk94 FmtDemo.src [] []) [word "compile", word "p.cnd", word "p.il"] = .exit 0 d1 [] ∧
        Put (disk94 FmtDemo.src [] []) (word "p.il") bs d1) ↔
      (∃ d2, cndMain S n d' [word "compile", word "p.cnd", word "p.il"] = .exit 0 d2 [] ∧ Put d' (word "p.il") bs d2) := by
  have hr : (disk94 FmtDemo.src [] []).read (word "p.cnd") = some FmtDemo.src := by decide +kernel
  obtain ⟨toks, ht⟩ := FmtDemo.plain
  obtain ⟨c, d', said, h1, h2, h3⟩ := C94_fmt S 0 (disk94 FmtDemo.src [] []) (word "p.cnd") [word "p.cnd"]
  have hc : c = 0 := h2.2 ⟨by rw [hr]; simp, by
    intro o ho
    cases ho
    decide +kernel⟩
  subst hc
  obtain ⟨_, _, _, _, hs, _⟩ := h3 rfl
  subst hs
  exact ⟨d', ⟨0, h1⟩, fun n => C94_fmt_compile S 0 _ d' (word "p.cnd") FmtDemo.src hr (by unfold NoNul; decide +kernel) toks ht [] h1 n _ _ bs⟩

end Cnd
