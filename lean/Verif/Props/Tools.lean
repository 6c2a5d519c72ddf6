import Verif.CliLoad
import Verif.Props.Image
import Verif.Props.JsonFind
/-
  C64: the tools' loader and the VM's loader see the same program.
  C65: from source text and JSON document to packet and back, with the tools.
-/

namespace Cnd

open Demo

theorem cliNames_app (img rest : List Byte) : ∀ (names : List (List Byte)), (∀ n ∈ names, NulFree n) → ∀ p, img.drop p = strBytes names ++ rest →
    cliNames img names.length p = some names
  | [], _, _, _ => rfl
  | n :: ns, hf, p, h => by
    have hn := hf n (by simp)
    have h' : img.drop p = n ++ 0 :: (strBytes ns ++ rest) := by rw [h]; simp [strBytes]
    have hd : img.drop (p + n.length + 1) = strBytes ns ++ rest := by
      rw [show p + n.length + 1 = p + (n.length + 1) by omega, ← List.drop_drop, h']
      simp
    unfold List.length
    simp only [cliNames, cstrAt_app hn h', cliNames_app img rest ns (fun m hm => hf m (by simp [hm])) _ hd, Option.map_some]

theorem afterNul_cstr : ∀ (l : List Byte) (p : Nat),
    afterNul l p = if (0 : Byte) ∈ l then some (p + (l.takeWhile (· ≠ 0)).length + 1) else none
  | [], _ => by simp [afterNul]
  | b :: bs, p => by
    unfold afterNul
    by_cases hb : b = 0
    · subst hb; simp
    · rw [if_neg hb, afterNul_cstr bs (p + 1)]
      have : (0 : Byte) ∈ b :: bs ↔ (0 : Byte) ∈ bs := by
        rw [List.mem_cons]
        exact ⟨fun h => h.elim (fun e => absurd e.symm hb) id, .inr⟩
      have ht : (b :: bs).takeWhile (· ≠ 0) = b :: bs.takeWhile (· ≠ 0) := by
        rw [List.takeWhile_cons, if_pos (by simpa using hb)]
      by_cases hm : (0 : Byte) ∈ bs
      · rw [if_pos hm, if_pos (this.2 hm)]
        rw [ht, List.length_cons]
        congr 1
        omega
      · rw [if_neg hm, if_neg (fun h => hm (this.1 h))]

theorem cstrAt_after (img : List Byte) (p : Nat) : afterNul (img.drop p) p = (cstrAt img p).map fun s => p + s.length + 1 := by
  rw [afterNul_cstr]
  unfold cstrAt
  split <;> rfl

/-- The tools' table holds the strings the VM's lookup finds. -/
theorem cliNames_look (img : List Byte) : ∀ (n p : Nat) (names : List (List Byte)), cliNames img n p = some names →
    names.length = n ∧ ∀ k, k < n → ∃ q, skipNames img k p = some q ∧ cstrAt img q = names[k]?
  | 0, p, names, h => by
    cases h
    exact ⟨rfl, fun k hk => by omega⟩
  | n + 1, p, names, h => by
    unfold cliNames at h
    split at h
    · cases h
    · rename_i s hs
      cases h' : cliNames img n (p + s.length + 1) with
      | none => rw [h'] at h; cases h
      | some ns =>
        rw [h'] at h
        cases h
        obtain ⟨h1, h2⟩ := cliNames_look img n _ ns h'
        refine ⟨by simp [h1], fun k hk => ?_⟩
        cases k with
        | zero => exact ⟨p, rfl, by simpa using hs⟩
        | succ k =>
          obtain ⟨q, q1, q2⟩ := h2 k (by omega)
          refine ⟨q, ?_, by simpa using q2⟩
          show (afterNul (img.drop p) p).bind (skipNames img k) = _
          rw [cstrAt_after, hs]
          exact q1

/-- Reading the table stays inside the file exactly if that many end marks follow its start. -/
theorem cliNames_none (img : List Byte) : ∀ (n p : Nat), p ≤ img.length → (cliNames img n p = none ↔ (img.drop p).count 0 < n)
  | 0, p, _ => by simp [cliNames]
  | n + 1, p, hp => by
    have ha := afterNul_spec (img.drop p) p
    rw [cstrAt_after] at ha
    unfold cliNames
    rcases ha with ⟨h1, h2⟩ | ⟨q, h1, _, h3, h4, _⟩
    · cases hs : cstrAt img p with
      | some s => rw [hs] at h1; cases h1
      | none => exact ⟨fun _ => by omega, fun _ => rfl⟩
    · cases hs : cstrAt img p with
      | none => rw [hs] at h1; cases h1
      | some s =>
        rw [hs] at h1
        have e : p + s.length + 1 = p + q := by simpa using h1
        rw [List.length_drop] at h3
        have ih := cliNames_none img n (p + q) (by omega)
        rw [List.drop_drop] at h4
        simp only [Option.map_eq_none_iff]
        rw [e, ih]
        omega

theorem cliLoad_of_load {img : List Byte} {pr : Program} (h : loadIl img = .ok pr) :
    cliLoad img = match cliNames img pr.count pr.strOff with
      | none => .ub
      | some names => .ok names pr.code := by
  unfold loadIl at h
  unfold cliLoad
  split at h
  · cases h
  split at h
  · cases h
  split at h
  · cases h
  rename_i h1 h2 h3
  rw [if_neg (fun h => h.elim h1 h2)]
  dsimp only at h ⊢
  split at h
  · cases h
  · rename_i h4
    rw [if_neg h4]
    cases h
    rfl

/-- **C64.** What the compiler writes is loaded by the tools as the names and the bytecode it was given. -/
theorem C64_written (names : List (List Byte)) (code : List Byte) (hf : ∀ n ∈ names, NulFree n) (hc : names.length < 65536)
    (hs : 16 + (strBytes names).length < 2 ^ 32) : cliLoad (writeImage names code) = .ok names code := by
  have hdrop : (writeImage names code).drop 16 = strBytes names ++ code := by
    rw [writeImage_eq, List.drop_append_of_le_length (by simp [headBytes_length]), List.drop_of_length_le (by simp [headBytes_length])]
    rfl
  rw [cliLoad_of_load (load_writeImage names code hs)]
  simp only [Nat.mod_eq_of_lt hc, cliNames_app _ _ names hf 16 hdrop]

/-- **C64.** Whenever both loaders accept a file, they agree: the same bytecode, as many names, and the name of every key is the string the
VM's lookup finds. -/
theorem C64_agree (img : List Byte) (pr : Program) (h : loadIl img = .ok pr) (names : List (List Byte)) (code : List Byte)
    (hc : cliLoad img = .ok names code) :
    code = pr.code ∧ names.length = pr.count ∧ ∀ k, k < pr.count → ∃ q, keyName pr k = .found q ∧ cstrAt pr.image q = names[k]? := by
  rw [cliLoad_of_load h] at hc
  split at hc
  · cases hc
  · rename_i ns hn
    cases hc
    obtain ⟨h1, h2⟩ := cliNames_look img _ _ _ hn
    obtain ⟨e, _⟩ := C36_suffix img pr h
    refine ⟨rfl, h1, fun k hk => ?_⟩
    obtain ⟨q, q1, q2⟩ := h2 k hk
    refine ⟨q, ?_, by rw [e]; exact q2⟩
    unfold keyName
    rw [if_neg (by omega), e, q1]

/-- **C64, exactly when it is defined.** For a file the VM's loader accepts, the tools read outside the file's contents if and only if
fewer end marks follow the start of the string table than the header announces strings. -/
theorem C64_defined_partial (img : List Byte) (pr : Program) (h : loadIl img = .ok pr) :
    cliLoad img = .ub ↔ (img.drop pr.strOff).count 0 < pr.count := by
  obtain ⟨_, _, h3, _⟩ := C36_suffix img pr h
  rw [cliLoad_of_load h, ← cliNames_none img pr.count pr.strOff h3]
  cases cliNames img pr.count pr.strOff <;> simp

/-- **C64 is false for all files.** A file the VM's loader accepts and the tools read beyond; a file of another version, refused by the
VM's loader and accepted by the tools. -/
theorem C64_false : (∃ img pr, loadIl img = .ok pr ∧ cliLoad img = .ub) ∧
    ∃ img, loadIl img = .error .invalidOp ∧ cliLoad img = .ok [] [] := by
  refine ⟨⟨bareImage, ⟨bareImage, 16, 2, []⟩, by decide +kernel, by decide +kernel⟩, bareImage.set 5 2 |>.set 6 0, by decide +kernel, by decide +kernel⟩

example : cliLoad (writeImage threeNames [0x10, 0]) = .ok threeNames [0x10, 0] := by decide +kernel

/-- **C64, Go.** What the compiler writes is loaded by the Go binding as by the VM's loader; anything without the head of an image is taken
as bytecode. -/
theorem C64_go (names : List (List Byte)) (code : List Byte) (data : List Byte) :
    goLoad (writeImage names code) = loadIl (writeImage names code) ∧
    (data ≠ [] → data.take 5 ≠ magic → ∃ pr, goLoad data = .ok pr ∧ pr.code = data ∧ ∀ k, keyName pr k = .none) := by
  constructor
  · unfold goLoad
    have hl : (writeImage names code).length = 16 + (strBytes names).length + code.length := by
      rw [writeImage_eq, List.length_append, List.length_append, headBytes_length]; omega
    rw [if_neg (by omega), if_pos ⟨by omega, by simp [writeImage, magic]⟩]
  · intro h1 h2
    refine ⟨⟨[], 0, 0, data⟩, ?_, rfl, fun k => ?_⟩
    · unfold goLoad
      rw [if_neg (by simpa using h1), if_neg (by simp [h2])]
    · simp [keyName]

/-! ### C65 -/

/-- **C65.** A source program whose description is `f` (after dead-string elimination `f'`, with the names `tab'`), without constants; a record
`q.evs` of `f'`, its document `d` with distinct names. Then: the source compiles; the tools load the image; `cnd encode` with it on `d`
succeeds; `cnd decode` with it on the packet, whatever follows, shows `d`. -/
theorem C65_tools_partial (P : PEnv) (prog : List Item) (tab tab' : List (List Byte)) (f f' : Sch)
    (h : progSch P.dbl P.fl prog = some (tab, f)) (ho : optSch tab f = some (tab', f')) (src : List Byte) (toks : List Tok)
    (hl : Lexes (upToNul src) 1 toks) (ht : toks.map Tok.bare = prog.flatMap Item.toks ++ [eofTok])
    (fuel : Nat) (hf : 16 * src.length + 18 ≤ fuel)
    (hcount : tab.length < 65536) (hsize : 16 + (strBytes tab).length < 2 ^ 32) (hdep : f.depth ≤ 8) (hlen : f.code.length < 2 ^ 31)
    (hB : NoBulk f'.code) (q : Cnd.P) (hrec : SRec P.fl (jsonView P.fl tab' fun _ => false) f' ⟨0, false, []⟩ q)
    (d : Items) (hdoc : DocOf P.fl tab' (fun _ => false) 0 0 false q.evs d) (hd : d.Distinct false) (hbuf : q.pos ≤ 8 * 1024)
    (old : St JSt) :
    ∃ img names code, compile P fuel src = .image img ∧ cliLoad img = .ok names code ∧
      ∃ n se, jsonEncode P.fl names code n old (List.replicate 1024 0) d = .stop .ok se ∧ se.host.ub = false ∧
        8 * se.cursor + se.bit = q.pos ∧ se.bit < 8 ∧
        ∀ (old' : St JSt) (rest : List Byte),
          ∃ sd, jsonDecode P.fl names code n old' (se.packet ++ rest) = .stop .ok sd ∧ sd.host.doc = d ∧ sd.host.ub = false ∧
            sd.cursor = se.cursor ∧ sd.bit = se.bit := by
  obtain ⟨_, hnul, hkeys⟩ := progSch_keys (source_clean hl ht) h
  obtain ⟨hn', hsub, φ, e, hφ⟩ := optSch_names ho (by omega)
  obtain ⟨s1, s2, s3, s4⟩ := optSch_small ho
  have hc := C59_source P prog tab f.code (progSch_code h) src toks hl ht fuel hf
  rw [optSch_code ho] at hc
  refine ⟨_, tab', f'.code, hc, C64_written tab' f'.code (fun x hx => hnul x (hsub x hx)) (by omega) (by omega), ?_⟩
  exact C63_packet_partial P.fl tab' f' (by omega) (by omega) hB q hrec d hdoc hd old _ (by rw [List.length_replicate]; exact hbuf)

/-! ### A program, a record and its document -/

def softP : PEnv := ⟨fun _ => 0, Soft.fl⟩

def exSrc65 : List Byte := word "struct S { u8 kind; if (kind == 1) { u16 val; } }
packet P { u16 id; S items[2]; i32 tail; }"

def exProg65 : List Item :=
  [.decl [] (.struct (word "S") (bodyOf [fieldOf [] "u8" "kind",
     .ite (.node (leafId "kind") (tk .eqEq (word "==")) (leafNum "1")) (bodyOf [fieldOf [] "u16" "val"]) .none])),
   .decl [] (.packet (word "P") (bodyOf [fieldOf [] "u16" "id", fieldOf [] "S" "items" none (.fixed (word "2")), fieldOf [] "i32" "tail"]))]

theorem ex65_lex : (lexAll (exSrc65.length + 1) (exSrc65 ++ [0]) 1).map (fun l => l.map Tok.bare) =
    some (exProg65.flatMap Item.toks ++ [eofTok]) := by
  decide +kernel

def exSch65 (id items kind val tail P : Byte) : Sch :=
  .seq (.fld (.name P 0)) (.seq (.seq (.seq (.fld (.scalar 0x11 id 0)) (.fld .empty)) (.seq (.seq
    (.arrFixed items 0 2 (.struct items 0 (.seq (.seq (.fld (.scalar 0x10 kind 0)) (.fld .empty)) (.seq
      (.ite (.bin .eq (.fld kind 0) (.lit 1)) (.seq (.seq (.fld (.scalar 0x11 val 0)) (.fld .empty)) (.fld .empty)) (.fld .empty)) (.fld .empty)))))
    (.fld .empty)) (.seq (.seq (.fld (.scalar 0x16 tail 0)) (.fld .empty)) (.fld .empty)))) (.fld .empty))

def exTab65 : List (List Byte) := ["id", "items", "items.kind", "items.val", "tail", "P"].map word

theorem ex65_prog : progSch softP.dbl softP.fl exProg65 =
    some (["kind", "val", "id", "items", "items.kind", "items.val", "tail", "P"].map word, exSch65 2 3 4 5 6 7) := by decide +kernel

theorem ex65_opt : optSch (["kind", "val", "id", "items", "items.kind", "items.val", "tail", "P"].map word) (exSch65 2 3 4 5 6 7) =
    some (exTab65, exSch65 0 1 2 3 4 5) := by decide +kernel

def exEvs65 : List Ev :=
  [.num 0 0x11 258, .num 1 0x34 2, .note 1 0x03, .num 2 0x10 1, .num 3 0x11 7, .note 0 0x04, .note 1 0x03, .num 2 0x10 9, .note 0 0x04,
   .note 0 0x38, .num 4 0x16 0xFFFFFFFE]

/-- `{"id": 258, "items": [{"kind": 1, "val": 7}, {"kind": 9}], "tail": -2}` -/
def exDoc65 : Items :=
  .item (word "id") (jnum 258) .nil <|
  .item (word "items") .arr (.item [] .obj (jmem (word "kind") (jnum 1) (jmem (word "val") (jnum 7))) (.item [] .obj (jmem (word "kind") (jnum 9)) .nil)) <|
  .item (word "tail") (.num 0xC000000000000000) .nil .nil

theorem ex65_rec : SRec softP.fl (jsonView softP.fl exTab65 fun _ => false) (exSch65 0 1 2 3 4 5) ⟨0, false, []⟩ ⟨8 * 10, false, exEvs65⟩ := by
  unfold exSch65
  simp only [SRec, Rec]
  refine ⟨_, rfl, ⟨8 * 10, false, exEvs65⟩, ⟨_, ⟨_, ⟨2, 258, rfl, ⟨by decide, by decide⟩, rfl, rfl⟩, rfl⟩, ⟨8 * 6, false, exEvs65.take 10⟩,
    ⟨_, ⟨by decide, rfl, ?_⟩, rfl⟩, _, ⟨_, ⟨4, 0xFFFFFFFE, rfl, ⟨by decide, by decide⟩, rfl, rfl⟩, rfl⟩, rfl⟩, rfl⟩
  unfold ArrBody
  rw [if_neg (by decide)]
  refine ⟨⟨8 * 6, false, exEvs65.take 9⟩, ⟨⟨8 * 5, false, exEvs65.take 6⟩, ⟨⟨8 * 5, false, exEvs65.take 5⟩,
    ⟨_, ⟨_, ⟨1, 1, rfl, ⟨by decide, by decide⟩, rfl, rfl⟩, rfl⟩, _, ⟨1, ⟨by decide +kernel, by decide⟩, by decide +kernel, ?_⟩, rfl⟩, rfl⟩,
    ⟨8 * 6, false, exEvs65.take 9⟩, ⟨⟨8 * 6, false, exEvs65.take 8⟩,
    ⟨_, ⟨_, ⟨1, 9, rfl, ⟨by decide, by decide⟩, rfl, rfl⟩, rfl⟩, _, ⟨0, ⟨by decide +kernel, by decide⟩, by decide +kernel, ?_⟩, rfl⟩, rfl⟩, ?_⟩, rfl⟩
  · rw [if_pos (by decide)]
    exact ⟨_, ⟨_, ⟨2, 7, rfl, ⟨by decide, by decide⟩, rfl, rfl⟩, rfl⟩, rfl⟩
  · rw [if_neg (by decide)]
    rfl
  · simp [Reps, P.bytes, up8]

theorem ex65_doc : DocOf softP.fl exTab65 (fun _ => false) 0 0 false exEvs65 exDoc65 := by
  refine .num (b := false) (k := 0) (op := 0x11) (by decide +kernel) (.inl ⟨by decide +kernel, rfl⟩) ?_
  refine .arr (k := 1) (k' := 0) (op := 0x34) (xs := (exEvs65.drop 2).take 7) (es := exEvs65.drop 10) (by decide) (by decide) rfl
    (fun h => absurd h (by decide)) (fun h => absurd h (by decide)) (fun h => absurd h (by decide)) ?_ ?_
  · refine .struct (b := true) (k := 1) (k' := 0) (xs := (exEvs65.drop 3).take 2) (es := (exEvs65.drop 6).take 3) (by decide) ?_ ?_
    · refine .num (b := false) (k := 2) (op := 0x10) (by decide +kernel) (.inl ⟨by decide +kernel, rfl⟩) ?_
      exact .num (b := false) (k := 3) (op := 0x11) (by decide +kernel) (.inl ⟨by decide +kernel, rfl⟩) .nil
    · refine .struct (b := true) (k := 1) (k' := 0) (xs := (exEvs65.drop 7).take 1) (es := []) (by decide) ?_ .nil
      exact .num (b := false) (k := 2) (op := 0x10) (by decide +kernel) (.inl ⟨by decide +kernel, rfl⟩) .nil
  · exact .num (b := false) (k := 4) (op := 0x16) (by decide +kernel) (.inl ⟨by decide +kernel, rfl⟩) .nil

/-- The example meets the hypotheses. -/
example (fuel : Nat) (hf : 16 * exSrc65.length + 18 ≤ fuel) (old : St JSt) :
    ∃ img names code, compile softP fuel exSrc65 = .image img ∧ cliLoad img = .ok names code ∧
      ∃ n se, jsonEncode softP.fl names code n old (List.replicate 1024 0) exDoc65 = .stop .ok se ∧ se.host.ub = false ∧
        8 * se.cursor + se.bit = 80 ∧ se.bit < 8 ∧
        ∀ (old' : St JSt) (rest : List Byte),
          ∃ sd, jsonDecode softP.fl names code n old' (se.packet ++ rest) = .stop .ok sd ∧ sd.host.doc = exDoc65 ∧ sd.host.ub = false ∧
            sd.cursor = se.cursor ∧ sd.bit = se.bit := by
  obtain ⟨toks, h1, h2⟩ := lexAll_total exSrc65
  have e := ex65_lex
  rw [h2, Option.map_some, Option.some.injEq] at e
  exact C65_tools_partial softP exProg65 _ _ _ _ ex65_prog ex65_opt exSrc65 toks h1 e fuel hf (by decide) (by decide +kernel) (by decide)
    (by decide +kernel) (noBulk_of (by decide +kernel)) _ ex65_rec exDoc65 ex65_doc (by simp [Items.Distinct, exDoc65, Items.shape, jmem]; decide +kernel)
    (by decide) old

end Cnd
