/-
  C62: from the source text to the round trip of records. Compiler (lexer, parser, code generation, dead-string elimination, image
  writer), image loader and VM together.
-/
import Verif.Props.SrcKeys

namespace Cnd

mutual

theorem Sch.mapKeys_depth (φ : Nat → Nat) : ∀ f : Sch, (f.mapKeys φ).depth = f.depth
  | .fld f => by
    have : ∀ f : Fld, (f.mapKeys φ).depth = f.depth := by
      intro f
      induction f <;> simp only [Fld.mapKeys, Fld.depth, *]
    simp only [Sch.mapKeys, Sch.depth, this]
  | .seq a b => by simp only [Sch.mapKeys, Sch.depth, a.mapKeys_depth φ, b.mapKeys_depth φ]
  | .struct _ _ f | .arrFixed _ _ _ f | .arrPre _ _ _ f | .arrDyn _ _ _ _ f => by
    simp only [Sch.mapKeys, Sch.depth, f.mapKeys_depth φ]
  | .opt | .trans .. | .curve .. | .calc .. => by simp only [Sch.mapKeys, Sch.depth]
  | .ite _ a b => by simp only [Sch.mapKeys, Sch.depth, a.mapKeys_depth φ, b.mapKeys_depth φ]
  | .switch _ _ cs => by simp only [Sch.mapKeys, Sch.depth, cs.mapKeys_depth φ]

theorem Cases.mapKeys_depth (φ : Nat → Nat) : ∀ cs : Cases, (cs.mapKeys φ).depth = cs.depth
  | .nil => rfl
  | .cons _ f rest => by simp only [Cases.mapKeys, Cases.depth, f.mapKeys_depth φ, rest.mapKeys_depth φ]

end

theorem strBytes_append (a b : List (List Byte)) : (strBytes (a ++ b)).length = (strBytes a).length + (strBytes b).length := by
  induction a with
  | nil => simp [strBytes]
  | cons x xs ih => simp only [List.cons_append, strBytes, List.length_append, List.length_cons, ih]; omega

/-- Dead-string elimination makes no table larger. -/
theorem optTable_small (marks : List Nat) (rest : List (List Byte)) : ∀ (i : Nat) (new : List (List Byte)),
    (optTable marks i new rest).1.length ≤ new.length + rest.length ∧
    (strBytes (optTable marks i new rest).1).length ≤ (strBytes new).length + (strBytes rest).length := by
  induction rest with
  | nil => intro i new; simp [optTable, strBytes]
  | cons name rest ih =>
    intro i new
    have hc : (strBytes (name :: rest)).length = (strBytes [name]).length + (strBytes rest).length :=
      strBytes_append [name] rest
    simp only [optTable]
    split
    · obtain ⟨h1, h2⟩ := ih (i + 1) (strtabAdd new name).1
      rcases strtabAdd_cases new name with ⟨_, _, _, _, e⟩ | ⟨_, e⟩
      · rw [e] at h1 h2 ⊢
        dsimp only at h1 h2 ⊢
        rw [hc, List.length_cons]
        omega
      · rw [e] at h1 h2 ⊢
        dsimp only at h1 h2 ⊢
        rw [strBytes_append] at h2
        rw [List.length_append] at h1
        rw [hc, List.length_cons]
        simp only [List.length_cons, List.length_nil] at h1
        omega
    · obtain ⟨h1, h2⟩ := ih (i + 1) new
      dsimp only
      rw [hc, List.length_cons]
      omega

theorem optSch_small {tab tab' : List (List Byte)} {f f' : Sch} (h : optSch tab f = some (tab', f')) :
    tab'.length ≤ tab.length ∧ (strBytes tab').length ≤ (strBytes tab).length ∧ f'.code.length = f.code.length ∧ f'.depth = f.depth := by
  unfold optSch at h
  split at h
  · cases h; exact ⟨Nat.le_refl _, Nat.le_refl _, rfl, rfl⟩
  · dsimp only at h
    split at h
    rotate_left
    · obtain ⟨_, _, h⟩ := Option.bind_some_iff h
      cases h; exact ⟨Nat.le_refl _, Nat.le_refl _, rfl, rfl⟩
    rename_i hs
    cases h
    obtain ⟨_, hp, _⟩ := sch_passes _ _ f hs
    obtain ⟨h1, h2⟩ := optTable_small (optMarks f.code.length f.code) tab 0 []
    exact ⟨by simpa using h1, by simpa [strBytes] using h2, hp.len, Sch.mapKeys_depth _ f⟩

/-- What is asked of an image `img` for the description `f` whose keys have the names `name`: it loads; the names of the keys are found
by key, the keys by name; every record that fits `f` is encoded without error when the buffer can hold it, the host giving all of
it, and decoding the packet, whatever follows it, gives the host exactly the record. -/
def RoundTrips (fl : FloatOps) (img : List Byte) (f : Sch) (name : Nat → Option (List Byte)) : Prop :=
  ∃ pr : Program, loadIl img = .ok pr ∧
    (∀ k ∈ f.keys, ∃ n, name k = some n ∧ (∃ q, keyName pr k = .found q ∧ cstrAt pr.image q = some n) ∧ keyId pr n = .found k) ∧
    ∀ (K : View) (q : P), SRec fl K f ⟨0, false, []⟩ q → ∀ (old : St Tape) (buf : List Byte), q.pos ≤ 8 * buf.length →
      ∃ n sf, exec { prog := pr.code, enc := true, host := giver K, fl := fl } n (initSt old buf ⟨[], q.evs⟩) = .stop .ok sf ∧
        sf.host = ⟨q.evs, []⟩ ∧ 8 * sf.cursor + sf.bit = q.pos ∧ sf.bit < 8 ∧ sf.buf.length = buf.length ∧
        ∀ (old' : St (List Ev)) (rest : List Byte),
          ∃ sd, exec { prog := pr.code, enc := false, host := taker K, fl := fl } n (initSt old' (sf.packet ++ rest) []) = .stop .ok sd ∧
            vis K sd.host = q.evs ∧ sd.cursor = sf.cursor ∧ sd.bit = sf.bit ∧ sd.buf = sf.packet ++ rest

theorem round_trips (fl : FloatOps) (tab : List (List Byte)) (f : Sch) (hnul : ∀ x ∈ tab, NulFree x) (hnd : tab.Nodup)
    (hcount : tab.length < 65536) (hsize : 16 + (strBytes tab).length < 2 ^ 32) (hkeys : ∀ k ∈ f.keys, k < tab.length)
    (hdep : f.depth ≤ 8) (hlen : f.code.length < 2 ^ 31) :
    RoundTrips fl (writeImage tab f.code) f (fun k => tab[k]?) := by
  obtain ⟨pr, h1, h2, h3, _, _⟩ := C35_round_trip_partial tab f.code hnul hnd hcount hsize
  refine ⟨pr, h1, fun k hk => ?_, fun K q hrec old buf hbuf => ?_⟩
  · obtain ⟨h, h'⟩ := h3 k (hkeys k hk)
    exact ⟨tab[k]'(hkeys k hk), List.getElem?_eq_getElem _, h, h'⟩
  · rw [h2]
    exact C61_packet K fl f hdep hlen q hrec old buf hbuf

/-! ### Keys under a new numbering -/

theorem keyNum_re (φ : Nat → Nat) (k0 k1 : Byte) (h : φ (keyNum k0 k1) < 65536) :
    keyNum (reLo φ k0 k1) (reHi φ k0 k1) = φ (keyNum k0 k1) := keyNum_lohi _ h

theorem IExpr.mapKeys_keys (φ : Nat → Nat) : ∀ e : IExpr, (∀ k ∈ e.keys, φ k < 65536) → (e.mapKeys φ).keys = e.keys.map φ
  | .lit _, _ => rfl
  | .fld k0 k1, h => by
    simp only [IExpr.mapKeys, IExpr.keys, List.map_cons, List.map_nil]
    rw [keyNum_re φ k0 k1 (h _ (by simp [IExpr.keys]))]
  | .un _ e, h => e.mapKeys_keys φ h
  | .bin _ a b, h => by
    simp only [IExpr.keys, List.mem_append] at h
    simp only [IExpr.mapKeys, IExpr.keys, List.map_append, a.mapKeys_keys φ fun k hk => h k (.inl hk),
      b.mapKeys_keys φ fun k hk => h k (.inr hk)]

theorem Fld.mapKeys_keys (φ : Nat → Nat) (f : Fld) (h : ∀ k ∈ f.keys, φ k < 65536) : (f.mapKeys φ).keys = f.keys.map φ := by
  induction f <;> simp only [Fld.keys, List.mem_append, List.mem_cons] at h
  case seq a b iha ihb =>
    simp only [Fld.mapKeys, Fld.keys, List.map_append, iha fun k hk => h k (.inl hk), ihb fun k hk => h k (.inr hk)]
  case struct k0 k1 f ih =>
    simp only [Fld.mapKeys, Fld.keys, List.map_cons, ih fun k hk => h k (.inr hk), keyNum_re φ k0 k1 (h _ (.inl rfl))]
  case arrFixed k0 k1 n f ih =>
    simp only [Fld.mapKeys, Fld.keys, List.map_cons, ih fun k hk => h k (.inr hk), keyNum_re φ k0 k1 (h _ (.inl rfl))]
  case arrPre p k0 k1 f ih =>
    simp only [Fld.mapKeys, Fld.keys, List.map_cons, ih fun k hk => h k (.inr hk), keyNum_re φ k0 k1 (h _ (.inl rfl))]
  case arrDyn k0 k1 r0 r1 f ih =>
    simp only [Fld.mapKeys, Fld.keys, List.map_cons, ih fun k hk => h k (.inr (.inr hk)), keyNum_re φ k0 k1 (h _ (.inl rfl)),
      keyNum_re φ r0 r1 (h _ (.inr (.inl rfl)))]
  all_goals first
    | rfl
    | (rename_i k0 k1 _ _; simp only [Fld.mapKeys, Fld.keys, List.map_cons, List.map_nil, keyNum_re φ k0 k1 (h _ (.inl rfl))]; done)
    | (rename_i k0 k1 _; simp only [Fld.mapKeys, Fld.keys, List.map_cons, List.map_nil, keyNum_re φ k0 k1 (h _ (.inl rfl))]; done)
    | (rename_i k0 k1; simp only [Fld.mapKeys, Fld.keys, List.map_cons, List.map_nil, keyNum_re φ k0 k1 (h _ (.inl rfl))]; done)

mutual

theorem Sch.mapKeys_keys (φ : Nat → Nat) : ∀ f : Sch, (∀ k ∈ f.keys, φ k < 65536) → (f.mapKeys φ).keys = f.keys.map φ
  | .fld f, h => f.mapKeys_keys φ h
  | .seq a b, h => by
    simp only [Sch.keys, List.mem_append] at h
    simp only [Sch.mapKeys, Sch.keys, List.map_append, a.mapKeys_keys φ fun k hk => h k (.inl hk),
      b.mapKeys_keys φ fun k hk => h k (.inr hk)]
  | .struct k0 k1 f, h => by
    simp only [Sch.keys, List.mem_cons] at h
    simp only [Sch.mapKeys, Sch.keys, List.map_cons, f.mapKeys_keys φ fun k hk => h k (.inr hk), keyNum_re φ k0 k1 (h _ (.inl rfl))]
  | .arrFixed k0 k1 _ f, h => by
    simp only [Sch.keys, List.mem_cons] at h
    simp only [Sch.mapKeys, Sch.keys, List.map_cons, f.mapKeys_keys φ fun k hk => h k (.inr hk), keyNum_re φ k0 k1 (h _ (.inl rfl))]
  | .arrPre _ k0 k1 f, h => by
    simp only [Sch.keys, List.mem_cons] at h
    simp only [Sch.mapKeys, Sch.keys, List.map_cons, f.mapKeys_keys φ fun k hk => h k (.inr hk), keyNum_re φ k0 k1 (h _ (.inl rfl))]
  | .arrDyn k0 k1 r0 r1 f, h => by
    simp only [Sch.keys, List.mem_cons] at h
    simp only [Sch.mapKeys, Sch.keys, List.map_cons, f.mapKeys_keys φ fun k hk => h k (.inr (.inr hk)),
      keyNum_re φ k0 k1 (h _ (.inl rfl)), keyNum_re φ r0 r1 (h _ (.inr (.inl rfl)))]
  | .opt, _ => rfl
  | .trans _ _ _ _ k0 k1, h => by
    simp only [Sch.mapKeys, Sch.keys, List.map_cons, List.map_nil, keyNum_re φ k0 k1 (h _ (by simp [Sch.keys]))]
  | .curve _ _ _ k0 k1, h => by
    simp only [Sch.mapKeys, Sch.keys, List.map_cons, List.map_nil, keyNum_re φ k0 k1 (h _ (by simp [Sch.keys]))]
  | .calc e _ _ k0 k1, h => by
    simp only [Sch.keys, List.mem_append, List.mem_singleton] at h
    simp only [Sch.mapKeys, Sch.keys, List.map_append, List.map_cons, List.map_nil, e.mapKeys_keys φ fun k hk => h k (.inl hk),
      keyNum_re φ k0 k1 (h _ (.inr rfl))]
  | .ite c a b, h => by
    simp only [Sch.keys, List.mem_append] at h
    simp only [Sch.mapKeys, Sch.keys, List.map_append, c.mapKeys_keys φ fun k hk => h k (.inl hk),
      a.mapKeys_keys φ fun k hk => h k (.inr (.inl hk)), b.mapKeys_keys φ fun k hk => h k (.inr (.inr hk))]
  | .switch k0 k1 cs, h => by
    simp only [Sch.keys, List.mem_cons] at h
    simp only [Sch.mapKeys, Sch.keys, List.map_cons, cs.mapKeys_keys φ fun k hk => h k (.inr hk), keyNum_re φ k0 k1 (h _ (.inl rfl))]

theorem Cases.mapKeys_keys (φ : Nat → Nat) : ∀ cs : Cases, (∀ k ∈ cs.keys, φ k < 65536) → (cs.mapKeys φ).keys = cs.keys.map φ
  | .nil, _ => rfl
  | .cons _ f rest, h => by
    simp only [Cases.keys, List.mem_append] at h
    simp only [Cases.mapKeys, Cases.keys, List.map_append, f.mapKeys_keys φ fun k hk => h k (.inl hk),
      rest.mapKeys_keys φ fun k hk => h k (.inr hk)]

end

/-- **C62.** Let the specification give the description `f` for a program, its keys numbering the names `tab`, and `f'` for what
dead-string elimination leaves, with the names `tab'`. Whatever the text of the program looks like, the compiler translates it to an
image that loads; `f'` is `f` with other keys for the same names; and the image carries all records of `f'`. -/
theorem C62_program_partial (P : PEnv) (prog : List Item) (tab tab' : List (List Byte)) (f f' : Sch)
    (h : progSch P.dbl P.fl prog = some (tab, f)) (ho : optSch tab f = some (tab', f')) (src : List Byte) (toks : List Tok)
    (hl : Lexes (upToNul src) 1 toks) (ht : toks.map Tok.bare = prog.flatMap Item.toks ++ [eofTok])
    (fuel : Nat) (hf : 16 * src.length + 18 ≤ fuel)
    (hcount : tab.length < 65536) (hsize : 16 + (strBytes tab).length < 2 ^ 32) (hdep : f.depth ≤ 8) (hlen : f.code.length < 2 ^ 31) :
    ∃ img, compile P fuel src = .image img ∧
      (∃ φ : Nat → Nat, f' = f.mapKeys φ ∧ ∀ k ∈ f.keys, tab[k]? ≠ none ∧ tab'[φ k]? = tab[k]?) ∧
      RoundTrips P.fl img f' (fun k => tab'[k]?) := by
  obtain ⟨_, hnul, hkeys⟩ := progSch_keys (source_clean hl ht) h
  obtain ⟨hn', hsub, φ, e, hφ⟩ := optSch_names ho (by omega)
  obtain ⟨s1, s2, s3, s4⟩ := optSch_small ho
  have hc := C59_source P prog tab f.code (progSch_code h) src toks hl ht fuel hf
  rw [optSch_code ho] at hc
  refine ⟨_, hc, ⟨φ, e, fun k hk => ⟨?_, (hφ k hk (hkeys k hk)).2⟩⟩, ?_⟩
  · rw [List.getElem?_eq_getElem (hkeys k hk)]; simp
  · refine round_trips P.fl tab' f' (fun x hx => hnul x (hsub x hx)) hn' (by omega) (by omega) (fun k' hk' => ?_) (by omega) (by omega)
    rw [e, f.mapKeys_keys φ fun k hk => (hφ k hk (hkeys k hk)).1] at hk'
    obtain ⟨k, hk, rfl⟩ := List.mem_map.1 hk'
    have := (hφ k hk (hkeys k hk)).2
    rw [List.getElem?_eq_getElem (hkeys k hk)] at this
    exact (List.getElem?_eq_some_iff.1 this).1

/-- **C62**, for programs with computed fields: if dead-string elimination meets every id, which is checked on the code, the keys stay
and the image carries all records of the description of the program. -/
theorem C62_all_met_partial (P : PEnv) (prog : List Item) (tab : List (List Byte)) (f : Sch)
    (h : progSch P.dbl P.fl prog = some (tab, f)) (hall : ∀ i, i < tab.length → i ∈ optMarks f.code.length f.code)
    (src : List Byte) (toks : List Tok)
    (hl : Lexes (upToNul src) 1 toks) (ht : toks.map Tok.bare = prog.flatMap Item.toks ++ [eofTok])
    (fuel : Nat) (hf : 16 * src.length + 18 ≤ fuel)
    (hcount : tab.length < 65536) (hsize : 16 + (strBytes tab).length < 2 ^ 32) (hdep : f.depth ≤ 8) (hlen : f.code.length < 2 ^ 31) :
    ∃ img, compile P fuel src = .image img ∧ RoundTrips P.fl img f (fun k => tab[k]?) := by
  obtain ⟨hnd, hnul, hkeys⟩ := progSch_keys (source_clean hl ht) h
  have hc := C59_source P prog tab f.code (progSch_code h) src toks hl ht fuel hf
  rw [C48_all_used tab f.code hnd (by omega) hall] at hc
  exact ⟨_, hc, round_trips P.fl tab f hnul hnd hcount hsize hkeys hdep hlen⟩


/-! ### A program and a record -/

def exSrc62 : List Byte := word "struct S { u8 a; @be u16 b; } // two fields
packet P {
  u8 n;
  S s;
  if (n == 1) { @const(5) u8 z; }
}
"

def exProg62 : List Item :=
  [.decl [] (.struct (word "S") (bodyOf [fieldOf [] "u8" "a", fieldOf [.be false] "u16" "b"])),
   .decl [] (.packet (word "P") (bodyOf [fieldOf [] "u8" "n", fieldOf [] "S" "s",
     .ite (.node (leafId "n") (tk .eqEq (word "==")) (leafNum "1")) (bodyOf [fieldOf [.const true (word "5")] "u8" "z"]) .none]))]

theorem ex62_lex : (lexAll (exSrc62.length + 1) (exSrc62 ++ [0]) 1).map (fun l => l.map Tok.bare) =
    some (exProg62.flatMap Item.toks ++ [eofTok]) := by
  decide +kernel

def exTab62 : List (List Byte) := ["a", "b", "n", "s", "s.a", "s.b", "z", "P"].map word

def exSch62 (a b n s sa sb z P : Byte) : Sch :=
  let _ := (a, b)
  .seq (.fld (.name P 0)) (.seq (.seq (.seq (.fld (.scalar 0x10 n 0)) (.fld .empty))
    (.seq (.seq (.struct s 0 (.seq (.seq (.fld (.scalar 0x10 sa 0)) (.fld .empty))
        (.seq (.seq (.fld .setBE) (.seq (.fld (.scalar 0x11 sb 0)) (.seq (.fld .setLE) (.fld .empty)))) (.fld .empty)))) (.fld .empty))
      (.seq (.ite (.bin .eq (.fld n 0) (.lit 1)) (.seq (.seq (.fld (.const .u8 z 0 5)) (.fld .empty)) (.fld .empty)) (.fld .empty))
        (.fld .empty)))) (.fld .empty))

deriving instance DecidableEq for CrcPar, Fld, IExpr, Sch, Cases

theorem ex62_prog : progSch demoP.dbl demoP.fl exProg62 = some (exTab62, exSch62 0 1 2 3 4 5 6 7) := by decide +kernel

/-- The names of the struct's own fields are dropped: the packet uses `s.a` and `s.b`. -/
theorem ex62_opt : optSch exTab62 (exSch62 0 1 2 3 4 5 6 7) =
    some (["n", "s", "s.a", "s.b", "z", "P"].map word, exSch62 0 0 0 1 2 3 4 5) := by decide +kernel

/-- The example meets the hypotheses of the theorem. -/
example (fuel : Nat) (hf : 16 * exSrc62.length + 18 ≤ fuel) :
    ∃ img, compile demoP fuel exSrc62 = .image img ∧
      RoundTrips demoP.fl img (exSch62 0 0 0 1 2 3 4 5) (fun k => (["n", "s", "s.a", "s.b", "z", "P"].map word)[k]?) := by
  obtain ⟨toks, h1, h2⟩ := lexAll_total exSrc62
  have e := ex62_lex
  rw [h2, Option.map_some, Option.some.injEq] at e
  obtain ⟨img, hi, _, hr⟩ := C62_program_partial demoP exProg62 _ _ _ _ ex62_prog ex62_opt exSrc62 toks h1 e fuel hf (by decide) (by decide +kernel)
    (by decide) (by decide +kernel)
  exact ⟨img, hi, hr⟩

/-- And there is a record for it: `n = 1`, `s = {a = 7, b = 0x102}`, five bytes. -/
example (fl : FloatOps) : SRec fl (.plain fun k => k == 4) (exSch62 0 0 0 1 2 3 4 5) ⟨0, false, []⟩
    ⟨8 * 5, false, [.num 0 0x10 1, .note 1 0x03, .num 2 0x10 7, .num 3 0x11 0x102, .note 0 0x04]⟩ := by
  unfold exSch62
  simp only [SRec, Rec]
  refine ⟨_, rfl, _, ⟨_, ⟨_, ⟨1, 1, rfl, ⟨by decide, by decide⟩, rfl, rfl⟩, rfl⟩, _, ⟨_, ⟨_, ⟨_, ⟨_, ⟨1, 7, rfl, ⟨by decide, by decide⟩, rfl, rfl⟩, rfl⟩,
    _, ⟨_, ⟨by decide, rfl⟩, _, ⟨2, 0x102, rfl, ⟨by decide, by decide⟩, rfl, rfl⟩, _, ⟨by decide, rfl⟩, rfl⟩, rfl⟩, rfl⟩, rfl⟩, _,
    ⟨1, ⟨by decide, by decide⟩, by decide, ?_⟩, rfl⟩, rfl⟩
  rw [if_pos (by decide)]
  exact ⟨_, ⟨_, ⟨by decide, rfl, rfl⟩, rfl⟩, rfl⟩

def exSrc62b : List Byte := word "packet P { u8 n; @expr(n * 2) u8 m; }"

def exProg62b : List Item :=
  [.decl [] (.packet (word "P") (bodyOf [fieldOf [] "u8" "n",
     fieldOf [.expr (.node (leafId "n") (tk .star (word "*")) (leafNum "2"))] "u8" "m"]))]

theorem ex62b_lex : (lexAll (exSrc62b.length + 1) (exSrc62b ++ [0]) 1).map (fun l => l.map Tok.bare) =
    some (exProg62b.flatMap Item.toks ++ [eofTok]) := by
  decide +kernel

def exTab62b : List (List Byte) := ["n", "m", "P"].map word

def exSch62b : Sch :=
  .seq (.fld (.name 2 0)) (.seq (.seq (.seq (.fld (.scalar 0x10 0 0)) (.fld .empty))
    (.seq (.seq (.calc (.bin .mul (.fld 0 0) (.lit 2)) false 0x10 1 0) (.fld .empty)) (.fld .empty))) (.fld .empty))

theorem ex62b_prog : progSch demoP.dbl demoP.fl exProg62b = some (exTab62b, exSch62b) := by decide +kernel

/-- The example meets the hypotheses of `C62_all_met_partial`. -/
example (fuel : Nat) (hf : 16 * exSrc62b.length + 18 ≤ fuel) :
    ∃ img, compile demoP fuel exSrc62b = .image img ∧ RoundTrips demoP.fl img exSch62b (fun k => exTab62b[k]?) := by
  obtain ⟨toks, h1, h2⟩ := lexAll_total exSrc62b
  have e := ex62b_lex
  rw [h2, Option.map_some, Option.some.injEq] at e
  exact C62_all_met_partial demoP exProg62b _ _ ex62b_prog (by decide +kernel) exSrc62b toks h1 e fuel hf (by decide) (by decide +kernel)
    (by decide) (by decide +kernel)

/-- A record for it: `n = 100`, and `m` is 200. -/
example (fl : FloatOps) : SRec fl (.plain fun _ => false) exSch62b ⟨0, false, []⟩ ⟨8 * 2, false, [.num 0 0x10 100, .num 1 0x78 200]⟩ := by
  unfold exSch62b
  simp only [SRec, Rec]
  exact ⟨_, rfl, _, ⟨_, ⟨_, ⟨1, 100, rfl, ⟨by decide, by decide⟩, rfl, rfl⟩, rfl⟩, _,
    ⟨_, ⟨1, 200, rfl, ⟨by decide, by decide⟩, by decide, by decide, rfl, rfl, rfl⟩, rfl⟩, rfl⟩, rfl⟩

/-- A computed field, a polynomial, a spline and a scaled float in one program. -/
def exSrc62c : List Byte := word "packet P { u8 n; @expr(n * 2) u8 m; @poly(3, 2) u8 x; @be @spline(0, 5, 10, 25, 20, 125) u16 y; @scale(4) @offset(1) double z; }"

def exProg62c : List Item :=
  [.decl [] (.packet (word "P") (bodyOf [fieldOf [] "u8" "n",
     fieldOf [.expr (.node (leafId "n") (tk .star (word "*")) (leafNum "2"))] "u8" "m",
     fieldOf [.poly (word "3") [word "2"]] "u8" "x",
     fieldOf [.be false, .spline (word "0", word "5") [(word "10", word "25"), (word "20", word "125")]] "u16" "y",
     fieldOf [.scale (word "4"), .offset (word "1")] "double" "z"]))]

theorem ex62c_lex : (lexAll (exSrc62c.length + 1) (exSrc62c ++ [0]) 1).map (fun l => l.map Tok.bare) =
    some (exProg62c.flatMap Item.toks ++ [eofTok]) := by
  decide +kernel

def exTab62c : List (List Byte) := ["n", "m", "x", "y", "z", "P"].map word

def exSch62c : Sch :=
  .seq (.fld (.name 5 0)) (.seq (.seq (.seq (.fld (.scalar 0x10 0 0)) (.fld .empty))
    (.seq (.seq (.calc (.bin .mul (.fld 0 0) (.lit 2)) false 0x10 1 0) (.fld .empty))
    (.seq (.seq (.curve (.poly [3, 2]) false (.int .u8) 2 0) (.fld .empty))
    (.seq (.seq (.curve (.spline [0, 5, 10, 25, 20, 125]) true (.int .u16) 3 0) (.seq (.fld .setLE) (.fld .empty)))
    (.seq (.seq (.curve (.scale 4 1) false (.flt true) 4 0) (.fld .empty)) (.fld .empty)))))) (.fld .empty))

/-- Whole numbers for doubles. -/
def wholeP : PEnv := ⟨fun t => (parseU32 t).setWidth 64, Demo.whole⟩

theorem ex62c_prog : progSch wholeP.dbl wholeP.fl exProg62c = some (exTab62c, exSch62c) := by decide +kernel

/-- Behind the computed field dead-string elimination falls out of step, but it has no string to drop. -/
theorem ex62c_opt : optSch exTab62c exSch62c = some (exTab62c, exSch62c) := by decide +kernel

example (fuel : Nat) (hf : 16 * exSrc62c.length + 18 ≤ fuel) :
    ∃ img, compile wholeP fuel exSrc62c = .image img ∧ RoundTrips wholeP.fl img exSch62c (fun k => exTab62c[k]?) := by
  obtain ⟨toks, h1, h2⟩ := lexAll_total exSrc62c
  have e := ex62c_lex
  rw [h2, Option.map_some, Option.some.injEq] at e
  obtain ⟨img, hi, _, hr⟩ := C62_program_partial wholeP exProg62c _ _ _ _ ex62c_prog ex62c_opt exSrc62c toks h1 e fuel hf (by decide)
    (by decide +kernel) (by decide) (by decide +kernel)
  exact ⟨img, hi, hr⟩

/-! ### Counterexample: where dead-string elimination falls out of step -/

def exSrc62f : List Byte := word "struct S { u8 a; } packet P { S s; @expr(69632) u32 x; }"

def exProg62f : List Item :=
  [.decl [] (.struct (word "S") (bodyOf [fieldOf [] "u8" "a"])),
   .decl [] (.packet (word "P") (bodyOf [fieldOf [] "S" "s", fieldOf [.expr (leafNum "69632")] "u32" "x"]))]

theorem ex62f_lex : (lexAll (exSrc62f.length + 1) (exSrc62f ++ [0]) 1).map (fun l => l.map Tok.bare) =
    some (exProg62f.flatMap Item.toks ++ [eofTok]) := by
  decide +kernel

def exTab62f : List (List Byte) := ["a", "s", "s.a", "x", "P"].map word

/-- The packet the source describes: `x` is 69632. -/
def exSch62f : Sch :=
  .seq (.fld (.name 4 0)) (.seq (.seq (.seq (.struct 1 0 (.seq (.seq (.fld (.scalar 0x10 2 0)) (.fld .empty)) (.fld .empty))) (.fld .empty))
    (.seq (.seq (.calc (.lit 69632) false 0x12 3 0) (.fld .empty)) (.fld .empty))) (.fld .empty))

theorem ex62f_prog : progSch demoP.dbl demoP.fl exProg62f = some (exTab62f, exSch62f) := by decide +kernel
def exCode62f : List Byte :=
  [0x07, 3, 0, 0x03, 0, 0, 0x10, 1, 0, 0x04, 0x61, 0, 0x10, 0, 0, 0, 0, 0, 0, 0x64, 0x78, 2, 0, 0x65, 0x12]

/-- A context as `memset` leaves it. -/
def zeroSt {σ : Type} (h : σ) : St σ := ⟨[], 0, 0, 0, false, .none, 0, 0, 0, 0, 0, 0, 0, false, [], [], h⟩

def invalidB {σ : Type} : Res σ → Bool
  | .stop .validation _ => true
  | _ => false

def wroteB {σ : Type} (b : List Byte) : Res σ → Bool
  | .stop .ok s => decide (s.buf = b)
  | _ => false

theorem invalidB_iff {σ : Type} {r : Res σ} (h : invalidB r = true) : ∃ s, r = .stop .validation s := by
  unfold invalidB at h
  split at h
  · exact ⟨_, rfl⟩
  · cases h

theorem wroteB_iff {σ : Type} {b : List Byte} {r : Res σ} (h : wroteB b r = true) : ∃ s, r = .stop .ok s ∧ s.buf = b := by
  unfold wroteB at h
  split at h
  · exact ⟨_, rfl, of_decide_eq_true h⟩
  · cases h

/-- **The round trip fails for some programs.** `x` is 69632 in the source, and `s.a = 7`, `x = 69632` is a record of the packet in the
bytes 07 00 10 01 00. In the compiled image the constant is 4096, because dead-string elimination takes bytes of the
constant for a field with a name to renumber: the image refuses those bytes, and a packet it encodes has 4096 for `x`. -/
theorem C62_false_constant :
    SRec demoP.fl (.plain fun _ => false) exSch62f ⟨0, false, []⟩
      ⟨8 * 5, false, [.note 1 0x03, .num 2 0x10 7, .note 0 0x04, .num 3 0x78 69632]⟩ ∧
    ∃ img pr, (∀ fuel, 16 * exSrc62f.length + 18 ≤ fuel → compile demoP fuel exSrc62f = .image img) ∧ loadIl img = .ok pr ∧
      (∃ s, exec { prog := pr.code, enc := false, host := taker (.plain fun _ => false), fl := demoP.fl } 100
        (initSt (zeroSt []) [7, 0, 0x10, 1, 0] []) = .stop .validation s) ∧
      ∃ s, exec { prog := pr.code, enc := true, host := giver (.plain fun _ => false), fl := demoP.fl } 100
        (initSt (zeroSt ⟨[], []⟩) [0, 0, 0, 0, 0] ⟨[], [.note 0 0x03, .num 1 0x10 7, .note 0 0x04, .num 2 0x78 4096]⟩) = .stop .ok s ∧
        s.buf = [7, 0, 0x10, 0, 0] := by
  constructor
  · unfold exSch62f
    simp only [SRec, Rec]
    exact ⟨_, rfl, _, ⟨_, ⟨_, ⟨_, ⟨_, ⟨_, ⟨1, 7, rfl, ⟨by decide, by decide⟩, rfl, rfl⟩, rfl⟩, rfl⟩, rfl⟩, rfl⟩, _,
      ⟨_, ⟨4, 69632, rfl, ⟨by decide, by decide⟩, by decide, by decide, by decide, rfl, rfl⟩, rfl⟩, rfl⟩, rfl⟩
  · obtain ⟨toks, h1, h2⟩ := lexAll_total exSrc62f
    have e := ex62f_lex
    rw [h2, Option.map_some, Option.some.injEq] at e
    have ho : optimizeStrings exTab62f exSch62f.code = (["s", "s.a", "x", "P"].map word, exCode62f) := by decide +kernel
    obtain ⟨pr, p1, p2, _⟩ := C35_round_trip_partial (["s", "s.a", "x", "P"].map word) exCode62f (by unfold NulFree; decide +kernel) (by decide +kernel)
      (by decide) (by decide +kernel)
    refine ⟨_, pr, fun fuel hf => ?_, p1, ?_, ?_⟩
    · have hc := C59_source demoP exProg62f exTab62f exSch62f.code (progSch_code ex62f_prog) exSrc62f toks h1 e fuel hf
      rw [ho] at hc
      exact hc
    · rw [p2]
      exact invalidB_iff (by decide +kernel)
    · rw [p2]
      exact wroteB_iff (by decide +kernel)

/-- **Polynomials are not applied to float fields.** `@poly(3, 2)` makes 11 of the 4 in an integer field. Of the same 4 in a float field it makes
the integer 4: the VM treats every transform of a float field but `@scale` as one on integers, and has none for polynomials there
(vm_exec.c 232-262). (In `Demo.whole` the bits of a double are those of the whole number.) -/
theorem C61_float_poly_false :
    compile wholeP 1000 (word "packet P { @poly(3, 2) f64 x; }") =
      .image (writeImage [word "x", word "P"] ([7, 1, 0] ++ [0x4C, 2] ++ leBytes 8 3 ++ leBytes 8 2 ++ [0x19, 0, 0])) ∧
    Demo.obs (exec { Demo.env ([7, 1, 0] ++ [0x4C, 2] ++ leBytes 8 3 ++ leBytes 8 2 ++ [0x19, 0, 0]) false with fl := Demo.whole } 99
      (Demo.start [4, 0, 0, 0, 0, 0, 0, 0] {})) = .stopped .ok [4, 0, 0, 0, 0, 0, 0, 0] 8 0 { log := [(0, 0x17, 4)] } ∧
    Demo.obs (exec { Demo.env ([7, 1, 0] ++ [0x4C, 2] ++ leBytes 8 3 ++ leBytes 8 2 ++ [0x10, 0, 0]) false with fl := Demo.whole } 99
      (Demo.start [4] {})) = .stopped .ok [4] 1 0 { log := [(0, 0x19, 11)] } := by
  refine ⟨by decide +kernel, by decide +kernel, by decide +kernel⟩

end Cnd
