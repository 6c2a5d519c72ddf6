/-
  C47: inlining a struct body under a prefix.
-/
import Verif.CompUtil
import Verif.Walk
import Verif.Code
import Verif.Props.Names

namespace Cnd

/-! ### Specification -/

/-- VM instructions whose first operand is a key (the name of a field). -/
def Op.keyed : Op → Bool
  | .enterStruct | .metaName | .io _ | .ioF32 | .ioF64 | .ioBool | .bitU | .bitI | .bitBool | .strNull | .strPre _ | .arrFixed
  | .arrPre _ | .arrEof | .arrDynamic | .rawBytes | .constCheck | .switch | .switchTable | .loadCtx | .storeCtx => true
  | _ => false

/-- Opcodes at which renaming stops: from there on the body is copied unchanged. They are all opcodes of checks and transforms, the
jump-table switch, and the bytes that are no instruction, except SWAP (0x63). -/
def opStops (op : Byte) : Bool :=
  match decodeOp op with
  | .constCheck | .constWrite | .rangeCheck | .scaleLin | .crc16 | .crc32 | .transI _ | .markOptional | .enumCheck | .transPoly
  | .transSpline | .switchTable => true
  | .other => op ≠ 0x63
  | _ => false

/-- `out` is the body `src` with every key replaced by one that stands, in the table `new`, for the prefixed name of the old
key; instruction boundaries are those of the VM, and everything else is unchanged. -/
inductive Inlined (pre : List Byte) (old new : List (List Byte)) : List Byte → List Byte → Prop
  | nil : Inlined pre old new [] []
  | plain {op args r r'} : vmLen (op :: (args ++ r)) = some (args.length + 1) → (decodeOp op).keyed = false →
      Inlined pre old new r r' → Inlined pre old new (op :: (args ++ r)) (op :: (args ++ r'))
  | key {op k0 k1 k0' k1' args r r' name} : vmLen (op :: k0 :: k1 :: (args ++ r)) = some (args.length + 3) →
      (decodeOp op).keyed = true → old[keyNum k0 k1]? = some name → new[keyNum k0' k1']? = some (pre ++ 0x2E :: name) →
      Inlined pre old new r r' → Inlined pre old new (op :: k0 :: k1 :: (args ++ r)) (op :: k0' :: k1' :: (args ++ r'))
  | rest {op r} : opStops op = true → Inlined pre old new (op :: r) (op :: r)

/-- A straight-line struct body: complete instructions up to the first at which renaming stops; no META_VERSION; every key is in the
table and its prefixed name is shorter than 512 bytes. -/
inductive InlineBody (pre : List Byte) (old : List (List Byte)) : List Byte → Prop
  | nil : InlineBody pre old []
  | plain {op args r} : vmLen (op :: (args ++ r)) = some (args.length + 1) → (decodeOp op).keyed = false → decodeOp op ≠ .metaVersion →
      opStops op = false → InlineBody pre old r → InlineBody pre old (op :: (args ++ r))
  | key {op k0 k1 args r name} : vmLen (op :: k0 :: k1 :: (args ++ r)) = some (args.length + 3) →
      (decodeOp op).keyed = true → opStops op = false → old[keyNum k0 k1]? = some name →
      pre.length + 1 + name.length < 512 → InlineBody pre old r → InlineBody pre old (op :: k0 :: k1 :: (args ++ r))
  | rest {op r} : opStops op = true → InlineBody pre old (op :: r)

/-! ### Sizes -/

/-- The compiler's table of instruction sizes and the VM's layout. -/
theorem inlineSize_table (op : Byte) (h : decodeOp op ≠ .metaVersion) :
    inlineSize op = if opStops op then none else (opArgs (decodeOp op) []).map fun n => (n + 1, (decodeOp op).keyed) := by
  have key : ∀ m : Fin 256, decodeOp (BitVec.ofFin m) ≠ .metaVersion → inlineSize (BitVec.ofFin m) =
      if opStops (BitVec.ofFin m) then none else
        (opArgs (decodeOp (BitVec.ofFin m)) []).map fun n => (n + 1, (decodeOp (BitVec.ofFin m)).keyed) := by decide +kernel
  exact key op.toFin h

theorem inlineArgs_fixed (op : Byte) (r : List Byte) (h : opStops op = false) : opArgs (decodeOp op) r = opArgs (decodeOp op) [] := by
  unfold opStops at h
  revert h
  cases decodeOp op <;> intro h <;> first | rfl | (cases h; done)

/-- A complete instruction of the VM, not one at which renaming stops, has the size the compiler thinks. -/
theorem inlineSize_vm (op : Byte) (l : List Byte) (n : Nat) (h : decodeOp op ≠ .metaVersion) (hs : opStops op = false)
    (hv : vmLen (op :: l) = some n) : inlineSize op = some (n, (decodeOp op).keyed) ∧ n ≤ l.length + 1 := by
  rw [inlineSize_table op h, hs]
  unfold vmLen at hv
  dsimp only at hv
  rw [inlineArgs_fixed _ _ hs] at hv
  cases ho : opArgs (decodeOp op) [] with
  | none => rw [ho] at hv; cases hv
  | some m =>
    rw [ho] at hv
    dsimp only at hv
    split at hv
    · cases hv; exact ⟨rfl, by omega⟩
    · cases hv

theorem inlineSize_pos (op : Byte) (n : Nat) (b : Bool) (h : inlineSize op = some (n, b)) : 1 ≤ n ∧ (b = true → 3 ≤ n) := by
  have key : ∀ m : Fin 256, ∀ x ∈ (inlineSize (BitVec.ofFin m)).toList, 1 ≤ x.1 ∧ (x.2 = true → 3 ≤ x.1) := by decide +kernel
  exact key op.toFin (n, b) (by show _ ∈ (inlineSize op).toList; rw [h]; simp)

/-! ### Theorems -/

theorem prefix_getElem {α : Type} {a b : List α} {i : Nat} {x : α} (h : a <+: b) (hx : a[i]? = some x) : b[i]? = some x := by
  obtain ⟨c, rfl⟩ := h
  rw [List.getElem?_append_left]
  · exact hx
  · exact (List.getElem?_eq_some_iff.mp hx).1

/-- C47, length. Whatever the body is, inlining does not change its length, and the string table only grows. -/
theorem C47_length (pre : List Byte) (fuel : Nat) (tab : List (List Byte)) (src out : List Byte) (tab' : List (List Byte))
    (h : inlineCode pre fuel tab src = some (out, tab')) : out.length = src.length ∧ tab <+: tab' := by
  induction fuel generalizing tab src out tab' with
  | zero => cases h; exact ⟨rfl, List.prefix_refl _⟩
  | succ fuel ih =>
    unfold inlineCode at h
    split at h
    · cases h; exact ⟨rfl, List.prefix_refl _⟩
    · next op r =>
      split at h
      · cases h; exact ⟨rfl, List.prefix_refl _⟩
      · next size hasKey hsz =>
        obtain ⟨p1, p2⟩ := inlineSize_pos op size hasKey hsz
        split at h
        · cases h; exact ⟨rfl, List.prefix_refl _⟩
        · next hlen =>
          split at h
          · next hk =>
            have p3 := p2 hk
            split at h
            · cases h
            · next name hname =>
              simp only [Option.map_eq_some_iff] at h
              obtain ⟨⟨q, qt⟩, hq, he⟩ := h
              cases he
              obtain ⟨i1, i2⟩ := ih _ _ _ _ hq
              constructor
              · simp only [List.cons_append, List.length_cons, List.length_append, leBytes_length, i1, List.length_take,
                  List.length_drop]
                simp only [List.length_cons] at hlen
                omega
              · refine List.IsPrefix.trans ?_ i2
                rcases strtabAdd_cases tab name with ⟨i, _, _, _, e⟩ | ⟨_, e⟩
                · rw [e]; exact List.prefix_refl _
                · rw [e]; exact List.prefix_append ..
          · simp only [Option.map_eq_some_iff] at h
            obtain ⟨⟨q, qt⟩, hq, he⟩ := h
            cases he
            obtain ⟨i1, i2⟩ := ih _ _ _ _ hq
            refine ⟨?_, i2⟩
            simp only [List.length_append, i1, List.length_take, List.length_drop]
            omega

theorem Inlined.mono {pre : List Byte} {old new new' : List (List Byte)} {a b : List Byte} (h : Inlined pre old new a b)
    (hp : new <+: new') : Inlined pre old new' a b := by
  induction h with
  | nil => exact .nil
  | plain h1 h2 _ ih => exact .plain h1 h2 ih
  | key h1 h2 h3 h4 _ ih => exact .key h1 h2 h3 (prefix_getElem hp h4) ih
  | rest h => exact .rest h

/-- C47, contents, for straight-line bodies: the inlined body has the same instructions at the same places, each key renamed to the
prefixed name and nothing else changed, up to the first instruction the compiler's table of sizes does not know; the remainder
is an unchanged copy. Missing: switch tables inside the body and META_VERSION (false, see below). -/
theorem C47_inline_partial (pre : List Byte) (old : List (List Byte)) (src : List Byte) (hb : InlineBody pre old src)
    (hn : old.length + src.length ≤ 65536) :
    ∃ out new, inlineCode pre src.length old src = some (out, new) ∧ old <+: new ∧ Inlined pre old new src out := by
  have key : ∀ (fuel : Nat) (tab : List (List Byte)), src.length ≤ fuel → old <+: tab → tab.length + src.length ≤ 65536 →
      ∃ out new, inlineCode pre fuel tab src = some (out, new) ∧ tab <+: new ∧ Inlined pre old new src out := by
    clear hn
    induction hb with
    | nil =>
      intro fuel tab _ _ _
      refine ⟨[], tab, ?_, List.prefix_refl _, .nil⟩
      cases fuel <;> rfl
    | @plain op args r h1 h2 h3 h4 _ ih =>
      intro fuel tab hf hp hl
      simp only [List.length_cons, List.length_append] at hf hl
      obtain ⟨fuel, rfl⟩ : ∃ f, fuel = f + 1 := ⟨fuel - 1, by omega⟩
      obtain ⟨s1, s2⟩ := inlineSize_vm op _ _ h3 h4 h1
      obtain ⟨out, new, i1, i2, i3⟩ := ih fuel tab (by omega) hp (by omega)
      refine ⟨op :: (args ++ out), new, ?_, i2, .plain h1 h2 i3⟩
      unfold inlineCode
      dsimp only
      rw [s1]
      dsimp only
      rw [if_neg (by simp only [List.length_cons, List.length_append]; omega), h2, if_neg (by simp)]
      have e1 : (op :: (args ++ r)).drop (args.length + 1) = r := by simp
      have e2 : (op :: (args ++ r)).take (args.length + 1) = op :: args := by simp
      rw [e1, e2, i1]
      rfl
    | @key op k0 k1 args r name h1 h2 h4 h5 h6 _ ih =>
      intro fuel tab hf hp hl
      simp only [List.length_cons, List.length_append] at hf hl
      obtain ⟨fuel, rfl⟩ : ∃ f, fuel = f + 1 := ⟨fuel - 1, by omega⟩
      have h3 : decodeOp op ≠ .metaVersion := by intro e; rw [e] at h2; cases h2
      obtain ⟨s1, s2⟩ := inlineSize_vm op _ _ h3 h4 h1
      have htab : tab[keyNum k0 k1]? = some name := prefix_getElem hp h5
      have hadd : tab <+: (strtabAdd tab (pre ++ 0x2E :: name)).1 ∧
          (strtabAdd tab (pre ++ 0x2E :: name)).1.length ≤ tab.length + 1 ∧
          (strtabAdd tab (pre ++ 0x2E :: name)).1[(strtabAdd tab (pre ++ 0x2E :: name)).2]? = some (pre ++ 0x2E :: name) ∧
          (strtabAdd tab (pre ++ 0x2E :: name)).2 < 65536 := by
        rcases strtabAdd_cases tab (pre ++ 0x2E :: name) with ⟨i, hi, g1, _, e⟩ | ⟨_, e⟩
        · rw [e]
          dsimp only
          rw [Nat.mod_eq_of_lt (by omega)]
          exact ⟨List.prefix_refl _, by omega, g1, by omega⟩
        · rw [e]
          dsimp only
          rw [Nat.mod_eq_of_lt (by omega)]
          exact ⟨List.prefix_append .., by simp, by simp, by omega⟩
      obtain ⟨a1, a2, a3, a4⟩ := hadd
      obtain ⟨out, new, i1, i2, i3⟩ := ih fuel (strtabAdd tab (pre ++ 0x2E :: name)).1 (by omega) (hp.trans a1) (by omega)
      obtain ⟨k0', k1', hk⟩ : ∃ k0' k1', leBytes 2 (BitVec.ofNat 64 (strtabAdd tab (pre ++ 0x2E :: name)).2) = [k0', k1'] :=
        ⟨_, _, rfl⟩
      have hkn : keyNum k0' k1' = (strtabAdd tab (pre ++ 0x2E :: name)).2 := by
        rw [← leWord_key, ← hk, leWord_leBytes_lt (by omega) (by rw [BitVec.toNat_ofNat]; omega), BitVec.toNat_ofNat]
        omega
      refine ⟨op :: k0' :: k1' :: (args ++ out), new, ?_, a1.trans i2, .key h1 h2 h5 ?_ i3⟩
      · unfold inlineCode
        dsimp only
        rw [s1]
        dsimp only
        rw [if_neg (by simp only [List.length_cons, List.length_append]; omega), h2, if_pos rfl]
        have e0 : ((op :: k0 :: k1 :: (args ++ r)).drop 1).take 2 = [k0, k1] := rfl
        have e1 : (op :: k0 :: k1 :: (args ++ r)).drop (args.length + 3) = r := by simp
        have e2 : ((op :: k0 :: k1 :: (args ++ r)).drop 3).take (args.length + 3 - 3) = args := by simp
        have e3 : prefixedName pre tab (keyNum k0 k1) = some (pre ++ 0x2E :: name) := by
          unfold prefixedName
          dsimp only
          rw [List.getD_eq_getElem?_getD, htab]
          exact if_pos h6
        rw [e0, leWord_key, e3]
        dsimp only
        rw [e1, e2, i1, hk]
        simp
      · rw [hkn]
        exact prefix_getElem i2 a3
    | @rest op r h =>
      intro fuel tab hf hp hl
      simp only [List.length_cons] at hf
      obtain ⟨fuel, rfl⟩ : ∃ f, fuel = f + 1 := ⟨fuel - 1, by omega⟩
      refine ⟨op :: r, tab, ?_, List.prefix_refl _, .rest h⟩
      unfold inlineCode
      dsimp only
      rw [inlineSize_table op (by intro e; unfold opStops at h; rw [e] at h; cases h), h]
      rfl
  obtain ⟨out, new, h1, h2, h3⟩ := key src.length old (Nat.le_refl _) (List.prefix_refl _) hn
  exact ⟨out, new, h1, h2, h3⟩

/-- The body `u8 x; u16 y[2]; @optional u8 x` under the prefix `s`. -/
example : InlineBody [0x73] [[0x78], [0x79]] [0x10, 0, 0, 0x34, 1, 0, 2, 0, 0, 0, 0x11, 1, 0, 0x38, 0x4A, 0x10, 0, 0] :=
  .key (args := []) (by decide +kernel) (by decide +kernel) (by decide +kernel) rfl (by decide)
    (.key (args := [2, 0, 0, 0]) (by decide +kernel) (by decide +kernel) (by decide +kernel) rfl (by decide)
      (.key (args := []) (by decide +kernel) (by decide +kernel) (by decide +kernel) rfl (by decide)
        (.plain (args := []) (by decide +kernel) (by decide +kernel) (by decide +kernel) (by decide +kernel)
          (.rest (by decide +kernel)))))

example : inlineCode [0x73] 18 [[0x78], [0x79]] [0x10, 0, 0, 0x34, 1, 0, 2, 0, 0, 0, 0x11, 1, 0, 0x38, 0x4A, 0x10, 0, 0] =
    some ([0x10, 2, 0, 0x34, 3, 0, 2, 0, 0, 0, 0x11, 3, 0, 0x38, 0x4A, 0x10, 0, 0],
      [[0x78], [0x79], [0x73, 0x2E, 0x78], [0x73, 0x2E, 0x79]]) := by decide +kernel

/-- C47 is false for bodies with a switch: its table is taken for instructions, so bytes that look like an instruction with a
key are changed. Here the default offset 7 of the switch becomes 263. -/
theorem C47_false_table : ∃ out new, inlineCode [0x73] 25 [[0x78]]
      [0x51, 0, 0, 0, 0, 0, 0, 1, 0, 7, 0, 0, 0, 2, 0, 0, 0, 0, 0, 0, 0, 4, 0, 0, 0] = some (out, new) ∧
    switchOffs [0x51, 0, 0, 0, 0, 0, 0, 1, 0, 7, 0, 0, 0, 2, 0, 0, 0, 0, 0, 0, 0, 4, 0, 0, 0] 7 = [7, 4] ∧
    switchOffs out 7 = [263, 4] :=
  ⟨_, _, rfl, by decide +kernel, by decide +kernel⟩

/-- Behind an instruction the table of sizes does not know, such as the mark of an optional field, the names of the fields do not get
the prefix: two instances of the struct would share them. -/
theorem C47_false_names : inlineCode [0x73] 4 [[0x78]] [0x4A, 0x10, 0, 0] = some ([0x4A, 0x10, 0, 0], [[0x78]]) := by
  decide +kernel

/-- The name of the count of a dynamic array does not get the prefix, although the count field itself does: `u8 n; u8 x[n]`. -/
theorem C47_false_ref : inlineCode [0x73] 12 [[0x6E], [0x78]] [0x10, 0, 0, 0x3B, 1, 0, 0, 0, 0x10, 1, 0, 0x38] =
    some ([0x10, 2, 0, 0x3B, 3, 0, 0, 0, 0x10, 3, 0, 0x38], [[0x6E], [0x78], [0x73, 0x2E, 0x6E], [0x73, 0x2E, 0x78]]) := by
  decide +kernel

/-- META_VERSION is taken to have a two-byte operand: the version and the next opcode are replaced. -/
theorem C47_false_version : ∃ out new, inlineCode [0x73] 5 [[0x78]] [0x05, 0, 0x10, 0, 0] = some (out, new) ∧
    vmLen [0x05, 0, 0x10, 0, 0] = some 2 ∧ out = [0x05, 1, 0, 0, 0] :=
  ⟨_, _, rfl, by decide +kernel, by decide +kernel⟩

end Cnd
