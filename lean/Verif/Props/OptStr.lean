/-
  C48: dead-string elimination.
-/
import Verif.OptStr
import Verif.Props.Inline

namespace Cnd

/-! ### Specification -/

/-- `out` (with table `new`) is the program `src` (with table `old`) with keys replaced by others that stand for the same name;
boundaries are those of the VM and everything else is unchanged. -/
inductive SameNames (old new : List (List Byte)) : List Byte → List Byte → Prop
  | nil : SameNames old new [] []
  | plain {op args r r'} : vmLen (op :: (args ++ r)) = some (args.length + 1) → (decodeOp op).keyed = false →
      SameNames old new r r' → SameNames old new (op :: (args ++ r)) (op :: (args ++ r'))
  | key {op k0 k1 k0' k1' args r r' name} : vmLen (op :: k0 :: k1 :: (args ++ r)) = some (args.length + 3) →
      (decodeOp op).keyed = true → decodeOp op ≠ .arrDynamic → old[keyNum k0 k1]? = some name → new[keyNum k0' k1']? = some name →
      SameNames old new r r' → SameNames old new (op :: k0 :: k1 :: (args ++ r)) (op :: k0' :: k1' :: (args ++ r'))
  /-- a dynamic array has two keys, its own and that of its count -/
  | dyn {op k0 k1 k0' k1' c0 c1 c0' c1' r r' name cname} : decodeOp op = .arrDynamic →
      old[keyNum k0 k1]? = some name → new[keyNum k0' k1']? = some name →
      old[keyNum c0 c1]? = some cname → new[keyNum c0' c1']? = some cname →
      SameNames old new r r' → SameNames old new (op :: k0 :: k1 :: c0 :: c1 :: r) (op :: k0' :: k1' :: c0' :: c1' :: r')

/-- Opcodes whose operands the optimiser does not step over as the VM does. -/
def optOdd (op : Byte) : Bool :=
  match decodeOp op with
  | .bitBool | .rawBytes | .pushImm | .switchTable | .emit | .transPoly | .transSpline => true
  | _ => op = 0x06

/-- A program of complete instructions, none of them with an odd opcode, all keys being in the table. -/
inductive Regular (old : List (List Byte)) : List Byte → Prop
  | nil : Regular old []
  | plain {op args r} : vmLen (op :: (args ++ r)) = some (args.length + 1) → (decodeOp op).keyed = false → optOdd op = false →
      Regular old r → Regular old (op :: (args ++ r))
  | key {op k0 k1 args r name} : vmLen (op :: k0 :: k1 :: (args ++ r)) = some (args.length + 3) →
      (decodeOp op).keyed = true → decodeOp op ≠ .arrDynamic → optOdd op = false → old[keyNum k0 k1]? = some name →
      Regular old r → Regular old (op :: k0 :: k1 :: (args ++ r))
  | dyn {op k0 k1 c0 c1 r name cname} : decodeOp op = .arrDynamic → old[keyNum k0 k1]? = some name →
      old[keyNum c0 c1]? = some cname → Regular old r → Regular old (op :: k0 :: k1 :: c0 :: c1 :: r)

/-! ### Sizes -/

/-- Opcodes whose length depends on what follows, or is tested. -/
def optVar : List Nat := [0x39, 0x40, 0x41, 0x61, 0x42, 0x4B, 0x4C, 0x4D, 0x51]

theorem optSkip_fixed (third : Bool) (op : Byte) (l : List Byte) (h : op.toNat ∉ optVar) : optSkip third op l = optSkip third op [] := by
  unfold optSkip
  split <;> first | rfl | (rename_i hk; rw [hk] at h; exact absurd (by decide) h)

theorem optKeyed_table (op : Byte) (h : optOdd op = false) : optKeyed op = (decodeOp op).keyed := by
  have key : ∀ m : Fin 256, optOdd (BitVec.ofFin m) = false → optKeyed (BitVec.ofFin m) = (decodeOp (BitVec.ofFin m)).keyed := by
    decide +kernel
  exact key op.toFin h

theorem opt_fixed_table (third : Bool) (op : Byte) (h : optOdd op = false) (h2 : op.toNat ∉ optVar) (h3 : decodeOp op ≠ .arrDynamic)
    (r : List Byte) :
    opArgs (decodeOp op) r = some ((if (decodeOp op).keyed then 2 else 0) + optSkip third op []) := by
  have key : ∀ (third : Bool) (m : Fin 256), optOdd (BitVec.ofFin m) = false → m.val ∉ optVar → decodeOp (BitVec.ofFin m) ≠ .arrDynamic →
      opArgs (decodeOp (BitVec.ofFin m)) [] =
        some ((if (decodeOp (BitVec.ofFin m)).keyed then 2 else 0) + optSkip third (BitVec.ofFin m) []) := by decide +kernel
  have hind : opArgs (decodeOp op) r = opArgs (decodeOp op) [] := by
    have hv : ∀ m : Fin 256, m.val ∉ optVar → decodeOp (BitVec.ofFin m) ∉ [Op.constCheck, .constWrite, .rangeCheck, .enumCheck,
        .transPoly, .transSpline] := by decide +kernel
    have := hv op.toFin h2
    revert this
    show decodeOp op ∉ _ → _
    cases decodeOp op <;> intro hh <;> first | rfl | exact absurd (by decide) hh
  rw [hind]
  exact key third op.toFin h h2 h3

theorem tyTag_optSize (t : Byte) (ty : Ty) (h : tyTag (leWord [t]) = some ty) : optTypeSize t = ty.size := by
  have key : ∀ m : Fin 256, ∀ ty ∈ (tyTag (leWord [BitVec.ofFin m])).toList, optTypeSize (BitVec.ofFin m) = ty.size := by
    decide +kernel
  exact key t.toFin ty (by show ty ∈ (tyTag (leWord [t])).toList; rw [h]; simp)

theorem var_ops (op : Byte) (h : optOdd op = false) (h2 : op.toNat ∈ optVar) :
    op = 0x40 ∨ op = 0x41 ∨ op = 0x42 ∨ op = 0x4B ∨ op = 0x51 := by
  have key : ∀ m : Fin 256, optOdd (BitVec.ofFin m) = false → m.val ∈ optVar →
    (BitVec.ofFin m = 0x40#8 ∨ BitVec.ofFin m = 0x41#8 ∨ BitVec.ofFin m = 0x42#8 ∨ BitVec.ofFin m = 0x4B#8 ∨ BitVec.ofFin m = 0x51#8) := by
    decide +kernel
  exact key op.toFin h h2

/-- Without a key: the optimiser steps over exactly the operands the VM reads. -/
theorem skip_plain (third : Bool) (op : Byte) (l : List Byte) (n : Nat) (h : optOdd op = false) (hk : (decodeOp op).keyed = false)
    (hv : vmLen (op :: l) = some (n + 1)) : optSkip third op l = n ∧ n ≤ l.length := by
  unfold vmLen at hv
  dsimp only at hv
  split at hv
  · cases hv
  · next m hm =>
    split at hv
    · next hle =>
      cases hv
      refine ⟨?_, hle⟩
      by_cases h2 : op.toNat ∈ optVar
      · rcases var_ops op h h2 with rfl | rfl | rfl | rfl | rfl
        · cases hk
        · -- CONST_WRITE
          cases l with
          | nil => simp [decodeOp, opArgs, tyTag, leWord] at hm
          | cons t l =>
            have hm' : (match tyTag (leWord [t]) with
              | some t => if t.signed then none else some (1 + t.size)
              | none => none) = some n := hm
            show 1 + optTypeSize t = n
            split at hm'
            · next ty hty =>
              rw [tyTag_optSize t ty hty]
              split at hm' <;> cases hm'
              rfl
            · cases hm'
        · -- RANGE_CHECK
          cases l with
          | nil => simp [decodeOp, opArgs, tyTag, leWord] at hm
          | cons t l =>
            have hm' : (match tyTag (leWord [t]) with
              | some t => some (1 + 2 * t.size)
              | none => if leWord [t] = 0x18 then some 9 else if leWord [t] = 0x19 then some 17 else none) = some n := hm
            show 1 + optTypeSize t * 2 = n
            split at hm'
            · next ty hty =>
              rw [tyTag_optSize t ty hty]
              cases hm'
              omega
            · have h18 : leWord [t] = 0x18 → t = 0x18 := by
                have key : ∀ m : Fin 256, leWord [BitVec.ofFin m] = 0x18#64 → BitVec.ofFin m = 0x18#8 := by decide +kernel
                exact key t.toFin
              have h19 : leWord [t] = 0x19 → t = 0x19 := by
                have key : ∀ m : Fin 256, leWord [BitVec.ofFin m] = 0x19#64 → BitVec.ofFin m = 0x19#8 := by decide +kernel
                exact key t.toFin
              split at hm'
              · next e => cases hm'; rw [h18 e]; rfl
              · split at hm'
                · next e => cases hm'; rw [h19 e]; rfl
                · cases hm'
        · -- ENUM_CHECK
          have hm' : (tyTag (leWord (l.take 1))).map (fun t => 3 + (leWord ((l.drop 1).take 2)).toNat * t.size) = some n := hm
          rw [Option.map_eq_some_iff] at hm'
          obtain ⟨ty, hty, rfl⟩ := hm'
          match l, hle with
          | [], hle => simp at hle
          | [_], hle => simp at hle; omega
          | [_, _], hle => simp at hle; omega
          | t :: c0 :: c1 :: l, _ =>
            show 3 + (leWord [c0, c1]).toNat * optTypeSize t = _
            rw [tyTag_optSize t ty hty]
            rfl
        · cases hk
      · have h3 : decodeOp op ≠ .arrDynamic := by intro e; rw [e] at hk; cases hk
        rw [opt_fixed_table third op h h2 h3, hk] at hm
        rw [optSkip_fixed third op l h2]
        simpa using hm
    · cases hv

/-- With a key. -/
theorem skip_key (third : Bool) (op k0 k1 : Byte) (l : List Byte) (n : Nat) (h : optOdd op = false) (hk : (decodeOp op).keyed = true)
    (h3 : decodeOp op ≠ .arrDynamic) (hv : vmLen (op :: k0 :: k1 :: l) = some (n + 3)) : optSkip third op l = n ∧ n ≤ l.length := by
  unfold vmLen at hv
  dsimp only at hv
  split at hv
  · cases hv
  · next m hm =>
    split at hv
    · next hle =>
      simp only [List.length_cons] at hle
      have hmn : m = n + 2 := by
        have := Option.some.inj hv
        omega
      subst hmn
      refine ⟨?_, by omega⟩
      by_cases h2 : op.toNat ∈ optVar
      · rcases var_ops op h h2 with rfl | rfl | rfl | rfl | rfl
        · -- CONST_CHECK
          have hm' : (tyTag (leWord (l.take 1))).map (fun t => 3 + t.size) = some (n + 2) := hm
          rw [Option.map_eq_some_iff] at hm'
          obtain ⟨ty, hty, e⟩ := hm'
          cases l with
          | nil => simp [tyTag, leWord] at hty
          | cons t l =>
            show 1 + optTypeSize t = n
            rw [tyTag_optSize t ty hty]
            omega
        · cases hk
        · cases hk
        · cases hk
        · -- SWITCH
          have hm' : some 6 = some (n + 2) := hm
          have : n = 4 := by have := Option.some.inj hm'; omega
          subst this
          show (if l.length < 4 then 0 else 4) = 4
          exact if_neg (by omega)
      · rw [opt_fixed_table third op h h2 h3, hk] at hm
        rw [optSkip_fixed third op l h2]
        have := Option.some.inj hm
        simp at this
        omega
    · cases hv

/-! ### The tables -/

/-- The map sends every marked id to the place of its name in the new table. -/
theorem optTable_spec (marks : List Nat) (rest : List (List Byte)) : ∀ (i : Nat) (new : List (List Byte)),
    new.length + rest.length ≤ 65536 →
    new <+: (optTable marks i new rest).1 ∧
    ∀ (j : Nat) (name : List Byte), rest[j]? = some name → i + j ∈ marks →
      ∃ n, (optTable marks i new rest).2[j]? = some n ∧ n < 65536 ∧ (optTable marks i new rest).1[n]? = some name := by
  induction rest with
  | nil => intro i new _; exact ⟨List.prefix_refl _, fun j name h => by simp at h⟩
  | cons name rest ih =>
    intro i new hl
    rw [List.length_cons] at hl
    unfold optTable
    split
    · next hm =>
      dsimp only
      have hadd : new <+: (strtabAdd new name).1 ∧ (strtabAdd new name).1.length ≤ new.length + 1 ∧
          (strtabAdd new name).1[(strtabAdd new name).2]? = some name ∧ (strtabAdd new name).2 < 65536 := by
        rcases strtabAdd_cases new name with ⟨k, hk, g1, _, e⟩ | ⟨_, e⟩
        · rw [e]
          dsimp only
          rw [Nat.mod_eq_of_lt (by omega)]
          exact ⟨List.prefix_refl _, by omega, g1, by omega⟩
        · rw [e]
          dsimp only
          rw [Nat.mod_eq_of_lt (by omega)]
          exact ⟨List.prefix_append .., by simp, by simp, by omega⟩
      obtain ⟨a1, a2, a3, a4⟩ := hadd
      obtain ⟨i1, i2⟩ := ih (i + 1) (strtabAdd new name).1 (by omega)
      refine ⟨a1.trans i1, ?_⟩
      intro j nm hj hmj
      cases j with
      | zero =>
        simp only [List.getElem?_cons_zero, Option.some.injEq] at hj
        subst hj
        exact ⟨_, rfl, a4, prefix_getElem i1 a3⟩
      | succ j =>
        simp only [List.getElem?_cons_succ] at hj ⊢
        exact i2 j nm hj (by rw [show i + 1 + j = i + (j + 1) by omega]; exact hmj)
    · next hm =>
      dsimp only
      obtain ⟨i1, i2⟩ := ih (i + 1) new (by omega)
      refine ⟨i1, ?_⟩
      intro j nm hj hmj
      cases j with
      | zero => exact absurd hmj hm
      | succ j =>
        simp only [List.getElem?_cons_succ] at hj ⊢
        exact i2 j nm hj (by rw [show i + 1 + j = i + (j + 1) by omega]; exact hmj)

/-- The new table holds only old names, each once. -/
theorem optTable_sub (marks : List Nat) (rest : List (List Byte)) : ∀ (i : Nat) (new : List (List Byte)), new.Nodup →
    (optTable marks i new rest).1.Nodup ∧ ∀ x ∈ (optTable marks i new rest).1,
      x ∈ new ∨ ∃ j, i + j ∈ marks ∧ rest[j]? = some x := by
  induction rest with
  | nil => intro i new h; exact ⟨h, fun x hx => .inl hx⟩
  | cons name rest ih =>
    intro i new hn
    have shift : ∀ x, (∃ j, i + 1 + j ∈ marks ∧ rest[j]? = some x) → ∃ j, i + j ∈ marks ∧ (name :: rest)[j]? = some x := by
      rintro x ⟨j, h1, h2⟩
      exact ⟨j + 1, by rw [show i + (j + 1) = i + 1 + j by omega]; exact h1, by simpa using h2⟩
    unfold optTable
    split
    · next hm =>
      dsimp only
      have hadd : (strtabAdd new name).1.Nodup ∧ ∀ x ∈ (strtabAdd new name).1, x ∈ new ∨ x = name := by
        obtain ⟨_, h2, h3, _⟩ := C45_intern new name hn
        exact ⟨h2, fun x hx => (h3 x).1 hx⟩
      obtain ⟨i1, i2⟩ := ih (i + 1) _ hadd.1
      refine ⟨i1, fun x hx => ?_⟩
      rcases i2 x hx with h | h
      · rcases hadd.2 x h with h | h
        · exact .inl h
        · exact .inr ⟨0, hm, by simp [h]⟩
      · exact .inr (shift x h)
    · next hm =>
      dsimp only
      obtain ⟨i1, i2⟩ := ih (i + 1) new hn
      refine ⟨i1, fun x hx => ?_⟩
      rcases i2 x hx with h | h
      · exact .inl h
      · exact .inr (shift x h)

/-! ### The rewriting -/

theorem optId_spec (map : List Nat) (new : List (List Byte)) (k0 k1 : Byte) (name : List Byte) (n : Nat) (h1 : map[keyNum k0 k1]? = some n)
    (h2 : n < 65536) (h3 : new[n]? = some name) :
    ∃ k0' k1', optId map k0 k1 = [k0', k1'] ∧ new[keyNum k0' k1']? = some name := by
  have e : optId map k0 k1 = leBytes 2 (BitVec.ofNat 64 n) := by
    unfold optId
    rw [leWord_key, h1]
  obtain ⟨k0', k1', hk⟩ : ∃ k0' k1', leBytes 2 (BitVec.ofNat 64 n) = [k0', k1'] := ⟨_, _, rfl⟩
  refine ⟨k0', k1', e.trans hk, ?_⟩
  have hkn : keyNum k0' k1' = n := by
    rw [← leWord_key, ← hk, leWord_leBytes_lt (by omega) (by rw [BitVec.toNat_ofNat]; omega), BitVec.toNat_ofNat]
    omega
  rw [hkn, h3]

theorem arrDynamic_op (op : Byte) (h : decodeOp op = .arrDynamic) : op = 0x3B := by
  have key : ∀ m : Fin 256, decodeOp (BitVec.ofFin m) = .arrDynamic → BitVec.ofFin m = 0x3B#8 := by decide +kernel
  exact key op.toFin h

theorem optRewrite_spec {old new : List (List Byte)} {map : List Nat} {src : List Byte} (hsrc : Regular old src) :
    ∀ (fuel fuel' : Nat), src.length ≤ fuel → src.length ≤ fuel' →
    (∀ k ∈ optMarks fuel src, ∀ name, old[k]? = some name → ∃ n, map[k]? = some n ∧ n < 65536 ∧ new[n]? = some name) →
    SameNames old new src (optRewrite map fuel' src) := by
  induction hsrc with
  | nil =>
    intro fuel fuel' _ _ _
    cases fuel' <;> exact .nil
  | @plain op args r h1 h2 h3 _ ih =>
    intro fuel fuel' hf hf' hm
    simp only [List.length_cons, List.length_append] at hf hf'
    obtain ⟨fuel, rfl⟩ : ∃ f, fuel = f + 1 := ⟨fuel - 1, by omega⟩
    obtain ⟨fuel', rfl⟩ : ∃ f, fuel' = f + 1 := ⟨fuel' - 1, by omega⟩
    have s1 := (skip_plain false op _ _ h3 h2 h1).1
    have s2 := (skip_plain true op _ _ h3 h2 h1).1
    have hk : optKeyed op = false := (optKeyed_table op h3).trans h2
    have e1 : optMarks (fuel + 1) (op :: (args ++ r)) = optMarks fuel r := by
      conv => lhs; unfold optMarks
      rw [hk, s1]
      simp
    have e2 : optRewrite map (fuel' + 1) (op :: (args ++ r)) = op :: (args ++ optRewrite map fuel' r) := by
      conv => lhs; unfold optRewrite
      rw [hk, s2]
      simp
    rw [e1] at hm
    rw [e2]
    exact .plain h1 h2 (ih fuel fuel' (by omega) (by omega) hm)
  | @key op k0 k1 args r name h1 h2 h3 h4 h5 _ ih =>
    intro fuel fuel' hf hf' hm
    simp only [List.length_cons, List.length_append] at hf hf'
    obtain ⟨fuel, rfl⟩ : ∃ f, fuel = f + 1 := ⟨fuel - 1, by omega⟩
    obtain ⟨fuel', rfl⟩ : ∃ f, fuel' = f + 1 := ⟨fuel' - 1, by omega⟩
    have s1 := (skip_key false op _ _ _ _ h4 h2 h3 h1).1
    have s2 := (skip_key true op _ _ _ _ h4 h2 h3 h1).1
    have hk : optKeyed op = true := (optKeyed_table op h4).trans h2
    have hne : op ≠ 0x3B := by rintro rfl; exact h3 rfl
    have e1 : optMarks (fuel + 1) (op :: k0 :: k1 :: (args ++ r)) = keyNum k0 k1 :: optMarks fuel r := by
      conv => lhs; unfold optMarks
      rw [hk, if_pos rfl]
      dsimp only
      rw [if_neg hne, s1, leWord_key]
      simp
    have e2 : optRewrite map (fuel' + 1) (op :: k0 :: k1 :: (args ++ r)) = op :: (optId map k0 k1 ++ (args ++ optRewrite map fuel' r)) := by
      conv => lhs; unfold optRewrite
      rw [hk, if_pos rfl]
      dsimp only
      rw [if_neg hne, s2]
      simp
    rw [e1] at hm
    rw [e2]
    obtain ⟨n, n1, n2, n3⟩ := hm _ List.mem_cons_self name h5
    obtain ⟨k0', k1', w1, w2⟩ := optId_spec map new k0 k1 name n n1 n2 n3
    rw [w1]
    exact .key h1 h2 h3 h5 w2 (ih fuel fuel' (by omega) (by omega) (fun k hk => hm k (List.mem_cons_of_mem _ hk)))
  | @dyn op k0 k1 c0 c1 r name cname h1 h2 h3 _ ih =>
    intro fuel fuel' hf hf' hm
    simp only [List.length_cons] at hf hf'
    obtain ⟨fuel, rfl⟩ : ∃ f, fuel = f + 1 := ⟨fuel - 1, by omega⟩
    obtain ⟨fuel', rfl⟩ : ∃ f, fuel' = f + 1 := ⟨fuel' - 1, by omega⟩
    obtain rfl := arrDynamic_op op h1
    have e1 : optMarks (fuel + 1) (0x3B :: k0 :: k1 :: c0 :: c1 :: r) = keyNum k0 k1 :: keyNum c0 c1 :: optMarks fuel r := by
      rw [← leWord_key, ← leWord_key]
      rfl
    have e2 : optRewrite map (fuel' + 1) (0x3B :: k0 :: k1 :: c0 :: c1 :: r) =
        0x3B :: (optId map k0 k1 ++ (optId map c0 c1 ++ optRewrite map fuel' r)) := rfl
    rw [e1] at hm
    rw [e2]
    obtain ⟨n, n1, n2, n3⟩ := hm _ List.mem_cons_self name h2
    obtain ⟨k0', k1', w1, w2⟩ := optId_spec map new k0 k1 name n n1 n2 n3
    obtain ⟨m, m1, m2, m3⟩ := hm _ (List.mem_cons_of_mem _ List.mem_cons_self) cname h3
    obtain ⟨c0', c1', v1, v2⟩ := optId_spec map new c0 c1 cname m m1 m2 m3
    rw [w1, v1]
    exact .dyn h1 h2 w2 h3 v2
      (ih fuel fuel' (by omega) (by omega) (fun k hk => hm k (List.mem_cons_of_mem _ (List.mem_cons_of_mem _ hk))))

/-- **C48, in part.** For every program of complete instructions whose opcodes the optimiser steps over as the VM does, and every
string table with at most 65536 names: after dead-string elimination every instruction names the same thing as before and nothing
else has changed; no name is in the new table twice, and only names of the old table are in it.

Missing are programs with IO_BIT_BOOL, RAW_BYTES, PUSH_IMM, SWITCH_TABLE, EMIT, TRANS_POLY or TRANS_SPLINE: for these it is
false, see `C48_false_*`. -/
theorem C48_optimize_partial (old : List (List Byte)) (src : List Byte) (hl : old.length ≤ 65536) (hsrc : Regular old src) :
    SameNames old (optimizeStrings old src).1 src (optimizeStrings old src).2 ∧
    (old ≠ [] → (optimizeStrings old src).1.Nodup) ∧ ∀ x ∈ (optimizeStrings old src).1, x ∈ old := by
  unfold optimizeStrings
  split
  · next h0 =>
    have h0 : old = [] := List.length_eq_zero_iff.1 h0
    subst h0
    refine ⟨?_, fun h => absurd rfl h, by simp⟩
    show SameNames [] [] src src
    clear hl
    induction hsrc with
    | nil => exact .nil
    | plain h1 h2 _ _ ih => exact .plain h1 h2 ih
    | key _ _ _ _ h => simp at h
    | dyn _ h => simp at h
  · dsimp only
    have ht := (optTable_spec (optMarks src.length src) old 0 [] (by simpa using hl)).2
    have hs := optTable_sub (optMarks src.length src) old 0 [] (by simp)
    refine ⟨optRewrite_spec hsrc src.length src.length (Nat.le_refl _) (Nat.le_refl _) ?_, fun _ => hs.1, ?_⟩
    · intro k hk name hn
      exact ht k name hn (by simpa using hk)
    · intro x hx
      rcases hs.2 x hx with h | ⟨j, _, h⟩
      · simp at h
      · exact List.mem_of_getElem? h

/-- `u8 b; u16 c[a]` with an unused name at the front: it is removed and the ids move down. -/
example : Regular [[0x75], [0x61], [0x62], [0x63]] [0x10, 2, 0, 0x3B, 3, 0, 1, 0, 0x11, 3, 0, 0x38] :=
  .key (args := []) (by decide +kernel) (by decide +kernel) (by decide +kernel) (by decide +kernel) rfl
    (.dyn (by decide +kernel) rfl rfl
      (.key (args := []) (by decide +kernel) (by decide +kernel) (by decide +kernel) (by decide +kernel) rfl
        (.plain (args := []) (by decide +kernel) (by decide +kernel) (by decide +kernel) .nil)))

example : optimizeStrings [[0x75], [0x61], [0x62], [0x63]] [0x10, 2, 0, 0x3B, 3, 0, 1, 0, 0x11, 3, 0, 0x38] =
    ([[0x61], [0x62], [0x63]], [0x10, 1, 0, 0x3B, 2, 0, 0, 0, 0x11, 2, 0, 0x38]) := by decide +kernel

/-! ### Where it is false -/

/-- Everything named in a program has kept its name: what a true C48 would give for a first instruction that is keyed. -/
theorem SameNames.len {old new : List (List Byte)} {src out : List Byte} (h : SameNames old new src out) : out.length = src.length := by
  induction h with
  | nil => rfl
  | plain _ _ _ ih => simp [ih]
  | key _ _ _ _ _ _ ih => simp [ih]
  | dyn _ _ _ _ _ _ ih => simp [ih]

/-- The first instruction of related programs: unkeyed ones are unchanged and the rest is related. -/
theorem SameNames.inv_plain {old new : List (List Byte)} {op : Byte} {args r out : List Byte}
    (h : SameNames old new (op :: (args ++ r)) out) (hk : (decodeOp op).keyed = false)
    (hv : vmLen (op :: (args ++ r)) = some (args.length + 1)) :
    ∃ r', out = op :: (args ++ r') ∧ SameNames old new r r' := by
  generalize hs : op :: (args ++ r) = src at h hv
  cases h with
  | nil => cases hs
  | @plain op' args' r1 r1' h1 h2 h3 =>
    injection hs with e1 e2
    subst e1
    have hl : args.length = args'.length := by
      rw [h1] at hv
      have := Option.some.inj hv
      omega
    obtain ⟨rfl, rfl⟩ := List.append_inj e2 hl
    exact ⟨r1', rfl, h3⟩
  | key _ h2 =>
    injection hs with e1 e2
    subst e1
    rw [hk] at h2; cases h2
  | dyn h2 =>
    injection hs with e1 e2
    subst e1
    rw [h2] at hk; cases hk

theorem SameNames.inv_key {old new : List (List Byte)} {op k0 k1 : Byte} {r out : List Byte}
    (h : SameNames old new (op :: k0 :: k1 :: r) out) (hk : (decodeOp op).keyed = true) :
    ∃ k0' k1' r' name, out = op :: k0' :: k1' :: r' ∧ old[keyNum k0 k1]? = some name ∧ new[keyNum k0' k1']? = some name := by
  generalize hs : op :: k0 :: k1 :: r = src at h
  cases h with
  | nil => cases hs
  | plain _ h2 =>
    injection hs with e1 e2
    subst e1
    rw [hk] at h2; cases h2
  | key _ _ _ h4 h5 =>
    cases hs
    exact ⟨_, _, _, _, rfl, h4, h5⟩
  | dyn _ h4 h5 =>
    cases hs
    exact ⟨_, _, _, _, rfl, h4, h5⟩

/-- **Counterexample: constants.** PUSH_IMM carries an eight-byte constant, but the optimiser takes its first byte for a type and
reads the rest as instructions. With an unused name in front, the constant 69632 (`00 10 01 00 …`) becomes 4096: the
`u8`-shaped bytes in the constant are renumbered. -/
theorem C48_false_constant :
    optimizeStrings [[0x61], [0x62]] [0x61, 0, 0x10, 1, 0, 0, 0, 0, 0, 0x10, 1, 0] =
      ([[0x62]], [0x61, 0, 0x10, 0, 0, 0, 0, 0, 0, 0x10, 0, 0]) ∧
    ¬ SameNames [[0x61], [0x62]] [[0x62]] [0x61, 0, 0x10, 1, 0, 0, 0, 0, 0, 0x10, 1, 0]
      [0x61, 0, 0x10, 0, 0, 0, 0, 0, 0, 0x10, 0, 0] := by
  refine ⟨by decide +kernel, fun h => ?_⟩
  obtain ⟨r', h1, _⟩ := SameNames.inv_plain (op := 0x61) (args := [0, 0x10, 1, 0, 0, 0, 0, 0]) (r := [0x10, 1, 0]) h
    (by decide +kernel) (by decide +kernel)
  simp at h1

/-- **Counterexample: a field loses its name.** The constant 19 is taken for "type u64", the optimiser steps over the field behind
it, and the field's name is dropped as unused: the field now has a key that is no string (the table has one name, the key
is 1). -/
theorem C48_false_name :
    optimizeStrings [[0x61], [0x62]] [0x61, 0x13, 0, 0, 0, 0, 0, 0, 0, 0x10, 1, 0, 0x10, 0, 0] =
      ([[0x61]], [0x61, 0x13, 0, 0, 0, 0, 0, 0, 0, 0x10, 1, 0, 0x10, 0, 0]) ∧
    ¬ SameNames [[0x61], [0x62]] [[0x61]] [0x61, 0x13, 0, 0, 0, 0, 0, 0, 0, 0x10, 1, 0, 0x10, 0, 0]
      [0x61, 0x13, 0, 0, 0, 0, 0, 0, 0, 0x10, 1, 0, 0x10, 0, 0] := by
  refine ⟨by decide +kernel, fun h => ?_⟩
  obtain ⟨r', h1, h2⟩ := SameNames.inv_plain (op := 0x61) (args := [0x13, 0, 0, 0, 0, 0, 0, 0]) (r := [0x10, 1, 0, 0x10, 0, 0]) h
    (by decide +kernel) (by decide +kernel)
  obtain ⟨k0', k1', r2, name, g1, g2, g3⟩ := h2.inv_key (by decide +kernel)
  simp only [List.cons_append, List.nil_append, List.cons.injEq, true_and] at h1
  rw [← h1] at g1
  simp only [List.cons.injEq, true_and] at g1
  obtain ⟨rfl, rfl, _⟩ := g1
  simp [keyNum] at g3

/-- **Counterexample: case labels.** The table of a switch is walked as if it were code. With an unused name in front, the case 272
(`10 01 00 …`) becomes the case 16. -/
theorem C48_false_table :
    optimizeStrings [[0x61], [0x62]]
      [0x51, 1, 0, 0, 0, 0, 0, 1, 0, 0x10, 1, 0, 0, 0, 0, 0, 0, 4, 0, 0, 0, 4, 0, 0, 0] =
      ([[0x62]], [0x51, 0, 0, 0, 0, 0, 0, 1, 0, 0x10, 0, 0, 0, 0, 0, 0, 0, 4, 0, 0, 0, 4, 0, 0, 0]) := by decide +kernel

/-- **Counterexample: coefficients.** The first pass steps over the coefficients of a polynomial, the last one does not, so what
looks like a field in a coefficient is renumbered. -/
theorem C48_false_poly :
    optimizeStrings [[0x61], [0x62]] [0x4C, 1, 0x10, 1, 0, 0, 0, 0, 0xF0, 0x3F, 0x10, 1, 0] =
      ([[0x62]], [0x4C, 1, 0x10, 0, 0, 0, 0, 0, 0xF0, 0x3F, 0x10, 0, 0]) ∧
    ¬ SameNames [[0x61], [0x62]] [[0x62]] [0x4C, 1, 0x10, 1, 0, 0, 0, 0, 0xF0, 0x3F, 0x10, 1, 0]
      [0x4C, 1, 0x10, 0, 0, 0, 0, 0, 0xF0, 0x3F, 0x10, 0, 0] := by
  refine ⟨by decide +kernel, fun h => ?_⟩
  obtain ⟨r', h1, _⟩ := SameNames.inv_plain (op := 0x4C) (args := [1, 0x10, 1, 0, 0, 0, 0, 0xF0, 0x3F]) (r := [0x10, 1, 0]) h
    (by decide +kernel) (by decide +kernel)
  simp at h1

/-! ### Nothing to eliminate -/

theorem optTable_all (marks : List Nat) (rest : List (List Byte)) : ∀ (new : List (List Byte)),
    (new ++ rest).Nodup → new.length + rest.length ≤ 65536 → (∀ j, j < rest.length → new.length + j ∈ marks) →
    (optTable marks new.length new rest).1 = new ++ rest ∧
    (optTable marks new.length new rest).2.length = rest.length ∧
    ∀ j, j < rest.length → (optTable marks new.length new rest).2[j]? = some (new.length + j) := by
  induction rest with
  | nil => intro new _ _ _; exact ⟨by simp [optTable], rfl, fun j h => by simp at h⟩
  | cons name rest ih =>
    intro new hn hl hm
    rw [List.length_cons] at hl
    unfold optTable
    rw [if_pos (show new.length ∈ marks from hm 0 (by simp))]
    have hadd : strtabAdd new name = (new ++ [name], new.length) := by
      rcases strtabAdd_cases new name with ⟨k, hk, g1, _, e⟩ | ⟨_, e⟩
      · rw [List.nodup_append] at hn
        exact absurd rfl (hn.2.2 name (List.mem_of_getElem? g1) name (by simp))
      · rw [e, Nat.mod_eq_of_lt (by omega)]
    rw [hadd]
    dsimp only
    obtain ⟨i1, i2, i3⟩ := ih (new ++ [name]) (by simpa using hn) (by simp; omega) (by
      intro j hj
      have := hm (j + 1) (by simp; omega)
      rw [List.length_append, List.length_singleton, show new.length + 1 + j = new.length + (j + 1) by omega]
      exact this)
    rw [List.length_append, List.length_singleton] at i1 i2 i3
    refine ⟨by rw [i1]; simp, by simp [i2], ?_⟩
    intro j hj
    cases j with
    | zero => rfl
    | succ j =>
      rw [List.getElem?_cons_succ, i3 j (by simpa using hj)]
      congr 1
      omega

theorem optId_same (map : List Nat) (k0 k1 : Byte) (h : ∀ j n : Nat, map[j]? = some n → n = j) : optId map k0 k1 = [k0, k1] := by
  unfold optId
  cases hm : map[(leWord [k0, k1]).toNat]? with
  | none => rfl
  | some n =>
    have := h _ _ hm
    subst this
    dsimp only
    rw [BitVec.ofNat_toNat, BitVec.setWidth_eq]
    exact leBytes_leWord [k0, k1] (by simp)

theorem optRewrite_same (map : List Nat) (h : ∀ j n : Nat, map[j]? = some n → n = j) : ∀ (fuel : Nat) (l : List Byte),
    optRewrite map fuel l = l := by
  intro fuel
  induction fuel with
  | zero => intro l; rfl
  | succ fuel ih =>
    intro l
    cases l with
    | nil => rfl
    | cons op l =>
      unfold optRewrite
      split
      · split
        · next k0 k1 l =>
          rw [optId_same map k0 k1 h]
          split
          · split
            · next r0 r1 l => rw [optId_same map r0 r1 h, ih]; rfl
            · rw [ih]; rfl
          · rw [ih, List.take_append_drop]; rfl
        · rfl
      · rw [ih, List.take_append_drop]

/-- **C48 when nothing is dead.** For every byte string whatever (any opcodes, jump tables, constants) and every table of at most
65536 different names: if the optimiser finds every name in use, it changes nothing. So every counterexample above needs a
name that is not used, or is not seen to be. -/
theorem C48_all_used (tab : List (List Byte)) (code : List Byte) (hn : tab.Nodup) (hl : tab.length ≤ 65536)
    (hu : ∀ i, i < tab.length → i ∈ optMarks code.length code) : optimizeStrings tab code = (tab, code) := by
  unfold optimizeStrings
  split
  · rfl
  · dsimp only
    obtain ⟨h1, h2, h3⟩ := optTable_all (optMarks code.length code) tab [] (by simpa using hn) (by simpa using hl) (by simpa using hu)
    simp only [List.length_nil, List.nil_append] at h1 h2 h3
    rw [h1, optRewrite_same]
    intro j n hj
    by_cases hlt : j < tab.length
    · rw [h3 j hlt] at hj
      have := Option.some.inj hj
      omega
    · rw [List.getElem?_eq_none (by omega)] at hj
      cases hj

example : ∀ i, i < [[0x61], [0x62]].length → i ∈ optMarks 15 [0x61, 0, 0x10, 1, 0, 0, 0, 0, 0, 0x10, 1, 0, 0x10, 0, 0] := by
  decide +kernel

end Cnd
