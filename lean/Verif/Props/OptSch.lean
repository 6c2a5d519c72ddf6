/-
  For C62: what dead-string elimination (cndc.c 17-255) does to the byte code of a packet description.
-/
import Verif.Props.SrcSch

namespace Cnd

theorem optRewrite_fuel (map : List Nat) : ∀ (fuel : Nat) (src : List Byte), src.length ≤ fuel →
    optRewrite map fuel src = optRewrite map src.length src := by
  intro fuel
  induction fuel using Nat.strongRecOn with
  | ind fuel ih =>
    intro src h
    cases src with
    | nil => cases fuel <;> rfl
    | cons op l =>
      obtain ⟨f, rfl⟩ : ∃ f, fuel = f + 1 := ⟨fuel - 1, by simp at h; omega⟩
      simp only [List.length_cons] at h ⊢
      have hd : ∀ (l' : List Byte), l'.length ≤ l.length → optRewrite map f l' = optRewrite map l.length l' := by
        intro l' hl'
        rw [ih f (by omega) l' (by omega)]
        by_cases hf : l.length < f + 1
        · exact (ih l.length (by omega) l' hl').symm
        · omega
      simp only [optRewrite]
      split
      · cases l with
        | nil => rfl
        | cons k0 l =>
          cases l with
          | nil => rfl
          | cons k1 l =>
            dsimp only
            split
            · cases l with
              | nil => dsimp only; rw [hd [] (by simp)]
              | cons r0 l =>
                cases l with
                | nil => dsimp only; rw [hd [r0] (by simp)]
                | cons r1 l => dsimp only; rw [hd l (by simp; omega)]
            · rw [hd _ (by simp; omega)]
      · rw [hd _ (by simp)]

theorem optMarks_fuel : ∀ (fuel : Nat) (src : List Byte), src.length ≤ fuel →
    optMarks fuel src = optMarks src.length src := by
  intro fuel
  induction fuel using Nat.strongRecOn with
  | ind fuel ih =>
    intro src h
    cases src with
    | nil => cases fuel <;> rfl
    | cons op l =>
      obtain ⟨f, rfl⟩ : ∃ f, fuel = f + 1 := ⟨fuel - 1, by simp at h; omega⟩
      simp only [List.length_cons] at h ⊢
      have hd : ∀ (l' : List Byte), l'.length ≤ l.length → optMarks f l' = optMarks l.length l' := by
        intro l' hl'
        rw [ih f (by omega) l' (by omega)]
        by_cases hf : l.length < f + 1
        · exact (ih l.length (by omega) l' hl').symm
        · omega
      simp only [optMarks]
      split
      · cases l with
        | nil => rfl
        | cons k0 l =>
          cases l with
          | nil => rfl
          | cons k1 l =>
            dsimp only
            split
            · cases l with
              | nil => dsimp only; rw [hd [] (by simp)]
              | cons r0 l =>
                cases l with
                | nil => dsimp only; rw [hd [r0] (by simp)]
                | cons r1 l => dsimp only; rw [hd l (by simp; omega)]
            · rw [hd _ (by simp; omega)]
      · rw [hd _ (by simp)]

/-- The two passes with all the fuel they need. -/
def rewr (map : List Nat) (src : List Byte) : List Byte := optRewrite map src.length src
def mks (src : List Byte) : List Nat := optMarks src.length src

theorem rewr_plain (map : List Nat) (op : Byte) (l : List Byte) (h : optKeyed op = false) :
    rewr map (op :: l) = op :: (l.take (optSkip true op l) ++ rewr map (l.drop (optSkip true op l))) := by
  unfold rewr
  simp only [List.length_cons, optRewrite, h]
  rw [optRewrite_fuel map l.length _ (by simp)]
  rfl

theorem mks_plain (op : Byte) (l : List Byte) (h : optKeyed op = false) : mks (op :: l) = mks (l.drop (optSkip false op l)) := by
  unfold mks
  simp only [List.length_cons, optMarks, h]
  rw [optMarks_fuel l.length _ (by simp)]
  rfl

theorem optId_moved (map : List Nat) (k0 k1 : Byte) : optId map k0 k1 = [reLo (moved map) k0 k1, reHi (moved map) k0 k1] := by
  unfold optId reLo reHi moved
  rw [leWord_key]
  cases h : map[keyNum k0 k1]? with
  | some n => simp only [Option.getD_some]; exact key_two n
  | none =>
    simp only [Option.getD_none]
    rw [(Prod.mk.injEq ..).mp (lohi_keyNum k0 k1) |>.1, (Prod.mk.injEq ..).mp (lohi_keyNum k0 k1) |>.2]

theorem rewr_key (map : List Nat) (op k0 k1 : Byte) (l : List Byte) (h : optKeyed op = true) (hd : op ≠ 0x3B) :
    rewr map (op :: k0 :: k1 :: l) = op :: reLo (moved map) k0 k1 :: reHi (moved map) k0 k1 ::
      (l.take (optSkip true op l) ++ rewr map (l.drop (optSkip true op l))) := by
  unfold rewr
  simp only [List.length_cons, optRewrite, h, if_neg hd, optId_moved]
  rw [optRewrite_fuel map (l.length + 1 + 1) _ (by simp; omega)]
  rfl

theorem mks_key (op k0 k1 : Byte) (l : List Byte) (h : optKeyed op = true) (hd : op ≠ 0x3B) :
    mks (op :: k0 :: k1 :: l) = keyNum k0 k1 :: mks (l.drop (optSkip false op l)) := by
  unfold mks
  simp only [List.length_cons, optMarks, h, if_neg hd, leWord_key]
  rw [optMarks_fuel (l.length + 1 + 1) _ (by simp; omega)]
  rfl

theorem rewr_dyn (map : List Nat) (k0 k1 r0 r1 : Byte) (l : List Byte) :
    rewr map (0x3B :: k0 :: k1 :: r0 :: r1 :: l) = 0x3B :: reLo (moved map) k0 k1 :: reHi (moved map) k0 k1 ::
      reLo (moved map) r0 r1 :: reHi (moved map) r0 r1 :: rewr map l := by
  unfold rewr
  have hk : optKeyed 0x3B = true := by decide
  simp only [List.length_cons, optRewrite, hk, optId_moved]
  rw [optRewrite_fuel map (l.length + 1 + 1 + 1 + 1) _ (by omega)]
  rfl

theorem mks_dyn (k0 k1 r0 r1 : Byte) (l : List Byte) :
    mks (0x3B :: k0 :: k1 :: r0 :: r1 :: l) = keyNum k0 k1 :: keyNum r0 r1 :: mks l := by
  unfold mks
  have hk : optKeyed 0x3B = true := by decide
  simp only [List.length_cons, optMarks, hk, leWord_key]
  rw [optMarks_fuel (l.length + 1 + 1 + 1 + 1) _ (by omega)]
  rfl

/-- Wherever `code` stands at the beginning of an instruction, the two passes go on behind it; the bytes become `code'` and the
ids met are `ks`. -/
structure Passes (map : List Nat) (code code' : List Byte) (ks : List Nat) : Prop where
  len : code'.length = code.length
  rew : ∀ l, rewr map (code ++ l) = code' ++ rewr map l
  met : ∀ l, mks (code ++ l) = ks ++ mks l

theorem Passes.nil (map : List Nat) : Passes map [] [] [] := ⟨rfl, fun _ => rfl, fun _ => rfl⟩

theorem Passes.seq {map : List Nat} {a a' b b' : List Byte} {ks ks' : List Nat} (h : Passes map a a' ks) (h' : Passes map b b' ks') :
    Passes map (a ++ b) (a' ++ b') (ks ++ ks') := by
  refine ⟨by simp [h.len, h'.len], fun l => ?_, fun l => ?_⟩
  · rw [List.append_assoc, h.rew, h'.rew, List.append_assoc]
  · rw [List.append_assoc, h.met, h'.met, List.append_assoc]

theorem Passes.plain (map : List Nat) (op : Byte) (args : List Byte) (h : optKeyed op = false)
    (hs : ∀ third l, optSkip third op (args ++ l) = args.length) : Passes map (op :: args) (op :: args) [] := by
  refine ⟨rfl, fun l => ?_, fun l => ?_⟩
  · rw [List.cons_append, rewr_plain map op _ h, hs, List.take_left, List.drop_left, List.cons_append]
  · rw [List.cons_append, mks_plain op _ h, hs, List.drop_left, List.nil_append]

theorem Passes.key (map : List Nat) (op k0 k1 : Byte) (args : List Byte) (h : optKeyed op = true) (hd : op ≠ 0x3B)
    (hs : ∀ third l, optSkip third op (args ++ l) = args.length) :
    Passes map (op :: k0 :: k1 :: args) (op :: reLo (moved map) k0 k1 :: reHi (moved map) k0 k1 :: args) [keyNum k0 k1] := by
  refine ⟨rfl, fun l => ?_, fun l => ?_⟩
  · simp only [List.cons_append]
    rw [rewr_key map op k0 k1 _ h hd, hs, List.take_left, List.drop_left]
  · simp only [List.cons_append]
    rw [mks_key op k0 k1 _ h hd, hs, List.drop_left, List.nil_append]

theorem Passes.dyn (map : List Nat) (k0 k1 r0 r1 : Byte) : Passes map [0x3B, k0, k1, r0, r1]
    [0x3B, reLo (moved map) k0 k1, reHi (moved map) k0 k1, reLo (moved map) r0 r1, reHi (moved map) r0 r1]
    [keyNum k0 k1, keyNum r0 r1] :=
  ⟨rfl, fun l => rewr_dyn map k0 k1 r0 r1 l, fun l => mks_dyn k0 k1 r0 r1 l⟩

/-! ### Tables and literals taken for code -/

theorem optSkip_third (op : Byte) (l : List Byte) (h1 : op ≠ 0x4C) (h2 : op ≠ 0x4D) : optSkip false op l = optSkip true op l := by
  have h1' : op.toNat ≠ 0x4C := fun h => h1 (BitVec.eq_of_toNat_eq h)
  have h2' : op.toNat ≠ 0x4D := fun h => h2 (BitVec.eq_of_toNat_eq h)
  unfold optSkip
  split <;> first | rfl | (exfalso; rename_i h; first | exact h1' h | exact h2' h)

/-- The distance is settled by four bytes. -/
theorem optSkip_more (third : Bool) (op : Byte) (l more : List Byte) (h : 4 ≤ l.length ∨ op.toNat ∉ optVar) :
    optSkip third op (l ++ more) = optSkip third op l := by
  rcases h with h | h
  · obtain ⟨a, b, c, d, l, rfl⟩ : ∃ a b c d l', l = a :: b :: c :: d :: l' := by
      match l, h with
      | a :: b :: c :: d :: l', _ => exact ⟨a, b, c, d, l', rfl⟩
    unfold optSkip
    split <;> simp <;> rw [if_neg (by omega), if_neg (by omega)]
  · rw [optSkip_fixed third op _ h, optSkip_fixed third op l h]

theorem unkeyed_var (op : Byte) (hk : optKeyed op = false) (h1 : op ≠ 0x4C) (h2 : op ≠ 0x4D)
    (h : op.toNat ∉ [0x39, 0x41, 0x61, 0x42, 0x4B]) : op.toNat ∉ optVar := by
  have key : ∀ m : Fin 256, optKeyed (BitVec.ofFin m) = false → BitVec.ofFin m ≠ 0x4C#8 → BitVec.ofFin m ≠ 0x4D#8 →
      m.val ∉ [0x39, 0x41, 0x61, 0x42, 0x4B] → m.val ∉ optVar := by decide +kernel
  exact key op.toFin hk h1 h2 h

theorem calm_passes (map : List Nat) : ∀ (fuel : Nat) (l : List Byte), calm map fuel l = true → ∃ ks, Passes map l l ks := by
  intro fuel
  induction fuel with
  | zero =>
    intro l h
    cases l with
    | nil => exact ⟨_, .nil map⟩
    | cons => simp [calm] at h
  | succ fuel ih =>
    intro l h
    cases l with
    | nil => exact ⟨_, .nil map⟩
    | cons op l =>
      simp only [calm] at h
      split at h
      · next hk =>
        split at h
        · next k0 k1 l' =>
          simp only [decide_eq_true_eq] at h
          obtain ⟨h3, he, h4, hs, hr⟩ := h
          obtain ⟨ks, hp⟩ := ih _ hr
          have hne : op ≠ 0x4C ∧ op ≠ 0x4D := by constructor <;> (rintro rfl; exact absurd hk (by decide))
          refine ⟨keyNum k0 k1 :: ks, rfl, fun m => ?_, fun m => ?_⟩
          · simp only [List.cons_append]
            rw [rewr_key map op k0 k1 _ hk h3, optSkip_more true op l' m (.inl h4), List.take_append_of_le_length hs,
              List.drop_append_of_le_length hs, hp.rew, (Prod.mk.injEq ..).mp he |>.1, (Prod.mk.injEq ..).mp he |>.2,
              ← List.append_assoc, List.take_append_drop]
          · simp only [List.cons_append]
            rw [mks_key op k0 k1 _ hk h3, optSkip_third op _ hne.1 hne.2, optSkip_more true op l' m (.inl h4),
              List.drop_append_of_le_length hs, hp.met]
        · cases h
      · next hk =>
        have hk : optKeyed op = false := by simpa using hk
        simp only [decide_eq_true_eq] at h
        obtain ⟨h1, h2, h4, hs, hr⟩ := h
        obtain ⟨ks, hp⟩ := ih _ hr
        have h4 : 4 ≤ l.length ∨ op.toNat ∉ optVar := h4.imp id (unkeyed_var op hk h1 h2)
        refine ⟨ks, rfl, fun m => ?_, fun m => ?_⟩
        · simp only [List.cons_append]
          rw [rewr_plain map op _ hk, optSkip_more true op l m h4, List.take_append_of_le_length hs,
            List.drop_append_of_le_length hs, hp.rew, ← List.append_assoc, List.take_append_drop]
        · simp only [List.cons_append]
          rw [mks_plain op _ hk, optSkip_third op _ h1 h2, optSkip_more true op l m h4, List.drop_append_of_le_length hs, hp.met]

theorem quiet_passes {map : List Nat} {l : List Byte} (h : quiet map l = true) : ∃ ks, Passes map l l ks := calm_passes map _ l h

/-! ### Descriptions -/

theorem Passes.bare (map : List Nat) (op : Byte) (h : optKeyed op = false) (hs : ∀ third l, optSkip third op l = 0) :
    Passes map [op] [op] [] := .plain map op [] h hs

theorem iexpr_passes (map : List Nat) : ∀ e : IExpr, e.inStep map = true →
    ∃ ks, Passes map e.code (e.mapKeys (moved map)).code ks ∧ ∀ k ∈ e.keys, k ∈ ks
  | .lit w, h => by
    obtain ⟨ks, h⟩ := quiet_passes h
    exact ⟨ks, h, fun k hk => by simp [IExpr.keys] at hk⟩
  | .fld k0 k1, _ => ⟨_, .key map 0x60 k0 k1 [] (by decide) (by decide) (fun _ _ => rfl), fun k hk => hk⟩
  | .un o e, h => by
    obtain ⟨ks, h, hk⟩ := iexpr_passes map e h
    refine ⟨_, h.seq (.bare map o.byte ?_ ?_), fun k h => by simpa using hk k h⟩
    · cases o <;> decide
    · cases o <;> exact fun _ _ => rfl
  | .bin o a b, h => by
    simp only [IExpr.inStep, decide_eq_true_eq] at h
    obtain ⟨ks, ha, hka⟩ := iexpr_passes map a h.1
    obtain ⟨ks', hb, hkb⟩ := iexpr_passes map b h.2
    refine ⟨_, ha.seq (hb.seq (.bare map o.byte ?_ ?_)), fun k h => ?_⟩
    · cases o <;> decide
    · cases o <;> exact fun _ _ => rfl
    · simp only [IExpr.keys, List.mem_append, List.append_nil] at h ⊢
      exact h.imp (hka k) (hkb k)

theorem tag_size (t : Ty) : optTypeSize t.tag = t.size := by cases t <;> rfl

theorem Passes.scalar (map : List Nat) (op k0 k1 : Byte) (h1 : 0x10 ≤ op.toNat) (h2 : op.toNat ≤ 0x1A) :
    Passes map [op, k0, k1] [op, reLo (moved map) k0 k1, reHi (moved map) k0 k1] [keyNum k0 k1] := by
  have key : ∀ m : Fin 256, 0x10 ≤ m.val → m.val ≤ 0x1A → optKeyed (BitVec.ofFin m) = true ∧ BitVec.ofFin m ≠ 0x3B#8 ∧
      m.val ∉ optVar ∧ ∀ third, optSkip third (BitVec.ofFin m) [] = 0 := by decide +kernel
  obtain ⟨hk, hd, hv, hs⟩ := key op.toFin h1 h2
  exact .key map op k0 k1 [] hk hd fun third l => (optSkip_fixed third op _ hv).trans (hs third)

theorem tag_scalar (t : Ty) : 0x10 ≤ t.tag.toNat ∧ t.tag.toNat ≤ 0x1A := by cases t <;> decide

theorem fld_passes (map : List Nat) : ∀ f : Fld, f.inStep = true →
    ∃ ks, Passes map f.code (f.mapKeys (moved map)).code ks ∧ ∀ k ∈ f.keys, k ∈ ks
  | .empty, _ => ⟨_, .nil map, fun k hk => by simp [Fld.keys] at hk⟩
  | .seq .., h | .bitBool .., h | .struct .., h | .arrFixed .., h | .arrPre .., h | .arrDyn .., h => by cases h
  | .scalar op k0 k1, h => by
    simp only [Fld.inStep, decide_eq_true_eq] at h
    exact ⟨_, .scalar map op k0 k1 h.1 h.2, fun k hk => hk⟩
  | .range t k0 k1 lo hi, _ => by
    refine ⟨_, (Passes.scalar map t.tag k0 k1 (tag_scalar t).1 (tag_scalar t).2).seq
      (.plain map 0x42 (t.tag :: (leBytes t.size lo ++ leBytes t.size hi)) (by decide) fun third l => ?_), fun k hk => hk⟩
    show 1 + optTypeSize t.tag * 2 = _
    simp [tag_size, leBytes_length]; omega
  | .enum t k0 k1 vals, h => by
    simp only [Fld.inStep, decide_eq_true_eq] at h
    refine ⟨_, (Passes.scalar map t.tag k0 k1 (tag_scalar t).1 (tag_scalar t).2).seq
      (.plain map 0x4B (t.tag :: (leBytes 2 (BitVec.ofNat 64 vals.length) ++ vals.flatMap (leBytes t.size))) (by decide)
        fun third l => ?_), fun k hk => hk⟩
    rw [key_two]
    show 3 + (leWord [keyLo vals.length, keyHi vals.length]).toNat * optTypeSize t.tag = _
    rw [leWord_key, keyNum_lohi _ h]
    simp only [tag_size, List.length_cons, List.length_append, flatMap_leBytes_length, List.length_nil]; omega
  | .const t k0 k1 c, _ => by
    refine ⟨_, Passes.key map 0x40 k0 k1 (t.tag :: leBytes t.size c) (by decide) (by decide) fun third l => ?_, fun k hk => hk⟩
    show 1 + optTypeSize t.tag = _
    simp [tag_size, leBytes_length]; omega
  | .strNull k0 k1 m0 m1, _ => ⟨_, .key map 0x30 k0 k1 [m0, m1] (by decide) (by decide) fun _ _ => rfl, fun k hk => hk⟩
  | .strPre p k0 k1, _ => by
    refine ⟨_, .key map p.strOp k0 k1 [] ?_ ?_ ?_, fun k hk => hk⟩
    · cases p <;> decide
    · cases p <;> decide
    · cases p <;> exact fun _ _ => rfl
  | .bitU k0 k1 n, _ => ⟨_, .key map 0x20 k0 k1 [n] (by decide) (by decide) fun _ _ => rfl, fun k hk => hk⟩
  | .bitI k0 k1 n, _ => ⟨_, .key map 0x21 k0 k1 [n] (by decide) (by decide) fun _ _ => rfl, fun k hk => hk⟩
  | .pad n, _ => ⟨_, .plain map 0x23 [n] (by decide) fun _ _ => rfl, fun k hk => by simp [Fld.keys] at hk⟩
  | .fill b, _ => ⟨_, .plain map 0x24 [b] (by decide) fun _ _ => rfl, fun k hk => by simp [Fld.keys] at hk⟩
  | .setLE, _ => ⟨_, .bare map 0x01 (by decide) fun _ _ => rfl, fun k hk => by simp [Fld.keys] at hk⟩
  | .setBE, _ => ⟨_, .bare map 0x02 (by decide) fun _ _ => rfl, fun k hk => by simp [Fld.keys] at hk⟩
  | .nop, _ => ⟨_, .bare map 0x00 (by decide) fun _ _ => rfl, fun k hk => by simp [Fld.keys] at hk⟩
  | .enterBit, _ => ⟨_, .bare map 0x25 (by decide) fun _ _ => rfl, fun k hk => by simp [Fld.keys] at hk⟩
  | .exitBit, _ => ⟨_, .bare map 0x26 (by decide) fun _ _ => rfl, fun k hk => by simp [Fld.keys] at hk⟩
  | .version b, _ => ⟨_, .plain map 0x05 [b] (by decide) fun _ _ => rfl, fun k hk => by simp [Fld.keys] at hk⟩
  | .name k0 k1, _ => ⟨_, .key map 0x07 k0 k1 [] (by decide) (by decide) fun _ _ => rfl, fun k hk => hk⟩
  | .crc c, _ => by
    refine ⟨[], ?_, fun k hk => by simp [Fld.keys] at hk⟩
    show Passes map (crcCode c) (crcCode c) []
    unfold crcCode
    cases hw : c.w32
    · refine .plain map 0x44 _ (by decide) fun third l => ?_
      show 7 = _
      simp [leBytes_length, CrcPar.size, hw]
    · refine .plain map 0x49 _ (by decide) fun third l => ?_
      show 13 = _
      simp [leBytes_length, CrcPar.size, hw]

theorem Passes.jump (map : List Nat) (op : Byte) (n : Nat) (h : op = 0x50 ∨ op = 0x52) :
    Passes map ([op] ++ u32le n) ([op] ++ u32le n) [] := by
  rcases h with rfl | rfl
  · exact .plain map 0x50 (u32le n) (by decide) fun _ _ => by simp [u32le, leBytes_length]; rfl
  · exact .plain map 0x52 (u32le n) (by decide) fun _ _ => by simp [u32le, leBytes_length]; rfl

theorem num_scalar (n : Num) : 0x10 ≤ n.tag.toNat ∧ n.tag.toNat ≤ 0x1A := by
  cases n with
  | int t => exact tag_scalar t
  | flt d => cases d <;> decide

/-- Passed over when counting; when rewriting, the operands are taken for code. -/
theorem Passes.blind {map : List Nat} {op : Byte} {args : List Byte} {ks : List Nat} (h : optKeyed op = false)
    (h3 : ∀ l, optSkip true op l = 0) (h1 : ∀ l, optSkip false op (args ++ l) = args.length) (hq : Passes map args args ks) :
    Passes map (op :: args) (op :: args) [] := by
  refine ⟨rfl, fun l => ?_, fun l => ?_⟩
  · rw [List.cons_append, rewr_plain map op _ h, h3, List.take_zero, List.drop_zero, hq.rew]; rfl
  · rw [List.cons_append, mks_plain op _ h, h1, List.drop_left, List.nil_append]

theorem curve_passes (map : List Nat) : ∀ c : Curve, c.inStep map = true → Passes map c.code c.code []
  | .scale a b, _ => .plain map 0x43 (leBytes 8 a ++ leBytes 8 b) (by decide) fun _ _ => rfl
  | .poly cs, h => by
    simp only [Curve.inStep, decide_eq_true_eq] at h
    obtain ⟨ks, hq⟩ := quiet_passes h.2
    refine .blind (by decide) (fun _ => rfl) (fun l => ?_) hq
    show 1 + (BitVec.ofNat 8 cs.length).toNat * 8 = _
    rw [BitVec.toNat_ofNat, Nat.mod_eq_of_lt h.1]
    show _ = (BitVec.ofNat 8 cs.length :: cs.flatMap (leBytes 8)).length
    rw [List.length_cons, flatMap_leBytes_length]; omega
  | .spline ps, h => by
    simp only [Curve.inStep, decide_eq_true_eq] at h
    obtain ⟨ks, hq⟩ := quiet_passes h.2.2
    refine .blind (by decide) (fun _ => rfl) (fun l => ?_) hq
    show 1 + (BitVec.ofNat 8 (ps.length / 2)).toNat * 16 = _
    rw [BitVec.toNat_ofNat, Nat.mod_eq_of_lt (by omega)]
    show _ = (BitVec.ofNat 8 (ps.length / 2) :: ps.flatMap (leBytes 8)).length
    rw [List.length_cons, flatMap_leBytes_length]; omega

/-- A number field behind its transform. -/
theorem Passes.field {map : List Nat} {pre : List Byte} (big : Bool) (n : Num) (k0 k1 : Byte) (h : Passes map pre pre []) :
    Passes map (pre ++ ((if big then [0x02] else []) ++ [n.tag, k0, k1]))
      (pre ++ ((if big then [0x02] else []) ++ [n.tag, reLo (moved map) k0 k1, reHi (moved map) k0 k1])) [keyNum k0 k1] := by
  have hb : Passes map (if big then [0x02] else []) (if big then [0x02] else []) [] := by
    cases big
    · exact .nil map
    · exact .bare map 0x02 (by decide) fun _ _ => rfl
  simpa using h.seq (hb.seq (.scalar map n.tag k0 k1 (num_scalar n).1 (num_scalar n).2))

theorem Passes.trans (map : List Nat) (op : Byte) (args : List Byte) (big : Bool) (t : Ty) (k0 k1 : Byte) (h : optKeyed op = false)
    (hs : ∀ third l, optSkip third op (args ++ l) = args.length) :
    Passes map ((op :: args) ++ ((if big then [0x02] else []) ++ [t.tag, k0, k1]))
      ((op :: args) ++ ((if big then [0x02] else []) ++ [t.tag, reLo (moved map) k0 k1, reHi (moved map) k0 k1])) [keyNum k0 k1] := by
  have hb : Passes map (if big then [0x02] else []) (if big then [0x02] else []) [] := by
    cases big
    · exact .nil map
    · exact .bare map 0x02 (by decide) fun _ _ => rfl
  simpa using (Passes.plain map op args h hs).seq (hb.seq (.scalar map t.tag k0 k1 (tag_scalar t).1 (tag_scalar t).2))

theorem mapKeys_labels (φ : Nat → Nat) : ∀ cs : Cases, (cs.mapKeys φ).labels = cs.labels
  | .nil => rfl
  | .cons l f rest => by simp only [Cases.mapKeys, Cases.labels, mapKeys_labels φ rest]

theorem tableOf_op (l : List (Option Word × Nat)) (n : Nat) : (tableOf l n).1 = 0x53 ∨ (tableOf l n).1 = 0x51 := by
  unfold tableOf
  dsimp only
  split
  · exact .inl rfl
  · exact .inr rfl

mutual

theorem sch_passes (marks map : List Nat) : ∀ f : Sch, f.inStep marks map = true →
    ∃ ks, Passes map f.code (f.mapKeys (moved map)).code ks ∧ ∀ k ∈ f.keys, k ∈ ks ∨ k ∈ marks
  | .fld f, h => by
    obtain ⟨ks, h, hk⟩ := fld_passes map f h
    exact ⟨ks, h, fun k h => .inl (hk k h)⟩
  | .seq a b, h => by
    simp only [Sch.inStep, decide_eq_true_eq] at h
    rcases h with h | ⟨ha, hb⟩
    · obtain ⟨k0, k1, rfl, rfl⟩ : ∃ k0 k1, a = .fld (.bitBool k0 k1) ∧ b = .fld .setLE := by
        unfold Sch.isBit at h
        split at h
        · exact ⟨_, _, rfl, rfl⟩
        · cases h
      refine ⟨_, Passes.key map 0x22 k0 k1 [0x01] (by decide) (by decide) fun _ _ => rfl, fun k h => .inl ?_⟩
      simpa [Sch.keys, Fld.keys] using h
    · obtain ⟨ks, ha, hka⟩ := sch_passes marks map a ha
      obtain ⟨ks', hb, hkb⟩ := sch_passes marks map b hb
      refine ⟨_, ha.seq hb, fun k h => ?_⟩
      simp only [Sch.keys, List.mem_append] at h ⊢
      rcases h with h | h
      · exact (hka k h).imp .inl id
      · exact (hkb k h).imp .inr id
  | .struct k0 k1 f, h => by
    obtain ⟨ks, hf, hk⟩ := sch_passes marks map f h
    refine ⟨_, (Passes.key map 0x03 k0 k1 [] (by decide) (by decide) fun _ _ => rfl).seq
      (hf.seq (.bare map 0x04 (by decide) fun _ _ => rfl)), fun k h => ?_⟩
    simp only [Sch.keys, List.mem_cons, List.mem_append, List.append_nil] at h ⊢
    rcases h with h | h
    · exact .inl (.inl (.inl h))
    · exact (hk k h).imp .inr id
  | .arrFixed k0 k1 n f, h => by
    obtain ⟨ks, hf, hk⟩ := sch_passes marks map f h
    refine ⟨_, (Passes.key map 0x34 k0 k1 (leBytes 4 n) (by decide) (by decide) fun _ _ => rfl).seq
      (hf.seq (.bare map 0x38 (by decide) fun _ _ => rfl)), fun k h => ?_⟩
    simp only [Sch.keys, List.mem_cons, List.mem_append, List.append_nil] at h ⊢
    rcases h with h | h
    · exact .inl (.inl (.inl h))
    · exact (hk k h).imp .inr id
  | .arrPre p k0 k1 f, h => by
    obtain ⟨ks, hf, hk⟩ := sch_passes marks map f h
    refine ⟨_, (Passes.key map p.arrOp k0 k1 [] (by cases p <;> decide) (by cases p <;> decide)
      (by cases p <;> exact fun _ _ => rfl)).seq
      (hf.seq (.bare map 0x38 (by decide) fun _ _ => rfl)), fun k h => ?_⟩
    simp only [Sch.keys, List.mem_cons, List.mem_append, List.append_nil] at h ⊢
    rcases h with h | h
    · exact .inl (.inl (.inl h))
    · exact (hk k h).imp .inr id
  | .arrDyn k0 k1 r0 r1 f, h => by
    obtain ⟨ks, hf, hk⟩ := sch_passes marks map f h
    refine ⟨_, (Passes.dyn map k0 k1 r0 r1).seq (hf.seq (.bare map 0x38 (by decide) fun _ _ => rfl)), fun k h => ?_⟩
    simp only [Sch.keys, List.mem_cons, List.mem_append, List.append_nil] at h ⊢
    rcases h with h | h | h
    · exact .inl (.inl (.inl h))
    · exact .inl (.inl (.inr (.inl h)))
    · exact (hk k h).imp .inr id
  | .opt, _ => ⟨_, .bare map 0x4A (by decide) fun _ _ => rfl, fun k hk => by simp [Sch.keys] at hk⟩
  | .trans x c big t k0 k1, _ => by
    refine ⟨_, Passes.trans map x.op (leBytes 8 c) big t k0 k1 ?_ ?_, fun k hk => .inl hk⟩
    · cases x <;> decide
    · cases x <;> exact fun _ _ => rfl
  | .curve c big n k0 k1, h => by
    refine ⟨_, Passes.field big n k0 k1 (curve_passes map c h), fun k hk => .inl hk⟩
  | .calc .., h => by cases h
  | .ite c a b, h => by
    simp only [Sch.inStep, decide_eq_true_eq] at h
    obtain ⟨ks, hc, hkc⟩ := iexpr_passes map c h.1
    obtain ⟨ks1, ha, hka⟩ := sch_passes marks map a h.2.1
    obtain ⟨ks2, hb, hkb⟩ := sch_passes marks map b h.2.2
    refine ⟨ks ++ (ks1 ++ ks2), ?_, fun k h => ?_⟩
    · simp only [Sch.code, Sch.mapKeys, iteCode, ha.len, hb.len]
      have := hc.seq ((Passes.jump map 0x50 (a.code.length + 5) (.inl rfl)).seq
        (ha.seq ((Passes.jump map 0x52 b.code.length (.inr rfl)).seq hb)))
      simpa only [List.append_assoc, List.nil_append] using this
    · simp only [Sch.keys, List.mem_append] at h ⊢
      rcases h with h | h | h
      · exact .inl (.inl (hkc k h))
      · exact (hka k h).imp (fun h => .inr (.inl h)) id
      · exact (hkb k h).imp (fun h => .inr (.inr h)) id
  | .switch k0 k1 cs, h => by
    simp only [Sch.inStep, decide_eq_true_eq] at h
    obtain ⟨hcs, ht, h53⟩ := h
    obtain ⟨hsh, ks, hp, hk⟩ := cases_passes marks map (tableOf (armsAt 0 cs.codes) (armsSize cs.codes)).2.length cs hcs
    obtain ⟨ks2, ht⟩ := quiet_passes ht
    simp only [Sch.code, Sch.mapKeys, switchCode, shape_at hsh, shape_size hsh]
    rw [u16le_two, u16le_two, (Prod.mk.injEq ..).mp (lohi_keyNum k0 k1) |>.1, (Prod.mk.injEq ..).mp (lohi_keyNum k0 k1) |>.2,
      (Prod.mk.injEq ..).mp (lohi_keyNum (reLo (moved map) k0 k1) (reHi (moved map) k0 k1)) |>.1,
      (Prod.mk.injEq ..).mp (lohi_keyNum (reLo (moved map) k0 k1) (reHi (moved map) k0 k1)) |>.2]
    rcases tableOf_op (armsAt 0 cs.codes) (armsSize cs.codes) with h1 | h1
    · obtain ⟨hq, hm, he⟩ := h53 h1
      obtain ⟨ks0, hq⟩ := quiet_passes hq
      have e : reLo (moved map) k0 k1 = k0 ∧ reHi (moved map) k0 k1 = k1 := by
        unfold reLo reHi
        rw [he]
        exact (Prod.mk.injEq ..).mp (lohi_keyNum k0 k1)
      rw [e.1, e.2, h1]
      refine ⟨ks0 ++ (ks ++ ks2), ?_, fun k h => ?_⟩
      · have := hq.seq (hp.seq ht)
        simpa only [List.append_assoc, List.cons_append, List.nil_append] using this
      · simp only [Sch.keys, List.mem_cons, List.mem_append] at h ⊢
        rcases h with rfl | h
        · exact .inr hm
        · exact (hk k h).imp (fun h => .inr (.inl h)) id
    · rw [h1]
      refine ⟨keyNum k0 k1 :: (ks ++ ks2), ?_, fun k h => ?_⟩
      · have := (Passes.key map 0x51 k0 k1 (u32le (armsSize cs.codes)) (by decide) (by decide)
          (fun _ _ => by simp [u32le, leBytes_length]; rfl)).seq (hp.seq ht)
        simpa only [List.append_assoc, List.cons_append, List.nil_append] using this
      · simp only [Sch.keys, List.mem_cons, List.mem_append] at h ⊢
        rcases h with rfl | h
        · exact .inl (.inl rfl)
        · exact (hk k h).imp (fun h => .inr (.inl h)) id

theorem cases_passes (marks map : List Nat) (t : Nat) : ∀ cs : Cases, cs.inStep marks map = true →
    shape (cs.mapKeys (moved map)).codes = shape cs.codes ∧
    ∃ ks, Passes map (armsCode t cs.codes) (armsCode t (cs.mapKeys (moved map)).codes) ks ∧ ∀ k ∈ cs.keys, k ∈ ks ∨ k ∈ marks
  | .nil, _ => ⟨rfl, _, .nil map, fun k hk => by simp [Cases.keys] at hk⟩
  | .cons l f rest, h => by
    simp only [Cases.inStep, decide_eq_true_eq] at h
    obtain ⟨ks, hf, hk⟩ := sch_passes marks map f h.1
    obtain ⟨hsh, ks', hr, hkr⟩ := cases_passes marks map t rest h.2
    refine ⟨?_, ks ++ ks', ?_, fun k h => ?_⟩
    · have h1' : List.map (fun x => (x.1, x.2.length)) (rest.mapKeys (moved map)).codes =
          List.map (fun x => (x.1, x.2.length)) rest.codes := hsh
      simp only [Cases.mapKeys, Cases.codes, shape, List.map_cons, hf.len, h1']
    · simp only [Cases.mapKeys, Cases.codes, armsCode]
      rw [shape_size hsh]
      have := hf.seq ((Passes.jump map 0x52 (armsSize rest.codes + t) (.inr rfl)).seq hr)
      simpa only [List.append_assoc, List.nil_append] using this
    · simp only [Cases.keys, List.mem_append] at h ⊢
      rcases h with h | h
      · exact (hk k h).imp .inl id
      · exact (hkr k h).imp .inr id

end

/-- Dead-string elimination gives the table and the code of `optSch`. -/
theorem optSch_code {tab tab' : List (List Byte)} {f f' : Sch} (h : optSch tab f = some (tab', f')) :
    optimizeStrings tab f.code = (tab', f'.code) := by
  unfold optSch at h
  split at h
  · cases h
    unfold optimizeStrings
    rw [if_pos (by assumption)]
  · dsimp only at h
    split at h
    rotate_left
    · obtain ⟨_, hs, h⟩ := Option.bind_some_iff h
      have hs := req_ok hs
      cases h
      exact C48_all_used tab f.code hs.1 hs.2.1 hs.2.2
    rename_i h0 hs
    unfold optimizeStrings
    rw [if_neg h0]
    dsimp only
    generalize hm : optMarks f.code.length f.code = marks at h hs ⊢
    cases h
    obtain ⟨ks, hp, _⟩ := sch_passes marks (optTable marks 0 [] tab).2 f hs
    have := hp.rew []
    rw [List.append_nil] at this
    have e : rewr (optTable marks 0 [] tab).2 [] = [] := rfl
    rw [e, List.append_nil] at this
    rw [← this]
    rfl

theorem reLo_id (k0 k1 : Byte) : reLo id k0 k1 = k0 := (Prod.mk.injEq ..).mp (lohi_keyNum k0 k1) |>.1
theorem reHi_id (k0 k1 : Byte) : reHi id k0 k1 = k1 := (Prod.mk.injEq ..).mp (lohi_keyNum k0 k1) |>.2

theorem IExpr.mapKeys_id : ∀ e : IExpr, e.mapKeys id = e
  | .lit _ => rfl
  | .fld k0 k1 => by simp only [IExpr.mapKeys, reLo_id, reHi_id]
  | .un _ e => by simp only [IExpr.mapKeys, e.mapKeys_id]
  | .bin _ a b => by simp only [IExpr.mapKeys, a.mapKeys_id, b.mapKeys_id]

theorem Fld.mapKeys_id (f : Fld) : f.mapKeys id = f := by
  induction f <;> simp only [Fld.mapKeys, reLo_id, reHi_id, *]

mutual

theorem Sch.mapKeys_id : ∀ f : Sch, f.mapKeys id = f
  | .fld f => by simp only [Sch.mapKeys, f.mapKeys_id]
  | .seq a b => by simp only [Sch.mapKeys, a.mapKeys_id, b.mapKeys_id]
  | .struct _ _ f | .arrFixed _ _ _ f | .arrPre _ _ _ f | .arrDyn _ _ _ _ f => by
    simp only [Sch.mapKeys, f.mapKeys_id, reLo_id, reHi_id]
  | .opt => rfl
  | .trans .. | .curve .. => by simp only [Sch.mapKeys, reLo_id, reHi_id]
  | .calc e _ _ _ _ => by simp only [Sch.mapKeys, e.mapKeys_id, reLo_id, reHi_id]
  | .ite c a b => by simp only [Sch.mapKeys, c.mapKeys_id, a.mapKeys_id, b.mapKeys_id]
  | .switch _ _ cs => by simp only [Sch.mapKeys, cs.mapKeys_id, reLo_id, reHi_id]

theorem Cases.mapKeys_id : ∀ cs : Cases, cs.mapKeys id = cs
  | .nil => rfl
  | .cons _ f rest => by simp only [Cases.mapKeys, f.mapKeys_id, rest.mapKeys_id]

end

/-- The names of the keys stay: every key of the description is moved to a place where its name is. -/
theorem optSch_names {tab tab' : List (List Byte)} {f f' : Sch} (h : optSch tab f = some (tab', f')) (hl : tab.length ≤ 65536) :
    tab'.Nodup ∧ (∀ x ∈ tab', x ∈ tab) ∧
    ∃ φ : Nat → Nat, f' = f.mapKeys φ ∧ ∀ k ∈ f.keys, k < tab.length → φ k < 65536 ∧ tab'[φ k]? = tab[k]? := by
  unfold optSch at h
  split at h
  · next h0 =>
    cases h
    have h0 : tab = [] := List.length_eq_zero_iff.1 h0
    subst h0
    exact ⟨by simp, fun x hx => hx, id, (Sch.mapKeys_id f).symm, fun k _ hk => by simp at hk⟩
  · dsimp only at h
    split at h
    rotate_left
    · obtain ⟨_, hs, h⟩ := Option.bind_some_iff h
      have hs := req_ok hs
      cases h
      exact ⟨hs.1, fun x hx => hx, id, (Sch.mapKeys_id f).symm, fun k _ hk => ⟨by show k < 65536; omega, rfl⟩⟩
    rename_i hs
    cases h
    generalize hm : optMarks f.code.length f.code = marks at hs ⊢
    obtain ⟨ks, hp, hk⟩ := sch_passes marks (optTable marks 0 [] tab).2 f hs
    have hks : ∀ k ∈ f.keys, k ∈ marks := by
      intro k h
      have := hp.met []
      rw [List.append_nil] at this
      have e : mks [] = [] := rfl
      rw [e, List.append_nil] at this
      have e2 : mks f.code = marks := hm
      rcases hk k h with h | h
      · rw [← e2, this]; exact h
      · exact h
    obtain ⟨hn, hsub⟩ := optTable_sub marks tab 0 [] (by simp)
    refine ⟨hn, fun x hx => ?_, moved (optTable marks 0 [] tab).2, rfl, fun k h hlt => ?_⟩
    · rcases hsub x hx with h | ⟨j, _, h⟩
      · simp at h
      · exact List.mem_of_getElem? h
    · obtain ⟨_, hsp⟩ := optTable_spec marks tab 0 [] (by simpa using hl)
      obtain ⟨n, h1, h2, h3⟩ := hsp k tab[k] (List.getElem?_eq_getElem hlt) (by simpa using hks k h)
      have e : moved (optTable marks 0 [] tab).2 k = n := by unfold moved; rw [h1]; rfl
      rw [e]
      exact ⟨h2, by rw [h3, List.getElem?_eq_getElem hlt]⟩

end Cnd
