/-
  C99: the compiler's registries in memory.
-/
import Verif.Registry
import Verif.Props.Memory
import Verif.Props.LspSymbols

namespace Cnd.Mem

/-! ### Memory divided among roles -/

def upd {R : Type} [DecidableEq R] (mem : R → Option (Nat × List Cell)) (ρ : R) (x : Option (Nat × List Cell)) : R → Option (Nat × List Cell) :=
  fun σ => if σ = ρ then x else mem σ

section
set_option linter.unusedSectionVars false
variable {R : Type} [DecidableEq R] {H : Heap} {mem : R → Option (Nat × List Cell)} {ρ : R}

theorem upd_self (mem : R → Option (Nat × List Cell)) (ρ : R) (x : Option (Nat × List Cell)) : upd mem ρ x ρ = x := if_pos rfl

theorem upd_ne (mem : R → Option (Nat × List Cell)) {ρ σ : R} (x : Option (Nat × List Cell)) (h : σ ≠ ρ) : upd mem ρ x σ = mem σ := if_neg h

/-- Every block in use belongs to one role, and its contents are known. -/
structure Own (H : Heap) (mem : R → Option (Nat × List Cell)) : Prop where
  ok : ∀ (ρ : R) (p : Nat) (c : List Cell), mem ρ = some (p, c) → H.blk p = some c
  inj : ∀ (ρ σ : R) (p : Nat) (c c' : List Cell), mem ρ = some (p, c) → mem σ = some (p, c') → ρ = σ
  cov : ∀ p, H.blk p ≠ none → ∃ ρ c, mem ρ = some (p, c)
  fresh : ∀ p, H.next ≤ p → H.blk p = none
  nil : H.blk 0 = none
  pos : 0 < H.next

theorem Own.ne0 (h : Own H mem) {p : Nat} {c : List Cell} (hm : mem ρ = some (p, c)) : p ≠ 0 := fun e => by
  have := h.ok _ _ _ hm
  rw [e, h.nil] at this
  cases this

theorem Own.lt (h : Own H mem) {p : Nat} {c : List Cell} (hm : mem ρ = some (p, c)) : p < H.next := Nat.lt_of_not_le fun hn => by
  have := h.ok _ _ _ hm
  rw [h.fresh p hn] at this
  cases this

/-- The block of one role is replaced. -/
theorem Own.put (h : Own H mem) {p : Nat} {c : List Cell} (hm : mem ρ = some (p, c)) (c' : List Cell) : Own (H.put p (some c')) (upd mem ρ (some (p, c'))) := by
  have hlt := h.lt hm
  refine ⟨fun σ q d hq => ?_, fun σ τ q d d' h1 h2 => ?_, fun q hq => ?_, fun q hq => ?_, ?_, h.pos⟩
  · by_cases e : σ = ρ
    · subst e
      rw [upd_self] at hq
      cases hq
      exact put_self _ _ _
    · rw [upd_ne _ _ e] at hq
      have : q ≠ p := fun e' => by subst e'; exact e (h.inj _ _ _ _ _ hq hm)
      exact (if_neg this).trans (h.ok _ _ _ hq)
  · have key : ∀ τ d, upd mem ρ (some (p, c')) τ = some (q, d) → ∃ d, mem τ = some (q, d) := by
      intro τ d hd
      by_cases e : τ = ρ
      · subst e
        rw [upd_self] at hd
        cases hd
        exact ⟨_, hm⟩
      · rw [upd_ne _ _ e] at hd
        exact ⟨_, hd⟩
    obtain ⟨_, h1⟩ := key _ _ h1
    obtain ⟨_, h2⟩ := key _ _ h2
    exact h.inj _ _ _ _ _ h1 h2
  · by_cases e : q = p
    · subst e
      exact ⟨ρ, c', upd_self _ _ _⟩
    · have hq : H.blk q ≠ none := fun e' => hq ((if_neg e).trans e')
      obtain ⟨σ, d, hs⟩ := h.cov q hq
      refine ⟨σ, d, ?_⟩
      rw [upd_ne _ _ fun e' => ?_]
      · exact hs
      · subst e'
        rw [hm] at hs
        cases hs
        exact e rfl
  · have hq : H.next ≤ q := hq
    exact (if_neg (by omega)).trans (h.fresh q hq)
  · exact (if_neg fun e => h.ne0 hm e.symm).trans h.nil

theorem Own.malloc (h : Own H mem) (hm : mem ρ = none) (n : Nat) :
    Own (malloc H n).1 (upd mem ρ (some ((malloc H n).2, List.replicate n .junk))) ∧ (Mem.malloc H n).2 ≠ 0 := by
  have e1 : (Mem.malloc H n).2 = H.next := rfl
  have hb : ∀ q, (Mem.malloc H n).1.blk q = if q = H.next then some (List.replicate n .junk) else H.blk q := fun _ => rfl
  have hn0 : H.next ≠ 0 := by have := h.pos; omega
  rw [e1]
  have old : ∀ σ q d, mem σ = some (q, d) → q ≠ H.next := fun σ q d hs => Nat.ne_of_lt (h.lt hs)
  refine ⟨⟨fun σ q d hq => ?_, fun σ τ q d d' h1 h2 => ?_, fun q hq => ?_, fun q hq => ?_, ?_, Nat.succ_pos _⟩, hn0⟩
  · rw [hb]
    by_cases e : σ = ρ
    · subst e
      rw [upd_self] at hq
      cases hq
      exact if_pos rfl
    · rw [upd_ne _ _ e] at hq
      exact (if_neg (old _ _ _ hq)).trans (h.ok _ _ _ hq)
  · by_cases e : σ = ρ
    · by_cases e' : τ = ρ
      · rw [e, e']
      · subst e
        rw [upd_self] at h1
        cases h1
        rw [upd_ne _ _ e'] at h2
        exact absurd rfl (old _ _ _ h2)
    · rw [upd_ne _ _ e] at h1
      by_cases e' : τ = ρ
      · subst e'
        rw [upd_self] at h2
        cases h2
        exact absurd rfl (old _ _ _ h1)
      · rw [upd_ne _ _ e'] at h2
        exact h.inj _ _ _ _ _ h1 h2
  · rw [hb] at hq
    by_cases e : q = H.next
    · subst e
      exact ⟨ρ, _, upd_self _ _ _⟩
    · rw [if_neg e] at hq
      obtain ⟨σ, d, hs⟩ := h.cov q hq
      exact ⟨σ, d, (upd_ne _ _ fun e' => by subst e'; rw [hm] at hs; cases hs).trans hs⟩
  · have hq : H.next + 1 ≤ q := hq
    rw [hb, if_neg (by omega)]
    exact h.fresh q (by omega)
  · rw [hb, if_neg (Ne.symm hn0)]
    exact h.nil

theorem Own.free (h : Own H mem) {p : Nat} {c : List Cell} (hm : mem ρ = some (p, c)) : free H p = some (H.put p none) ∧ Own (H.put p none) (upd mem ρ none) := by
  have hlt := h.lt hm
  refine ⟨by rw [Mem.free, h.ok _ _ _ hm]; rfl, fun σ q d hq => ?_, fun σ τ q d d' h1 h2 => ?_, fun q hq => ?_, fun q hq => ?_, ?_, h.pos⟩
  · by_cases e : σ = ρ
    · subst e
      rw [upd_self] at hq
      cases hq
    · rw [upd_ne _ _ e] at hq
      have : q ≠ p := fun e' => by subst e'; exact e (h.inj _ _ _ _ _ hq hm)
      exact (if_neg this).trans (h.ok _ _ _ hq)
  · have key : ∀ τ d, upd mem ρ none τ = some (q, d) → mem τ = some (q, d) := by
      intro τ d hd
      by_cases e : τ = ρ
      · subst e
        rw [upd_self] at hd
        cases hd
      · rwa [upd_ne _ _ e] at hd
    exact h.inj _ _ _ _ _ (key _ _ h1) (key _ _ h2)
  · by_cases e : q = p
    · subst e
      exact absurd (put_self _ _ _) hq
    · have hq : H.blk q ≠ none := fun e' => hq ((if_neg e).trans e')
      obtain ⟨σ, d, hs⟩ := h.cov q hq
      refine ⟨σ, d, ?_⟩
      rw [upd_ne _ _ fun e' => ?_]
      · exact hs
      · subst e'
        rw [hm] at hs
        cases hs
        exact e rfl
  · have hq : H.next ≤ q := hq
    exact (if_neg (by omega)).trans (h.fresh q hq)
  · exact (if_neg fun e => h.ne0 hm e.symm).trans h.nil

theorem upd_upd (mem : R → Option (Nat × List Cell)) (ρ : R) (x y : Option (Nat × List Cell)) : upd (upd mem ρ x) ρ y = upd mem ρ y := by
  funext σ
  by_cases e : σ = ρ
  · subst e; rw [upd_self, upd_self]
  · rw [upd_ne _ _ e, upd_ne _ _ e, upd_ne _ _ e]

theorem Own.realloc (h : Own H mem) {p n : Nat} {m rest : List Cell} (hm : mem ρ = some (p, m ++ rest)) (hn : m.length + rest.length ≤ n) :
    ∃ H' p' rest', realloc H p n = some (H', p') ∧ Own H' (upd mem ρ (some (p', m ++ rest'))) ∧ m.length + rest'.length = n := by
  obtain ⟨hf, ho⟩ := h.free hm
  obtain ⟨ha, _⟩ := ho.malloc (ρ := ρ) (upd_self _ _ _) n
  have hc := ha.put (upd_self _ _ _) ((m ++ rest) ++ List.replicate (n - (m ++ rest).length) .junk)
  rw [upd_upd, upd_upd] at hc
  refine ⟨_, H.next, rest ++ List.replicate (n - (m ++ rest).length) .junk, by rw [Mem.realloc, h.ok _ _ _ hm]; rfl, ?_, by simp; omega⟩
  rw [← List.append_assoc]
  have e : ((m ++ rest).take n) = m ++ rest := List.take_of_length_le (by simpa using hn)
  rw [e]
  have eh : ((H.put p none).put H.next (some ((m ++ rest) ++ List.replicate (n - (m ++ rest).length) .junk))) =
      { ((H.put p none).put H.next (some (List.replicate n .junk))).put H.next (some ((m ++ rest) ++ List.replicate (n - (m ++ rest).length) .junk)) with next := H.next } := by
    show Heap.mk _ _ = Heap.mk _ _
    congr 1
    funext q
    show (if q = H.next then _ else if q = p then _ else _) = (if q = H.next then _ else if q = H.next then _ else if q = p then _ else _)
    by_cases e : q = H.next
    · rw [if_pos e, if_pos e]
    · rw [if_neg e, if_neg e, if_neg e]
  rw [eh]
  exact hc

/-- Overwriting cells in the middle. -/
theorem Own.poke (h : Own H mem) {p : Nat} {a b c x : List Cell} (hm : mem ρ = some (p, a ++ b ++ c)) (hx : x.length = b.length) :
    ∃ H', poke H p a.length x = some H' ∧ Own H' (upd mem ρ (some (p, a ++ x ++ c))) :=
  ⟨_, poke_ok (h.ok _ _ _ hm) rfl hx, h.put hm _⟩

theorem Own.pokeEnd (h : Own H mem) {p : Nat} {m rest x : List Cell} (hm : mem ρ = some (p, m ++ rest)) (hx : x.length ≤ rest.length) :
    ∃ H', Mem.poke H p m.length x = some H' ∧ Own H' (upd mem ρ (some (p, m ++ x ++ rest.drop x.length))) :=
  ⟨_, poke_end (h.ok _ _ _ hm) hx, h.put hm _⟩

/-! ### Strings -/

def cstring (bs : List Byte) : List Cell := bs.map .byte ++ [.byte 0]

/-- A string, or NULL. -/
def StrRep (mem : R → Option (Nat × List Cell)) (ρ : R) (p : Nat) : Option (List Byte) → Prop
  | none => p = 0 ∧ mem ρ = none
  | some bs => mem ρ = some (p, cstring bs) ∧ 0 ∉ bs

theorem Own.dup (h : Own H mem) (hm : mem ρ = none) (bs : List Byte) :
    ∃ H' p, dupStr H bs = some (H', p) ∧ Own H' (upd mem ρ (some (p, cstring bs))) := by
  obtain ⟨ha, _⟩ := h.malloc hm (bs.length + 1)
  obtain ⟨H1, e1, h1⟩ := ha.pokeEnd (m := []) (rest := List.replicate (bs.length + 1) .junk) (x := bs.map .byte) (upd_self _ _ _) (by simp)
  obtain ⟨H2, e2, h2⟩ := h1.pokeEnd (m := bs.map .byte) (x := [.byte 0]) (rest := (List.replicate (bs.length + 1) .junk).drop bs.length)
    (by rw [upd_self, List.nil_append, List.length_map]) (by rw [List.length_drop, List.length_replicate]; show 1 ≤ _; omega)
  rw [upd_upd, upd_upd] at h2
  refine ⟨H2, (Mem.malloc H (bs.length + 1)).2, ?_, ?_⟩
  · rw [dupStr]
    have e1 : Mem.poke (Mem.malloc H (bs.length + 1)).1 (Mem.malloc H (bs.length + 1)).2 0 (bs.map .byte) = some H1 := e1
    have e2 : Mem.poke H1 (Mem.malloc H (bs.length + 1)).2 bs.length [.byte 0] = some H2 := by rw [← e2, List.length_map]
    show (Option.bind (Mem.poke _ _ 0 _) _) = _
    rw [e1]
    show (Option.map _ (Mem.poke H1 _ _ _)) = _
    rw [e2]
    rfl
  · have : cstring bs = bs.map .byte ++ [.byte 0] ++ ((List.replicate (bs.length + 1) Cell.junk).drop bs.length).drop [Cell.byte 0].length := by
      rw [List.drop_drop, List.drop_eq_nil_of_le (by simp), List.append_nil]
      rfl
    rw [this]
    exact h2

/-- A copy of a string, or NULL. -/
theorem Own.dupO (h : Own H mem) (hm : mem ρ = none) (o : Option (List Byte)) (hz : ∀ bs, o = some bs → 0 ∉ bs) :
    ∃ H' p mem', dupOpt H o = some (H', p) ∧ Own H' mem' ∧ StrRep mem' ρ p o ∧ ∀ σ, σ ≠ ρ → mem' σ = mem σ := by
  cases o with
  | none => exact ⟨H, 0, mem, rfl, h, ⟨rfl, hm⟩, fun _ _ => rfl⟩
  | some bs =>
    obtain ⟨H', p, e, h'⟩ := h.dup hm bs
    exact ⟨H', p, _, e, h', ⟨upd_self _ _ _, hz bs rfl⟩, fun σ hs => upd_ne _ _ hs⟩

theorem Own.freeO (h : Own H mem) {p : Nat} {o : Option (List Byte)} (hs : StrRep mem ρ p o) :
    ∃ H', freeOpt H p = some H' ∧ Own H' (upd mem ρ none) := by
  cases o with
  | none =>
    refine ⟨H, by rw [freeOpt, if_pos hs.1], ?_⟩
    have : upd mem ρ none = mem := by
      funext σ
      by_cases e : σ = ρ
      · rw [e, upd_self, hs.2]
      · rw [upd_ne _ _ e]
    rw [this]
    exact h
  | some bs =>
    obtain ⟨e, h'⟩ := h.free hs.1
    exact ⟨_, by rw [freeOpt, if_neg (h.ne0 hs.1), e], h'⟩

/-! ### Buffers -/

def BufRep (mem : R → Option (Nat × List Cell)) (ρ : R) (b : Buf) (bs : List Byte) : Prop :=
  ∃ rest, mem ρ = some (b.data, bs.map .byte ++ rest) ∧ b.size = bs.length ∧ b.cap = bs.length + rest.length ∧ 0 < b.cap

theorem BufRep.of_eq {mem' : R → Option (Nat × List Cell)} {b : Buf} {bs : List Byte} (h : BufRep mem ρ b bs) (e : mem' ρ = mem ρ) : BufRep mem' ρ b bs := by
  obtain ⟨rest, h1, h2⟩ := h
  exact ⟨rest, e.trans h1, h2⟩

theorem Own.bufInit (h : Own H mem) (hm : mem ρ = none) :
    ∃ mem', Own (bufInit H).1 mem' ∧ BufRep mem' ρ (bufInit H).2 [] ∧ ∀ σ, σ ≠ ρ → mem' σ = mem σ :=
  ⟨_, (h.malloc hm 1024).1, ⟨List.replicate 1024 .junk, upd_self _ _ _, rfl, (by rw [List.length_replicate]; rfl), Nat.succ_pos 1023⟩, fun _ hs => upd_ne _ _ hs⟩

/-- A buffer with room for `k` more bytes. -/
def RoomRep (mem : R → Option (Nat × List Cell)) (ρ : R) (b : Buf) (bs : List Byte) (k : Nat) : Prop :=
  ∃ rest, mem ρ = some (b.data, bs.map .byte ++ rest) ∧ b.size = bs.length ∧ b.cap = bs.length + rest.length ∧ 0 < b.cap ∧ k ≤ rest.length

theorem Own.bufRoom (h : Own H mem) {b : Buf} {bs : List Byte} (hb : BufRep mem ρ b bs) (k : Nat) :
    ∃ H' b' mem', bufRoom H b (b.size + k) = some (H', b') ∧ Own H' mem' ∧ RoomRep mem' ρ b' bs k ∧ ∀ σ, σ ≠ ρ → mem' σ = mem σ := by
  obtain ⟨rest, hm, hs, hc, h0⟩ := hb
  rw [Mem.bufRoom]
  by_cases hg : b.cap < b.size + k
  · rw [if_pos hg]
    have hgr := grow_ok (b.size + k) b.cap h0
    obtain ⟨H', p', rest', e, ho, hl⟩ := h.realloc hm (n := grow (b.size + k) b.cap) (by simp; omega)
    rw [e]
    rw [List.length_map] at hl
    exact ⟨H', ⟨p', b.size, grow (b.size + k) b.cap⟩, _, rfl, ho, ⟨rest', upd_self _ _ _, hs, hl.symm, (by show 0 < grow _ _; omega), by omega⟩, fun _ hs => upd_ne _ _ hs⟩
  · rw [if_neg hg]
    exact ⟨H, b, mem, rfl, h, ⟨rest, hm, hs, hc, h0, by omega⟩, fun _ _ => rfl⟩

theorem Own.bufFill (h : Own H mem) {b : Buf} {bs x : List Byte} (hb : RoomRep mem ρ b bs x.length) :
    ∃ H' mem', Mem.poke H b.data b.size (x.map .byte) = some H' ∧ Own H' mem' ∧ BufRep mem' ρ { b with size := b.size + x.length } (bs ++ x) ∧ ∀ σ, σ ≠ ρ → mem' σ = mem σ := by
  obtain ⟨rest, hm, hs, hc, h0, hr⟩ := hb
  obtain ⟨H', e, ho⟩ := h.pokeEnd hm (x := x.map .byte) (by simpa using hr)
  rw [List.length_map, ← hs] at e
  refine ⟨H', _, e, ho, ⟨rest.drop x.length, ?_, ?_, ?_, h0⟩, fun _ hs => upd_ne _ _ hs⟩
  · rw [upd_self, List.map_append, List.length_map]
  · show b.size + x.length = _
    rw [hs, List.length_append]
  · show b.cap = _
    rw [hc, List.length_append, List.length_drop]
    omega

theorem Own.bufAppend (h : Own H mem) {b : Buf} {bs : List Byte} (hb : BufRep mem ρ b bs) (x : List Byte) :
    ∃ H' b' mem', bufAppend H b x = some (H', b') ∧ Own H' mem' ∧ BufRep mem' ρ b' (bs ++ x) ∧ ∀ σ, σ ≠ ρ → mem' σ = mem σ := by
  obtain ⟨H1, b1, m1, e1, h1, hr, hf1⟩ := h.bufRoom hb x.length
  obtain ⟨H2, m2, e2, h2, hb2, hf2⟩ := h1.bufFill hr
  refine ⟨H2, _, m2, ?_, h2, hb2, fun σ hs => (hf2 σ hs).trans (hf1 σ hs)⟩
  rw [Mem.bufAppend, e1]
  show Option.map _ (Mem.poke H1 b1.data b1.size _) = _
  rw [e2]
  rfl

theorem Own.bufPush (h : Own H mem) {b : Buf} {bs : List Byte} (hb : BufRep mem ρ b bs) (x : Byte) :
    ∃ H' b' mem', bufPush H b x = some (H', b') ∧ Own H' mem' ∧ BufRep mem' ρ b' (bs ++ [x]) ∧ ∀ σ, σ ≠ ρ → mem' σ = mem σ := by
  have key : ∃ H1 b1 m1, (if b.cap ≤ b.size then (Mem.realloc H b.data (b.cap * 2)).map fun r => (r.1, ({ b with data := r.2, cap := b.cap * 2 } : Buf)) else some (H, b)) = some (H1, b1) ∧
      Own H1 m1 ∧ RoomRep m1 ρ b1 bs 1 ∧ ∀ σ, σ ≠ ρ → m1 σ = mem σ := by
    obtain ⟨rest, hm, hs, hc, h0⟩ := hb
    by_cases hg : b.cap ≤ b.size
    · rw [if_pos hg]
      obtain ⟨H', p', rest', e, ho, hl⟩ := h.realloc hm (n := b.cap * 2) (by simp; omega)
      rw [e]
      rw [List.length_map] at hl
      exact ⟨H', ⟨p', b.size, b.cap * 2⟩, _, rfl, ho, ⟨rest', upd_self _ _ _, hs, hl.symm, (by show 0 < b.cap * 2; omega), by omega⟩, fun _ hs => upd_ne _ _ hs⟩
    · rw [if_neg hg]
      exact ⟨H, b, mem, rfl, h, ⟨rest, hm, hs, hc, h0, by omega⟩, fun _ _ => rfl⟩
  obtain ⟨H1, b1, m1, e1, h1, hr, hf1⟩ := key
  obtain ⟨H2, m2, e2, h2, hb2, hf2⟩ := h1.bufFill (x := [x]) hr
  refine ⟨H2, _, m2, ?_, h2, hb2, fun σ hs => (hf2 σ hs).trans (hf1 σ hs)⟩
  rw [Mem.bufPush, e1]
  show Option.map _ (Mem.poke H1 b1.data b1.size [Cell.byte x]) = _
  have e2 : Mem.poke H1 b1.data b1.size [Cell.byte x] = some H2 := e2
  rw [e2]
  rfl

/-- Appending from another buffer. -/
theorem Own.bufCopy (h : Own H mem) {b c : Buf} {bs ys : List Byte} {σ : R} (hb : BufRep mem ρ b bs) (hc : BufRep mem σ c ys) (hne : σ ≠ ρ) {off n : Nat} (hn : off + n ≤ ys.length) :
    ∃ H' b' mem', bufCopy H b c.data off n = some (H', b') ∧ Own H' mem' ∧ BufRep mem' ρ b' (bs ++ (ys.drop off).take n) ∧ ∀ σ, σ ≠ ρ → mem' σ = mem σ := by
  obtain ⟨H1, b1, m1, e1, h1, hr, hf1⟩ := h.bufRoom hb n
  have hl : ((ys.drop off).take n).length = n := by simp; omega
  obtain ⟨H2, m2, e2, h2, hb2, hf2⟩ := h1.bufFill (x := (ys.drop off).take n) (by rw [hl]; exact hr)
  refine ⟨H2, _, m2, ?_, h2, hb2, fun σ hs => (hf2 σ hs).trans (hf1 σ hs)⟩
  obtain ⟨rest, hm, _, _, _⟩ := hc
  have e3 := peek_ok (h1.ok _ _ _ ((hf1 σ hne).trans hm)) (off := off) (n := n) (by simpa using hn)
  rw [Mem.bufCopy, e1]
  show Option.bind (peek H1 c.data off n) _ = _
  rw [e3]
  show Option.map _ (Mem.poke H1 b1.data b1.size _) = _
  rw [← List.map_drop, ← List.map_take, e2, hl]
  rfl

theorem Own.bufPatch (h : Own H mem) {b : Buf} {bs : List Byte} (hb : BufRep mem ρ b bs) (off : Nat) (x : List Byte) :
    ∃ H' b' mem', bufPatch H b off x = some (H', b') ∧ Own H' mem' ∧
      BufRep mem' ρ b' (if off + x.length > bs.length then bs else bs.take off ++ x ++ bs.drop (off + x.length)) ∧ ∀ σ, σ ≠ ρ → mem' σ = mem σ := by
  obtain ⟨rest, hm, hs, hc, h0⟩ := hb
  rw [Mem.bufPatch]
  by_cases hg : off + x.length > bs.length
  · rw [if_pos (by omega), if_pos hg]
    exact ⟨H, b, mem, rfl, h, ⟨rest, hm, hs, hc, h0⟩, fun _ _ => rfl⟩
  · rw [if_neg (by omega), if_neg hg]
    have hsplit : bs.map Cell.byte ++ rest = (bs.take off).map .byte ++ ((bs.drop off).take x.length).map .byte ++ ((bs.drop (off + x.length)).map .byte ++ rest) := by
      rw [← List.append_assoc, ← List.map_append, ← List.map_append, ← List.drop_drop, List.append_assoc (bs.take off), List.take_append_drop, List.take_append_drop]
    rw [hsplit] at hm
    obtain ⟨H', e, ho⟩ := h.poke hm (x := x.map .byte) (by simp; omega)
    have hl : ((bs.take off).map Cell.byte).length = off := by simp; omega
    rw [hl] at e
    refine ⟨H', b, _, by rw [e]; rfl, ho, ⟨rest, ?_, ?_, ?_, h0⟩, fun _ hs => upd_ne _ _ hs⟩
    · rw [upd_self]; simp
    · rw [hs]; simp; omega
    · rw [hc]; simp; omega

/-! ### Arrays of structures -/

/-- An array of structures of `w` members; NULL when nothing was put into it yet. -/
def TabRep (mem : R → Option (Nat × List Cell)) (ρ : R) (w : Nat) (r : Reg) (ws : List (List Nat)) : Prop :=
  r.count = ws.length ∧ (∀ x ∈ ws, x.length = w) ∧
    ((r.defs = 0 ∧ r.cap = 0 ∧ ws = [] ∧ mem ρ = none) ∨
      (0 < r.cap ∧ ∃ rest, mem ρ = some (r.defs, ws.flatten.map .ptr ++ rest) ∧ w * r.cap = w * ws.length + rest.length))

theorem TabRep.of_eq {mem' : R → Option (Nat × List Cell)} {w : Nat} {r : Reg} {ws : List (List Nat)} (h : TabRep mem ρ w r ws) (e : mem' ρ = mem ρ) : TabRep mem' ρ w r ws := by
  obtain ⟨h1, h2, h3⟩ := h
  rw [← e] at h3
  exact ⟨h1, h2, h3⟩

theorem flatten_len {w : Nat} : ∀ {ws : List (List Nat)}, (∀ x ∈ ws, x.length = w) → ws.flatten.length = w * ws.length
  | [], _ => by simp
  | x :: ws, h => by
    rw [List.flatten_cons, List.length_append, h x (by simp), flatten_len fun y hy => h y (by simp [hy]), List.length_cons, Nat.mul_succ]
    omega

theorem split_at {ws : List (List Nat)} {k : Nat} {x : List Nat} (hk : ws[k]? = some x) : ws = ws.take k ++ x :: ws.drop (k + 1) := by
  obtain ⟨hl, e⟩ := List.getElem?_eq_some_iff.1 hk
  rw [← e, List.getElem_cons_drop, List.take_append_drop]

theorem Own.getRec (h : Own H mem) {w : Nat} {r : Reg} {ws : List (List Nat)} (ht : TabRep mem ρ w r ws) {k : Nat} {x : List Nat} (hk : ws[k]? = some x) :
    getRec H r.defs w k = some x := by
  obtain ⟨hc, hw, ht⟩ := ht
  rcases ht with ⟨_, _, e, _⟩ | ⟨_, rest, hm, _⟩
  · subst e; simp at hk
  · have hb := h.ok _ _ _ hm
    have hl := (List.getElem?_eq_some_iff.1 hk).1
    have hlen := flatten_len hw
    have hx : x.length = w := hw x (List.mem_of_getElem? hk)
    have hle : w * k + w ≤ w * ws.length := by
      rw [← Nat.mul_succ]; exact Nat.mul_le_mul_left _ hl
    rw [Mem.getRec, peek_ok hb (by rw [List.length_map, hlen]; exact hle), ← List.map_drop, ← List.map_take]
    have ht : (ws.take k).flatten.length = w * k := by
      rw [flatten_len fun y hy => hw y (List.mem_of_mem_take hy), List.length_take, Nat.min_eq_left (Nat.le_of_lt hl)]
    have : (ws.flatten.drop (w * k)).take w = x := by
      rw [split_at hk, List.flatten_append, List.flatten_cons, ← ht, List.drop_left, ← hx, List.take_left]
    rw [this]
    exact asPtrs_map x

theorem Own.setRec (h : Own H mem) {w : Nat} {r : Reg} {ws : List (List Nat)} (ht : TabRep mem ρ w r ws) {k : Nat} {x y : List Nat} (hk : ws[k]? = some x) (hy : y.length = w) :
    ∃ H' mem', setRec H r.defs w k y = some H' ∧ Own H' mem' ∧ TabRep mem' ρ w r (ws.set k y) ∧ ∀ σ, σ ≠ ρ → mem' σ = mem σ := by
  obtain ⟨hc, hw, ht⟩ := ht
  have hl := (List.getElem?_eq_some_iff.1 hk).1
  rcases ht with ⟨_, _, e, _⟩ | ⟨h0, rest, hm, hcap⟩
  · subst e; simp at hk
  · have hx : x.length = w := hw x (List.mem_of_getElem? hk)
    have ht : (ws.take k).flatten.length = w * k := by
      rw [flatten_len fun y hy => hw y (List.mem_of_mem_take hy), List.length_take, Nat.min_eq_left (Nat.le_of_lt hl)]
    have hm' : mem ρ = some (r.defs, (ws.take k).flatten.map .ptr ++ x.map .ptr ++ ((ws.drop (k + 1)).flatten.map .ptr ++ rest)) := by
      rw [hm]
      conv => lhs; rw [split_at hk]
      simp
    obtain ⟨H', e, ho⟩ := h.poke hm' (x := y.map .ptr) (by simp [hx, hy])
    rw [List.length_map, ht] at e
    refine ⟨H', _, e, ho, ⟨by rw [hc, List.length_set], fun z hz => ?_, .inr ⟨h0, rest, ?_, by rw [List.length_set]; exact hcap⟩⟩, fun _ hs => upd_ne _ _ hs⟩
    · rcases List.mem_or_eq_of_mem_set hz with hz | hz
      · exact hw z hz
      · rw [hz]; exact hy
    · have : ws.set k y = ws.take k ++ y :: ws.drop (k + 1) := by
        rw [List.set_eq_take_append_cons_drop, if_pos hl]
      rw [upd_self, this]
      simp

/-- An array with room for one more. -/
def SpareRep (mem : R → Option (Nat × List Cell)) (ρ : R) (w : Nat) (r : Reg) (ws : List (List Nat)) : Prop :=
  r.count = ws.length ∧ (∀ x ∈ ws, x.length = w) ∧ 0 < r.cap ∧
    ∃ rest, mem ρ = some (r.defs, ws.flatten.map .ptr ++ rest) ∧ w * r.cap = w * ws.length + rest.length ∧ w ≤ rest.length

theorem SpareRep.of_eq {mem' : R → Option (Nat × List Cell)} {w : Nat} {r : Reg} {ws : List (List Nat)} (h : SpareRep mem ρ w r ws) (e : mem' ρ = mem ρ) : SpareRep mem' ρ w r ws := by
  obtain ⟨h1, h2, h3⟩ := h
  rw [← e] at h3
  exact ⟨h1, h2, h3⟩

theorem Own.regRoom (h : Own H mem) {w : Nat} {r : Reg} {ws : List (List Nat)} (ht : TabRep mem ρ w r ws) (hcc : r.count ≤ r.cap) :
    ∃ H' r' mem', regRoom H w r = some (H', r') ∧ Own H' mem' ∧ SpareRep mem' ρ w r' ws ∧ r'.count < r'.cap ∧ r'.count = r.count ∧ ∀ σ, σ ≠ ρ → mem' σ = mem σ := by
  obtain ⟨hc, hw, ht⟩ := ht
  have hlen := flatten_len hw
  rw [Mem.regRoom]
  by_cases hg : r.cap ≤ r.count
  · rw [if_pos hg]
    rcases ht with ⟨e1, e2, e3, e4⟩ | ⟨h0, rest, hm, hcap⟩
    · subst e3
      obtain ⟨ho, _⟩ := h.malloc e4 (w * 8)
      refine ⟨_, ⟨_, r.count, 8⟩, _, ?_, ho, ⟨hc, hw, Nat.succ_pos 7, List.replicate (w * 8) .junk, upd_self _ _ _, ?_, ?_⟩, ?_, rfl, fun _ hs => upd_ne _ _ hs⟩
      · rw [reallocOpt, if_pos e1, if_pos e2]; rfl
      · simp
      · simp; omega
      · show r.count < 8
        rw [hc]; decide
    · have hle : w * (r.cap * 2) = w * r.cap + w * r.cap := by rw [Nat.mul_comm r.cap 2, Nat.two_mul, Nat.mul_add]
      have hw1 : w * 1 ≤ w * r.cap := Nat.mul_le_mul_left _ h0
      obtain ⟨H', p', rest', e, ho, hl⟩ := h.realloc hm (n := w * (r.cap * 2)) (by rw [List.length_map, hlen]; omega)
      rw [List.length_map, hlen] at hl
      have e0 : (if r.cap = 0 then 8 else r.cap * 2) = r.cap * 2 := if_neg (by omega)
      have hwc : w * ws.length ≤ w * r.cap := Nat.mul_le_mul_left _ (by omega)
      refine ⟨H', ⟨p', r.count, r.cap * 2⟩, _, ?_, ho, ⟨hc, hw, ?_, rest', upd_self _ _ _, ?_, ?_⟩, ?_, rfl, fun _ hs => upd_ne _ _ hs⟩
      · rw [reallocOpt, if_neg (h.ne0 hm), e0, e]; rfl
      · show 0 < r.cap * 2; omega
      · show w * (r.cap * 2) = _; omega
      · omega
      · show r.count < r.cap * 2; omega
  · rw [if_neg hg]
    rcases ht with ⟨e1, e2, e3, e4⟩ | ⟨h0, rest, hm, hcap⟩
    · subst e3
      rw [hc, e2] at hg
      exact absurd (Nat.le_refl _) hg
    · refine ⟨H, r, mem, rfl, h, ⟨hc, hw, h0, rest, hm, hcap, ?_⟩, by omega, rfl, fun _ _ => rfl⟩
      have : w * (ws.length + 1) ≤ w * r.cap := Nat.mul_le_mul_left _ (by omega)
      rw [Nat.mul_succ] at this
      omega

theorem Own.addRec (h : Own H mem) {w : Nat} {r : Reg} {ws : List (List Nat)} (ht : SpareRep mem ρ w r ws) {y : List Nat} (hy : y.length = w) :
    ∃ H' mem', Mem.setRec H r.defs w r.count y = some H' ∧ Own H' mem' ∧ TabRep mem' ρ w { r with count := r.count + 1 } (ws ++ [y]) ∧ ∀ σ, σ ≠ ρ → mem' σ = mem σ := by
  obtain ⟨hc, hw, h0, rest, hm, hcap, hr⟩ := ht
  have hlen := flatten_len hw
  obtain ⟨H', e, ho⟩ := h.pokeEnd hm (x := y.map .ptr) (by simpa [hy] using hr)
  rw [List.length_map, hlen, ← hc] at e
  refine ⟨H', _, e, ho, ⟨by simp [hc], fun z hz => ?_, .inr ⟨h0, rest.drop w, ?_, ?_⟩⟩, fun _ hs => upd_ne _ _ hs⟩
  · rcases List.mem_append.1 hz with hz | hz
    · exact hw z hz
    · rw [List.mem_singleton.1 hz]; exact hy
  · rw [upd_self, List.length_map, hy]
    simp
  · show w * r.cap = _
    rw [List.length_append, List.length_drop, Nat.mul_add]
    simp
    omega

end

/-! ### What the calls mean -/

structure AStruct where
  name : List Byte
  line : Nat
  file : Option (List Byte)
  doc : Option (List Byte)
  code : List Byte
  deriving DecidableEq, Repr

structure AVal where
  name : List Byte
  val : Nat
  doc : Option (List Byte)
  deriving DecidableEq, Repr

structure AEnum where
  name : List Byte
  line : Nat
  file : Option (List Byte)
  doc : Option (List Byte)
  type : Nat
  vals : List AVal
  deriving DecidableEq, Repr

/-- The declarations so far and the code of the packet. -/
structure AReg where
  structs : List AStruct
  enums : List AEnum
  out : List Byte
  deriving DecidableEq, Repr

/-- The last element of a list is changed. -/
def atLast {α : Type} (f : α → α) : List α → List α
  | [] => []
  | [a] => [f a]
  | a :: b :: l => a :: atLast f (b :: l)

/-- Bytes of the code that is being written are changed. -/
def AReg.onCode (A : AReg) (t : Tgt) (f : List Byte → List Byte) : AReg :=
  match t with
  | .out => { A with out := f A.out }
  | .cur => { A with structs := atLast (fun a => { a with code := f a.code }) A.structs }

/-- Code can be written to the packet, or to the last struct. -/
def AReg.has (A : AReg) : Tgt → Prop
  | .out => True
  | .cur => A.structs ≠ []

instance (A : AReg) (t : Tgt) : Decidable (A.has t) :=
  match t with
  | .out => isTrue trivial
  | .cur => if h : A.structs.length = 0 then isFalse (fun e => e (List.length_eq_zero_iff.mp h)) else isTrue (fun e => h (by rw [e]; rfl))

/-- A C string. -/
def CStr (o : Option (List Byte)) : Prop := ∀ bs, o = some bs → 0 ∉ bs

/-- The number of the first declaration of a name. -/
def First (names : List (List Byte)) (name : List Byte) : Option Nat → Prop
  | none => name ∉ names
  | some k => names[k]? = some name ∧ ∀ m, m < k → names[m]? ≠ some name

/-- The calls on lists of declarations. Names have no NUL; code is written to the packet or the struct declared last, and a struct is not
put into itself. -/
inductive DStep (A : AReg) : ROp → AReg → Option Nat → Prop
  | struct {name file doc} (line : Nat) : 0 ∉ name → CStr file → CStr doc →
      DStep A (.struct name line file doc) { A with structs := A.structs ++ [⟨name, line, file, doc, []⟩] } none
  | enum {name file doc} (line : Nat) : 0 ∉ name → CStr file → CStr doc →
      DStep A (.enum name line file doc) { A with enums := A.enums ++ [⟨name, line, file, doc, 0x12, []⟩] } none
  | push {t} (b : Byte) : A.has t → DStep A (.push t b) (A.onCode t (· ++ [b])) none
  | append {t} (bs : List Byte) : A.has t → DStep A (.append t bs) (A.onCode t (· ++ bs)) none
  | patch {t} (off : Nat) (bs : List Byte) : A.has t →
      DStep A (.patch t off bs) (A.onCode t fun c => if off + bs.length > c.length then c else c.take off ++ bs ++ c.drop (off + bs.length)) none
  | inline {t j off n a} : A.has t → A.structs[j]? = some a → (t = .cur → j + 1 ≠ A.structs.length) → off + n ≤ a.code.length →
      DStep A (.inline t j off n) (A.onCode t (· ++ (a.code.drop off).take n)) none
  | type (v : Nat) : A.enums ≠ [] → DStep A (.type v) { A with enums := atLast (fun a => { a with type := v }) A.enums } none
  | value {name doc} (v : Nat) : 0 ∉ name → CStr doc → (h : A.enums ≠ []) →
      DStep A (.value name v doc) { A with enums := atLast (fun a => { a with vals := a.vals ++ [⟨name, v, doc⟩] }) A.enums }
        (some (if v ∈ (A.enums.getLast h).vals.map (·.val) then 1 else 0))
  | find {name k} : First (A.structs.map (·.name)) name k → DStep A (.find name) A k
  | efind {name k} : First (A.enums.map (·.name)) name k → DStep A (.efind name) A k

inductive DRun : AReg → List ROp → AReg → List (Option Nat) → Prop
  | nil {A} : DRun A [] A []
  | cons {A op A1 r ops A2 rs} : DStep A op A1 r → DRun A1 ops A2 rs → DRun A (op :: ops) A2 (r :: rs)

/-! ### The registries in memory -/

inductive Part
  | name | data | file | doc
  deriving DecidableEq

/-- What a block is for. -/
inductive Role
  | out | sTab | eTab
  | s (k : Nat) (i : Part)
  | e (k : Nat) (i : Part)
  | v (k j : Nat) (doc : Bool)
  deriving DecidableEq

abbrev Mm := Role → Option (Nat × List Cell)

structure SRep (mem : Mm) (k : Nat) (d : SDef) (a : AStruct) : Prop where
  name : mem (.s k .name) = some (d.name, cstring a.name)
  nz : 0 ∉ a.name
  line : d.line = a.line
  file : StrRep mem (.s k .file) d.file a.file
  doc : StrRep mem (.s k .doc) d.doc a.doc
  code : BufRep mem (.s k .data) d.code a.code

theorem SRep.of_eq {mem mem' : Mm} {k : Nat} {d : SDef} {a : AStruct} (h : SRep mem k d a) (e : ∀ i, mem' (.s k i) = mem (.s k i)) : SRep mem' k d a := by
  refine ⟨(e _).trans h.name, h.nz, h.line, ?_, ?_, h.code.of_eq (e _)⟩
  · have := h.file
    revert this
    cases a.file <;> (simp only [StrRep]; rw [e]; exact id)
  · have := h.doc
    revert this
    cases a.doc <;> (simp only [StrRep]; rw [e]; exact id)

structure SInv (mem : Mm) (r : Reg) (ds : List SDef) (as : List AStruct) : Prop where
  tab : TabRep mem .sTab 7 r (ds.map SDef.words)
  len : ds.length = as.length
  rep : ∀ (k : Nat) (d : SDef) (a : AStruct), ds[k]? = some d → as[k]? = some a → SRep mem k d a
  end_ : ∀ (k : Nat) (i : Part), as.length ≤ k → mem (.s k i) = none

theorem SInv.of_eq {mem mem' : Mm} {r : Reg} {ds : List SDef} {as : List AStruct} (h : SInv mem r ds as) (e0 : mem' .sTab = mem .sTab) (e : ∀ k i, mem' (.s k i) = mem (.s k i)) :
    SInv mem' r ds as :=
  ⟨h.tab.of_eq e0, h.len, fun k d a h1 h2 => (h.rep k d a h1 h2).of_eq (e k), fun k i hk => (e k i).trans (h.end_ k i hk)⟩

structure VRep (mem : Mm) (k j : Nat) (w : List Nat) (a : AVal) : Prop where
  ex : ∃ nm dc, w = [nm, a.val, dc] ∧ mem (.v k j false) = some (nm, cstring a.name) ∧ StrRep mem (.v k j true) dc a.doc
  nz : 0 ∉ a.name

theorem VRep.of_eq {mem mem' : Mm} {k j : Nat} {w : List Nat} {a : AVal} (h : VRep mem k j w a) (e : ∀ i, mem' (.v k j i) = mem (.v k j i)) : VRep mem' k j w a := by
  obtain ⟨⟨nm, dc, h1, h2, h3⟩, h4⟩ := h
  refine ⟨⟨nm, dc, h1, (e _).trans h2, ?_⟩, h4⟩
  revert h3
  cases a.doc <;> (simp only [StrRep]; rw [e]; exact id)

structure VInv (mem : Mm) (k : Nat) (r : Reg) (ws : List (List Nat)) (as : List AVal) : Prop where
  tab : TabRep mem (.e k .data) 3 r ws
  len : ws.length = as.length
  rep : ∀ (j : Nat) (w : List Nat) (a : AVal), ws[j]? = some w → as[j]? = some a → VRep mem k j w a
  end_ : ∀ (j : Nat) (i : Bool), as.length ≤ j → mem (.v k j i) = none

theorem VInv.of_eq {mem mem' : Mm} {k : Nat} {r : Reg} {ws : List (List Nat)} {as : List AVal} (h : VInv mem k r ws as) (e0 : mem' (.e k .data) = mem (.e k .data))
    (e : ∀ j i, mem' (.v k j i) = mem (.v k j i)) : VInv mem' k r ws as :=
  ⟨h.tab.of_eq e0, h.len, fun j d a h1 h2 => (h.rep j d a h1 h2).of_eq (e j), fun j i hk => (e j i).trans (h.end_ j i hk)⟩

structure ERep (mem : Mm) (k : Nat) (d : EDef) (a : AEnum) : Prop where
  name : mem (.e k .name) = some (d.name, cstring a.name)
  nz : 0 ∉ a.name
  line : d.line = a.line
  type : d.type = a.type
  file : StrRep mem (.e k .file) d.file a.file
  doc : StrRep mem (.e k .doc) d.doc a.doc
  vals : ∃ ws, VInv mem k d.vals ws a.vals

theorem ERep.of_eq {mem mem' : Mm} {k : Nat} {d : EDef} {a : AEnum} (h : ERep mem k d a) (e : ∀ i, mem' (.e k i) = mem (.e k i)) (e' : ∀ j i, mem' (.v k j i) = mem (.v k j i)) :
    ERep mem' k d a := by
  refine ⟨(e _).trans h.name, h.nz, h.line, h.type, ?_, ?_, ?_⟩
  · have := h.file
    revert this
    cases a.file <;> (simp only [StrRep]; rw [e]; exact id)
  · have := h.doc
    revert this
    cases a.doc <;> (simp only [StrRep]; rw [e]; exact id)
  · obtain ⟨ws, hv⟩ := h.vals
    exact ⟨ws, hv.of_eq (e _) e'⟩

structure EInv (mem : Mm) (r : Reg) (ds : List EDef) (as : List AEnum) : Prop where
  tab : TabRep mem .eTab 8 r (ds.map EDef.words)
  len : ds.length = as.length
  rep : ∀ (k : Nat) (d : EDef) (a : AEnum), ds[k]? = some d → as[k]? = some a → ERep mem k d a
  end_ : ∀ (k : Nat) (i : Part), as.length ≤ k → mem (.e k i) = none
  endv : ∀ (k j : Nat) (i : Bool), as.length ≤ k → mem (.v k j i) = none

theorem EInv.of_eq {mem mem' : Mm} {r : Reg} {ds : List EDef} {as : List AEnum} (h : EInv mem r ds as) (e0 : mem' .eTab = mem .eTab) (e : ∀ k i, mem' (.e k i) = mem (.e k i))
    (e' : ∀ k j i, mem' (.v k j i) = mem (.v k j i)) : EInv mem' r ds as :=
  ⟨h.tab.of_eq e0, h.len, fun k d a h1 h2 => (h.rep k d a h1 h2).of_eq (e k) (e' k), fun k i hk => (e k i).trans (h.end_ k i hk),
    fun k j i hk => (e' k j i).trans (h.endv k j i hk)⟩

structure RInv (st : RSt) (A : AReg) (mem : Mm) (ds : List SDef) (es : List EDef) : Prop where
  own : Own st.H mem
  s : SInv mem st.s ds A.structs
  e : EInv mem st.e es A.enums
  out : BufRep mem .out st.out A.out
  scur : A.structs ≠ [] → st.scur = some (st.s.defs, A.structs.length - 1)
  ecur : A.enums ≠ [] → st.ecur = some (st.e.defs, A.enums.length - 1)
  caps : 0 < st.s.cap ∧ 0 < st.e.cap

theorem TabRep.le {R : Type} {mem : R → Option (Nat × List Cell)} {ρ : R} {w : Nat} {r : Reg} {ws : List (List Nat)} (h : TabRep mem ρ w r ws) (hw : 0 < w) : r.count ≤ r.cap := by
  obtain ⟨hc, _, ⟨_, h2, h3, _⟩ | ⟨_, rest, _, h4⟩⟩ := h
  · subst h3; rw [hc]; exact Nat.zero_le _
  · rw [hc]
    exact Nat.le_of_mul_le_mul_left (show w * ws.length ≤ w * r.cap by omega) hw

theorem getS_ok {H : Heap} {mem : Mm} {r : Reg} {ds : List SDef} {as : List AStruct} (ho : Own H mem) (h : SInv mem r ds as) {k : Nat} {d : SDef} (hd : ds[k]? = some d) :
    getS H r.defs k = some d := by
  rw [getS, ho.getRec h.tab (k := k) (x := d.words) (by rw [List.getElem?_map, hd]; rfl)]
  rfl

theorem getE_ok {H : Heap} {mem : Mm} {r : Reg} {ds : List EDef} {as : List AEnum} (ho : Own H mem) (h : EInv mem r ds as) {k : Nat} {d : EDef} (hd : ds[k]? = some d) :
    getE H r.defs k = some d := by
  rw [getE, ho.getRec h.tab (k := k) (x := d.words) (by rw [List.getElem?_map, hd]; rfl)]
  rfl

/-- The definition of one struct changes, and with it its roles. -/
theorem SInv.set {H : Heap} {mem mem1 : Mm} {r : Reg} {ds : List SDef} {as : List AStruct} (h : SInv mem r ds as) (ho : Own H mem1) {k : Nat} {d d' : SDef} {a' : AStruct}
    (hd : ds[k]? = some d) (h0 : mem1 .sTab = mem .sTab) (hk : ∀ j i, j ≠ k → mem1 (.s j i) = mem (.s j i)) (hr : SRep mem1 k d' a') :
    ∃ H' mem', setRec H r.defs 7 k d'.words = some H' ∧ Own H' mem' ∧ SInv mem' r (ds.set k d') (as.set k a') ∧ ∀ σ, σ ≠ .sTab → mem' σ = mem1 σ := by
  have hl := (List.getElem?_eq_some_iff.1 hd).1
  obtain ⟨H', mem', e, ho', ht, hf⟩ := ho.setRec (h.tab.of_eq h0) (k := k) (x := d.words) (y := d'.words) (by rw [List.getElem?_map, hd]; rfl) rfl
  refine ⟨H', mem', e, ho', ⟨by rw [List.map_set]; exact ht, by simp [h.len], fun j dj aj hj1 hj2 => ?_, fun j i hj => ?_⟩, hf⟩
  · by_cases ek : j = k
    · subst ek
      rw [List.getElem?_set_self hl] at hj1
      rw [List.getElem?_set_self (by rw [← h.len]; exact hl)] at hj2
      cases hj1
      cases hj2
      exact hr.of_eq fun i => hf _ (by intro e; cases e)
    · rw [List.getElem?_set_ne (Ne.symm ek)] at hj1 hj2
      exact (h.rep j dj aj hj1 hj2).of_eq fun i => (hf _ (by intro e; cases e)).trans (hk j i ek)
  · rw [List.length_set] at hj
    have : j ≠ k := by have := h.len; omega
    exact (hf _ (by intro e; cases e)).trans ((hk j i this).trans (h.end_ j i hj))

theorem EInv.set {H : Heap} {mem mem1 : Mm} {r : Reg} {ds : List EDef} {as : List AEnum} (h : EInv mem r ds as) (ho : Own H mem1) {k : Nat} {d d' : EDef} {a' : AEnum}
    (hd : ds[k]? = some d) (h0 : mem1 .eTab = mem .eTab) (hk : ∀ j i, j ≠ k → mem1 (.e j i) = mem (.e j i)) (hv : ∀ j l i, j ≠ k → mem1 (.v j l i) = mem (.v j l i))
    (hr : ERep mem1 k d' a') :
    ∃ H' mem', setRec H r.defs 8 k d'.words = some H' ∧ Own H' mem' ∧ EInv mem' r (ds.set k d') (as.set k a') ∧ ∀ σ, σ ≠ .eTab → mem' σ = mem1 σ := by
  have hl := (List.getElem?_eq_some_iff.1 hd).1
  obtain ⟨H', mem', e, ho', ht, hf⟩ := ho.setRec (h.tab.of_eq h0) (k := k) (x := d.words) (y := d'.words) (by rw [List.getElem?_map, hd]; rfl) rfl
  refine ⟨H', mem', e, ho', ⟨by rw [List.map_set]; exact ht, by simp [h.len], fun j dj aj hj1 hj2 => ?_, fun j i hj => ?_, fun j l i hj => ?_⟩, hf⟩
  · by_cases ek : j = k
    · subst ek
      rw [List.getElem?_set_self hl] at hj1
      rw [List.getElem?_set_self (by rw [← h.len]; exact hl)] at hj2
      cases hj1
      cases hj2
      exact hr.of_eq (fun i => hf _ (by intro e; cases e)) fun j i => hf _ (by intro e; cases e)
    · rw [List.getElem?_set_ne (Ne.symm ek)] at hj1 hj2
      exact (h.rep j dj aj hj1 hj2).of_eq (fun i => (hf _ (by intro e; cases e)).trans (hk j i ek)) fun l i => (hf _ (by intro e; cases e)).trans (hv j l i ek)
  · rw [List.length_set] at hj
    have : j ≠ k := by have := h.len; omega
    exact (hf _ (by intro e; cases e)).trans ((hk j i this).trans (h.end_ j i hj))
  · rw [List.length_set] at hj
    have : j ≠ k := by have := h.len; omega
    exact (hf _ (by intro e; cases e)).trans ((hv j l i this).trans (h.endv j l i hj))

theorem atLast_eq {α : Type} (f : α → α) : ∀ {l : List α} {a : α}, l[l.length - 1]? = some a → atLast f l = l.set (l.length - 1) (f a)
  | [], _, h => by simp at h
  | [b], a, h => by simp at h; subst h; rfl
  | b :: c :: l, a, h => by
    show b :: atLast f (c :: l) = _
    have h' : (c :: l)[(c :: l).length - 1]? = some a := by simpa using h
    rw [atLast_eq f h']
    rfl

theorem last_ex {α β : Type} {l : List α} {m : List β} (h : l.length = m.length) (hne : m ≠ []) : ∃ a b, l[m.length - 1]? = some a ∧ m[m.length - 1]? = some b := by
  have : 0 < m.length := List.length_pos_iff.2 hne
  exact ⟨l[m.length - 1]'(by omega), m[m.length - 1], List.getElem?_eq_getElem _, List.getElem?_eq_getElem _⟩

/-- A call on the target that changes one buffer is right. -/
theorem onTarget_ok {st : RSt} {A : AReg} {mem : Mm} {ds : List SDef} {es : List EDef} (h : RInv st A mem ds es) {t : Tgt} (ht : A.has t) {f : Heap → Buf → Option (Heap × Buf)}
    {g : List Byte → List Byte}
    (hf : ∀ (ρ : Role) (b : Buf) (bs : List Byte), (ρ = .out ∧ t = .out ∨ ρ = .s (A.structs.length - 1) .data ∧ t = .cur ∧ A.structs ≠ []) → BufRep mem ρ b bs →
      ∃ H' b' mem', f st.H b = some (H', b') ∧ Own H' mem' ∧ BufRep mem' ρ b' (g bs) ∧ ∀ σ, σ ≠ ρ → mem' σ = mem σ) :
    ∃ st' mem' ds', onTarget st t f = some st' ∧ RInv st' (A.onCode t g) mem' ds' es := by
  cases t with
  | out =>
    obtain ⟨H', b', mem', e, ho, hb, hfr⟩ := hf .out st.out A.out (.inl ⟨rfl, rfl⟩) h.out
    refine ⟨{ st with H := H', out := b' }, mem', ds, by rw [onTarget, e]; rfl, ?_⟩
    exact ⟨ho, h.s.of_eq (hfr _ (by intro e; cases e)) (fun _ _ => hfr _ (by intro e; cases e)),
      h.e.of_eq (hfr _ (by intro e; cases e)) (fun _ _ => hfr _ (by intro e; cases e)) (fun _ _ _ => hfr _ (by intro e; cases e)), hb, h.scur, h.ecur, h.caps⟩
  | cur =>
    have hne : A.structs ≠ [] := ht
    obtain ⟨d, a, hd, ha⟩ := last_ex h.s.len hne
    have hr := h.s.rep _ d a hd ha
    obtain ⟨H1, b', mem1, e, ho, hb, hfr⟩ := hf (.s (A.structs.length - 1) .data) d.code a.code (.inr ⟨rfl, rfl, hne⟩) hr.code
    have hr1 : SRep mem1 (A.structs.length - 1) { d with code := b' } { a with code := g a.code } := by
      refine ⟨(hfr _ (by intro e; cases e)).trans hr.name, hr.nz, hr.line, ?_, ?_, hb⟩
      · have := hr.file
        revert this
        show _ → StrRep mem1 _ d.file a.file
        cases a.file <;> (simp only [StrRep]; rw [hfr _ (by intro e; cases e)]; exact id)
      · have := hr.doc
        revert this
        show _ → StrRep mem1 _ d.doc a.doc
        cases a.doc <;> (simp only [StrRep]; rw [hfr _ (by intro e; cases e)]; exact id)
    obtain ⟨H2, mem2, e2, ho2, hs2, hf2⟩ := h.s.set ho hd (hfr _ (by intro e; cases e)) (fun j i hj => hfr _ (by intro e; cases e; exact hj rfl)) hr1
    refine ⟨{ st with H := H2 }, mem2, ds.set (A.structs.length - 1) { d with code := b' }, ?_, ?_⟩
    · rw [onTarget, h.scur hne]
      show Option.bind (getS st.H st.s.defs (A.structs.length - 1)) _ = _
      rw [getS_ok h.own h.s hd]
      show Option.bind (f st.H d.code) _ = _
      rw [e]
      show Option.map _ (setRec H1 st.s.defs 7 (A.structs.length - 1) _) = _
      rw [e2]
      rfl
    · have eA : A.onCode .cur g = { A with structs := A.structs.set (A.structs.length - 1) { a with code := g a.code } } := by
        show AReg.mk _ _ _ = _
        rw [atLast_eq _ ha]
      rw [eA]
      have hout : ∀ σ : Role, σ ≠ .sTab → σ ≠ .s (A.structs.length - 1) .data → mem2 σ = mem σ := fun σ h1 h2 => (hf2 σ h1).trans (hfr σ h2)
      refine ⟨ho2, hs2, h.e.of_eq (hout _ (by intro e; cases e) (by intro e; cases e)) (fun _ _ => hout _ (by intro e; cases e) (by intro e; cases e))
        (fun _ _ _ => hout _ (by intro e; cases e) (by intro e; cases e)), h.out.of_eq (hout _ (by intro e; cases e) (by intro e; cases e)), fun _ => ?_, h.ecur, h.caps⟩
      show st.scur = some (st.s.defs, (A.structs.set _ _).length - 1)
      rw [List.length_set]
      exact h.scur hne

theorem StrRep.of_eq {R : Type} {mem mem' : R → Option (Nat × List Cell)} {ρ : R} {p : Nat} {o : Option (List Byte)} (h : StrRep mem ρ p o) (e : mem' ρ = mem ρ) : StrRep mem' ρ p o := by
  cases o with
  | none => exact ⟨h.1, e.trans h.2⟩
  | some bs => exact ⟨e.trans h.1, h.2⟩

theorem do_struct {st : RSt} {A : AReg} {mem : Mm} {ds : List SDef} {es : List EDef} (h : RInv st A mem ds es) {name : List Byte} (line : Nat) {file doc : Option (List Byte)}
    (hn : 0 ∉ name) (hfi : CStr file) (hdo : CStr doc) :
    ∃ st' mem' ds', rstep st (.struct name line file doc) = some (st', none) ∧ RInv st' { A with structs := A.structs ++ [⟨name, line, file, doc, []⟩] } mem' ds' es := by
  obtain ⟨H1, r1, m1, e1, o1, t1, hlt, hcnt, f1⟩ := h.own.regRoom h.s.tab (h.s.tab.le (by decide))
  have hfree : ∀ i, m1 (.s A.structs.length i) = none := fun i => (f1 _ (by intro e; cases e)).trans (h.s.end_ _ i (Nat.le_refl _))
  obtain ⟨H2, p2, e2, o2⟩ := o1.dup (hfree .name) name
  have hfree2 : ∀ i, i ≠ .name → upd m1 (.s A.structs.length .name) (some (p2, cstring name)) (.s A.structs.length i) = none := fun i hi =>
    (upd_ne _ _ (by intro e; cases e; exact hi rfl)).trans (hfree i)
  obtain ⟨H3, p3, m3, e3, o3, s3, f3⟩ := o2.dupO (hfree2 .file (by decide)) file hfi
  obtain ⟨H4, p4, m4, e4, o4, s4, f4⟩ := o3.dupO ((f3 _ (by intro e; cases e)).trans (hfree2 .doc (by decide))) doc hdo
  obtain ⟨m5, o5, b5, f5⟩ := o4.bufInit (ρ := .s A.structs.length .data) ((f4 _ (by intro e; cases e)).trans ((f3 _ (by intro e; cases e)).trans (hfree2 .data (by decide))))
  have hk : ∀ σ : Role, (∀ i, σ ≠ .s A.structs.length i) → m5 σ = m1 σ := fun σ hs =>
    (f5 σ (hs _)).trans ((f4 σ (hs _)).trans ((f3 σ (hs _)).trans (upd_ne _ _ (hs _))))
  obtain ⟨H6, m6, e6, o6, t6, f6⟩ := o5.addRec (t1.of_eq (hk _ (by intro i e; cases e))) (y := SDef.words ⟨p2, (Mem.bufInit H4).2, line, p3, p4⟩) rfl
  have hk6 : ∀ σ : Role, σ ≠ .sTab → (∀ i, σ ≠ .s A.structs.length i) → m6 σ = mem σ := fun σ h1 h2 => (f6 σ h1).trans ((hk σ h2).trans (f1 σ h1))
  refine ⟨{ st with H := H6, s := { r1 with count := r1.count + 1 }, scur := some (r1.defs, r1.count) }, m6, ds ++ [⟨p2, (Mem.bufInit H4).2, line, p3, p4⟩], ?_, ?_⟩
  · show Option.map _ (regAdd st.H st.s name line file doc) = _
    rw [regAdd, e1]
    show Option.map _ (Option.bind (dupStr H1 name) _) = _
    rw [e2]
    show Option.map _ (Option.bind (dupOpt H2 file) _) = _
    rw [e3]
    show Option.map _ (Option.bind (dupOpt H3 doc) _) = _
    rw [e4]
    show Option.map _ (Option.map _ (setRec (Mem.bufInit H4).1 r1.defs 7 r1.count _)) = _
    rw [e6]
    rfl
  · refine ⟨o6, ⟨?_, ?_, ?_, ?_⟩, ?_, ?_, ?_, h.ecur, Nat.lt_of_le_of_lt (Nat.zero_le _) hlt, h.caps.2⟩
    · rw [List.map_append]; exact t6
    · show (ds ++ [_]).length = (A.structs ++ [_]).length
      simp [h.s.len]
    · intro k d a hd ha
      by_cases hkk : k = A.structs.length
      · subst hkk
        rw [← h.s.len, List.getElem?_concat_length] at hd
        rw [List.getElem?_concat_length] at ha
        cases hd
        cases ha
        have g5 : ∀ i, m6 (.s A.structs.length i) = m5 (.s A.structs.length i) := fun i => f6 _ (by intro e; cases e)
        refine ⟨?_, hn, rfl, ?_, ?_, b5.of_eq (g5 _)⟩
        · rw [g5, f5 _ (by intro e; cases e), f4 _ (by intro e; cases e), f3 _ (by intro e; cases e), upd_self]
        · exact s3.of_eq ((g5 _).trans ((f5 _ (by intro e; cases e)).trans (f4 _ (by intro e; cases e))))
        · exact s4.of_eq ((g5 _).trans (f5 _ (by intro e; cases e)))
      · have hlen : k < A.structs.length := by
          have := (List.getElem?_eq_some_iff.1 ha).1
          rw [List.length_append] at this
          simp at this
          omega
        rw [List.getElem?_append_left (by rw [h.s.len]; exact hlen)] at hd
        rw [List.getElem?_append_left hlen] at ha
        exact (h.s.rep k d a hd ha).of_eq fun i => hk6 _ (by intro e; cases e) (by intro i' e; cases e; exact hkk rfl)
    · intro k i hk'
      have hk' : A.structs.length + 1 ≤ k := by simpa using hk'
      exact (hk6 _ (by intro e; cases e) (by intro i' e; cases e; omega)).trans (h.s.end_ k i (by omega))
    · exact h.e.of_eq (hk6 _ (by intro e; cases e) (by intro i' e; cases e)) (fun _ _ => hk6 _ (by intro e; cases e) (by intro i' e; cases e))
        (fun _ _ _ => hk6 _ (by intro e; cases e) (by intro i' e; cases e))
    · exact h.out.of_eq (hk6 _ (by intro e; cases e) (by intro i' e; cases e))
    · intro _
      show some (r1.defs, r1.count) = some (r1.defs, (A.structs ++ [_]).length - 1)
      have : r1.count = A.structs.length := by rw [hcnt, h.s.tab.1, List.length_map, h.s.len]
      simp [this]

theorem do_enum {st : RSt} {A : AReg} {mem : Mm} {ds : List SDef} {es : List EDef} (h : RInv st A mem ds es) {name : List Byte} (line : Nat) {file doc : Option (List Byte)}
    (hn : 0 ∉ name) (hfi : CStr file) (hdo : CStr doc) :
    ∃ st' mem' es', rstep st (.enum name line file doc) = some (st', none) ∧ RInv st' { A with enums := A.enums ++ [⟨name, line, file, doc, 0x12, []⟩] } mem' ds es' := by
  obtain ⟨H1, r1, m1, e1, o1, t1, hlt, hcnt, f1⟩ := h.own.regRoom h.e.tab (h.e.tab.le (by decide))
  have hfree : ∀ i, m1 (.e A.enums.length i) = none := fun i => (f1 _ (by intro e; cases e)).trans (h.e.end_ _ i (Nat.le_refl _))
  obtain ⟨H2, p2, e2, o2⟩ := o1.dup (hfree .name) name
  have hfree2 : ∀ i, i ≠ .name → upd m1 (.e A.enums.length .name) (some (p2, cstring name)) (.e A.enums.length i) = none := fun i hi =>
    (upd_ne _ _ (by intro e; cases e; exact hi rfl)).trans (hfree i)
  obtain ⟨H3, p3, m3, e3, o3, s3, f3⟩ := o2.dupO (hfree2 .file (by decide)) file hfi
  obtain ⟨H4, p4, m4, e4, o4, s4, f4⟩ := o3.dupO ((f3 _ (by intro e; cases e)).trans (hfree2 .doc (by decide))) doc hdo
  have hk : ∀ σ : Role, (∀ i, i ≠ .data → σ ≠ .e A.enums.length i) → m4 σ = m1 σ := fun σ hs =>
    (f4 σ (hs _ (by decide))).trans ((f3 σ (hs _ (by decide))).trans (upd_ne _ _ (hs _ (by decide))))
  obtain ⟨H6, m6, e6, o6, t6, f6⟩ := o4.addRec (t1.of_eq (hk _ (by intro i _ e; cases e))) (y := EDef.words ⟨p2, 0x12, ⟨0, 0, 0⟩, line, p3, p4⟩) rfl
  have hk6 : ∀ σ : Role, σ ≠ .eTab → (∀ i, i ≠ .data → σ ≠ .e A.enums.length i) → m6 σ = mem σ := fun σ h1 h2 => (f6 σ h1).trans ((hk σ h2).trans (f1 σ h1))
  refine ⟨{ st with H := H6, e := { r1 with count := r1.count + 1 }, ecur := some (r1.defs, r1.count) }, m6, es ++ [⟨p2, 0x12, ⟨0, 0, 0⟩, line, p3, p4⟩], ?_, ?_⟩
  · show Option.map _ (enumAdd st.H st.e name line file doc) = _
    rw [enumAdd, e1]
    show Option.map _ (Option.bind (dupStr H1 name) _) = _
    rw [e2]
    show Option.map _ (Option.bind (dupOpt H2 file) _) = _
    rw [e3]
    show Option.map _ (Option.bind (dupOpt H3 doc) _) = _
    rw [e4]
    show Option.map _ (Option.map _ (setRec H4 r1.defs 8 r1.count _)) = _
    rw [e6]
    rfl
  · refine ⟨o6, ?_, ⟨?_, ?_, ?_, ?_, ?_⟩, ?_, h.scur, ?_, h.caps.1, Nat.lt_of_le_of_lt (Nat.zero_le _) hlt⟩
    · exact h.s.of_eq (hk6 _ (by intro e; cases e) (by intro i' _ e; cases e)) (fun _ _ => hk6 _ (by intro e; cases e) (by intro i' _ e; cases e))
    · rw [List.map_append]; exact t6
    · show (es ++ [_]).length = (A.enums ++ [_]).length
      simp [h.e.len]
    · intro k d a hd ha
      by_cases hkk : k = A.enums.length
      · subst hkk
        rw [← h.e.len, List.getElem?_concat_length] at hd
        rw [List.getElem?_concat_length] at ha
        cases hd
        cases ha
        have g5 : ∀ i, m6 (.e A.enums.length i) = m4 (.e A.enums.length i) := fun i => f6 _ (by intro e; cases e)
        refine ⟨?_, hn, rfl, rfl, ?_, ?_, [], ⟨rfl, fun x hx => (by cases hx), .inl ⟨rfl, rfl, rfl, ?_⟩⟩, rfl, fun j w a hw => (by simp at hw), fun j i _ => ?_⟩
        · rw [g5, f4 _ (by intro e; cases e), f3 _ (by intro e; cases e), upd_self]
        · exact s3.of_eq ((g5 _).trans (f4 _ (by intro e; cases e)))
        · exact s4.of_eq (g5 _)
        · exact (hk6 _ (by intro e; cases e) (by intro i' hi e; cases e; exact hi rfl)).trans (h.e.end_ _ _ (Nat.le_refl _))
        · exact (hk6 _ (by intro e; cases e) (by intro i' hi e; cases e)).trans (h.e.endv _ _ _ (Nat.le_refl _))
      · have hlen : k < A.enums.length := by
          have := (List.getElem?_eq_some_iff.1 ha).1
          rw [List.length_append] at this
          simp at this
          omega
        rw [List.getElem?_append_left (by rw [h.e.len]; exact hlen)] at hd
        rw [List.getElem?_append_left hlen] at ha
        exact (h.e.rep k d a hd ha).of_eq (fun i => hk6 _ (by intro e; cases e) (by intro i' _ e; cases e; exact hkk rfl)) fun j i =>
          hk6 _ (by intro e; cases e) (by intro i' _ e; cases e)
    · intro k i hk'
      have hk' : A.enums.length + 1 ≤ k := by simpa using hk'
      exact (hk6 _ (by intro e; cases e) (by intro i' _ e; cases e; omega)).trans (h.e.end_ k i (by omega))
    · intro k j i hk'
      have hk' : A.enums.length + 1 ≤ k := by simpa using hk'
      exact (hk6 _ (by intro e; cases e) (by intro i' _ e; cases e)).trans (h.e.endv k j i (by omega))
    · exact h.out.of_eq (hk6 _ (by intro e; cases e) (by intro i' _ e; cases e))
    · intro _
      show some (r1.defs, r1.count) = some (r1.defs, (A.enums ++ [_]).length - 1)
      have : r1.count = A.enums.length := by rw [hcnt, h.e.tab.1, List.length_map, h.e.len]
      simp [this]

/-! #### Code -/

theorem do_code {st : RSt} {A : AReg} {mem : Mm} {ds : List SDef} {es : List EDef} (h : RInv st A mem ds es) {op : ROp} {A' : AReg} {r : Option Nat} (hs : DStep A op A' r)
    (hop : (∃ t b, op = .push t b) ∨ (∃ t b, op = .append t b) ∨ (∃ t o b, op = .patch t o b) ∨ ∃ t j o n, op = .inline t j o n) :
    ∃ st' mem' ds', rstep st op = some (st', r) ∧ RInv st' A' mem' ds' es := by
  cases hs with
  | push b ht =>
    obtain ⟨st', m', ds', e, h'⟩ := onTarget_ok h ht (f := fun H c => bufPush H c b) (g := (· ++ [b])) fun ρ c bs _ hb => h.own.bufPush hb b
    exact ⟨st', m', ds', by show Option.map _ _ = _; rw [e]; rfl, h'⟩
  | append b ht =>
    obtain ⟨st', m', ds', e, h'⟩ := onTarget_ok h ht (f := fun H c => bufAppend H c b) (g := (· ++ b)) fun ρ c bs _ hb => h.own.bufAppend hb b
    exact ⟨st', m', ds', by show Option.map _ _ = _; rw [e]; rfl, h'⟩
  | patch off b ht =>
    obtain ⟨st', m', ds', e, h'⟩ := onTarget_ok h ht (f := fun H c => bufPatch H c off b)
      (g := fun c => if off + b.length > c.length then c else c.take off ++ b ++ c.drop (off + b.length)) fun ρ c bs _ hb => h.own.bufPatch hb off b
    exact ⟨st', m', ds', by show Option.map _ _ = _; rw [e]; rfl, h'⟩
  | @inline t j off n a ht hj hne hn =>
    have hl := (List.getElem?_eq_some_iff.1 hj).1
    have hd : ds[j]? = some (ds[j]'(by rw [h.s.len]; exact hl)) := List.getElem?_eq_getElem _
    have hr := h.s.rep j _ a hd hj
    have key := fun (ρ : Role) (c : Buf) (bs : List Byte) (hρ : ρ = .out ∧ t = .out ∨ ρ = .s (A.structs.length - 1) .data ∧ t = .cur ∧ A.structs ≠ []) (hb : BufRep mem ρ c bs) =>
      h.own.bufCopy hb hr.code (off := off) (n := n) (by
        rcases hρ with ⟨e, _⟩ | ⟨e, et, _⟩
        · rw [e]; intro e; cases e
        · rw [e]; intro e; cases e; exact hne et (by omega)) hn
    obtain ⟨st', m', ds', e, h'⟩ := onTarget_ok h ht (f := fun H c => (getS H st.s.defs j).bind fun d => bufCopy H c d.code.data off n)
      (g := (· ++ (a.code.drop off).take n)) fun ρ c bs hρ hb => by
        obtain ⟨H', b', m', e, rest⟩ := key ρ c bs hρ hb
        refine ⟨H', b', m', ?_, rest⟩
        rw [getS_ok h.own h.s hd]
        exact e
    exact ⟨st', m', ds', by show Option.map _ _ = _; rw [e]; rfl, h'⟩
  | struct => rcases hop with ⟨_, _, e⟩ | ⟨_, _, e⟩ | ⟨_, _, _, e⟩ | ⟨_, _, _, _, e⟩ <;> cases e
  | enum => rcases hop with ⟨_, _, e⟩ | ⟨_, _, e⟩ | ⟨_, _, _, e⟩ | ⟨_, _, _, _, e⟩ <;> cases e
  | type => rcases hop with ⟨_, _, e⟩ | ⟨_, _, e⟩ | ⟨_, _, _, e⟩ | ⟨_, _, _, _, e⟩ <;> cases e
  | value => rcases hop with ⟨_, _, e⟩ | ⟨_, _, e⟩ | ⟨_, _, _, e⟩ | ⟨_, _, _, _, e⟩ <;> cases e
  | find => rcases hop with ⟨_, _, e⟩ | ⟨_, _, e⟩ | ⟨_, _, _, e⟩ | ⟨_, _, _, _, e⟩ <;> cases e
  | efind => rcases hop with ⟨_, _, e⟩ | ⟨_, _, e⟩ | ⟨_, _, _, e⟩ | ⟨_, _, _, _, e⟩ <;> cases e

/-! #### Enums -/

theorem do_type {st : RSt} {A : AReg} {mem : Mm} {ds : List SDef} {es : List EDef} (h : RInv st A mem ds es) (v : Nat) (hne : A.enums ≠ []) :
    ∃ st' mem' es', rstep st (.type v) = some (st', none) ∧ RInv st' { A with enums := atLast (fun a => { a with type := v }) A.enums } mem' ds es' := by
  obtain ⟨d, a, hd, ha⟩ := last_ex h.e.len hne
  have hr := h.e.rep _ d a hd ha
  obtain ⟨H2, m2, e2, o2, s2, f2⟩ := h.e.set h.own (d' := { d with type := v }) (a' := { a with type := v }) hd rfl (fun _ _ _ => rfl) (fun _ _ _ _ => rfl)
    ⟨hr.name, hr.nz, hr.line, rfl, hr.file, hr.doc, hr.vals⟩
  refine ⟨{ st with H := H2 }, m2, es.set (A.enums.length - 1) { d with type := v }, ?_, ?_⟩
  · show Option.bind st.ecur _ = _
    rw [h.ecur hne]
    show Option.bind (getE st.H st.e.defs (A.enums.length - 1)) _ = _
    rw [getE_ok h.own h.e hd]
    show Option.map _ (setRec st.H st.e.defs 8 (A.enums.length - 1) _) = _
    rw [e2]
    rfl
  · rw [atLast_eq _ ha]
    refine ⟨o2, h.s.of_eq (f2 _ (by intro e; cases e)) (fun _ _ => f2 _ (by intro e; cases e)), s2, h.out.of_eq (f2 _ (by intro e; cases e)), h.scur, fun _ => ?_, h.caps⟩
    show st.ecur = some (st.e.defs, (A.enums.set _ _).length - 1)
    rw [List.length_set]
    exact h.ecur hne

theorem seen_ok {H : Heap} {mem : Mm} (ho : Own H mem) {k : Nat} {d : EDef} {ws : List (List Nat)} {as : List AVal} (h : VInv mem k d.vals ws as) (v : Nat) :
    ∀ (n j : Nat), j + n = as.length → enumValue.seen H d v n j = some (decide (v ∈ (as.drop j).map (·.val)))
  | 0, j, hj => by
    rw [List.drop_eq_nil_of_le (by omega)]
    rfl
  | n + 1, j, hj => by
    have hl : j < as.length := by omega
    have hw : ws[j]? = some (ws[j]'(by rw [h.len]; exact hl)) := List.getElem?_eq_getElem _
    obtain ⟨⟨nm, dc, e1, _⟩, _⟩ := h.rep j _ _ hw (List.getElem?_eq_getElem hl)
    have ih := seen_ok ho h v n (j + 1) (by omega)
    show Option.bind (Mem.getRec H d.vals.defs 3 j) _ = _
    rw [ho.getRec h.tab hw, e1]
    show Option.map _ (enumValue.seen H d v n (j + 1)) = _
    rw [ih, ← List.getElem_cons_drop hl]
    show some _ = some _
    rw [List.map_cons]
    congr 1
    by_cases e : as[j].val = v
    · simp [e]
    · have e' : ¬ v = as[j].val := fun x => e x.symm
      simp [e, e']

theorem do_value {st : RSt} {A : AReg} {mem : Mm} {ds : List SDef} {es : List EDef} (h : RInv st A mem ds es) {name : List Byte} (v : Nat) {doc : Option (List Byte)} (hn : 0 ∉ name)
    (hdo : CStr doc) (hne : A.enums ≠ []) :
    ∃ st' mem' es', rstep st (.value name v doc) = some (st', some (if v ∈ (A.enums.getLast hne).vals.map (·.val) then 1 else 0)) ∧
      RInv st' { A with enums := atLast (fun a => { a with vals := a.vals ++ [⟨name, v, doc⟩] }) A.enums } mem' ds es' := by
  obtain ⟨d, a, hd, ha⟩ := last_ex h.e.len hne
  have hr := h.e.rep _ d a hd ha
  have hlast : A.enums.getLast hne = a := by
    have := List.getLast_eq_getElem hne
    rw [this]
    exact (List.getElem?_eq_some_iff.1 ha).2
  rw [hlast]
  have hK : ∃ K, A.enums.length - 1 = K := ⟨_, rfl⟩
  obtain ⟨K, hK⟩ := hK
  rw [hK] at hd ha hr
  obtain ⟨ws, hv⟩ := hr.vals
  have hseen := seen_ok h.own hv v d.vals.count 0 (by rw [Nat.zero_add, hv.tab.1, hv.len])
  obtain ⟨H1, r1, m1, e1, o1, t1, hlt, hcnt, f1⟩ := h.own.regRoom hv.tab (hv.tab.le (by decide))
  have hfree : ∀ i, m1 (.v K a.vals.length i) = none := fun i => (f1 _ (by intro e; cases e)).trans (hv.end_ _ i (Nat.le_refl _))
  obtain ⟨H2, p2, e2, o2⟩ := o1.dup (hfree false) name
  obtain ⟨H3, p3, m3, e3, o3, s3, f3⟩ := o2.dupO (ρ := .v K a.vals.length true) ((upd_ne _ _ (by intro e; cases e)).trans (hfree true)) doc hdo
  have hk : ∀ σ : Role, (∀ i, σ ≠ .v K a.vals.length i) → m3 σ = m1 σ := fun σ hs => (f3 σ (hs _)).trans (upd_ne _ _ (hs _))
  obtain ⟨H4, m4, e4, o4, t4, f4⟩ := o3.addRec (t1.of_eq (hk _ (by intro i e; cases e))) (y := [p2, v, p3]) rfl
  have hk4 : ∀ σ : Role, σ ≠ .e K .data → (∀ i, σ ≠ .v K a.vals.length i) → m4 σ = mem σ := fun σ h1 h2 => (f4 σ h1).trans ((hk σ h2).trans (f1 σ h1))
  have hv4 : VInv m4 K { r1 with count := r1.count + 1 } (ws ++ [[p2, v, p3]]) (a.vals ++ [⟨name, v, doc⟩]) := by
    refine ⟨t4, by simp [hv.len], fun j w b hw hb => ?_, fun j i hj => ?_⟩
    · by_cases hkk : j = a.vals.length
      · subst hkk
        rw [← hv.len, List.getElem?_concat_length] at hw
        rw [List.getElem?_concat_length] at hb
        cases hw
        cases hb
        have g : ∀ i, m4 (.v K a.vals.length i) = m3 (.v K a.vals.length i) := fun i => f4 _ (by intro e; cases e)
        refine ⟨⟨p2, p3, rfl, ?_, s3.of_eq (g _)⟩, hn⟩
        rw [g, f3 _ (by intro e; cases e), upd_self]
      · have hlen : j < a.vals.length := by
          have := (List.getElem?_eq_some_iff.1 hb).1
          rw [List.length_append] at this
          simp at this
          omega
        rw [List.getElem?_append_left (by rw [hv.len]; exact hlen)] at hw
        rw [List.getElem?_append_left hlen] at hb
        exact (hv.rep j w b hw hb).of_eq fun i => hk4 _ (by intro e; cases e) (by intro i' e; cases e; exact hkk rfl)
    · have hj : a.vals.length + 1 ≤ j := by simpa using hj
      exact (hk4 _ (by intro e; cases e) (by intro i' e; cases e; omega)).trans (hv.end_ j i (by omega))
  obtain ⟨H5, m5, e5, o5, s5, f5⟩ := h.e.set o4 (d' := { d with vals := { r1 with count := r1.count + 1 } }) (a' := { a with vals := a.vals ++ [⟨name, v, doc⟩] }) hd
    (hk4 _ (by intro e; cases e) (by intro i e; cases e)) (fun j i hj => hk4 _ (by intro e; cases e; exact hj rfl) (by intro i e; cases e))
    (fun j l i hj => hk4 _ (by intro e; cases e) (by intro i e; cases e; exact hj rfl))
    ⟨(hk4 _ (by intro e; cases e) (by intro i e; cases e)).trans hr.name, hr.nz, hr.line, hr.type, hr.file.of_eq (hk4 _ (by intro e; cases e) (by intro i e; cases e)),
      hr.doc.of_eq (hk4 _ (by intro e; cases e) (by intro i e; cases e)), _, hv4⟩
  have hk5 : ∀ σ : Role, σ ≠ .eTab → σ ≠ .e K .data → (∀ i, σ ≠ .v K a.vals.length i) → m5 σ = mem σ := fun σ h0 h1 h2 => (f5 σ h0).trans (hk4 σ h1 h2)
  refine ⟨{ st with H := H5 }, m5, es.set K { d with vals := { r1 with count := r1.count + 1 } }, ?_, ?_⟩
  · have ev : enumValue st.H d name v doc = some (H4, { d with vals := { r1 with count := r1.count + 1 } }, decide (v ∈ a.vals.map (·.val))) := by
      rw [enumValue, hseen]
      show Option.bind (regRoom st.H 3 d.vals) _ = _
      rw [e1]
      show Option.bind (dupStr H1 name) _ = _
      rw [e2]
      show Option.bind (dupOpt H2 doc) _ = _
      rw [e3]
      show Option.map _ (setRec H3 r1.defs 3 r1.count _) = _
      rw [e4]
      rfl
    show Option.bind st.ecur _ = _
    rw [h.ecur hne, hK]
    show Option.bind (getE st.H st.e.defs K) _ = _
    rw [getE_ok h.own h.e hd]
    show Option.bind (enumValue st.H d name v doc) _ = _
    rw [ev]
    show Option.map _ (setRec H4 st.e.defs 8 K _) = _
    rw [e5]
    show some _ = some _
    by_cases hm : v ∈ a.vals.map (·.val)
    · rw [if_pos hm, if_pos (decide_eq_true hm)]
    · rw [if_neg hm, if_neg (fun h => hm (of_decide_eq_true h))]
  · rw [atLast_eq _ (by rw [hK]; exact ha), hK]
    refine ⟨o5, h.s.of_eq (hk5 _ (by intro e; cases e) (by intro e; cases e) (by intro i e; cases e)) (fun _ _ => hk5 _ (by intro e; cases e) (by intro e; cases e) (by intro i e; cases e)), s5,
      h.out.of_eq (hk5 _ (by intro e; cases e) (by intro e; cases e) (by intro i e; cases e)), h.scur, fun _ => ?_, h.caps⟩
    show st.ecur = some (st.e.defs, (A.enums.set _ _).length - 1)
    rw [List.length_set, h.ecur hne]

/-! #### Looking up names -/

theorem recFind_ok {H : Heap} {mem : Mm} (ho : Own H mem) {ρ : Role} {w : Nat} {r : Reg} {ws : List (List Nat)} (ht : TabRep mem ρ w r ws) {names : List (List Byte)}
    (hl : ws.length = names.length)
    (hn : ∀ (k : Nat) (x : List Nat) (n : List Byte), ws[k]? = some x → names[k]? = some n → ∃ q, x.head? = some q ∧ H.blk q = some (cstring n) ∧ 0 ∉ n) (name : List Byte)
    {res : Option Nat} (hres : First names name res) :
    ∀ (n k : Nat), k + n = names.length → (∀ j, res = some j → k ≤ j) → recFind H r.defs w name n k = some res
  | 0, k, hk, hj => by
    cases res with
    | none => rfl
    | some j =>
      have := (List.getElem?_eq_some_iff.1 hres.1).1
      have := hj j rfl
      omega
  | n + 1, k, hk, hj => by
    have hl' : k < names.length := by omega
    have hx : ws[k]? = some (ws[k]'(by omega)) := List.getElem?_eq_getElem _
    obtain ⟨q, h1, h2, h3⟩ := hn k _ _ hx (List.getElem?_eq_getElem hl')
    show Option.bind (Mem.getRec H r.defs w k) _ = _
    rw [ho.getRec ht hx]
    show Option.bind ((ws[k]'(by omega)).head?) _ = _
    rw [h1]
    show Option.bind (Option.bind (H.blk q) cstr) _ = _
    rw [h2]
    show Option.bind (cstr (cstring names[k])) _ = _
    rw [cstring, cstr_ok _ h3]
    show (if names[k] = name then _ else _) = _
    by_cases e : names[k] = name
    · rw [if_pos e]
      cases res with
      | none => exact absurd (e ▸ List.getElem_mem hl') hres
      | some j =>
        have h4 := hj j rfl
        by_cases e' : k = j
        · rw [e']
        · exact absurd (by rw [List.getElem?_eq_getElem hl', e]) (hres.2 k (by omega))
    · rw [if_neg e]
      refine recFind_ok ho ht hl hn name hres n (k + 1) (by omega) fun j hj' => ?_
      have h4 := hj j hj'
      have : j ≠ k := fun e' => by
        subst e'
        subst hj'
        have := hres.1
        rw [List.getElem?_eq_getElem hl'] at this
        exact e (Option.some.inj this)
      omega

theorem do_find {st : RSt} {A : AReg} {mem : Mm} {ds : List SDef} {es : List EDef} (h : RInv st A mem ds es) {name : List Byte} {k : Option Nat}
    (hf : First (A.structs.map (·.name)) name k) : rstep st (.find name) = some (st, k) := by
  show Option.map _ (recFind st.H st.s.defs 7 name st.s.count 0) = _
  rw [recFind_ok h.own h.s.tab (names := A.structs.map (·.name)) (by simp [h.s.len]) (fun j x n hx hn => ?_) name hf _ 0 (by rw [Nat.zero_add, h.s.tab.1]; simp [h.s.len]) (fun _ _ => Nat.zero_le _)]
  · rfl
  · rw [List.getElem?_map, Option.map_eq_some_iff] at hx hn
    obtain ⟨d, hd, rfl⟩ := hx
    obtain ⟨a, ha, rfl⟩ := hn
    have hr := h.s.rep j d a hd ha
    exact ⟨d.name, rfl, h.own.ok _ _ _ hr.name, hr.nz⟩

theorem do_efind {st : RSt} {A : AReg} {mem : Mm} {ds : List SDef} {es : List EDef} (h : RInv st A mem ds es) {name : List Byte} {k : Option Nat}
    (hf : First (A.enums.map (·.name)) name k) : rstep st (.efind name) = some (st, k) := by
  show Option.map _ (recFind st.H st.e.defs 8 name st.e.count 0) = _
  rw [recFind_ok h.own h.e.tab (names := A.enums.map (·.name)) (by simp [h.e.len]) (fun j x n hx hn => ?_) name hf _ 0 (by rw [Nat.zero_add, h.e.tab.1]; simp [h.e.len]) (fun _ _ => Nat.zero_le _)]
  · rfl
  · rw [List.getElem?_map, Option.map_eq_some_iff] at hx hn
    obtain ⟨d, hd, rfl⟩ := hx
    obtain ⟨a, ha, rfl⟩ := hn
    have hr := h.e.rep j d a hd ha
    exact ⟨d.name, rfl, h.own.ok _ _ _ hr.name, hr.nz⟩

theorem rstep_ok {st : RSt} {A A' : AReg} {mem : Mm} {ds : List SDef} {es : List EDef} {op : ROp} {r : Option Nat} (h : RInv st A mem ds es) (hs : DStep A op A' r) :
    ∃ st' mem' ds' es', rstep st op = some (st', r) ∧ RInv st' A' mem' ds' es' := by
  cases hs with
  | struct line h1 h2 h3 => obtain ⟨a, b, c, d, e⟩ := do_struct h line h1 h2 h3; exact ⟨a, b, c, _, d, e⟩
  | enum line h1 h2 h3 => obtain ⟨a, b, c, d, e⟩ := do_enum h line h1 h2 h3; exact ⟨a, b, _, c, d, e⟩
  | push b ht => obtain ⟨a, b, c, d, e⟩ := do_code h (.push b ht) (.inl ⟨_, _, rfl⟩); exact ⟨a, b, c, _, d, e⟩
  | append b ht => obtain ⟨a, b, c, d, e⟩ := do_code h (.append b ht) (.inr (.inl ⟨_, _, rfl⟩)); exact ⟨a, b, c, _, d, e⟩
  | patch o b ht => obtain ⟨a, b, c, d, e⟩ := do_code h (.patch o b ht) (.inr (.inr (.inl ⟨_, _, _, rfl⟩))); exact ⟨a, b, c, _, d, e⟩
  | inline h1 h2 h3 h4 => obtain ⟨a, b, c, d, e⟩ := do_code h (.inline h1 h2 h3 h4) (.inr (.inr (.inr ⟨_, _, _, _, rfl⟩))); exact ⟨a, b, c, _, d, e⟩
  | type v h1 => obtain ⟨a, b, c, d, e⟩ := do_type h v h1; exact ⟨a, b, _, c, d, e⟩
  | value v h1 h2 h3 => obtain ⟨a, b, c, d, e⟩ := do_value h v h1 h2 h3; exact ⟨a, b, _, c, d, e⟩
  | find hf => exact ⟨st, mem, ds, es, do_find h hf, h⟩
  | efind hf => exact ⟨st, mem, ds, es, do_efind h hf, h⟩

theorem rrun_ok {A A' : AReg} {ops : List ROp} {rs : List (Option Nat)} (hr : DRun A ops A' rs) : ∀ {st : RSt} {mem : Mm} {ds : List SDef} {es : List EDef}, RInv st A mem ds es →
    ∃ st' mem' ds' es', rrun st ops = some (st', rs) ∧ RInv st' A' mem' ds' es' := by
  induction hr with
  | nil => intro st mem ds es h; exact ⟨st, mem, ds, es, rfl, h⟩
  | cons h1 _ ih =>
    intro st mem ds es h
    obtain ⟨st1, m1, d1, s1, e1, i1⟩ := rstep_ok h h1
    obtain ⟨st2, m2, d2, s2, e2, i2⟩ := ih i1
    refine ⟨st2, m2, d2, s2, ?_, i2⟩
    rw [rrun, e1]
    show Option.map _ (rrun st1 _) = _
    rw [e2]
    rfl

theorem rinv_start : ∃ mem, RInv rstart ⟨[], [], []⟩ mem [] [] := by
  have h0 : Own (R := Role) ⟨1, fun _ => none⟩ fun _ => none :=
    ⟨fun _ _ _ h => (by cases h), fun _ _ _ _ _ h => (by cases h), fun _ h => absurd rfl h, fun _ _ => rfl, rfl, Nat.one_pos⟩
  obtain ⟨m1, o1, b1, f1⟩ := h0.bufInit (ρ := .out) rfl
  obtain ⟨o2, _⟩ := o1.malloc (ρ := .sTab) (f1 _ (by intro e; cases e)) (7 * 8)
  obtain ⟨o3, _⟩ := o2.malloc (ρ := .eTab) ((upd_ne _ _ (by intro e; cases e)).trans (f1 _ (by intro e; cases e))) (8 * 8)
  refine ⟨_, o3, ⟨?_, rfl, fun k d a h => (by simp at h), fun k i _ => ?_⟩, ⟨?_, rfl, fun k d a h => (by simp at h), fun k i _ => ?_, fun k j i _ => ?_⟩, ?_, fun h => absurd rfl h, fun h => absurd rfl h, Nat.succ_pos 7, Nat.succ_pos 7⟩
  · refine ⟨rfl, fun x hx => (by cases hx), .inr ⟨by decide, List.replicate (7 * 8) .junk, ?_, by rw [List.length_replicate]; rfl⟩⟩
    rw [upd_ne _ _ (by intro e; cases e), upd_self]
    rfl
  · rw [upd_ne _ _ (by intro e; cases e), upd_ne _ _ (by intro e; cases e), f1 _ (by intro e; cases e)]
  · refine ⟨rfl, fun x hx => (by cases hx), .inr ⟨by decide, List.replicate (8 * 8) .junk, ?_, by rw [List.length_replicate]; rfl⟩⟩
    rw [upd_self]
    rfl
  · rw [upd_ne _ _ (by intro e; cases e), upd_ne _ _ (by intro e; cases e), f1 _ (by intro e; cases e)]
  · rw [upd_ne _ _ (by intro e; cases e), upd_ne _ _ (by intro e; cases e), f1 _ (by intro e; cases e)]
  · refine BufRep.of_eq b1 ?_
    rw [upd_ne _ _ (by intro e; cases e), upd_ne _ _ (by intro e; cases e)]

/-! ### Giving everything back -/

theorem freeS_ok {r : Reg} {ds : List SDef} {as : List AStruct} : ∀ (n k : Nat) (H : Heap) (mem : Mm), Own H mem → TabRep mem .sTab 7 r (ds.map SDef.words) → ds.length = as.length →
    k + n = as.length → (∀ (j : Nat) (d : SDef) (a : AStruct), k ≤ j → ds[j]? = some d → as[j]? = some a → SRep mem j d a) → (∀ (j : Nat) (i : Part), as.length ≤ j → mem (.s j i) = none) →
    ∃ H' mem', freeS H r.defs n k = some H' ∧ Own H' mem' ∧ (∀ j i, k ≤ j → mem' (.s j i) = none) ∧ ∀ σ, (∀ j i, k ≤ j → σ ≠ .s j i) → mem' σ = mem σ
  | 0, k, H, mem, ho, _, _, hk, _, he => ⟨H, mem, rfl, ho, fun j i hj => he j i (by omega), fun _ _ => rfl⟩
  | n + 1, k, H, mem, ho, ht, hl, hk, hr, he => by
    have hk' : k < ds.length := by omega
    have hd : ds[k]? = some ds[k] := List.getElem?_eq_getElem _
    have hx := hr k _ _ (Nat.le_refl _) hd (List.getElem?_eq_getElem (by omega))
    generalize hdd : ds[k] = d at hd hx
    generalize as[k]'(by omega) = a at hx
    have eg : getS H r.defs k = some d := by
      rw [getS, ho.getRec ht (k := k) (x := d.words) (by rw [List.getElem?_map, hd]; rfl)]
      rfl
    obtain ⟨e1, o1⟩ := ho.free hx.name
    obtain ⟨H2, e2, o2⟩ := o1.freeO (hx.file.of_eq (upd_ne _ _ (by intro e; cases e)))
    obtain ⟨H3, e3, o3⟩ := o2.freeO (hx.doc.of_eq ((upd_ne _ _ (by intro e; cases e)).trans (upd_ne _ _ (by intro e; cases e))))
    obtain ⟨rest, hm, _⟩ := hx.code
    obtain ⟨e4, o4⟩ := o3.free (ρ := .s k .data) (p := d.code.data) (c := a.code.map .byte ++ rest)
      (by rw [upd_ne _ _ (by intro e; cases e), upd_ne _ _ (by intro e; cases e), upd_ne _ _ (by intro e; cases e), hm])
    generalize hm4 : upd (upd (upd (upd mem (.s k .name) none) (.s k .file) none) (.s k .doc) none) (.s k .data) none = m4 at o4
    have g0 : ∀ i, m4 (.s k i) = none := by
      intro i
      rw [← hm4]
      cases i <;> simp [upd]
    have g1 : ∀ σ : Role, (∀ i, σ ≠ .s k i) → m4 σ = mem σ := fun σ hs => by
      rw [← hm4, upd_ne _ _ (hs _), upd_ne _ _ (hs _), upd_ne _ _ (hs _), upd_ne _ _ (hs _)]
    obtain ⟨H', m', e', o', n', f'⟩ := freeS_ok n (k + 1) _ m4 o4 (ht.of_eq (g1 _ (by intro i e; cases e))) hl (by omega)
      (fun j d' a' hj h1 h2 => (hr j d' a' (by omega) h1 h2).of_eq fun i => g1 _ (by intro i' e; cases e; omega))
      (fun j i hj => (g1 _ (by intro i' e; cases e; omega)).trans (he j i hj))
    refine ⟨H', m', ?_, o', fun j i hj => ?_, fun σ hs => ?_⟩
    · rw [freeS, eg]
      show Option.bind (Mem.free H d.name) _ = _
      rw [e1]
      show Option.bind (freeOpt _ d.file) _ = _
      rw [e2]
      show Option.bind (freeOpt H2 d.doc) _ = _
      rw [e3]
      show Option.bind (Mem.free H3 d.code.data) _ = _
      rw [e4]
      exact e'
    · by_cases e : j = k
      · subst e
        exact (f' _ (by intro j' i' h e; cases e; omega)).trans (g0 i)
      · exact n' j i (by omega)
    · exact (f' σ fun j i hj => hs j i (by omega)).trans (g1 σ fun i => hs k i (Nat.le_refl _))

theorem freeV_ok {r : Reg} {q : Nat} {ws : List (List Nat)} {as : List AVal} : ∀ (n k : Nat) (H : Heap) (mem : Mm), Own H mem → TabRep mem (.e q .data) 3 r ws → ws.length = as.length →
    k + n = as.length → (∀ (j : Nat) (w : List Nat) (a : AVal), k ≤ j → ws[j]? = some w → as[j]? = some a → VRep mem q j w a) → (∀ (j : Nat) (i : Bool), as.length ≤ j → mem (.v q j i) = none) →
    ∃ H' mem', freeV H r.defs n k = some H' ∧ Own H' mem' ∧ (∀ j i, k ≤ j → mem' (.v q j i) = none) ∧ ∀ σ, (∀ j i, k ≤ j → σ ≠ .v q j i) → mem' σ = mem σ
  | 0, k, H, mem, ho, _, _, hk, _, he => ⟨H, mem, rfl, ho, fun j i hj => he j i (by omega), fun _ _ => rfl⟩
  | n + 1, k, H, mem, ho, ht, hl, hk, hr, he => by
    have hk' : k < ws.length := by omega
    have hd : ws[k]? = some ws[k] := List.getElem?_eq_getElem _
    obtain ⟨⟨nm, dc, h1, h2, h3⟩, _⟩ := hr k _ _ (Nat.le_refl _) hd (List.getElem?_eq_getElem (by omega))
    obtain ⟨e1, o1⟩ := ho.free h2
    obtain ⟨H2, e2, o2⟩ := o1.freeO (h3.of_eq (upd_ne _ _ (by intro e; cases e)))
    generalize hm4 : upd (upd mem (.v q k false) none) (.v q k true) none = m4 at o2
    have g0 : ∀ i, m4 (.v q k i) = none := by
      intro i
      rw [← hm4]
      cases i <;> simp [upd]
    have g1 : ∀ σ : Role, (∀ i, σ ≠ .v q k i) → m4 σ = mem σ := fun σ hs => by
      rw [← hm4, upd_ne _ _ (hs _), upd_ne _ _ (hs _)]
    obtain ⟨H', m', e', o', n', f'⟩ := freeV_ok n (k + 1) _ m4 o2 (ht.of_eq (g1 _ (by intro i e; cases e))) hl (by omega)
      (fun j d' a' hj h1 h2 => (hr j d' a' (by omega) h1 h2).of_eq fun i => g1 _ (by intro i' e; cases e; omega))
      (fun j i hj => (g1 _ (by intro i' e; cases e; omega)).trans (he j i hj))
    refine ⟨H', m', ?_, o', fun j i hj => ?_, fun σ hs => ?_⟩
    · rw [freeV, ho.getRec ht hd, h1]
      show Option.bind (Mem.free H nm) _ = _
      rw [e1]
      show Option.bind (freeOpt _ dc) _ = _
      rw [e2]
      exact e'
    · by_cases e : j = k
      · subst e
        exact (f' _ (by intro j' i' h e; cases e; omega)).trans (g0 i)
      · exact n' j i (by omega)
    · exact (f' σ fun j i hj => hs j i (by omega)).trans (g1 σ fun i => hs k i (Nat.le_refl _))

theorem freeTab_ok {H : Heap} {mem : Mm} (ho : Own H mem) {ρ : Role} {w : Nat} {r : Reg} {ws : List (List Nat)} (ht : TabRep mem ρ w r ws) :
    ∃ H', freeOpt H r.defs = some H' ∧ Own H' (upd mem ρ none) := by
  obtain ⟨_, _, ⟨h1, _, _, h4⟩ | ⟨_, rest, hm, _⟩⟩ := ht
  · exact ho.freeO (o := none) ⟨h1, h4⟩
  · obtain ⟨e, o⟩ := ho.free hm
    exact ⟨_, by rw [freeOpt, if_neg (ho.ne0 hm), e], o⟩

theorem freeE_ok {r : Reg} {ds : List EDef} {as : List AEnum} : ∀ (n k : Nat) (H : Heap) (mem : Mm), Own H mem → TabRep mem .eTab 8 r (ds.map EDef.words) → ds.length = as.length →
    k + n = as.length → (∀ (j : Nat) (d : EDef) (a : AEnum), k ≤ j → ds[j]? = some d → as[j]? = some a → ERep mem j d a) →
    (∀ (j : Nat) (i : Part), as.length ≤ j → mem (.e j i) = none) → (∀ (j l : Nat) (i : Bool), as.length ≤ j → mem (.v j l i) = none) →
    ∃ H' mem', freeE H r.defs n k = some H' ∧ Own H' mem' ∧ (∀ j i, k ≤ j → mem' (.e j i) = none) ∧ (∀ j l i, k ≤ j → mem' (.v j l i) = none) ∧
      ∀ σ, (∀ j i, k ≤ j → σ ≠ .e j i) → (∀ j l i, k ≤ j → σ ≠ .v j l i) → mem' σ = mem σ
  | 0, k, H, mem, ho, _, _, hk, _, he, hv => ⟨H, mem, rfl, ho, fun j i hj => he j i (by omega), fun j l i hj => hv j l i (by omega), fun _ _ _ => rfl⟩
  | n + 1, k, H, mem, ho, ht, hl, hk, hr, he, hv => by
    have hk' : k < ds.length := by omega
    have hd : ds[k]? = some ds[k] := List.getElem?_eq_getElem _
    have hx := hr k _ _ (Nat.le_refl _) hd (List.getElem?_eq_getElem (by omega))
    generalize hdd : ds[k] = d at hd hx
    generalize as[k]'(by omega) = a at hx
    have eg : getE H r.defs k = some d := by
      rw [getE, ho.getRec ht (k := k) (x := d.words) (by rw [List.getElem?_map, hd]; rfl)]
      rfl
    obtain ⟨e1, o1⟩ := ho.free hx.name
    obtain ⟨H2, e2, o2⟩ := o1.freeO (hx.file.of_eq (upd_ne _ _ (by intro e; cases e)))
    obtain ⟨H3, e3, o3⟩ := o2.freeO (hx.doc.of_eq ((upd_ne _ _ (by intro e; cases e)).trans (upd_ne _ _ (by intro e; cases e))))
    generalize hm3 : upd (upd (upd mem (.e k .name) none) (.e k .file) none) (.e k .doc) none = m3 at o3
    have q1 : ∀ σ : Role, (∀ i, i ≠ .data → σ ≠ .e k i) → m3 σ = mem σ := fun σ hs => by
      rw [← hm3, upd_ne _ _ (hs _ (by decide)), upd_ne _ _ (hs _ (by decide)), upd_ne _ _ (hs _ (by decide))]
    have q0 : ∀ i, i ≠ .data → m3 (.e k i) = none := by
      intro i hi
      rw [← hm3]
      cases i <;> simp [upd]
      exact absurd rfl hi
    obtain ⟨ws, hw⟩ := hx.vals
    have hw3 : VInv m3 k d.vals ws a.vals := hw.of_eq (q1 _ (by intro i hi e; cases e; exact hi rfl)) fun j i => q1 _ (by intro i hi e; cases e)
    obtain ⟨H5, m5, e5, o5, n5, f5⟩ := freeV_ok d.vals.count 0 H3 m3 o3 hw3.tab hw3.len (by rw [Nat.zero_add, hw3.tab.1, hw3.len]) (fun j w b _ h1 h2 => hw3.rep j w b h1 h2) hw3.end_
    obtain ⟨H6, e6, o6⟩ := freeTab_ok o5 (hw3.tab.of_eq (f5 _ (by intro j i _ e; cases e)))
    generalize hm6 : upd m5 (.e k .data) none = m6 at o6
    have g0 : ∀ i, m6 (.e k i) = none := by
      intro i
      rw [← hm6]
      by_cases hi : i = .data
      · rw [hi, upd_self]
      · rw [upd_ne _ _ (by intro e; cases e; exact hi rfl), f5 _ (by intro j i _ e; cases e), q0 i hi]
    have g0v : ∀ j i, m6 (.v k j i) = none := fun j i => by rw [← hm6, upd_ne _ _ (by intro e; cases e), n5 j i (Nat.zero_le _)]
    have g1 : ∀ σ : Role, (∀ i, σ ≠ .e k i) → (∀ j i, σ ≠ .v k j i) → m6 σ = mem σ := fun σ h1 h2 => by
      rw [← hm6, upd_ne _ _ (h1 _), f5 _ (fun j i _ => h2 j i), q1 _ (fun i _ => h1 i)]
    obtain ⟨H', m', e', o', n', nv', f'⟩ := freeE_ok n (k + 1) _ m6 o6 (ht.of_eq (g1 _ (by intro i e; cases e) (by intro j i e; cases e))) hl (by omega)
      (fun j d' a' hj h1 h2 => (hr j d' a' (by omega) h1 h2).of_eq (fun i => g1 _ (by intro i' e; cases e; omega) (by intro j i e; cases e))
        fun l i => g1 _ (by intro i' e; cases e) (by intro j i e; cases e; omega))
      (fun j i hj => (g1 _ (by intro i' e; cases e; omega) (by intro j i e; cases e)).trans (he j i hj))
      (fun j l i hj => (g1 _ (by intro i' e; cases e) (by intro j i e; cases e; omega)).trans (hv j l i hj))
    refine ⟨H', m', ?_, o', fun j i hj => ?_, fun j l i hj => ?_, fun σ hs hs' => ?_⟩
    · rw [freeE, eg]
      show Option.bind (Mem.free H d.name) _ = _
      rw [e1]
      show Option.bind (freeOpt _ d.file) _ = _
      rw [e2]
      show Option.bind (freeOpt H2 d.doc) _ = _
      rw [e3]
      show Option.bind (freeV H3 d.vals.defs d.vals.count 0) _ = _
      rw [e5]
      show Option.bind (freeOpt H5 d.vals.defs) _ = _
      rw [e6]
      exact e'
    · by_cases e : j = k
      · subst e
        exact (f' _ (by intro j' i' h e; cases e; omega) (by intro j l i _ e; cases e)).trans (g0 i)
      · exact n' j i (by omega)
    · by_cases e : j = k
      · subst e
        exact (f' _ (by intro j' i' h e; cases e) (by intro j l i _ e; cases e; omega)).trans (g0v l i)
      · exact nv' j l i (by omega)
    · exact (f' σ (fun j i hj => hs j i (by omega)) fun j l i hj => hs' j l i (by omega)).trans (g1 σ (fun i => hs k i (Nat.le_refl _)) fun j i => hs' k j i (Nat.le_refl _))

theorem freeReg_ok {H : Heap} {mem : Mm} (ho : Own H mem) {ρ : Role} {w : Nat} {r : Reg} {ws : List (List Nat)} (ht : TabRep mem ρ w r ws) (hd : r.defs ≠ 0) :
    ∃ H', Mem.free H r.defs = some H' ∧ Own H' (upd mem ρ none) := by
  obtain ⟨H', e, o⟩ := freeTab_ok ho ht
  rw [freeOpt, if_neg hd] at e
  exact ⟨H', e, o⟩

/-! ### What is found in memory -/

def readStr (H : Heap) (p : Nat) : Option (List Byte) := (H.blk p).bind cstr

def readOpt (H : Heap) (p : Nat) : Option (Option (List Byte)) := if p = 0 then some none else (readStr H p).map some

def readS (H : Heap) (p k : Nat) : Option AStruct :=
  (getS H p k).bind fun d => (readStr H d.name).bind fun n => (readOpt H d.file).bind fun f => (readOpt H d.doc).bind fun c =>
  ((peek H d.code.data 0 d.code.size).bind asBytes).map fun bs => ⟨n, d.line, f, c, bs⟩

def readV (H : Heap) (p k : Nat) : Option AVal :=
  (getRec H p 3 k).bind fun ws => (ws[0]?).bind fun nm => (ws[1]?).bind fun v => (ws[2]?).bind fun dc =>
  (readStr H nm).bind fun n => (readOpt H dc).map fun c => ⟨n, v, c⟩

/-- The first elements of an array. -/
def readAll {α : Type} (get : Nat → Option α) : Nat → Option (List α)
  | 0 => some []
  | n + 1 => (readAll get n).bind fun l => (get n).map fun a => l ++ [a]

def readE (H : Heap) (p k : Nat) : Option AEnum :=
  (getE H p k).bind fun d => (readStr H d.name).bind fun n => (readOpt H d.file).bind fun f => (readOpt H d.doc).bind fun c =>
  (readAll (readV H d.vals.defs) d.vals.count).map fun vs => ⟨n, d.line, f, c, d.type, vs⟩

/-- What the memory says about the registries and the packet's code. -/
def readReg (st : RSt) : Option AReg :=
  (readAll (readS st.H st.s.defs) st.s.count).bind fun ss => (readAll (readE st.H st.e.defs) st.e.count).bind fun es =>
  ((peek st.H st.out.data 0 st.out.size).bind asBytes).map fun o => ⟨ss, es, o⟩

theorem readAll_ok {α : Type} {get : Nat → Option α} {l : List α} (h : ∀ (k : Nat) (a : α), l[k]? = some a → get k = some a) : ∀ n, n ≤ l.length → readAll get n = some (l.take n)
  | 0, _ => by rw [List.take_zero]; rfl
  | n + 1, hn => by
    have hl : n < l.length := hn
    rw [readAll, readAll_ok h n (by omega)]
    show Option.map _ (get n) = _
    rw [h n l[n] (List.getElem?_eq_getElem _)]
    show some (l.take n ++ [l[n]]) = _
    rw [List.take_add_one, List.getElem?_eq_getElem hl]
    rfl

theorem readBuf_ok {H : Heap} {mem : Mm} (ho : Own H mem) {ρ : Role} {b : Buf} {bs : List Byte} (h : BufRep mem ρ b bs) : (peek H b.data 0 b.size).bind asBytes = some bs := by
  obtain ⟨rest, hm, hs, _⟩ := h
  have := peek_ok (ho.ok _ _ _ hm) (off := 0) (n := b.size) (by simp; omega)
  rw [this, List.drop_zero, hs, List.take_of_length_le (by simp)]
  exact asBytes_map bs

theorem readOpt_ok {H : Heap} {mem : Mm} (ho : Own H mem) {ρ : Role} {p : Nat} {o : Option (List Byte)} (h : StrRep mem ρ p o) : readOpt H p = some o := by
  cases o with
  | none => rw [readOpt, if_pos h.1]
  | some bs =>
    rw [readOpt, if_neg (ho.ne0 h.1), readStr, ho.ok _ _ _ h.1]
    show Option.map some (cstr (cstring bs)) = _
    rw [cstring, cstr_ok _ h.2]
    rfl

theorem readStr_ok {H : Heap} {mem : Mm} (ho : Own H mem) {ρ : Role} {p : Nat} {bs : List Byte} (h : mem ρ = some (p, cstring bs)) (hz : 0 ∉ bs) : readStr H p = some bs := by
  rw [readStr, ho.ok _ _ _ h]
  exact cstr_ok _ hz

theorem readReg_ok {st : RSt} {A : AReg} {mem : Mm} {ds : List SDef} {es : List EDef} (h : RInv st A mem ds es) : readReg st = some A := by
  have h1 : readAll (readS st.H st.s.defs) st.s.count = some A.structs := by
    have := readAll_ok (get := readS st.H st.s.defs) (l := A.structs) (fun k a ha => by
      have hl := (List.getElem?_eq_some_iff.1 ha).1
      have hd : ds[k]? = some (ds[k]'(by rw [h.s.len]; exact hl)) := List.getElem?_eq_getElem _
      have hr := h.s.rep k _ a hd ha
      rw [readS, getS_ok h.own h.s hd]
      generalize ds[k]'(by rw [h.s.len]; exact hl) = d at hr
      show Option.bind (readStr st.H d.name) _ = _
      rw [readStr_ok h.own hr.name hr.nz]
      show Option.bind (readOpt st.H d.file) _ = _
      rw [readOpt_ok h.own hr.file]
      show Option.bind (readOpt st.H d.doc) _ = _
      rw [readOpt_ok h.own hr.doc]
      show Option.map _ (Option.bind (peek st.H d.code.data 0 d.code.size) asBytes) = _
      rw [readBuf_ok h.own hr.code, hr.line]
      rfl) A.structs.length (Nat.le_refl _)
    rwa [List.take_length, ← h.s.len, show ds.length = st.s.count by rw [h.s.tab.1, List.length_map]] at this
  have h2 : readAll (readE st.H st.e.defs) st.e.count = some A.enums := by
    have := readAll_ok (get := readE st.H st.e.defs) (l := A.enums) (fun k a ha => by
      have hl := (List.getElem?_eq_some_iff.1 ha).1
      have hd : es[k]? = some (es[k]'(by rw [h.e.len]; exact hl)) := List.getElem?_eq_getElem _
      have hr := h.e.rep k _ a hd ha
      rw [readE, getE_ok h.own h.e hd]
      generalize es[k]'(by rw [h.e.len]; exact hl) = d at hr
      show Option.bind (readStr st.H d.name) _ = _
      rw [readStr_ok h.own hr.name hr.nz]
      show Option.bind (readOpt st.H d.file) _ = _
      rw [readOpt_ok h.own hr.file]
      show Option.bind (readOpt st.H d.doc) _ = _
      rw [readOpt_ok h.own hr.doc]
      obtain ⟨ws, hv⟩ := hr.vals
      have h3 := readAll_ok (get := readV st.H d.vals.defs) (l := a.vals) (fun j b hb => by
        have hl := (List.getElem?_eq_some_iff.1 hb).1
        have hw : ws[j]? = some (ws[j]'(by rw [hv.len]; exact hl)) := List.getElem?_eq_getElem _
        obtain ⟨⟨nm, dc, g1, g2, g3⟩, g4⟩ := hv.rep j _ b hw hb
        rw [readV, h.own.getRec hv.tab hw, g1]
        show Option.bind (readStr st.H nm) _ = _
        rw [readStr_ok h.own g2 g4]
        show Option.map _ (readOpt st.H dc) = _
        rw [readOpt_ok h.own g3]
        rfl) a.vals.length (Nat.le_refl _)
      rw [List.take_length, ← hv.len, ← hv.tab.1] at h3
      show Option.map _ (readAll (readV st.H d.vals.defs) d.vals.count) = _
      rw [h3, hr.line, hr.type]
      rfl) A.enums.length (Nat.le_refl _)
    rwa [List.take_length, ← h.e.len, show es.length = st.e.count by rw [h.e.tab.1, List.length_map]] at this
  rw [readReg, h1]
  show Option.bind (readAll (readE st.H st.e.defs) st.e.count) _ = _
  rw [h2]
  show Option.map _ (Option.bind (peek st.H st.out.data 0 st.out.size) asBytes) = _
  rw [readBuf_ok h.own h.out]
  rfl

end Cnd.Mem

namespace Cnd

open Mem

/-- C99: any sequence of declarations of structs and enums, of values of the last enum, of code written to the packet or to the last struct
through the pointer that its declaration returned, of structs put into others and of look-ups runs from empty memory to its end: no call
writes or reads outside a block, uses a freed one, reads a cell never written or frees twice. Look-ups return the first declaration of the
name, values are reported as used exactly if they are, and at the end the memory contains the declarations and codes. -/
theorem C99_run {ops : List ROp} {A : AReg} {rs : List (Option Nat)} (h : DRun ⟨[], [], []⟩ ops A rs) :
    ∃ st, rrun rstart ops = some (st, rs) ∧ readReg st = some A := by
  obtain ⟨mem, h0⟩ := rinv_start
  obtain ⟨st, m, ds, es, e, hi⟩ := rrun_ok h h0
  exact ⟨st, e, readReg_ok hi⟩

/-- Freeing the registries and the packet's code leaves no block, and frees none twice. -/
theorem C99_leak {ops : List ROp} {A : AReg} {rs : List (Option Nat)} (h : DRun ⟨[], [], []⟩ ops A rs) :
    ∃ st H, rrun rstart ops = some (st, rs) ∧ rfree st = some H ∧ ∀ p, H.blk p = none := by
  obtain ⟨mem, h0⟩ := rinv_start
  obtain ⟨st, m, ds, es, e, hi⟩ := rrun_ok h h0
  have hn : ∀ {ρ : Role} {w : Nat} {r : Reg} {ws : List (List Nat)}, TabRep m ρ w r ws → 0 < r.cap → r.defs ≠ 0 := by
    intro ρ w r ws ht hne
    obtain ⟨_, _, ⟨_, h2, _, _⟩ | ⟨_, rest, hm, _⟩⟩ := ht
    · omega
    · exact hi.own.ne0 hm
  have ns := hn hi.s.tab hi.caps.1
  have ne := hn hi.e.tab hi.caps.2
  obtain ⟨H1, m1, e1, o1, n1, f1⟩ := freeS_ok st.s.count 0 st.H m hi.own hi.s.tab hi.s.len (by rw [Nat.zero_add, hi.s.tab.1, List.length_map, hi.s.len])
    (fun j d a _ h1 h2 => hi.s.rep j d a h1 h2) hi.s.end_
  obtain ⟨H2, e2, o2⟩ := freeReg_ok o1 (hi.s.tab.of_eq (f1 _ (by intro j i _ e; cases e))) ns
  have g2 : ∀ σ : Role, σ ≠ .sTab → (∀ j i, σ ≠ .s j i) → upd m1 .sTab none σ = m σ := fun σ h1 h2 => (upd_ne _ _ h1).trans (f1 σ fun j i _ => h2 j i)
  have hE : EInv (upd m1 .sTab none) st.e es A.enums := hi.e.of_eq (g2 _ (by intro e; cases e) (by intro j i e; cases e)) (fun _ _ => g2 _ (by intro e; cases e) (by intro j i e; cases e))
    (fun _ _ _ => g2 _ (by intro e; cases e) (by intro j i e; cases e))
  obtain ⟨H3, m3, e3, o3, n3, v3, f3⟩ := freeE_ok st.e.count 0 H2 _ o2 hE.tab hE.len (by rw [Nat.zero_add, hE.tab.1, List.length_map, hE.len])
    (fun j d a _ h1 h2 => hE.rep j d a h1 h2) hE.end_ hE.endv
  obtain ⟨H4, e4, o4⟩ := freeReg_ok o3 (hE.tab.of_eq (f3 _ (by intro j i _ e; cases e) (by intro j l i _ e; cases e))) ne
  obtain ⟨rest, hm, _⟩ := hi.out
  have hm4 : upd m3 .eTab none .out = some (st.out.data, A.out.map .byte ++ rest) := by
    rw [upd_ne _ _ (by intro e; cases e), f3 _ (by intro j i _ e; cases e) (by intro j l i _ e; cases e), g2 _ (by intro e; cases e) (by intro j i e; cases e), hm]
  obtain ⟨e5, o5⟩ := o4.free hm4
  refine ⟨st, H4.put st.out.data none, e, ?_, fun p => ?_⟩
  · rw [rfree, e1]
    show Option.bind (free H1 st.s.defs) _ = _
    rw [e2]
    show Option.bind (freeE H2 st.e.defs st.e.count 0) _ = _
    rw [e3]
    show Option.bind (free H3 st.e.defs) _ = _
    rw [e4]
    exact e5
  · refine Classical.byContradiction fun hp => ?_
    obtain ⟨ρ, c, hc⟩ := o5.cov p hp
    have k3 : ∀ σ : Role, (∀ j i, σ ≠ .e j i) → (∀ j l i, σ ≠ .v j l i) → m3 σ = upd m1 .sTab none σ := fun σ h1 h2 => f3 σ (fun j i _ => h1 j i) fun j l i _ => h2 j l i
    cases ρ with
    | out => rw [upd_self] at hc; cases hc
    | sTab =>
      rw [upd_ne _ _ (by intro e; cases e), upd_ne _ _ (by intro e; cases e), k3 _ (by intro j i e; cases e) (by intro j l i e; cases e), upd_self] at hc
      cases hc
    | eTab => rw [upd_ne _ _ (by intro e; cases e), upd_self] at hc; cases hc
    | s k i =>
      rw [upd_ne _ _ (by intro e; cases e), upd_ne _ _ (by intro e; cases e), k3 _ (by intro j i e; cases e) (by intro j l i e; cases e), upd_ne _ _ (by intro e; cases e), n1 k i (Nat.zero_le _)] at hc
      cases hc
    | e k i =>
      rw [upd_ne _ _ (by intro e; cases e), upd_ne _ _ (by intro e; cases e), n3 k i (Nat.zero_le _)] at hc
      cases hc
    | v k j i =>
      rw [upd_ne _ _ (by intro e; cases e), upd_ne _ _ (by intro e; cases e), v3 k j i (Nat.zero_le _)] at hc
      cases hc

/-- Every sequence in which code is written and values are given only after a declaration, and in which structs are put into others only, is
one of those: all calls have a meaning. -/
theorem C99_total {A : AReg} {op : ROp}
    (h : match op with
      | .struct name _ file doc | .enum name _ file doc => 0 ∉ name ∧ CStr file ∧ CStr doc
      | .push t _ | .append t _ | .patch t _ _ => t = .out ∨ A.structs ≠ []
      | .inline t j off n => (∃ a, A.structs[j]? = some a ∧ off + n ≤ a.code.length) ∧ (t = .out ∨ j + 1 ≠ A.structs.length)
      | .type _ => A.enums ≠ []
      | .value name _ doc => 0 ∉ name ∧ CStr doc ∧ A.enums ≠ []
      | .find _ | .efind _ => True) : ∃ A' r, DStep A op A' r := by
  have hf : ∀ (names : List (List Byte)) (name : List Byte), ∃ k, First names name k := by
    intro names name
    cases hk : names.findIdx? (· == name) with
    | none =>
      refine ⟨none, fun hm => ?_⟩
      rw [List.findIdx?_eq_none_iff] at hk
      simpa using hk name hm
    | some k =>
      rw [List.findIdx?_eq_some_iff_getElem] at hk
      obtain ⟨hl, h1, h2⟩ := hk
      refine ⟨some k, ?_, fun m hm e => ?_⟩
      · rw [List.getElem?_eq_getElem hl]
        simpa using h1
      · obtain ⟨hl', e⟩ := List.getElem?_eq_some_iff.1 e
        exact h2 m hm (by simpa using e)
  have hh : ∀ t, t = .out ∨ A.structs ≠ [] → A.has t := by
    intro t ht
    cases t with
    | out => exact trivial
    | cur => exact ht.resolve_left (by decide)
  cases op with
  | struct name line file doc => exact ⟨_, _, .struct line h.1 h.2.1 h.2.2⟩
  | enum name line file doc => exact ⟨_, _, .enum line h.1 h.2.1 h.2.2⟩
  | push t b => exact ⟨_, _, .push b (hh t h)⟩
  | append t b => exact ⟨_, _, .append b (hh t h)⟩
  | patch t o b => exact ⟨_, _, .patch o b (hh t h)⟩
  | inline t j off n =>
    obtain ⟨⟨a, h1, h2⟩, h3⟩ := h
    refine ⟨_, _, .inline (hh t (.inr fun e => ?_)) h1 (fun e => h3.resolve_left (by rw [e]; decide)) h2⟩
    rw [e] at h1
    simp at h1
  | type v => exact ⟨_, _, .type v h⟩
  | value name v doc => exact ⟨_, _, .value v h.1 h.2.1 h.2.2⟩
  | find name => obtain ⟨k, hk⟩ := hf (A.structs.map (·.name)) name; exact ⟨_, _, .find hk⟩
  | efind name => obtain ⟨k, hk⟩ := hf (A.enums.map (·.name)) name; exact ⟨_, _, .efind hk⟩

/-- That code goes to the struct declared last is needed: a declaration that makes the array grow frees the block into which the pointers
returned before point. -/
theorem C99_false_stale {H H' : Heap} {r r' : Reg} {name : List Byte} {line : Nat} {file doc : Option (List Byte)} (hr : r.defs ≠ 0) (hl : r.defs < H.next) (hg : r.cap ≤ r.count)
    (h : regAdd H r name line file doc = some (H', r')) : H'.blk r.defs = none := by
  have mono : ∀ (H : Heap) (p off : Nat) (cs : List Cell) (H' : Heap), poke H p off cs = some H' → H'.next = H.next ∧ ∀ q, H.blk q = none → H'.blk q = none := by
    intro H p off cs H' e
    rw [poke] at e
    cases hb : H.blk p with
    | none => rw [hb] at e; cases e
    | some c =>
      rw [hb] at e
      have e : (if off + cs.length ≤ c.length then some (H.put p (some (c.take off ++ cs ++ c.drop (off + cs.length)))) else none) = some H' := e
      split at e
      · cases e
        refine ⟨rfl, fun q hq => (if_neg fun e => ?_).trans hq⟩
        rw [e, hb] at hq
        cases hq
      · cases e
  have dup : ∀ (H : Heap) (bs : List Byte) (H' : Heap) (p : Nat), dupStr H bs = some (H', p) → H.next ≤ H'.next ∧ ∀ q, q < H.next → H.blk q = none → H'.blk q = none := by
    intro H bs H' p e
    rw [dupStr, Option.bind_eq_some_iff] at e
    obtain ⟨H1, e1, e⟩ := e
    rw [Option.map_eq_some_iff] at e
    obtain ⟨H2, e2, e⟩ := e
    cases e
    obtain ⟨n1, b1⟩ := mono _ _ _ _ _ e1
    obtain ⟨n2, b2⟩ := mono _ _ _ _ _ e2
    refine ⟨by rw [n2, n1]; exact Nat.le_succ _, fun q hq hb => b2 q (b1 q ?_)⟩
    exact (if_neg (Nat.ne_of_lt hq)).trans hb
  have dupO : ∀ (H : Heap) (o : Option (List Byte)) (H' : Heap) (p : Nat), dupOpt H o = some (H', p) → H.next ≤ H'.next ∧ ∀ q, q < H.next → H.blk q = none → H'.blk q = none := by
    intro H o H' p e
    cases o with
    | none => cases e; exact ⟨Nat.le_refl _, fun _ _ h => h⟩
    | some bs => exact dup _ _ _ _ e
  rw [regAdd, Option.bind_eq_some_iff] at h
  obtain ⟨⟨H1, r1⟩, e1, h⟩ := h
  rw [Option.bind_eq_some_iff] at h
  obtain ⟨⟨H2, p2⟩, e2, h⟩ := h
  rw [Option.bind_eq_some_iff] at h
  obtain ⟨⟨H3, p3⟩, e3, h⟩ := h
  rw [Option.bind_eq_some_iff] at h
  obtain ⟨⟨H4, p4⟩, e4, h⟩ := h
  rw [Option.map_eq_some_iff] at h
  obtain ⟨H6, e6, h⟩ := h
  cases h
  rw [regRoom, if_pos hg, reallocOpt, if_neg hr, realloc, Option.map_map, Option.map_eq_some_iff] at e1
  obtain ⟨c, hc, e1⟩ := e1
  cases e1
  have b1 : (({ ((H.put r.defs none).put H.next (some (c.take (7 * if r.cap = 0 then 8 else r.cap * 2) ++ List.replicate ((7 * if r.cap = 0 then 8 else r.cap * 2) - c.length) .junk)))
      with next := H.next + 1 } : Heap).blk r.defs) = none := by
    show (if r.defs = H.next then _ else if r.defs = r.defs then none else _) = none
    rw [if_neg (by omega), if_pos rfl]
  obtain ⟨n2, b2⟩ := dup _ _ _ _ e2
  obtain ⟨n3, b3⟩ := dupO _ _ _ _ e3
  obtain ⟨n4, b4⟩ := dupO _ _ _ _ e4
  obtain ⟨n6, b6⟩ := mono _ _ _ _ _ e6
  have n2 : H.next + 1 ≤ H2.next := n2
  refine b6 _ ?_
  show (if r.defs = H4.next then _ else H4.blk r.defs) = none
  have n3 : H2.next ≤ H3.next := n3
  have n4 : H3.next ≤ H4.next := n4
  rw [if_neg (by omega)]
  exact b4 _ (show r.defs < H3.next by omega) (b3 _ (show r.defs < H2.next by omega) (b2 _ (show r.defs < H.next + 1 by omega) b1))

/-- The parser keeps to it: while the body of a struct is read, nothing is declared. -/
theorem C99_parser {P : PEnv} {fuel : Nat} {s t : CSt} (h : parseBlock P fuel s = .ok t) : t.structs = s.structs ∧ t.enums = s.enums :=
  ⟨((stmt_rel P fuel).block s t h).structs, ((stmt_rel P fuel).block s t h).enums⟩

/-- Two structs, one of which contains the other, an enum with a value given twice, and the packet. -/
example : ∃ A rs, DRun ⟨[], [], []⟩ [.struct [86] 1 none (some [100]), .append .cur [1, 2, 3], .patch .cur 0 [9], .struct [87] 2 (some [102]) none, .push .cur 7, .inline .cur 0 1 2,
      .enum [69] 3 none none, .type 0x10, .value [97] 5 (some [99]), .value [98] 5 none, .find [87], .find [90], .efind [69], .push .out 1, .inline .out 1 0 3] A rs ∧
    rs = [none, none, none, none, none, none, none, none, some 0, some 1, some 1, none, some 0, none, none] ∧
    A = ⟨[⟨[86], 1, none, some [100], [9, 2, 3]⟩, ⟨[87], 2, some [102], none, [7, 2, 3]⟩], [⟨[69], 3, none, none, 0x10, [⟨[97], 5, some [99]⟩, ⟨[98], 5, none⟩]⟩], [1, 7, 2, 3]⟩ := by
  refine ⟨_, _, .cons (.struct 1 (by decide) (fun _ h => by cases h) (fun _ h => by cases h; decide)) (.cons (.append _ (by decide)) (.cons (.patch _ _ (by decide))
    (.cons (.struct 2 (by decide) (fun _ h => by cases h; decide) (fun _ h => by cases h)) (.cons (.push _ (by decide)) (.cons (.inline (by decide) rfl (by decide) (by decide))
    (.cons (.enum 3 (by decide) (fun _ h => by cases h) (fun _ h => by cases h)) (.cons (.type _ (by decide)) (.cons (.value 5 (by decide) (fun _ h => by cases h; decide) (by decide))
    (.cons (.value 5 (by decide) (fun _ h => by cases h) (by decide)) (.cons (.find (k := some 1) ⟨rfl, by decide⟩) (.cons (.find (k := none) (show ([90] : List Byte) ∉ _ from by decide)) (.cons (.efind (k := some 0) ⟨rfl, by decide⟩)
    (.cons (.push _ trivial) (.cons (.inline trivial rfl (by decide) (by decide)) .nil)))))))))))))), rfl, rfl⟩

/-- Nine structs: the array has grown, and the pointer to the first one is no longer good. -/
example : ((rrun rstart (List.replicate 8 (.struct [86] 1 none none))).bind fun r => (regAdd r.1.H r.1.s [86] 1 none none).map fun q =>
    (r.1.s.count, r.1.s.cap, (q.1.blk r.1.s.defs).isNone, (q.1.blk q.2.defs).isSome, q.2.count, q.2.cap)) = some (8, 8, true, true, 9, 16) := by decide +kernel

/-- A struct put into itself reads its code from the block just freed. -/
example : (rrun rstart [.struct [86] 1 none none, .append .cur (List.replicate 600 7), .inline .cur 0 0 600]).isNone = true := by decide +kernel

end Cnd
