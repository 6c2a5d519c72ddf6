/-
  C98: the compiler's growing memory.
-/
import Verif.Memory

namespace Cnd.Mem

/-! ### What the calls mean -/

inductive AObj
  | buf (bs : List Byte)
  | sb (bs : List Byte)
  | tab (names : List (List Byte))
  | str (bs : List Byte)
  | dead
  deriving DecidableEq, Repr

/-- The calls on byte strings and lists of names. Nothing may be done with an object that was freed, and a buffer is not appended to itself. -/
inductive AStep (as : List AObj) : MemOp → List AObj → Option Nat → Prop
  | newBuf : AStep as .newBuf (as ++ [.buf []]) none
  | newSb : AStep as .newSb (as ++ [.sb []]) none
  | newTab : AStep as .newTab (as ++ [.tab []]) none
  | append {i bs} (x : List Byte) : as[i]? = some (.buf bs) → AStep as (.append i x) (as.set i (.buf (bs ++ x))) none
  | copy {i j off n bs ys} : i ≠ j → as[i]? = some (.buf bs) → as[j]? = some (.buf ys) → off + n ≤ ys.length →
      AStep as (.copy i j off n) (as.set i (.buf (bs ++ (ys.drop off).take n))) none
  | push {i bs} (x : Byte) : as[i]? = some (.buf bs) → AStep as (.push i x) (as.set i (.buf (bs ++ [x]))) none
  | patch {i off bs} (x : List Byte) : as[i]? = some (.buf bs) → off + x.length ≤ bs.length →
      AStep as (.patch i off x) (as.set i (.buf (bs.take off ++ x ++ bs.drop (off + x.length)))) none
  | patchOut {i off bs} (x : List Byte) : as[i]? = some (.buf bs) → bs.length < off + x.length → AStep as (.patch i off x) as none
  | text {i bs} (x : List Byte) : as[i]? = some (.sb bs) → AStep as (.text i x) (as.set i (.sb (bs ++ x))) none
  | reset {i bs} : as[i]? = some (.sb bs) → AStep as (.reset i) (as.set i (.sb [])) none
  | build {i bs} : as[i]? = some (.sb bs) → AStep as (.build i) (as ++ [.str bs]) none
  | addOld {i names name k} : as[i]? = some (.tab names) → names[k]? = some name → (∀ m, m < k → names[m]? ≠ some name) →
      AStep as (.add i name) as (some (k % 65536))
  | addNew {i names name} : as[i]? = some (.tab names) → name ∉ names → 0 ∉ name →
      AStep as (.add i name) (as.set i (.tab (names ++ [name]))) (some (names.length % 65536))
  | free {i a} : as[i]? = some a → a ≠ .dead → AStep as (.free i) (as.set i .dead) none

inductive ARun : List AObj → List MemOp → List AObj → List Nat → Prop
  | nil {as} : ARun as [] as []
  | cons {as op as1 r ops as2 rs} : AStep as op as1 r → ARun as1 ops as2 rs → ARun as (op :: ops) as2 (r.toList ++ rs)

/-! ### Objects in memory -/

/-- `c` holds `a`, in the blocks `o`. -/
inductive Rep (H : Heap) : CObj → AObj → List Nat → Prop
  | buf {b bs} (rest : List Cell) : H.blk b.data = some (bs.map .byte ++ rest) → b.size = bs.length → b.cap = bs.length + rest.length →
      0 < b.cap → (b.cap = 1024 ∨ b.cap < 2 * b.size) →
      Rep H (.buf b) (.buf bs) [b.data]
  | sb {b bs} (rest : List Cell) : H.blk b.data = some (bs.map .byte ++ .byte 0 :: rest) → b.len = bs.length → b.cap = bs.length + 1 + rest.length →
      Rep H (.sb b) (.sb bs) [b.data]
  | str {p bs} : H.blk p = some (bs.map .byte ++ [.byte 0]) → Rep H (.str p) (.str bs) [p]
  | tab {t names} (ps : List Nat) (rest : List Cell) : H.blk t.strings = some (ps.map .ptr ++ rest) → t.count = ps.length →
      t.cap = ps.length + rest.length → 0 < t.cap → (t.cap = 32 ∨ t.cap < 2 * t.count) → ps.length = names.length →
      (∀ (k p : Nat) (n : List Byte), ps[k]? = some p → names[k]? = some n → H.blk p = some (n.map .byte ++ [.byte 0]) ∧ 0 ∉ n) →
      Rep H (.tab t) (.tab names) (t.strings :: ps)
  | dead : Rep H .dead .dead []

theorem rep_live {H : Heap} {c : CObj} {a : AObj} {o : List Nat} (h : Rep H c a o) : ∀ p ∈ o, H.blk p ≠ none := by
  intro p hp
  cases h with
  | buf _ h => rw [List.mem_singleton.1 hp, h]; exact fun e => nomatch e
  | sb _ h => rw [List.mem_singleton.1 hp, h]; exact fun e => nomatch e
  | str h => rw [List.mem_singleton.1 hp, h]; exact fun e => nomatch e
  | dead => cases hp
  | tab ps rest h _ _ _ _ hl hn =>
    rcases List.mem_cons.1 hp with rfl | hp
    · rw [h]; exact fun e => nomatch e
    · obtain ⟨k, hk, e⟩ := List.getElem_of_mem hp
      have h1 : ps[k]? = some p := by rw [List.getElem?_eq_getElem hk, e]
      rw [(hn k p _ h1 (List.getElem?_eq_getElem (by omega))).1]
      exact fun e => nomatch e

theorem rep_congr {H H' : Heap} {c : CObj} {a : AObj} {o : List Nat} (h : Rep H c a o) (he : ∀ p ∈ o, H'.blk p = H.blk p) : Rep H' c a o := by
  cases h with
  | buf rest h h1 h2 h3 h4 => exact .buf rest ((he _ (by simp)).trans h) h1 h2 h3 h4
  | sb rest h h1 h2 => exact .sb rest ((he _ (by simp)).trans h) h1 h2
  | str h => exact .str ((he _ (by simp)).trans h)
  | dead => exact .dead
  | tab ps rest h h1 h2 h3 h4 hl hn =>
    refine .tab ps rest ((he _ (by simp)).trans h) h1 h2 h3 h4 hl fun k p n hp hm => ?_
    rw [he p (List.mem_cons_of_mem _ (List.mem_of_getElem? hp))]
    exact hn k p n hp hm

structure Inv (H : Heap) (cs : List CObj) (as : List AObj) (os : List (List Nat)) : Prop where
  lc : cs.length = as.length
  lo : cs.length = os.length
  rep : ∀ (i : Nat) (c : CObj) (a : AObj) (o : List Nat), cs[i]? = some c → as[i]? = some a → os[i]? = some o → Rep H c a o
  nd : ∀ (i : Nat) (o : List Nat), os[i]? = some o → o.Nodup
  dj : ∀ (i j : Nat) (oi oj : List Nat) (p : Nat), i ≠ j → os[i]? = some oi → os[j]? = some oj → p ∈ oi → p ∉ oj
  live : ∀ p, H.blk p ≠ none → ∃ (i : Nat) (o : List Nat), os[i]? = some o ∧ p ∈ o
  fresh : ∀ p, H.next ≤ p → H.blk p = none

/-- Object `i` and the abstract one. -/
theorem Inv.at {H : Heap} {cs : List CObj} {as : List AObj} {os : List (List Nat)} (h : Inv H cs as os) {i : Nat} {a : AObj} (ha : as[i]? = some a) :
    ∃ c o, cs[i]? = some c ∧ os[i]? = some o ∧ Rep H c a o := by
  have hi := (List.getElem?_eq_some_iff.1 ha).1
  have h1 : cs[i]? = some (cs[i]'(by have := h.lc; omega)) := List.getElem?_eq_getElem _
  have h2 : os[i]? = some (os[i]'(by have := h.lc; have := h.lo; omega)) := List.getElem?_eq_getElem _
  exact ⟨_, _, h1, h2, h.rep i _ _ _ h1 ha h2⟩

/-- One object changed. -/
theorem inv_set {H H' : Heap} {cs : List CObj} {as : List AObj} {os : List (List Nat)} (h : Inv H cs as os) {i : Nat} {o o' : List Nat} {c' : CObj} {a' : AObj}
    (ho : os[i]? = some o) (hr : Rep H' c' a' o') (hnd : o'.Nodup) (hnew : ∀ p ∈ o', p ∈ o ∨ H.blk p = none)
    (hfr : ∀ p, p ∉ o → p ∉ o' → H'.blk p = H.blk p) (hdead : ∀ p ∈ o, p ∉ o' → H'.blk p = none) (hf : ∀ p, H'.next ≤ p → H'.blk p = none) :
    Inv H' (cs.set i c') (as.set i a') (os.set i o') := by
  have hi := (List.getElem?_eq_some_iff.1 ho).1
  have hoth : ∀ j oj, j ≠ i → os[j]? = some oj → ∀ p ∈ oj, p ∉ o ∧ p ∉ o' := by
    intro j oj hj hoj p hp
    have h1 := h.dj j i oj o p hj hoj ho hp
    refine ⟨h1, fun hp' => ?_⟩
    rcases hnew p hp' with h2 | h2
    · exact h1 h2
    · have hj' := (List.getElem?_eq_some_iff.1 hoj).1
      have hc : cs[j]? = some (cs[j]'(by have := h.lo; omega)) := List.getElem?_eq_getElem _
      have ha : as[j]? = some (as[j]'(by have := h.lo; have := h.lc; omega)) := List.getElem?_eq_getElem _
      exact rep_live (h.rep j _ _ _ hc ha hoj) p hp h2
  refine ⟨by simp [h.lc], by simp [h.lo], ?_, ?_, ?_, ?_, hf⟩
  · intro j c a oj hc ha hoj
    by_cases hj : j = i
    · subst hj
      rw [List.getElem?_set_self (by have := h.lo; omega)] at hc
      rw [List.getElem?_set_self (by have := h.lo; have := h.lc; omega)] at ha
      rw [List.getElem?_set_self hi] at hoj
      cases hc; cases ha; cases hoj
      exact hr
    · rw [List.getElem?_set_ne (Ne.symm hj)] at hc ha hoj
      refine rep_congr (h.rep j c a oj hc ha hoj) fun p hp => ?_
      exact hfr p (hoth j oj hj hoj p hp).1 (hoth j oj hj hoj p hp).2
  · intro j oj hoj
    by_cases hj : j = i
    · subst hj
      rw [List.getElem?_set_self hi] at hoj
      cases hoj
      exact hnd
    · rw [List.getElem?_set_ne (Ne.symm hj)] at hoj
      exact h.nd j oj hoj
  · intro j k oj ok p hjk hoj hok hp hpk
    by_cases hj : j = i
    · subst hj
      rw [List.getElem?_set_self hi] at hoj
      rw [List.getElem?_set_ne hjk] at hok
      cases hoj
      exact (hoth k ok (Ne.symm hjk) hok p hpk).2 hp
    · rw [List.getElem?_set_ne (Ne.symm hj)] at hoj
      by_cases hk : k = i
      · subst hk
        rw [List.getElem?_set_self hi] at hok
        cases hok
        exact (hoth j oj hj hoj p hp).2 hpk
      · rw [List.getElem?_set_ne (Ne.symm hk)] at hok
        exact h.dj j k oj ok p hjk hoj hok hp hpk
  · intro p hp
    by_cases h1 : p ∈ o'
    · exact ⟨i, o', List.getElem?_set_self hi, h1⟩
    · by_cases h2 : p ∈ o
      · exact absurd (hdead p h2 h1) hp
      · rw [hfr p h2 h1] at hp
        obtain ⟨j, oj, hoj, hpj⟩ := h.live p hp
        have hj : j ≠ i := fun e => by
          subst e
          rw [ho] at hoj
          cases hoj
          exact h2 hpj
        exact ⟨j, oj, by rw [List.getElem?_set_ne (Ne.symm hj)]; exact hoj, hpj⟩

theorem inv_snoc {H : Heap} {cs : List CObj} {as : List AObj} {os : List (List Nat)} (h : Inv H cs as os) :
    Inv H (cs ++ [.dead]) (as ++ [.dead]) (os ++ [[]]) := by
  have key : ∀ (j : Nat) (oj : List Nat), (os ++ [[]])[j]? = some oj → os[j]? = some oj ∨ j = os.length ∧ oj = [] := by
    intro j oj hj
    by_cases h1 : j < os.length
    · rw [List.getElem?_append_left h1] at hj; exact .inl hj
    · rw [List.getElem?_append_right (by omega)] at hj
      have := (List.getElem?_eq_some_iff.1 hj).1
      simp at this
      have e : j = os.length := by omega
      subst e
      simp at hj
      exact .inr ⟨rfl, hj⟩
  refine ⟨by simp [h.lc], by simp [h.lo], ?_, ?_, ?_, ?_, h.fresh⟩
  · intro j c a oj hc ha hoj
    rcases key j oj hoj with h1 | ⟨h1, h2⟩
    · have hj := (List.getElem?_eq_some_iff.1 h1).1
      rw [List.getElem?_append_left (by have := h.lo; omega)] at hc
      rw [List.getElem?_append_left (by have := h.lo; have := h.lc; omega)] at ha
      exact h.rep j c a oj hc ha h1
    · subst h1 h2
      have e1 : os.length = cs.length := h.lo.symm
      have e2 : os.length = as.length := h.lo.symm.trans h.lc
      rw [e1] at hc
      rw [e2] at ha
      simp at hc ha
      subst hc ha
      exact .dead
  · intro j oj hoj
    rcases key j oj hoj with h1 | ⟨_, rfl⟩
    · exact h.nd j oj h1
    · exact List.nodup_nil
  · intro j k oj ok p hjk hoj hok hp hpk
    rcases key j oj hoj with h1 | ⟨_, rfl⟩
    · rcases key k ok hok with h2 | ⟨_, rfl⟩
      · exact h.dj j k oj ok p hjk h1 h2 hp hpk
      · cases hpk
    · cases hp
  · intro p hp
    obtain ⟨j, oj, hoj, hpj⟩ := h.live p hp
    have hj := (List.getElem?_eq_some_iff.1 hoj).1
    exact ⟨j, oj, by rw [List.getElem?_append_left hj]; exact hoj, hpj⟩

/-! ### The calls on one object -/

/-- The block at `p` is now at `p'`; the others are as they were. -/
structure Moves (H H' : Heap) (p p' : Nat) : Prop where
  new : p' = p ∨ H.blk p' = none
  frame : ∀ q, q ≠ p → q ≠ p' → H'.blk q = H.blk q
  gone : p' ≠ p → H'.blk p = none
  fresh : ∀ q, H'.next ≤ q → H'.blk q = none

theorem Moves.refl {H : Heap} (hf : ∀ q, H.next ≤ q → H.blk q = none) (p : Nat) : Moves H H p p :=
  ⟨.inl rfl, fun _ _ _ => rfl, fun h => absurd rfl h, hf⟩

theorem Moves.put {H H' : Heap} {p p' : Nat} (h : Moves H H' p p') {c0 : List Cell} (h0 : H'.blk p' = some c0) (c : List Cell) : Moves H (H'.put p' (some c)) p p' := by
  refine ⟨h.new, fun q h1 h2 => ?_, fun h1 => ?_, fun q hq => ?_⟩
  · show (if q = p' then _ else _) = _
    rw [if_neg h2]
    exact h.frame q h1 h2
  · show (if p = p' then _ else _) = _
    rw [if_neg (Ne.symm h1)]
    exact h.gone h1
  · show (if q = p' then _ else _) = _
    by_cases e : q = p'
    · subst e
      have := h.fresh q hq
      rw [h0] at this
      cases this
    · rw [if_neg e]
      exact h.fresh q hq

theorem realloc_ok {H : Heap} (hf : ∀ q, H.next ≤ q → H.blk q = none) {p n : Nat} {m rest : List Cell} (hb : H.blk p = some (m ++ rest)) (hn : m.length + rest.length ≤ n) :
    ∃ H' p' rest', realloc H p n = some (H', p') ∧ Moves H H' p p' ∧ H'.blk p' = some (m ++ rest') ∧ m.length + rest'.length = n := by
  have hp : p < H.next := Nat.lt_of_not_le fun h => by rw [hf p h] at hb; cases hb
  refine ⟨_, _, rest ++ List.replicate (n - (m.length + rest.length)) .junk, by rw [realloc, hb]; rfl, ⟨.inr (hf _ (Nat.le_refl _)), ?_, ?_, ?_⟩, ?_, ?_⟩
  · intro q h1 h2
    show (if q = H.next then _ else if q = p then _ else _) = _
    rw [if_neg h2, if_neg h1]
  · intro _
    show (if p = H.next then _ else if p = p then _ else _) = _
    rw [if_neg (by omega), if_pos rfl]
  · intro q hq
    have hq : H.next + 1 ≤ q := hq
    show (if q = H.next then _ else if q = p then _ else _) = _
    rw [if_neg (by omega), if_neg (by omega)]
    exact hf q (by omega)
  · show (if H.next = H.next then _ else _) = _
    rw [if_pos rfl, List.take_of_length_le (by simpa using hn)]
    simp
  · simp; omega

theorem poke_ok {H : Heap} {p off : Nat} {a b c x : List Cell} (hb : H.blk p = some (a ++ b ++ c)) (ho : off = a.length) (hx : x.length = b.length) :
    poke H p off x = some (H.put p (some (a ++ x ++ c))) := by
  rw [poke, hb]
  subst ho
  show (if a.length + x.length ≤ (a ++ b ++ c).length then _ else _) = _
  rw [if_pos (by simp; omega)]
  have h1 : (a ++ b ++ c).take a.length = a := by rw [List.append_assoc]; exact List.take_left
  have h2 : (a ++ b ++ c).drop (a.length + x.length) = c := by
    rw [hx, ← List.length_append]; exact List.drop_left
  rw [h1, h2]

theorem put_self (H : Heap) (p : Nat) (c : Option (List Cell)) : (H.put p c).blk p = c := if_pos rfl

/-- Writing over the cells after the first ones. -/
theorem poke_end {H : Heap} {p : Nat} {m rest x : List Cell} (hb : H.blk p = some (m ++ rest)) (hx : x.length ≤ rest.length) :
    poke H p m.length x = some (H.put p (some (m ++ x ++ rest.drop x.length))) :=
  poke_ok (b := rest.take x.length) (by rw [hb, List.append_assoc, List.take_append_drop]) rfl (by simp; omega)

theorem peek_ok {H : Heap} {p off n : Nat} {m rest : List Cell} (hb : H.blk p = some (m ++ rest)) (hn : off + n ≤ m.length) :
    peek H p off n = some ((m.drop off).take n) := by
  rw [peek, hb]
  show (if off + n ≤ (m ++ rest).length then _ else _) = _
  rw [if_pos (by simp; omega), List.drop_append_of_le_length (by omega), List.take_append_of_le_length (by simp; omega)]

theorem grow_ok (need cap : Nat) (h0 : 0 < cap) : need ≤ grow need cap ∧ cap ≤ grow need cap ∧ (grow need cap = cap ∨ grow need cap < 2 * need) := by
  fun_induction grow need cap with
  | case1 cap h ih => have := ih (by omega); omega
  | case2 cap h => omega

/-- What a growing call leaves. -/
structure Grown (H H' : Heap) (p p' : Nat) (m : List Cell) (room cap' : Nat) : Prop where
  mv : Moves H H' p p'
  ex : ∃ rest, H'.blk p' = some (m ++ rest) ∧ cap' = m.length + rest.length ∧ room ≤ rest.length
  pos : 0 < cap'

theorem room_ok {H : Heap} (hf : ∀ q, H.next ≤ q → H.blk q = none) {b : Buf} {m rest : List Cell} (hb : H.blk b.data = some (m ++ rest)) (hs : b.size = m.length)
    (hc : b.cap = m.length + rest.length) (h0 : 0 < b.cap) (k : Nat) :
    ∃ H' b', bufRoom H b (b.size + k) = some (H', b') ∧ b'.size = b.size ∧ Grown H H' b.data b'.data m k b'.cap ∧ (b'.cap = b.cap ∨ b'.cap < 2 * (b.size + k)) := by
  rw [bufRoom]
  by_cases h : b.cap < b.size + k
  · rw [if_pos h]
    have hg := grow_ok (b.size + k) b.cap h0
    obtain ⟨H', p', rest', e1, e2, e3, e4⟩ := realloc_ok hf hb (n := grow (b.size + k) b.cap) (by omega)
    exact ⟨H', ⟨p', b.size, grow (b.size + k) b.cap⟩, by rw [e1]; rfl, rfl, ⟨e2, ⟨rest', e3, e4.symm, by omega⟩, by show 0 < grow _ _; omega⟩, hg.2.2⟩
  · rw [if_neg h]
    exact ⟨H, b, rfl, rfl, ⟨Moves.refl hf _, ⟨rest, hb, hc, by omega⟩, h0⟩, .inl rfl⟩

theorem push_room_ok {H : Heap} (hf : ∀ q, H.next ≤ q → H.blk q = none) {b : Buf} {m rest : List Cell} (hb : H.blk b.data = some (m ++ rest)) (hs : b.size = m.length)
    (hc : b.cap = m.length + rest.length) (h0 : 0 < b.cap) :
    ∃ H' b', (if b.cap ≤ b.size then (realloc H b.data (b.cap * 2)).map fun r => (r.1, ({ b with data := r.2, cap := b.cap * 2 } : Buf)) else some (H, b)) = some (H', b') ∧
      b'.size = b.size ∧ Grown H H' b.data b'.data m 1 b'.cap ∧ (b'.cap = b.cap ∨ b'.cap < 2 * (b.size + 1)) := by
  by_cases h : b.cap ≤ b.size
  · rw [if_pos h]
    obtain ⟨H', p', rest', e1, e2, e3, e4⟩ := realloc_ok hf hb (n := b.cap * 2) (by omega)
    refine ⟨H', ⟨p', b.size, b.cap * 2⟩, by rw [e1]; rfl, rfl, ⟨e2, ⟨rest', e3, e4.symm, by omega⟩, by show 0 < b.cap * 2; omega⟩, .inr ?_⟩
    show b.cap * 2 < _
    omega
  · rw [if_neg h]
    exact ⟨H, b, rfl, rfl, ⟨Moves.refl hf _, ⟨rest, hb, hc, by omega⟩, h0⟩, .inl rfl⟩

/-- The invariant, when the only block of an object moved. -/
theorem inv_moves {H H' : Heap} {cs : List CObj} {as : List AObj} {os : List (List Nat)} (h : Inv H cs as os) {i p p' : Nat} {c' : CObj} {a' : AObj}
    (ho : os[i]? = some [p]) (hr : Rep H' c' a' [p']) (hm : Moves H H' p p') : Inv H' (cs.set i c') (as.set i a') (os.set i [p']) := by
  refine inv_set h ho hr (by simp) ?_ ?_ ?_ hm.fresh
  · intro q hq
    rw [List.mem_singleton.1 hq]
    exact hm.new.imp_left fun e => by simp [e]
  · intro q h1 h2
    exact hm.frame q (by simpa using h1) (by simpa using h2)
  · intro q h1 h2
    rw [List.mem_singleton.1 h1] at h2 ⊢
    exact hm.gone fun e => h2 (by simp [e])

/-- Writing at the end of what is in a buffer with room. -/
theorem fill_ok {H H1 : Heap} {p p1 : Nat} {m x : List Cell} {cap1 : Nat} (hg : Grown H H1 p p1 m x.length cap1) :
    ∃ H2, poke H1 p1 m.length x = some H2 ∧ Grown H H2 p p1 (m ++ x) 0 cap1 := by
  obtain ⟨hm, ⟨rest, hb, hc, hr⟩, h0⟩ := hg
  refine ⟨_, poke_end hb hr, hm.put hb _, ⟨rest.drop x.length, put_self _ _ _, ?_, Nat.zero_le _⟩, h0⟩
  simp; omega

/-- A new object with one block. -/
theorem inv_new {H H' : Heap} {cs : List CObj} {as : List AObj} {os : List (List Nat)} (h : Inv H cs as os) {p : Nat} {c' : CObj} {a' : AObj}
    (hr : Rep H' c' a' [p]) (hp : H.blk p = none) (hfr : ∀ q, q ≠ p → H'.blk q = H.blk q) (hf : ∀ q, H'.next ≤ q → H'.blk q = none) :
    Inv H' (cs ++ [c']) (as ++ [a']) (os ++ [[p]]) := by
  have := inv_set (inv_snoc h) (i := os.length) (o := []) (o' := [p]) (c' := c') (a' := a') (by simp) hr (by simp)
    (fun q hq => .inr (by rw [List.mem_singleton.1 hq]; exact hp)) (fun q _ h2 => hfr q (by simpa using h2)) (fun q hq => by cases hq) hf
  have e1 : (cs ++ [CObj.dead]).set os.length c' = cs ++ [c'] := by rw [← h.lo]; simp
  have e2 : (as ++ [AObj.dead]).set os.length a' = as ++ [a'] := by rw [← h.lo, h.lc]; simp
  have e3 : (os ++ [[]]).set os.length [p] = os ++ [[p]] := by simp
  rw [e1, e2, e3] at this
  exact this

structure Alloc (H H' : Heap) (p : Nat) : Prop where
  new : H.blk p = none
  frame : ∀ q, q ≠ p → H'.blk q = H.blk q
  fresh : ∀ q, H'.next ≤ q → H'.blk q = none

theorem malloc_ok {H : Heap} (hf : ∀ q, H.next ≤ q → H.blk q = none) (n : Nat) :
    Alloc H (malloc H n).1 (malloc H n).2 ∧ (malloc H n).1.blk (malloc H n).2 = some (List.replicate n .junk) := by
  refine ⟨⟨hf _ (Nat.le_refl _), fun q hq => if_neg hq, fun q hq => ?_⟩, if_pos rfl⟩
  have hq : H.next + 1 ≤ q := hq
  show (if q = H.next then _ else _) = _
  rw [if_neg (by omega)]
  exact hf q (by omega)

theorem Alloc.put {H H' : Heap} {p : Nat} (h : Alloc H H' p) {c0 : List Cell} (h0 : H'.blk p = some c0) (c : List Cell) : Alloc H (H'.put p (some c)) p := by
  refine ⟨h.new, fun q hq => (if_neg hq).trans (h.frame q hq), fun q hq => ?_⟩
  have h1 := h.fresh q hq
  have : q ≠ p := fun e => by subst e; rw [h0] at h1; cases h1
  exact (if_neg this).trans h1

/-- A copy of a string made by `malloc`, `memcpy` and a NUL. -/
theorem dup_ok {H : Heap} (hf : ∀ q, H.next ≤ q → H.blk q = none) (bs : List Byte) :
    ∃ H1 H2, poke (malloc H (bs.length + 1)).1 (malloc H (bs.length + 1)).2 0 (bs.map .byte) = some H1 ∧
      poke H1 (malloc H (bs.length + 1)).2 bs.length [.byte 0] = some H2 ∧ Alloc H H2 (malloc H (bs.length + 1)).2 ∧
      H2.blk (malloc H (bs.length + 1)).2 = some (bs.map .byte ++ [.byte 0]) := by
  obtain ⟨ha, hb⟩ := malloc_ok hf (bs.length + 1)
  have e1 := poke_end (m := []) (rest := List.replicate (bs.length + 1) .junk) (x := bs.map .byte) hb (by simp)
  have e2 := poke_end (H := (malloc H (bs.length + 1)).1.put (malloc H (bs.length + 1)).2 (some (bs.map .byte ++ [.junk]))) (p := (malloc H (bs.length + 1)).2)
    (m := bs.map .byte) (rest := [.junk]) (x := [.byte 0]) (put_self _ _ _) (by simp)
  have e3 : (List.replicate (bs.length + 1) Cell.junk).drop (bs.map Cell.byte).length = [.junk] := by simp
  rw [e3] at e1
  rw [List.length_map] at e2
  exact ⟨_, _, e1, e2, (ha.put hb _).put (put_self _ _ _) _, (put_self _ _ _).trans (by simp)⟩

theorem asPtrs_map (ps : List Nat) : asPtrs (ps.map .ptr) = some ps := by
  induction ps with
  | nil => rfl
  | cons p ps ih => show (asPtrs (ps.map .ptr)).map _ = _; rw [ih]; rfl

theorem cstr_ok (n : List Byte) (h : 0 ∉ n) : cstr (n.map .byte ++ [.byte 0]) = some n := by
  induction n with
  | nil => rfl
  | cons b n ih =>
    show (if b = 0 then some [] else (cstr (n.map .byte ++ [.byte 0])).map (b :: ·)) = _
    rw [if_neg (fun e => h (by simp [e])), ih (fun e => h (List.mem_cons_of_mem _ e))]
    rfl

/-- The search finds the first string that is the same. -/
theorem tabFind_ok {H : Heap} (name : List Byte) : ∀ (ps : List Nat) (names : List (List Byte)) (i : Nat), ps.length = names.length →
    (∀ (k p : Nat) (n : List Byte), ps[k]? = some p → names[k]? = some n → H.blk p = some (n.map .byte ++ [.byte 0]) ∧ 0 ∉ n) →
    (∀ k, names[k]? = some name → (∀ m, m < k → names[m]? ≠ some name) → tabFind H name ps i = some (some (i + k))) ∧
    (name ∉ names → tabFind H name ps i = some none)
  | [], [], i, _, _ => ⟨fun k hk => by simp at hk, fun _ => rfl⟩
  | [], _ :: _, _, h, _ => by simp at h
  | _ :: _, [], _, h, _ => by simp at h
  | p :: ps, n :: ns, i, hl, hr => by
    have h0 := hr 0 p n rfl rfl
    have ih := tabFind_ok (H := H) name ps ns (i + 1) (by simpa using hl) fun k q m h1 h2 => hr (k + 1) q m h1 h2
    have e : tabFind H name (p :: ps) i = if n = name then some (some i) else tabFind H name ps (i + 1) := by
      show ((H.blk p).bind cstr).bind _ = _
      rw [h0.1]
      show (cstr _).bind _ = _
      rw [cstr_ok n h0.2]
      rfl
    rw [e]
    constructor
    · intro k hk hm
      cases k with
      | zero => rw [if_pos (by simpa using hk)]; rfl
      | succ k =>
        have hne : n ≠ name := fun e => hm 0 (Nat.succ_pos k) (by simp [e])
        rw [if_neg hne, ih.1 k (by simpa using hk) fun m hmk => by simpa using hm (m + 1) (by omega)]
        congr 2
        omega
    · intro hn
      rw [if_neg (fun e => hn (by simp [e])), ih.2 (fun e => hn (by simp [e]))]

/-- Freeing blocks one after the other. -/
theorem freeAll_ok : ∀ (ps : List Nat) (H : Heap), ps.Nodup → (∀ p ∈ ps, H.blk p ≠ none) →
    ∃ H', freeAll H ps = some H' ∧ H'.next = H.next ∧ (∀ q, q ∉ ps → H'.blk q = H.blk q) ∧ ∀ q ∈ ps, H'.blk q = none
  | [], H, _, _ => ⟨H, rfl, rfl, fun _ _ => rfl, fun _ h => by cases h⟩
  | p :: ps, H, hn, hl => by
    rw [List.nodup_cons] at hn
    obtain ⟨c, hc⟩ := Option.ne_none_iff_exists'.1 (hl p (by simp))
    have hput : ∀ q, q ≠ p → (H.put p none).blk q = H.blk q := fun q hq => if_neg hq
    obtain ⟨H', e1, e2, e3, e4⟩ := freeAll_ok ps (H.put p none) hn.2 fun q hq => by
      rw [hput q fun e => hn.1 (e ▸ hq)]
      exact hl q (by simp [hq])
    refine ⟨H', ?_, e2, fun q hq => ?_, fun q hq => ?_⟩
    · show (free H p).bind _ = _
      rw [free, hc]
      exact e1
    · rw [e3 q fun e => hq (by simp [e]), hput q fun e => hq (by simp [e])]
    · rcases List.mem_cons.1 hq with rfl | hq
      · rw [e3 q hn.1]
        exact put_self _ _ _
      · exact e4 q hq

/-! ### Each call -/

section calls

variable {H : Heap} {cs : List CObj} {as : List AObj} {os : List (List Nat)}

/-- The call is carried out, and the objects are again in memory as they should be. -/
def Done (H : Heap) (cs : List CObj) (op : MemOp) (as' : List AObj) (r : Option Nat) : Prop :=
  ∃ H' cs' os', cstep H cs op = some (H', cs', r) ∧ Inv H' cs' as' os'

theorem set_same {α} : ∀ {l : List α} {i : Nat} {a : α}, l[i]? = some a → l.set i a = l
  | [], _, _, _ => rfl
  | _ :: _, 0, _, h => by cases h; rfl
  | _ :: l, i + 1, a, h => by
    show _ :: l.set i a = _
    rw [set_same (l := l) h]

theorem do_newBuf (h : Inv H cs as os) : Done H cs .newBuf (as ++ [.buf []]) none := by
  obtain ⟨ha, hb⟩ := malloc_ok h.fresh 1024
  exact ⟨_, _, _, rfl, inv_new h (.buf (List.replicate 1024 .junk) hb rfl (by rw [List.length_replicate]; rfl) (Nat.succ_pos _) (.inl rfl)) ha.new ha.frame ha.fresh⟩

theorem do_newTab (h : Inv H cs as os) : Done H cs .newTab (as ++ [.tab []]) none := by
  obtain ⟨ha, hb⟩ := malloc_ok h.fresh 32
  exact ⟨_, _, _, rfl, inv_new h (.tab [] (List.replicate 32 .junk) hb rfl (by simp [tabInit]) (by simp [tabInit]) (.inl rfl) rfl
    (fun k p n hp => by simp at hp)) ha.new ha.frame ha.fresh⟩

theorem do_newSb (h : Inv H cs as os) : Done H cs .newSb (as ++ [.sb []]) none := by
  obtain ⟨ha, hb⟩ := malloc_ok h.fresh 64
  have e : poke _ _ 0 _ = _ := poke_end (m := []) (x := [.byte 0]) hb (by simp)
  have ha := ha.put hb ([] ++ [.byte 0] ++ (List.replicate 64 Cell.junk).drop 1)
  refine ⟨_, _, _, ?_, inv_new h (.sb (List.replicate 63 .junk) (b := ⟨(malloc H 64).2, 0, 64⟩) (put_self _ _ _) rfl (by simp)) ha.new ha.frame ha.fresh⟩
  show ((poke (malloc H 64).1 (malloc H 64).2 0 [.byte 0]).map _).map _ = _
  rw [e]
  rfl

/-- Writing `x` after the bytes of a buffer that has room. -/
theorem fill_rep {H1 H2 : Heap} {b b1 : Buf} {bs x : List Byte} (hs1 : b1.size = bs.length)
    (hg : Grown H H2 b.data b1.data (bs.map .byte ++ x.map .byte) 0 b1.cap) (hcap : b1.cap = 1024 ∨ b1.cap < 2 * (bs.length + x.length)) :
    Rep H2 (.buf { b1 with size := b1.size + x.length }) (.buf (bs ++ x)) [b1.data] := by
  obtain ⟨hm, ⟨rest, hb, hc, _⟩, h0⟩ := hg
  refine .buf rest ?_ ?_ ?_ h0 ?_
  · simpa using hb
  · simp [hs1]
  · simpa using hc
  · show _ ∨ _ < 2 * (b1.size + x.length)
    rw [hs1]
    exact hcap

theorem do_append (h : Inv H cs as os) {i : Nat} {bs : List Byte} (x : List Byte) (ha : as[i]? = some (.buf bs)) :
    Done H cs (.append i x) (as.set i (.buf (bs ++ x))) none := by
  obtain ⟨c, o, hc, ho, hr⟩ := h.at ha
  cases hr with
  | @buf b _ rest hb hs hcap h0 hcb =>
  obtain ⟨H1, b1, e1, e2, e3, e4⟩ := room_ok h.fresh hb (by simpa using hs) (by simpa using hcap) h0 x.length
  obtain ⟨H2, f1, f2⟩ := fill_ok (x := x.map .byte) (by simpa using e3)
  refine ⟨H2, cs.set i (.buf { b1 with size := b1.size + x.length }), _, ?_, inv_moves h ho (fill_rep (H := H) (H1 := H1) (b := b) (e2.trans hs) f2 (by omega)) f2.mv⟩
  show (match cs[i]? with | some (.buf b) => _ | _ => none) = _
  rw [hc]
  show (bufAppend H b x).map _ = _
  rw [bufAppend, e1]
  show ((poke H1 b1.data b1.size (x.map .byte)).map _).map _ = _
  rw [e2, hs, ← List.length_map (f := Cell.byte), f1]
  rfl

theorem do_copy (h : Inv H cs as os) {i j off n : Nat} {bs ys : List Byte} (hij : i ≠ j) (ha : as[i]? = some (.buf bs)) (hy : as[j]? = some (.buf ys))
    (hn : off + n ≤ ys.length) : Done H cs (.copy i j off n) (as.set i (.buf (bs ++ (ys.drop off).take n))) none := by
  obtain ⟨c, o, hc, ho, hr⟩ := h.at ha
  obtain ⟨c', o', hc', ho', hr'⟩ := h.at hy
  have hl' := rep_live hr'
  cases hr' with
  | @buf s _ rests hbs hss _ _ _ =>
  cases hr with
  | @buf b _ rest hb hs hcap h0 hcb =>
  obtain ⟨H1, b1, e1, e2, e3, e4⟩ := room_ok h.fresh hb (by simpa using hs) (by simpa using hcap) h0 n
  have hlen : ((ys.drop off).take n).length = n := by simp; omega
  obtain ⟨H2, f1, f2⟩ := fill_ok (x := ((ys.drop off).take n).map .byte) (by rw [List.length_map, hlen]; exact e3)
  have hne : s.data ≠ b.data := fun e => h.dj i j _ _ b.data hij ho ho' (by simp) (by simp [e])
  have hne1 : s.data ≠ b1.data := fun e => by
    rcases e3.mv.new with e' | e'
    · exact hne (e.trans e')
    · exact hl' s.data (by simp) (e ▸ e')
  have hb1 : H1.blk s.data = some (ys.map .byte ++ rests) := (e3.mv.frame _ hne hne1).trans hbs
  have hp : peek H1 s.data off n = some (((ys.drop off).take n).map .byte) := by
    rw [peek_ok hb1 (by simpa using hn), ← List.map_drop, ← List.map_take]
  refine ⟨H2, cs.set i (.buf { b1 with size := b1.size + n }), _, ?_, inv_moves h ho ?_ f2.mv⟩
  · show (match cs[i]?, cs[j]? with | some (.buf b), some (.buf c) => _ | _, _ => none) = _
    rw [hc, hc']
    show (bufCopy H b s.data off n).map _ = _
    rw [bufCopy, e1]
    show ((peek H1 s.data off n).bind _).map _ = _
    rw [hp]
    show ((poke H1 b1.data b1.size _).map _).map _ = _
    rw [e2, hs, ← List.length_map (f := Cell.byte), f1]
    rfl
  · have := fill_rep (H := H) (H1 := H1) (b := b) (e2.trans hs) f2 (by omega)
    rw [hlen] at this
    exact this

theorem do_push (h : Inv H cs as os) {i : Nat} {bs : List Byte} (x : Byte) (ha : as[i]? = some (.buf bs)) :
    Done H cs (.push i x) (as.set i (.buf (bs ++ [x]))) none := by
  obtain ⟨c, o, hc, ho, hr⟩ := h.at ha
  cases hr with
  | @buf b _ rest hb hs hcap h0 hcb =>
  obtain ⟨H1, b1, e1, e2, e3, e4⟩ := push_room_ok h.fresh hb (by simpa using hs) (by simpa using hcap) h0
  obtain ⟨H2, f1, f2⟩ := fill_ok (x := [x].map .byte) e3
  refine ⟨H2, cs.set i (.buf { b1 with size := b1.size + 1 }), _, ?_, inv_moves h ho (fill_rep (H := H) (H1 := H1) (b := b) (x := [x]) (e2.trans hs) f2 ?_) f2.mv⟩
  · show (match cs[i]? with | some (.buf b) => _ | _ => none) = _
    rw [hc]
    show (bufPush H b x).map _ = _
    rw [bufPush, e1]
    show ((poke H1 b1.data b1.size _).map _).map _ = _
    rw [e2, hs, ← List.length_map (f := Cell.byte)]
    rw [show poke H1 b1.data (bs.map Cell.byte).length [.byte x] = some H2 from f1]
    rfl
  · show _ ∨ _ < 2 * (bs.length + 1)
    omega

theorem do_patch (h : Inv H cs as os) {i off : Nat} {bs : List Byte} (x : List Byte) (ha : as[i]? = some (.buf bs)) (hx : off + x.length ≤ bs.length) :
    Done H cs (.patch i off x) (as.set i (.buf (bs.take off ++ x ++ bs.drop (off + x.length)))) none := by
  obtain ⟨c, o, hc, ho, hr⟩ := h.at ha
  cases hr with
  | @buf b _ rest hb hs hcap h0 hcb =>
  have hb' : H.blk b.data = some ((bs.take off).map .byte ++ ((bs.drop off).take x.length).map .byte ++ ((bs.drop (off + x.length)).map .byte ++ rest)) := by
    rw [hb, ← List.append_assoc, ← List.map_append, ← List.map_append, List.append_assoc]
    congr 3
    rw [← List.drop_drop, List.take_append_drop, List.take_append_drop]
  have e := poke_ok (off := off) (x := x.map .byte) hb' (by simp; omega) (by simp; omega)
  refine ⟨_, cs.set i (.buf b), _, ?_, inv_moves h ho (.buf rest (bs := bs.take off ++ x ++ bs.drop (off + x.length)) ((put_self _ _ _).trans ?_) ?_ ?_ h0 hcb)
    ((Moves.refl h.fresh b.data).put hb ((bs.take off).map .byte ++ x.map .byte ++ ((bs.drop (off + x.length)).map .byte ++ rest)))⟩
  · show (match cs[i]? with | some (.buf b) => _ | _ => none) = _
    rw [hc]
    show (bufPatch H b off x).map _ = _
    rw [bufPatch, if_neg (by omega), e]
    rfl
  · simp
  · simp; omega
  · simp; omega

theorem do_patchOut (h : Inv H cs as os) {i off : Nat} {bs : List Byte} (x : List Byte) (ha : as[i]? = some (.buf bs)) (hx : bs.length < off + x.length) :
    Done H cs (.patch i off x) as none := by
  obtain ⟨c, o, hc, ho, hr⟩ := h.at ha
  cases hr with
  | @buf b _ rest hb hs hcap h0 hcb =>
  refine ⟨H, cs, os, ?_, h⟩
  show (match cs[i]? with | some (.buf b) => _ | _ => none) = _
  rw [hc]
  show (bufPatch H b off x).map _ = _
  rw [bufPatch, if_pos (by omega)]
  show some (H, cs.set i (.buf b), none) = _
  rw [set_same hc]

theorem sbGrow_ok (need cap : Nat) : need ≤ sbGrow need cap ∧ cap ≤ sbGrow need cap := by
  rw [sbGrow]
  split
  · have := grow_ok need 64 (by omega); omega
  · have := grow_ok need cap (by omega); omega

theorem do_text (h : Inv H cs as os) {i : Nat} {bs : List Byte} (x : List Byte) (ha : as[i]? = some (.sb bs)) :
    Done H cs (.text i x) (as.set i (.sb (bs ++ x))) none := by
  obtain ⟨c, o, hc, ho, hr⟩ := h.at ha
  cases hr with
  | @sb b _ rest hb hs hcap =>
  obtain ⟨H1, b1, e1, e2, e3, rest1, g1, g2, g3⟩ : ∃ H1 b1, (if b.len + x.length + 1 > b.cap then
      (realloc H b.data (sbGrow (b.len + x.length + 1) b.cap)).map fun r => (r.1, ({ b with data := r.2, cap := sbGrow (b.len + x.length + 1) b.cap } : Sb))
      else some (H, b)) = some (H1, b1) ∧ b1.len = b.len ∧ Moves H H1 b.data b1.data ∧
      ∃ rest1, H1.blk b1.data = some (bs.map .byte ++ rest1) ∧ b1.cap = bs.length + rest1.length ∧ x.length + 1 ≤ rest1.length := by
    by_cases hg : b.len + x.length + 1 > b.cap
    · rw [if_pos hg]
      have hg' := sbGrow_ok (b.len + x.length + 1) b.cap
      obtain ⟨H', p', rest', e1, e2, e3, e4⟩ := realloc_ok h.fresh hb (n := sbGrow (b.len + x.length + 1) b.cap) (by simp; omega)
      rw [List.length_map] at e4
      exact ⟨H', ⟨p', b.len, sbGrow (b.len + x.length + 1) b.cap⟩, by rw [e1]; rfl, rfl, e2, rest', e3, e4.symm, by omega⟩
    · rw [if_neg hg]
      exact ⟨H, b, rfl, rfl, Moves.refl h.fresh _, _, hb, by simp; omega, by simp; omega⟩
  have p1 := poke_end (x := x.map .byte) g1 (by simp; omega)
  have m1 := e3.put g1 (bs.map .byte ++ x.map .byte ++ rest1.drop (x.map Cell.byte).length)
  have q1 := put_self H1 b1.data (some (bs.map .byte ++ x.map .byte ++ rest1.drop (x.map Cell.byte).length))
  have p2 := poke_end (x := [.byte 0]) q1 (by simp; omega)
  refine ⟨_, cs.set i (.sb { b1 with len := b1.len + x.length }), _, ?_,
    inv_moves h ho (.sb ((rest1.drop (x.map Cell.byte).length).drop 1) (bs := bs ++ x) ((put_self _ _ _).trans ?_) ?_ ?_)
      (m1.put q1 (bs.map .byte ++ x.map .byte ++ [.byte 0] ++ (rest1.drop (x.map Cell.byte).length).drop 1))⟩
  · show (match cs[i]? with | some (.sb b) => _ | _ => none) = _
    rw [hc]
    show (sbAppend H b x).map _ = _
    rw [sbAppend, e1]
    show ((poke H1 b1.data b1.len (x.map .byte)).bind _).map _ = _
    rw [show b1.len = (bs.map Cell.byte).length by simp [e2, hs], p1]
    show ((poke _ b1.data ((bs.map Cell.byte).length + x.length) _).map _).map _ = _
    rw [show (bs.map Cell.byte).length + x.length = (bs.map Cell.byte ++ x.map Cell.byte).length by simp, p2]
    simp
  · simp
  · simp [e2, hs]
  · simp; omega

theorem do_reset (h : Inv H cs as os) {i : Nat} {bs : List Byte} (ha : as[i]? = some (.sb bs)) : Done H cs (.reset i) (as.set i (.sb [])) none := by
  obtain ⟨c, o, hc, ho, hr⟩ := h.at ha
  cases hr with
  | @sb b _ rest hb hs hcap =>
  have e : poke H b.data 0 [.byte 0] = _ := poke_end (m := []) (x := [.byte 0]) hb (by simp; omega)
  refine ⟨_, cs.set i (.sb { b with len := 0 }), _, ?_,
    inv_moves h ho (.sb ((bs.map Cell.byte ++ Cell.byte 0 :: rest).drop 1) (b := { b with len := 0 }) (put_self _ _ _) rfl ?_) ((Moves.refl h.fresh b.data).put hb _)⟩
  · show (match cs[i]? with | some (.sb b) => _ | _ => none) = _
    rw [hc]
    show (sbReset H b).map _ = _
    rw [sbReset, e]
    rfl
  · simp; omega

theorem do_build (h : Inv H cs as os) {i : Nat} {bs : List Byte} (ha : as[i]? = some (.sb bs)) : Done H cs (.build i) (as ++ [.str bs]) none := by
  obtain ⟨c, o, hc, ho, hr⟩ := h.at ha
  have hl := rep_live hr
  cases hr with
  | @sb b _ rest hb hs hcap =>
  obtain ⟨H1, H2, e1, e2, e3, e4⟩ := dup_ok h.fresh bs
  have ha' := (malloc_ok h.fresh (bs.length + 1)).1
  have hne : b.data ≠ (malloc H (bs.length + 1)).2 := fun e => hl b.data (by simp) (by rw [e]; exact ha'.new)
  have hp := peek_ok (off := 0) (n := bs.length) ((ha'.frame _ hne).trans hb) (by simp)
  have e5 : ((bs.map Cell.byte).drop 0).take bs.length = bs.map .byte := by rw [List.drop_zero]; exact List.take_of_length_le (by simp)
  rw [e5] at hp
  refine ⟨H2, cs ++ [.str (malloc H (bs.length + 1)).2], _, ?_, inv_new h (.str e4) e3.new e3.frame e3.fresh⟩
  show (match cs[i]? with | some (.sb b) => _ | _ => none) = _
  rw [hc]
  show (sbBuild H b).map _ = _
  rw [sbBuild, hs]
  show ((peek (malloc H (bs.length + 1)).1 b.data 0 bs.length).bind _).map _ = _
  rw [hp]
  show ((poke (malloc H (bs.length + 1)).1 (malloc H (bs.length + 1)).2 0 (bs.map .byte)).bind _).map _ = _
  rw [e1]
  show ((poke H1 (malloc H (bs.length + 1)).2 bs.length [.byte 0]).map _).map _ = _
  rw [e2]
  rfl

theorem do_addOld (h : Inv H cs as os) {i k : Nat} {names : List (List Byte)} {name : List Byte} (ha : as[i]? = some (.tab names))
    (hk : names[k]? = some name) (hm : ∀ m, m < k → names[m]? ≠ some name) : Done H cs (.add i name) as (some (k % 65536)) := by
  obtain ⟨c, o, hc, ho, hr⟩ := h.at ha
  cases hr with
  | @tab t _ ps rest hb hcnt hcap h0 hcb hl hn =>
  have hp := peek_ok (off := 0) (n := t.count) hb (by simp; omega)
  rw [List.drop_zero, List.take_of_length_le (by simp; omega)] at hp
  have hf := (tabFind_ok name ps names 0 hl hn).1 k hk hm
  refine ⟨H, cs, os, ?_, h⟩
  show (match cs[i]? with | some (.tab t) => _ | _ => none) = _
  rw [hc]
  show (tabAdd H t name).map _ = _
  rw [tabAdd, hp]
  show ((asPtrs _).bind _).map _ = _
  rw [asPtrs_map]
  show ((tabFind H name ps 0).bind _).map _ = _
  rw [hf, Nat.zero_add]
  show some (H, cs.set i (.tab t), some (k % 65536)) = _
  rw [set_same hc]

theorem do_addNew (h : Inv H cs as os) {i : Nat} {names : List (List Byte)} {name : List Byte} (ha : as[i]? = some (.tab names))
    (hk : name ∉ names) (hz : 0 ∉ name) : Done H cs (.add i name) (as.set i (.tab (names ++ [name]))) (some (names.length % 65536)) := by
  obtain ⟨c, o, hc, ho, hr⟩ := h.at ha
  have hlive := rep_live hr
  have hnd := h.nd i o ho
  cases hr with
  | @tab t _ ps rest hb hcnt hcap h0 hcb hl hn =>
  rw [List.nodup_cons] at hnd
  have hp := peek_ok (off := 0) (n := t.count) hb (by simp; omega)
  rw [List.drop_zero, List.take_of_length_le (by simp; omega)] at hp
  have hf := (tabFind_ok name ps names 0 hl hn).2 hk
  obtain ⟨H1, t1, e1, e2, e3, rest1, g1, g2, g3, g4⟩ : ∃ H1 t1, (if t.cap ≤ t.count then
      (realloc H t.strings (if t.cap = 0 then 8 else t.cap * 2)).map fun r =>
        (r.1, ({ t with strings := r.2, cap := if t.cap = 0 then 8 else t.cap * 2 } : Tab))
      else some (H, t)) = some (H1, t1) ∧ t1.count = t.count ∧ Moves H H1 t.strings t1.strings ∧
      ∃ rest1, H1.blk t1.strings = some (ps.map .ptr ++ rest1) ∧ t1.cap = ps.length + rest1.length ∧ 1 ≤ rest1.length ∧
        (t1.cap = 32 ∨ t1.cap < 2 * (t.count + 1)) := by
    by_cases hg : t.cap ≤ t.count
    · rw [if_pos hg, if_neg (by omega)]
      obtain ⟨H', p', rest', e1, e2, e3, e4⟩ := realloc_ok h.fresh hb (n := t.cap * 2) (by simp; omega)
      rw [List.length_map] at e4
      refine ⟨H', ⟨p', t.count, t.cap * 2⟩, by rw [e1]; rfl, rfl, e2, rest', e3, e4.symm, by omega, .inr ?_⟩
      show t.cap * 2 < _
      omega
    · rw [if_neg hg]
      exact ⟨H, t, rfl, rfl, Moves.refl h.fresh _, rest, hb, hcap, by omega, by omega⟩
  obtain ⟨H2, H3, d1, d2, d3, d4⟩ := dup_ok e3.fresh name
  have hpq : t1.strings ≠ (malloc H1 (name.length + 1)).2 := fun e => by
    have := d3.new
    rw [← e, g1] at this
    cases this
  have g1' : H3.blk t1.strings = some (ps.map .ptr ++ rest1) := (d3.frame _ hpq).trans g1
  have p3 := poke_end (x := [.ptr (malloc H1 (name.length + 1)).2]) g1' (by simpa using g3)
  generalize hq : (malloc H1 (name.length + 1)).2 = q at *
  have hps : ∀ p ∈ ps, p ≠ t.strings ∧ p ≠ t1.strings ∧ p ≠ q := by
    intro p hp
    have hlp := hlive p (by simp [hp])
    have a1 : p ≠ t.strings := fun e => hnd.1 (e ▸ hp)
    have a2 : p ≠ t1.strings := fun e => by
      rcases e3.new with e' | e'
      · exact a1 (e.trans e')
      · exact hlp (e ▸ e')
    refine ⟨a1, a2, fun e => hlp ?_⟩
    rw [← e3.frame p a1 a2, e]
    exact d3.new
  have hfinal : ∀ p, p ≠ t1.strings → (H3.put t1.strings (some (ps.map .ptr ++ [.ptr q] ++ rest1.drop 1))).blk p = H3.blk p := fun p hp => if_neg hp
  have hsame : ∀ p, p ≠ t.strings → p ≠ t1.strings → p ≠ q → (H3.put t1.strings (some (ps.map .ptr ++ [.ptr q] ++ rest1.drop 1))).blk p = H.blk p :=
    fun p a1 a2 a3 => (hfinal p a2).trans ((d3.frame p a3).trans (e3.frame p a1 a2))
  have hrep : Rep (H3.put t1.strings (some (ps.map .ptr ++ [.ptr q] ++ rest1.drop 1))) (.tab { t1 with count := t1.count + 1 }) (.tab (names ++ [name]))
      (t1.strings :: (ps ++ [q])) := by
    refine .tab (t := { t1 with count := t1.count + 1 }) (ps ++ [q]) (rest1.drop 1) ((put_self _ _ _).trans (by simp)) ?_ ?_ ?_ ?_ ?_ ?_
    · simp; omega
    · simp; omega
    · show 0 < t1.cap
      omega
    · show t1.cap = 32 ∨ t1.cap < 2 * (t1.count + 1)
      omega
    · simp [hl]
    · intro k p n hkp hkn
      by_cases hlt : k < ps.length
      · rw [List.getElem?_append_left hlt] at hkp
        rw [List.getElem?_append_left (by omega)] at hkn
        have hpm := hps p (List.mem_of_getElem? hkp)
        rw [hsame p hpm.1 hpm.2.1 hpm.2.2]
        exact hn k p n hkp hkn
      · rw [List.getElem?_append_right (by omega)] at hkp
        rw [List.getElem?_append_right (by omega)] at hkn
        have := (List.getElem?_eq_some_iff.1 hkp).1
        simp at this
        have hk0 : k - ps.length = 0 := by omega
        rw [hk0] at hkp
        rw [show k - names.length = 0 by omega] at hkn
        simp at hkp hkn
        subst hkp hkn
        rw [hfinal _ (Ne.symm hpq), d4]
        exact ⟨rfl, hz⟩
  refine ⟨_, cs.set i (.tab { t1 with count := t1.count + 1 }), _, ?_, inv_set h ho hrep ?_ ?_ ?_ ?_ ?_⟩
  · show (match cs[i]? with | some (.tab t) => _ | _ => none) = _
    rw [hc]
    show (tabAdd H t name).map _ = _
    rw [tabAdd, hp]
    show ((asPtrs _).bind _).map _ = _
    rw [asPtrs_map]
    show ((tabFind H name ps 0).bind _).map _ = _
    rw [hf]
    dsimp only [Option.bind_some]
    rw [e1]
    show ((poke (malloc H1 (name.length + 1)).1 (malloc H1 (name.length + 1)).2 0 (name.map .byte)).bind _).map _ = _
    rw [hq, d1]
    show ((poke H2 q name.length [.byte 0]).bind _).map _ = _
    rw [d2]
    show ((poke H3 t1.strings t1.count [.ptr q]).map _).map _ = _
    rw [show t1.count = (ps.map Cell.ptr).length by simp; omega, p3]
    simp [hl]
  · rw [List.nodup_cons, List.nodup_append]
    refine ⟨?_, hnd.2, by simp, ?_⟩
    · intro hm
      rcases List.mem_append.1 hm with hm | hm
      · exact (hps _ hm).2.1 rfl
      · exact hpq (by simpa using hm)
    · intro a ha b hb
      rw [List.mem_singleton.1 hb]
      exact (hps a ha).2.2
  · intro p hpm
    rcases List.mem_cons.1 hpm with rfl | hpm
    · exact e3.new.imp_left fun e => by simp [e]
    · rcases List.mem_append.1 hpm with hpm | hpm
      · exact .inl (by simp [hpm])
      · rw [List.mem_singleton.1 hpm]
        by_cases hqs : q = t.strings
        · exact .inl (by simp [hqs])
        · exact .inr ((e3.frame q hqs (Ne.symm hpq)).symm.trans d3.new)
  · intro p h1 h2
    simp at h1 h2
    exact hsame p h1.1 h2.1 h2.2.2
  · intro p h1 h2
    rcases List.mem_cons.1 h1 with rfl | h1
    · simp at h2
      exact (hfinal _ h2.1).trans ((d3.frame _ h2.2.2).trans (e3.gone (Ne.symm h2.1)))
    · exact absurd (by simp [h1]) h2
  · intro p hp
    have h1 := d3.fresh p hp
    have : p ≠ t1.strings := fun e => by rw [e, g1'] at h1; cases h1
    exact (hfinal p this).trans h1

theorem free_inv (h : Inv H cs as os) {H' : Heap} {i : Nat} {o : List Nat} (ho : os[i]? = some o) (hnx : H'.next = H.next)
    (hfr : ∀ q, q ∉ o → H'.blk q = H.blk q) (hgone : ∀ q ∈ o, H'.blk q = none) : Inv H' (cs.set i .dead) (as.set i .dead) (os.set i []) := by
  refine inv_set h ho .dead (by simp) (fun p hp => by cases hp) (fun p h1 _ => hfr p h1) (fun p h1 _ => hgone p h1) ?_
  intro p hp
  by_cases hm : p ∈ o
  · exact hgone p hm
  · rw [hfr p hm]
    exact h.fresh p (hnx ▸ hp)

theorem free_one (h : Inv H cs as os) {i p : Nat} {c : List Cell} (ho : os[i]? = some [p]) (hb : H.blk p = some c) :
    free H p = some (H.put p none) ∧ Inv (H.put p none) (cs.set i .dead) (as.set i .dead) (os.set i []) := by
  refine ⟨by rw [free, hb]; rfl, free_inv h ho rfl (fun q hq => if_neg (by simpa using hq)) fun q hq => ?_⟩
  rw [List.mem_singleton.1 hq]
  exact put_self _ _ _

theorem do_free (h : Inv H cs as os) {i : Nat} {a : AObj} (ha : as[i]? = some a) (hd : a ≠ .dead) : Done H cs (.free i) (as.set i .dead) none := by
  obtain ⟨c, o, hc, ho, hr⟩ := h.at ha
  have hlive := rep_live hr
  have hnd := h.nd i o ho
  have e0 : ∀ x, (cstep H cs (.free i) = x) = ((match some c with
    | some (.buf b) => (free H b.data).map fun H => (H, cs.set i .dead, none)
    | some (.sb b) => (free H b.data).map fun H => (H, cs.set i .dead, none)
    | some (.tab t) => (tabFree H t).map fun H => (H, cs.set i .dead, none)
    | some (.str p) => (free H p).map fun H => (H, cs.set i .dead, none)
    | _ => none) = x) := by
    intro x
    rw [← hc]
    rfl
  cases hr with
  | buf rest hb => exact ⟨_, _, _, by rw [e0]; show (free H _).map _ = _; rw [(free_one h ho hb).1]; rfl, (free_one h ho hb).2⟩
  | sb rest hb => exact ⟨_, _, _, by rw [e0]; show (free H _).map _ = _; rw [(free_one h ho hb).1]; rfl, (free_one h ho hb).2⟩
  | str hb => exact ⟨_, _, _, by rw [e0]; show (free H _).map _ = _; rw [(free_one h ho hb).1]; rfl, (free_one h ho hb).2⟩
  | dead => exact absurd rfl hd
  | @tab t names ps rest hb hcnt hcap h0 hcb hl hn =>
    rw [List.nodup_cons] at hnd
    have hp := peek_ok (off := 0) (n := t.count) hb (by simp; omega)
    rw [List.drop_zero, List.take_of_length_le (by simp; omega)] at hp
    obtain ⟨H1, f1, f2, f3, f4⟩ := freeAll_ok ps H hnd.2 fun p hp => hlive p (by simp [hp])
    have hb1 : H1.blk t.strings = some (ps.map .ptr ++ rest) := (f3 _ hnd.1).trans hb
    refine ⟨H1.put t.strings none, _, _, ?_, free_inv h ho f2 ?_ ?_⟩
    · rw [e0]
      show (tabFree H t).map _ = _
      rw [tabFree, hp]
      show ((asPtrs _).bind _).map _ = _
      rw [asPtrs_map]
      show ((freeAll H ps).bind _).map _ = _
      rw [f1]
      show (free H1 t.strings).map _ = _
      rw [free, hb1]
      rfl
    · intro q hq
      simp at hq
      exact (if_neg hq.1).trans (f3 q hq.2)
    · intro q hq
      by_cases hqs : q = t.strings
      · exact if_pos hqs
      · exact (if_neg hqs).trans (f4 q (by simpa [hqs] using hq))

end calls

theorem step_ok {H : Heap} {cs : List CObj} {as as' : List AObj} {os : List (List Nat)} {op : MemOp} {r : Option Nat} (h : Inv H cs as os) (hs : AStep as op as' r) :
    Done H cs op as' r := by
  cases hs with
  | newBuf => exact do_newBuf h
  | newSb => exact do_newSb h
  | newTab => exact do_newTab h
  | append x h1 => exact do_append h x h1
  | copy h1 h2 h3 h4 => exact do_copy h h1 h2 h3 h4
  | push x h1 => exact do_push h x h1
  | patch x h1 h2 => exact do_patch h x h1 h2
  | patchOut x h1 h2 => exact do_patchOut h x h1 h2
  | text x h1 => exact do_text h x h1
  | reset h1 => exact do_reset h h1
  | build h1 => exact do_build h h1
  | addOld h1 h2 h3 => exact do_addOld h h1 h2 h3
  | addNew h1 h2 h3 => exact do_addNew h h1 h2 h3
  | free h1 h2 => exact do_free h h1 h2

theorem run_ok {as as' : List AObj} {ops : List MemOp} {rs : List Nat} (hr : ARun as ops as' rs) : ∀ {H : Heap} {cs : List CObj} {os : List (List Nat)}, Inv H cs as os →
    ∃ H' cs' os', crun H cs ops = some (H', cs', rs) ∧ Inv H' cs' as' os' := by
  induction hr with
  | nil => intro H cs os h; exact ⟨H, cs, os, rfl, h⟩
  | cons h1 _ ih =>
    intro H cs os h
    obtain ⟨H1, cs1, os1, e1, i1⟩ := step_ok h h1
    obtain ⟨H2, cs2, os2, e2, i2⟩ := ih i1
    refine ⟨H2, cs2, os2, ?_, i2⟩
    rw [crun, e1]
    show (crun H1 cs1 _).map _ = _
    rw [e2]
    rfl

/-- Before any allocation. -/
def noMem : Heap := ⟨0, fun _ => none⟩

theorem inv_none : Inv noMem [] [] [] :=
  ⟨rfl, rfl, fun _ _ _ _ h => by simp at h, fun _ _ h => by simp at h, fun _ _ _ _ _ _ h => by simp at h, fun _ h => absurd rfl h, fun _ _ => rfl⟩

/-! ### Reading the objects back -/

def readNames (H : Heap) : List Nat → Option (List (List Byte))
  | [] => some []
  | p :: ps => ((H.blk p).bind cstr).bind fun n => (readNames H ps).map (n :: ·)

/-- What a reader of the memory finds in an object. -/
def readObj (H : Heap) : CObj → Option AObj
  | .buf b => ((peek H b.data 0 b.size).bind asBytes).map .buf
  | .sb b => ((peek H b.data 0 b.len).bind asBytes).map .sb
  | .tab t => (((peek H t.strings 0 t.count).bind asPtrs).bind (readNames H)).map .tab
  | .str p => ((H.blk p).bind asBytes).bind fun bs => if bs.getLast? = some 0 then some (.str bs.dropLast) else none
  | .dead => some .dead

theorem asBytes_map (bs : List Byte) : asBytes (bs.map .byte) = some bs := by
  induction bs with
  | nil => rfl
  | cons b bs ih => show (asBytes (bs.map .byte)).map _ = _; rw [ih]; rfl

theorem readNames_ok {H : Heap} : ∀ (ps : List Nat) (names : List (List Byte)), ps.length = names.length →
    (∀ (k p : Nat) (n : List Byte), ps[k]? = some p → names[k]? = some n → H.blk p = some (n.map .byte ++ [.byte 0]) ∧ 0 ∉ n) → readNames H ps = some names
  | [], [], _, _ => rfl
  | [], _ :: _, h, _ => by simp at h
  | _ :: _, [], h, _ => by simp at h
  | p :: ps, n :: ns, hl, hr => by
    have h0 := hr 0 p n rfl rfl
    have ih := readNames_ok (H := H) ps ns (by simpa using hl) fun k q m h1 h2 => hr (k + 1) q m h1 h2
    show ((H.blk p).bind cstr).bind _ = _
    rw [h0.1]
    show (cstr _).bind _ = _
    rw [cstr_ok n h0.2, ih]
    rfl

theorem rep_read {H : Heap} {c : CObj} {a : AObj} {o : List Nat} (h : Rep H c a o) : readObj H c = some a := by
  cases h with
  | @buf b bs rest hb hs =>
    have hp := peek_ok (off := 0) (n := b.size) hb (by simp; omega)
    rw [List.drop_zero, List.take_of_length_le (by simp; omega)] at hp
    show ((peek H b.data 0 b.size).bind asBytes).map _ = _
    rw [hp]
    show (asBytes _).map _ = _
    rw [asBytes_map]
    rfl
  | @sb b bs rest hb hs =>
    have hp := peek_ok (off := 0) (n := b.len) hb (by simp; omega)
    rw [List.drop_zero, List.take_of_length_le (by simp; omega)] at hp
    show ((peek H b.data 0 b.len).bind asBytes).map _ = _
    rw [hp]
    show (asBytes _).map _ = _
    rw [asBytes_map]
    rfl
  | @str p bs hb =>
    show ((H.blk p).bind asBytes).bind _ = _
    rw [hb]
    show (asBytes _).bind _ = _
    rw [show bs.map Cell.byte ++ [.byte 0] = (bs ++ [0]).map .byte by simp, asBytes_map]
    show (if (bs ++ [0]).getLast? = some 0 then _ else _) = _
    rw [if_pos (by simp), List.dropLast_concat]
  | dead => rfl
  | @tab t names ps rest hb hs hcap h0 hcb hl hn =>
    have hp := peek_ok (off := 0) (n := t.count) hb (by simp; omega)
    rw [List.drop_zero, List.take_of_length_le (by simp; omega)] at hp
    show (((peek H t.strings 0 t.count).bind asPtrs).bind _).map _ = _
    rw [hp]
    show ((asPtrs _).bind _).map _ = _
    rw [asPtrs_map]
    show (readNames H ps).map _ = _
    rw [readNames_ok ps names hl hn]
    rfl

end Cnd.Mem

namespace Cnd

open Mem

/-- C98: any sequence of calls on buffers, string tables and string builders, interleaved in any way, runs from empty memory to its end:
no call writes or reads outside a block, uses a freed one, reads a cell never written or frees twice. The ids returned are those of the
lists, and every object then reads back as the list it stands for. -/
theorem C98_run {ops : List MemOp} {as : List AObj} {rs : List Nat} (h : ARun [] ops as rs) :
    ∃ H cs, crun noMem [] ops = some (H, cs, rs) ∧ cs.length = as.length ∧ ∀ i : Nat, (cs[i]?).bind (readObj H) = as[i]? := by
  obtain ⟨H, cs, os, e, hi⟩ := run_ok h inv_none
  refine ⟨H, cs, e, hi.lc, fun i => ?_⟩
  cases ha : as[i]? with
  | none =>
    rw [List.getElem?_eq_none_iff] at ha
    rw [List.getElem?_eq_none (by have := hi.lc; omega)]
    rfl
  | some a =>
    obtain ⟨c, o, hc, ho, hr⟩ := hi.at ha
    rw [hc]
    exact rep_read hr

/-- Nothing is leaked: when every object was freed, no block is left. -/
theorem C98_leak {ops : List MemOp} {as : List AObj} {rs : List Nat} (h : ARun [] ops as rs) (hd : ∀ a ∈ as, a = .dead) :
    ∃ H cs, crun noMem [] ops = some (H, cs, rs) ∧ ∀ p, H.blk p = none := by
  obtain ⟨H, cs, os, e, hi⟩ := run_ok h inv_none
  refine ⟨H, cs, e, fun p => ?_⟩
  cases hp : H.blk p with
  | none => rfl
  | some c =>
    obtain ⟨i, o, ho, hm⟩ := hi.live p (by rw [hp]; exact fun e => nomatch e)
    have hlt := (List.getElem?_eq_some_iff.1 ho).1
    have ha : as[i]? = some (as[i]'(by have := hi.lo; have := hi.lc; omega)) := List.getElem?_eq_getElem _
    obtain ⟨c', o', _, ho', hr⟩ := hi.at ha
    rw [ho] at ho'
    cases ho'
    rw [hd _ (List.mem_of_getElem? ha)] at hr
    cases hr
    cases hm

/-- The memory taken: the block of a buffer has 1024 bytes or less than twice what is in it, that of a table 32 entries or less than twice
its strings, and the capacity is the size of the block. -/
theorem C98_cap {ops : List MemOp} {as : List AObj} {rs : List Nat} (h : ARun [] ops as rs) :
    ∃ H cs, crun noMem [] ops = some (H, cs, rs) ∧
      (∀ (i : Nat) (b : Buf), cs[i]? = some (.buf b) → (∃ c, H.blk b.data = some c ∧ c.length = b.cap) ∧ b.size ≤ b.cap ∧ (b.cap = 1024 ∨ b.cap < 2 * b.size)) ∧
      ∀ (i : Nat) (t : Tab), cs[i]? = some (.tab t) → (∃ c, H.blk t.strings = some c ∧ c.length = t.cap) ∧ t.count ≤ t.cap ∧ (t.cap = 32 ∨ t.cap < 2 * t.count) := by
  obtain ⟨H, cs, os, e, hi⟩ := run_ok h inv_none
  refine ⟨H, cs, e, fun i b hc => ?_, fun i t hc => ?_⟩
  · have hlt := (List.getElem?_eq_some_iff.1 hc).1
    have ha : as[i]? = some (as[i]'(by have := hi.lc; omega)) := List.getElem?_eq_getElem _
    obtain ⟨c', o', hc', _, hr⟩ := hi.at ha
    rw [hc] at hc'
    cases hc'
    generalize as[i]'_ = a at hr
    cases hr with
    | buf rest hb hs hcap h0 hcb => exact ⟨⟨_, hb, by simp; omega⟩, by omega, hcb⟩
  · have hlt := (List.getElem?_eq_some_iff.1 hc).1
    have ha : as[i]? = some (as[i]'(by have := hi.lc; omega)) := List.getElem?_eq_getElem _
    obtain ⟨c', o', hc', _, hr⟩ := hi.at ha
    rw [hc] at hc'
    cases hc'
    generalize as[i]'_ = a at hr
    cases hr with
    | tab ps rest hb hs hcap h0 hcb => exact ⟨⟨_, hb, by simp; omega⟩, by omega, hcb⟩

theorem findIdx_first {names : List (List Byte)} {name : List Byte} {k : Nat} (hk : names[k]? = some name) (hm : ∀ m, m < k → names[m]? ≠ some name) :
    nameIdx names name = some k := by
  rw [nameIdx, List.findIdx?_eq_some_iff_getElem]
  obtain ⟨hl, e⟩ := List.getElem?_eq_some_iff.1 hk
  refine ⟨hl, by simp [e], fun j hj => ?_⟩
  have := hm j hj
  rw [List.getElem?_eq_getElem (by omega)] at this
  simpa using this

/-- The table of the calls is the one of the compiler's model (`strtabAdd`), which every theorem on the compiler is about. -/
theorem C98_table {as as' : List AObj} {i : Nat} {names : List (List Byte)} {name : List Byte} {r : Option Nat} (ha : as[i]? = some (.tab names)) :
    AStep as (.add i name) as' r → as' = as.set i (.tab (strtabAdd names name).1) ∧ r = some (strtabAdd names name).2 := by
  intro h
  cases h with
  | addOld h1 h2 h3 =>
    rw [ha] at h1
    cases h1
    rw [strtabAdd, findIdx_first h2 h3]
    exact ⟨(set_same ha).symm, rfl⟩
  | addNew h1 h2 h3 =>
    rw [ha] at h1
    cases h1
    have : nameIdx names name = none := by
      rw [nameIdx, List.findIdx?_eq_none_iff]
      intro x hx
      simp
      exact fun e => h2 (e ▸ hx)
    rw [strtabAdd, this]
    exact ⟨rfl, rfl⟩

/-- Every name without NUL can be added. -/
theorem C98_table_total {as : List AObj} {i : Nat} {names : List (List Byte)} {name : List Byte} (ha : as[i]? = some (.tab names)) (hz : 0 ∉ name) :
    ∃ as' r, AStep as (.add i name) as' r := by
  by_cases h : name ∈ names
  · have : nameIdx names name ≠ none := by
      rw [nameIdx, Ne, List.findIdx?_eq_none_iff]
      intro hx
      simpa using hx name h
    obtain ⟨k, hk⟩ := Option.ne_none_iff_exists'.1 this
    rw [nameIdx, List.findIdx?_eq_some_iff_getElem] at hk
    obtain ⟨hl, h1, h2⟩ := hk
    refine ⟨_, _, .addOld (k := k) ha ?_ fun m hm => ?_⟩
    · rw [List.getElem?_eq_getElem hl]
      simpa using h1
    · rw [List.getElem?_eq_getElem (by omega)]
      simpa using h2 m hm
  · exact ⟨_, _, .addNew ha h hz⟩

/-- The rule that a buffer is not appended to itself is needed: if it has to grow, its bytes are read from the block just freed. The compiler
keeps to it by refusing a struct that contains itself (cnd_parser.c 1142-1172). -/
theorem C98_false_alias {H : Heap} {b : Buf} {off n : Nat} (hb : b.data < H.next) (hg : b.cap < b.size + n) : bufCopy H b b.data off n = none := by
  rw [bufCopy, bufRoom, if_pos hg, realloc]
  cases hc : H.blk b.data with
  | none => rfl
  | some c =>
    show (peek _ b.data off n).bind _ = none
    rw [peek]
    have : (((H.put b.data none).put H.next (some (c.take (grow (b.size + n) b.cap) ++ List.replicate (grow (b.size + n) b.cap - c.length) .junk))).blk b.data) = none := by
      show (if b.data = H.next then _ else if b.data = b.data then none else _) = none
      rw [if_neg (by omega), if_pos rfl]
    show ((Heap.blk _ b.data).bind _).bind _ = none
    rw [show (Heap.blk _ b.data) = none from this]
    rfl

/-- A sequence of calls: a buffer grown past its first block, copied in part into another, changed in place, strings, a table, all freed. -/
example : ∃ as rs, ARun [] [.newBuf, .append 0 (List.replicate 2000 7), .push 0 9, .patch 0 1 [1, 2], .patch 0 2000 [1, 2], .newBuf, .copy 1 0 2 3, .newSb,
    .text 2 [104, 105], .build 2, .reset 2, .newTab, .add 4 [97], .add 4 [98], .add 4 [97], .free 0, .free 4] as rs ∧ rs = [0, 1, 0] ∧
    as = [.dead, .buf [2, 7, 7], .sb [], .str [104, 105], .dead] := by
  refine ⟨_, _, .cons .newBuf (.cons (.append _ rfl) (.cons (.push _ rfl) (.cons (.patch _ rfl (by decide +kernel)) (.cons (.patchOut _ rfl (by decide +kernel)) (.cons .newBuf
    (.cons (.copy (by decide) rfl rfl (by decide +kernel)) (.cons .newSb (.cons (.text _ rfl) (.cons (.build rfl) (.cons (.reset rfl) (.cons .newTab
    (.cons (.addNew rfl (by simp) (by decide)) (.cons (.addNew rfl (by decide) (by decide)) (.cons (.addOld (k := 0) rfl rfl (fun m h => absurd h (Nat.not_lt_zero m)))
    (.cons (.free rfl (fun e => nomatch e)) (.cons (.free rfl (fun e => nomatch e)) .nil)))))))))))))))), rfl, ?_⟩
  decide +kernel

/-- The buffer that is appended to itself. -/
example : (crun noMem [] [.newBuf, .append 0 (List.replicate 600 7), .copy 0 0 0 600]).isNone = true := by decide +kernel

end Cnd
