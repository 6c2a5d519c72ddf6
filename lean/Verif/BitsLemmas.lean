import Verif.Bits
import Verif.BytesLemmas
/-
  Helper lemmas about bit-field access: the bit loops described through the packet's bit stream.
-/

namespace Cnd

/-- Bit number `k` of the packet in stream order (specification): byte `k / 8`, and inside it counting
from the most significant bit for big-endian, from the least significant one for little-endian. -/
def bitAt (be : Bool) (buf : List Byte) (k : Nat) : Option Bool :=
  match buf[k / 8]? with
  | none => none
  | some b => some (if be then b.getLsbD (7 - k % 8) else b.getLsbD (k % 8))

theorem bitAt_eq_streamBit (be : Bool) (buf : List Byte) (cur bit : Nat) (hb : bit < 8) :
    bitAt be buf (8 * cur + bit) = (buf[cur]?).map (fun b => streamBit be b bit) := by
  unfold bitAt streamBit
  have h1 : (8 * cur + bit) / 8 = cur := by omega
  have h2 : (8 * cur + bit) % 8 = bit := by omega
  rw [h1, h2]
  cases buf[cur]? <;> rfl

theorem bitAt_none {be : Bool} {buf : List Byte} {k : Nat} :
    bitAt be buf k = none ↔ 8 * buf.length ≤ k := by
  unfold bitAt
  cases h : buf[k / 8]? with
  | none =>
    rw [List.getElem?_eq_none_iff] at h
    simp; omega
  | some b =>
    have := (List.getElem?_eq_some_iff.1 h).1
    simp; omega

theorem bumpBit_pos (cur bit : Nat) (hb : bit < 8) :
    8 * (bumpBit cur bit).1 + (bumpBit cur bit).2 = 8 * cur + bit + 1 ∧ (bumpBit cur bit).2 < 8 := by
  unfold bumpBit; split <;> simp <;> omega

theorem streamBit_set_same (be : Bool) (b : Byte) (bit : Nat) (v : Bool) (hb : bit < 8) :
    streamBit be (setStreamBit be b bit v) bit = v := by
  unfold streamBit setStreamBit
  cases be <;> cases v <;> simp <;> omega

theorem streamBit_set_other (be : Bool) (b : Byte) (bit bit' : Nat) (v : Bool) (hb : bit < 8)
    (hb' : bit' < 8) (hne : bit ≠ bit') :
    streamBit be (setStreamBit be b bit v) bit' = streamBit be b bit' := by
  unfold streamBit setStreamBit
  have key : ∀ p q : Nat, p < 8 → q < 8 → p ≠ q →
      (((if v then b ||| ((1 : Byte) <<< p) else b &&& ~~~((1 : Byte) <<< p))).getLsbD q) = b.getLsbD q := by
    intro p q hp hq hpq
    cases v
    · by_cases hqp : q < p
      · simp [hqp, hq]
      · have : q - p ≠ 0 := by omega
        simp [hqp, hq, this]
    · by_cases hqp : q < p
      · simp [hqp]
      · have : q - p ≠ 0 := by omega
        simp [hqp, hq, this]
  cases be
  · simpa using key bit bit' hb hb' hne
  · simpa using key (7 - bit) (7 - bit') (by omega) (by omega) (by omega)

theorem bitAt_set (be : Bool) (buf : List Byte) (cur bit : Nat) (b : Byte) (v : Bool) (hb : bit < 8)
    (hget : buf[cur]? = some b) (j : Nat) :
    bitAt be (buf.set cur (setStreamBit be b bit v)) j =
      if j = 8 * cur + bit then some v else bitAt be buf j := by
  have hlt := (List.getElem?_eq_some_iff.1 hget).1
  have hj : j = 8 * (j / 8) + j % 8 := by omega
  have hj8 : j % 8 < 8 := by omega
  split
  · rename_i h
    subst h
    rw [bitAt_eq_streamBit _ _ _ _ hb, List.getElem?_set_self hlt]
    simp [streamBit_set_same be b bit v hb]
  · rename_i h
    rw [hj, bitAt_eq_streamBit _ _ _ _ hj8, bitAt_eq_streamBit _ _ _ _ hj8]
    by_cases hc : j / 8 = cur
    · rw [hc, List.getElem?_set_self hlt, hget]
      simp only [Option.map_some]
      rw [streamBit_set_other be b bit (j % 8) v hb hj8 (by omega)]
    · rw [List.getElem?_set_ne (by omega)]

/-- Number of bits the loops can process before the packet ends. -/
def room (len k n : Nat) : Nat := min n (8 * len - k)

/-- Full description of the write loop. -/
theorem writeLoop_spec (be : Bool) (val : Word) (count n i : Nat) (buf : List Byte) (cur bit : Nat)
    (hb : bit < 8) {b' : List Byte} {c' o' : Nat}
    (h : writeLoop be val count n i buf cur bit = some (b', c', o')) :
    b'.length = buf.length ∧ o' < 8 ∧
    8 * c' + o' = 8 * cur + bit + room buf.length (8 * cur + bit) n ∧
    ∀ j, bitAt be b' j =
      if 8 * cur + bit ≤ j ∧ j < 8 * cur + bit + room buf.length (8 * cur + bit) n then
        some (val.getLsbD (if be then count - 1 - (i + (j - (8 * cur + bit)))
          else i + (j - (8 * cur + bit))))
      else bitAt be buf j := by
  induction n generalizing i buf cur bit with
  | zero =>
    simp only [writeLoop, Option.some.injEq, Prod.mk.injEq] at h
    obtain ⟨rfl, rfl, rfl⟩ := h
    refine ⟨rfl, hb, by simp [room], ?_⟩
    intro j
    rw [if_neg (by simp only [room]; omega)]
  | succ n ih =>
    unfold writeLoop at h
    split at h
    · rename_i hnone
      simp only [Option.some.injEq, Prod.mk.injEq] at h
      obtain ⟨rfl, rfl, rfl⟩ := h
      rw [List.getElem?_eq_none_iff] at hnone
      refine ⟨rfl, hb, by simp only [room]; omega, ?_⟩
      intro j
      rw [if_neg (by simp only [room]; omega)]
    · rename_i b hget
      have hlt := (List.getElem?_eq_some_iff.1 hget).1
      by_cases hk : (if be then count - 1 - i else i) ≥ 64
      · simp only [if_pos hk] at h
        cases h
      · simp only [if_neg hk] at h
        obtain ⟨hp1, hp2⟩ := bumpBit_pos cur bit hb
        obtain ⟨r1, r2, r3, r4⟩ := ih _ _ _ _ hp2 h
        simp only [List.length_set] at r1 r3 r4
        rw [hp1] at r3 r4
        refine ⟨r1, r2, ?_, ?_⟩
        · rw [r3]; simp only [room]; omega
        · intro j
          rw [r4 j, bitAt_set be buf cur bit b _ hb hget j]
          by_cases hj : j = 8 * cur + bit
          · subst hj
            have hr' : 8 * cur + bit ≤ 8 * cur + bit ∧
                8 * cur + bit < 8 * cur + bit + room buf.length (8 * cur + bit) (n + 1) := by
              simp only [room]; omega
            rw [if_neg (by omega), if_pos rfl, if_pos hr']
            simp
          · rw [if_neg hj]
            by_cases hr : 8 * cur + bit + 1 ≤ j ∧
                j < 8 * cur + bit + 1 + room buf.length (8 * cur + bit + 1) n
            · have hr' : 8 * cur + bit ≤ j ∧
                  j < 8 * cur + bit + room buf.length (8 * cur + bit) (n + 1) := by
                simp only [room] at hr ⊢; omega
              rw [if_pos hr, if_pos hr']
              have e : i + 1 + (j - (8 * cur + bit + 1)) = i + (j - (8 * cur + bit)) := by omega
              rw [e]
            · rw [if_neg hr, if_neg (by simp only [room] at hr ⊢; omega)]

/-- The write loop is defined whenever the shift amounts stay below 64. -/
theorem writeLoop_defined (be : Bool) (val : Word) (count n i : Nat) (buf : List Byte) (cur bit : Nat)
    (hc : count ≤ 64) (hi : i + n ≤ count) :
    writeLoop be val count n i buf cur bit ≠ none := by
  induction n generalizing i buf cur bit with
  | zero => simp [writeLoop]
  | succ n ih =>
    unfold writeLoop
    split
    · simp
    · have hk : ¬ (if be then count - 1 - i else i) ≥ 64 := by cases be <;> simp <;> omega
      simp only [if_neg hk]
      exact ih _ _ _ _ (by omega)

theorem getLsbD_bit (s : Bool) (t : Nat) :
    (if s then (1 : Word) else 0).getLsbD t = (decide (t = 0) && s) := by
  cases s <;> simp

theorem getLsbD_one (t : Nat) : (1 : Word).getLsbD t = decide (t = 0) := by
  simp

theorem getLsbD_one_shl (i t : Nat) (hi : i < 64) : ((1 : Word) <<< i).getLsbD t = decide (t = i) := by
  rw [BitVec.getLsbD_shiftLeft, getLsbD_one]
  by_cases h1 : t = i
  · subst h1; simp [hi]
  · simp only [h1, decide_false]
    by_cases h2 : t < i
    · simp [h2]
    · simp; omega

/-- Full description of the read loop, big-endian. -/
theorem readLoop_be (buf : List Byte) (n i cur bit : Nat) (val : Word) (hb : bit < 8) :
    ∃ v c o, readLoop buf true n i cur bit val = some (v, c, o) ∧ o < 8 ∧
      8 * c + o = 8 * cur + bit + room buf.length (8 * cur + bit) n ∧
      ∀ t, t < 64 → v.getLsbD t =
        if t < room buf.length (8 * cur + bit) n then
          bitAt true buf (8 * cur + bit + (room buf.length (8 * cur + bit) n - 1 - t)) == some true
        else val.getLsbD (t - room buf.length (8 * cur + bit) n) := by
  induction n generalizing i cur bit val with
  | zero =>
    refine ⟨val, cur, bit, rfl, hb, by simp [room], ?_⟩
    intro t _
    simp [room]
  | succ n ih =>
    unfold readLoop
    split
    · rename_i hnone
      rw [List.getElem?_eq_none_iff] at hnone
      have hz : room buf.length (8 * cur + bit) (n + 1) = 0 := by simp only [room]; omega
      refine ⟨val, cur, bit, rfl, hb, by omega, ?_⟩
      intro t _
      simp [hz]
    · rename_i b hget
      have hlt := (List.getElem?_eq_some_iff.1 hget).1
      obtain ⟨hp1, hp2⟩ := bumpBit_pos cur bit hb
      simp only [if_true]
      obtain ⟨v, c, o, e1, e2, e3, e4⟩ := ih (i + 1) (bumpBit cur bit).1 (bumpBit cur bit).2
        ((val <<< 1) ||| (if streamBit true b bit then 1 else 0)) hp2
      rw [hp1] at e3 e4
      have hr : room buf.length (8 * cur + bit) (n + 1) =
          room buf.length (8 * cur + bit + 1) n + 1 := by simp only [room]; omega
      refine ⟨v, c, o, e1, e2, by omega, ?_⟩
      intro t ht
      rw [e4 t ht, hr]
      by_cases h1 : t < room buf.length (8 * cur + bit + 1) n
      · rw [if_pos h1, if_pos (by omega)]
        congr 2; omega
      · rw [if_neg h1]
        simp only [BitVec.getLsbD_or, getLsbD_bit, BitVec.getLsbD_shiftLeft]
        by_cases h2 : t = room buf.length (8 * cur + bit + 1) n
        · rw [if_pos (by omega)]
          have e : 8 * cur + bit + (room buf.length (8 * cur + bit + 1) n + 1 - 1 - t)
              = 8 * cur + bit := by omega
          rw [e, bitAt_eq_streamBit _ _ _ _ hb, hget]
          simp only [Option.map_some]
          have : t - room buf.length (8 * cur + bit + 1) n = 0 := by omega
          simp [this]
        · rw [if_neg (by omega)]
          have h3 : t - room buf.length (8 * cur + bit + 1) n ≠ 0 := by omega
          have h4 : t - room buf.length (8 * cur + bit + 1) n < 64 := by omega
          have h5 : t - room buf.length (8 * cur + bit + 1) n - 1
            = t - (room buf.length (8 * cur + bit + 1) n + 1) := by omega
          simp [h3, h4, h5]

/-- Full description of the read loop, little-endian. -/
theorem readLoop_le (buf : List Byte) (n i cur bit : Nat) (val : Word) (hb : bit < 8)
    {v : Word} {c o : Nat} (h : readLoop buf false n i cur bit val = some (v, c, o)) :
    o < 8 ∧ 8 * c + o = 8 * cur + bit + room buf.length (8 * cur + bit) n ∧
      ∀ t, t < 64 → v.getLsbD t = (val.getLsbD t ||
        (decide (i ≤ t ∧ t < i + room buf.length (8 * cur + bit) n) &&
          (bitAt false buf (8 * cur + bit + (t - i)) == some true))) := by
  induction n generalizing i cur bit val with
  | zero =>
    simp only [readLoop, Option.some.injEq, Prod.mk.injEq] at h
    obtain ⟨rfl, rfl, rfl⟩ := h
    refine ⟨hb, by simp [room], ?_⟩
    intro t _
    have : ¬(i ≤ t ∧ t < i + room buf.length (8 * cur + bit) 0) := by simp only [room]; omega
    simp [this]
  | succ n ih =>
    unfold readLoop at h
    split at h
    · rename_i hnone
      simp only [Option.some.injEq, Prod.mk.injEq] at h
      obtain ⟨rfl, rfl, rfl⟩ := h
      rw [List.getElem?_eq_none_iff] at hnone
      have hz : room buf.length (8 * cur + bit) (n + 1) = 0 := by simp only [room]; omega
      refine ⟨hb, by omega, ?_⟩
      intro t _
      have : ¬(i ≤ t ∧ t < i + room buf.length (8 * cur + bit) (n + 1)) := by omega
      simp [this]
    · rename_i b hget
      have hlt := (List.getElem?_eq_some_iff.1 hget).1
      obtain ⟨hp1, hp2⟩ := bumpBit_pos cur bit hb
      have hr : room buf.length (8 * cur + bit) (n + 1) =
          room buf.length (8 * cur + bit + 1) n + 1 := by simp only [room]; omega
      have hbit : bitAt false buf (8 * cur + bit) = some (streamBit false b bit) := by
        rw [bitAt_eq_streamBit _ _ _ _ hb, hget]; rfl
      -- both remaining branches call the loop with a value `val2` that has bit `i` set as read
      have main : ∀ val2 : Word, (streamBit false b bit = true → i < 64) →
          (∀ t, t < 64 → val2.getLsbD t = (val.getLsbD t || (decide (t = i) && streamBit false b bit))) →
          readLoop buf false n (i + 1) (bumpBit cur bit).1 (bumpBit cur bit).2 val2 = some (v, c, o) →
          o < 8 ∧ 8 * c + o = 8 * cur + bit + room buf.length (8 * cur + bit) (n + 1) ∧
          ∀ t, t < 64 → v.getLsbD t = (val.getLsbD t ||
            (decide (i ≤ t ∧ t < i + room buf.length (8 * cur + bit) (n + 1)) &&
              (bitAt false buf (8 * cur + bit + (t - i)) == some true))) := by
        intro val2 _ hv2 hcall
        obtain ⟨r1, r2, r3⟩ := ih _ _ _ _ hp2 hcall
        rw [hp1] at r2 r3
        refine ⟨r1, by omega, ?_⟩
        intro t ht
        rw [r3 t ht, hv2 t ht, hr]
        by_cases h1 : t = i
        · subst h1
          have e1 : ¬(t + 1 ≤ t ∧ t < t + 1 + room buf.length (8 * cur + bit + 1) n) := by omega
          simp [e1, hbit]
        · have e2 : (i + 1 ≤ t ∧ t < i + 1 + room buf.length (8 * cur + bit + 1) n) ↔
              (i ≤ t ∧ t < i + (room buf.length (8 * cur + bit + 1) n + 1)) := by omega
          simp only [e2, h1, decide_false, Bool.false_and, Bool.or_false]
          by_cases h3 : i ≤ t ∧ t < i + (room buf.length (8 * cur + bit + 1) n + 1)
          · have e3 : 8 * cur + bit + 1 + (t - (i + 1)) = 8 * cur + bit + (t - i) := by omega
            rw [e3]
          · simp [h3]
      simp only [Bool.false_eq_true, if_false] at h
      split at h
      · rename_i hs
        split at h
        · cases h
        · rename_i hi
          refine main _ (fun _ => by omega) ?_ h
          intro t ht
          rw [BitVec.getLsbD_or, getLsbD_one_shl i t (by omega), hs]
          simp
      · rename_i hs
        refine main _ (fun h => absurd h hs) ?_ h
        intro t ht
        simp at hs
        simp [hs]

theorem readLoop_le_defined (buf : List Byte) (n i cur bit : Nat) (val : Word) (hn : i + n ≤ 64) :
    readLoop buf false n i cur bit val ≠ none := by
  induction n generalizing i cur bit val with
  | zero => simp [readLoop]
  | succ n ih =>
    unfold readLoop
    split
    · simp
    · simp only [Bool.false_eq_true, if_false]
      split
      · split
        · omega
        · exact ih _ _ _ _ (by omega)
      · exact ih _ _ _ _ (by omega)

/-- Two buffers of the same length with the same bit stream are equal. -/
theorem ext_bitAt (be : Bool) (a b : List Byte) (hl : a.length = b.length)
    (h : ∀ j, bitAt be a j = bitAt be b j) : a = b := by
  apply List.ext_getElem? 
  intro i
  by_cases hi : i < a.length
  · have hib : i < b.length := by omega
    rw [List.getElem?_eq_getElem hi, List.getElem?_eq_getElem hib]
    congr 1
    apply BitVec.eq_of_getLsbD_eq
    intro t ht
    cases be
    · have := h (8 * i + t)
      rw [bitAt_eq_streamBit _ _ _ _ ht, bitAt_eq_streamBit _ _ _ _ ht,
        List.getElem?_eq_getElem hi, List.getElem?_eq_getElem hib] at this
      simpa [streamBit] using this
    · have := h (8 * i + (7 - t))
      rw [bitAt_eq_streamBit _ _ _ _ (by omega), bitAt_eq_streamBit _ _ _ _ (by omega),
        List.getElem?_eq_getElem hi, List.getElem?_eq_getElem hib] at this
      have e : 7 - (7 - t) = t := by omega
      simpa [streamBit, e] using this
  · rw [List.getElem?_eq_none (by omega), List.getElem?_eq_none (by omega)]

/-- Bits of a little-endian word. -/
theorem getLsbD_leWord (bs : List Byte) (t : Nat) (ht : t < 64) :
    (leWord bs).getLsbD t = (bitAt false bs t == some true) := by
  induction bs generalizing t with
  | nil => simp [leWord, bitAt]
  | cons b bs ih =>
    unfold leWord
    rw [BitVec.getLsbD_or, BitVec.getLsbD_setWidth, BitVec.getLsbD_shiftLeft]
    by_cases h : t < 8
    · have e1 : t / 8 = 0 := by omega
      have e2 : t % 8 = t := by omega
      simp [ht, h, bitAt, e1, e2]
    · have e0 : b.getLsbD t = false := BitVec.getLsbD_of_ge _ _ (by omega)
      rw [ih (t - 8) (by omega), e0]
      have e1 : t / 8 = (t - 8) / 8 + 1 := by omega
      have e2 : t % 8 = (t - 8) % 8 := by omega
      simp [ht, h, bitAt, e1, e2]

/-- Bits of the bytes written little-endian. -/
theorem bitAt_leBytes (n : Nat) (w : Word) (t : Nat) (ht : t < 8 * n) :
    bitAt false (leBytes n w) t = some (w.getLsbD t) := by
  induction n generalizing w t with
  | zero => omega
  | succ n ih =>
    unfold leBytes
    by_cases h : t < 8
    · have e1 : t / 8 = 0 := by omega
      have e2 : t % 8 = t := by omega
      simp [bitAt, e1, e2, h]
    · have e1 : t / 8 = (t - 8) / 8 + 1 := by omega
      have e2 : t % 8 = (t - 8) % 8 := by omega
      have := ih (w >>> 8) (t - 8) (by omega)
      unfold bitAt at this ⊢
      rw [e1, List.getElem?_cons_succ, e2]
      simp only [Bool.false_eq_true, if_false] at this ⊢
      rw [this, BitVec.getLsbD_ushiftRight]
      congr 2; omega

/-- Reversing the bytes of a list turns its little-endian bit stream into the big-endian one, backwards. -/
theorem bitAt_reverse (bs : List Byte) (t : Nat) (ht : t < 8 * bs.length) :
    bitAt true bs.reverse t = bitAt false bs (8 * bs.length - 1 - t) := by
  unfold bitAt
  have h1 : t / 8 < bs.length := by omega
  rw [List.getElem?_reverse h1]
  have e1 : (8 * bs.length - 1 - t) / 8 = bs.length - 1 - t / 8 := by omega
  have e2 : (8 * bs.length - 1 - t) % 8 = 7 - t % 8 := by omega
  rw [e1, e2]
  rfl

theorem bitAt_drop_take (be : Bool) (buf : List Byte) (p n k : Nat) (hk : k < 8 * n) :
    bitAt be ((buf.drop p).take n) k = bitAt be buf (8 * p + k) := by
  unfold bitAt
  have e1 : (8 * p + k) / 8 = p + k / 8 := by omega
  have e2 : (8 * p + k) % 8 = k % 8 := by omega
  rw [List.getElem?_take_of_lt (by omega), List.getElem?_drop, e1, e2]

theorem bitAt_splice (be : Bool) (buf : List Byte) (p : Nat) (bs : List Byte)
    (h : p + bs.length ≤ buf.length) (j : Nat) :
    bitAt be (splice buf p bs) j =
      if 8 * p ≤ j ∧ j < 8 * p + 8 * bs.length then bitAt be bs (j - 8 * p) else bitAt be buf j := by
  split
  · rename_i hj
    unfold bitAt
    have e1 : j / 8 = p + (j - 8 * p) / 8 := by omega
    have e2 : (j - 8 * p) % 8 = j % 8 := by omega
    rw [e1, getElem?_splice_mid h (by omega), e2]
  · rename_i hj
    unfold bitAt
    by_cases hl : j / 8 < p
    · rw [getElem?_splice_lt h hl]
    · rw [getElem?_splice_ge h (by omega)]

/-- Bits of the bytes written by `wrBytes`, in stream order. -/
theorem bitAt_wrBytes (be : Bool) (n : Nat) (w : Word) (t : Nat) (ht : t < 8 * n) :
    bitAt be (wrBytes be n w) t = some (w.getLsbD (if be then 8 * n - 1 - t else t)) := by
  unfold wrBytes
  cases be
  · simpa using bitAt_leBytes n w t ht
  · simp only [if_true]
    rw [bitAt_reverse _ _ (by simpa using ht), leBytes_length, bitAt_leBytes _ _ _ (by omega)]

/-- Bits of the word read by `rdWord`, in stream order. -/
theorem getLsbD_rdWord (be : Bool) (bs : List Byte) (hl : bs.length ≤ 8) (t : Nat) (ht : t < 8 * bs.length) :
    (rdWord be bs).getLsbD t =
      (bitAt be bs (if be then 8 * bs.length - 1 - t else t) == some true) := by
  unfold rdWord
  cases be
  · simpa using getLsbD_leWord bs t (by omega)
  · simp only [if_true]
    rw [getLsbD_leWord _ t (by omega)]
    have := bitAt_reverse bs (8 * bs.length - 1 - t) (by omega)
    have e : 8 * bs.length - 1 - (8 * bs.length - 1 - t) = t := by omega
    rw [e] at this
    -- the stream of `bs` big-endian is the stream of `bs.reverse` little-endian backwards
    have h2 := bitAt_reverse bs.reverse (8 * bs.length - 1 - t) (by simp; omega)
    simp only [List.reverse_reverse, List.length_reverse] at h2
    rw [e] at h2
    rw [h2]

end Cnd

namespace Cnd

/-- write_bits with either path: same description as for the loop. -/
theorem writeBits_spec (be : Bool) (val : Word) (count : Nat) (buf : List Byte) (cur bit : Nat)
    (hb : bit < 8) {b' : List Byte} {c' o' : Nat}
    (h : writeBits buf be cur bit val count = some (b', c', o')) :
    b'.length = buf.length ∧ o' < 8 ∧
    8 * c' + o' = 8 * cur + bit + room buf.length (8 * cur + bit) count ∧
    ∀ j, bitAt be b' j =
      if 8 * cur + bit ≤ j ∧ j < 8 * cur + bit + room buf.length (8 * cur + bit) count then
        some (val.getLsbD (if be then count - 1 - (j - (8 * cur + bit)) else j - (8 * cur + bit)))
      else bitAt be buf j := by
  unfold writeBits at h
  simp only at h
  split at h
  · rename_i hc
    obtain ⟨rfl, h8, hlen, _⟩ := hc
    simp only [Option.some.injEq, Prod.mk.injEq] at h
    obtain ⟨rfl, rfl, rfl⟩ := h
    have hle : cur + (wrBytes be (count / 8) val).length ≤ buf.length := by simpa using hlen
    have hcount : 8 * (count / 8) = count := by omega
    have hroom : room buf.length (8 * cur + 0) count = count := by simp only [room]; omega
    rw [hroom]
    refine ⟨splice_length hle, by omega, by omega, ?_⟩
    intro j
    rw [bitAt_splice be buf cur _ hle j, wrBytes_length]
    by_cases hj : 8 * cur ≤ j ∧ j < 8 * cur + 8 * (count / 8)
    · have hj' : 8 * cur + 0 ≤ j ∧ j < 8 * cur + 0 + count := by omega
      rw [if_pos hj, if_pos hj', bitAt_wrBytes be _ val _ (by omega), hcount]
      rfl
    · have hj' : ¬(8 * cur + 0 ≤ j ∧ j < 8 * cur + 0 + count) := by omega
      rw [if_neg hj, if_neg hj']
  · have := writeLoop_spec be val count count 0 buf cur bit hb h
    simpa using this

theorem writeBits_defined (be : Bool) (val : Word) (count : Nat) (buf : List Byte) (cur bit : Nat)
    (hc : count ≤ 64) : writeBits buf be cur bit val count ≠ none := by
  unfold writeBits
  simp only
  split
  · simp
  · exact writeLoop_defined be val count count 0 buf cur bit hc (by omega)

/-- read_bits with either path: where it ends. -/
theorem readBits_pos (be : Bool) (count : Nat) (buf : List Byte) (cur bit : Nat)
    (hb : bit < 8) {v : Word} {c' o' : Nat}
    (h : readBits buf be cur bit count = some (v, c', o')) :
    o' < 8 ∧ 8 * c' + o' = 8 * cur + bit + room buf.length (8 * cur + bit) count := by
  unfold readBits at h
  simp only at h
  split at h
  · rename_i hc
    obtain ⟨rfl, h8, hlen, _⟩ := hc
    simp only [Option.some.injEq, Prod.mk.injEq] at h
    obtain ⟨_, rfl, rfl⟩ := h
    refine ⟨by omega, ?_⟩
    simp only [room]; omega
  · cases be
    · have := readLoop_le buf count 0 cur bit 0 hb h
      exact ⟨this.1, this.2.1⟩
    · obtain ⟨v', c, o, e1, e2, e3, _⟩ := readLoop_be buf count 0 cur bit 0 hb
      rw [e1] at h
      simp only [Option.some.injEq, Prod.mk.injEq] at h
      obtain ⟨_, rfl, rfl⟩ := h
      exact ⟨e2, e3⟩

/-- read_bits with either path, when the field lies inside the packet. -/
theorem readBits_spec (be : Bool) (count : Nat) (buf : List Byte) (cur bit : Nat)
    (hb : bit < 8) (hc : count ≤ 64) (hr : 8 * cur + bit + count ≤ 8 * buf.length) :
    ∃ v c o, readBits buf be cur bit count = some (v, c, o) ∧ o < 8 ∧
      8 * c + o = 8 * cur + bit + count ∧
      ∀ t, t < 64 → v.getLsbD t = (decide (t < count) &&
        (bitAt be buf (8 * cur + bit + (if be then count - 1 - t else t)) == some true)) := by
  have hroom : room buf.length (8 * cur + bit) count = count := by simp only [room]; omega
  unfold readBits
  simp only
  split
  · rename_i hcond
    obtain ⟨rfl, h8, hlen, hby⟩ := hcond
    refine ⟨_, _, _, rfl, by omega, by omega, ?_⟩
    intro t ht
    have hl : ((buf.drop cur).take (count / 8)).length = count / 8 := by simp; omega
    have hcount : 8 * (count / 8) = count := by omega
    by_cases htc : t < count
    · rw [getLsbD_rdWord be _ (by omega) t (by omega), hl, hcount]
      have hk : (if be then count - 1 - t else t) < 8 * (count / 8) := by cases be <;> simp <;> omega
      rw [bitAt_drop_take be buf cur (count / 8) _ hk]
      simp [htc]
    · simp only [htc, decide_false, Bool.false_and]
      have hlt := toNat_rdWord_lt be ((buf.drop cur).take (count / 8)) (by omega)
      rw [hl, hcount] at hlt
      rw [BitVec.getLsbD]
      apply Nat.testBit_lt_two_pow
      exact Nat.lt_of_lt_of_le hlt (Nat.pow_le_pow_right (by omega) (by omega))
  · cases be
    · cases h : readLoop buf false count 0 cur bit 0 with
      | none => exact absurd h (readLoop_le_defined buf count 0 cur bit 0 (by omega))
      | some r =>
        obtain ⟨v, c, o⟩ := r
        obtain ⟨r1, r2, r3⟩ := readLoop_le buf count 0 cur bit 0 hb h
        rw [hroom] at r2 r3
        refine ⟨v, c, o, rfl, r1, r2, ?_⟩
        intro t ht
        rw [r3 t ht]
        simp
    · obtain ⟨v, c, o, e1, e2, e3, e4⟩ := readLoop_be buf count 0 cur bit 0 hb
      rw [hroom] at e3 e4
      refine ⟨v, c, o, e1, e2, e3, ?_⟩
      intro t ht
      rw [e4 t ht]
      by_cases h1 : t < count <;> simp [h1]

end Cnd
