/-
  C69: messages of the language server. C70: file URIs. C71: documents and formatting. C72: hovers.
-/
import Verif.Lsp
import Verif.Props.Fmt

namespace Cnd

/-! ### C69: specification -/

/-- A header line other than the length: at most 1023 characters up to its newline, and not the empty line that ends the headers. -/
structure OtherHeader (l : List Byte) : Prop where
  line : ∃ b, l = b ++ [0x0A] ∧ 0x0A ∉ b
  text : NoNul l
  short : l.length ≤ 1023
  notLen : ¬ lenName <+: l
  notEnd : l ≠ [0x0A] ∧ l ≠ [0x0D, 0x0A]

/-- Decimal digits of `n`. -/
def Spells (ds : List Byte) (n : Nat) : Prop :=
  ∃ vs : List Nat, vs ≠ [] ∧ (∀ v ∈ vs, v < 10) ∧ ds = vs.map (fun v => BitVec.ofNat 8 (0x30 + v)) ∧ n = vs.foldl (fun a v => 10 * a + v) 0

/-- The ends of lines. -/
def IsEol (e : List Byte) : Prop := e = [0x0D, 0x0A] ∨ e = [0x0A]

/-- `bytes` are the message `body` with its headers, as in the base protocol of the language server protocol. -/
def Framed (body bytes : List Byte) : Prop :=
  ∃ (pre post : List (List Byte)) (ds e1 e2 : List Byte), (∀ l ∈ pre, OtherHeader l) ∧ (∀ l ∈ post, OtherHeader l) ∧
    Spells ds body.length ∧ ds.length ≤ 1000 ∧ IsEol e1 ∧ IsEol e2 ∧
    bytes = pre.flatten ++ (lenName ++ ds ++ e1) ++ post.flatten ++ e2 ++ body

/-! ### C69: proof -/

theorem fgets_line {b : List Byte} (h : 0x0A ∉ b) : ∀ {n : Nat} (r : List Byte), (b ++ [0x0A]).length ≤ n →
    fgetsC n ((b ++ [0x0A]) ++ r) = (b ++ [0x0A], r) := by
  induction b with
  | nil =>
    intro n r hn
    cases n with
    | zero => simp at hn
    | succ n => simp [fgetsC]
  | cons c b ih =>
    intro n r hn
    cases n with
    | zero => simp at hn
    | succ n =>
      have hc : c ≠ 0x0A := fun e => h (by simp [e])
      have := ih (fun e => h (List.mem_cons_of_mem _ e)) (n := n) r (by simpa using hn)
      simp only [List.cons_append] at this ⊢
      rw [fgetsC, if_neg hc, this]

theorem cText_id {l : List Byte} (h : NoNul l) : cText l = l := by
  unfold cText
  induction l with
  | nil => rfl
  | cons c l ih =>
    rw [List.takeWhile_cons, if_pos (by have := h c (by simp); simpa using this), ih h.tail]

theorem cText_noNul (l : List Byte) : NoNul (cText l) := by
  unfold cText
  induction l with
  | nil => intro b hb; cases hb
  | cons c l ih =>
    rw [List.takeWhile_cons]
    split
    · intro b hb
      rcases List.mem_cons.1 hb with rfl | hb
      · rename_i h; simpa using h
      · exact ih b hb
    · intro b hb; cases hb

theorem fgets_split (n : Nat) (s : List Byte) : (fgetsC n s).1 ++ (fgetsC n s).2 = s := by
  induction n generalizing s with
  | zero => simp [fgetsC]
  | succ n ih =>
    cases s with
    | nil => simp [fgetsC]
    | cons c s =>
      rw [fgetsC]
      split
      · simp
      · simp [ih]

theorem fgets_less (n : Nat) (s : List Byte) (h : s ≠ []) : (fgetsC (n + 1) s).2.length < s.length := by
  have := fgets_split (n + 1) s
  have h1 : (fgetsC (n + 1) s).1 ≠ [] := by
    cases s with
    | nil => exact absurd rfl h
    | cons c s => rw [fgetsC]; split <;> simp
  have h2 := List.length_pos_iff.2 h1
  have h3 := congrArg List.length this
  simp only [List.length_append] at h3
  omega

theorem take_lenName {l : List Byte} (h : ¬ lenName <+: l) : l.take 16 ≠ lenName := by
  intro e
  exact h (by rw [← e]; exact List.take_prefix _ _)

theorem readHead_other {l : List Byte} (h : OtherHeader l) (f : Nat) (v : Int) (r : List Byte) :
    readHead (f + 1) v (l ++ r) = readHead f v r := by
  obtain ⟨b, e, hb⟩ := h.line
  have hf : fgetsC 1023 (l ++ r) = (l, r) := by
    rw [e]; exact fgets_line hb r (by rw [← e]; exact h.short)
  have hne : l ++ r ≠ [] := by rw [e]; simp
  rw [readHead, if_neg hne]
  simp only [hf, cText_id h.text]
  rw [if_neg (take_lenName h.notLen), if_neg (fun e => e.elim h.notEnd.2 h.notEnd.1)]

theorem readHead_others {pre : List (List Byte)} (h : ∀ l ∈ pre, OtherHeader l) (f : Nat) (v : Int) (r : List Byte) :
    readHead (f + pre.length) v (pre.flatten ++ r) = readHead f v r := by
  induction pre with
  | nil => simp
  | cons l pre ih =>
    rw [List.flatten_cons, List.append_assoc, List.length_cons, ← Nat.add_assoc, readHead_other (h l (by simp))]
    exact ih fun l' hl => h l' (List.mem_cons_of_mem _ hl)

theorem digit_byte {v : Nat} (h : v < 10) : isDig (BitVec.ofNat 8 (0x30 + v)) = true ∧ (BitVec.ofNat 8 (0x30 + v)).toNat - 0x30 = v ∧
    isSpaceC (BitVec.ofNat 8 (0x30 + v)) = false ∧ BitVec.ofNat 8 (0x30 + v) ≠ 0x2D ∧ BitVec.ofNat 8 (0x30 + v) ≠ 0x2B ∧
    BitVec.ofNat 8 (0x30 + v) ≠ 0 ∧ BitVec.ofNat 8 (0x30 + v) ≠ 0x0A := by
  have : ∀ v : Fin 10, isDig (BitVec.ofNat 8 (0x30 + v.val)) = true ∧ (BitVec.ofNat 8 (0x30 + v.val)).toNat - 0x30 = v.val ∧
    isSpaceC (BitVec.ofNat 8 (0x30 + v.val)) = false ∧ BitVec.ofNat 8 (0x30 + v.val) ≠ 0x2D#8 ∧ BitVec.ofNat 8 (0x30 + v.val) ≠ 0x2B#8 ∧
    BitVec.ofNat 8 (0x30 + v.val) ≠ 0#8 ∧ BitVec.ofNat 8 (0x30 + v.val) ≠ 0x0A#8 := by decide
  exact this ⟨v, h⟩

theorem atoiDigits_spec (e : List Byte) (he : ∀ c r, e = c :: r → isDig c = false) (vs : List Nat) (h : ∀ v ∈ vs, v < 10) (a : Nat) :
    atoiDigits (vs.map (fun v => BitVec.ofNat 8 (0x30 + v)) ++ e) a = vs.foldl (fun a v => 10 * a + v) a := by
  induction vs generalizing a with
  | nil =>
    cases e with
    | nil => rfl
    | cons c r => simp [atoiDigits, he c r rfl]
  | cons v vs ih =>
    obtain ⟨h1, h2, _⟩ := digit_byte (h v (by simp))
    rw [List.map_cons, List.cons_append, atoiDigits, if_pos h1, h2, ih fun w hw => h w (List.mem_cons_of_mem _ hw)]
    rfl

theorem atoi_spells {ds : List Byte} {n : Nat} (h : Spells ds n) (hn : n < 2 ^ 31) {e : List Byte} (he : IsEol e) :
    atoiC (ds ++ e) = some (n : Int) := by
  obtain ⟨vs, h1, h2, rfl, rfl⟩ := h
  have hd : ∀ c r, e = c :: r → isDig c = false := by
    intro c r h
    rcases he with rfl | rfl <;> (injection h with h _; subst h; decide)
  have hs := atoiDigits_spec e hd vs h2 0
  cases vs with
  | nil => exact absurd rfl h1
  | cons v vs =>
    obtain ⟨_, _, g3, g4, g5, _⟩ := digit_byte (h2 v (by simp))
    rw [List.map_cons, List.cons_append] at hs ⊢
    unfold atoiC
    rw [List.dropWhile_cons, if_neg (by rw [g3]; simp)]
    dsimp only
    rw [if_neg g4, if_neg g5, hs, if_pos ⟨by omega, by omega⟩]

theorem readHead_len {ds e : List Byte} {n : Nat} (h : Spells ds n) (hl : ds.length ≤ 1000) (hn : n < 2 ^ 31) (he : IsEol e) (f : Nat) (v : Int)
    (r : List Byte) : readHead (f + 1) v ((lenName ++ ds ++ e) ++ r) = readHead f n r := by
  have ha := atoi_spells h hn he
  obtain ⟨vs, _, h2, rfl, _⟩ := h
  have hds : ∀ c ∈ vs.map (fun v => BitVec.ofNat 8 (0x30 + v)), c ≠ 0 ∧ c ≠ 0x0A := by
    intro c hc
    obtain ⟨w, hw, rfl⟩ := List.mem_map.1 hc
    obtain ⟨_, _, _, _, _, g6, g7⟩ := digit_byte (h2 w hw)
    exact ⟨g6, g7⟩
  have hnl : (0x0A : Byte) ∉ lenName ++ vs.map (fun v => BitVec.ofNat 8 (0x30 + v)) := by
    intro hm
    rcases List.mem_append.1 hm with hm | hm
    · exact absurd hm (by decide)
    · exact (hds _ hm).2 rfl
  have hlen : lenName.length = 16 := rfl
  obtain ⟨b, hb1, hb2⟩ : ∃ b, lenName ++ vs.map (fun v => BitVec.ofNat 8 (0x30 + v)) ++ e = b ++ [0x0A] ∧ (0x0A : Byte) ∉ b := by
    rcases he with rfl | rfl
    · refine ⟨lenName ++ vs.map (fun v => BitVec.ofNat 8 (0x30 + v)) ++ [0x0D], by simp, ?_⟩
      intro hm
      rcases List.mem_append.1 hm with hm | hm
      · exact hnl hm
      · exact absurd hm (by decide)
    · exact ⟨_, rfl, hnl⟩
  have hel : e.length ≤ 2 := by rcases he with rfl | rfl <;> simp
  have hf : fgetsC 1023 ((lenName ++ vs.map (fun v => BitVec.ofNat 8 (0x30 + v)) ++ e) ++ r) =
      (lenName ++ vs.map (fun v => BitVec.ofNat 8 (0x30 + v)) ++ e, r) := by
    rw [hb1]
    refine fgets_line hb2 r ?_
    rw [← hb1]
    simp only [List.length_append, hlen]
    omega
  have hnn : NoNul (lenName ++ vs.map (fun v => BitVec.ofNat 8 (0x30 + v)) ++ e) := by
    intro c hc
    rcases List.mem_append.1 hc with hc | hc
    · rcases List.mem_append.1 hc with hc | hc
      · have : ∀ c ∈ lenName, c ≠ 0 := by decide
        exact this c hc
      · exact (hds c hc).1
    · have : ∀ c ∈ ([0x0D, 0x0A] : List Byte), c ≠ 0 := by decide
      rcases he with rfl | rfl
      · exact this c hc
      · exact this c (List.mem_cons_of_mem _ hc)
  rw [readHead, if_neg (by rw [hb1]; simp)]
  simp only [hf, cText_id hnn]
  rw [List.append_assoc lenName, List.take_append_of_le_length (by rw [hlen]; omega), List.take_of_length_le (by rw [hlen]; omega), if_pos rfl]
  rw [List.drop_append_of_le_length (by rw [hlen]; omega), List.drop_of_length_le (by rw [hlen]; omega), List.nil_append, ha]

theorem readHead_end {e : List Byte} (he : IsEol e) (f : Nat) (v : Int) (r : List Byte) : readHead (f + 1) v (e ++ r) = .done v r := by
  have hf : fgetsC 1023 (e ++ r) = (e, r) := by
    rcases he with rfl | rfl
    · exact fgets_line (b := [0x0D]) (by decide) r (by simp)
    · exact fgets_line (b := []) (by decide) r (by simp)
  rw [readHead, if_neg (by rcases he with rfl | rfl <;> simp)]
  simp only [hf]
  rcases he with rfl | rfl
  · rw [if_neg (by decide), if_pos (by decide)]
  · rw [if_neg (by decide), if_pos (by decide)]

theorem flatten_ge {pre : List (List Byte)} (h : ∀ l ∈ pre, OtherHeader l) : pre.length ≤ pre.flatten.length := by
  induction pre with
  | nil => simp
  | cons l pre ih =>
    obtain ⟨b, e, _⟩ := (h l (by simp)).line
    have h1 : 0 < l.length := by rw [e]; simp
    have h2 := ih fun l' hl => h l' (List.mem_cons_of_mem _ hl)
    simp only [List.length_cons, List.flatten_cons, List.length_append]
    omega

/-- **C69**: one message. Whatever other headers there are, before and behind the length, and whatever follows, the server reads exactly the body. -/
theorem C69_message {body bytes : List Byte} (h : Framed body bytes) (h0 : body ≠ []) (hn : NoNul body) (hl : body.length < 2 ^ 31)
    (rest : List Byte) : readJson (bytes ++ rest) = .msg body rest := by
  obtain ⟨pre, post, ds, e1, e2, g1, g2, g3, g4, g5, g6, rfl⟩ := h
  have hb : 0 < body.length := List.length_pos_iff.2 h0
  have l1 := flatten_ge g1
  have l2 := flatten_ge g2
  have : readHead ((pre.flatten ++ (lenName ++ ds ++ e1) ++ post.flatten ++ e2 ++ body ++ rest).length + 1) 0
      (pre.flatten ++ (lenName ++ ds ++ e1) ++ post.flatten ++ e2 ++ body ++ rest) = .done body.length (body ++ rest) := by
    obtain ⟨k, hk⟩ : ∃ k, (pre.flatten ++ (lenName ++ ds ++ e1) ++ post.flatten ++ e2 ++ body ++ rest).length + 1 =
        (((k + 1) + post.length) + 1) + pre.length := by
      have hle : lenName.length = 16 := rfl
      simp only [List.length_append, hle]
      exact ⟨pre.flatten.length - pre.length + (post.flatten.length - post.length) + (16 + ds.length + e1.length + e2.length + body.length +
        rest.length) - 1, by omega⟩
    rw [hk]
    simp only [List.append_assoc]
    rw [readHead_others g1]
    have := readHead_len g3 g4 hl g5 (k + 1 + post.length) 0 (post.flatten ++ (e2 ++ (body ++ rest)))
    simp only [List.append_assoc] at this
    rw [this, readHead_others g2, readHead_end g6]
  unfold readJson
  rw [this]
  dsimp only
  rw [if_neg (by omega), if_neg (by omega), if_neg (by omega)]
  simp [cText_id hn]

/-- A stream of messages. -/
def MsgStream : List (List Byte) → List Byte → Prop
  | [], s => s = []
  | b :: bs, s => ∃ x y, Framed b x ∧ b ≠ [] ∧ NoNul b ∧ b.length < 2 ^ 31 ∧ MsgStream bs y ∧ s = x ++ y

/-- **C69**: a stream of messages of any number and lengths below 2^31 is read as exactly these messages, in order. -/
theorem C69_stream (bodies : List (List Byte)) (s : List Byte) (h : MsgStream bodies s) (n : Nat) (hn : bodies.length < n) :
    readMsgs n s = some bodies := by
  induction bodies generalizing s n with
  | nil =>
    cases n with
    | zero => omega
    | succ n => rw [show s = [] from h]; rfl
  | cons b bs ih =>
    obtain ⟨x, y, h1, h2, h3, h4, h5, rfl⟩ := h
    cases n with
    | zero => omega
    | succ n =>
      rw [readMsgs, C69_message h1 h2 h3 h4]
      dsimp only
      rw [ih y h5 n (by simpa using hn)]
      rfl

theorem decText_spells (f n : Nat) (hf : 0 < f) (h : n < 10 ^ f) : Spells (decText f n) n ∧ (decText f n).length ≤ f := by
  induction f generalizing n with
  | zero => omega
  | succ f ih =>
    rw [decText]
    split
    · refine ⟨⟨[n], by simp, by simpa, ?_, by simp⟩, by simp⟩
      rw [Nat.mod_eq_of_lt (by assumption)]; rfl
    · rename_i h10
      have hf : 0 < f := by
        cases f with
        | zero => simp at h; omega
        | succ f => omega
      obtain ⟨⟨vs, h1, h2, h3, h4⟩, h5⟩ := ih (n / 10) hf (by rw [Nat.pow_succ] at h; omega)
      refine ⟨⟨vs ++ [n % 10], by simp, ?_, ?_, ?_⟩, ?_⟩
      · intro v hv
        rcases List.mem_append.1 hv with hv | hv
        · exact h2 v hv
        · have : v = n % 10 := by simpa using hv
          omega
      · rw [h3]; simp
      · rw [List.foldl_append, ← h4]; simp; omega
      · simp; omega

/-- **C69**: what the server sends is framed, so a client that follows the protocol (and the server itself) reads it back. -/
theorem C69_sent (text : List Byte) (h : text.length < 10 ^ 20) : Framed text (sendJson text) := by
  obtain ⟨h1, h2⟩ := decText_spells 20 text.length (by omega) h
  exact ⟨[], [], decText 20 text.length, [0x0D, 0x0A], [0x0D, 0x0A], (by simp), (by simp), h1, by omega, .inl rfl, .inl rfl, by
    unfold sendJson; simp⟩

/-- Undefined behaviour comes only from a length header whose number is -1 or no int. -/
theorem readHead_safe (f : Nat) (v : Int) (s : List Byte) (hf : s.length < f) (hv : v ≠ -1) :
    (∀ a l b, s = a ++ l ++ b → lenName <+: l → ∃ w, atoiC ((cText l).drop 16) = some w ∧ w ≠ -1) →
    readHead f v s = .close ∨ ∃ w r, readHead f v s = .done w r ∧ w ≠ -1 := by
  induction f generalizing v s with
  | zero => omega
  | succ f ih =>
    intro h
    rw [readHead]
    split
    · exact .inl rfl
    · rename_i hs
      have hsp := fgets_split 1023 s
      have hlt : (fgetsC 1023 s).2.length < s.length := fgets_less 1022 s hs
      have hrest : ∀ a l b, (fgetsC 1023 s).2 = a ++ l ++ b → lenName <+: l → ∃ w, atoiC ((cText l).drop 16) = some w ∧ w ≠ -1 := by
        intro a l b e hp
        refine h ((fgetsC 1023 s).1 ++ a) l b (hsp.symm.trans ?_) hp
        rw [e]; simp
      dsimp only
      split
      · rename_i hl
        have hpre : lenName <+: (fgetsC 1023 s).1 := by
          have h1 : lenName <+: cText (fgetsC 1023 s).1 := by rw [← hl]; exact List.take_prefix _ _
          exact h1.trans (List.takeWhile_prefix _)
        obtain ⟨w, hw1, hw2⟩ := h [] (fgetsC 1023 s).1 (fgetsC 1023 s).2 (by simpa using hsp.symm) hpre
        rw [hw1]
        exact ih w _ (by omega) hw2 hrest
      · split
        · exact .inr ⟨v, _, rfl, hv⟩
        · exact ih v _ (by omega) hv hrest

/-- The full claim of safety: no input makes reading undefined. -/
def ReadsSafely : Prop := ∀ s, readJson s ≠ .ub

/-- **C69, partial**: reading is defined for every input in which the numbers behind "Content-Length: " are ints other than -1. -/
theorem C69_safe_partial (s : List Byte)
    (h : ∀ a l b, s = a ++ l ++ b → lenName <+: l → ∃ w, atoiC ((cText l).drop 16) = some w ∧ w ≠ -1) : readJson s ≠ .ub := by
  unfold readJson
  rcases readHead_safe (s.length + 1) 0 s (by omega) (by decide) h with e | ⟨w, r, e, hw⟩
  · rw [e]; simp
  · rw [e]
    dsimp only
    split
    · simp
    · split <;> simp

/-- `Content-Length: -1`, an empty line, and a byte. -/
theorem C69_false_length : ¬ ReadsSafely := by
  intro h
  exact h (lenName ++ [0x2D, 0x31, 0x0D, 0x0A, 0x0D, 0x0A, 0x78]) (by decide +kernel)

/-- A message with another header in front. -/
example : Framed [0x7B, 0x7D] ([0x41, 0x3A, 0x62, 0x0D, 0x0A] ++ lenName ++ [0x32, 0x0D, 0x0A, 0x0D, 0x0A, 0x7B, 0x7D]) :=
  ⟨[[0x41, 0x3A, 0x62, 0x0D, 0x0A]], [], [0x32], [0x0D, 0x0A], [0x0D, 0x0A],
    by
      intro l hl
      have : l = [0x41, 0x3A, 0x62, 0x0D, 0x0A] := by simpa using hl
      subst this
      exact ⟨⟨[0x41, 0x3A, 0x62, 0x0D], rfl, by decide⟩, by unfold NoNul; decide, by decide, by decide, by decide, by decide⟩,
    by simp, ⟨[2], by decide, by decide, by decide, by decide⟩, by decide, .inl rfl, .inl rfl, by decide⟩

example : readMsgs 3 (sendJson [0x7B, 0x7D] ++ sendJson [0x5B, 0x31, 0x5D]) = some [[0x7B, 0x7D], [0x5B, 0x31, 0x5D]] := by
  decide +kernel

/-! ### C70: file URIs -/

/-- `a` is a hexadecimal digit of value `v`. -/
def HexOf (a : Byte) (v : Nat) : Prop :=
  v < 10 ∧ a = BitVec.ofNat 8 (0x30 + v) ∨ 10 ≤ v ∧ v < 16 ∧ (a = BitVec.ofNat 8 (0x61 + (v - 10)) ∨ a = BitVec.ofNat 8 (0x41 + (v - 10)))

/-- `u` is a percent-encoding of `p` (RFC 3986, 2.1): every byte but the percent sign may stand for itself, and every byte may
be encoded, with digits of either case. -/
inductive PctEnc : List Byte → List Byte → Prop
  | nil : PctEnc [] []
  | plain {c p u} : c ≠ 0x25 → PctEnc p u → PctEnc (c :: p) (c :: u)
  | pct {c a b p u} : HexOf a (c.toNat / 16) → HexOf b (c.toNat % 16) → PctEnc p u → PctEnc (c :: p) (0x25 :: a :: b :: u)

theorem hexOf_val {a : Byte} {v : Nat} (h : HexOf a v) : isCtype a = true ∧ isHex a = true ∧ pctVal a = v := by
  have h1 : ∀ v : Fin 10, isCtype (BitVec.ofNat 8 (0x30 + v.val)) = true ∧ isHex (BitVec.ofNat 8 (0x30 + v.val)) = true ∧
      pctVal (BitVec.ofNat 8 (0x30 + v.val)) = v.val := by decide
  have h2 : ∀ v : Fin 16, 10 ≤ v.val → (isCtype (BitVec.ofNat 8 (0x61 + (v.val - 10))) = true ∧ isHex (BitVec.ofNat 8 (0x61 + (v.val - 10))) = true ∧
      pctVal (BitVec.ofNat 8 (0x61 + (v.val - 10))) = v.val) ∧ (isCtype (BitVec.ofNat 8 (0x41 + (v.val - 10))) = true ∧
      isHex (BitVec.ofNat 8 (0x41 + (v.val - 10))) = true ∧ pctVal (BitVec.ofNat 8 (0x41 + (v.val - 10))) = v.val) := by decide
  rcases h with ⟨hv, rfl⟩ | ⟨hv, hw, rfl | rfl⟩
  · exact h1 ⟨v, hv⟩
  · exact (h2 ⟨v, hw⟩ hv).1
  · exact (h2 ⟨v, hw⟩ hv).2

theorem urlDecode_enc {p u : List Byte} (h : PctEnc p u) : urlDecode u = some p := by
  induction h with
  | nil => rfl
  | plain hc _ ih => rw [urlDecode.eq_def]; simp only [if_neg hc, ih, Option.map_some]
  | @pct c a b p u ha hb _ ih =>
    obtain ⟨a1, a2, a3⟩ := hexOf_val ha
    obtain ⟨b1, b2, b3⟩ := hexOf_val hb
    rw [urlDecode.eq_def]
    simp only [if_pos, a1, a2, a3, b1, b2, b3, ih, Option.map_some]
    have : 16 * (c.toNat / 16) + c.toNat % 16 = c.toNat := by omega
    rw [this]
    simp

theorem uriPath_scheme (u d : List Byte) (h : urlDecode u = some d) (hd : NoNul d) : uriPath (fileScheme ++ u) = dropSlash d := by
  have h7 : fileScheme.length = 7 := rfl
  unfold uriPath
  rw [List.take_append_of_le_length (by rw [h7]; omega), List.take_of_length_le (by rw [h7]; omega), if_pos rfl,
    List.drop_append_of_le_length (by rw [h7]; omega), List.drop_of_length_le (by rw [h7]; omega), List.nil_append, h, Option.bind_some, cText_id hd]

/-- A Windows path behind a slash: `/C:...`. -/
def SlashDrive (p : List Byte) : Prop := ∃ c r, p = 0x2F :: c :: 0x3A :: r ∧ isAlphaC c = true

/-- **C70**: the path of a file URI is the percent-decoded path, for every path and every way to encode it. (The second byte of an absolute path has to be
ASCII: `isalpha` is called with a negative number otherwise, `C70_false_ctype`.) -/
theorem C70_decode {p u : List Byte} (h : PctEnc p u) (hn : NoNul p) (hd : ¬ SlashDrive p)
    (ha : ∀ c r, p = 0x2F :: c :: r → c.toNat < 0x80) : uriPath (fileScheme ++ u) = some p := by
  rw [uriPath_scheme u p (urlDecode_enc h) hn]
  unfold dropSlash
  split
  · rename_i x c r
    split
    · rename_i hx
      subst hx
      have : isCtype c = true := by unfold isCtype; exact decide_eq_true (ha c r rfl)
      rw [if_pos this, if_neg]
      rintro ⟨h1, h2⟩
      cases r with
      | nil => cases h2
      | cons x r =>
        have hx : x = 0x3A := by simpa using h2
        exact hd ⟨c, r, by rw [hx], h1⟩
    · rfl
  · rfl

/-- **C70**: the slash before a drive letter is dropped. -/
theorem C70_drive {c : Byte} {r u : List Byte} (h : PctEnc (0x2F :: c :: 0x3A :: r) u) (hn : NoNul (0x2F :: c :: 0x3A :: r)) (hc : isAlphaC c = true) :
    uriPath (fileScheme ++ u) = some (c :: 0x3A :: r) := by
  rw [uriPath_scheme u _ (urlDecode_enc h) hn]
  have : isCtype c = true := by
    unfold isAlphaC at hc; unfold isCtype
    have := of_decide_eq_true hc
    exact decide_eq_true (by omega)
  unfold dropSlash
  dsimp only
  rw [if_pos rfl, if_pos this, if_pos ⟨hc, by rfl⟩]

theorem urlDecode_len (n : Nat) (s d : List Byte) (hn : s.length ≤ n) (h : urlDecode s = some d) : d.length ≤ s.length := by
  induction n generalizing s d with
  | zero =>
    have : s = [] := List.length_eq_zero_iff.1 (by omega)
    subst this
    cases h; simp
  | succ n ih =>
    have key : ∀ (c x : Byte) (s t d : List Byte), t.length ≤ s.length → s.length ≤ n → (urlDecode t).map (x :: ·) = some d → d.length ≤ (c :: s).length := by
      intro c x s t d h1 h2 h3
      obtain ⟨e, he, rfl⟩ := Option.map_eq_some_iff.1 h3
      have := ih t e (by omega) he
      simp only [List.length_cons]
      omega
    cases s with
    | nil => cases h; simp
    | cons c s =>
      have hs : s.length ≤ n := by simpa using hn
      rw [urlDecode.eq_def] at h
      dsimp only at h
      split at h
      · split at h
        · rename_i a b r
          split at h
          · split at h
            · split at h
              · split at h
                · exact key c _ _ _ d (by simp only [List.length_cons]; omega) hs h
                · exact key c _ _ _ d (by simp) hs h
              · cases h
            · exact key c _ _ _ d (by simp) hs h
          · cases h
        · exact key c _ _ _ d (Nat.le_refl _) hs h
      · exact key c _ _ _ d (Nat.le_refl _) hs h

/-- **C70**: decoding never writes outside the buffer of `strlen(raw_path) + 1` bytes: what is written, with its NUL, is at most as long. -/
theorem C70_bounds (s d : List Byte) (h : urlDecode s = some d) : d.length + 1 ≤ s.length + 1 :=
  Nat.succ_le_succ (urlDecode_len s.length s d (Nat.le_refl _) h)

theorem urlDecode_plain {p : List Byte} (h : 0x25 ∉ p) : PctEnc p p := by
  induction p with
  | nil => exact .nil
  | cons c p ih => exact .plain (fun e => h (by rw [e]; exact List.mem_cons_self)) (ih fun e => h (List.mem_cons_of_mem _ e))

theorem map_slash {p : List Byte} (h : 0x5C ∉ p) : p.map (fun c => if c = 0x5C then 0x2F else c) = p := by
  induction p with
  | nil => rfl
  | cons c p ih =>
    rw [List.map_cons, if_neg (fun e => h (by rw [e]; exact List.mem_cons_self)), ih fun e => h (List.mem_cons_of_mem _ e)]

/-- The full claim: the URI the server answers with for a file leads back to the file. -/
def OpensFile : Prop := ∀ p, NoNul p → (∃ r, p = 0x2F :: r) → ∃ u, pathUri p = some u ∧ uriPath u = some p

/-- **C70, partial**: it does for absolute paths without percent signs and backslashes, of at most 1016 bytes, that do not look like a drive behind a slash. -/
theorem C70_definition_partial (r : List Byte) (hn : NoNul (0x2F :: r)) (hp : 0x25 ∉ r) (hb : 0x5C ∉ r) (hl : r.length ≤ 1015)
    (hd : ¬ SlashDrive (0x2F :: r)) (h1 : ∀ c, r.head? = some c → c.toNat < 0x80 ∧ c ≠ 0x3A) :
    ∃ u, pathUri (0x2F :: r) = some u ∧ uriPath u = some (0x2F :: r) := by
  have hp' : (0x25 : Byte) ∉ 0x2F :: r := by
    intro e
    rcases List.mem_cons.1 e with e | e
    · exact absurd e (by decide)
    · exact hp e
  have hb' : (0x5C : Byte) ∉ fileScheme ++ 0x2F :: r := by
    intro e
    rcases List.mem_append.1 e with e | e
    · exact absurd e (by decide)
    · rcases List.mem_cons.1 e with e | e
      · exact absurd e (by decide)
      · exact hb e
  refine ⟨fileScheme ++ 0x2F :: r, ?_, C70_decode (urlDecode_plain hp') hn hd ?_⟩
  · unfold pathUri
    dsimp only
    rw [if_neg (fun e => (h1 _ e).2 rfl), List.take_of_length_le (by simp [fileScheme]; omega), map_slash hb']
  · intro c r' e
    injection e with _ e
    exact (h1 c (by rw [e]; rfl)).1

/-- **C70, partial**: and for Windows paths with forward slashes. -/
theorem C70_definition_drive_partial (c : Byte) (r : List Byte) (hc : isAlphaC c = true) (hn : NoNul r) (hp : 0x25 ∉ r) (hb : 0x5C ∉ r)
    (hl : r.length ≤ 1013) : ∃ u, pathUri (c :: 0x3A :: r) = some u ∧ uriPath u = some (c :: 0x3A :: r) := by
  have hc' : c ≠ 0x25 ∧ c ≠ 0x5C ∧ c ≠ 0 := by
    refine ⟨?_, ?_, ?_⟩ <;> (rintro rfl; exact absurd hc (by decide))
  have hp' : (0x25 : Byte) ∉ 0x2F :: c :: 0x3A :: r := by
    intro e
    simp only [List.mem_cons] at e
    rcases e with e | e | e | e
    · exact absurd e (by decide)
    · exact hc'.1 e.symm
    · exact absurd e (by decide)
    · exact hp e
  have hb' : (0x5C : Byte) ∉ fileScheme ++ 0x2F :: c :: 0x3A :: r := by
    intro e
    rcases List.mem_append.1 e with e | e
    · exact absurd e (by decide)
    · simp only [List.mem_cons] at e
      rcases e with e | e | e | e
      · exact absurd e (by decide)
      · exact hc'.2.1 e.symm
      · exact absurd e (by decide)
      · exact hb e
  refine ⟨fileScheme ++ 0x2F :: c :: 0x3A :: r, ?_, C70_drive (urlDecode_plain hp') ?_ hc⟩
  · unfold pathUri
    dsimp only
    rw [if_pos (by rfl)]
    have : fileScheme ++ [0x2F] ++ c :: 0x3A :: r = fileScheme ++ 0x2F :: c :: 0x3A :: r := by simp
    rw [this, List.take_of_length_le (by simp [fileScheme]; omega), map_slash hb']
  · intro b hb
    simp only [List.mem_cons] at hb
    rcases hb with rfl | rfl | rfl | hb
    · decide
    · exact hc'.2.2
    · decide
    · exact hn b hb

/-- The file `/a%41` is answered as `file:///a%41`, which is the file `/aA`. -/
theorem C70_false_percent : ¬ OpensFile := by
  intro h
  obtain ⟨u, h1, h2⟩ := h [0x2F, 0x61, 0x25, 0x34, 0x31] (by unfold NoNul; decide) ⟨_, rfl⟩
  have : u = fileScheme ++ [0x2F, 0x61, 0x25, 0x34, 0x31] := by
    have h3 : pathUri [0x2F, 0x61, 0x25, 0x34, 0x31] = some (fileScheme ++ [0x2F, 0x61, 0x25, 0x34, 0x31]) := by decide +kernel
    rw [h3] at h1
    injection h1 with h1
    exact h1.symm
  subst this
  exact absurd h2 (by decide +kernel)

/-- `file:///é` (UTF-8, not encoded): `isalpha` of a negative number. `file:///%é` : the same for `isxdigit`. -/
theorem C70_false_ctype : uriPath (fileScheme ++ [0x2F, 0xC3, 0xA9]) = none ∧ uriPath (fileScheme ++ [0x2F, 0x25, 0xC3, 0xA9]) = none := by
  decide +kernel

/-- `/a b` as `file:///a%20b`. -/
example : PctEnc [0x2F, 0x61, 0x20, 0x62] [0x2F, 0x61, 0x25, 0x32, 0x30, 0x62] :=
  .plain (by decide) (.plain (by decide) (.pct (.inl ⟨by decide, by decide⟩) (.inl ⟨by decide, by decide⟩) (.plain (by decide) .nil)))

example : uriPath (fileScheme ++ [0x2F, 0x61, 0x25, 0x32, 0x30, 0x62]) = some [0x2F, 0x61, 0x20, 0x62] := by decide +kernel

/-! ### C71: documents and formatting -/

/-- What a notification says about the text of a document. -/
def Note.says (uri : List Byte) : Note → Option (List Byte)
  | .didOpen u t => if u = uri then some t else none
  | .didChange u ts => if u = uri then ts.getLast? else none
  | _ => none

/-- The text the client has told the server last; a closed document is the file's business again. -/
def clientText (uri : List Byte) (notes : List Note) : Option (List Byte) :=
  notes.foldl (fun cur n => if n = .didClose uri then none else (n.says uri).or cur) none

/-- The full claim: the server's text of a document is the client's. -/
def KeepsText : Prop := ∀ uri notes, docGet uri (notes.foldl docStep []) = clientText uri notes

theorem docGet_update (uri u t : List Byte) (ds : List (List Byte × List Byte)) :
    docGet uri (docUpdate u t ds) = if u = uri then some t else docGet uri ds := by
  induction ds with
  | nil => simp [docUpdate, docGet]
  | cons d ds ih =>
    rw [docUpdate]
    split
    · rename_i h
      simp only [docGet, h]
      by_cases h1 : u = uri
      · rw [if_pos h1, if_pos h1]
      · rw [if_neg h1, if_neg h1, if_neg h1]
    · rename_i h
      simp only [docGet, ih]
      by_cases h1 : u = uri
      · rw [if_pos h1, if_pos h1, if_neg (fun e => h (e.trans h1.symm))]
      · rw [if_neg h1, if_neg h1]

/-- **C71, partial**: it is, after any sequence of notifications, as long as the document has not been closed. -/
theorem C71_store_partial (uri : List Byte) (notes : List Note) (h : .didClose uri ∉ notes) :
    docGet uri (notes.foldl docStep []) = clientText uri notes := by
  unfold clientText
  suffices hg : ∀ ds cur, docGet uri ds = cur → docGet uri (notes.foldl docStep ds) =
      notes.foldl (fun cur n => if n = .didClose uri then none else (n.says uri).or cur) cur from hg [] none rfl
  induction notes with
  | nil => intro ds cur hd; exact hd
  | cons n notes ih =>
    intro ds cur hd
    rw [List.foldl_cons, List.foldl_cons]
    refine ih (fun e => h (List.mem_cons_of_mem _ e)) _ _ ?_
    rw [if_neg (fun e => h (by rw [e]; exact List.mem_cons_self))]
    cases n with
    | didOpen u t =>
      show docGet uri (docUpdate u t ds) = _
      rw [docGet_update, hd]
      unfold Note.says
      dsimp only
      by_cases h1 : u = uri
      · rw [if_pos h1, if_pos h1]; rfl
      · rw [if_neg h1, if_neg h1]; rfl
    | didChange u ts =>
      unfold docStep Note.says
      dsimp only
      cases hts : ts.getLast? with
      | none => dsimp only; rw [hd]; split <;> simp
      | some t =>
        dsimp only
        rw [docGet_update, hd]
        split <;> simp
    | didSave u => exact hd
    | didClose u => exact hd

/-- A closed document stays in the store, and answers about it go on to use the old text. -/
theorem C71_false_close : ¬ KeepsText := by
  intro h
  exact absurd (h [0x61] [.didOpen [0x61] [0x78], .didClose [0x61]]) (by decide)

/-- The text behind the first `n` lines. -/
def dropLines : Nat → List Byte → List Byte
  | 0, s => s
  | _ + 1, [] => []
  | n + 1, c :: s => if c = 0x0A then dropLines n s else dropLines (n + 1) s

/-- The document after an edit that replaces everything from its beginning to the beginning of line `editLines`. -/
def applyEdit (new doc : List Byte) : List Byte := new ++ dropLines editLines doc

/-- The full claim: formatting changes nothing but the white space of the document the client has. -/
def FormatsDocument : Prop := ∀ disk notes uri text new, clientText uri notes = some text → NoNul text →
  formatting disk uri = some (some new) → ink (applyEdit new text) = ink text

theorem dropLines_short (n : Nat) (s : List Byte) (h : newlines s < n) : dropLines n s = [] := by
  induction s generalizing n with
  | nil => cases n with
    | zero => omega
    | succ n => rfl
  | cons c s ih =>
    cases n with
    | zero => omega
    | succ n =>
      unfold newlines at h ih
      rw [List.countP_cons] at h
      rw [dropLines]
      split
      · rename_i hc
        exact ih n (by simp [hc] at h; omega)
      · exact ih (n + 1) (by omega)

/-- **C71, partial**: this is so if the document is saved and has fewer than 999999 line ends. -/
theorem C71_format_partial (disk : List Byte → Option (List Byte)) (uri path text new : List Byte) (hp : uriPath uri = some path)
    (hd : disk path = some text) (hn : NoNul text) (hl : newlines text < 999999) (h : formatting disk uri = some (some new)) :
    ink (applyEdit new text) = ink text := by
  unfold formatting at h
  rw [hp] at h
  dsimp only at h
  rw [hd] at h
  dsimp only at h
  obtain ⟨out, h1, h2⟩ := C50_formatter text hn
  rw [h2 []] at h
  injection h with h
  injection h with h
  subst h
  unfold applyEdit editLines
  rw [dropLines_short _ _ hl, List.append_nil, h1]

/-- ... and there is an answer. -/
theorem C71_format_answers (disk : List Byte → Option (List Byte)) (uri path text : List Byte) (hp : uriPath uri = some path)
    (hd : disk path = some text) (hn : NoNul text) : ∃ new, formatting disk uri = some (some new) := by
  obtain ⟨out, _, h2⟩ := C50_formatter text hn
  refine ⟨out, ?_⟩
  unfold formatting
  rw [hp]
  dsimp only
  rw [hd]
  dsimp only
  rw [h2 []]
  rfl

/-- A document that has been changed and not saved is replaced by the formatted file: the changes are lost. -/
theorem C71_false_unsaved : ¬ FormatsDocument := by
  intro h
  have := h (fun _ => some [0x61]) [.didOpen (fileScheme ++ [0x2F]) [0x61], .didChange (fileScheme ++ [0x2F]) [[0x61, 0x62]]] (fileScheme ++ [0x2F])
    [0x61, 0x62] [0x61, 0x0A] (by decide) (by unfold NoNul; decide) (by decide +kernel)
  exact absurd this (by unfold applyEdit; rw [dropLines_short _ _ (by decide)]; decide)

theorem dropLines_replicate (n : Nat) (s : List Byte) : dropLines n (List.replicate n 0x0A ++ s) = s := by
  induction n with
  | zero => cases s <;> rfl
  | succ n ih => rw [List.replicate_succ, List.cons_append, dropLines, if_pos rfl, ih]

/-- A saved document of a million lines, the last with an `a`: after formatting it has the `a` twice. -/
theorem C71_false_long : ∃ (disk : List Byte → Option (List Byte)) (uri path text new : List Byte), uriPath uri = some path ∧ disk path = some text ∧
    NoNul text ∧ formatting disk uri = some (some new) ∧ ink text = [0x61] ∧ ink (applyEdit new text) = [0x61, 0x61] := by
  have hi : ∀ n, ink (List.replicate n 0x0A ++ [0x61]) = [0x61] := by
    intro n
    induction n with
    | zero => decide
    | succ n ih => rw [List.replicate_succ, List.cons_append]; exact ih
  obtain ⟨text, hn, ht, hl⟩ : ∃ text, NoNul text ∧ ink text = [0x61] ∧ dropLines editLines text = [0x61] := by
    refine ⟨List.replicate editLines 0x0A ++ [0x61], ?_, hi _, dropLines_replicate _ _⟩
    intro b hb
    rcases List.mem_append.1 hb with hb | hb
    · rw [List.eq_of_mem_replicate hb]; decide
    · have : b = 0x61 := by simpa using hb
      rw [this]; decide
  obtain ⟨new, h⟩ := C71_format_answers (fun _ => some text) (fileScheme ++ [0x2F]) [0x2F] text (by decide +kernel) rfl hn
  refine ⟨fun _ => some text, fileScheme ++ [0x2F], [0x2F], text, new, (by decide +kernel), rfl, hn, h, ht, ?_⟩
  obtain ⟨out, h1, h2⟩ := C50_formatter _ hn
  have : new = out := by
    unfold formatting at h
    rw [show uriPath (fileScheme ++ [0x2F]) = some [0x2F] by decide +kernel] at h
    dsimp only at h
    rw [h2 []] at h
    injection h with h
    injection h with h
    exact h.symm
  subst this
  unfold applyEdit
  rw [hl]
  have : ∀ a b : List Byte, ink (a ++ b) = ink a ++ ink b := by intro a b; unfold ink; simp
  rw [this, h1, ht]
  decide

/-! ### C72: hovers -/

/-- What a hover should say. -/
def hoverFull (about : List Byte) (docs details : Option (List Byte)) : List Byte :=
  about ++ (match docs with | some d => 0x0A :: 0x0A :: d | none => []) ++ (match details with | some d => 0x0A :: 0x0A :: d | none => [])

/-- The full claim: the text fits its buffer of 4096 bytes, cut off if necessary. -/
def HoversSafely : Prop := ∀ about docs details, hoverText about docs details = some ((hoverFull about docs details).take 4095)

theorem putHover_take (l piece : List Byte) (h : l.length ≤ 4096) :
    putHover piece (l.take 4095, l.length) = some ((l ++ piece).take 4095, (l ++ piece).length) := by
  unfold putHover
  dsimp only
  rw [if_neg (by omega), List.length_append]
  congr 2
  split
  · rw [List.take_append_of_le_length (by omega)]
  · rw [List.take_append, List.take_of_length_le (by omega : l.length ≤ 4095)]

theorem putHover_ub (a piece : List Byte) (n : Nat) (h : 4096 < n) : putHover piece (a, n) = none := by
  unfold putHover
  rw [if_pos h]

/-- **C72**: exactly when it does: every part but the last has to end within 4096 characters. Otherwise the next part is written outside the buffer. -/
theorem C72_hover (about : List Byte) (docs details : Option (List Byte)) :
    hoverText about docs details =
      if (docs ≠ none ∨ details ≠ none) ∧ 4096 < about.length ∨
        docs ≠ none ∧ details ≠ none ∧ 4096 < (hoverFull about docs none).length then none
      else some ((hoverFull about docs details).take 4095) := by
  have h0 : putHover about ([], 0) = some (about.take 4095, about.length) := by
    have := putHover_take [] about (by simp)
    simpa using this
  unfold hoverText
  rw [h0]
  simp only [Option.bind_some]
  cases docs with
  | none =>
    simp only [Option.bind_some]
    cases details with
    | none => simp [hoverFull]
    | some e =>
      dsimp only
      by_cases h : 4096 < about.length
      · rw [putHover_ub _ _ _ h, if_pos (.inl ⟨.inr (by simp), h⟩)]; rfl
      · rw [putHover_take _ _ (by omega), if_neg (by simp [h])]
        simp [hoverFull]
  | some d =>
    dsimp only
    by_cases h : 4096 < about.length
    · rw [putHover_ub _ _ _ h, if_pos (.inl ⟨.inl (by simp), h⟩)]; rfl
    · rw [putHover_take _ _ (by omega)]
      simp only [Option.bind_some]
      cases details with
      | none => rw [if_neg (by simp [h])]; simp [hoverFull]
      | some e =>
        dsimp only
        have hf : (hoverFull about (some d) none).length = (about ++ 0x0A :: 0x0A :: d).length := by simp [hoverFull]
        by_cases h2 : 4096 < (about ++ 0x0A :: 0x0A :: d).length
        · rw [putHover_ub _ _ _ h2, if_pos (.inr ⟨by simp, by simp, by rw [hf]; exact h2⟩)]; rfl
        · rw [putHover_take _ _ (by omega), if_neg (by rw [hf]; simp only [h, h2]; simp)]
          simp [hoverFull]

/-- An enumeration with 5000 characters of documentation. -/
theorem C72_false_long : ¬ HoversSafely := by
  intro h
  obtain ⟨d, hd⟩ : ∃ d : List Byte, d.length = 5000 := ⟨List.replicate 5000 0x64, List.length_replicate⟩
  have h1 := h [0x41] (some d) (some [0x54])
  rw [C72_hover, if_pos (.inr ⟨(fun e => by cases e), (fun e => by cases e), by simp [hoverFull, hd]⟩)] at h1
  cases h1

example : hoverText [0x41] (some [0x64]) (some [0x54]) = some [0x41, 0x0A, 0x0A, 0x64, 0x0A, 0x0A, 0x54] := by decide +kernel

end Cnd
