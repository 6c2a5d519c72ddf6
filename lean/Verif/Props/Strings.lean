import Verif.Props.Checks
/-
  C14 (NUL-terminated strings), C15 (length-prefixed strings).
-/

namespace Cnd
variable {σ τ : Type}

/-- The packet contains the bytes `bs` at position `p`. -/
def BytesAt (buf : List Byte) (p : Nat) (bs : List Byte) : Prop := ∀ i, i < bs.length → buf[p + i]? = bs[i]?

theorem bytesAt_splice {buf : List Byte} {p : Nat} {bs : List Byte} (h : p + bs.length ≤ buf.length) :
    BytesAt (splice buf p bs) p bs := fun _ hi => getElem?_splice_mid h hi

theorem bytesAt_drop {buf : List Byte} {p : Nat} {bs : List Byte} (h : BytesAt buf p bs) :
    ∃ rest, buf.drop p = bs ++ rest := by
  refine ⟨buf.drop (p + bs.length), ?_⟩
  apply List.ext_getElem?
  intro i
  rw [List.getElem?_drop]
  rcases Nat.lt_or_ge i bs.length with hi | hi
  · rw [h i hi, List.getElem?_append_left hi]
  · rw [List.getElem?_append_right hi, List.getElem?_drop]
    congr 1
    omega

theorem bytesAt_left {buf : List Byte} {p : Nat} {a b : List Byte} (h : BytesAt buf p (a ++ b)) :
    BytesAt buf p a := by
  intro i hi
  rw [h i (by simp; omega), List.getElem?_append_left hi]

theorem bytesAt_right {buf : List Byte} {p : Nat} {a b : List Byte} (h : BytesAt buf p (a ++ b)) :
    BytesAt buf (p + a.length) b := by
  intro i hi
  rw [Nat.add_assoc, h (a.length + i) (by simp; omega), List.getElem?_append_right (by omega)]
  congr 1; omega

theorem bytesAt_le {buf : List Byte} {p : Nat} {bs : List Byte} (h : BytesAt buf p bs) (hne : bs ≠ []) :
    p + bs.length ≤ buf.length := by
  have h0 := List.length_pos_iff.2 hne
  have h1 := h (bs.length - 1) (by omega)
  rw [List.getElem?_eq_getElem (show bs.length - 1 < bs.length by omega)] at h1
  have := (List.getElem?_eq_some_iff.1 h1).1
  omega

/-- A string without NUL bytes. -/
def NulFree (str : List Byte) : Prop := ∀ b ∈ str, b ≠ 0

theorem cstr_nulFree {str : List Byte} (h : NulFree str) (tail : List Byte) :
    cstr (some (str ++ 0 :: tail)) = str := by
  unfold cstr
  dsimp only
  induction str with
  | nil => simp
  | cons b bs ih =>
    have hb : b ≠ 0 := h b (by simp)
    rw [List.cons_append, List.takeWhile_cons]
    simp only [ne_eq, hb, not_false_eq_true, decide_true, if_true]
    rw [ih (fun x hx => h x (by simp [hx]))]

theorem takeWhile_nulFree {str : List Byte} (h : NulFree str) (tail : List Byte) :
    (str ++ 0 :: tail).takeWhile (· ≠ 0) = str := by
  have := cstr_nulFree h tail
  exact this

/-- The instruction of a NUL-terminated string field (cnd_parser.c 1203): key and maximum length. -/
def strNullCode (k0 k1 m0 m1 : Byte) : List Byte := [0x30, k0, k1, m0, m1]

/-- C14, encoding: when the host supplies the C string `str` (a NUL follows it in host memory), the first `max`
bytes of it are written followed by a terminator; nothing else in the packet changes. -/
theorem C14_str_encode (E : Env σ) (henc : E.enc = true) (s : St σ) (k0 k1 m0 m1 : Byte) (str tail : List Byte)
    (h : σ) (hat : At E.prog s.ip (strNullCode k0 k1 m0 m1)) (hstr : NulFree str)
    (hhost : E.host.str s.host (keyNum k0 k1) 0x30 = (true, some (str ++ 0 :: tail), h)) :
    let w := str.take (keyNum m0 m1)
    (s.fieldPos + w.length + 1 ≤ s.buf.length →
      ∃ s1, step E s = .run s1 ∧ BytesAt s1.buf s.fieldPos (w ++ [0]) ∧ s1.buf.length = s.buf.length ∧
        (∀ j, j < s.fieldPos ∨ s.fieldPos + w.length + 1 ≤ j → s1.buf[j]? = s.buf[j]?) ∧
        s1.cursor = s.fieldPos + w.length + 1 ∧ s1.bit = 0 ∧ s1.ip = s.ip + 5 ∧ s1.host = h) ∧
    (s.buf.length < s.fieldPos + w.length + 1 →
      ∃ s1, step E s = .stop .oob s1 ∧ s1.buf = s.buf) := by
  intro w
  have h1 : At E.prog (s.ip + 1) [k0, k1] := hat.tail.left (a := [k0, k1])
  have h2 : At E.prog (s.ip + 1 + 2) [m0, m1] := hat.tail.right (a := [k0, k1])
  have key : step E s = if s.fieldPos + w.length + 1 > s.buf.length
      then .stop .oob { s with ip := s.ip + 5, cursor := s.fieldPos, bit := 0, host := h }
      else wrRaw { s with ip := s.ip + 5, cursor := s.fieldPos, bit := 0, host := h } s.fieldPos (w ++ [0])
        fun s => .run { s with cursor := s.cursor + w.length + 1, opt := false } := by
    rw [step_pre hat, pre_aligned 0x30 s rfl]
    show handleStrNull E _ _ = _
    unfold handleStrNull
    refine fet_ok h1 rfl (by omega) ?_
    refine fet_ok h2 rfl (by omega) ?_
    rw [leWord_key, leWord_key]
    refine (if_pos henc).trans ?_
    unfold callStr
    simp only
    rw [hhost]
    simp only [if_true]
    rw [cstr_nulFree hstr]
  constructor
  · intro hroom
    rw [if_neg (by omega)] at key
    have hl : s.fieldPos + (w ++ [0]).length ≤ s.buf.length := by simp; omega
    rw [key]
    refine ⟨_, wrRaw_ok (store_eq_some.2 ⟨hl, rfl⟩) rfl, bytesAt_splice hl, splice_length hl, ?_, rfl, rfl, rfl, rfl⟩
    intro j hj
    rcases hj with hj | hj
    · exact getElem?_splice_lt hl hj
    · exact getElem?_splice_ge hl (by simp; omega)
  · intro hroom
    rw [if_pos hroom] at key
    exact ⟨_, key, rfl⟩

/-- C14, decoding: if the packet holds a NUL-free string of at most `max` bytes and its terminator at the
position of the field, the host gets a pointer to its first byte and the cursor moves behind the terminator. -/
theorem C14_str_decode (E : Env σ) (hdec : E.enc = false) (s : St σ) (k0 k1 m0 m1 : Byte) (w : List Byte)
    (hat : At E.prog s.ip (strNullCode k0 k1 m0 m1)) (hw : NulFree w) (hlen : w.length ≤ keyNum m0 m1)
    (hpk : BytesAt s.buf s.fieldPos (w ++ [0])) :
    let r := E.host.bytesAt s.host (keyNum k0 k1) 0x30 s.be s.buf s.fieldPos
    (r.1 = true → ∃ s1, step E s = .run s1 ∧ s1.cursor = s.fieldPos + w.length + 1 ∧ s1.bit = 0 ∧
      s1.ip = s.ip + 5 ∧ s1.host = r.2.2) ∧
    (r.1 = false → ∃ s1, step E s = .stop .callback s1 ∧ s1.host = r.2.2) := by
  intro r
  have h1 : At E.prog (s.ip + 1) [k0, k1] := hat.tail.left (a := [k0, k1])
  have h2 : At E.prog (s.ip + 1 + 2) [m0, m1] := hat.tail.right (a := [k0, k1])
  have hroom := bytesAt_le hpk (by simp)
  simp only [List.length_append, List.length_cons, List.length_nil] at hroom
  obtain ⟨rest, hrest⟩ := bytesAt_drop hpk
  have hwin : (((s.buf.drop s.fieldPos).take (keyNum m0 m1)).takeWhile (· ≠ 0)) = w := by
    rw [hrest, List.append_assoc]
    rcases Nat.lt_or_ge w.length (keyNum m0 m1) with hlt | hge
    · rw [List.take_append]
      rw [List.take_of_length_le (by omega)]
      obtain ⟨k, hk⟩ : ∃ k, keyNum m0 m1 - w.length = k + 1 := ⟨keyNum m0 m1 - w.length - 1, by omega⟩
      rw [hk]
      exact takeWhile_nulFree hw _
    · have e : keyNum m0 m1 = w.length := by omega
      rw [e, List.take_left']
      · have hall : ∀ (l : List Byte), NulFree l → l.takeWhile (· ≠ 0) = l := by
          intro l hl
          induction l with
          | nil => rfl
          | cons b bs ih =>
            have hb : b ≠ 0 := hl b (by simp)
            rw [List.takeWhile_cons]
            simp only [ne_eq, hb, not_false_eq_true, decide_true, if_true]
            rw [ih (fun x hx => hl x (by simp [hx]))]
        exact hall w hw
      · rfl
  have key : step E s = callAt E { s with ip := s.ip + 5, cursor := s.fieldPos + w.length, bit := 0 }
      (keyNum k0 k1) 0x30 s.fieldPos
      (fun s => .run { s with cursor := s.cursor + 1, opt := false }) (fun s => .stop .callback s) := by
    rw [step_pre hat, pre_aligned 0x30 s rfl]
    show handleStrNull E _ _ = _
    unfold handleStrNull
    refine fet_ok h1 rfl (by omega) ?_
    refine fet_ok h2 rfl (by omega) ?_
    rw [leWord_key, leWord_key]
    refine (if_neg (by simp [hdec])).trans ?_
    dsimp only
    refine (if_neg (by omega)).trans ?_
    rw [hwin]
    refine (if_neg (by omega)).trans ?_
    rfl
  unfold callAt at key
  dsimp only at key
  constructor
  · intro hr
    rw [if_pos hr] at key
    exact ⟨_, key, rfl, rfl, rfl, rfl⟩
  · intro hr
    rw [if_neg (by exact fun h => by rw [hr] at h; cases h)] at key
    exact ⟨_, key, rfl⟩

/-- C14. Round trip: what the decoder's host is pointed at is the string the encoder's host supplied, cut to the
maximum length, followed by NUL; both cursors end behind the terminator. -/
theorem C14_str_roundtrip (E : Env σ) (F : Env τ) (henc : E.enc = true) (hdec : F.enc = false)
    (s : St σ) (d : St τ) (k0 k1 m0 m1 : Byte) (str tail : List Byte) (h : σ)
    (hat : At E.prog s.ip (strNullCode k0 k1 m0 m1)) (hatd : At F.prog d.ip (strNullCode k0 k1 m0 m1))
    (hstr : NulFree str)
    (hhost : E.host.str s.host (keyNum k0 k1) 0x30 = (true, some (str ++ 0 :: tail), h))
    (hroom : s.fieldPos + (str.take (keyNum m0 m1)).length + 1 ≤ s.buf.length) :
    ∃ s1, step E s = .run s1 ∧ s1.cursor = s.fieldPos + (str.take (keyNum m0 m1)).length + 1 ∧
      (d.buf = s1.buf → d.fieldPos = s.fieldPos →
        let r := F.host.bytesAt d.host (keyNum k0 k1) 0x30 d.be d.buf d.fieldPos
        BytesAt d.buf d.fieldPos (str.take (keyNum m0 m1) ++ [0]) ∧
        (r.1 = true → ∃ d1, step F d = .run d1 ∧
          d1.cursor = d.fieldPos + (str.take (keyNum m0 m1)).length + 1 ∧ d1.host = r.2.2) ∧
        (r.1 = false → ∃ d1, step F d = .stop .callback d1 ∧ d1.host = r.2.2)) := by
  obtain ⟨s1, hs, hb, _, _, hc, _⟩ := (C14_str_encode E henc s k0 k1 m0 m1 str tail h hat hstr hhost).1 hroom
  refine ⟨s1, hs, hc, ?_⟩
  intro hbuf hpos r
  have hpk : BytesAt d.buf d.fieldPos (str.take (keyNum m0 m1) ++ [0]) := by rw [hbuf, hpos]; exact hb
  have hw : NulFree (str.take (keyNum m0 m1)) := fun b hb => hstr b (List.mem_of_mem_take hb)
  obtain ⟨h1, h2⟩ := C14_str_decode F hdec d k0 k1 m0 m1 _ hatd hw (by simp; omega) hpk
  refine ⟨hpk, ?_, h2⟩
  intro hr
  obtain ⟨d1, e1, e2, _, _, e3⟩ := h1 hr
  exact ⟨d1, e1, e2, e3⟩

/-- C14 meets real cases: "hello" with maximum 3 and with maximum 10. -/
example :
    Demo.obs (exec (Demo.env (strNullCode 1 0 3 0) true) 5
      (Demo.start [9, 9, 9, 9, 9, 9, 9] { strs := [[104, 101, 108, 108, 111, 0, 77]] })) =
      .stopped .ok [104, 101, 108, 0, 9, 9, 9] 4 0 { log := [(1, 0x30, 7)] } ∧
    Demo.obs (exec (Demo.env (strNullCode 1 0 10 0) false) 5
      (Demo.start [104, 101, 108, 0, 9, 9, 9] {})) =
      .stopped .ok [104, 101, 108, 0, 9, 9, 9] 4 0 { log := [(1, 0x30, 0)] } := by
  decide +kernel

/-! ### Length-prefixed strings -/

/-- Opcode of a string with a prefix of the given width (concordia.h 48-50). -/
def Pre.strOp : Pre → Byte
  | .p1 => 0x31 | .p2 => 0x32 | .p4 => 0x33

theorem Pre.size_pos (p : Pre) : 0 < p.size := by cases p <;> simp [Pre.size]

theorem strPre_exec (p : Pre) (E : Env σ) (s : St σ) : execOp E p.strOp s = handleStrPre E p p.strOp s := by
  cases p <;> rfl

/-- C15, encoding: prefix and bytes. -/
theorem C15_str_encode (E : Env σ) (henc : E.enc = true) (s : St σ) (p : Pre) (k0 k1 : Byte) (str tail : List Byte)
    (h : σ) (hat : At E.prog s.ip [p.strOp, k0, k1]) (hstr : NulFree str)
    (hhost : E.host.str s.host (keyNum k0 k1) p.strOp = (true, some (str ++ 0 :: tail), h)) :
    let w := str.take (2 ^ (8 * p.size) - 1)
    (s.fieldPos + p.size + w.length ≤ s.buf.length →
      ∃ s1, step E s = .run s1 ∧ FieldAt s.be s1.buf s.fieldPos p.size w.length ∧
        BytesAt s1.buf (s.fieldPos + p.size) w ∧ s1.buf.length = s.buf.length ∧
        (∀ j, j < s.fieldPos ∨ s.fieldPos + p.size + w.length ≤ j → s1.buf[j]? = s.buf[j]?) ∧
        s1.cursor = s.fieldPos + p.size + w.length ∧ s1.bit = 0 ∧ s1.ip = s.ip + 3 ∧ s1.host = h) ∧
    (s.buf.length < s.fieldPos + p.size + w.length →
      ∃ s1, step E s = .stop .oob s1 ∧ s1.buf = s.buf) := by
  intro w
  have hal : aligns p.strOp = true := by cases p <;> rfl
  have key : step E s = if s.fieldPos + p.size + w.length > s.buf.length
      then .stop .oob { s with ip := s.ip + 3, cursor := s.fieldPos, bit := 0, host := h }
      else wrAt { s with ip := s.ip + 3, cursor := s.fieldPos, bit := 0, host := h } s.fieldPos p.size
        (BitVec.ofNat 64 w.length) fun s => wrRaw s (s.cursor + p.size) w
        fun s => .run { s with cursor := s.cursor + p.size + w.length, opt := false } := by
    rw [step_pre hat, pre_aligned _ s hal, strPre_exec]
    unfold handleStrPre
    refine fet_ok hat.tail rfl (by omega) ?_
    rw [leWord_key]
    refine (if_pos henc).trans ?_
    unfold callStr
    simp only
    rw [hhost]
    simp only [if_true]
    rw [cstr_nulFree hstr]
  constructor
  · intro hroom
    rw [if_neg (by omega)] at key
    have hl1 : s.fieldPos + (wrBytes s.be p.size (BitVec.ofNat 64 w.length)).length ≤ s.buf.length := by
      simp only [wrBytes_length]; omega
    have hst1 : store s.buf s.fieldPos (wrBytes s.be p.size (BitVec.ofNat 64 w.length)) =
        some (splice s.buf s.fieldPos (wrBytes s.be p.size (BitVec.ofNat 64 w.length))) :=
      store_eq_some.2 ⟨hl1, rfl⟩
    generalize hb1 : splice s.buf s.fieldPos (wrBytes s.be p.size (BitVec.ofNat 64 w.length)) = b1 at hst1
    have hlen1 : b1.length = s.buf.length := store_length hst1
    have hl2 : s.fieldPos + p.size + w.length ≤ b1.length := by omega
    have hst2 : store b1 (s.fieldPos + p.size) w = some (splice b1 (s.fieldPos + p.size) w) :=
      store_eq_some.2 ⟨hl2, rfl⟩
    have hwl : w.length < 2 ^ (8 * p.size) := by
      have : w.length ≤ 2 ^ (8 * p.size) - 1 := by simp [w]; omega
      have : 0 < 2 ^ (8 * p.size) := Nat.two_pow_pos _
      omega
    have hwl64 : w.length < 2 ^ 64 := Nat.lt_of_lt_of_le hwl
      (Nat.pow_le_pow_right (by omega) (by have := p.size_le; omega))
    have hcnt : (BitVec.ofNat 64 w.length : Word).toNat = w.length := by
      rw [BitVec.toNat_ofNat, Nat.mod_eq_of_lt hwl64]
    rw [key]
    refine ⟨_, wrAt_ok hst1 (wrRaw_ok hst2 rfl), ?_, bytesAt_splice hl2, ?_, ?_, rfl, rfl, rfl, rfl⟩
    · have hf := fieldAt_store hst1
      rw [hcnt] at hf
      intro i hi
      rw [← hf i hi]
      exact getElem?_splice_lt hl2 (by split <;> omega)
    · exact (splice_length hl2).trans hlen1
    · intro j hj
      show (splice b1 (s.fieldPos + p.size) w)[j]? = _
      rcases hj with hj | hj
      · rw [getElem?_splice_lt hl2 (by omega), ← hb1, getElem?_splice_lt hl1 hj]
      · rw [getElem?_splice_ge hl2 (by omega), ← hb1, getElem?_splice_ge hl1 (by simp only [wrBytes_length]; omega)]
  · intro hroom
    rw [if_pos hroom] at key
    exact ⟨_, key, rfl⟩

/-- C15, decoding: a stored length `n` that fits the packet hands the host a pointer to the bytes behind the
prefix and moves the cursor over exactly `n` of them; a length that does not fit is an out-of-bounds error. -/
theorem C15_str_decode (E : Env σ) (hdec : E.enc = false) (s : St σ) (p : Pre) (k0 k1 : Byte) (n : Nat)
    (hat : At E.prog s.ip [p.strOp, k0, k1]) (hn : n < 2 ^ (8 * p.size))
    (hpk : FieldAt s.be s.buf s.fieldPos p.size n) :
    let r := E.host.bytesAt s.host (keyNum k0 k1) p.strOp s.be s.buf (s.fieldPos + p.size)
    (s.fieldPos + p.size + n ≤ s.buf.length → r.1 = true → ∃ s1, step E s = .run s1 ∧
      s1.cursor = s.fieldPos + p.size + n ∧ s1.bit = 0 ∧ s1.ip = s.ip + 3 ∧ s1.host = r.2.2) ∧
    (s.fieldPos + p.size + n ≤ s.buf.length → r.1 = false → ∃ s1, step E s = .stop .callback s1 ∧ s1.host = r.2.2) ∧
    (s.buf.length < s.fieldPos + p.size + n → ∃ s1, step E s = .stop .oob s1 ∧ s1.host = s.host) := by
  intro r
  have hal : aligns p.strOp = true := by cases p <;> rfl
  have hn64 : n < 2 ^ 64 := Nat.lt_of_lt_of_le hn
    (Nat.pow_le_pow_right (by omega) (by have := p.size_le; omega))
  have hcnt : (BitVec.ofNat 64 n : Word).toNat = n := by
    rw [BitVec.toNat_ofNat, Nat.mod_eq_of_lt hn64]
  have hpk' : FieldAt s.be s.buf s.fieldPos p.size (BitVec.ofNat 64 n : Word).toNat := by rw [hcnt]; exact hpk
  have hroom0 : s.fieldPos + p.size ≤ s.buf.length :=
    (slice_eq_some.1 ((fieldAt_iff p.size_pos).1 hpk')).1
  have key : step E s = if s.fieldPos + p.size + n > s.buf.length
      then .stop .oob { s with ip := s.ip + 3, cursor := s.fieldPos, bit := 0 }
      else callAt E { s with ip := s.ip + 3, cursor := s.fieldPos, bit := 0 } (keyNum k0 k1) p.strOp
        (s.fieldPos + p.size) (fun s => .run { s with cursor := s.cursor + p.size + n, opt := false })
        (fun s => .stop .callback s) := by
    rw [step_pre hat, pre_aligned _ s hal, strPre_exec]
    unfold handleStrPre
    refine fet_ok hat.tail rfl (by omega) ?_
    rw [leWord_key]
    refine (if_neg (by simp [hdec])).trans ?_
    dsimp only
    refine (if_neg (by omega)).trans ?_
    refine rdAt_field p.size_pos (by have := p.size_le; omega) (by rw [hcnt]; exact hn) hpk' ?_
    rw [hcnt]
  unfold callAt at key
  dsimp only at key
  refine ⟨?_, ?_, ?_⟩
  · intro hroom hr
    rw [if_neg (by omega), if_pos hr] at key
    exact ⟨_, key, rfl, rfl, rfl, rfl⟩
  · intro hroom hr
    rw [if_neg (by omega), if_neg (by exact fun h => by rw [hr] at h; cases h)] at key
    exact ⟨_, key, rfl⟩
  · intro hroom
    rw [if_pos hroom] at key
    exact ⟨_, key, rfl⟩

/-- C15. Round trip. -/
theorem C15_str_roundtrip (E : Env σ) (F : Env τ) (henc : E.enc = true) (hdec : F.enc = false)
    (s : St σ) (d : St τ) (p : Pre) (k0 k1 : Byte) (str tail : List Byte) (h : σ)
    (hat : At E.prog s.ip [p.strOp, k0, k1]) (hatd : At F.prog d.ip [p.strOp, k0, k1])
    (hstr : NulFree str)
    (hhost : E.host.str s.host (keyNum k0 k1) p.strOp = (true, some (str ++ 0 :: tail), h))
    (hroom : s.fieldPos + p.size + (str.take (2 ^ (8 * p.size) - 1)).length ≤ s.buf.length) :
    ∃ s1, step E s = .run s1 ∧ s1.cursor = s.fieldPos + p.size + (str.take (2 ^ (8 * p.size) - 1)).length ∧
      (d.buf = s1.buf → d.be = s.be → d.fieldPos = s.fieldPos →
        let r := F.host.bytesAt d.host (keyNum k0 k1) p.strOp d.be d.buf (d.fieldPos + p.size)
        BytesAt d.buf (d.fieldPos + p.size) (str.take (2 ^ (8 * p.size) - 1)) ∧
        (r.1 = true → ∃ d1, step F d = .run d1 ∧
          d1.cursor = d.fieldPos + p.size + (str.take (2 ^ (8 * p.size) - 1)).length ∧ d1.host = r.2.2) ∧
        (r.1 = false → ∃ d1, step F d = .stop .callback d1 ∧ d1.host = r.2.2)) := by
  obtain ⟨s1, hs, hf, hb, hl, _, hc, _⟩ := (C15_str_encode E henc s p k0 k1 str tail h hat hstr hhost).1 hroom
  refine ⟨s1, hs, hc, ?_⟩
  intro hbuf hbe hpos r
  have hpk : FieldAt d.be d.buf d.fieldPos p.size (str.take (2 ^ (8 * p.size) - 1)).length := by
    rw [hbuf, hbe, hpos]; exact hf
  have hn : (str.take (2 ^ (8 * p.size) - 1)).length < 2 ^ (8 * p.size) := by
    have h1 : (str.take (2 ^ (8 * p.size) - 1)).length ≤ 2 ^ (8 * p.size) - 1 := by simp; omega
    have : 0 < 2 ^ (8 * p.size) := Nat.two_pow_pos _
    omega
  obtain ⟨h1, h2, _⟩ := C15_str_decode F hdec d p k0 k1 _ hatd hn hpk
  have hr0 : d.fieldPos + p.size + (str.take (2 ^ (8 * p.size) - 1)).length ≤ d.buf.length := by
    rw [hbuf, hpos, hl]; exact hroom
  refine ⟨by rw [hbuf, hpos]; exact hb, ?_, h2 hr0⟩
  intro hr
  obtain ⟨d1, e1, e2, _, _, e3⟩ := h1 hr0 hr
  exact ⟨d1, e1, e2, e3⟩

/-- C15 meets a real case: "abc" with a big-endian 2-byte prefix, both directions. -/
example :
    Demo.obs (exec (Demo.env [0x02, 0x32, 1, 0] true) 5
      (Demo.start [9, 9, 9, 9, 9, 9] { strs := [[97, 98, 99, 0]] })) =
      .stopped .ok [0, 3, 97, 98, 99, 9] 5 0 { log := [(1, 0x32, 4)] } ∧
    Demo.obs (exec (Demo.env [0x02, 0x32, 1, 0] false) 5 (Demo.start [0, 3, 97, 98, 99, 9] {})) =
      .stopped .ok [0, 3, 97, 98, 99, 9] 5 0 { log := [(1, 0x32, 2)] } := by
  decide +kernel

end Cnd
