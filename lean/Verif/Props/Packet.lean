import Verif.WireRun
import Verif.Pair
/-
  C52 (whole packets), C16 (arrays of scalars).
-/

namespace Cnd

section
variable {K : View} {E : Env Tape} {tot : List Ev} {p q : P} {s : St Tape}

/-! ### What the host answers -/

theorem giver_num (hH : E.host = giver K) (h : Here p tot s) {key : Nat} {op : Byte} {v c : Word} {r : List Ev}
    (htot : tot = (p.evs ++ [.num key op v]) ++ r) (hK : K key = false) (h1 : op ≠ 0x06) (h2 : op ≠ 0x60)
    (hq : isQuery op = true → v = c) :
    E.host.scalar s.host key op c = (true, v, ⟨p.evs ++ [.num key op v], r⟩) := by
  obtain ⟨rest, hh, ht⟩ := h.host
  have : rest = .num key op v :: r := by
    rw [htot, List.append_assoc] at ht
    exact (List.append_cancel_left ht).symm
  subst this
  rw [hH, hh]
  simp only [giver, hK, Bool.false_eq_true, if_false]
  rw [if_neg (by rintro (h | h) <;> contradiction)]
  simp only [true_and]
  rw [if_pos hq]

theorem giver_str (hH : E.host = giver K) (h : Here p tot s) {key : Nat} {op : Byte} {bs : List Byte} {r : List Ev}
    (htot : tot = (p.evs ++ [.str key op bs]) ++ r) (hf : strFits op bs = true) :
    E.host.str s.host key op = (true, some (bs ++ [0]), ⟨p.evs ++ [.str key op bs], r⟩) := by
  obtain ⟨rest, hh, ht⟩ := h.host
  have : rest = .str key op bs :: r := by
    rw [htot, List.append_assoc] at ht
    exact (List.append_cancel_left ht).symm
  subst this
  rw [hH, hh]
  simp only [giver, true_and, hf, if_true]

theorem giver_note (hH : E.host = giver K) (h : Here p tot s) {key : Nat} {op : Byte} {r : List Ev}
    (htot : tot = (p.evs ++ [.note key op]) ++ r) :
    E.host.notify s.host key op = (true, ⟨p.evs ++ [.note key op], r⟩) := by
  obtain ⟨rest, hh, ht⟩ := h.host
  have : rest = .note key op :: r := by
    rw [htot, List.append_assoc] at ht
    exact (List.append_cancel_left ht).symm
  subst this
  rw [hH, hh]
  simp only [giver, and_self, if_true]

theorem giver_ask (hH : E.host = giver K) (h : Here p tot s) {key : Nat} {w c : Word} (hK : K key = false)
    (hl : K.look key p.evs = some w) : E.host.scalar s.host key 0x06 c = (true, w, s.host) := by
  obtain ⟨rest, hh, ht⟩ := h.host
  rw [hH, hh]
  simp [giver, hK, hl]

/-! ### Single fields -/

theorem Here.same {s1 : St Tape} {p : P} (h : Here p tot s) (hb : s1.bit < 8)
    (hp : 8 * s1.cursor + s1.bit = q.pos) (hbe : s1.be = q.be) (ht : s1.trans = .none)
    (he : q.evs = p.evs) (hh : s1.host = s.host) : Here q tot s1 :=
  ⟨hb, hp, hbe, ht, by rw [hh, he]; exact h.host⟩

theorem side_scalar {op k0 k1 : Byte} {n : Nat} {v : Word} {h : Tape} (hop : scalarWidth op.toNat = some n)
    (hat : At E.prog s.ip [op, k0, k1]) (htr : s.trans = .none)
    (hroom : s.fieldPos + n ≤ s.buf.length) (hv : ScalarVal op n v)
    (hhost : E.host.scalar s.host (keyNum k0 k1) op 0 = (true, v, h)) (Kp : Nat → Prop) :
    Side E Kp op (pre op s) := by
  obtain ⟨hal, hn0, hn8, hcase⟩ := scalar_dispatch op n hop
  have hf : fetch E.prog (s.ip + 1) 2 = (leWord [k0, k1], s.ip + 1 + 2) := hat.tail.fetch rfl (by omega)
  have htv : truncB n v = v := truncB_of_lt _ _ hv.1
  have hone : ∀ w h', E.host.scalar s.host (keyNum k0 k1) op 0 = (true, w, h') → w = v := by
    intro w h' e; rw [hhost] at e; simp only [Prod.mk.injEq, true_and] at e; exact e.1.symm
  rw [pre_aligned op s hal]
  unfold Side
  rcases hcase with ⟨t, hd, ht, hne⟩ | ⟨hd, rfl, hne⟩ | ⟨hd, rfl, hne⟩ | ⟨hd, rfl, he⟩
  · subst ht
    simp only [hd]
    refine ⟨by dsimp only; omega, ?_⟩
    simp only [hf, leWord_key, htr, viewOp, viewSize, primRaw, primEng]
    intro w h' e x hx
    injection hx with hx
    subst hx
    rw [hone w h' e, htv, htv]
  · simp only [hd]
    refine ⟨by simp only [floatSize]; simpa using hroom, ?_⟩
    simp only [hf, leWord_key, htr]
    intro w h' e x hx
    have hw : w = v := hone w h' e
    subst hw
    simp only [floatRaw, floatEng, floatCell, htr, floatSize] at hx ⊢
    simp only [Bool.false_eq_true, if_false, Option.some.injEq] at hx ⊢
    rw [← hx, htv, htv]
  · simp only [hd]
    refine ⟨by simp only [floatSize]; simpa using hroom, ?_⟩
    simp only [hf, leWord_key, htr]
    intro w h' e x hx
    have hw : w = v := hone w h' e
    subst hw
    simp only [floatRaw, floatEng, floatCell, htr, floatSize] at hx ⊢
    simp only [if_true, Option.some.injEq] at hx ⊢
    rw [← hx, htv, htv]
  · simp only [hd]
    refine ⟨by simpa using hroom, ?_⟩
    simp only [hf, leWord_key]
    intro w h' e
    rw [hone w h' e, htv]

theorem enc_scalar (hH : E.host = giver K) (henc : E.enc = true) (h : Here p tot s) {op k0 k1 : Byte} {n : Nat}
    {v : Word} {r : List Ev} (hat : At E.prog s.ip [op, k0, k1]) (hop : scalarWidth op.toNat = some n)
    (hv : ScalarVal op n v) (hK : K (keyNum k0 k1) = false)
    (htot : tot = (p.evs ++ [.num (keyNum k0 k1) op v]) ++ r)
    (hroom : (p.bytes n [.num (keyNum k0 k1) op v]).pos ≤ 8 * s.buf.length) :
    ∃ s1, Did E K tot s s1 (p.bytes n [.num (keyNum k0 k1) op v]) 3 ∧ s1.bit = 0 ∧ n ≤ s1.cursor ∧
      FieldAt s1.be s1.buf (s1.cursor - n) n v.toNat ∧
      store s.buf s.fieldPos (wrBytes p.be n v) = some s1.buf ∧ s.fieldPos + n ≤ s1.cursor := by
  have hfp := h.fieldPos
  have hq : isQuery op = false ∧ op ≠ 0x06 ∧ op ≠ 0x60 := by
    have key : ∀ i : Fin 256, scalarWidth i.val ≠ none → isQuery (BitVec.ofFin i) = false ∧
        BitVec.ofFin i ≠ (0x06 : Byte) ∧ BitVec.ofFin i ≠ (0x60 : Byte) := by decide +kernel
    exact key op.toFin (by rw [show (op.toFin : Fin 256).val = op.toNat from rfl, hop]; simp)
  have hg := giver_num hH h (c := 0) htot hK hq.2.1 hq.2.2 (by rw [hq.1]; simp)
  have hr : s.fieldPos + n ≤ s.buf.length := by simp only [P.bytes] at hroom; omega
  obtain ⟨b, hb, hs⟩ := scalar_enc henc hop hat h.trans hr hv hg
  refine ⟨_, ⟨.one hat (side_scalar hop hat h.trans hr hv hg _) hs, ?_, rfl, rfl, rfl, store_length hb⟩, rfl,
    Nat.le_add_left _ _, ?_, by rw [← h.be]; exact hb, Nat.le_refl _⟩
  · refine ⟨by simp, ?_, h.be, h.trans, r, rfl, htot⟩
    simp only [P.bytes]
    omega
  · have := fieldAt_store hb
    simpa using this


theorem Did.trans {s1 s2 : St Tape} {q' : P} {n m : Nat} (h1 : Did E K tot s s1 q n) (h2 : Did E K tot s1 s2 q' m) :
    Did E K tot s s2 q' (n + m) :=
  ⟨h1.run.trans h2.run, h2.here, by rw [h2.ip, h1.ip]; omega, by rw [h2.loops, h1.loops],
   by rw [h2.stack, h1.stack], by rw [h2.len, h1.len]⟩

theorem enc_range (hH : E.host = giver K) (henc : E.enc = true) (h : Here p tot s) {t : Ty} {k0 k1 : Byte}
    {lo hi v : Word} {r : List Ev} (hat : At E.prog s.ip ([t.tag, k0, k1] ++ rangeCode t lo hi))
    (hv : v.toNat < 2 ^ (8 * t.size)) (hlo : lo.toNat < 2 ^ (8 * t.size)) (hhi : hi.toNat < 2 ^ (8 * t.size))
    (h1 : t.val lo.toNat ≤ t.val v.toNat) (h2 : t.val v.toNat ≤ t.val hi.toNat) (hK : K (keyNum k0 k1) = false)
    (htot : tot = (p.evs ++ [.num (keyNum k0 k1) t.tag v]) ++ r)
    (hroom : (p.bytes t.size [.num (keyNum k0 k1) t.tag v]).pos ≤ 8 * s.buf.length) :
    ∃ s1, Did E K tot s s1 (p.bytes t.size [.num (keyNum k0 k1) t.tag v])
      ([t.tag, k0, k1] ++ rangeCode t lo hi).length ∧
      store s.buf s.fieldPos (wrBytes p.be t.size v) = some s1.buf ∧ s.fieldPos + t.size ≤ s1.cursor := by
  have hw : scalarWidth t.tag.toNat = some t.size ∧ t.tag ≠ 0x1A := by cases t <;> exact ⟨rfl, by decide⟩
  obtain ⟨s1, d, _, hc, hf, hst, hcu⟩ := enc_scalar hH henc h hat.left hw.1 ⟨hv, fun e => absurd e hw.2⟩ hK htot hroom
  have hat2 : At E.prog s1.ip (rangeCode t lo hi) := by rw [d.ip]; exact hat.right
  have hs := C20_range_check E s1 t lo hi v hat2 hlo hhi hv hc hf
  rw [if_pos ⟨h1, h2⟩] at hs
  rw [List.length_append, show [t.tag, k0, k1].length = 3 from rfl]
  refine ⟨_, d.trans ⟨.one hat2 (by rw [pre_unaligned _ s1 rfl]; trivial) hs, ?_, ?_, rfl, rfl, rfl⟩, hst, hcu⟩
  · exact d.here.same d.here.bit d.here.pos d.here.be d.here.trans rfl rfl
  · simp [rangeCode]; omega

theorem enc_enum (hH : E.host = giver K) (henc : E.enc = true) (h : Here p tot s) {t : Ty} {k0 k1 : Byte}
    {vals : List Word} {v : Word} {r : List Ev} (hat : At E.prog s.ip ([t.tag, k0, k1] ++ enumCode t vals))
    (hv : v ∈ vals) (hvs : ∀ x ∈ vals, x.toNat < 2 ^ (8 * t.size)) (hl : vals.length < 2 ^ 16)
    (hK : K (keyNum k0 k1) = false)
    (htot : tot = (p.evs ++ [.num (keyNum k0 k1) t.tag v]) ++ r)
    (hroom : (p.bytes t.size [.num (keyNum k0 k1) t.tag v]).pos ≤ 8 * s.buf.length) :
    ∃ s1, Did E K tot s s1 (p.bytes t.size [.num (keyNum k0 k1) t.tag v])
      ([t.tag, k0, k1] ++ enumCode t vals).length ∧
      store s.buf s.fieldPos (wrBytes p.be t.size v) = some s1.buf ∧ s.fieldPos + t.size ≤ s1.cursor := by
  have hw : scalarWidth t.tag.toNat = some t.size ∧ t.tag ≠ 0x1A := by cases t <;> exact ⟨rfl, by decide⟩
  obtain ⟨s1, d, hb, hc, hf, hst, hcu⟩ :=
    enc_scalar hH henc h hat.left hw.1 ⟨hvs v hv, fun e => absurd e hw.2⟩ hK htot hroom
  have hat2 : At E.prog s1.ip (enumCode t vals) := by rw [d.ip]; exact hat.right
  have hfp : s1.fieldPos = s1.cursor := by simp [St.fieldPos, hb]
  have hs := (C21_enum_check E s1 t vals v hat2 hl hvs (hvs v hv) (by rw [hfp]; exact hc)
    (by rw [hfp]; exact hf)).1 hv
  rw [List.length_append, show [t.tag, k0, k1].length = 3 from rfl]
  refine ⟨_, d.trans ⟨.one hat2 (by rw [pre_aligned _ s1 rfl]; trivial) hs, ?_, rfl, rfl, rfl, rfl⟩, hst, by rw [← hfp] at hcu; exact hcu⟩
  have := d.here.pos
  exact d.here.same (by simp) (by simp only [hfp]; rw [← this, hb]) d.here.be d.here.trans rfl rfl

theorem enc_const (henc : E.enc = true) (h : Here p tot s) {t : Ty} {k0 k1 : Byte}
    {c : Word} (hat : At E.prog s.ip (constCode t k0 k1 c))
    (hc : c.toNat < 2 ^ (8 * t.size)) (hK : K (keyNum k0 k1) = true)
    (hroom : (p.bytes t.size []).pos ≤ 8 * s.buf.length) :
    ∃ s1, Did E K tot s s1 (p.bytes t.size []) (constCode t k0 k1 c).length ∧
      store s.buf s.fieldPos (wrBytes p.be t.size c) = some s1.buf ∧ s.fieldPos + t.size ≤ s1.cursor := by
  have hfp := h.fieldPos
  have hr : s.fieldPos + t.size ≤ s.buf.length := by simp only [P.bytes] at hroom; omega
  obtain ⟨b, hb, hs⟩ := const_enc henc hat hc hr
  refine ⟨_, ⟨.one hat ?_ hs, ?_, ?_, rfl, rfl, store_length hb⟩, by rw [← h.be]; exact hb, Nat.le_refl _⟩
  · rw [pre_aligned _ s rfl]
    have hf : fetch E.prog (s.ip + 1) 2 = (leWord [k0, k1], s.ip + 1 + 2) :=
      (hat.left.tail.left (a := [k0, k1])).fetch rfl (by omega)
    show K _ = true
    simp only [hf, leWord_key, hK]
  · refine h.same (by simp) ?_ h.be h.trans (by simp [P.bytes]) rfl
    simp only [P.bytes]; omega
  · simp [constCode]; omega

theorem enc_crc (henc : E.enc = true) (h : Here p tot s) {c : CrcPar} (hat : At E.prog s.ip (crcCode c))
    (hok : c.ok) (hroom : (p.bytes c.size []).pos ≤ 8 * s.buf.length) :
    ∃ s1, Did E K tot s s1 (p.bytes c.size []) (crcCode c).length ∧
      store s.buf s.fieldPos (wrBytes p.be c.size ((c.calc (s.buf.take s.fieldPos)).setWidth 64)) = some s1.buf ∧
      s.fieldPos + c.size = s1.cursor := by
  have hfp := h.fieldPos
  have hr : s.fieldPos + c.size ≤ s.buf.length := by simp only [P.bytes] at hroom; omega
  obtain ⟨b, hb, hs⟩ := crc_enc henc hok hat hr
  refine ⟨_, ⟨(by rcases c with ⟨_ | _⟩ <;> exact .one hat (by rw [pre_aligned _ s rfl]; trivial) hs :
    RunS E _ s { s with ip := _, buf := b, cursor := s.fieldPos + c.size, bit := 0 }), ?_, rfl, rfl, rfl, store_length hb⟩,
    by rw [← h.be]; exact hb, rfl⟩
  · refine h.same (by simp) ?_ h.be h.trans (by simp [P.bytes]) rfl
    simp only [P.bytes]; omega

theorem enc_strNull (hH : E.host = giver K) (henc : E.enc = true) (h : Here p tot s) {k0 k1 m0 m1 : Byte}
    {bs : List Byte} {r : List Ev} (hat : At E.prog s.ip (strNullCode k0 k1 m0 m1)) (hbs : NulFree bs)
    (hl : bs.length ≤ keyNum m0 m1) (htot : tot = (p.evs ++ [.str (keyNum k0 k1) 0x30 bs]) ++ r)
    (hroom : (p.bytes (bs.length + 1) [.str (keyNum k0 k1) 0x30 bs]).pos ≤ 8 * s.buf.length) :
    ∃ s1, Did E K tot s s1 (p.bytes (bs.length + 1) [.str (keyNum k0 k1) 0x30 bs]) 5 ∧
      store s.buf s.fieldPos (bs ++ [0]) = some s1.buf ∧ s.fieldPos + bs.length + 1 = s1.cursor := by
  have hfp := h.fieldPos
  have hr : s.fieldPos + bs.length + 1 ≤ s.buf.length := by simp only [P.bytes] at hroom; omega
  have hg := giver_str hH h htot (by simp [strFits, strPrefix]; exact hbs)
  obtain ⟨b, hb, hs⟩ := strNull_enc henc hat hbs hl hg hr
  refine ⟨_, ⟨.one hat ?_ hs, ?_, rfl, rfl, rfl, store_length hb⟩, hb, rfl⟩
  · rw [pre_aligned _ s rfl]
    have hf : fetch E.prog (s.ip + 1) 2 = (leWord [k0, k1], s.ip + 1 + 2) :=
      (hat.tail.left (a := [k0, k1])).fetch rfl (by omega)
    have hf2 : fetch E.prog (s.ip + 1 + 2) 2 = (leWord [m0, m1], s.ip + 1 + 2 + 2) :=
      (hat.tail.right (a := [k0, k1])).fetch rfl (by omega)
    intro b so h' e
    dsimp only at e ⊢
    simp only [hf] at e ⊢
    rw [leWord_key, hg] at e
    simp only [hf2, leWord_key]
    simp only [Prod.mk.injEq] at e
    obtain ⟨rfl, rfl, rfl⟩ := e
    rw [cstr_nulFree hbs []]
    exact ⟨rfl, hl⟩
  · refine ⟨by simp, ?_, h.be, h.trans, r, rfl, htot⟩
    simp only [P.bytes]; omega

theorem enc_strPre (hH : E.host = giver K) (henc : E.enc = true) (h : Here p tot s) {k0 k1 : Byte} {t : Pre}
    {bs : List Byte} {r : List Ev} (hat : At E.prog s.ip [t.strOp, k0, k1]) (hbs : NulFree bs)
    (hl : bs.length < 2 ^ (8 * t.size)) (htot : tot = (p.evs ++ [.str (keyNum k0 k1) t.strOp bs]) ++ r)
    (hroom : (p.bytes (t.size + bs.length) [.str (keyNum k0 k1) t.strOp bs]).pos ≤ 8 * s.buf.length) :
    ∃ s1, Did E K tot s s1 (p.bytes (t.size + bs.length) [.str (keyNum k0 k1) t.strOp bs]) 3 ∧
      store s.buf s.fieldPos (wrBytes p.be t.size (BitVec.ofNat 64 bs.length) ++ bs) = some s1.buf ∧
      s.fieldPos + t.size + bs.length = s1.cursor := by
  have hfp := h.fieldPos
  have hr : s.fieldPos + t.size + bs.length ≤ s.buf.length := by simp only [P.bytes] at hroom; omega
  have hg := giver_str hH h htot (by
    cases t <;> simp [strFits, strPrefix, Pre.strOp, Pre.size] at hl ⊢ <;> first | exact ⟨hbs, hl⟩ | exact ⟨hl, hbs⟩)
  obtain ⟨b, hb, hs⟩ := strPre_enc henc hat hbs hl hg hr
  refine ⟨_, ⟨.one hat ?_ hs, ?_, rfl, rfl, rfl, store_length hb⟩, by rw [← h.be]; exact hb, rfl⟩
  · have hf : fetch E.prog (s.ip + 1) 2 = (leWord [k0, k1], s.ip + 1 + 2) := hat.tail.fetch rfl (by omega)
    rw [pre_aligned _ s (by cases t <;> rfl)]
    have hd : decodeOp t.strOp = .strPre t := by cases t <;> rfl
    unfold Side
    simp only [hd]
    intro b so h' e
    simp only [hf] at e
    rw [leWord_key, hg] at e
    simp only [Prod.mk.injEq] at e
    obtain ⟨rfl, rfl, rfl⟩ := e
    rw [cstr_nulFree hbs []]
    exact ⟨rfl, by omega⟩
  · refine ⟨by simp, ?_, h.be, h.trans, r, rfl, htot⟩
    simp only [P.bytes]; omega

theorem enc_bits (hH : E.host = giver K) (henc : E.enc = true) (h : Here p tot s) {op k0 k1 n : Byte}
    (hop : op = 0x20 ∨ op = 0x21) {v : Word} {r : List Ev} (hat : At E.prog s.ip [op, k0, k1, n])
    (hn : n.toNat ≤ 64) (hv : op = 0x20 → v.toNat < 2 ^ n.toNat)
    (hi : op = 0x21 → 0 < n.toNat ∧ -(2 ^ (n.toNat - 1) : Int) ≤ v.toInt ∧ v.toInt < 2 ^ (n.toNat - 1))
    (hK : K (keyNum k0 k1) = false) (htot : tot = (p.evs ++ [.num (keyNum k0 k1) op v]) ++ r)
    (hroom : (p.bits n.toNat [.num (keyNum k0 k1) op v]).pos ≤ 8 * s.buf.length) :
    ∃ s1, Did E K tot s s1 (p.bits n.toNat [.num (keyNum k0 k1) op v]) 4 ∧
      writeBits s.buf s.be s.cursor s.bit v n.toNat = some (s1.buf, s1.cursor, s1.bit) ∧ s1.be = s.be := by
  have hp := h.pos
  have hr : 8 * s.cursor + s.bit + n.toNat ≤ 8 * s.buf.length := by simp only [P.bits] at hroom; omega
  have hg := giver_num hH h (c := 0) htot hK (by rcases hop with rfl | rfl <;> decide)
    (by rcases hop with rfl | rfl <;> decide) (by rcases hop with rfl | rfl <;> simp [isQuery])
  obtain ⟨b, c, o, hwr, hb, ho, hc, hs⟩ := bitU_enc henc hop hat h.bit hn hr hg
  refine ⟨_, ⟨.one hat ?_ hs, ?_, rfl, rfl, rfl, hb⟩, hwr, rfl⟩
  · have hf : fetch E.prog (s.ip + 1) 2 = (leWord [k0, k1], s.ip + 1 + 2) :=
      (hat.tail.left (a := [k0, k1])).fetch rfl (by omega)
    have hf2 : fetch E.prog (s.ip + 1 + 2) 1 = (leWord [n], s.ip + 1 + 2 + 1) :=
      (hat.tail.right (a := [k0, k1])).fetch rfl (by omega)
    have hnn : (leWord [n]).toNat = n.toNat := by rw [toNat_leWord _ (by simp)]; simp [leNat]
    have hw : bitWidth E { s with ip := s.ip + 1 } = n.toNat := by
      unfold bitWidth; simp only [hf, hf2, hnn]
    have hone : ∀ w h', E.host.scalar s.host (keyNum k0 k1) op 0 = (true, w, h') → w = v := by
      intro w h' e; rw [hg] at e; simp only [Prod.mk.injEq, true_and] at e; exact e.1.symm
    rcases hop with rfl | rfl
    · rw [pre_unaligned _ s rfl]
      show BitFit _ (bitWidth E { s with ip := s.ip + 1 }) ∧
        ∀ (w : Word) (h' : Tape), _ → w.toNat < 2 ^ bitWidth E { s with ip := s.ip + 1 }
      rw [hw]
      refine ⟨⟨hn, hr⟩, fun w h' e => ?_⟩
      simp only [hf, leWord_key] at e
      rw [hone w h' e]
      exact hv rfl
    · rw [pre_unaligned _ s rfl]
      show 0 < bitWidth E { s with ip := s.ip + 1 } ∧ BitFit _ (bitWidth E { s with ip := s.ip + 1 }) ∧
        ∀ (w : Word) (h' : Tape), _ → -(2 ^ (bitWidth E { s with ip := s.ip + 1 } - 1) : Int) ≤ w.toInt ∧
          w.toInt < 2 ^ (bitWidth E { s with ip := s.ip + 1 } - 1)
      rw [hw]
      refine ⟨(hi rfl).1, ⟨hn, hr⟩, fun w h' e => ?_⟩
      simp only [hf, leWord_key] at e
      rw [hone w h' e]
      exact (hi rfl).2
  · exact ⟨ho, by simp only [P.bits]; omega, h.be, h.trans, r, rfl, htot⟩

theorem enc_bitBool (hH : E.host = giver K) (henc : E.enc = true) (h : Here p tot s) {k0 k1 : Byte}
    {v : Word} {r : List Ev} (hat : At E.prog s.ip [0x22, k0, k1]) (hv : v.toNat ≤ 1)
    (hK : K (keyNum k0 k1) = false) (htot : tot = (p.evs ++ [.num (keyNum k0 k1) 0x22 v]) ++ r)
    (hroom : (p.bits 1 [.num (keyNum k0 k1) 0x22 v]).pos ≤ 8 * s.buf.length) :
    ∃ s1, Did E K tot s s1 (p.bits 1 [.num (keyNum k0 k1) 0x22 v]) 3 ∧
      writeBits s.buf s.be s.cursor s.bit v 1 = some (s1.buf, s1.cursor, s1.bit) ∧ s1.be = s.be := by
  have hp := h.pos
  have hr : 8 * s.cursor + s.bit + 1 ≤ 8 * s.buf.length := by simp only [P.bits] at hroom; omega
  have hg := giver_num hH h (c := 0) htot hK (by decide) (by decide) (by simp [isQuery])
  obtain ⟨b, c, o, hwr, hb, ho, hc, hs⟩ := bitBool_enc henc hat h.bit hv hr hg
  refine ⟨_, ⟨.one hat ?_ hs, ?_, rfl, rfl, rfl, hb⟩, hwr, rfl⟩
  · have hf : fetch E.prog (s.ip + 1) 2 = (leWord [k0, k1], s.ip + 1 + 2) := hat.tail.fetch rfl (by omega)
    rw [pre_unaligned _ s rfl]
    refine ⟨⟨by omega, hr⟩, fun w h' e => ?_⟩
    simp only [hf] at e
    rw [leWord_key, hg] at e
    obtain ⟨rfl, rfl⟩ := by simpa using e
    exact truncB_of_lt _ _ (by omega)
  · exact ⟨ho, by simp only [P.bits]; omega, h.be, h.trans, r, rfl, htot⟩

theorem enc_pad (henc : E.enc = true) (h : Here p tot s) {n : Byte} (hat : At E.prog s.ip [0x23, n])
    (hn : n.toNat ≤ 64) (hroom : (p.bits n.toNat []).pos ≤ 8 * s.buf.length) :
    ∃ s1, Did E K tot s s1 (p.bits n.toNat []) 2 ∧
      writeBits s.buf s.be s.cursor s.bit 0 n.toNat = some (s1.buf, s1.cursor, s1.bit) ∧ s1.be = s.be := by
  have hp := h.pos
  have hr : 8 * s.cursor + s.bit + n.toNat ≤ 8 * s.buf.length := by simp only [P.bits] at hroom; omega
  obtain ⟨b, c, o, hwr, hb, ho, hc, hs⟩ := pad_enc henc hat h.bit hn hr
  refine ⟨_, ⟨.one hat ?_ hs, ?_, rfl, rfl, rfl, hb⟩, hwr, rfl⟩
  · have hf : fetch E.prog (s.ip + 1) 1 = (leWord [n], s.ip + 1 + 1) := hat.tail.fetch rfl (by omega)
    have hnn : (leWord [n]).toNat = n.toNat := by rw [toNat_leWord _ (by simp)]; simp [leNat]
    rw [pre_unaligned _ s rfl]
    show 8 * s.cursor + s.bit + _ ≤ 8 * s.buf.length
    simp only [hf, hnn]
    exact hr
  · exact h.same ho (by simp only [P.bits]; omega) h.be h.trans (by simp [P.bits]) rfl

theorem enc_fill (henc : E.enc = true) (h : Here p tot s) {n : Byte} (hat : At E.prog s.ip [0x24, n])
    (hroom : (p.bytes 0 []).pos ≤ 8 * s.buf.length) :
    ∃ s1, Did E K tot s s1 (p.bytes 0 []) 2 ∧ s1.be = s.be ∧
      (s1.buf = s.buf ∧ s.bit = 0 ∨ 0 < s.bit ∧
        writeBits s.buf s.be s.cursor s.bit (if n = 0 then 0 else 0xFFFFFFFFFFFFFFFF) (8 - s.bit) =
          some (s1.buf, s1.cursor, s1.bit)) := by
  have hp := h.fieldPos
  have hr : 8 * s.fieldPos ≤ 8 * s.buf.length := by simp only [P.bytes] at hroom; omega
  obtain ⟨b, hwr, hb, hs⟩ := fill_enc henc hat h.bit hr
  refine ⟨_, ⟨.one hat ?_ hs, ?_, rfl, rfl, rfl, hb⟩, rfl, hwr⟩
  · rw [pre_unaligned _ s rfl]
    intro hb
    have hb' : ¬ s.bit = 0 := Nat.pos_iff_ne_zero.1 hb
    have : s.fieldPos = s.cursor + 1 := by simp [St.fieldPos, hb']
    show s.cursor < s.buf.length
    omega
  · exact h.same (by simp) (by simp only [P.bytes]; omega) h.be h.trans (by simp [P.bytes]) rfl

theorem bytes_num_inj {p : P} {n k : Nat} {op : Byte} {v v' : Word} (e : p.bytes n [.num k op v] = p.bytes n [.num k op v']) : v = v' := by
  have := List.append_cancel_left (congrArg P.evs e)
  simpa using this

theorem bits_num_inj {p : P} {n k : Nat} {op : Byte} {v v' : Word} (e : p.bits n [.num k op v] = p.bits n [.num k op v']) : v = v' := by
  have := List.append_cancel_left (congrArg P.evs e)
  simpa using this

/-- What the main lemma says of a piece of code, the records it stands for, their form on the wire, and its array depth. -/
def EncR (E : Env Tape) (K : View) (R : P → P → Prop) (W : List Byte → P → P → Prop) (code : List Byte) (depth : Nat) : Prop :=
  ∀ (tot : List Ev) (p q : P) (s : St Tape), R p q → At E.prog s.ip code → Here p tot s → s.stack = [] →
    (∃ r, tot = q.evs ++ r) → q.pos ≤ 8 * s.buf.length → s.loops.length + depth ≤ 8 →
    ∃ s1, Did E K tot s s1 q code.length ∧ Wrote W s s1 p q

/-- What the main lemma says of one description. -/
def Encodes (E : Env Tape) (K : View) (f : Fld) : Prop := EncR E K (Rec K f) (fun D => Wire K D f) f.code f.depth

theorem giver_bulk (hH : E.host = giver K) (h : Tape) (key : Nat) (be : Bool) (buf : List Byte) (p : Nat) :
    E.host.bytesAt h key 0x39 be buf p = (false, buf, h) := by rw [hH]; rfl

theorem giver_back (hH : E.host = giver K) {s1 : St Tape} {Kp : Nat → Prop} (h : RunS E Kp s s1) (hi : Inv s) {D : List Byte} (hA : Agree s1 D) :
    Agree s D := h.agree_back (by rw [hH]; exact giver_quiet K) hi hA

/-- What an array's rounds leave on the wire. -/
def RoundsW (W : List Byte → P → P → Prop) (n : Nat) (D : List Byte) (p q : P) : Prop :=
  ∃ m, Reps (W D) n p m ∧ q = m.bytes 0 [.note 0 0x38]

/-- The rounds of an array, from the start of the body with `n` rounds left. -/
theorem enc_rounds (hH : E.host = giver K) {R : P → P → Prop} {W : List Byte → P → P → Prop} {code : List Byte} {depth : Nat} (hR : Fwd R)
    (hWR : ∀ D p q, W D p q → R p q) (hdet : Det R) (ih : EncR E K R W code depth) (start : Nat) (fs : List Frame)
    (n : Nat) : ∀ (p m : P) (s : St Tape), n + 1 < 0xFFFFFFFF → Reps R (n + 1) p m →
    At E.prog start (code ++ [0x38]) → s.ip = start → s.loops = ⟨start, n + 1⟩ :: fs →
    Here p tot s → s.stack = [] → (∃ r, tot = (m.bytes 0 [.note 0 0x38]).evs ++ r) →
    (m.bytes 0 [.note 0 0x38]).pos ≤ 8 * s.buf.length → fs.length + 1 + depth ≤ 8 →
    ∃ s1, (RunS E (fun k => K k = true) s s1 ∧ Here (m.bytes 0 [.note 0 0x38]) tot s1 ∧
      s1.ip = start + (code.length + 1) ∧ s1.loops = fs ∧ s1.stack = s.stack ∧ s1.buf.length = s.buf.length) ∧
      Wrote (RoundsW W (n + 1)) s s1 p (m.bytes 0 [.note 0 0x38]) := by
  induction n with
  | zero =>
    rintro p q s hn ⟨m, hm, rfl⟩ hat hip hl h hk hev hpos hd
    obtain ⟨r, hr⟩ := hev
    have hr' : tot = (m.evs ++ [.note 0 0x38]) ++ r := by simpa [P.bytes] using hr
    have hup : m.pos ≤ 8 * s.buf.length ∧ up8 m.pos ≤ 8 * s.buf.length := by
      have h1 := up8_ge m.pos
      have h2 := up8_ge (up8 m.pos)
      simp only [P.bytes, Nat.mul_zero, Nat.add_zero] at hpos
      constructor <;> omega
    obtain ⟨s1, d, w⟩ := ih tot p m s hm (by rw [hip]; exact hat.left) h hk
      ⟨[.note 0 0x38] ++ r, by rw [hr', List.append_assoc]⟩ hup.1 (by rw [hl]; simpa using hd)
    have hat2 : At E.prog s1.ip [0x38] := by rw [d.ip, hip]; exact hat.right
    have hl1 : s1.loops = ⟨start, 1⟩ :: fs := by rw [d.loops, hl]
    have hs := arrEnd_last hat2 hl1 rfl (giver_note hH d.here hr')
    have hfp := d.here.fieldPos
    have hrun : RunS E (fun k => K k = true) s1 _ := .one hat2 (by
      rw [pre_aligned _ s1 rfl]
      intro f' fs' e
      dsimp only at e
      rw [hl1] at e
      injection e with e1 e2
      rw [← e1]
      simp) hs
    refine ⟨_, ⟨d.run.trans hrun, ?_, ?_, rfl, d.stack, d.len⟩, ?_, ?_⟩
    · refine ⟨by simp, ?_, d.here.be, d.here.trans, r, ?_, ?_⟩
      · simp only [P.bytes, up8] at hfp ⊢; omega
      · simp [P.bytes]
      · simpa [P.bytes] using hr'
    · simp only [d.ip, hip]; omega
    · intro D hA hD
      have hi : Inv s1 := d.here.inv (d.stack.trans hk) (by rw [hl1]; simp; omega)
      have hp8 : m.pos ≤ 8 * D.length := by
        have h1 := up8_ge m.pos
        have h2 := up8_ge (up8 m.pos)
        simp only [P.bytes, Nat.mul_zero, Nat.add_zero] at hD
        omega
      exact ⟨_, ⟨m, w.wire D (giver_back hH hrun hi hA) hp8, rfl⟩, rfl⟩
    · rintro ⟨m1, ⟨m', hw, rfl⟩, e⟩
      have he : m'.evs = m.evs := by
        have := congrArg P.evs e
        simp only [P.bytes, List.append_nil] at this
        exact (List.append_cancel_right this).symm
      have e1 : m' = m := hdet tot p m' m (hWR _ _ _ hw) hm
        ⟨[.note 0 0x38] ++ r, by rw [he, hr', List.append_assoc]⟩ ⟨[.note 0 0x38] ++ r, by rw [hr', List.append_assoc]⟩
      subst e1
      exact w.keep hw
  | succ n ihn =>
    rintro p q s hn ⟨m, hm, hreps⟩ hat hip hl h hk hev hpos hd
    have hf1 := fwd_reps hR (n + 1) _ _ hreps
    have hf2 := fwd_trans hf1 (fwd_bytes q 0 [.note 0 0x38])
    have hf3 := fwd_trans (fwd_bytes m 0 []) hf2
    obtain ⟨r, hr⟩ := hev
    obtain ⟨hf3p, es, hes⟩ := hf3
    obtain ⟨s1, d, w⟩ := ih tot p m s hm (by rw [hip]; exact hat.left) h hk
      ⟨es ++ r, by rw [hr, hes, List.append_assoc]⟩ (by omega) (by rw [hl]; simpa using hd)
    have hat2 : At E.prog s1.ip [0x38] := by rw [d.ip, hip]; exact hat.right
    have hl1 : s1.loops = ⟨start, n + 1 + 1⟩ :: fs := by rw [d.loops, hl]
    have hs := arrEnd_more hat2 hl1 (by simp) hn
    have hfp := d.here.fieldPos
    obtain ⟨s2, ⟨r2, h2, i2, l2, k2, b2⟩, w2⟩ := ihn (m.bytes 0 []) q
      { s1 with ip := start, cursor := s1.fieldPos, bit := 0, loops := ⟨start, n + 1 + 1 - 1⟩ :: fs } (by omega)
      hreps hat rfl rfl
      (d.here.same (by simp) (by simp only [P.bytes]; omega) d.here.be d.here.trans (by simp [P.bytes]) rfl) (d.stack.trans hk)
      ⟨r, hr⟩ (by simp only [d.len]; exact hpos) hd
    have hrun : RunS E (fun k => K k = true) s1 s2 := (RunS.one hat2 (by
      rw [pre_aligned _ s1 rfl]
      intro f' fs' e
      dsimp only at e
      rw [hl1] at e
      injection e with e1 e2
      rw [← e1]
      simp only
      omega) hs).trans r2
    refine ⟨s2, ⟨d.run.trans hrun, h2, i2, l2, k2.trans d.stack, b2.trans d.len⟩, ?_, ?_⟩
    · intro D hA hD
      have hi : Inv s1 := d.here.inv (d.stack.trans hk) (by rw [hl1]; simp; omega)
      obtain ⟨m2, g1, g2⟩ := w2.wire D hA hD
      exact ⟨m2, ⟨m, w.wire D (giver_back hH hrun hi hA) (by omega), g1⟩, g2⟩
    · rintro ⟨m2, ⟨m', hw, g1⟩, g2⟩
      have hf' := fwd_trans (fwd_bytes m' 0 []) (fwd_trans (fwd_reps hR (n + 1) _ _ (reps_mono (hWR _) _ _ _ g1)) (fwd_bytes m2 0 [.note 0 0x38]))
      rw [← g2] at hf'
      have e1 : m' = m := hdet tot p m' m (hWR _ _ _ hw) hm (starts_of_fwd hf' ⟨r, hr⟩)
        ⟨es ++ r, by rw [hr, hes, List.append_assoc]⟩
      subst e1
      have e2 := w.keep hw
      have e3 := w2.keep ⟨m2, by show Reps (W s1.buf) _ _ _; rw [e2]; exact g1, g2⟩
      exact e3.trans e2

/-- From the point where an array is entered to the point behind it. -/
theorem enc_arr (hH : E.host = giver K) {R : P → P → Prop} {W : List Byte → P → P → Prop} {code : List Byte} {depth : Nat} (hR : Fwd R)
    (hWR : ∀ D p q, W D p q → R p q) (hdet : Det R) (ih : EncR E K R W code depth) {n : Nat} {p q : P} {s sa : St Tape}
    {hd : Nat} {op : Byte} {rest : List Byte} (hn : n < 0xFFFFFFFF) (hrec : ArrBody R code n p q)
    (hhead : At E.prog s.ip (op :: rest)) (hside : Side E (fun k => K k = true) op (pre op s))
    (hstep : step E s = enterArray E sa n)
    (hip : sa.ip = s.ip + hd) (hloops : sa.loops = s.loops) (hstack : sa.stack = s.stack)
    (hlen : sa.buf.length = s.buf.length)
    (hat : At E.prog (s.ip + hd) (code ++ [0x38])) (h : Here p tot sa) (hk : s.stack = []) (hev : ∃ r, tot = q.evs ++ r)
    (hpos : q.pos ≤ 8 * s.buf.length) (hdep : s.loops.length + (depth + 1) ≤ 8) :
    ∃ s1, Did E K tot s s1 q (hd + (code ++ [0x38]).length) ∧ Wrote (fun D => ArrBody (W D) code n) sa s1 p q ∧
      ∀ D, Agree s1 D → Agree sa D := by
  unfold ArrBody at hrec
  split at hrec
  · rename_i h0
    subst h0
    obtain ⟨hnest, rfl⟩ := hrec
    have hs := hstep.trans (enter_zero (s := sa) (skipBody_nested hnest (by rw [hip]; exact hat)))
    refine ⟨_, ⟨.one hhead hside hs, ?_, ?_, hloops, hstack, hlen⟩, .none rfl fun D => ?_, fun D hA => hA⟩
    · exact h.same h.bit h.pos h.be h.trans rfl rfl
    · simp [hip]; omega
    · unfold ArrBody; rw [if_pos rfl]; exact ⟨hnest, rfl⟩
  · rename_i h0
    obtain ⟨m, hreps, rfl⟩ := hrec
    obtain ⟨k, rfl⟩ : ∃ k, n = k + 1 := ⟨n - 1, by omega⟩
    have hs := hstep.trans (enter_nonzero (giver_bulk hH) h0 (by rw [hloops]; omega))
    obtain ⟨s1, ⟨r1, h1, i1, l1, k1, b1⟩, w⟩ := enc_rounds hH hR hWR hdet ih (s.ip + hd) s.loops k p m
      { sa with loops := ⟨sa.ip, k + 1⟩ :: sa.loops } (by omega) hreps hat hip (by simp only [hip, hloops])
      (h.same h.bit h.pos h.be h.trans rfl rfl) (hstack.trans hk) hev (by rw [← hlen] at hpos; exact hpos) (by omega)
    refine ⟨s1, ⟨(RunS.one hhead hside hs).trans r1, h1, ?_, l1, ?_, ?_⟩, ⟨fun D hA hD => ?_, fun hw => ?_⟩, fun D hA => ?_⟩
    · rw [i1]; simp; omega
    · rw [k1]; exact hstack
    · rw [b1]; exact hlen
    · unfold ArrBody; rw [if_neg h0]; exact w.wire D hA hD
    · unfold ArrBody at hw; rw [if_neg h0] at hw; exact w.keep hw
    · have : Agree { sa with loops := ⟨sa.ip, k + 1⟩ :: sa.loops } D :=
        giver_back hH r1 ⟨h.bit, by simp [hstack, hk], by simp [hloops]; omega⟩ hA
      exact this

/-- A prefixed array on the wire. -/
def PreW (K : View) (W : List Byte → P → P → Prop) (code : List Byte) (r : Pre) (k0 k1 : Byte) (D : List Byte) (p q : P) : Prop :=
  ∃ n : Word, n.toNat < 2 ^ (8 * r.size) ∧ n.toNat < 0xFFFFFFFF ∧
      K (keyNum k0 k1) = false ∧ FieldAt p.be D p.byte r.size n.toNat ∧
      ArrBody (W D) code n.toNat (p.bytes r.size [.num (keyNum k0 k1) r.arrOp n]) q

theorem wrote_pre {R : P → P → Prop} {W : List Byte → P → P → Prop} {code : List Byte} (hR : Fwd R) (hWR : ∀ D p q, W D p q → R p q)
    {r : Pre} {k0 k1 : Byte} {n : Word} {s1 sa : St Tape} (h : Here p tot s)
    (hn1 : n.toNat < 2 ^ (8 * r.size)) (hn : n.toNat < 0xFFFFFFFF) (hK : K (keyNum k0 k1) = false) (hrec : ArrBody R code n.toNat (p.bytes r.size [.num (keyNum k0 k1) r.arrOp n]) q)
    (hst : store s.buf s.fieldPos (wrBytes p.be r.size n) = some sa.buf) (hc : sa.cursor = s.fieldPos + r.size)
    (w : Wrote (fun D => ArrBody (W D) code n.toNat) sa s1 (p.bytes r.size [.num (keyNum k0 k1) r.arrOp n]) q)
    (hback : ∀ D, Agree s1 D → Agree sa D) : Wrote (PreW K W code r k0 k1) s s1 p q := by
  rw [h.byte] at hst hc
  constructor
  · intro D hA hD
    refine ⟨n, hn1, hn, hK, fieldAt_bytesAt.2 (bytesAt_agree (hback D hA) hst ?_), w.wire D hA hD⟩
    rw [wrBytes_length]; omega
  · rintro ⟨n', _, _, _, hf, hb⟩
    obtain ⟨_, es, hes⟩ := fwd_arr hR _ _ _ _ hrec
    obtain ⟨_, es', hes'⟩ := fwd_arr hR _ _ _ _ (arrBody_mono (hWR _) hb)
    have e : n = n' := num_same (tot := q.evs) ⟨es, hes⟩ ⟨es', hes'⟩
    subst e
    have e1 := store_same hst (fieldAt_bytesAt.1 hf)
    rw [← e1] at hb
    exact (w.keep hb).trans e1

/-- The main lemma: a record that fits a description is encoded to the end of the description's code. -/
theorem encodes (hH : E.host = giver K) (henc : E.enc = true) (f : Fld) : Encodes E K f := by
  induction f with
  | empty =>
    rintro tot p q s rfl hat h hk hev hpos hd
    exact ⟨s, ⟨.refl _, h, rfl, rfl, rfl, rfl⟩, .none rfl fun _ => rfl⟩
  | seq a b iha ihb =>
    rintro tot p q s ⟨m, h1, h2⟩ hat h hk hev hpos hd
    obtain ⟨hf1, es, hes⟩ := rec_fwd b _ _ h2
    obtain ⟨r, hr⟩ := hev
    simp only [Fld.depth] at hd
    obtain ⟨s1, d1, w1⟩ := iha tot p m s h1 hat.left h hk ⟨es ++ r, by rw [hr, hes, List.append_assoc]⟩ (by omega)
      (by omega)
    obtain ⟨s2, d2, w2⟩ := ihb tot m q s1 h2 (by rw [d1.ip]; exact hat.right) d1.here (d1.stack.trans hk) ⟨r, hr⟩ (by rw [d1.len]; exact hpos)
      (by rw [d1.loops]; omega)
    refine ⟨s2, by simpa [Fld.code] using d1.trans d2, ?_⟩
    refine wrote_seq w1 w2 (fun D hA => giver_back hH d2.run (d1.here.inv (d1.stack.trans hk) (by rw [d1.loops]; omega)) hA) hf1 ?_
    intro m' g1 g2
    exact rec_det K a tot p m' m (wire_rec K _ a _ _ g1) h1 (starts_of_fwd (rec_fwd b _ _ (wire_rec K _ b _ _ g2)) ⟨r, hr⟩)
      ⟨es ++ r, by rw [hr, hes, List.append_assoc]⟩
  | scalar op k0 k1 =>
    rintro tot p q s ⟨n, v, hw, hv, hK, rfl⟩ hat h hk ⟨r, hr⟩ hpos hd
    obtain ⟨s1, d, _, _, _, hst, hc⟩ := enc_scalar hH henc h hat hw hv hK hr hpos
    refine ⟨s1, d, wrote_num h hst hc (fun D hf => ⟨n, v, hw, hv, hK, hf, rfl⟩) ?_⟩
    rintro ⟨n', v', hw', _, _, hf, e⟩
    rw [hw] at hw'
    injection hw' with hw'
    subst hw'
    rw [bytes_num_inj e]
    exact hf
  | range t k0 k1 lo hi =>
    rintro tot p q s ⟨v, hv, hlo, hhi, h1, h2, hK, rfl⟩ hat h hk ⟨r, hr⟩ hpos hd
    obtain ⟨s1, d, hst, hc⟩ := enc_range hH henc h hat hv hlo hhi h1 h2 hK hr hpos
    refine ⟨s1, d, wrote_num h hst hc (fun D hf => ⟨v, hv, hlo, hhi, h1, h2, hK, hf, rfl⟩) ?_⟩
    rintro ⟨v', _, _, _, _, _, _, hf, e⟩
    rw [bytes_num_inj e]
    exact hf
  | enum t k0 k1 vals =>
    rintro tot p q s ⟨v, hv, hvs, hl, hK, rfl⟩ hat h hk ⟨r, hr⟩ hpos hd
    obtain ⟨s1, d, hst, hc⟩ := enc_enum hH henc h hat hv hvs hl hK hr hpos
    refine ⟨s1, d, wrote_num h hst hc (fun D hf => ⟨v, hv, hvs, hl, hK, hf, rfl⟩) ?_⟩
    rintro ⟨v', _, _, _, _, hf, e⟩
    rw [bytes_num_inj e]
    exact hf
  | const t k0 k1 c =>
    rintro tot p q s ⟨hc, hK, rfl⟩ hat h hk ⟨r, hr⟩ hpos hd
    obtain ⟨s1, d, hst, hcu⟩ := enc_const henc h hat hc hK hpos
    exact ⟨s1, d, wrote_num h hst hcu (fun D hf => ⟨hc, hK, hf, rfl⟩) (fun h => h.2.2.1)⟩
  | strNull k0 k1 m0 m1 =>
    rintro tot p q s ⟨bs, hb, hl, rfl⟩ hat h hk ⟨r, hr⟩ hpos hd
    obtain ⟨s1, d, hst, hc⟩ := enc_strNull hH henc h hat hb hl hr hpos
    refine ⟨s1, d, wrote_bytes h hst (by simp; omega) (fun D hf => ⟨bs, hb, hl, hf, rfl⟩) ?_⟩
    rintro ⟨bs', _, _, hf, e⟩
    have := ev_same (tot := (p.bytes (bs.length + 1) [.str (keyNum k0 k1) 0x30 bs]).evs) (l := p.evs) (r := []) (r' := [])
      (e := .str (keyNum k0 k1) 0x30 bs) (e' := .str (keyNum k0 k1) 0x30 bs') (by simp [P.bytes]) (by rw [e]; simp [P.bytes])
    simp only [Ev.str.injEq, true_and] at this
    rw [this]
    exact hf
  | strPre t k0 k1 =>
    rintro tot p q s ⟨bs, hb, hl, rfl⟩ hat h hk ⟨r, hr⟩ hpos hd
    obtain ⟨s1, d, hst, hc⟩ := enc_strPre hH henc h hat hb hl hr hpos
    have h64 : 2 ^ (8 * t.size) ≤ 2 ^ 64 := by cases t <;> decide
    have hlen : (BitVec.ofNat 64 bs.length).toNat = bs.length := by
      rw [BitVec.toNat_ofNat, Nat.mod_eq_of_lt (by omega)]
    refine ⟨s1, d, wrote_bytes h hst (by rw [List.length_append, wrBytes_length]; omega) (fun D hf => ?_) ?_⟩
    · have h1 := fieldAt_bytesAt.2 (bytesAt_left hf)
      have h2 := bytesAt_right hf
      rw [hlen] at h1
      rw [wrBytes_length] at h2
      exact ⟨bs, hb, hl, h1, h2, rfl⟩
    · rintro ⟨bs', _, _, hf, hf2, e⟩
      have := ev_same (tot := (p.bytes (t.size + bs.length) [.str (keyNum k0 k1) t.strOp bs]).evs) (l := p.evs) (r := []) (r' := [])
        (e := .str (keyNum k0 k1) t.strOp bs) (e' := .str (keyNum k0 k1) t.strOp bs') (by simp [P.bytes]) (by rw [e]; simp [P.bytes])
      simp only [Ev.str.injEq, true_and] at this
      subst this
      rw [← hlen] at hf
      refine bytesAt_append (fieldAt_bytesAt.1 hf) ?_
      rw [wrBytes_length]
      exact hf2
  | bitU k0 k1 n =>
    rintro tot p q s ⟨v, hn, hv, hK, rfl⟩ hat h hk ⟨r, hr⟩ hpos hd
    obtain ⟨s1, d, hwr, hbe⟩ := enc_bits hH henc h (.inl rfl) hat hn (fun _ => hv) (fun e => absurd e (by decide)) hK hr hpos
    refine ⟨s1, d, wrote_bits h hwr hbe hpos (fun D hf => ⟨v, hn, hv, hK, hf, rfl⟩) ?_⟩
    rintro ⟨v', _, _, _, hf, e⟩
    rw [bits_num_inj e]
    exact hf
  | bitI k0 k1 n =>
    rintro tot p q s ⟨v, hn0, hn, hv1, hv2, hK, rfl⟩ hat h hk ⟨r, hr⟩ hpos hd
    obtain ⟨s1, d, hwr, hbe⟩ := enc_bits hH henc h (.inr rfl) hat hn (fun e => absurd e (by decide)) (fun _ => ⟨hn0, hv1, hv2⟩) hK hr hpos
    refine ⟨s1, d, wrote_bits h hwr hbe hpos (fun D hf => ⟨v, hn0, hn, hv1, hv2, hK, hf, rfl⟩) ?_⟩
    rintro ⟨v', _, _, _, _, _, hf, e⟩
    rw [bits_num_inj e]
    exact hf
  | bitBool k0 k1 =>
    rintro tot p q s ⟨v, hv, hK, rfl⟩ hat h hk ⟨r, hr⟩ hpos hd
    obtain ⟨s1, d, hwr, hbe⟩ := enc_bitBool hH henc h hat hv hK hr hpos
    refine ⟨s1, d, wrote_bits h hwr hbe hpos (fun D hf => ⟨v, hv, hK, hf, rfl⟩) ?_⟩
    rintro ⟨v', _, _, hf, e⟩
    rw [bits_num_inj e]
    exact hf
  | pad n =>
    rintro tot p q s ⟨hn, rfl⟩ hat h hk hev hpos hd
    obtain ⟨s1, d, hwr, hbe⟩ := enc_pad henc h hat hn hpos
    exact ⟨s1, d, wrote_bits h hwr hbe hpos (fun D hf => ⟨hn, hf, rfl⟩) (fun w => w.2.1)⟩
  | fill b =>
    rintro tot p q s rfl hat h hk hev hpos hd
    obtain ⟨s1, d, hbe, hwr⟩ := enc_fill henc h hat hpos
    refine ⟨s1, d, ?_⟩
    have h1 := h.pos
    have h2 := h.bit
    have h3 := h.byte
    have hby : p.byte = (p.pos + 7) / 8 := rfl
    rcases hwr with ⟨hb, h0⟩ | ⟨h0, hwr⟩
    · exact .none hb fun D => ⟨fun i i1 i2 => absurd i2 (by omega), rfl⟩
    · have hlast : p.pos + (8 - s.bit) = 8 * p.byte := by omega
      have hbit : ∀ k, k < 64 → ((if b = 0 then 0 else 0xFFFFFFFFFFFFFFFF : Word).toNat.testBit k) = decide (b ≠ 0) := by
        intro k hk
        by_cases hb : b = 0
        · simp [hb]
        · rw [if_neg hb, show ((0xFFFFFFFFFFFFFFFF : Word).toNat) = 2 ^ 64 - 1 from rfl, Nat.testBit_two_pow_sub_one]
          simp [hk]
          exact hb
      refine wrote_bits h hwr hbe (by rw [hlast]; have := d.here.pos; have := d.len; have : up8 p.pos = 8 * p.byte := rfl; simp only [P.bytes] at hpos; omega) (fun D hf => ⟨?_, rfl⟩) ?_
      · intro i i1 i2
        have := hf (i - p.pos) (by omega)
        rw [show p.pos + (i - p.pos) = i by omega, hbit _ (by split <;> omega)] at this
        exact this
      · rintro ⟨hf, _⟩ i hi
        rw [hbit _ (by split <;> omega)]
        exact hf (p.pos + i) (by omega) (by omega)
  | setLE =>
    rintro tot p q s ⟨hm, rfl⟩ hat h hk hev hpos hd
    refine ⟨_, ⟨.one hat ?_ (setLE_step hat), h.same h.bit h.pos rfl h.trans rfl rfl, rfl, rfl, rfl, rfl⟩, .none rfl fun _ => ⟨hm, rfl⟩⟩
    rw [pre_unaligned _ s rfl]
    have := h.pos
    have := h.bit
    rcases hm with hm | hm
    · left; show s.bit = 0; omega
    · right; exact h.be.trans hm
  | setBE =>
    rintro tot p q s ⟨hm, rfl⟩ hat h hk hev hpos hd
    refine ⟨_, ⟨.one hat ?_ (setBE_step hat), h.same h.bit h.pos rfl h.trans rfl rfl, rfl, rfl, rfl, rfl⟩, .none rfl fun _ => ⟨hm, rfl⟩⟩
    rw [pre_unaligned _ s rfl]
    have := h.pos
    have := h.bit
    rcases hm with hm | hm
    · left; show s.bit = 0; omega
    · right; exact h.be.trans hm
  | nop =>
    rintro tot p q s rfl hat h hk hev hpos hd
    exact ⟨_, ⟨.one hat (by rw [pre_unaligned _ s rfl]; trivial) (nop_step hat),
      h.same h.bit h.pos h.be h.trans rfl rfl, rfl, rfl, rfl, rfl⟩, .none rfl fun _ => rfl⟩
  | enterBit =>
    rintro tot p q s rfl hat h hk hev hpos hd
    exact ⟨_, ⟨.one hat (by rw [pre_unaligned _ s rfl]; trivial) (enterBit_step hat),
      h.same h.bit h.pos h.be h.trans rfl rfl, rfl, rfl, rfl, rfl⟩, .none rfl fun _ => rfl⟩
  | exitBit =>
    rintro tot p q s ⟨hm, rfl⟩ hat h hk hev hpos hd
    have := h.pos
    have := h.bit
    exact ⟨_, ⟨.one hat (by rw [pre_unaligned _ s rfl]; trivial) (exitBit_step hat (by omega)),
      h.same h.bit h.pos h.be h.trans rfl rfl, rfl, rfl, rfl, rfl⟩, .none rfl fun _ => ⟨hm, rfl⟩⟩
  | version b =>
    rintro tot p q s rfl hat h hk hev hpos hd
    exact ⟨_, ⟨.one hat (by rw [pre_unaligned _ s rfl]; trivial) (version_step hat),
      h.same h.bit h.pos h.be h.trans rfl rfl, rfl, rfl, rfl, rfl⟩, .none rfl fun _ => rfl⟩
  | name b0 b1 =>
    rintro tot p q s rfl hat h hk hev hpos hd
    exact ⟨_, ⟨.one hat (by rw [pre_unaligned _ s rfl]; trivial) (name_step hat),
      h.same h.bit h.pos h.be h.trans rfl rfl, rfl, rfl, rfl, rfl⟩, .none rfl fun _ => rfl⟩
  | struct k0 k1 f ih =>
    rintro tot p q s ⟨m, hm, rfl⟩ hat h hk ⟨r, hr⟩ hpos hd
    obtain ⟨hf1, es, hes⟩ := rec_fwd f _ _ hm
    have hr' : tot = (m.evs ++ [.note 0 0x04]) ++ r := hr
    have hr0 : tot = (p.evs ++ [.note (keyNum k0 k1) 0x03]) ++ (es ++ ([.note 0 0x04] ++ r)) := by
      rw [hr', hes]; simp [P.bits]
    have s0 := enterStruct_step hat.left (giver_note hH h hr0)
    obtain ⟨s1, d, w⟩ := ih tot (p.bits 0 [.note (keyNum k0 k1) 0x03]) m
      { s with ip := s.ip + 3, host := ⟨p.evs ++ [.note (keyNum k0 k1) 0x03], es ++ ([.note 0 0x04] ++ r)⟩ }
      hm hat.right.left ⟨h.bit, h.pos, h.be, h.trans, _, rfl, hr0⟩ hk
      ⟨[.note 0 0x04] ++ r, by rw [hr', List.append_assoc]⟩ hpos hd
    have hat2 : At E.prog s1.ip [0x04] := by rw [d.ip]; exact hat.right.right
    have s2 := exitStruct_step hat2 (giver_note hH d.here hr')
    refine ⟨_, ⟨(RunS.one hat.left (by rw [pre_unaligned _ s rfl]; trivial) s0).trans
      (d.run.trans (.one hat2 (by rw [pre_unaligned _ s1 rfl]; trivial) s2)),
      ⟨d.here.bit, d.here.pos, d.here.be, d.here.trans, r, rfl, hr'⟩, ?_, d.loops, d.stack, d.len⟩, ?_, ?_⟩
    · simp [Fld.code, d.ip]
      omega
    · intro D hA hD
      exact ⟨m, w.wire D hA hD, rfl⟩
    · rintro ⟨m', hw, e⟩
      have he : m'.evs = m.evs := (List.append_cancel_right (congrArg P.evs e)).symm
      have e1 : m' = m := rec_det K f tot _ m' m (wire_rec K _ f _ _ hw) hm
        ⟨[.note 0 0x04] ++ r, by rw [he, hr', List.append_assoc]⟩ ⟨[.note 0 0x04] ++ r, by rw [hr', List.append_assoc]⟩
      subst e1
      exact w.keep hw
  | arrFixed k0 k1 n f ih =>
    rintro tot p q s ⟨hn, hK, hrec⟩ hat h hk ⟨r, hr⟩ hpos hd
    obtain ⟨hf1, es, hes⟩ := fwd_arr (rec_fwd f) _ _ _ _ hrec
    have hr0 : tot = (p.evs ++ [.num (keyNum k0 k1) 0x34 n]) ++ (es ++ r) := by
      rw [hr, hes]; simp [P.bytes]
    have hg := giver_num hH h (c := n) hr0 hK (by decide) (by decide) (fun _ => rfl)
    have hs := arrFixed_step hat.left (by omega) hg
    rw [truncB_of_lt _ _ (by omega)] at hs
    have hfp := h.fieldPos
    obtain ⟨s1, d, w, hback⟩ := enc_arr hH (rec_fwd f) (fun D => wire_rec K D f) (rec_det K f) ih (hd := 7) hn hrec hat.left.left
      (by rw [pre_aligned _ s rfl]; trivial) hs rfl rfl rfl rfl hat.right
      ⟨by simp, by simp only [P.bytes]; omega, h.be, h.trans, _, rfl, hr0⟩ hk ⟨r, hr⟩ hpos hd
    refine ⟨s1, by rw [Fld.code, List.length_append]; exact d, fun D hA hD => ⟨hn, hK, w.wire D hA hD⟩, fun hw => w.keep hw.2.2⟩
  | arrPre t k0 k1 f ih =>
    rintro tot p q s ⟨n, hn1, hn, hK, hrec⟩ hat h hk ⟨r, hr⟩ hpos hd
    obtain ⟨hf1, es, hes⟩ := fwd_arr (rec_fwd f) _ _ _ _ hrec
    have hr0 : tot = (p.evs ++ [.num (keyNum k0 k1) t.arrOp n]) ++ (es ++ r) := by
      rw [hr, hes]; simp [P.bytes]
    have hfp := h.fieldPos
    have hg := giver_num hH h (c := 0) hr0 hK (by cases t <;> decide) (by cases t <;> decide)
      (by cases t <;> simp [Pre.arrOp, isQuery])
    obtain ⟨b, hb, hst, hs⟩ := arrPre_enc henc hat.left (by simp only [P.bytes] at hf1; omega) hg
    have ht : truncB t.size n = n := truncB_of_lt _ _ hn1
    rw [ht] at hs
    have hf : fetch E.prog (s.ip + 1) 2 = (leWord [k0, k1], s.ip + 1 + 2) := hat.left.tail.fetch rfl (by omega)
    have hside : Side E (fun k => K k = true) t.arrOp (pre t.arrOp s) := by
      rw [pre_aligned _ s (by cases t <;> rfl)]
      have hdo : decodeOp t.arrOp = .arrPre t := by cases t <;> rfl
      unfold Side
      simp only [hdo, hf, leWord_key]
      intro w h' e
      rw [hg] at e
      simp only [Prod.mk.injEq, true_and] at e
      rw [← e.1]
      exact ht
    obtain ⟨s1, d, w, hback⟩ := enc_arr hH (rec_fwd f) (fun D => wire_rec K D f) (rec_det K f) ih (hd := 3) hn hrec hat.left hside hs rfl rfl rfl hb hat.right
      ⟨by simp, by simp only [P.bytes]; omega, h.be, h.trans, _, rfl, hr0⟩ hk ⟨r, hr⟩ hpos hd
    refine ⟨s1, by rw [Fld.code, List.length_append]; exact d, ?_⟩
    exact wrote_pre (W := fun D => Wire K D f) (rec_fwd f) (fun D => wire_rec K D f) h hn1 hn hK hrec (by rw [← ht, ← h.be]; exact hst) rfl w hback
  | arrDyn k0 k1 r0 r1 f ih =>
    rintro tot p q s ⟨n, hl, hn, hK, hKr, hrec⟩ hat h hk ⟨r, hr⟩ hpos hd
    obtain ⟨hf1, es, hes⟩ := fwd_arr (rec_fwd f) _ _ _ _ hrec
    have hr0 : tot = (p.evs ++ [.num (keyNum k0 k1) 0x3B n]) ++ (es ++ r) := by
      rw [hr, hes]; simp [P.bytes]
    have hfp := h.fieldPos
    have hg := giver_num hH h (c := n) hr0 hK (by decide) (by decide) (fun _ => rfl)
    have hs := arrDyn_step hat.left (giver_ask hH h hKr hl) (by omega) hg
    rw [truncB_of_lt _ _ (by omega)] at hs
    obtain ⟨s1, d, w, hback⟩ := enc_arr hH (rec_fwd f) (fun D => wire_rec K D f) (rec_det K f) ih (hd := 5) hn hrec hat.left
      (by rw [pre_aligned _ s rfl]; trivial) hs rfl rfl rfl rfl hat.right
      ⟨by simp, by simp only [P.bytes]; omega, h.be, h.trans, _, rfl, hr0⟩ hk ⟨r, hr⟩ hpos hd
    refine ⟨s1, by rw [Fld.code, List.length_append]; exact d, fun D hA hD => ⟨n, hl, hn, hK, hKr, w.wire D hA hD⟩, ?_⟩
    rintro ⟨n', hl', _, _, _, hw⟩
    rw [hl] at hl'
    injection hl' with e
    subst e
    exact w.keep hw
  | crc c =>
    rintro tot p q s ⟨hok, rfl⟩ hat h hk hev hpos hd
    obtain ⟨s1, d, hst, hc⟩ := enc_crc henc h hat hok hpos
    have hck : ∀ data, c.check data = ((c.calc data).setWidth 64 : Word).toNat := by
      intro data
      rw [CrcPar.check, ← C56_textbook c hok, BitVec.toNat_setWidth, Nat.mod_eq_of_lt]
      have := (c.calc data).isLt
      omega
    refine ⟨s1, d, ⟨fun D hA hD => ⟨hok, ?_, rfl⟩, fun hw => ?_⟩⟩
    · rw [h.byte] at hst hc
      have hsame : D.take p.byte = s.buf.take p.byte := by
        apply List.ext_getElem?
        intro i
        rw [List.getElem?_take, List.getElem?_take]
        split
        · rename_i hi
          obtain ⟨g1, g2⟩ := store_eq_some.1 hst
          rw [agree_byte hA (by omega), g2]
          exact getElem?_splice_lt g1 hi
        · rfl
      rw [hsame, hck]
      exact fieldAt_bytesAt.2 (bytesAt_agree hA hst (by rw [wrBytes_length]; omega))
    · obtain ⟨_, hf, _⟩ := hw
      rw [h.byte] at hst
      rw [hck] at hf
      exact store_same hst (fieldAt_bytesAt.1 hf)


end

/-! ### C52 -/

/-- The packet an encoder delivers: the bytes up to the cursor and the partly filled byte, if any
(cli/cmd_encode.c, `final_len`). -/
def St.packet {σ : Type} (s : St σ) : List Byte := s.buf.take (s.cursor + if s.bit = 0 then 0 else 1)

theorem agree_packet {σ : Type} (s : St σ) (hb : s.bit < 8) (hl : 8 * s.cursor + s.bit ≤ 8 * s.buf.length)
    (rest : List Byte) :
    Agree s (s.packet ++ rest) ∧ 8 * s.cursor + s.bit ≤ 8 * (s.packet ++ rest).length := by
  have hlen : s.packet.length = s.cursor + if s.bit = 0 then 0 else 1 := by
    unfold St.packet; rw [List.length_take]; split <;> omega
  constructor
  · intro k hk
    unfold bitAt
    have h1 : k / 8 < s.cursor + if s.bit = 0 then 0 else 1 := by split <;> omega
    rw [List.getElem?_append_left (by omega)]
    unfold St.packet
    rw [List.getElem?_take_of_lt h1]
  · rw [List.length_append, hlen]; split <;> omega

/-- C52: every record that fits a packet description is encoded without error when the buffer can hold it, the
whole record is consumed, and decoding the packet produced, whatever follows it, succeeds and reports exactly the
events of the record. `K` are the keys of constant fields, which the encoder does not ask for.

The contexts may hold anything to begin with. -/
theorem C52_packet (K : View) (fl : FloatOps) (f : Fld) (hdep : f.depth ≤ 8) (q : P)
    (hrec : Rec K f ⟨0, false, []⟩ q) (old : St Tape) (buf : List Byte) (hbuf : q.pos ≤ 8 * buf.length) :
    ∃ n sf, exec { prog := f.code, enc := true, host := giver K, fl := fl } n (initSt old buf ⟨[], q.evs⟩)
        = .stop .ok sf ∧
      sf.host = ⟨q.evs, []⟩ ∧ 8 * sf.cursor + sf.bit = q.pos ∧ sf.bit < 8 ∧ sf.buf.length = buf.length ∧
      ∀ (old' : St (List Ev)) (rest : List Byte),
        ∃ sd, exec { prog := f.code, enc := false, host := taker K, fl := fl } n
            (initSt old' (sf.packet ++ rest) []) = .stop .ok sd ∧
          vis K sd.host = q.evs ∧ sd.cursor = sf.cursor ∧ sd.bit = sf.bit ∧ sd.buf = sf.packet ++ rest := by
  let E : Env Tape := { prog := f.code, enc := true, host := giver K, fl := fl }
  obtain ⟨sf, d, _⟩ := encodes (E := E) (K := K) rfl rfl f q.evs ⟨0, false, []⟩ q (initSt old buf ⟨[], q.evs⟩) hrec
    ⟨[], by simp [initSt, E]⟩ ⟨by simp [initSt], by simp [initSt], rfl, rfl, q.evs, rfl, rfl⟩ rfl ⟨[], by simp⟩ hbuf
    (by simpa [initSt] using hdep)
  have hend : E.prog[sf.ip]? = none := by
    rw [d.ip]; simp [initSt, E]
  obtain ⟨n, hn⟩ := d.run.exec hend
  obtain ⟨rest0, hh, ht⟩ := d.here.host
  have hr0 : rest0 = [] := by
    have := congrArg List.length ht
    simp at this
    exact this
  have hlen : sf.buf.length = buf.length := d.len
  refine ⟨n, sf, hn, by rw [hh, hr0], d.here.pos, d.here.bit, hlen, ?_⟩
  intro old' rest
  obtain ⟨hA, hD⟩ := agree_packet sf d.here.bit (by rw [d.here.pos, hlen]; exact hbuf) rest
  obtain ⟨_, _, hsim⟩ := exec_sim (E := E) (giver_taker K) (giver_quiet K) rfl (init_inv old buf ⟨[], q.evs⟩)
    (fun s' hr op hop => d.run.side hend s' hr op hop) hn hA hD
  obtain ⟨gf, hx, hR, _⟩ := hsim [] ⟨rfl, fun _ _ _ h => (by cases h)⟩
  have hfr : Fresh ((initSt old buf ⟨[], q.evs⟩).swap (sf.packet ++ rest) []) (initSt old' (sf.packet ++ rest) []) :=
    ⟨⟨old'.polyPos, old'.polyCnt, old'.splPos, old'.splCnt⟩, rfl, (fun h => by cases h), (fun h => by cases h)⟩
  obtain ⟨r, hr⟩ := exec_fresh_stop n hfr hx
  refine ⟨(sf.swap (sf.packet ++ rest) gf).refs r, hr, ?_, rfl, rfl, rfl⟩
  · show vis K gf = q.evs
    rw [← hR, hh]

/-- A packet description with a nested struct, bit fields, a length-prefixed array of ranged values, an empty array,
a string, a constant and a checksum. -/
def Demo.sampleFld : Fld :=
  .seq (.name 0 0) <| .seq .setBE <| .seq (.scalar 0x11 1 0) <| .seq (.bitU 2 0 3) <| .seq (.bitI 3 0 4) <|
  .seq (.fill 0) <| .seq .setLE <|
  .seq (.struct 4 0 (.seq (.const .u16 5 0 0xCAFE) (.strPre .p1 6 0))) <|
  .seq (.arrPre .p2 7 0 (.range .i8 8 0 0xF6 10)) <| .seq (.arrFixed 9 0 0 (.scalar 0x10 10 0)) <|
  .crc ⟨false, 0x1021, 0xFFFF, 0, 0⟩

/-- The events of a record of it. -/
def Demo.sampleEvs : List Ev :=
  [.num 1 0x11 0x1234, .num 2 0x20 5, .num 3 0x21 0xFFFFFFFFFFFFFFFE, .note 4 0x03, .str 6 0x31 [72, 105],
   .note 0 0x04, .num 7 0x36 2, .num 8 0x14 0xFB, .num 8 0x14 10, .note 0 0x38, .num 9 0x34 0]

/-- The hypotheses of `C52_packet` hold of a packet with all of these parts, 14 bytes long. -/
example : Rec (.plain fun k => k == 5) Demo.sampleFld ⟨0, false, []⟩ ⟨8 * 14, false, Demo.sampleEvs⟩ := by
  refine ⟨_, rfl, _, ⟨.inl rfl, rfl⟩, _, ⟨2, 0x1234, rfl, ⟨by decide, by decide⟩, rfl, rfl⟩,
    _, ⟨5, by decide, by decide, rfl, rfl⟩,
    _, ⟨0xFFFFFFFFFFFFFFFE, by decide, by decide, by decide, by decide, rfl, rfl⟩, _, rfl, _, ⟨.inl rfl, rfl⟩,
    _, ⟨_, ⟨_, ⟨by decide, rfl, rfl⟩, ⟨[72, 105], ?_, by decide, rfl⟩⟩, rfl⟩,
    ⟨8 * 12, false, Demo.sampleEvs.take 10⟩, ⟨2, by decide, by decide, rfl, ?_⟩,
    ⟨8 * 12, false, Demo.sampleEvs⟩, ⟨by decide, rfl, ?_⟩, ?_⟩
  · simp [NulFree]
  · unfold ArrBody
    rw [if_neg (by decide)]
    exact ⟨_, ⟨_, ⟨0xFB, by decide, by decide, by decide, by decide, by decide, rfl, rfl⟩,
      _, ⟨10, by decide, by decide, by decide, by decide, by decide, rfl, rfl⟩, rfl⟩, rfl⟩
  · unfold ArrBody
    rw [if_pos (by decide)]
    exact ⟨.byte _ _ (by decide) (by decide) (.byte _ _ (by decide) (by decide)
      (.byte _ _ (by decide) (by decide) .nil)), rfl⟩
  · exact ⟨by simp [CrcPar.ok, CrcPar.size], rfl⟩

/-! ### C16 -/

theorem reps_scalar (K : View) {op k0 k1 : Byte} {n : Nat} (hop : scalarWidth op.toNat = some n)
    (hK : K (keyNum k0 k1) = false) (vs : List Word) (hv : ∀ v ∈ vs, ScalarVal op n v) (p : P) (hp : p.pos % 8 = 0) :
    Reps (Rec K (.scalar op k0 k1)) vs.length p
      ⟨p.pos + 8 * (n * vs.length), p.be, p.evs ++ vs.map (.num (keyNum k0 k1) op)⟩ := by
  induction vs generalizing p with
  | nil => simp [Reps]
  | cons v vs ih =>
    refine ⟨_, ⟨n, v, hop, hv v (by simp), hK, rfl⟩, ?_⟩
    have h1 : (p.bytes n [.num (keyNum k0 k1) op v]).bytes 0 [] =
        ⟨p.pos + 8 * n, p.be, p.evs ++ [.num (keyNum k0 k1) op v]⟩ := by
      simp only [P.bytes, up8, P.mk.injEq, List.append_nil, and_true]
      omega
    rw [h1]
    have := ih (fun v h => hv v (by simp [h])) ⟨p.pos + 8 * n, p.be, p.evs ++ [.num (keyNum k0 k1) op v]⟩
      (by simp only; omega)
    simp only [List.append_assoc, List.singleton_append] at this
    have h2 : p.pos + 8 * (n * (vs.length + 1)) = p.pos + 8 * n + 8 * (n * vs.length) := by
      rw [Nat.mul_add, Nat.mul_add]; omega
    simp only [List.length_cons, List.map_cons, h2, List.append_assoc, List.singleton_append]
    exact this

/-- The three kinds of array with a known count. -/
inductive ArrKind
  | fixed
  | pre (p : Pre)
  | dyn (c0 c1 : Byte)

/-- Array of `n` elements of scalar type `op`; for a host-counted array, the u32 field that holds the count is
encoded before it. -/
def ArrKind.fld (k : ArrKind) (k0 k1 : Byte) (n : Word) (op e0 e1 : Byte) : Fld :=
  match k with
  | .fixed => .arrFixed k0 k1 n (.scalar op e0 e1)
  | .pre p => .arrPre p k0 k1 (.scalar op e0 e1)
  | .dyn c0 c1 => .seq (.scalar 0x12 c0 c1) (.arrDyn k0 k1 c0 c1 (.scalar op e0 e1))

/-- Bytes before the first element. -/
def ArrKind.head : ArrKind → Nat
  | .fixed => 0
  | .pre p => p.size
  | .dyn _ _ => 4

/-- Largest count. -/
def ArrKind.max : ArrKind → Nat
  | .pre p => 2 ^ (8 * p.size) - 1
  | _ => 0xFFFFFFFE

/-- What the host sees before the elements. -/
def ArrKind.start (k : ArrKind) (key : Nat) (n : Word) : List Ev :=
  match k with
  | .fixed => [.num key 0x34 n]
  | .pre p => [.num key p.arrOp n]
  | .dyn c0 c1 => [.num (keyNum c0 c1) 0x12 n, .num key 0x3B n]

/-- C16: an array of at least one scalar, in either byte order: encoding delivers exactly head + n*size bytes, and
decoding them (whatever follows) reports the count, then the same elements in order, then the end of the array, and
nothing else. -/
theorem C16_array (fl : FloatOps) (big : Bool) (k : ArrKind) (k0 k1 op e0 e1 : Byte) (size : Nat) (vs : List Word)
    (hop : scalarWidth op.toNat = some size) (hv : ∀ v ∈ vs, ScalarVal op size v) (hne : vs ≠ [])
    (hmax : vs.length ≤ k.max) (hmax4 : vs.length < 0xFFFFFFFF) (old : St Tape) (buf : List Byte)
    (hbuf : k.head + size * vs.length ≤ buf.length) :
    let n : Word := BitVec.ofNat 64 vs.length
    let f := Fld.seq (if big then .setBE else .setLE) (k.fld k0 k1 n op e0 e1)
    let evs := k.start (keyNum k0 k1) n ++ vs.map (.num (keyNum e0 e1) op) ++ [.note 0 0x38]
    ∃ m sf, exec { prog := f.code, enc := true, host := giver (.plain fun _ => false), fl := fl } m
        (initSt old buf ⟨[], evs⟩) = .stop .ok sf ∧
      sf.host = ⟨evs, []⟩ ∧ sf.cursor = k.head + size * vs.length ∧ sf.bit = 0 ∧
      ∀ (old' : St (List Ev)) (rest : List Byte),
        ∃ sd, exec { prog := f.code, enc := false, host := taker (.plain fun _ => false), fl := fl } m
            (initSt old' (sf.packet ++ rest) []) = .stop .ok sd ∧
          sd.host = evs ∧ sd.cursor = k.head + size * vs.length ∧ sd.bit = 0 := by
  intro n f evs
  have hlen : 0 < vs.length := List.length_pos_iff.2 hne
  have hn : n.toNat = vs.length := by
    show (BitVec.ofNat 64 vs.length).toNat = _
    rw [BitVec.toNat_ofNat, Nat.mod_eq_of_lt (by omega)]
  have body : ∀ p : P, p.pos % 8 = 0 → ArrBody (Rec (.plain fun _ => false) (.scalar op e0 e1)) (Fld.scalar op e0 e1).code
      n.toNat p ⟨p.pos + 8 * (size * vs.length), p.be,
        p.evs ++ vs.map (.num (keyNum e0 e1) op) ++ [.note 0 0x38]⟩ := by
    intro p hp
    unfold ArrBody
    rw [hn, if_neg (by omega)]
    refine ⟨_, reps_scalar _ hop rfl vs hv p hp, ?_⟩
    simp only [P.bytes, up8, P.mk.injEq, and_true]
    omega
  have hrec : Rec (.plain fun _ => false) f ⟨0, false, []⟩ ⟨8 * (k.head + size * vs.length), big, evs⟩ := by
    refine ⟨⟨0, big, []⟩, ?_, ?_⟩
    · cases big
      · exact ⟨.inl rfl, rfl⟩
      · exact ⟨.inl rfl, rfl⟩
    · cases k with
      | fixed =>
        refine ⟨by omega, rfl, ?_⟩
        have := body ((⟨0, big, []⟩ : P).bytes 0 [.num (keyNum k0 k1) 0x34 n]) (by simp [P.bytes, up8])
        simpa [P.bytes, up8, ArrKind.head, evs, ArrKind.start] using this
      | pre p =>
        have hp := body ((⟨0, big, []⟩ : P).bytes p.size [.num (keyNum k0 k1) p.arrOp n])
          (by simp [P.bytes, up8])
        have hs : 0 < 2 ^ (8 * p.size) := Nat.two_pow_pos _
        simp only [ArrKind.max] at hmax
        refine ⟨n, by omega, by omega, rfl, ?_⟩
        simpa [P.bytes, up8, ArrKind.head, evs, ArrKind.start, Nat.mul_add] using hp
      | dyn c0 c1 =>
        have hp := body (((⟨0, big, []⟩ : P).bytes 4 [.num (keyNum c0 c1) 0x12 n]).bytes 0
          [.num (keyNum k0 k1) 0x3B n]) (by simp [P.bytes, up8])
        refine ⟨_, ⟨4, n, rfl, ⟨by rw [hn]; omega, by intro h; exact absurd h (by decide)⟩, rfl, rfl⟩,
          n, ?_, by omega, rfl, rfl, ?_⟩
        · simp [P.bytes, View.plain, lastNum]
        · simpa [P.bytes, up8, ArrKind.head, evs, ArrKind.start, Nat.mul_add] using hp
  have hdep : f.depth ≤ 8 := by
    show max (Fld.depth (if big then .setBE else .setLE)) (Fld.depth (k.fld k0 k1 n op e0 e1)) ≤ 8
    cases big <;> cases k <;> simp [ArrKind.fld, Fld.depth]
  obtain ⟨m, sf, h1, h2, h3, h4, h5, h6⟩ := C52_packet (.plain fun _ => false) fl f hdep _ hrec old buf (by simp only; omega)
  refine ⟨m, sf, h1, h2, by simp only at h3; omega, by simp only at h3; omega, ?_⟩
  intro old' rest
  obtain ⟨sd, d1, d2, d3, d4, d5⟩ := h6 old' rest
  refine ⟨sd, d1, ?_, by simp only at h3; omega, by simp only at h3; omega⟩
  refine Eq.trans ?_ d2
  exact (List.filter_eq_self.2 (by intro e _; cases e <;> rfl)).symm

/-- The packet of an encoding run that ended normally. -/
def sampleEncode (f : Fld) (buf : List Byte) (evs : List Ev) : Option (List Byte) :=
  match exec { prog := f.code, enc := true, host := giver (.plain fun k => k == 5), fl := Demo.fl } 100
      (initSt (Demo.blank.swap [] ⟨[], []⟩) buf ⟨[], evs⟩) with
  | .stop .ok s => some s.packet
  | _ => none

/-- Three u16 in big-endian with a one-byte count meet the hypotheses; the packet is `03 0001 0002 FFFF`. -/
example : (∀ v ∈ ([1, 2, 0xFFFF] : List Word), ScalarVal 0x11 2 v) ∧
    sampleEncode (.seq .setBE (ArrKind.fld (.pre .p1) 7 0 3 0x11 8 0)) (List.replicate 9 9)
        [.num 7 0x35 3, .num 8 0x11 1, .num 8 0x11 2, .num 8 0x11 0xFFFF, .note 0 0x38] =
      some [3, 0, 1, 0, 2, 0xFF, 0xFF] :=
  ⟨by simp [ScalarVal], by decide +kernel⟩

/-- The packet of the sample record of `C52_packet`. -/
example : sampleEncode Demo.sampleFld (List.replicate 20 0) Demo.sampleEvs =
    some [0x12, 0x34, 0xBC, 0xFE, 0xCA, 2, 72, 105, 2, 0, 0xFB, 10, 0xA9, 0x7D] := by decide +kernel

end Cnd
