import Verif.Props.Packet
/-
  C17 (bulk byte arrays), C18 (empty arrays).
-/

namespace Cnd

variable {σ τ : Type}

/-! ### C17 -/

/-- The host supplies the bytes `bs` one after another for field `key`. -/
inductive Supplies (H : Host σ) (key : Nat) (op : Byte) : σ → List Byte → σ → Prop
  | nil (h : σ) : Supplies H key op h [] h
  | cons {h h1 h2 : σ} {b : Byte} {bs : List Byte} : H.scalar h key op 0 = (true, b.setWidth 64, h1) →
      Supplies H key op h1 bs h2 → Supplies H key op h (b :: bs) h2

/-- The host accepts the bytes `bs` one after another for field `key`. -/
inductive Accepts (H : Host σ) (key : Nat) (op : Byte) : σ → List Byte → σ → Prop
  | nil (h : σ) : Accepts H key op h [] h
  | cons {h h1 h2 : σ} {b : Byte} {w : Word} {bs : List Byte} : H.scalar h key op (b.setWidth 64) = (true, w, h1) →
      Accepts H key op h1 bs h2 → Accepts H key op h (b :: bs) h2

theorem wrBytes_byte (be : Bool) (b : Byte) : wrBytes be 1 (b.setWidth 64 : Word) = [b] := by
  unfold wrBytes
  have : leBytes 1 (b.setWidth 64 : Word) = [b] := by
    simp only [leBytes, List.cons.injEq, and_true]
    apply BitVec.eq_of_toNat_eq
    have := b.isLt
    simp
  cases be <;> simp [this]

theorem splice_cons {buf : List Byte} {p : Nat} {b : Byte} {bs : List Byte} (h : p + (b :: bs).length ≤ buf.length) :
    splice (splice buf p [b]) (p + 1) bs = splice buf p (b :: bs) := by
  simp only [List.length_cons] at h
  have hl : (splice buf p [b]).length = buf.length := splice_length (by simp; omega)
  apply List.ext_getElem?
  intro i
  rcases Nat.lt_or_ge i p with h1 | h1
  · rw [getElem?_splice_lt (by omega) (by omega), getElem?_splice_lt (by simp; omega) h1,
      getElem?_splice_lt (by simp; omega) h1]
  · rcases Nat.lt_or_ge i (p + (bs.length + 1)) with h2 | h2
    · obtain ⟨j, rfl⟩ : ∃ j, i = p + j := ⟨i - p, by omega⟩
      rw [getElem?_splice_mid (bs := b :: bs) (by simp; omega) (by simp; omega)]
      cases j with
      | zero =>
        have := getElem?_splice_mid (buf := buf) (p := p) (bs := [b]) (i := 0) (by simp; omega) (by simp)
        rw [getElem?_splice_lt (by omega) (by omega), this]
        rfl
      | succ j =>
        rw [show p + (j + 1) = p + 1 + j by omega, getElem?_splice_mid (by omega) (by omega), List.getElem?_cons_succ]
    · rw [getElem?_splice_ge (by omega) (by omega), getElem?_splice_ge (by simp; omega) (by simp; omega),
        getElem?_splice_ge (bs := b :: bs) (by simp; omega) (by simp; omega)]

theorem splice_nil (buf : List Byte) (p : Nat) : splice buf p [] = buf := by simp [splice]

/-- The element-by-element loop while encoding. -/
theorem byte_loop_enc (B : Env τ) (henc : B.enc = true) {op k0 k1 : Byte} (hop : op = 0x10 ∨ op = 0x14)
    (start : Nat) (hat : At B.prog start [op, k0, k1, 0x38]) (fs : List Frame) (bs : List Byte) :
    ∀ (s : St τ) (g1 g2 : τ), bs ≠ [] → bs.length < 0xFFFFFFFF → s.trans = .none → s.bit = 0 → s.ip = start →
    s.loops = ⟨start, bs.length⟩ :: fs → s.cursor + bs.length ≤ s.buf.length →
    Supplies B.host (keyNum k0 k1) op s.host bs g1 → B.host.notify g1 0 0x38 = (true, g2) →
    exec B (2 * bs.length) s = .run { s with
      ip := start + 4, buf := splice s.buf s.cursor bs, cursor := s.cursor + bs.length, loops := fs, opt := false,
      host := g2 } := by
  have hw : scalarWidth op.toNat = some 1 := by rcases hop with rfl | rfl <;> rfl
  induction bs with
  | nil => intro s g1 g2 h; exact absurd rfl h
  | cons b bs ih =>
    intro s g1 g2 _ hlen htr hbit hip hl hroom hsup hn
    simp only [List.length_cons] at hlen hroom hl
    cases hsup with
    | cons hb hrest =>
      rename_i hx
      have hfp : s.fieldPos = s.cursor := by simp [St.fieldPos, hbit]
      have hv : ScalarVal op 1 (b.setWidth 64 : Word) := by
        refine ⟨?_, fun e => by rcases hop with rfl | rfl <;> exact absurd e (by decide)⟩
        have := b.isLt; simp; omega
      obtain ⟨b1, hb1, hs⟩ := scalar_enc henc hw (by rw [hip]; exact hat.left (a := [op, k0, k1])) htr
        (by rw [hfp]; omega) hv hb
      rw [wrBytes_byte, hfp] at hb1
      obtain ⟨_, rfl⟩ := store_eq_some.1 hb1
      have hat2 : At B.prog (start + 3) [0x38] := hat.right (a := [op, k0, k1])
      rw [List.length_cons, show 2 * (bs.length + 1) = (2 * bs.length + 1) + 1 by omega, exec_run_succ hs]
      cases hbs : bs with
      | nil =>
        subst hbs
        cases hrest
        have he := arrEnd_last (E := B) (s := { s with ip := s.ip + 3, buf := splice s.buf s.cursor [b], cursor := s.fieldPos + 1, bit := 0, opt := false, host := g1 })
          (h := g2) (f := ⟨start, 1⟩) (fs := fs) (by simpa [hip] using hat2) hl rfl hn
        simp only [List.length_nil, Nat.mul_zero, Nat.zero_add]
        rw [exec_run_succ he, exec_zero]
        simp [St.fieldPos, hbit, hip]
      | cons c cs =>
        rw [← hbs]
        have hne : bs ≠ [] := by rw [hbs]; simp
        have hpos : 0 < bs.length := List.length_pos_iff.2 hne
        have he := arrEnd_more (E := B) (s := { s with ip := s.ip + 3, buf := splice s.buf s.cursor [b], cursor := s.fieldPos + 1, bit := 0, opt := false, host := hx })
          (f := ⟨start, bs.length + 1⟩) (fs := fs) (by simpa [hip] using hat2) hl (by simp; omega) (by simp; omega)
        rw [exec_run_succ he]
        have key := ih { s with ip := start, buf := splice s.buf s.cursor [b], cursor := s.cursor + 1, bit := 0, opt := false, loops := ⟨start, bs.length⟩ :: fs, host := hx }
          g1 g2 hne (by omega) htr rfl rfl rfl (by
            simp only [splice_length (buf := s.buf) (p := s.cursor) (bs := [b]) (by simp; omega)]; omega) hrest hn
        refine (congrArg (exec B _) ?_).trans (key.trans ?_)
        · simp [St.fieldPos, hbit]
        · have hx : splice (splice s.buf s.cursor [b]) (s.cursor + 1) bs = splice s.buf s.cursor (b :: bs) :=
            splice_cons (by simp; omega)
          simp [hbit, hx]
          omega

/-- The element-by-element loop while decoding. -/
theorem byte_loop_dec (B : Env τ) (henc : B.enc = false) {op k0 k1 : Byte} (hop : op = 0x10 ∨ op = 0x14)
    (start : Nat) (hat : At B.prog start [op, k0, k1, 0x38]) (fs : List Frame) (bs : List Byte) :
    ∀ (s : St τ) (g1 g2 : τ), bs ≠ [] → bs.length < 0xFFFFFFFF → s.trans = .none → s.bit = 0 → s.ip = start →
    s.loops = ⟨start, bs.length⟩ :: fs → slice s.buf s.cursor bs.length = some bs →
    Accepts B.host (keyNum k0 k1) op s.host bs g1 → B.host.notify g1 0 0x38 = (true, g2) →
    exec B (2 * bs.length) s = .run { s with
      ip := start + 4, cursor := s.cursor + bs.length, loops := fs, opt := false, host := g2 } := by
  have hw : scalarWidth op.toNat = some 1 := by rcases hop with rfl | rfl <;> rfl
  induction bs with
  | nil => intro s g1 g2 h; exact absurd rfl h
  | cons b bs ih =>
    intro s g1 g2 _ hlen htr hbit hip hl hsl hsup hn
    simp only [List.length_cons] at hlen hl
    cases hsup with
    | cons hb hrest =>
      rename_i hx _
      have hfp : s.fieldPos = s.cursor := by simp [St.fieldPos, hbit]
      have hv : ScalarVal op 1 (b.setWidth 64 : Word) := by
        refine ⟨?_, fun e => by rcases hop with rfl | rfl <;> exact absurd e (by decide)⟩
        have := b.isLt; simp; omega
      obtain ⟨hr1, hr2⟩ := slice_eq_some.1 hsl
      simp only [List.length_cons] at hr1 hr2
      have hdrop : s.buf.drop s.cursor = b :: (bs ++ s.buf.drop (s.cursor + (bs.length + 1))) := by
        have := List.take_append_drop (bs.length + 1) (s.buf.drop s.cursor)
        rw [← hr2, List.drop_drop] at this
        rw [← this]; simp
      have hsl1 : slice s.buf s.fieldPos 1 = some (wrBytes s.be 1 (b.setWidth 64 : Word)) := by
        rw [wrBytes_byte, hfp]
        exact slice_eq_some.2 ⟨by omega, by rw [hdrop]; simp⟩
      have hsl2 : slice s.buf (s.cursor + 1) bs.length = some bs := by
        refine slice_eq_some.2 ⟨by omega, ?_⟩
        rw [← List.drop_drop, hdrop]; simp
      have hs := scalar_dec henc hw (by rw [hip]; exact hat.left (a := [op, k0, k1])) htr hv hsl1
      simp only [hb, if_true] at hs
      have hat2 : At B.prog (start + 3) [0x38] := hat.right (a := [op, k0, k1])
      rw [List.length_cons, show 2 * (bs.length + 1) = (2 * bs.length + 1) + 1 by omega, exec_run_succ hs]
      cases hbs : bs with
      | nil =>
        subst hbs
        cases hrest
        have he := arrEnd_last (E := B) (s := { s with ip := s.ip + 3, cursor := s.fieldPos + 1, bit := 0, opt := false, host := g1 })
          (h := g2) (f := ⟨start, 1⟩) (fs := fs) (by simpa [hip] using hat2) hl rfl hn
        simp only [List.length_nil, Nat.mul_zero, Nat.zero_add]
        rw [exec_run_succ he, exec_zero]
        simp [St.fieldPos, hbit, hip]
      | cons c cs =>
        rw [← hbs]
        have hne : bs ≠ [] := by rw [hbs]; simp
        have hpos : 0 < bs.length := List.length_pos_iff.2 hne
        have he := arrEnd_more (E := B) (s := { s with ip := s.ip + 3, cursor := s.fieldPos + 1, bit := 0, opt := false, host := hx })
          (f := ⟨start, bs.length + 1⟩) (fs := fs) (by simpa [hip] using hat2) hl (by simp; omega) (by simp; omega)
        rw [exec_run_succ he]
        have key := ih { s with ip := start, cursor := s.cursor + 1, bit := 0, opt := false, loops := ⟨start, bs.length⟩ :: fs, host := hx }
          g1 g2 hne (by omega) htr rfl rfl rfl hsl2 hrest hn
        refine (congrArg (exec B _) ?_).trans (key.trans ?_)
        · simp [St.fieldPos, hbit]
        · simp [hbit]
          omega

/-- The bulk path: one host call, then the whole array is behind. -/
theorem enter_bulk {A : Env σ} {s : St σ} {op k0 k1 : Byte} (hop : op = 0x10 ∨ op = 0x14)
    (hat : At A.prog s.ip [op, k0, k1, 0x38]) {n : Nat} (hn : n ≠ 0) (hroom : s.cursor + n ≤ s.buf.length)
    {b : List Byte} {h : σ} (hb : b.length = s.buf.length)
    (hA : A.host.bytesAt s.host (keyNum k0 k1) 0x39 s.be s.buf s.cursor = (true, b, h)) :
    enterArray A s n = .run { s with ip := s.ip + 4, buf := b, cursor := s.cursor + n, host := h } := by
  have h0 : A.prog[s.ip]? = some op := hat.head
  have h3 : A.prog[s.ip + 3]? = some 0x38 := (hat.right (a := [op, k0, k1])).head
  have hk : ((A.prog.drop (s.ip + 1)).take 2) = [k0, k1] := (hat.tail.left (a := [k0, k1])).take
  unfold enterArray
  rw [if_neg hn]
  simp only [h0, h3, hk]
  rw [if_pos (by rcases hop with rfl | rfl <;> simp [hroom])]
  unfold callAt
  rw [leWord_key, hA]
  simp [hostBuf, hb]

/-- A host that declines the bulk call gets the loop. -/
theorem enter_declined {B : Env τ} {s : St τ} {op k0 k1 : Byte} (hop : op = 0x10 ∨ op = 0x14)
    (hat : At B.prog s.ip [op, k0, k1, 0x38]) {n : Nat} (hn : n ≠ 0) (hroom : s.cursor + n ≤ s.buf.length)
    (hl : s.loops.length < 8) {h : τ}
    (hB : B.host.bytesAt s.host (keyNum k0 k1) 0x39 s.be s.buf s.cursor = (false, s.buf, h)) :
    enterArray B s n = .run { s with loops := ⟨s.ip, n⟩ :: s.loops, host := h } := by
  have h0 : B.prog[s.ip]? = some op := hat.head
  have h3 : B.prog[s.ip + 3]? = some 0x38 := (hat.right (a := [op, k0, k1])).head
  have hk : ((B.prog.drop (s.ip + 1)).take 2) = [k0, k1] := (hat.tail.left (a := [k0, k1])).take
  unfold enterArray
  rw [if_neg hn]
  simp only [h0, h3, hk]
  rw [if_pos (by rcases hop with rfl | rfl <;> simp [hroom])]
  unfold callAt
  rw [leWord_key, hB]
  simp only [Bool.false_eq_true, if_false, hostBuf_self]
  unfold pushLoop maxDepth
  rw [if_neg (by simp only; omega)]

/-- Continue a run. -/
def Res.andThen (r : Res σ) (k : St σ → Res σ) : Res σ :=
  match r with
  | .run s => k s
  | r => r

/-- C17, encoding. `A` is driven by a host that fills in the bytes `bs` at the pointer it is given, `B` by a host
that declines the bulk call and supplies the same bytes one at a time. From the point where an array of bytes is
entered, both reach the same place with the same packet, cursor and everything else, the pending optional mark
excepted, which the loop clears.

Missing: arrays entered with a pending transform, where the claim is false (`C17_false_transform`), and the count
0xFFFFFFFF, which the loop takes for "until the end of the data". -/
theorem C17_bulk_encode_partial (A : Env σ) (B : Env τ) (hprog : B.prog = A.prog) (henc : B.enc = true)
    (s : St σ) (g g0 g1 g2 : τ) (h : σ) (op k0 k1 : Byte) (bs : List Byte)
    (hop : op = 0x10 ∨ op = 0x14) (hat : At A.prog s.ip [op, k0, k1, 0x38])
    (hne : bs ≠ []) (hlen : bs.length < 0xFFFFFFFF) (htr : s.trans = .none) (hbit : s.bit = 0)
    (hroom : s.cursor + bs.length ≤ s.buf.length) (hl : s.loops.length < 8)
    (hA : A.host.bytesAt s.host (keyNum k0 k1) 0x39 s.be s.buf s.cursor = (true, splice s.buf s.cursor bs, h))
    (hB : B.host.bytesAt g (keyNum k0 k1) 0x39 s.be s.buf s.cursor = (false, s.buf, g0))
    (hsup : Supplies B.host (keyNum k0 k1) op g0 bs g1) (hn : B.host.notify g1 0 0x38 = (true, g2)) :
    ∃ s1, enterArray A s bs.length = .run s1 ∧
      (enterArray B (s.swap s.buf g) bs.length).andThen (exec B (2 * bs.length)) =
        .run { s1.swap s1.buf g2 with opt := false } ∧
      s1.buf = splice s.buf s.cursor bs ∧ s1.cursor = s.cursor + bs.length ∧ s1.ip = s.ip + 4 := by
  have h0 : bs.length ≠ 0 := by simpa using hne
  refine ⟨_, enter_bulk hop hat h0 hroom (splice_length hroom) hA, ?_, rfl, rfl, rfl⟩
  rw [enter_declined (s := s.swap s.buf g) hop (by rw [hprog]; exact hat) h0 hroom hl hB]
  simp only [Res.andThen]
  rw [byte_loop_enc B henc hop s.ip (by rw [hprog]; exact hat) s.loops bs _ g1 g2 hne hlen htr hbit rfl rfl hroom hsup
    hn]
  rfl

/-- C17, decoding: the packet bytes the bulk host finds at its pointer are those the other host is given one at a
time, and both go on from the same place. Missing: as for encoding. -/
theorem C17_bulk_decode_partial (A : Env σ) (B : Env τ) (hprog : B.prog = A.prog) (henc : B.enc = false)
    (s : St σ) (g g0 g1 g2 : τ) (h : σ) (op k0 k1 : Byte) (bs : List Byte)
    (hop : op = 0x10 ∨ op = 0x14) (hat : At A.prog s.ip [op, k0, k1, 0x38])
    (hne : bs ≠ []) (hlen : bs.length < 0xFFFFFFFF) (htr : s.trans = .none) (hbit : s.bit = 0)
    (hpk : slice s.buf s.cursor bs.length = some bs) (hl : s.loops.length < 8)
    (hA : A.host.bytesAt s.host (keyNum k0 k1) 0x39 s.be s.buf s.cursor = (true, s.buf, h))
    (hB : B.host.bytesAt g (keyNum k0 k1) 0x39 s.be s.buf s.cursor = (false, s.buf, g0))
    (hacc : Accepts B.host (keyNum k0 k1) op g0 bs g1) (hn : B.host.notify g1 0 0x38 = (true, g2)) :
    ∃ s1, enterArray A s bs.length = .run s1 ∧
      (enterArray B (s.swap s.buf g) bs.length).andThen (exec B (2 * bs.length)) =
        .run { s1.swap s1.buf g2 with opt := false } ∧
      s1.buf = s.buf ∧ s1.cursor = s.cursor + bs.length ∧ s1.ip = s.ip + 4 := by
  have h0 : bs.length ≠ 0 := by simpa using hne
  have hroom := (slice_eq_some.1 hpk).1
  refine ⟨_, enter_bulk hop hat h0 hroom rfl hA, ?_, rfl, rfl, rfl⟩
  rw [enter_declined (s := s.swap s.buf g) hop (by rw [hprog]; exact hat) h0 hroom hl hB]
  simp only [Res.andThen]
  rw [byte_loop_dec B henc hop s.ip (by rw [hprog]; exact hat) s.loops bs _ g1 g2 hne hlen htr hbit rfl rfl hpk hacc hn]
  rfl

/-- A host like `Demo.giver` that takes the bulk call, writing its remaining values. -/
def Demo.bulk : Host Demo.Tape :=
  { Demo.giver with
    bytesAt := fun t _ _ _ buf p => (true, splice buf p (t.inp.map (·.setWidth 8)), { t with inp := [] }) }

/-- The hypotheses are met by a three-byte array with a length prefix: both hosts produce the same packet. -/
example :
    Demo.obs (exec { Demo.env [0x35, 1, 0, 0x10, 2, 0, 0x38] true with host := Demo.bulk } 9
      (Demo.start [0, 0, 0, 0, 0] { inp := [3, 10, 20, 30] })) =
      .stopped .ok [3, 10, 20, 30, 0] 4 0 { log := [(1, 0x35, 3)] } ∧
    Demo.obs (exec (Demo.env [0x35, 1, 0, 0x10, 2, 0, 0x38] true) 9
      (Demo.start [0, 0, 0, 0, 0] { inp := [3, 10, 20, 30] })) =
      .stopped .ok [3, 10, 20, 30, 0] 4 0
        { log := [(1, 0x35, 3), (2, 0x10, 10), (2, 0x10, 20), (2, 0x10, 30), (0, 0x38, 0)] } := by decide +kernel

/-- C17 is false when a transform is pending: the loop applies it to the first element, the bulk path does not, and
leaves it for the next field. `TRANS_ADD 5`, an array of two bytes, one more byte. -/
theorem C17_false_transform :
    let prog : List Byte := [0x45, 5, 0, 0, 0, 0, 0, 0, 0, 0x34, 1, 0, 2, 0, 0, 0, 0x10, 2, 0, 0x38]
    Demo.obs (exec { Demo.env prog true with host := Demo.bulk } 9 (Demo.start [0, 0] { inp := [2, 10, 20] })) =
      .stopped .ok [10, 20] 2 0 { log := [(1, 0x34, 2)] } ∧
    (match Demo.obs (exec (Demo.env prog true) 9 (Demo.start [0, 0] { inp := [2, 10, 20] })) with
     | .stopped e buf cur _ _ => (e, buf, cur)
     | _ => (.oob, [], 0)) = (.ok, [5, 20], 2) := by decide +kernel

/-! ### C18 -/

/-- Bytes that `skip_loop_body` takes for the start or the end of an array. -/
def bracket (b : Byte) : Bool := isArrOp b || b == 0x38

theorem Nested.append {xs ys : List Byte} (hx : Nested xs) (hy : Nested ys) : Nested (xs ++ ys) := by
  induction hx with
  | nil => exact hy
  | byte b bs h1 h2 _ ih => exact .byte b _ h1 h2 ih
  | arr b xs zs h1 h2 _ _ ih2 =>
    have := Nested.arr b xs (zs ++ ys) h1 h2 ih2
    simpa using this

theorem nested_of_free {bs : List Byte} (h : ∀ b ∈ bs, bracket b = false) : Nested bs := by
  induction bs with
  | nil => exact .nil
  | cons b bs ih =>
    have hb := h b (by simp)
    simp only [bracket, Bool.or_eq_false_iff, beq_eq_false_iff_ne] at hb
    exact .byte b bs hb.1 hb.2 (ih fun c hc => h c (by simp [hc]))

/-- Operand bytes of a description: keys, lengths, limits, counts and so on; everything that is not an opcode. -/
def Fld.operands : Fld → List Byte
  | .seq a b => a.operands ++ b.operands
  | .scalar _ k0 k1 => [k0, k1]
  | .range t k0 k1 lo hi => [k0, k1] ++ (leBytes t.size lo ++ leBytes t.size hi)
  | .enum t k0 k1 vals => [k0, k1] ++ (leBytes 2 (BitVec.ofNat 64 vals.length) ++ vals.flatMap (leBytes t.size))
  | .const t k0 k1 c => [k0, k1] ++ leBytes t.size c
  | .strNull k0 k1 m0 m1 => [k0, k1, m0, m1]
  | .strPre _ k0 k1 => [k0, k1]
  | .bitU k0 k1 n => [k0, k1, n]
  | .bitI k0 k1 n => [k0, k1, n]
  | .bitBool k0 k1 => [k0, k1]
  | .pad n => [n]
  | .fill b => [b]
  | .version b => [b]
  | .name b0 b1 => [b0, b1]
  | .struct k0 k1 f => [k0, k1] ++ f.operands
  | .arrFixed k0 k1 n f => [k0, k1] ++ leBytes 4 n ++ f.operands
  | .arrPre _ k0 k1 f => [k0, k1] ++ f.operands
  | .arrDyn k0 k1 r0 r1 f => [k0, k1, r0, r1] ++ f.operands
  | .crc c => leBytes c.size c.poly ++ (leBytes c.size c.init ++ (leBytes c.size c.xorout ++ [c.flags]))
  | _ => []

/-- Scalar fields name scalar opcodes. -/
def Fld.wf : Fld → Prop
  | .seq a b => a.wf ∧ b.wf
  | .scalar op _ _ => scalarWidth op.toNat ≠ none
  | .struct _ _ f | .arrFixed _ _ _ f | .arrPre _ _ _ f | .arrDyn _ _ _ _ f => f.wf
  | _ => True

theorem tag_free (t : Ty) : bracket t.tag = false := by cases t <;> rfl

/-- If no operand byte looks like an array instruction, the code is properly nested. -/
theorem nested_code (f : Fld) (hw : f.wf) (h : ∀ b ∈ f.operands, bracket b = false) : Nested f.code := by
  induction f with
  | empty => exact .nil
  | seq a b iha ihb =>
    exact (iha hw.1 fun b hb => h b (by simp [Fld.operands, hb])).append
      (ihb hw.2 fun b hb => h b (by simp [Fld.operands, hb]))
  | scalar op k0 k1 =>
    have key : ∀ i : Fin 256, scalarWidth i.val ≠ none → bracket (BitVec.ofFin i) = false := by decide +kernel
    have hop := key op.toFin hw
    apply nested_of_free
    simp only [Fld.operands, Fld.code, List.forall_mem_cons] at h ⊢
    exact ⟨hop, h⟩
  | range t k0 k1 lo hi =>
    apply nested_of_free
    simp only [Fld.operands, Fld.code, rangeCode, List.forall_mem_cons, List.forall_mem_append] at h ⊢
    have := tag_free t
    simp_all [bracket, isArrOp]
  | enum t k0 k1 vals =>
    apply nested_of_free
    simp only [Fld.operands, Fld.code, enumCode, List.forall_mem_cons, List.forall_mem_append] at h ⊢
    exact ⟨⟨tag_free t, h.1⟩, ⟨rfl, tag_free t, by simp⟩, h.2⟩
  | const t k0 k1 c =>
    apply nested_of_free
    simp only [Fld.operands, Fld.code, constCode, List.forall_mem_cons, List.forall_mem_append] at h ⊢
    have := tag_free t
    simp_all [bracket, isArrOp]
  | strNull k0 k1 m0 m1 =>
    apply nested_of_free
    simp only [Fld.operands, Fld.code, strNullCode, List.forall_mem_cons] at h ⊢
    exact ⟨rfl, h⟩
  | strPre p k0 k1 =>
    apply nested_of_free
    simp only [Fld.operands, Fld.code, List.forall_mem_cons] at h ⊢
    exact ⟨by cases p <;> rfl, h⟩
  | bitU | bitI | bitBool | pad | fill | version | name =>
    apply nested_of_free
    simp only [Fld.operands, Fld.code, List.forall_mem_cons] at h ⊢
    exact ⟨rfl, h⟩
  | setLE | setBE | nop | enterBit | exitBit =>
    apply nested_of_free
    simp only [Fld.code, List.forall_mem_cons]
    exact ⟨rfl, by simp⟩
  | struct k0 k1 f ih =>
    have h1 := ih hw fun b hb => h b (by simp [Fld.operands, hb])
    refine (nested_of_free (bs := [0x03, k0, k1]) ?_).append (h1.append (nested_of_free (bs := [0x04]) ?_))
    · simp only [Fld.operands, List.forall_mem_append, List.forall_mem_cons] at h ⊢
      exact ⟨rfl, h.1⟩
    · simp; rfl
  | arrFixed k0 k1 n f ih =>
    have h1 := ih hw fun b hb => h b (by simp [Fld.operands, hb])
    have h2 : Nested ([k0, k1] ++ leBytes 4 n) := nested_of_free fun b hb => h b (by
      simp only [Fld.operands, List.mem_append] at hb ⊢; exact .inl hb)
    have := Nested.arr 0x34 _ [] rfl (h2.append h1) .nil
    simpa [Fld.code] using this
  | arrPre p k0 k1 f ih =>
    have h1 := ih hw fun b hb => h b (by simp [Fld.operands, hb])
    have h2 : Nested [k0, k1] := nested_of_free fun b hb => h b (by
      simp only [Fld.operands, List.mem_append] at hb ⊢; exact .inl hb)
    have := Nested.arr p.arrOp _ [] (by cases p <;> rfl) (h2.append h1) .nil
    simpa [Fld.code] using this
  | arrDyn k0 k1 r0 r1 f ih =>
    have h1 := ih hw fun b hb => h b (by simp [Fld.operands, hb])
    have h2 : Nested [k0, k1, r0, r1] := nested_of_free fun b hb => h b (by
      simp only [Fld.operands, List.mem_append] at hb ⊢; exact .inl hb)
    have := Nested.arr 0x3B _ [] rfl (h2.append h1) .nil
    simpa [Fld.code] using this
  | crc c =>
    apply nested_of_free
    simp only [Fld.operands, Fld.code, crcCode, List.forall_mem_cons, List.forall_mem_append] at h ⊢
    refine ⟨⟨?_, by simp⟩, h⟩
    split <;> rfl

/-- C18 for fixed arrays of any description none of whose operand bytes looks like an array instruction: with a count
of zero the next instruction is the one behind the array, nothing is written, and no loop is left open.
Missing: bodies with such operand bytes, for which the claim is false (`C18_false_key`). -/
theorem C18_empty_fixed_partial (E : Env σ) (s : St σ) (k0 k1 : Byte) (n : Word) (f : Fld) (h : σ) (w : Word)
    (hw : f.wf) (hf : ∀ b ∈ f.operands, bracket b = false) (hat : At E.prog s.ip (Fld.arrFixed k0 k1 n f).code)
    (hn : n.toNat < 2 ^ 32) (hhost : E.host.scalar s.host (keyNum k0 k1) 0x34 n = (true, w, h))
    (hzero : truncB 4 w = 0) :
    step E s = .run { s with ip := s.ip + (Fld.arrFixed k0 k1 n f).code.length, cursor := s.fieldPos, bit := 0,
                             host := h } := by
  have hs := arrFixed_step hat.left hn hhost
  rw [hzero] at hs
  have hsk := skipBody_nested (nested_code f hw hf) hat.right
  refine hs.trans ((enter_zero (s := { s with ip := s.ip + 7, cursor := s.fieldPos, bit := 0, host := h })
    (k := _) (by simpa using hsk)).trans ?_)
  simp [Fld.code]
  omega


theorem arrPre_dec {E : Env σ} {s : St σ} (henc : E.enc = false) {p : Pre} {k0 k1 : Byte} {v w : Word} {h : σ}
    (hat : At E.prog s.ip [p.arrOp, k0, k1]) (hf : FieldAt s.be s.buf s.fieldPos p.size v.toNat)
    (hv : v.toNat < 2 ^ (8 * p.size)) (hroom : s.fieldPos + p.size ≤ s.buf.length)
    (hhost : E.host.scalar s.host (keyNum k0 k1) p.arrOp v = (true, w, h)) :
    step E s = enterArray E { s with ip := s.ip + 3, cursor := s.fieldPos + p.size, bit := 0, host := h }
      (truncB p.size w).toNat := by
  have hal : aligns p.arrOp = true := by cases p <;> rfl
  rw [step_pre hat, pre_aligned _ s hal, arrPre_exec]
  unfold handleArrPre
  refine fet_ok hat.tail rfl (by omega) ?_
  rw [leWord_key]
  refine (if_neg (by simp [henc])).trans ?_
  refine (if_neg (by simp only; omega)).trans ?_
  refine rdAt_field (w := v) p.size_pos (by have := p.size_le; omega) hv hf ?_
  exact callScalar_ok hhost rfl

/-- C18 for length-prefixed arrays: encoding writes the zero prefix and goes on behind the array, decoding a zero prefix
does the same. Missing: as for fixed arrays. -/
theorem C18_empty_prefixed_partial (E : Env σ) (s : St σ) (p : Pre) (k0 k1 : Byte) (f : Fld) (h : σ)
    (hw : f.wf) (hf : ∀ b ∈ f.operands, bracket b = false) (hat : At E.prog s.ip (Fld.arrPre p k0 k1 f).code)
    (hroom : s.fieldPos + p.size ≤ s.buf.length)
    (hdec : E.enc = false → FieldAt s.be s.buf s.fieldPos p.size 0)
    (hhost : E.host.scalar s.host (keyNum k0 k1) p.arrOp 0 = (true, 0, h)) :
    ∃ b, FieldAt s.be b s.fieldPos p.size 0 ∧ (E.enc = false → b = s.buf) ∧
    step E s = .run { s with ip := s.ip + (Fld.arrPre p k0 k1 f).code.length, buf := b,
                             cursor := s.fieldPos + p.size, bit := 0, host := h } := by
  have ht : truncB p.size (0 : Word) = 0 := truncB_of_lt _ _ (Nat.two_pow_pos _)
  have hsk := skipBody_nested (nested_code f hw hf) hat.right
  have fin : ∀ b, enterArray E { s with ip := s.ip + 3, buf := b, cursor := s.fieldPos + p.size, bit := 0, host := h }
      0 = .run { s with ip := s.ip + (Fld.arrPre p k0 k1 f).code.length, buf := b,
                        cursor := s.fieldPos + p.size, bit := 0, host := h } := by
    intro b
    refine (enter_zero (k := _) (by simpa using hsk)).trans ?_
    simp [Fld.code]
    omega
  cases henc : E.enc with
  | true =>
    obtain ⟨b, hb, hst, hs⟩ := arrPre_enc henc hat.left hroom hhost
    rw [ht] at hs hst
    exact ⟨b, fieldAt_store hst, by simp, hs.trans (fin b)⟩
  | false =>
    have hs := arrPre_dec (v := 0) henc hat.left (hdec henc) (Nat.two_pow_pos _) hroom hhost
    rw [ht] at hs
    exact ⟨s.buf, hdec henc, fun _ => rfl, hs.trans (fin s.buf)⟩

/-- C18 for host-counted arrays. Missing: as for fixed arrays. -/
theorem C18_empty_dynamic_partial (E : Env σ) (s : St σ) (k0 k1 r0 r1 : Byte) (f : Fld) (h h2 : σ)
    (hw : f.wf) (hf : ∀ b ∈ f.operands, bracket b = false) (hat : At E.prog s.ip (Fld.arrDyn k0 k1 r0 r1 f).code)
    (hq : E.host.scalar s.host (keyNum r0 r1) 0x06 0 = (true, 0, h))
    (hhost : E.host.scalar h (keyNum k0 k1) 0x3B 0 = (true, 0, h2)) :
    step E s = .run { s with ip := s.ip + (Fld.arrDyn k0 k1 r0 r1 f).code.length, cursor := s.fieldPos, bit := 0,
                             host := h2 } := by
  have hs := arrDyn_step hat.left hq (by decide) hhost
  have hsk := skipBody_nested (nested_code f hw hf) hat.right
  refine hs.trans ((enter_zero (s := { s with ip := s.ip + 5, cursor := s.fieldPos, bit := 0, host := h2 })
    (k := _) (by simpa using hsk)).trans ?_)
  simp [Fld.code]
  omega

/-- The hypotheses are met by an array of structs with a nested array; execution goes on with the byte behind it. -/
example :
    let f : Fld := .struct 2 0 (.seq (.scalar 0x10 3 0) (.arrPre .p1 4 0 (.scalar 0x11 5 0)))
    f.wf ∧ (∀ b ∈ f.operands, bracket b = false) ∧
    Demo.obs (exec (Demo.env ((Fld.arrFixed 1 0 0 f).code ++ [0x10, 6, 0]) false) 5 (Demo.start [7] {})) =
      .stopped .ok [7] 1 0 { log := [(1, 0x34, 0), (6, 0x10, 7)] } := by
  exact ⟨⟨by simp [Fld.wf, scalarWidth], by simp [Fld.wf, scalarWidth]⟩, by decide, by decide +kernel⟩

/-- C18 is false. In an empty array of bytes whose key is 0x0238 the scan takes the low byte of the key for the end
marker and goes on inside the body: the high byte, 2, is executed as SET_ENDIAN_BE, the real end marker then fails, and a
good packet is refused. If the key is 0x35 the scan takes it for the start of an array,
misses the end marker and runs to the end of the program: the field behind the array is lost, and the result is
"OK". -/
theorem C18_false_key :
    (∃ s, exec (Demo.env ((Fld.arrFixed 1 0 0 (.scalar 0x10 0x38 2)).code ++ [0x11, 6, 0]) false) 1
      (Demo.start [7, 0] {}) = .run s ∧ s.ip = 9 ∧ (Fld.arrFixed 1 0 0 (.scalar 0x10 0x38 2)).code.length = 11) ∧
    Demo.obs (exec (Demo.env ((Fld.arrFixed 1 0 0 (.scalar 0x10 0x38 2)).code ++ [0x11, 6, 0]) false) 9
      (Demo.start [7, 0] {})) = .stopped .invalidOp [7, 0] 0 0 { log := [(1, 0x34, 0)] } ∧
    Demo.obs (exec (Demo.env ((Fld.arrFixed 1 0 0 (.scalar 0x10 0x35 0)).code ++ [0x10, 6, 0]) false) 9
      (Demo.start [7] {})) = .stopped .ok [7] 0 0 { log := [(1, 0x34, 0)] } := by
  refine ⟨⟨_, rfl, by decide +kernel, by decide +kernel⟩, by decide +kernel, by decide +kernel⟩

end Cnd
