import Verif.Props.EndToEnd
/-
  C67: packets of one description are self-delimiting and determine their record.
-/

namespace Cnd

/-- `pkt` is what encoding the record `q` of the packet `f` leaves in some buffer that can hold it. -/
def Encoded (fl : FloatOps) (K : View) (f : Sch) (q : P) (pkt : List Byte) : Prop :=
  SRec fl K f ⟨0, false, []⟩ q ∧ ∃ (old : St Tape) (buf : List Byte) (n : Nat) (e : Err) (sf : St Tape), q.pos ≤ 8 * buf.length ∧
    exec { prog := f.code, enc := true, host := giver K, fl := fl } n (initSt old buf ⟨[], q.evs⟩) = .stop e sf ∧ sf.packet = pkt

theorem exec_det {σ : Type} {E : Env σ} {s s1 s2 : St σ} {n m : Nat} {e1 e2 : Err} (h1 : exec E n s = .stop e1 s1)
    (h2 : exec E m s = .stop e2 s2) : e1 = e2 ∧ s1 = s2 := by
  rcases Nat.le_total n m with hl | hl <;> obtain ⟨d, rfl⟩ := Nat.le.dest hl
  · rw [exec_add, h1] at h2; cases h2; exact ⟨rfl, rfl⟩
  · rw [exec_add, h2] at h1; cases h1; exact ⟨rfl, rfl⟩

/-- Such a packet is as long as the record says, and decoding it, whatever follows, reports the record. -/
theorem Encoded.reads {fl : FloatOps} {K : View} {f : Sch} {q : P} {pkt : List Byte} (hdep : f.depth ≤ 8)
    (hlen : f.code.length < 2 ^ 31) (h : Encoded fl K f q pkt) :
    pkt.length = (q.pos + 7) / 8 ∧ ∀ (old : St (List Ev)) (rest : List Byte),
      ∃ n sd, exec { prog := f.code, enc := false, host := taker K, fl := fl } n (initSt old (pkt ++ rest) []) = .stop .ok sd ∧
        vis K sd.host = q.evs ∧ 8 * sd.cursor + sd.bit = q.pos := by
  obtain ⟨hr, old, buf, n, e, sf, hb, he, rfl⟩ := h
  obtain ⟨m, sf', h1, _, h3, h4, h5, h6⟩ := C61_packet K fl f hdep hlen q hr old buf hb
  obtain ⟨rfl, rfl⟩ := exec_det h1 he
  refine ⟨?_, fun old' rest => ?_⟩
  · unfold St.packet
    rw [List.length_take]
    split <;> omega
  · obtain ⟨sd, d1, d2, d3, d4, _⟩ := h6 old' rest
    exact ⟨m, sd, d1, d2, by rw [d3, d4, h3]⟩

/-- **C67**: packets of one description are self-delimiting and determine their record. If two packets, each followed by
anything, are the same bytes, then they are the same packet, of the same record. So different records have different packets, and
no packet is the beginning of another. -/
theorem C67_prefix_free (fl : FloatOps) (K : View) (f : Sch) (hdep : f.depth ≤ 8) (hlen : f.code.length < 2 ^ 31) (q q' : P)
    (pkt pkt' rest rest' : List Byte) (h : Encoded fl K f q pkt) (h' : Encoded fl K f q' pkt')
    (e : pkt ++ rest = pkt' ++ rest') : q.evs = q'.evs ∧ pkt = pkt' ∧ rest = rest' := by
  obtain ⟨l, r⟩ := h.reads hdep hlen
  obtain ⟨l', r'⟩ := h'.reads hdep hlen
  obtain ⟨n, sd, d1, d2, d3⟩ := r (zeroSt []) rest
  obtain ⟨n', sd', d1', d2', d3'⟩ := r' (zeroSt []) rest'
  rw [e] at d1
  obtain ⟨_, rfl⟩ := exec_det d1 d1'
  exact ⟨d2.symm.trans d2', List.append_inj e (by rw [l, l', ← d3, ← d3'])⟩

/-- Packets one after the other. -/
inductive Stream (fl : FloatOps) (K : View) (f : Sch) : List (List Ev) → List Byte → Prop
  | nil : Stream fl K f [] []
  | cons (q : P) (pkt : List Byte) (qs : List (List Ev)) (bs : List Byte) : Encoded fl K f q pkt → Stream fl K f qs bs →
      Stream fl K f (q.evs :: qs) (pkt ++ bs)

/-- **C67**, for streams: packets sent one after the other, with nothing between them, can be told apart. Streams of as many records that are
the same bytes have the same records; and if no packet of the description is empty, the number of records follows from the bytes. -/
theorem C67_stream (fl : FloatOps) (K : View) (f : Sch) (hdep : f.depth ≤ 8) (hlen : f.code.length < 2 ^ 31)
    (qs qs' : List (List Ev)) (bs : List Byte) (h : Stream fl K f qs bs) (h' : Stream fl K f qs' bs) :
    (qs.length = qs'.length → qs = qs') ∧ ((∀ q, SRec fl K f ⟨0, false, []⟩ q → 0 < q.pos) → qs = qs') := by
  induction h generalizing qs' with
  | nil =>
    generalize hb : ([] : List Byte) = bs at h'
    cases h' with
    | nil => exact ⟨fun _ => rfl, fun _ => rfl⟩
    | cons q pkt qs bs h1 h2 =>
      have := congrArg List.length hb
      rw [List.length_append, (h1.reads hdep hlen).1] at this
      refine ⟨fun e => by simp at e, fun hp => ?_⟩
      have := hp q h1.1
      simp only [List.length_nil] at *
      omega
  | cons q pkt qs bs h1 h2 ih =>
    generalize hb : pkt ++ bs = all at h'
    cases h' with
    | nil =>
      have := congrArg List.length hb
      rw [List.length_append, (h1.reads hdep hlen).1] at this
      refine ⟨fun e => by simp at e, fun hp => ?_⟩
      have := hp q h1.1
      simp only [List.length_nil] at *
      omega
    | cons q' pkt' qs' bs' h1' h2' =>
      obtain ⟨e1, e2, e3⟩ := C67_prefix_free fl K f hdep hlen q q' pkt pkt' bs bs' h1 h1' hb
      subst e3
      obtain ⟨i1, i2⟩ := ih qs' h2'
      refine ⟨fun e => ?_, fun hp => ?_⟩
      · rw [e1, i1 (by simpa using e)]
      · rw [e1, i2 hp]

/-! ### An example: `packet P { string s prefix u8; u8 n; }` -/

def exSch67 : Sch := .seq (.fld (.strPre .p1 0 0)) (.fld (.scalar 0x10 1 0))

def exRec67 (s : List Byte) (n : Word) : P := ⟨8 * (s.length + 2), false, [.str 0 0x31 s, .num 1 0x10 n]⟩

theorem ex67_rec (s : List Byte) (n : Word) (hs : NulFree s) (hl : s.length < 256) (hn : n.toNat < 256) :
    SRec demoP.fl (.plain fun _ => false) exSch67 ⟨0, false, []⟩ (exRec67 s n) := by
  unfold exSch67
  simp only [SRec, Rec]
  refine ⟨_, ⟨s, hs, hl, rfl⟩, 1, n, rfl, ⟨hn, fun h => absurd h (by decide)⟩, rfl, ?_⟩
  unfold exRec67 P.bytes up8
  congr 1
  dsimp only [Pre.size]
  omega

def packetB {σ : Type} (b : List Byte) : Res σ → Bool
  | .stop .ok s => decide (s.packet = b)
  | _ => false

theorem packetB_iff {σ : Type} {b : List Byte} {r : Res σ} (h : packetB b r = true) : ∃ s, r = .stop .ok s ∧ s.packet = b := by
  unfold packetB at h
  split at h
  · exact ⟨_, rfl, of_decide_eq_true h⟩
  · cases h

/-- Two packets of different lengths, met in one stream. -/
example : Stream demoP.fl (.plain fun _ => false) exSch67 [(exRec67 [0x61, 0x62] 7).evs, (exRec67 [] 9).evs]
    ([2, 0x61, 0x62, 7] ++ ([0, 9] ++ [])) := by
  have w : ∀ q pkt, packetB pkt (exec { prog := exSch67.code, enc := true, host := giver (.plain fun _ => false), fl := demoP.fl } 3
        (initSt (zeroSt ⟨[], []⟩) [0, 0, 0, 0] ⟨[], q.evs⟩)) = true → q.pos ≤ 32 →
      SRec demoP.fl (.plain fun _ => false) exSch67 ⟨0, false, []⟩ q → Encoded demoP.fl (.plain fun _ => false) exSch67 q pkt := by
    intro q pkt h hp hr
    obtain ⟨s, e, hb⟩ := packetB_iff h
    exact ⟨hr, zeroSt ⟨[], []⟩, [0, 0, 0, 0], 3, .ok, s, hp, e, hb⟩
  refine .cons (exRec67 [0x61, 0x62] 7) _ _ _ (w _ _ (by decide +kernel) (by decide) (ex67_rec _ _ (by unfold NulFree; decide) (by decide) (by decide)))
    (.cons (exRec67 [] 9) _ _ _ (w _ _ (by decide +kernel) (by decide) (ex67_rec _ _ (by unfold NulFree; decide) (by decide) (by decide))) .nil)

end Cnd
