import Verif.StrictRuns
import Verif.Props.Prefix
/-
  C68: whatever the decoder accepts is a record.
-/

namespace Cnd

/-- C68, the full claim: if decoding some bytes with the program of a packet description succeeds, what has been reported is a
record of the description. -/
def AcceptsRecords (fl : FloatOps) (K : View) (f : Sch) : Prop :=
  ∀ (old : St (List Ev)) (buf : List Byte) (n : Nat) (sd : St (List Ev)),
    exec { prog := f.code, enc := false, host := taker K, fl := fl } n (initSt old buf []) = .stop .ok sd →
    ∃ q, SRec fl K f ⟨0, false, []⟩ q ∧ q.evs = vis K sd.host

/-- **C68, partial.** Let a packet description pass the check `Sch.exact`, and let decoding any bytes with its program end with success. If no
array count reported is 0xFFFFFFFF, no string reported contains NUL, and no NUL-terminated one is longer than its limit, then what has been reported is
a record of the description, and decoding stopped where that record ends; or the record ends behind the packet, because optional fields,
bit fields or padding were missing.
The check (Strict.lean) refuses what makes the claim false: range and enum checks of fields that may be missing, constants whose keys are
not marked as constants, byte order changes within a byte, multiplying with or dividing by zero, transforms of u64 fields, scalings, computed fields
within a byte, and array bodies that the skipping of empty arrays misreads (C18). -/
theorem C68_accepted_partial (fl : FloatOps) (K : View) (L : Nat → Nat) (f : Sch) (hx : f.exact K.hid L = true)
    (hlen : f.code.length < 2 ^ 31) (old : St (List Ev)) (buf : List Byte) (n : Nat) (sd : St (List Ev))
    (h : exec { prog := f.code, enc := false, host := taker K, fl := fl } n (initSt old buf []) = .stop .ok sd)
    (hfine : ∀ e ∈ vis K sd.host, e.fine L = true) :
    ∃ q, SRec fl K f ⟨0, false, []⟩ q ∧ q.evs = vis K sd.host ∧
      (q.pos = 8 * sd.cursor + sd.bit ∨ 8 * buf.length < q.pos) := by
  obtain ⟨r, hr⟩ := Option.isSome_iff_exists.1 hx
  obtain ⟨s', q, r1, p1, f1, n', ha⟩ := sch_snd (K := K) (L := L) (E := { prog := f.code, enc := false, host := taker K, fl := fl }) (sf := sd)
    rfl rfl hfine hlen f .start r hr (initSt old buf []) ⟨0, false, []⟩ ⟨[], by simp [initSt]⟩
    ⟨by simp [initSt], .inl rfl, rfl, rfl, rfl, fun e => (by cases e), fun m e => (by cases e; rfl), fun b e => (by cases e; rfl)⟩ ⟨n, h⟩
  have hend : f.code[s'.ip]? = none := by
    rw [p1.ip]; simp [initSt]
  have hs : s' = sd := by
    cases n' with
    | zero => cases ha
    | succ n' =>
      unfold exec at ha
      have : step { prog := f.code, enc := false, host := taker K, fl := fl } s' = .stop .ok s' := by
        unfold step
        dsimp only
        rw [hend]
      rw [this] at ha
      injection ha with _ h2
  subst hs
  refine ⟨q, r1, f1.evs.symm, ?_⟩
  have hl : s'.buf.length = buf.length := p1.len
  rw [← hl]
  rcases f1.pos with h | h
  · exact .inl h.symm
  · exact .inr h

/-- **C68, partial**: so what has been decoded can be sent again. Encoding what was reported, into any large enough buffer, succeeds and
uses all of it, and decoding the packet produced, whatever follows it, reports the same again. -/
theorem C68_resend_partial (fl : FloatOps) (K : View) (L : Nat → Nat) (f : Sch) (hx : f.exact K.hid L = true) (hdep : f.depth ≤ 8)
    (hlen : f.code.length < 2 ^ 31) (old : St (List Ev)) (buf : List Byte) (n : Nat) (sd : St (List Ev))
    (h : exec { prog := f.code, enc := false, host := taker K, fl := fl } n (initSt old buf []) = .stop .ok sd)
    (hfine : ∀ e ∈ vis K sd.host, e.fine L = true) :
    ∃ size, ∀ (old1 : St Tape) (buf1 : List Byte), size ≤ buf1.length →
      ∃ m se, exec { prog := f.code, enc := true, host := giver K, fl := fl } m (initSt old1 buf1 ⟨[], vis K sd.host⟩) = .stop .ok se ∧
        se.host = ⟨vis K sd.host, []⟩ ∧ ∀ (old2 : St (List Ev)) (rest : List Byte),
          ∃ sd2, exec { prog := f.code, enc := false, host := taker K, fl := fl } m (initSt old2 (se.packet ++ rest) []) = .stop .ok sd2 ∧
            vis K sd2.host = vis K sd.host := by
  obtain ⟨q, h1, h2, _⟩ := C68_accepted_partial fl K L f hx hlen old buf n sd h hfine
  refine ⟨q.pos, fun old1 buf1 hb => ?_⟩
  obtain ⟨m, se, e1, e2, _, _, _, e6⟩ := C61_packet K fl f hdep hlen q h1 old1 buf1 (by omega)
  rw [h2] at e1 e2
  refine ⟨m, se, e1, e2, fun old2 rest => ?_⟩
  obtain ⟨sd2, d1, d2, _⟩ := e6 old2 rest
  exact ⟨sd2, d1, d2.trans h2⟩

/-! ### Examples -/

/-- What decoding has reported, if it succeeded. -/
def heardB (evs : List Ev) (c o : Nat) : Res (List Ev) → Bool
  | .stop .ok s => decide (s.host = evs ∧ s.cursor = c ∧ s.bit = o)
  | _ => false

theorem heardB_iff {evs : List Ev} {c o : Nat} {r : Res (List Ev)} (h : heardB evs c o r = true) :
    ∃ s, r = .stop .ok s ∧ s.host = evs ∧ s.cursor = c ∧ s.bit = o := by
  unfold heardB at h
  split at h
  · exact ⟨_, rfl, of_decide_eq_true h⟩
  · cases h

/-- The description of C61's example passes the check: a big-endian transformed field, an array with a switch in it, a
condition, a computed field. -/
example : Demo.sampleSch.exact (fun _ => false) (fun _ => 0) = true := by decide +kernel

/-- Bytes it accepts. -/
example : ∃ sd, exec { prog := Demo.sampleSch.code, enc := false, host := taker (.plain fun _ => false), fl := demoP.fl } 40
      (initSt (zeroSt []) [2, 0, 90, 2, 1, 1, 2, 9, 7, 6, 0xAA] []) = .stop .ok sd ∧
    vis (.plain fun _ => false) sd.host = Demo.sampleSchEvs ∧ sd.cursor = 10 ∧ sd.bit = 0 := by
  obtain ⟨s, h1, h2, h3, h4⟩ := heardB_iff (evs := Demo.sampleSchEvs) (c := 10) (o := 0)
    (r := exec { prog := Demo.sampleSch.code, enc := false, host := taker (.plain fun _ => false), fl := demoP.fl } 40
      (initSt (zeroSt []) [2, 0, 90, 2, 1, 1, 2, 9, 7, 6, 0xAA] [])) (by decide +kernel)
  exact ⟨s, h1, by rw [h2]; decide, h3, h4⟩

/-- ... and the events are fine. -/
example : ∀ e ∈ Demo.sampleSchEvs, e.fine (fun _ => 0) = true := by decide

/-- A dividing transform: the remainder is gone, but what is reported is a record. -/
example : (Sch.trans .div 10 false .u8 0 0).exact (fun _ => false) (fun _ => 0) = true := by decide

/-! ### What the claim fails on -/

/-- `string s max 2`: the decoder takes "abc", hands the host a string of three characters and takes the `c` for the end. -/
def longStr68 : Sch := .fld (.strNull 0 0 2 0)

theorem C68_false_string : ¬ AcceptsRecords demoP.fl (.plain fun _ => false) longStr68 := by
  intro h
  obtain ⟨s, h1, h2, _⟩ := heardB_iff (evs := [.str 0 0x30 [0x61, 0x62, 0x63]]) (c := 3) (o := 0)
    (r := exec { prog := longStr68.code, enc := false, host := taker (.plain fun _ => false), fl := demoP.fl } 5
      (initSt (zeroSt []) [0x61, 0x62, 0x63, 0] [])) (by decide +kernel)
  obtain ⟨q, hq, he⟩ := h _ _ _ _ h1
  unfold longStr68 SRec Rec at hq
  obtain ⟨bs, _, hb, rfl⟩ := hq
  rw [h2] at he
  have : bs = [0x61, 0x62, 0x63] := by
    have he' : ([] : List Ev) ++ [Ev.str 0 0x30 bs] = [.str 0 0x30 [0x61, 0x62, 0x63]] := he
    simpa using he'
  subst this
  exact absurd hb (by decide)

/-- `u8 xs[] prefix u32`: a count of 0xFFFFFFFF is taken for "to the end of the packet"; one element follows. -/
def openArr68 : Sch := .fld (.arrPre .p4 0 0 (.scalar 0x10 1 0))

theorem C68_false_count : ¬ AcceptsRecords demoP.fl (.plain fun _ => false) openArr68 := by
  intro h
  obtain ⟨s, h1, h2, _⟩ := heardB_iff (evs := [.num 0 0x37 0xFFFFFFFF, .num 1 0x10 5, .note 0 0x38]) (c := 5) (o := 0)
    (r := exec { prog := openArr68.code, enc := false, host := taker (.plain fun _ => false), fl := demoP.fl } 5
      (initSt (zeroSt []) [0xFF, 0xFF, 0xFF, 0xFF, 5] [])) (by decide +kernel)
  obtain ⟨q, hq, he⟩ := h _ _ _ _ h1
  unfold openArr68 SRec Rec at hq
  obtain ⟨n, _, hn, _, hb⟩ := hq
  have hv : vis (.plain fun _ => false) [Ev.num 0 0x37 0xFFFFFFFF, .num 1 0x10 5, .note 0 0x38] =
      [Ev.num 0 0x37 0xFFFFFFFF, .num 1 0x10 5, .note 0 0x38] := by decide
  rw [h2, hv] at he
  obtain ⟨es, hes⟩ := (fwd_arr (rec_fwd (K := .plain fun _ => false) (.scalar 0x10 1 0)) _ _ _ _ hb).2
  rw [hes] at he
  have he' : [Ev.num 0 0x37 n] ++ es = [.num 0 0x37 0xFFFFFFFF, .num 1 0x10 5, .note 0 0x38] := he
  simp only [List.cons_append, List.nil_append, List.cons.injEq, Ev.num.injEq, true_and] at he'
  rw [he'.1] at hn
  exact absurd hn (by decide)

/-- `u8 n; @optional @range(5, 10) u8 x;`: if `x` is missing, the check of its range reads `n` once more; 7 will do, and `x`
is reported as 0. -/
def optRange68 : Sch := .seq (.fld (.scalar 0x10 0 0)) (.seq .opt (.fld (.range .u8 1 0 5 10)))

theorem C68_false_optional : ¬ AcceptsRecords demoP.fl (.plain fun _ => false) optRange68 := by
  intro h
  obtain ⟨s, h1, h2, _⟩ := heardB_iff (evs := [.num 0 0x10 7, .num 1 0x10 0]) (c := 1) (o := 0)
    (r := exec { prog := optRange68.code, enc := false, host := taker (.plain fun _ => false), fl := demoP.fl } 5
      (initSt (zeroSt []) [7] [])) (by decide +kernel)
  obtain ⟨q, hq, he⟩ := h _ _ _ _ h1
  unfold optRange68 at hq
  simp only [SRec, Rec] at hq
  obtain ⟨_, ⟨n, v, _, _, _, rfl⟩, _, rfl, w, _, _, _, hw, _, _, rfl⟩ := hq
  have hv : vis (.plain fun _ => false) [Ev.num 0 0x10 7, .num 1 0x10 0] = [Ev.num 0 0x10 7, .num 1 0x10 0] := by decide
  rw [h2, hv] at he
  have he' : [Ev.num 0 0x10 v] ++ [Ev.num 1 0x10 w] = [.num 0 0x10 7, .num 1 0x10 0] := he
  simp only [List.cons_append, List.nil_append, List.cons.injEq, Ev.num.injEq, true_and, and_true] at he'
  rw [he'.2] at hw
  exact absurd hw (by decide)

end Cnd
