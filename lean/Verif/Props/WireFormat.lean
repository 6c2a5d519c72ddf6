/-
  C79: the wire format of whole packets.
-/
import Verif.Props.Sch
import Verif.Props.EndToEnd
import Verif.Props.Accept

namespace Cnd

/-- C79, encoding: the packet made from a record that fits a description, whatever follows it, holds each part of the record where
the wire format puts it. `SWire` names no function of the model but the checksum's polynomial division. -/
theorem C79_encode (K : View) (fl : FloatOps) (f : Sch) (hdep : f.depth ≤ 8) (hlen : f.code.length < 2 ^ 31) (q : P)
    (hrec : SRec fl K f ⟨0, false, []⟩ q) (old : St Tape) (buf : List Byte) (hbuf : q.pos ≤ 8 * buf.length) :
    ∃ n sf, exec { prog := f.code, enc := true, host := giver K, fl := fl } n (initSt old buf ⟨[], q.evs⟩) = .stop .ok sf ∧
      sf.host = ⟨q.evs, []⟩ ∧ 8 * sf.cursor + sf.bit = q.pos ∧ sf.buf.length = buf.length ∧
      ∀ rest : List Byte, SWire fl K (sf.packet ++ rest) f ⟨0, false, []⟩ q := by
  obtain ⟨n, sf, h1, h2, h3, _, h5, h6, _⟩ := packet_wire K fl f hdep hlen q hrec (initSt old buf ⟨[], q.evs⟩)
    rfl rfl rfl rfl rfl rfl rfl rfl hbuf
  exact ⟨n, sf, h1, h2, h3, h5, fun rest => (h6 rest).elim fun _ g => g.2.2.2⟩

/-- C79, decoding: bytes that hold a record in the wire format, whoever made them, are decoded without error to exactly that record. -/
theorem C79_decode (K : View) (fl : FloatOps) (f : Sch) (hdep : f.depth ≤ 8) (hlen : f.code.length < 2 ^ 31) (q : P) (D : List Byte)
    (hw : SWire fl K D f ⟨0, false, []⟩ q) (hD : q.pos ≤ 8 * D.length) (old : St (List Ev)) :
    ∃ n sd, exec { prog := f.code, enc := false, host := taker K, fl := fl } n (initSt old D []) = .stop .ok sd ∧
      vis K sd.host = q.evs ∧ 8 * sd.cursor + sd.bit = q.pos ∧ sd.buf = D := by
  obtain ⟨n, sf, _, _, h3, _, _, h6, h7⟩ := packet_wire K fl f hdep hlen q (swire_srec fl K D f _ _ hw)
    (initSt (zeroSt ⟨[], []⟩) D ⟨[], q.evs⟩) rfl rfl rfl rfl rfl rfl rfl rfl hD
  have hb : sf.buf = D := h7 hw
  obtain ⟨gf, hx, hR, _⟩ := h6 (D.drop (sf.cursor + if sf.bit = 0 then 0 else 1))
  have hp : sf.packet ++ D.drop (sf.cursor + if sf.bit = 0 then 0 else 1) = D := by
    unfold St.packet; rw [hb]; exact List.take_append_drop _ _
  rw [hp] at hx
  have hfr : Fresh ((initSt (zeroSt ⟨[], []⟩) D ⟨[], q.evs⟩ : St Tape).swap D []) (initSt old D []) :=
    ⟨⟨old.polyPos, old.polyCnt, old.splPos, old.splCnt⟩, rfl, (fun h => by cases h), (fun h => by cases h)⟩
  obtain ⟨r, hr⟩ := exec_fresh_stop n hfr hx
  exact ⟨n, (sf.swap D gf).refs r, hr, hR, h3, rfl⟩

/-- C79 for source text: the image of an accepted program makes packets in the wire format of the packet the program
describes (keys in the numbering of the image), and decodes all packets in that format. Partial: as C62, for programs whose
description `progSch` and renumbered description `optSch` give. -/
theorem C79_source_partial (P' : PEnv) (prog : List Item) (tab tab' : List (List Byte)) (f f' : Sch)
    (h : progSch P'.dbl P'.fl prog = some (tab, f)) (ho : optSch tab f = some (tab', f')) (src : List Byte) (toks : List Tok)
    (hl : Lexes (upToNul src) 1 toks) (ht : toks.map Tok.bare = prog.flatMap Item.toks ++ [eofTok])
    (fuel : Nat) (hf : 16 * src.length + 18 ≤ fuel)
    (hcount : tab.length < 65536) (hsize : 16 + (strBytes tab).length < 2 ^ 32) (hdep : f.depth ≤ 8) (hlen : f.code.length < 2 ^ 31) :
    ∃ img pr, compile P' fuel src = .image img ∧ loadIl img = .ok pr ∧
      (∀ (K : View) (q : P), SRec P'.fl K f' ⟨0, false, []⟩ q → ∀ (old : St Tape) (buf : List Byte), q.pos ≤ 8 * buf.length →
        ∃ n sf, exec { prog := pr.code, enc := true, host := giver K, fl := P'.fl } n (initSt old buf ⟨[], q.evs⟩) = .stop .ok sf ∧
          8 * sf.cursor + sf.bit = q.pos ∧ ∀ rest : List Byte, SWire P'.fl K (sf.packet ++ rest) f' ⟨0, false, []⟩ q) ∧
      ∀ (K : View) (q : P) (D : List Byte), SWire P'.fl K D f' ⟨0, false, []⟩ q → q.pos ≤ 8 * D.length → ∀ old : St (List Ev),
        ∃ n sd, exec { prog := pr.code, enc := false, host := taker K, fl := P'.fl } n (initSt old D []) = .stop .ok sd ∧
          vis K sd.host = q.evs ∧ 8 * sd.cursor + sd.bit = q.pos := by
  obtain ⟨_, hnul, hkeys⟩ := progSch_keys (source_clean hl ht) h
  obtain ⟨hn', hsub, φ, e, hφ⟩ := optSch_names ho (by omega)
  obtain ⟨s1, s2, s3, s4⟩ := optSch_small ho
  have hc := C59_source P' prog tab f.code (progSch_code h) src toks hl ht fuel hf
  rw [optSch_code ho] at hc
  obtain ⟨pr, h1, h2, _, _, _⟩ := C35_round_trip_partial tab' f'.code (fun x hx => hnul x (hsub x hx)) hn' (by omega) (by omega)
  refine ⟨_, pr, hc, h1, fun K q hrec old buf hbuf => ?_, fun K q D hw hD old => ?_⟩
  · rw [h2]
    obtain ⟨n, sf, a1, _, a3, _, a5⟩ := C79_encode K P'.fl f' (by omega) (by omega) q hrec old buf hbuf
    exact ⟨n, sf, a1, a3, a5⟩
  · rw [h2]
    obtain ⟨n, sd, a1, a2, a3, _⟩ := C79_decode K P'.fl f' (by omega) (by omega) q D hw hD old
    exact ⟨n, sd, a1, a2, a3⟩

/-! ### Packets in the format -/

/-- The packet of `Demo.sampleSch`: 2; 90 in big-endian for the host's 100; two elements; kind 1 with 0x0102 (big-endian still);
kind 9 with 7; 6 computed as thrice 2. -/
def exWire79 : List Byte := [2, 0, 90, 2, 1, 1, 2, 9, 7, 6]

/-- The hypotheses of `C79_decode` hold of it. -/
theorem exWire79_ok (fl : FloatOps) (rest : List Byte) :
    SWire fl (.plain fun _ => false) (exWire79 ++ rest) Demo.sampleSch ⟨0, false, []⟩ ⟨8 * 10, true, Demo.sampleSchEvs⟩ := by
  have fld : ∀ (be : Bool) (p n v : Nat), p + n ≤ 10 → FieldAt be exWire79 p n v → FieldAt be (exWire79 ++ rest) p n v := by
    intro be p n v hp h i hi
    rw [List.getElem?_append_left (by show _ < 10; split <;> omega)]
    exact h i hi
  unfold Demo.sampleSch
  simp only [SWire]
  refine ⟨_, ⟨1, 2, rfl, ⟨by decide, by decide⟩, rfl, fld _ _ _ _ (by decide) (by unfold FieldAt; decide), rfl⟩, ⟨8 * 3, true, Demo.sampleSchEvs.take 2⟩,
    ⟨100, 90, by simp only [ITrans.rel]; decide, by simp only [Ty.holds]; decide, by decide, by decide, by decide, rfl, fun _ => .inl rfl,
      fld _ _ _ _ (by decide) (by unfold FieldAt; decide), rfl⟩,
    ⟨8 * 9, true, Demo.sampleSchEvs.take 8⟩, ⟨2, by decide, by decide, rfl, fld _ _ _ _ (by decide) (by unfold FieldAt; decide), ?_⟩, ?_⟩
  · unfold ArrBody
    rw [if_neg (by decide)]
    refine ⟨⟨8 * 9, true, Demo.sampleSchEvs.take 7⟩, ⟨⟨8 * 7, true, Demo.sampleSchEvs.take 5⟩,
      ⟨_, ⟨1, 1, rfl, ⟨by decide, by decide⟩, rfl, fld _ _ _ _ (by decide) (by unfold FieldAt; decide), rfl⟩, 1, rfl, rfl, by decide, ?_⟩,
      ⟨8 * 9, true, Demo.sampleSchEvs.take 7⟩, ⟨_, ⟨1, 9, rfl, ⟨by decide, by decide⟩, rfl, fld _ _ _ _ (by decide) (by unfold FieldAt; decide), rfl⟩, 9, rfl, rfl, by decide, ?_⟩, ?_⟩, rfl⟩
    · exact ⟨2, 0x102, rfl, ⟨by decide, by decide⟩, rfl, fld _ _ _ _ (by decide) (by unfold FieldAt; decide), rfl⟩
    · exact ⟨1, 7, rfl, ⟨by decide, by decide⟩, rfl, fld _ _ _ _ (by decide) (by unfold FieldAt; decide), rfl⟩
    · simp [Reps, P.bytes, up8]
  · refine ⟨1, ⟨by decide, by decide⟩, by decide, ?_⟩
    exact ⟨1, 6, rfl, ⟨by decide, by decide⟩, by decide, by decide, rfl, rfl, fld _ _ _ _ (by decide) (by unfold FieldAt; decide), rfl⟩

/-- So the decoder takes it, and reports the record. -/
example (fl : FloatOps) (rest : List Byte) (old : St (List Ev)) :
    ∃ n sd, exec { prog := Demo.sampleSch.code, enc := false, host := taker (.plain fun _ => false), fl := fl } n (initSt old (exWire79 ++ rest) [])
      = .stop .ok sd ∧ vis (.plain fun _ => false) sd.host = Demo.sampleSchEvs := by
  obtain ⟨n, sd, h1, h2, _⟩ := C79_decode (.plain fun _ => false) fl Demo.sampleSch (by decide) (by decide) _ _ (exWire79_ok fl rest)
    (by simp [exWire79]; omega) old
  exact ⟨n, sd, h1, h2⟩

/-- A packet with bit fields, filling, a constant, a string, arrays and a checksum. -/
def exWire79b : List Byte := [0x12, 0x34, 0xBC, 0xFE, 0xCA, 2, 72, 105, 2, 0, 0xFB, 10, 0xA9, 0x7D]

theorem exWire79b_ok : Wire (.plain fun k => k == 5) exWire79b Demo.sampleFld ⟨0, false, []⟩ ⟨8 * 14, false, Demo.sampleEvs⟩ := by
  refine ⟨_, rfl, _, ⟨.inl rfl, rfl⟩, _, ⟨2, 0x1234, rfl, ⟨by decide, by decide⟩, rfl, by unfold FieldAt; decide, rfl⟩,
    _, ⟨5, by decide, by decide, rfl, by unfold BitsIn; decide +kernel, rfl⟩,
    _, ⟨0xFFFFFFFFFFFFFFFE, by decide, by decide, by decide, by decide, rfl, by unfold BitsIn; decide +kernel, rfl⟩, _, ⟨?_, rfl⟩, _, ⟨.inl rfl, rfl⟩,
    _, ⟨_, ⟨_, ⟨by decide, rfl, by unfold FieldAt; decide, rfl⟩, ⟨[72, 105], ?_, by decide, by unfold FieldAt; decide, by unfold BytesAt; decide, rfl⟩⟩, rfl⟩,
    ⟨8 * 12, false, Demo.sampleEvs.take 10⟩, ⟨2, by decide, by decide, rfl, by unfold FieldAt; decide, ?_⟩,
    ⟨8 * 12, false, Demo.sampleEvs⟩, ⟨by decide, rfl, ?_⟩, ?_⟩
  · intro i h1 h2
    have h1 : 23 ≤ i := h1
    have h2 : i < 24 := h2
    obtain rfl : i = 23 := by omega
    decide +kernel
  · simp [NulFree]
  · unfold ArrBody
    rw [if_neg (by decide)]
    exact ⟨_, ⟨_, ⟨0xFB, by decide, by decide, by decide, by decide, by decide, rfl, by unfold FieldAt; decide, rfl⟩,
      _, ⟨10, by decide, by decide, by decide, by decide, by decide, rfl, by unfold FieldAt; decide, rfl⟩, rfl⟩, rfl⟩
  · unfold ArrBody
    rw [if_pos (by decide)]
    exact ⟨.byte _ _ (by decide) (by decide) (.byte _ _ (by decide) (by decide)
      (.byte _ _ (by decide) (by decide) .nil)), rfl⟩
  · exact ⟨by simp [CrcPar.ok, CrcPar.size], by unfold FieldAt; decide +kernel, rfl⟩

/-- The converse of `C79_decode` fails: padding and filling are not looked at. Here is a byte that is in the format of no
record of "four bits of padding, four bits of data", and that is decoded. -/
theorem C79_converse_false :
    (∀ q, ¬ SWire demoP.fl (.plain fun _ => false) [0x5F] (.fld (.seq (.pad 4) (.bitU 1 0 4))) ⟨0, false, []⟩ q) ∧
    ∃ s, exec { prog := (Sch.fld (.seq (.pad 4) (.bitU 1 0 4))).code, enc := false, host := taker (.plain fun _ => false), fl := demoP.fl } 10
      (initSt (zeroSt []) [0x5F] []) = .stop .ok s ∧ s.host = [.num 1 0x20 5] := by
  constructor
  · rintro q ⟨m, ⟨_, h, _⟩, _⟩
    have := h 0 (by decide)
    revert this
    decide +kernel
  · obtain ⟨s, h1, h2, _⟩ := heardB_iff (evs := [.num 1 0x20 5]) (c := 1) (o := 0)
      (r := exec { prog := (Sch.fld (.seq (.pad 4) (.bitU 1 0 4))).code, enc := false, host := taker (.plain fun _ => false), fl := demoP.fl } 10
        (initSt (zeroSt []) [0x5F] [])) (by decide +kernel)
    exact ⟨s, h1, h2⟩

end Cnd
