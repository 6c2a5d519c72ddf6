import Verif.JsonDoc
import Verif.Props.Sch
import Verif.Soft
/-
  C63: `cnd decode` shows the record of a packet as a JSON document, and `cnd encode` gives the packet back.
-/

namespace Cnd

/-- The run of `cnd decode` on a packet, cmd_decode.c 35-38. -/
def jsonDecode (F : FloatOps) (names : List (List Byte)) (prog : List Byte) (n : Nat) (old : St JSt) (buf : List Byte) : Res JSt :=
  exec { prog := prog, enc := false, host := jsonHost F names false, fl := F } n (initSt old buf (JSt.start .nil))

/-- The run of `cnd encode` on a document, cmd_encode.c 29-34. -/
def jsonEncode (F : FloatOps) (names : List (List Byte)) (prog : List Byte) (n : Nat) (old : St JSt) (buf : List Byte) (d : Items) : Res JSt :=
  exec { prog := prog, enc := true, host := jsonHost F names true, fl := F } n (initSt old buf (JSt.start d))

/-- **C63, decoding.** Any program without arrays of single bytes: if the recording host of the packet theorems gets the record `g`, and
`d` is the document of `g` with distinct names, the tool's decode run ends in the same way and its document is `d`. -/
theorem C63_decode (F : FloatOps) (names : List (List Byte)) (hid : Nat → Bool) (hA : HidApart names hid) (prog : List Byte) (hB : NoBulk prog)
    (n : Nat) (old : St JSt) (buf : List Byte) (sd : St (List Ev))
    (h : exec { prog := prog, enc := false, host := taker (jsonView F names hid), fl := F } n (initSt (old.wh []) buf []) = .stop .ok sd)
    (d : Items) (hdoc : DocOf F names hid 0 0 false sd.host d) (hd : d.Distinct false) :
    ∃ b, jsonDecode F names prog n old buf = .stop .ok (sd.wh b) ∧ b.doc = d ∧ b.ub = false := by
  obtain ⟨hC, h1, h2⟩ := hdoc.clean hd
  obtain ⟨b, hb, hR⟩ := exec_mimics (EA := { prog := prog, enc := false, host := taker (jsonView F names hid), fl := F })
    (EB := { prog := prog, enc := false, host := jsonHost F names false, fl := F }) (b := JSt.start .nil)
    ⟨rfl, rfl, rfl, taker_json hA hC, .inl hB⟩ h (List.prefix_refl _) rfl
  exact ⟨b, hb, by rw [hR, h1], by rw [hR, h2]⟩

/-- **C63, encoding.** If the supplying host of the packet theorems succeeds with a record, `g` is that record together with the fields
whose value the schema fixes, and `d` is the document of `g` with distinct names, the tool's encode run on `d` ends in the same state:
the same packet. -/
theorem C63_encode (F : FloatOps) (names : List (List Byte)) (hid : Nat → Bool) (hA : HidApart names hid) (prog : List Byte) (hB : NoBulk prog)
    (n : Nat) (old : St JSt) (buf : List Byte) (g evs : List Ev) (hg : vis (jsonView F names hid) g = evs) (sf : St Tape)
    (h : exec { prog := prog, enc := true, host := giver (jsonView F names hid), fl := F } n
      (initSt (old.wh ⟨[], []⟩) buf ⟨[], evs⟩) = .stop .ok sf)
    (hh : sf.host = ⟨evs, []⟩)
    (d : Items) (hdoc : DocOf F names hid 0 0 false g d) (hd : d.Distinct false) :
    ∃ b, jsonEncode F names prog n old buf d = .stop .ok (sf.wh b) ∧ b.doc = d ∧ b.ub = false := by
  obtain ⟨hC, h1, h2⟩ := hdoc.clean hd
  subst hg
  obtain ⟨b, hb, hR⟩ := exec_mimics (EA := { prog := prog, enc := true, host := giver (jsonView F names hid), fl := F })
    (EB := { prog := prog, enc := true, host := jsonHost F names true, fl := F }) (b := JSt.start d)
    ⟨rfl, rfl, rfl, giver_json hA hC, .inl hB⟩ h (by rw [hh]; simp) ⟨[], g, rfl, rfl, rfl, by rw [h1]; rfl⟩
  refine ⟨b, hb, ?_, ?_⟩
  · obtain ⟨_, _, _, _, _, rfl⟩ := hR
    exact h1
  · obtain ⟨g', r, e1, e2, e3, rfl⟩ := hR
    rw [e1] at h2
    exact jBuild_ub h2

/-- Records of schemas without constants are all visible. -/
theorem vis_all (look : Nat → List Ev → Option Word) (es : List Ev) : vis ⟨fun _ => false, look⟩ es = es := by
  unfold vis
  rw [List.filter_eq_self]
  intro e _
  cases e <;> rfl

theorem hidApart_none (names : List (List Byte)) : HidApart names (fun _ => false) := by
  intro k k' h
  cases h

/-- **C63.** A packet description without constants and without arrays of single bytes; a record `q.evs` that fits it, its document `d`
with distinct names. Then `cnd encode` on `d` succeeds, and `cnd decode` on the packet it wrote, whatever follows, shows `d`. -/
theorem C63_packet_partial (F : FloatOps) (names : List (List Byte)) (f : Sch) (hdep : f.depth ≤ 8) (hlen : f.code.length < 2 ^ 31)
    (hB : NoBulk f.code) (q : P) (hrec : SRec F (jsonView F names fun _ => false) f ⟨0, false, []⟩ q)
    (d : Items) (hdoc : DocOf F names (fun _ => false) 0 0 false q.evs d) (hd : d.Distinct false)
    (old : St JSt) (buf : List Byte) (hbuf : q.pos ≤ 8 * buf.length) :
    ∃ n se, jsonEncode F names f.code n old buf d = .stop .ok se ∧ se.host.ub = false ∧ 8 * se.cursor + se.bit = q.pos ∧ se.bit < 8 ∧
      ∀ (old' : St JSt) (rest : List Byte),
        ∃ sd, jsonDecode F names f.code n old' (se.packet ++ rest) = .stop .ok sd ∧ sd.host.doc = d ∧ sd.host.ub = false ∧
          sd.cursor = se.cursor ∧ sd.bit = se.bit := by
  obtain ⟨n, sf, h1, h2, h3, h4, _, h5⟩ := C61_packet (jsonView F names fun _ => false) F f hdep hlen q hrec (old.wh ⟨[], []⟩) buf hbuf
  have hA := hidApart_none names
  obtain ⟨b, hb, _, hu⟩ := C63_encode F names (fun _ => false) hA f.code hB n old buf q.evs q.evs (vis_all _ _) sf h1 h2 d hdoc hd
  refine ⟨n, _, hb, hu, h3, h4, fun old' rest => ?_⟩
  obtain ⟨sd, k1, k2, k3, k4, _⟩ := h5 (old'.wh []) rest
  have k2' : sd.host = q.evs := by rw [← k2]; exact (vis_all _ _).symm
  obtain ⟨b', hb', hdoc', hu'⟩ := C63_decode F names (fun _ => false) hA f.code hB n old' _ sd k1 d (by rw [k2']; exact hdoc) hd
  exact ⟨_, hb', hdoc', hu', k3, k4⟩

/-- **C63, with constants.** The document also shows the constants: `g` is the record with them, that is, what a host that notes all it
is told gets from the packet. -/
theorem C63_constants_partial (F : FloatOps) (names : List (List Byte)) (hid : Nat → Bool) (hA : HidApart names hid) (f : Sch) (hdep : f.depth ≤ 8)
    (hlen : f.code.length < 2 ^ 31) (hB : NoBulk f.code) (q : P) (hrec : SRec F (jsonView F names hid) f ⟨0, false, []⟩ q)
    (old old' : St JSt) (buf rest : List Byte) (hbuf : q.pos ≤ 8 * buf.length) :
    ∃ n B g, vis (jsonView F names hid) g = q.evs ∧
      (∃ sd, exec { prog := f.code, enc := false, host := taker (jsonView F names hid), fl := F } n (initSt (old'.wh []) (B ++ rest) []) = .stop .ok sd ∧
        sd.host = g) ∧
      ∀ d, DocOf F names hid 0 0 false g d → d.Distinct false →
      (∃ se, jsonEncode F names f.code n old buf d = .stop .ok se ∧ se.host.ub = false ∧ se.packet = B ∧ 8 * se.cursor + se.bit = q.pos ∧ se.bit < 8) ∧
      ∃ sd, jsonDecode F names f.code n old' (B ++ rest) = .stop .ok sd ∧ sd.host.doc = d ∧ sd.host.ub = false := by
  obtain ⟨n, sf, h1, h2, h3, h4, _, h5⟩ := C61_packet (jsonView F names hid) F f hdep hlen q hrec (old.wh ⟨[], []⟩) buf hbuf
  obtain ⟨sd, k1, k2, k3, k4, _⟩ := h5 (old'.wh []) rest
  refine ⟨n, sf.packet, sd.host, k2, ⟨sd, k1, rfl⟩, fun d hdoc hd => ⟨?_, ?_⟩⟩
  · obtain ⟨b, hb, _, hu⟩ := C63_encode F names hid hA f.code hB n old buf sd.host q.evs k2 sf h1 h2 d hdoc hd
    exact ⟨_, hb, hu, rfl, h3, h4⟩
  · obtain ⟨b', hb', hdoc', hu'⟩ := C63_decode F names hid hA f.code hB n old' _ sd k1 d hdoc hd
    exact ⟨_, hb', hdoc', hu'⟩

/-! ### A case -/

/-- Whether the program has no array of single bytes. -/
def noBulkB (prog : List Byte) : Bool :=
  (List.range prog.length).all fun i => !((prog.getD i 0 == 0x10 || prog.getD i 0 == 0x14) && prog.getD (i + 3) 0 == 0x38)

theorem noBulk_of {prog : List Byte} (h : noBulkB prog = true) : NoBulk prog := by
  intro i a b h1 h2 h3
  have hi : i < prog.length := by
    rcases Nat.lt_or_ge i prog.length with hl | hl
    · exact hl
    · rw [List.getElem?_eq_none hl] at h1; cases h1
  have := List.all_eq_true.1 h i (List.mem_range.2 hi)
  simp only [List.getD_eq_getElem?_getD, h1, h2, Option.getD_some, h3, Bool.not_true] at this
  cases this

/-- A number, a list of items of two kinds, and a signed number that is there because the first one exceeds 1. -/
def Demo.jsonSch : Sch :=
  .seq (.fld (.scalar 0x11 1 0)) <|
  .seq (.arrPre .p1 2 0 (.struct 2 0 (.seq (.fld (.scalar 0x10 3 0))
    (.switch 3 0 (.cons (some 1) (.fld (.scalar 0x11 4 0)) (.cons none (.fld (.strPre .p1 5 0)) .nil)))))) <|
  .ite (.bin .gt (.fld 1 0) (.lit 1)) (.fld (.scalar 0x16 6 0)) .opt

/-- `Pack`, `id`, `items`, `items.kind`, `items.val`, `items.text`, `tail`. -/
def Demo.jsonNames : List (List Byte) :=
  [[0x50, 0x61, 0x63, 0x6B], [0x69, 0x64], [0x69, 0x74, 0x65, 0x6D, 0x73], [0x69, 0x74, 0x65, 0x6D, 0x73, 0x2E, 0x6B, 0x69, 0x6E, 0x64],
   [0x69, 0x74, 0x65, 0x6D, 0x73, 0x2E, 0x76, 0x61, 0x6C], [0x69, 0x74, 0x65, 0x6D, 0x73, 0x2E, 0x74, 0x65, 0x78, 0x74],
   [0x74, 0x61, 0x69, 0x6C]]

def Demo.jsonEvs : List Ev :=
  [.num 1 0x11 258, .num 2 0x35 2, .note 2 0x03, .num 3 0x10 1, .num 4 0x11 7, .note 0 0x04, .note 2 0x03, .num 3 0x10 9,
   .str 5 0x31 [0x68, 0x69], .note 0 0x04, .note 0 0x38, .num 6 0x16 0xFFFFFFFE]

/-- `{"id": 258, "items": [{"kind": 1, "val": 7}, {"kind": 9, "text": "hi"}], "tail": -2}` -/
def Demo.jsonItems : Items :=
  .item [0x69, 0x64] (.num 0x4070200000000000) .nil <|
  .item [0x69, 0x74, 0x65, 0x6D, 0x73] .arr
    (.item [] .obj (.item [0x6B, 0x69, 0x6E, 0x64] (.num 0x3FF0000000000000) .nil (.item [0x76, 0x61, 0x6C] (.num 0x401C000000000000) .nil .nil)) <|
     .item [] .obj (.item [0x6B, 0x69, 0x6E, 0x64] (.num 0x4022000000000000) .nil (.item [0x74, 0x65, 0x78, 0x74] (.str [0x68, 0x69]) .nil .nil)) .nil) <|
  .item [0x74, 0x61, 0x69, 0x6C] (.num 0xC000000000000000) .nil .nil

/-- It is the document of the record. -/
theorem Demo.jsonDoc : DocOf Soft.fl Demo.jsonNames (fun _ => false) 0 0 false Demo.jsonEvs Demo.jsonItems := by
  refine .num (b := false) (k := 1) (op := 0x11) (by decide +kernel) (.inl ⟨by decide +kernel, rfl⟩) ?_
  refine .arr (k := 2) (k' := 0) (op := 0x35) (xs := (Demo.jsonEvs.drop 2).take 8) (es := Demo.jsonEvs.drop 11) (by decide) (by decide) rfl
    (fun _ => by decide +kernel) (fun h => absurd h (by decide)) (fun h => absurd h (by decide)) ?_ ?_
  · refine .struct (b := true) (k := 2) (k' := 0) (xs := (Demo.jsonEvs.drop 3).take 2) (es := (Demo.jsonEvs.drop 6).take 4) (by decide) ?_ ?_
    · refine .num (b := false) (k := 3) (op := 0x10) (by decide +kernel) (.inl ⟨by decide +kernel, rfl⟩) ?_
      exact .num (b := false) (k := 4) (op := 0x11) (by decide +kernel) (.inl ⟨by decide +kernel, rfl⟩) .nil
    · refine .struct (b := true) (k := 2) (k' := 0) (xs := (Demo.jsonEvs.drop 7).take 2) (es := []) (by decide) ?_ .nil
      refine .num (b := false) (k := 3) (op := 0x10) (by decide +kernel) (.inl ⟨by decide +kernel, rfl⟩) ?_
      exact .str (b := false) (k := 5) (op := 0x31) (.inr (.inl rfl)) (by unfold NulFree; decide) .nil
  · exact .num (b := false) (k := 6) (op := 0x16) (by decide +kernel) (.inl ⟨by decide +kernel, rfl⟩) .nil

/-- The hypotheses of `C63_packet_partial` hold of it, with 14 bytes. -/
example : Demo.jsonSch.depth ≤ 8 ∧ Demo.jsonSch.code.length < 2 ^ 31 ∧ NoBulk Demo.jsonSch.code ∧
    SRec Soft.fl (jsonView Soft.fl Demo.jsonNames fun _ => false) Demo.jsonSch ⟨0, false, []⟩ ⟨8 * 14, false, Demo.jsonEvs⟩ ∧
    DocOf Soft.fl Demo.jsonNames (fun _ => false) 0 0 false Demo.jsonEvs Demo.jsonItems ∧ Demo.jsonItems.Distinct false := by
  refine ⟨by decide, by decide, noBulk_of (by decide +kernel), ?_, Demo.jsonDoc, ?_⟩
  · unfold Demo.jsonSch
    simp only [SRec]
    refine ⟨_, ⟨2, 258, rfl, ⟨by decide, by decide⟩, rfl, rfl⟩, ⟨8 * 10, false, Demo.jsonEvs.take 11⟩, ⟨2, by decide, by decide, rfl, ?_⟩, ?_⟩
    · unfold ArrBody
      rw [if_neg (by decide)]
      refine ⟨⟨8 * 10, false, Demo.jsonEvs.take 10⟩, ⟨⟨8 * 6, false, Demo.jsonEvs.take 6⟩, ⟨⟨8 * 6, false, Demo.jsonEvs.take 5⟩,
        ⟨_, ⟨1, 1, rfl, ⟨by decide, by decide⟩, rfl, rfl⟩, 1, by decide +kernel, rfl, by decide, ?_⟩, rfl⟩,
        ⟨8 * 10, false, Demo.jsonEvs.take 10⟩, ⟨⟨8 * 10, false, Demo.jsonEvs.take 9⟩,
        ⟨_, ⟨1, 9, rfl, ⟨by decide, by decide⟩, rfl, rfl⟩, 9, by decide +kernel, rfl, by decide, ?_⟩, rfl⟩, ?_⟩, rfl⟩
      · exact ⟨2, 7, rfl, ⟨by decide, by decide⟩, rfl, rfl⟩
      · exact ⟨[0x68, 0x69], by unfold NulFree; decide, by decide, rfl⟩
      · simp [Reps, P.bytes, up8]
    · refine ⟨1, ⟨by decide +kernel, by decide⟩, by decide +kernel, ?_⟩
      exact ⟨4, 0xFFFFFFFE, rfl, ⟨by decide, by decide⟩, rfl, rfl⟩
  · simp [Items.Distinct, Demo.jsonItems, Items.shape]
    decide

/-- The hypotheses of `C63_constants_partial` hold of a constant `id` and a byte `tail`; the document with the constant. -/
example : HidApart Demo.jsonNames (fun k => k == 1) ∧ NoBulk (Sch.fld (.seq (.const .u8 1 0 7) (.scalar 0x10 6 0))).code ∧
    SRec Soft.fl (jsonView Soft.fl Demo.jsonNames fun k => k == 1) (.fld (.seq (.const .u8 1 0 7) (.scalar 0x10 6 0))) ⟨0, false, []⟩
      ⟨16, false, [.num 6 0x10 9]⟩ ∧
    DocOf Soft.fl Demo.jsonNames (fun k => k == 1) 0 0 false [.num 1 0x10 7, .num 6 0x10 9]
      (.item [0x69, 0x64] (.num 0x401C000000000000) .nil (.item [0x74, 0x61, 0x69, 0x6C] (.num 0x4022000000000000) .nil .nil)) := by
  refine ⟨?_, noBulk_of (by decide +kernel), ⟨_, ⟨by decide, rfl, rfl⟩, 1, 9, rfl, ⟨by decide, by decide⟩, rfl, rfl⟩, ?_⟩
  · intro k k' h h'
    have hk : k = 1 := by simpa using h
    have hk' : k' ≠ 1 := by simpa using h'
    subst hk
    rcases Nat.lt_or_ge k' 7 with hl | hl
    · match k', hl with
      | 0, _ => decide
      | 1, _ => exact absurd rfl hk'
      | 2, _ => decide
      | 3, _ => decide
      | 4, _ => decide
      | 5, _ => decide
      | 6, _ => decide
    · have : jsonName Demo.jsonNames k' = [] := by
        unfold jsonName
        rw [List.getD_eq_getElem?_getD, List.getElem?_eq_none (by exact hl)]
        rfl
      rw [this]
      decide
  · refine .num (b := false) (k := 1) (op := 0x10) (by decide +kernel) (.inr ⟨rfl, rfl⟩) ?_
    exact .num (b := false) (k := 6) (op := 0x10) (by decide +kernel) (.inl ⟨by decide +kernel, rfl⟩) .nil

/-! ### Numbers -/

/-- The values of a field's cell that JSON can carry through `cnd decode` and `cnd encode`. -/
def JsonFits (op : Byte) (w : Word) : Prop :=
  match op.toNat with
  | 0x10 | 0x14 => w.toNat < 2 ^ 8
  | 0x11 | 0x15 => w.toNat < 2 ^ 16
  | 0x12 | 0x20 => w.toNat < 2 ^ 31
  | 0x16 => w.toNat < 2 ^ 32
  | 0x13 => w.toNat < 2 ^ 53
  | 0x17 => -(2 ^ 53 : Int) < w.toInt ∧ w.toInt < 2 ^ 53
  | 0x21 => -(2 ^ 31 : Int) ≤ w.toInt ∧ w.toInt < 2 ^ 31
  | 0x19 => True
  | 0x1A | 0x22 => w = 0 ∨ w = 1
  | _ => False

theorem word_toInt {w : Word} (h : w.toNat < 2 ^ 63) : w.toInt = w.toNat := BitVec.toInt_eq_toNat_of_lt (by omega)

theorem valueInt_of {F : FloatOps} (hF : IntExact F) {w : Word} (h1 : -(2 ^ 31 : Int) ≤ w.toInt) (h2 : w.toInt < 2 ^ 31) :
    valueInt F (F.ofI64 w) = some w := by
  have e1 := hF.le 2147483647 w (by decide) (by decide) (by omega) (by omega)
  have e2 := hF.le w (BitVec.ofInt 64 (-2147483648)) (by omega) (by omega) (by decide) (by decide)
  rw [hF.max] at e1
  rw [hF.min] at e2
  have c1 : (2147483647 : Word).toInt = 2147483647 := by decide
  have c2 : (BitVec.ofInt 64 (-2147483648) : Word).toInt = -2147483648 := by decide
  rw [c1] at e1
  rw [c2] at e2
  unfold valueInt dblIntMax dblIntMin
  by_cases h : F.le 0x41DFFFFFFFC00000 (F.ofI64 w) = true
  · rw [if_pos h]
    have := e1.1 h
    have : w = 2147483647 := BitVec.eq_of_toInt_eq (by rw [c1]; omega)
    rw [this]
  · rw [if_neg h]
    by_cases h' : F.le (F.ofI64 w) 0xC1E0000000000000 = true
    · rw [if_pos h']
      have := e2.1 h'
      have : w = BitVec.ofInt 64 (-2147483648) := BitVec.eq_of_toInt_eq (by rw [c2]; omega)
      rw [this]
    · rw [if_neg h']
      exact hF.toI32 w h1 h2

theorem sat_of {F : FloatOps} (hF : IntExact F) {w : Word} (h1 : 2147483647 ≤ w.toInt) (h2 : w.toInt < 2 ^ 53) :
    valueInt F (F.ofI64 w) = some 0x7FFFFFFF := by
  have e1 := hF.le 2147483647 w (by decide) (by decide) (by omega) h2
  rw [hF.max, show (2147483647 : Word).toInt = 2147483647 by decide] at e1
  unfold valueInt dblIntMax
  rw [if_pos (e1.2 h1)]

theorem trunc_self {n : Nat} {w : Word} (h : n = 1 ∧ w.toNat < 2 ^ 8 ∨ n = 2 ∧ w.toNat < 2 ^ 16 ∨ n = 4 ∧ w.toNat < 2 ^ 32) : truncB n w = w := by
  apply BitVec.eq_of_toNat_eq
  rcases h with ⟨rfl, h⟩ | ⟨rfl, h⟩ | ⟨rfl, h⟩ <;> simp [truncB] <;> omega

theorem sext_cell {t : Ty} {n : Nat} {w : Word} (h : t = .i8 ∧ n = 1 ∧ w.toNat < 2 ^ 8 ∨ t = .i16 ∧ n = 2 ∧ w.toNat < 2 ^ 16 ∨ t = .i32 ∧ n = 4 ∧ w.toNat < 2 ^ 32) :
    -(2 ^ 31 : Int) ≤ (t.toI64 w).toInt ∧ (t.toI64 w).toInt < 2 ^ 31 ∧ truncB n (t.toI64 w) = w := by
  have key : ∀ m : Nat, m ≤ 32 → 0 < m → w.toNat < 2 ^ m →
      -(2 ^ 31 : Int) ≤ ((w.setWidth m).signExtend 64).toInt ∧ ((w.setWidth m).signExtend 64).toInt < 2 ^ 31 ∧
        ((w.setWidth m).signExtend 64).toNat % 2 ^ m = w.toNat := by
    intro m hm h0 hw
    have e1 : ((w.setWidth m).signExtend 64).toInt = (w.setWidth m).toInt := BitVec.toInt_signExtend_of_le (by omega)
    have b1 := BitVec.le_two_mul_toInt (x := w.setWidth m)
    have b2 := BitVec.two_mul_toInt_lt (x := w.setWidth m)
    have hp : (2 : Int) ^ m ≤ 2 ^ 32 := by exact_mod_cast Nat.pow_le_pow_right (n := 2) (by omega) hm
    refine ⟨by omega, by omega, ?_⟩
    have e2 : (((w.setWidth m).signExtend 64).setWidth m) = w.setWidth m := by
      apply BitVec.eq_of_getLsbD_eq
      intro i hi
      rw [BitVec.getLsbD_setWidth, BitVec.getLsbD_signExtend]
      simp [hi, show i < 64 by omega]
    have e3 := congrArg BitVec.toNat e2
    rw [BitVec.toNat_setWidth, BitVec.toNat_setWidth, Nat.mod_eq_of_lt hw] at e3
    exact e3
  rcases h with ⟨rfl, rfl, h⟩ | ⟨rfl, rfl, h⟩ | ⟨rfl, rfl, h⟩
  · obtain ⟨k1, k2, k3⟩ := key 8 (by omega) (by omega) h
    exact ⟨k1, k2, by unfold truncB; exact (congrArg (BitVec.ofNat 64) k3).trans (by simp)⟩
  · obtain ⟨k1, k2, k3⟩ := key 16 (by omega) (by omega) h
    exact ⟨k1, k2, by unfold truncB; exact (congrArg (BitVec.ofNat 64) k3).trans (by simp)⟩
  · obtain ⟨k1, k2, k3⟩ := key 32 (by omega) (by omega) h
    exact ⟨k1, k2, by unfold truncB; exact (congrArg (BitVec.ofNat 64) k3).trans (by simp)⟩

/-- **C63, numbers.** With double precision that is exact on integers below 2^53, the numbers of `JsonFits` survive: unsigned and signed
fields up to 16 bits and signed ones of 32 bits whatever they hold, `uint32` below 2^31 only, 64-bit ones below 2^53. -/
theorem C63_numbers (F : FloatOps) (hF : IntExact F) (op : Byte) (w : Word) (h : JsonFits op w) :
    ∃ j, jsonPut F op w = some j ∧ jsonGet F op j = some w := by
  have small : ∀ {n : Nat}, n ≤ 31 → w.toNat < 2 ^ n → valueInt F (F.ofI64 w) = some w := by
    intro n hn hw
    have : 2 ^ n ≤ 2 ^ 31 := Nat.pow_le_pow_right (by omega) hn
    have := word_toInt (w := w) (by omega)
    exact valueInt_of hF (by omega) (by omega)
  unfold JsonFits at h
  unfold jsonPut jsonGet
  split at h
  · rename_i e
    rw [e]
    refine ⟨_, rfl, ?_⟩
    show (valueInt F _).map _ = _
    rw [small (by omega) h, Option.map_some, trunc_self (by omega)]
  · rename_i e
    rw [e]
    refine ⟨_, rfl, ?_⟩
    obtain ⟨a, b, c⟩ := sext_cell (t := .i8) (n := 1) (w := w) (.inl ⟨rfl, rfl, h⟩)
    show (valueInt F _).map _ = _
    rw [valueInt_of hF a b, Option.map_some, c]
  · rename_i e
    rw [e]
    refine ⟨_, rfl, ?_⟩
    show (valueInt F _).map _ = _
    rw [small (by omega) h, Option.map_some, trunc_self (by omega)]
  · rename_i e
    rw [e]
    refine ⟨_, rfl, ?_⟩
    obtain ⟨a, b, c⟩ := sext_cell (t := .i16) (n := 2) (w := w) (.inr (.inl ⟨rfl, rfl, h⟩))
    show (valueInt F _).map _ = _
    rw [valueInt_of hF a b, Option.map_some, c]
  · rename_i e
    rw [e]
    refine ⟨_, rfl, ?_⟩
    show (valueInt F _).map _ = _
    rw [small (by omega) h, Option.map_some, trunc_self (by omega)]
  · rename_i e
    rw [e]
    refine ⟨_, rfl, ?_⟩
    show valueInt F _ = _
    rw [hF.u64 w (by omega), small (by omega) h]
  · rename_i e
    rw [e]
    refine ⟨_, rfl, ?_⟩
    obtain ⟨a, b, c⟩ := sext_cell (t := .i32) (n := 4) (w := w) (.inr (.inr ⟨rfl, rfl, h⟩))
    show (valueInt F _).map _ = _
    rw [valueInt_of hF a b, Option.map_some, c]
  · rename_i e
    rw [e]
    refine ⟨_, rfl, ?_⟩
    show F.toTy .u64 (F.ofU64 w) = _
    have := word_toInt (w := w) (by omega)
    rw [hF.u64 w h]
    exact hF.toU64 w (by omega) (by omega)
  · rename_i e
    rw [e]
    exact ⟨_, rfl, hF.toI64 w h.1 h.2⟩
  · rename_i e
    rw [e]
    exact ⟨_, rfl, valueInt_of hF h.1 h.2⟩
  · rename_i e
    rw [e]
    exact ⟨_, rfl, rfl⟩
  · rename_i e
    rw [e]
    refine ⟨_, rfl, ?_⟩
    rcases h with rfl | rfl <;> rfl
  · rename_i e
    rw [e]
    refine ⟨_, rfl, ?_⟩
    rcases h with rfl | rfl <;> rfl
  · exact h.elim

/-- **C63, numbers that do not survive.** Every `uint32` from 2^31 comes back as 2^31 - 1. -/
theorem C63_saturates (F : FloatOps) (hF : IntExact F) (w : Word) (h1 : 2 ^ 31 ≤ w.toNat) (h2 : w.toNat < 2 ^ 32) :
    ∃ j, jsonPut F 0x12 w = some j ∧ jsonGet F 0x12 j = some 0x7FFFFFFF := by
  refine ⟨_, rfl, ?_⟩
  show (valueInt F (F.ofI64 w)).map (truncB 4) = _
  have := word_toInt (w := w) (by omega)
  rw [sat_of hF (by omega) (by omega)]
  decide

/-- The laws hold of IEEE double precision. -/
example : IntExact Soft.fl := Soft.exact

end Cnd
