import Verif.SimRun
import Verif.Props.Strings
import Verif.Props.Crc
/-
  Packet schemas (C52, C16): the instruction sequences of packet descriptions, the records that fit them, a host
  that supplies a record and a host that records what it is given.
-/

namespace Cnd

/-- One host call with its value: a number, a string, or a bare notification. -/
inductive Ev
  | num (key : Nat) (op : Byte) (w : Word)
  | str (key : Nat) (op : Byte) (bs : List Byte)
  | note (key : Nat) (op : Byte)
  deriving DecidableEq, Repr

/-- The last number given for a key. -/
def lastNum (key : Nat) : List Ev → Option Word
  | [] => none
  | e :: es => match lastNum key es with
    | some w => some w
    | none => match e with
      | .num k _ w => if k = key then some w else none
      | _ => none

/-- How a host treats keys: those of fields whose value is fixed by the schema (`hid`), and what it answers to questions about earlier
fields, given the record so far (`look`). -/
structure View where
  hid : Nat → Bool
  look : Nat → List Ev → Option Word

instance : CoeFun View (fun _ => Nat → Bool) := ⟨View.hid⟩

/-- Questions are answered with the last number of that key. -/
def View.plain (hid : Nat → Bool) : View := ⟨hid, lastNum⟩

/-- What a decoding host has seen, without the fields whose value is fixed by the schema. -/
def vis (K : View) (es : List Ev) : List Ev :=
  es.filter fun e => match e with
    | .num k _ _ => !K k
    | _ => true

/-- State of the supplying host: events already supplied, events still to come. -/
structure Tape where
  done : List Ev
  todo : List Ev
  deriving DecidableEq

/-- A refused string leaves a mark that is no event of a record (the VM goes on if the string is optional). -/
def Tape.refuse (h : Tape) : Tape := ⟨h.done ++ [.note 65536 0xFF], h.todo⟩

/-- Width of the length prefix of a string instruction; 0 for NUL-terminated strings. -/
def strPrefix (op : Byte) : Option Nat :=
  if op = 0x30 then some 0 else if op = 0x31 then some 1 else if op = 0x32 then some 2
  else if op = 0x33 then some 4 else none

/-- A string the instruction can carry. -/
def strFits (op : Byte) (bs : List Byte) : Bool :=
  bs.all (· ≠ 0) && (match strPrefix op with
    | none => false
    | some 0 => true
    | some n => decide (bs.length < 2 ^ (8 * n)))

/-- A host that supplies the events of `todo` one after the other, refusing any call that asks for something
else. Questions about earlier fields (context queries 0x06, loads 0x60) are answered with the last number
supplied for that key; array counts and stored variables are confirmed. Bulk transfers are declined. -/
def giver (K : View) : Host Tape where
  notify h key op := match h.todo with
    | .note k o :: t => if k = key ∧ o = op then (true, ⟨h.done ++ [.note k o], t⟩) else (false, h)
    | _ => (false, h)
  scalar h key op v :=
    if K key then (false, v, h)
    else if op = 0x06 ∨ op = 0x60 then
      match K.look key h.done with
      | some w => (true, w, h)
      | none => (false, v, h)
    else match h.todo with
      | .num k o w :: t =>
        if k = key ∧ o = op ∧ (isQuery op = true → w = v) then (true, w, ⟨h.done ++ [.num k o w], t⟩)
        else (false, v, h)
      | _ => (false, v, h)
  str h key op := match h.todo with
    | .str k o bs :: t =>
      if k = key ∧ o = op ∧ strFits op bs = true then (true, some (bs ++ [0]), ⟨h.done ++ [.str k o bs], t⟩)
      else (false, none, h.refuse)
    | _ => (false, none, h.refuse)
  bytesAt h _ _ _ buf _ := (false, buf, h)

/-- The string a host finds at a packet position (as json_binding.c does: up to the NUL, or as many bytes as the
prefix before it says). -/
def readStr (op : Byte) (be : Bool) (D : List Byte) (p : Nat) : List Byte :=
  match strPrefix op with
  | some (n + 1) => (D.drop p).take (rdWord be ((D.drop (p - (n + 1))).take (n + 1))).toNat
  | _ => (D.drop p).takeWhile (· ≠ 0)

/-- The string lies inside the packet: its NUL, or its prefix and as many bytes as the prefix says. -/
def strThere (op : Byte) (be : Bool) (D : List Byte) (p : Nat) : Bool :=
  match strPrefix op with
  | some (n + 1) => decide (n + 1 ≤ p ∧ p + (rdWord be ((D.drop (p - (n + 1))).take (n + 1))).toNat ≤ D.length)
  | _ => (D.drop p).any (· == 0)

/-- A host that accepts everything and writes down what it is given; only strings that are not wholly inside the packet are
refused. Questions about earlier fields are answered from what it has seen. Bulk transfers are declined. -/
def taker (K : View) : Host (List Ev) where
  notify g key op := (true, g ++ [.note key op])
  scalar g key op v :=
    if K key then (true, v, g ++ [.num key op v])
    else if op = 0x06 ∨ op = 0x60 then
      match K.look key (vis K g) with
      | some w => (true, w, g)
      | none => (false, v, g)
    else (true, v, g ++ [.num key op v])
  str g _ _ := (false, none, g)
  bytesAt g key op be D p := 
    if op = 0x39 then (false, D, g)
    else if strThere op be D p then (true, D, g ++ [.str key op (readStr op be D p)]) else (false, D, g)

theorem giver_quiet (K : View) : Quiet (giver K) := fun _ _ _ _ _ _ => rfl

theorem vis_append (K : View) (a b : List Ev) : vis K (a ++ b) = vis K a ++ vis K b := List.filter_append ..

theorem strFits_nulFree {op : Byte} {bs : List Byte} (h : strFits op bs = true) : NulFree bs := by
  unfold strFits at h
  simp only [Bool.and_eq_true, List.all_eq_true] at h
  intro b hb
  simpa using h.1 b hb

theorem readStr_strAt {be : Bool} {op : Byte} {D : List Byte} {p : Nat} {bs : List Byte}
    (hf : strFits op bs = true) (h : StrAt be op D p bs) : readStr op be D p = bs := by
  have hn := strFits_nulFree hf
  unfold strFits at hf
  simp only [Bool.and_eq_true] at hf
  have hpre : ∀ n, strPrefix op = some (n + 1) → n + 1 ≤ 8 → (op = 0x31 ∧ n + 1 = 1 ∨ op = 0x32 ∧ n + 1 = 2 ∨
      op = 0x33 ∧ n + 1 = 4) → readStr op be D p = bs := by
    intro n hsz h8 hop
    rw [hsz] at hf
    obtain ⟨_, h2, h3⟩ := h.2 (n + 1) hop
    have hlt : bs.length < 2 ^ (8 * (n + 1)) := by simpa using hf.2
    have hle : 2 ^ (8 * (n + 1)) ≤ 2 ^ 64 := Nat.pow_le_pow_right (by omega) (by omega)
    unfold readStr
    rw [hsz]
    dsimp only
    rw [h3, rdWord_wrBytes _ _ _ h8, toNat_truncB, BitVec.toNat_ofNat, Nat.mod_eq_of_lt (a := bs.length) (by omega),
      Nat.mod_eq_of_lt hlt, h2]
  by_cases h0 : op = 0x30
  · subst h0
    have e := h.1 rfl
    show (D.drop p).takeWhile (· ≠ 0) = bs
    have e2 : D.drop p = bs ++ (0 : Byte) :: (D.drop p).drop (bs.length + 1) := by
      conv => lhs; rw [← List.take_append_drop (bs.length + 1) (D.drop p), e]
      simp
    rw [e2]
    exact takeWhile_nulFree hn _
  by_cases h1 : op = 0x31
  · subst h1; exact hpre 0 rfl (by omega) (by simp)
  by_cases h2 : op = 0x32
  · subst h2; exact hpre 1 rfl (by omega) (by simp)
  by_cases h3 : op = 0x33
  · subst h3; exact hpre 3 rfl (by omega) (by simp)
  have : strPrefix op = none := by unfold strPrefix; rw [if_neg h0, if_neg h1, if_neg h2, if_neg h3]
  rw [this] at hf
  simp at hf

theorem strThere_strAt {be : Bool} {op : Byte} {D : List Byte} {p : Nat} {bs : List Byte}
    (hf : strFits op bs = true) (h : StrAt be op D p bs) : strThere op be D p = true := by
  unfold strFits at hf
  simp only [Bool.and_eq_true] at hf
  have hpre : ∀ n, strPrefix op = some (n + 1) → n + 1 ≤ 8 → (op = 0x31 ∧ n + 1 = 1 ∨ op = 0x32 ∧ n + 1 = 2 ∨
      op = 0x33 ∧ n + 1 = 4) → strThere op be D p = true := by
    intro n hsz h8 hop
    rw [hsz] at hf
    obtain ⟨h1, h2, h3⟩ := h.2 (n + 1) hop
    have hlt : bs.length < 2 ^ (8 * (n + 1)) := by simpa using hf.2
    have hle : 2 ^ (8 * (n + 1)) ≤ 2 ^ 64 := Nat.pow_le_pow_right (by omega) (by omega)
    unfold strThere
    rw [hsz]
    dsimp only
    rw [h3, rdWord_wrBytes _ _ _ h8, toNat_truncB, BitVec.toNat_ofNat, Nat.mod_eq_of_lt (a := bs.length) (by omega),
      Nat.mod_eq_of_lt hlt, decide_eq_true_eq]
    have hl := congrArg List.length h2
    simp only [List.length_take, List.length_drop] at hl
    have hl3 := congrArg List.length h3
    simp only [List.length_take, List.length_drop, wrBytes_length] at hl3
    clear hlt hle hf
    have : min (n + 1) (D.length - (p - (n + 1))) ≤ D.length - (p - (n + 1)) := Nat.min_le_right ..
    have : min bs.length (D.length - p) ≤ D.length - p := Nat.min_le_right ..
    omega
  by_cases h0 : op = 0x30
  · subst h0
    have e := h.1 rfl
    show (D.drop p).any (· == 0) = true
    have e2 : D.drop p = bs ++ (0 : Byte) :: (D.drop p).drop (bs.length + 1) := by
      conv => lhs; rw [← List.take_append_drop (bs.length + 1) (D.drop p), e]
      simp
    rw [e2]
    simp
  by_cases h1 : op = 0x31
  · subst h1; exact hpre 0 rfl (by omega) (by simp)
  by_cases h2 : op = 0x32
  · subst h2; exact hpre 1 rfl (by omega) (by simp)
  by_cases h3 : op = 0x33
  · subst h3; exact hpre 3 rfl (by omega) (by simp)
  have : strPrefix op = none := by unfold strPrefix; rw [if_neg h0, if_neg h1, if_neg h2, if_neg h3]
  rw [this] at hf
  simp at hf

/-- Fixed fields have a scalar opcode. -/
def HidTags (K : View) (g : List Ev) : Prop := ∀ k op w, .num k op w ∈ g → K k = true → (tyTag (op.setWidth 64)).isSome

theorem hidTags_snoc {K : View} {g : List Ev} (h : HidTags K g) {e : Ev}
    (he : ∀ k op w, e = .num k op w → K k = true → (tyTag (op.setWidth 64)).isSome) : HidTags K (g ++ [e]) := by
  intro k op w hm hk
  rcases List.mem_append.1 hm with hm | hm
  · exact h k op w hm hk
  · exact he k op w (List.mem_singleton.1 hm).symm hk

/-- The recording host follows the supplying one. -/
theorem giver_taker (K : View) :
    HostSim (giver K) (taker K) (fun k => K k = true) (fun h g => h.done = vis K g ∧ HidTags K g) where
  notify := by
    intro h g key op h' ⟨hR, hT⟩ hs
    simp only [giver] at hs
    split at hs
    · split at hs
      · rename_i hc
        simp only [Prod.mk.injEq, true_and] at hs
        subst hs
        refine ⟨_, rfl, ?_, hidTags_snoc hT (fun _ _ _ e => (by cases e))⟩
        rw [vis_append, hR, hc.1, hc.2]
        rfl
      · simp at hs
    · simp at hs
  give := by
    intro h g key op w h' hop ⟨hR, hT⟩ hs
    simp only [giver] at hs
    split at hs
    · simp at hs
    rename_i hK
    split at hs
    · rename_i hq
      rcases hq with rfl | rfl <;> simp [isQuery] at hop
    rename_i hq
    split at hs
    · rename_i w' _ _
      split at hs
      · rename_i hc
        simp only [Prod.mk.injEq, true_and] at hs
        obtain ⟨rfl, rfl⟩ := hs
        refine ⟨g ++ [.num key op w'], ?_, ?_, hidTags_snoc hT (fun _ _ _ e h => (by cases e; exact absurd h hK))⟩
        · simp only [taker, if_neg hK, if_neg hq]
        · rw [vis_append, hR, hc.1, hc.2.1]
          simp [vis, hK]
      · simp at hs
    · simp at hs
  query := by
    intro h g key op v w h' hop ⟨hR, hT⟩ hs
    simp only [giver] at hs
    split at hs
    · simp at hs
    rename_i hK
    split at hs
    · rename_i hq
      split at hs
      · rename_i w' hw
        simp only [Prod.mk.injEq, true_and] at hs
        obtain ⟨rfl, rfl⟩ := hs
        refine ⟨g, ?_, hR, hT⟩
        simp only [taker, if_neg hK, if_pos hq, ← hR, hw]
      · simp at hs
    rename_i hq
    split at hs
    · rename_i w' _ _
      split at hs
      · rename_i hc
        simp only [Prod.mk.injEq, true_and] at hs
        have := hc.2.2 hop
        obtain ⟨rfl, rfl⟩ := hs
        subst this
        refine ⟨g ++ [.num key op w'], ?_, ?_, hidTags_snoc hT (fun _ _ _ e h => (by cases e; exact absurd h hK))⟩
        · simp only [taker, if_neg hK, if_neg hq]
        · rw [vis_append, hR, hc.1, hc.2.1]
          simp [vis, hK]
      · simp at hs
    · simp at hs
  const := by
    intro h g key op v hK ht ⟨hR, hT⟩
    refine ⟨v, g ++ [.num key op v], ?_, ?_, hidTags_snoc hT (fun _ _ _ e h => (by cases e; exact ht))⟩
    · simp only [taker, hK, if_true]
    · rw [vis_append, hR]
      simp [vis, hK]
  str := by
    intro h g key op so h' be D p ⟨hR, hT⟩ hs hat
    simp only [giver] at hs
    split at hs
    · rename_i k o bs t htodo
      split at hs
      · rename_i hc
        simp only [Prod.mk.injEq, true_and] at hs
        obtain ⟨rfl, rfl⟩ := hs
        have hcs : cstr (some (bs ++ [0])) = bs := cstr_nulFree (strFits_nulFree hc.2.2) []
        rw [hcs] at hat
        refine ⟨g ++ [.str key op bs], ?_, ?_, hidTags_snoc hT (fun _ _ _ e => (by cases e))⟩
        · have hne : op ≠ 0x39 := by
            rintro rfl
            have := hc.2.2
            simp [strFits, strPrefix] at this
          simp only [taker, if_neg hne, strThere_strAt hc.2.2 hat, if_true, readStr_strAt hc.2.2 hat]
        · rw [vis_append, hR, hc.1, hc.2.1]
          rfl
      · simp at hs
    · simp at hs
  noBulkH := fun _ _ _ _ _ => rfl
  noBulkG := fun _ _ _ _ _ => rfl

/-! ### Schemas -/

/-- A packet description. `scalar` covers u8..u64, i8..i64, f32, f64 and bool by opcode. -/
inductive Fld
  | empty
  | seq (a b : Fld)
  | scalar (op k0 k1 : Byte)
  | range (t : Ty) (k0 k1 : Byte) (lo hi : Word)
  | enum (t : Ty) (k0 k1 : Byte) (vals : List Word)
  | const (t : Ty) (k0 k1 : Byte) (c : Word)
  | strNull (k0 k1 m0 m1 : Byte)
  | strPre (p : Pre) (k0 k1 : Byte)
  | bitU (k0 k1 n : Byte)
  | bitI (k0 k1 n : Byte)
  | bitBool (k0 k1 : Byte)
  | pad (n : Byte)
  | fill (b : Byte)
  | setLE
  | setBE
  | nop
  | enterBit
  | exitBit
  | version (b : Byte)
  | name (b0 b1 : Byte)
  | struct (k0 k1 : Byte) (f : Fld)
  | arrFixed (k0 k1 : Byte) (count : Word) (f : Fld)
  | arrPre (p : Pre) (k0 k1 : Byte) (f : Fld)
  | arrDyn (k0 k1 r0 r1 : Byte) (f : Fld)
  | crc (c : CrcPar)

def Pre.arrOp : Pre → Byte
  | .p1 => 0x35 | .p2 => 0x36 | .p4 => 0x37

/-- The bytecode of a packet description (cnd_parser.c, parse_field 730-1295). -/
def Fld.code : Fld → List Byte
  | .empty => []
  | .seq a b => a.code ++ b.code
  | .scalar op k0 k1 => [op, k0, k1]
  | .range t k0 k1 lo hi => [t.tag, k0, k1] ++ rangeCode t lo hi
  | .enum t k0 k1 vals => [t.tag, k0, k1] ++ enumCode t vals
  | .const t k0 k1 c => constCode t k0 k1 c
  | .strNull k0 k1 m0 m1 => strNullCode k0 k1 m0 m1
  | .strPre p k0 k1 => [p.strOp, k0, k1]
  | .bitU k0 k1 n => [0x20, k0, k1, n]
  | .bitI k0 k1 n => [0x21, k0, k1, n]
  | .bitBool k0 k1 => [0x22, k0, k1]
  | .pad n => [0x23, n]
  | .fill b => [0x24, b]
  | .setLE => [0x01]
  | .setBE => [0x02]
  | .nop => [0x00]
  | .enterBit => [0x25]
  | .exitBit => [0x26]
  | .version b => [0x05, b]
  | .name b0 b1 => [0x07, b0, b1]
  | .struct k0 k1 f => [0x03, k0, k1] ++ (f.code ++ [0x04])
  | .arrFixed k0 k1 n f => ([0x34, k0, k1] ++ leBytes 4 n) ++ (f.code ++ [0x38])
  | .arrPre p k0 k1 f => [p.arrOp, k0, k1] ++ (f.code ++ [0x38])
  | .arrDyn k0 k1 r0 r1 f => [0x3B, k0, k1, r0, r1] ++ (f.code ++ [0x38])
  | .crc c => crcCode c

/-- Nesting depth of arrays. -/
def Fld.depth : Fld → Nat
  | .seq a b => max a.depth b.depth
  | .struct _ _ f => f.depth
  | .arrFixed _ _ _ f | .arrPre _ _ _ f | .arrDyn _ _ _ _ f => f.depth + 1
  | _ => 0

/-- Position in bits, current byte order, and the events so far. -/
structure P where
  pos : Nat
  be : Bool
  evs : List Ev

/-- Next byte boundary. -/
def up8 (n : Nat) : Nat := 8 * ((n + 7) / 8)

/-- The place after a byte-aligned item of `n` bytes with event `es`. -/
def P.bytes (p : P) (n : Nat) (es : List Ev) : P := ⟨up8 p.pos + 8 * n, p.be, p.evs ++ es⟩

/-- The place after `n` bits. -/
def P.bits (p : P) (n : Nat) (es : List Ev) : P := ⟨p.pos + n, p.be, p.evs ++ es⟩

/-- `n` repetitions, each ending at a byte boundary. -/
def Reps (R : P → P → Prop) : Nat → P → P → Prop
  | 0, p, q => q = p
  | n + 1, p, q => ∃ m, R p m ∧ Reps R n (m.bytes 0 []) q

/-- Byte strings in which array-opening bytes and 0x38 are properly nested. -/
inductive Nested : List Byte → Prop
  | nil : Nested []
  | byte (b : Byte) (bs : List Byte) : isArrOp b = false → b ≠ 0x38 → Nested bs → Nested (b :: bs)
  | arr (b : Byte) (xs ys : List Byte) : isArrOp b = true → Nested xs → Nested ys → Nested (b :: (xs ++ 0x38 :: ys))

/-- An array of `n` elements after its head: bodies, then the end notification; nothing at all if empty (then the
body is skipped by scanning its bytes, which must be properly nested, see C18). -/
def ArrBody (R : P → P → Prop) (code : List Byte) (n : Nat) (p q : P) : Prop :=
  if n = 0 then Nested code ∧ q = p
  else ∃ m, Reps R n p m ∧ q = m.bytes 0 [.note 0 0x38]

/-- `Rec K f p q`: a record that fits `f`, laid out from place `p` to place `q`; the events of the record are
those `q` has in addition to `p`. `K` are the keys of constant fields. -/
def Rec (K : View) : Fld → P → P → Prop
  | .empty, p, q => q = p
  | .seq a b, p, q => ∃ m, Rec K a p m ∧ Rec K b m q
  | .scalar op k0 k1, p, q => ∃ n v, scalarWidth op.toNat = some n ∧ ScalarVal op n v ∧
      K (keyNum k0 k1) = false ∧ q = p.bytes n [.num (keyNum k0 k1) op v]
  | .range t k0 k1 lo hi, p, q => ∃ v : Word, v.toNat < 2 ^ (8 * t.size) ∧
      lo.toNat < 2 ^ (8 * t.size) ∧ hi.toNat < 2 ^ (8 * t.size) ∧
      t.val lo.toNat ≤ t.val v.toNat ∧ t.val v.toNat ≤ t.val hi.toNat ∧
      K (keyNum k0 k1) = false ∧ q = p.bytes t.size [.num (keyNum k0 k1) t.tag v]
  | .enum t k0 k1 vals, p, q => ∃ v : Word, v ∈ vals ∧ (∀ x ∈ vals, x.toNat < 2 ^ (8 * t.size)) ∧
      vals.length < 2 ^ 16 ∧ K (keyNum k0 k1) = false ∧ q = p.bytes t.size [.num (keyNum k0 k1) t.tag v]
  | .const t k0 k1 c, p, q => c.toNat < 2 ^ (8 * t.size) ∧ K (keyNum k0 k1) = true ∧ q = p.bytes t.size []
  | .strNull k0 k1 m0 m1, p, q => ∃ bs, NulFree bs ∧ bs.length ≤ keyNum m0 m1 ∧
      q = p.bytes (bs.length + 1) [.str (keyNum k0 k1) 0x30 bs]
  | .strPre r k0 k1, p, q => ∃ bs, NulFree bs ∧ bs.length < 2 ^ (8 * r.size) ∧
      q = p.bytes (r.size + bs.length) [.str (keyNum k0 k1) r.strOp bs]
  | .bitU k0 k1 n, p, q => ∃ v : Word, n.toNat ≤ 64 ∧ v.toNat < 2 ^ n.toNat ∧ K (keyNum k0 k1) = false ∧
      q = p.bits n.toNat [.num (keyNum k0 k1) 0x20 v]
  | .bitI k0 k1 n, p, q => ∃ v : Word, 0 < n.toNat ∧ n.toNat ≤ 64 ∧
      -(2 ^ (n.toNat - 1) : Int) ≤ v.toInt ∧ v.toInt < 2 ^ (n.toNat - 1) ∧ K (keyNum k0 k1) = false ∧
      q = p.bits n.toNat [.num (keyNum k0 k1) 0x21 v]
  | .bitBool k0 k1, p, q => ∃ v : Word, v.toNat ≤ 1 ∧ K (keyNum k0 k1) = false ∧
      q = p.bits 1 [.num (keyNum k0 k1) 0x22 v]
  | .pad n, p, q => n.toNat ≤ 64 ∧ q = p.bits n.toNat []
  | .fill _, p, q => q = p.bytes 0 []
  | .setLE, p, q => (p.pos % 8 = 0 ∨ p.be = false) ∧ q = ⟨p.pos, false, p.evs⟩
  | .setBE, p, q => (p.pos % 8 = 0 ∨ p.be = true) ∧ q = ⟨p.pos, true, p.evs⟩
  | .nop, p, q | .enterBit, p, q | .version _, p, q | .name _ _, p, q => q = p
  | .exitBit, p, q => p.pos % 8 = 0 ∧ q = p
  | .struct k0 k1 f, p, q => ∃ m, Rec K f (p.bits 0 [.note (keyNum k0 k1) 0x03]) m ∧ q = m.bits 0 [.note 0 0x04]
  | .arrFixed k0 k1 n f, p, q => n.toNat < 0xFFFFFFFF ∧ K (keyNum k0 k1) = false ∧
      ArrBody (Rec K f) f.code n.toNat (p.bytes 0 [.num (keyNum k0 k1) 0x34 n]) q
  | .arrPre r k0 k1 f, p, q => ∃ n : Word, n.toNat < 2 ^ (8 * r.size) ∧ n.toNat < 0xFFFFFFFF ∧
      K (keyNum k0 k1) = false ∧
      ArrBody (Rec K f) f.code n.toNat (p.bytes r.size [.num (keyNum k0 k1) r.arrOp n]) q
  | .arrDyn k0 k1 r0 r1 f, p, q => ∃ n : Word, K.look (keyNum r0 r1) p.evs = some n ∧ n.toNat < 0xFFFFFFFF ∧
      K (keyNum k0 k1) = false ∧ K (keyNum r0 r1) = false ∧
      ArrBody (Rec K f) f.code n.toNat (p.bytes 0 [.num (keyNum k0 k1) 0x3B n]) q
  | .crc c, p, q => c.ok ∧ q = p.bytes c.size []

end Cnd
