/-
  C39 for compiled packets: the packets of `C40_partial` execute only instructions the verifier saw.
-/
import Verif.Props.Verify
import Verif.Props.Arrays

namespace Cnd

/-- Offsets of the instructions in the code of a packet description. -/
def Fld.starts : Fld → List Nat
  | .empty => []
  | .seq a b => a.starts ++ b.starts.map (a.code.length + ·)
  | .struct _ _ f => 0 :: (f.starts.map (3 + ·) ++ [3 + f.code.length])
  | .arrFixed _ _ _ f => 0 :: (f.starts.map (7 + ·) ++ [7 + f.code.length])
  | .arrPre _ _ _ f => 0 :: (f.starts.map (3 + ·) ++ [3 + f.code.length])
  | .arrDyn _ _ _ _ f => 0 :: (f.starts.map (5 + ·) ++ [5 + f.code.length])
  | _ => [0]

/-- An instruction of the packet, or its end. -/
def Fld.here (f : Fld) (y : Nat) : Prop := y ∈ f.starts ∨ y = f.code.length

theorem here_zero (f : Fld) : f.here 0 := by
  induction f with
  | empty => exact Or.inr rfl
  | seq a b iha ihb =>
    rcases iha with h | h
    · exact Or.inl (List.mem_append_left _ h)
    · have ha : a.code = [] := List.length_eq_zero_iff.mp h.symm
      rcases ihb with h' | h'
      · refine Or.inl (List.mem_append_right _ ?_)
        rw [List.mem_map]
        exact ⟨0, h', by rw [← h]⟩
      · right; simp [Fld.code, ha, ← h']
  | _ => left; simp [Fld.starts]

theorem here_seq_left {a b : Fld} {y : Nat} (h : a.here y) : (Fld.seq a b).here y := by
  rcases h with h | rfl
  · exact Or.inl (List.mem_append_left _ h)
  · rcases here_zero b with h | h
    · refine Or.inl (List.mem_append_right _ ?_)
      rw [List.mem_map]
      exact ⟨0, h, rfl⟩
    · right; simp [Fld.code, ← h]

theorem here_seq_right {a b : Fld} {y : Nat} (h : b.here y) : (Fld.seq a b).here (a.code.length + y) := by
  rcases h with h | rfl
  · exact Or.inl (List.mem_append_right _ (List.mem_map.mpr ⟨y, h, rfl⟩))
  · right; simp [Fld.code]

theorem vmLen_instr {prog : List Byte} {ip : Nat} {op : Byte} {args : List Byte}
    (hat : At prog ip (op :: args)) (hk : ∀ r, opArgs (decodeOp op) r = some args.length) :
    vmLen (prog.drop ip) = some (args.length + 1) := by
  obtain ⟨rest, hr⟩ := hat
  rw [hr, List.cons_append]
  unfold vmLen
  dsimp only
  rw [hk]
  dsimp only
  rw [if_pos (by simp)]

theorem at_op {prog : List Byte} {ip : Nat} {op : Byte} {args : List Byte}
    (hat : At prog ip (op :: args)) : prog[ip]? = some op := by
  obtain ⟨rest, hr⟩ := hat
  have : (prog.drop ip)[0]? = some op := by rw [hr]; rfl
  simpa using this

/-- What is known about the instruction at offset `x`. -/
def Cell (f : Fld) (prog : List Byte) (base x : Nat) : Prop :=
  ∃ op n, prog[base + x]? = some op ∧ vmLen (prog.drop (base + x)) = some n ∧ f.here (x + n) ∧
    ctlOp op = false ∧
    ((decodeOp op).arr = true → ∃ y, f.here y ∧ skipBody prog (base + x + n) = base + y)

theorem cell_leaf {f : Fld} {prog : List Byte} {base : Nat} {op : Byte} {args : List Byte}
    (hc : f.code = op :: args) (hat : At prog base f.code)
    (hk : ∀ r, opArgs (decodeOp op) r = some args.length) (hctl : ctlOp op = false)
    (harr : (decodeOp op).arr = false) : Cell f prog base 0 := by
  rw [hc] at hat
  refine ⟨op, args.length + 1, at_op hat, vmLen_instr hat hk, Or.inr ?_, hctl, ?_⟩
  · rw [hc]; simp
  · intro h; rw [harr] at h; simp at h

/-- A block: head instruction `op :: args`, the code of `g`, closing instruction `fin`. -/
theorem cell_block {f g : Fld} {prog : List Byte} {base : Nat} {op fin : Byte} {args : List Byte}
    (hc : f.code = (op :: args) ++ (g.code ++ [fin]))
    (hs : f.starts = 0 :: (g.starts.map (args.length + 1 + ·) ++ [args.length + 1 + g.code.length]))
    (hat : At prog base f.code)
    (hk : ∀ r, opArgs (decodeOp op) r = some args.length) (hctl : ctlOp op = false)
    (hfin : fin = 0x38 ∨ (fin = 0x04 ∧ (decodeOp op).arr = false)) (hn : Nested g.code)
    (ih : ∀ prog base, At prog base g.code → ∀ x ∈ g.starts, Cell g prog base x) :
    ∀ x ∈ f.starts, Cell f prog base x := by
  rw [hc] at hat
  have hbody : At prog (base + (args.length + 1)) (g.code ++ [fin]) := hat.right
  have hfinAt : At prog (base + (args.length + 1) + g.code.length) [fin] := hbody.right
  have hlen : f.code.length = args.length + 1 + g.code.length + 1 := by rw [hc]; simp; omega
  have lift : ∀ y, g.here y → f.here (args.length + 1 + y) := by
    intro y hy
    left
    rw [hs]
    rcases hy with hy | rfl
    · exact List.mem_cons_of_mem _ (List.mem_append_left _ (List.mem_map.mpr ⟨y, hy, rfl⟩))
    · exact List.mem_cons_of_mem _ (List.mem_append_right _ (List.mem_singleton.mpr rfl))
  intro x hx
  rw [hs] at hx
  rcases List.mem_cons.mp hx with rfl | hx
  · refine ⟨op, args.length + 1, at_op hat.left, vmLen_instr hat.left hk, ?_, hctl, ?_⟩
    · have := lift 0 (here_zero g)
      simpa using this
    · intro harr
      rcases hfin with rfl | ⟨_, h⟩
      · refine ⟨f.code.length, Or.inr rfl, ?_⟩
        have := skipBody_nested hn hbody
        rw [Nat.add_zero, this, hlen]
        omega
      · rw [h] at harr; simp at harr
  · rcases List.mem_append.mp hx with hx | hx
    · obtain ⟨y, hy, rfl⟩ := List.mem_map.mp hx
      obtain ⟨o, n, h1, h2, h3, h4, h5⟩ := ih prog (base + (args.length + 1)) hbody.left y hy
      have e : base + (args.length + 1 + y) = base + (args.length + 1) + y := by omega
      refine ⟨o, n, by rw [e]; exact h1, by rw [e]; exact h2, ?_, h4, ?_⟩
      · have := lift _ h3
        rwa [← Nat.add_assoc] at this
      · intro ha
        obtain ⟨z, hz, hz'⟩ := h5 ha
        exact ⟨_, lift z hz, by rw [e, hz']; omega⟩
    · obtain rfl := List.mem_singleton.mp hx
      have e : base + (args.length + 1 + g.code.length) = base + (args.length + 1) + g.code.length := by
        omega
      have hop : (∀ r, opArgs (decodeOp fin) r = some 0) ∧ ctlOp fin = false ∧
          (decodeOp fin).arr = false := by
        rcases hfin with rfl | ⟨rfl, _⟩ <;> exact ⟨fun _ => rfl, rfl, rfl⟩
      refine ⟨fin, 1, by rw [e]; exact at_op hfinAt,
        by rw [e]; exact vmLen_instr (args := []) hfinAt hop.1, Or.inr (by rw [hlen]), hop.2.1, ?_⟩
      intro ha; rw [hop.2.2] at ha; simp at ha

theorem cells (f : Fld) (hp : f.passes = true) (hw : f.wf)
    (ho : ∀ b ∈ f.operands, bracket b = false) (prog : List Byte) (base : Nat)
    (hat : At prog base f.code) : ∀ x ∈ f.starts, Cell f prog base x := by
  induction f generalizing prog base with
  | empty => intro x hx; simp [Fld.starts] at hx
  | seq a b iha ihb =>
    simp only [Fld.passes, Bool.and_eq_true] at hp
    have hoa : ∀ b ∈ a.operands, bracket b = false := fun x hx => ho x (by simp [Fld.operands, hx])
    have hob : ∀ x ∈ b.operands, bracket x = false := fun x hx => ho x (by simp [Fld.operands, hx])
    have hat' : At prog base (a.code ++ b.code) := hat
    intro x hx
    rcases List.mem_append.mp hx with hx | hx
    · obtain ⟨o, n, h1, h2, h3, h4, h5⟩ := iha hp.1 hw.1 hoa prog base hat'.left x hx
      refine ⟨o, n, h1, h2, here_seq_left h3, h4, fun h => ?_⟩
      obtain ⟨y, hy, hy'⟩ := h5 h
      exact ⟨y, here_seq_left hy, hy'⟩
    · obtain ⟨y, hy, rfl⟩ := List.mem_map.mp hx
      obtain ⟨o, n, h1, h2, h3, h4, h5⟩ := ihb hp.2 hw.2 hob prog _ hat'.right y hy
      have e : base + (a.code.length + y) = base + a.code.length + y := by omega
      refine ⟨o, n, by rw [e]; exact h1, by rw [e]; exact h2, ?_, h4, fun h => ?_⟩
      · have := here_seq_right (a := a) h3
        rwa [← Nat.add_assoc] at this
      · obtain ⟨z, hz, hz'⟩ := h5 h
        exact ⟨_, here_seq_right hz, by rw [e, hz']; omega⟩
  | scalar op k0 k1 =>
    intro x hx
    obtain rfl := List.mem_singleton.mp hx
    have key : ∀ m : Fin 256, scalarWidth m.val ≠ none →
        fixedArgs (decodeOp (BitVec.ofFin m)) = some 2 ∧ ctlOp (BitVec.ofFin m) = false ∧
          (decodeOp (BitVec.ofFin m)).arr = false := by decide +kernel
    have := key op.toFin hw
    exact cell_leaf (args := [k0, k1]) rfl hat (opArgs_fixed this.1) this.2.1 this.2.2
  | range | enum | const | bitU | bitI | crc => simp [Fld.passes] at hp
  | strNull k0 k1 m0 m1 =>
    intro x hx
    obtain rfl := List.mem_singleton.mp hx
    exact cell_leaf (op := 0x30) (args := [k0, k1, m0, m1]) rfl hat (fun _ => rfl) rfl rfl
  | strPre p k0 k1 =>
    intro x hx
    obtain rfl := List.mem_singleton.mp hx
    cases p
    · exact cell_leaf (op := 0x31) (args := [k0, k1]) rfl hat (fun _ => rfl) rfl rfl
    · exact cell_leaf (op := 0x32) (args := [k0, k1]) rfl hat (fun _ => rfl) rfl rfl
    · exact cell_leaf (op := 0x33) (args := [k0, k1]) rfl hat (fun _ => rfl) rfl rfl
  | bitBool k0 k1 =>
    intro x hx
    obtain rfl := List.mem_singleton.mp hx
    exact cell_leaf (op := 0x22) (args := [k0, k1]) rfl hat (fun _ => rfl) rfl rfl
  | name b0 b1 =>
    intro x hx
    obtain rfl := List.mem_singleton.mp hx
    exact cell_leaf (op := 0x07) (args := [b0, b1]) rfl hat (fun _ => rfl) rfl rfl
  | pad b =>
    intro x hx
    obtain rfl := List.mem_singleton.mp hx
    exact cell_leaf (op := 0x23) (args := [b]) rfl hat (fun _ => rfl) rfl rfl
  | fill b =>
    intro x hx
    obtain rfl := List.mem_singleton.mp hx
    exact cell_leaf (op := 0x24) (args := [b]) rfl hat (fun _ => rfl) rfl rfl
  | version b =>
    intro x hx
    obtain rfl := List.mem_singleton.mp hx
    exact cell_leaf (op := 0x05) (args := [b]) rfl hat (fun _ => rfl) rfl rfl
  | setLE | setBE | nop | enterBit | exitBit =>
    intro x hx
    obtain rfl := List.mem_singleton.mp hx
    exact cell_leaf (args := []) rfl hat (fun _ => rfl) rfl rfl
  | struct k0 k1 g ih =>
    simp only [Fld.passes, Bool.and_eq_true] at hp
    have hog : ∀ b ∈ g.operands, bracket b = false := fun x hx => ho x (by simp [Fld.operands, hx])
    exact cell_block (op := 0x03) (fin := 0x04) (args := [k0, k1]) rfl rfl hat (fun _ => rfl) rfl
      (Or.inr ⟨rfl, rfl⟩) (nested_code g hw hog) fun p b h => ih hp.2 hw hog p b h
  | arrFixed k0 k1 c g ih =>
    have hog : ∀ b ∈ g.operands, bracket b = false := fun x hx => ho x (by simp [Fld.operands, hx])
    exact cell_block (op := 0x34) (fin := 0x38) (args := [k0, k1] ++ leBytes 4 c) rfl
      (by simp [Fld.starts, leBytes]) hat (fun _ => by simp [leBytes]; rfl) rfl
      (Or.inl rfl) (nested_code g hw hog) fun p b h => ih hp hw hog p b h
  | arrPre p k0 k1 g ih =>
    have hog : ∀ b ∈ g.operands, bracket b = false := fun x hx => ho x (by simp [Fld.operands, hx])
    cases p
    · exact cell_block (op := 0x35) (fin := 0x38) (args := [k0, k1]) rfl rfl hat (fun _ => rfl) rfl
        (Or.inl rfl) (nested_code g hw hog) fun p b h => ih hp hw hog p b h
    · exact cell_block (op := 0x36) (fin := 0x38) (args := [k0, k1]) rfl rfl hat (fun _ => rfl) rfl
        (Or.inl rfl) (nested_code g hw hog) fun p b h => ih hp hw hog p b h
    · exact cell_block (op := 0x37) (fin := 0x38) (args := [k0, k1]) rfl rfl hat (fun _ => rfl) rfl
        (Or.inl rfl) (nested_code g hw hog) fun p b h => ih hp hw hog p b h
  | arrDyn k0 k1 r0 r1 g ih =>
    simp only [Fld.passes, Bool.and_eq_true] at hp
    have hog : ∀ b ∈ g.operands, bracket b = false := fun x hx => ho x (by simp [Fld.operands, hx])
    exact cell_block (op := 0x3B) (fin := 0x38) (args := [k0, k1, r0, r1]) rfl rfl hat (fun _ => rfl) rfl
      (Or.inl rfl) (nested_code g hw hog) fun p b h => ih hp.2 hw hog p b h

/-! ### The verifier's boundaries -/

theorem vbound_seq {prog code : List Byte} (h : VSeq code) (hl : prog.length < 2 ^ 32 - 20) {base : Nat}
    (hat : At prog base code) (hb : VBound prog base) : VBound prog (base + code.length) := by
  induction h generalizing base with
  | nil => exact hb
  | cons op args rest h1 h2 _ ih =>
    have hat' : At prog base ((op :: args) ++ rest) := hat
    have ho := at_op hat
    have hle : base + (args.length + 1) ≤ prog.length := by
      obtain ⟨r, hr⟩ := hat'
      have := congrArg List.length hr
      simp at this
      have hip := (List.getElem?_eq_some_iff.mp ho).1
      omega
    have hs := verStep_plain hl ho h1 h2 hle
    have hb' := VBound.next hb (by rw [u32_id (by omega)]; omega) hs
    have := ih hat'.right hb'
    simpa [Nat.add_assoc, Nat.add_comm, Nat.add_left_comm] using this

theorem vbound_starts (f : Fld) (hp : f.passes = true) (prog : List Byte)
    (hl : prog.length < 2 ^ 32 - 20) (base : Nat) (hat : At prog base f.code) (hb : VBound prog base) :
    ∀ x ∈ f.starts, VBound prog (base + x) := by
  have block : ∀ (g : Fld) (head : List Byte) (fin : Byte) (base : Nat),
      (∀ base, At prog base g.code → VBound prog base → ∀ x ∈ g.starts, VBound prog (base + x)) →
      VSeq head → VSeq g.code → At prog base (head ++ (g.code ++ [fin])) → VBound prog base →
      ∀ x ∈ 0 :: (g.starts.map (head.length + ·) ++ [head.length + g.code.length]),
        VBound prog (base + x) := by
    intro g head fin base ih h1 h2 hat hb x hx
    have hb1 := vbound_seq h1 hl hat.left hb
    rcases List.mem_cons.mp hx with rfl | hx
    · exact hb
    · rcases List.mem_append.mp hx with hx | hx
      · obtain ⟨y, hy, rfl⟩ := List.mem_map.mp hx
        have := ih _ hat.right.left hb1 y hy
        rwa [Nat.add_assoc] at this
      · obtain rfl := List.mem_singleton.mp hx
        have := vbound_seq h2 hl hat.right.left hb1
        rwa [Nat.add_assoc] at this
  induction f generalizing base with
  | empty => intro x hx; simp [Fld.starts] at hx
  | seq a b iha ihb =>
    have hps := passes_seq _ hp
    simp only [Fld.passes, Bool.and_eq_true] at hp
    have hat' : At prog base (a.code ++ b.code) := hat
    intro x hx
    rcases List.mem_append.mp hx with hx | hx
    · exact iha hp.1 base hat'.left hb x hx
    · obtain ⟨y, hy, rfl⟩ := List.mem_map.mp hx
      have := ihb hp.2 _ hat'.right (vbound_seq (passes_seq a hp.1) hl hat'.left hb) y hy
      rwa [Nat.add_assoc] at this
  | struct k0 k1 g ih =>
    simp only [Fld.passes, Bool.and_eq_true] at hp
    exact block g [0x03, k0, k1] 0x04 base (fun base => ih hp.2 base)
      (ones (by simpa using ⟨by decide, hp.1.1, hp.1.2⟩)) (passes_seq g hp.2) hat hb
  | arrFixed k0 k1 c g ih =>
    have hlen : ([0x34, k0, k1] ++ leBytes 4 c).length = 7 := by simp [leBytes]
    have := block g ([0x34, k0, k1] ++ leBytes 4 c) 0x38 base (fun base => ih hp base)
      (VSeq.instr 0x34 ([k0, k1] ++ leBytes 4 c) (by simp [leBytes]; rfl) rfl) (passes_seq g hp) hat hb
    rwa [hlen] at this
  | arrPre p k0 k1 g ih =>
    refine block g [p.arrOp, k0, k1] 0x38 base (fun base => ih hp base) ?_ (passes_seq g hp) hat hb
    cases p
    · exact VSeq.instr 0x35 [k0, k1] rfl rfl
    · exact VSeq.instr 0x36 [k0, k1] rfl rfl
    · exact VSeq.instr 0x37 [k0, k1] rfl rfl
  | arrDyn k0 k1 r0 r1 g ih =>
    simp only [Fld.passes, Bool.and_eq_true] at hp
    exact block g [0x3B, k0, k1, r0, r1] 0x38 base (fun base => ih hp.2 base)
      (ones (by simpa using ⟨by decide, hp.1.1.1.1, hp.1.1.1.2, hp.1.1.2, hp.1.2⟩)) (passes_seq g hp.2)
      hat hb
  | _ =>
    intro x hx
    obtain rfl := List.mem_singleton.mp hx
    exact hb

theorem targets_plain {prog : List Byte} {ip : Nat} {op : Byte} (ho : prog[ip]? = some op)
    (hc : ctlOp op = false) : targets prog ip = [] := by
  have key : ∀ m : Fin 256, ctlOp (BitVec.ofFin m) = false →
      (match decodeOp (BitVec.ofFin m) with
        | .jump | .jumpIfNot | .switch | .switchTable => false | _ => true) = true := by decide +kernel
  have := key op.toFin hc
  unfold targets
  rw [ho, Option.map_some]
  have hb : BitVec.ofFin op.toFin = op := rfl
  rw [hb] at this
  cases h : decodeOp op <;> simp [h] at this ⊢

/-- **C39 for compiled packets, partial.** A packet description made of what the verifier
understands (`passes`) and whose operand bytes do not look like array instructions is accepted, and
its execution, in either direction and with any host, only meets instructions the verifier saw. -/
theorem C39_packets_partial (f : Fld) (hp : f.passes = true) (hw : f.wf)
    (ho : ∀ b ∈ f.operands, bracket b = false) (hl : f.code.length < 2 ^ 32 - 20) :
    Accepted f.code ∧ OnlySeen f.code := by
  have hat : At f.code 0 f.code := ⟨[], by simp⟩
  have hcell := cells f hp hw ho f.code 0 hat
  have hsub : ∀ x, f.here x → x < f.code.length → x ∈ f.starts := by
    intro x hx hlt
    rcases hx with hx | rfl
    · exact hx
    · omega
  have cell : ∀ x op, f.here x → f.code[x]? = some op → ∃ n, vmLen (f.code.drop x) = some n ∧
      f.here (x + n) ∧ ctlOp op = false ∧
      ((decodeOp op).arr = true → f.here (skipBody f.code (x + n))) := by
    intro x op hx hop
    have hlt := (List.getElem?_eq_some_iff.mp hop).1
    obtain ⟨o, n, h1, h2, h3, h4, h5⟩ := hcell x (hsub x hx hlt)
    rw [Nat.zero_add] at h1 h2
    rw [h1] at hop
    obtain rfl := Option.some.inj hop
    refine ⟨n, h2, h3, h4, fun ha => ?_⟩
    obtain ⟨y, hy, hy'⟩ := h5 ha
    rw [Nat.zero_add, Nat.zero_add] at hy'
    rw [hy']
    exact hy
  refine ⟨C40_partial f hp hl, onlySeen_of f.code hl (C40_partial f hp hl) f.here (here_zero f) ?_ ?_ ?_ ?_ ?_⟩
  · intro x hx
    rcases hx with hx | rfl
    · have := vbound_starts f hp f.code hl 0 hat .start x hx
      rwa [Nat.zero_add] at this
    · have := vbound_seq (passes_seq f hp) hl hat .start
      rwa [Nat.zero_add] at this
  · intro x hx hfr
    obtain ⟨n, _, _, h, _⟩ := cell x _ hx hfr.1
    exact absurd h (by decide)
  · intro x hx hlt
    obtain ⟨n, h1, h2, _⟩ := cell x _ hx (List.getElem?_eq_getElem hlt)
    exact ⟨n, h1, h2⟩
  · intro x t hx ht
    cases hop : f.code[x]? with
    | none => unfold targets at ht; rw [hop] at ht; simp at ht
    | some op =>
      obtain ⟨n, _, _, h, _⟩ := cell x _ hx hop
      rw [targets_plain hop h] at ht
      simp at ht
  · intro x op n hx hop ha hv
    obtain ⟨n', h1, _, _, h⟩ := cell x _ hx hop
    rw [hv] at h1
    obtain rfl := Option.some.inj h1
    exact h ha

/-- A packet with a name, a number, a string and an array of numbers meets the hypotheses. -/
example :
    let f := Fld.seq (.name 3 0) (.seq (.scalar 0x11 0 0) (.seq (.strPre .p1 1 0)
      (.arrPre .p2 2 0 (.scalar 0x10 2 0))))
    f.passes = true ∧ (∀ b ∈ f.operands, bracket b = false) ∧ f.wf ∧ f.code.length < 2 ^ 32 - 20 := by
  refine ⟨by decide +kernel, by decide +kernel, ?_, by decide +kernel⟩
  exact ⟨trivial, show scalarWidth 0x11 ≠ none by decide, trivial, show scalarWidth 0x10 ≠ none by decide⟩

end Cnd
