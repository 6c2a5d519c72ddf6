/-
  C38-C40: the bytecode verifier (model: Verify.lean).
-/
import Verif.Verify
import Verif.Walk
import Verif.Schema
import Verif.Run
import Verif.Demo

namespace Cnd

/-! ### C38: it terminates and reads only the program -/

theorem peekLe_some {prog : List Byte} {a n : Nat} (h : a + n ≤ prog.length) :
    peekLe prog a n = some (leWord ((prog.drop a).take n)) := by
  unfold peekLe; rw [if_pos h]

theorem offsOk_some (prog : List Byte) (len base stride : Nat) (hs : 4 ≤ stride) (n a : Nat)
    (h : a + stride * n ≤ prog.length + (stride - 4)) :
    ∃ b, offsOk prog len base stride n a = some b := by
  induction n generalizing a with
  | zero => exact ⟨_, rfl⟩
  | succ n ih =>
    rw [Nat.mul_succ] at h
    have h4 : a + 4 ≤ prog.length := by
      have := Nat.zero_le (stride * n); omega
    unfold offsOk
    rw [peekLe_some h4]
    dsimp only
    split
    · exact ih _ (by omega)
    · exact ⟨_, rfl⟩

theorem u32_id {n : Nat} (h : n < 2 ^ 32) : u32 n = n := Nat.mod_eq_of_lt h

theorem verSwitch_ub (prog : List Byte) (hl : prog.length < 2 ^ 32 - 20) (ip : Nat)
    (hip : ip < prog.length) : verSwitch prog prog.length ip ≠ some .ub := by
  unfold verSwitch
  rw [u32_id (show ip + 7 < 2 ^ 32 by omega)]
  split
  · simp
  · rw [peekLe_some (by omega)]
    dsimp only
    generalize u32 (ip + 7 + _) = ts
    split
    · simp
    · split
      · simp
      · rw [peekLe_some (by omega), peekLe_some (by omega)]
        dsimp only
        split
        · simp
        · rename_i h
          split
          · simp
          · obtain ⟨b, hb⟩ := offsOk_some prog prog.length (ip + 7) 12 (by omega)
              (leWord ((prog.drop ts).take 2)).toNat (ts + 14) (by omega)
            rw [hb]
            cases b <;> simp

theorem verTable_ub (prog : List Byte) (hl : prog.length < 2 ^ 32 - 20) (ip : Nat)
    (hip : ip < prog.length) : verTable prog prog.length ip ≠ some .ub := by
  unfold verTable
  rw [u32_id (show ip + 7 < 2 ^ 32 by omega)]
  split
  · simp
  · rw [peekLe_some (by omega)]
    dsimp only
    generalize u32 (ip + 7 + _) = ts
    split
    · simp
    · split
      · simp
      · rw [peekLe_some (by omega), peekLe_some (by omega), peekLe_some (by omega)]
        dsimp only
        generalize ((leWord (List.take 8 (List.drop (ts + 8) prog))).toNat - _ + 1) % 2 ^ 64 = count
        repeat' split
        all_goals first
          | (simp; done)
          | (rename_i heq
             obtain ⟨b, hb⟩ := offsOk_some prog prog.length (ip + 7) 4 (by omega) count (ts + 20)
               (by omega)
             rw [hb] at heq
             simp at heq)

/-- The table checks only ever stop with an error. -/
theorem verTables_res {prog : List Byte} {len ip : Nat} {op : Byte} {r : VRes}
    (h : verTables prog len ip op = some r) : r = .ub ∨ r = .done .oob ∨ r = .done .validation := by
  revert h
  unfold verTables verSwitch verTable
  repeat' (first | (dsimp only; split) | split)
  all_goals (intro h; cases h <;> simp)

theorem verLen_pos {b : Byte} {n : Nat} (h : verLen b = some n) : 1 ≤ n ∧ n ≤ 20 := by
  have key : ∀ m : Fin 256, ∀ n, verLen (BitVec.ofFin m) = some n → 1 ≤ n ∧ n ≤ 20 := by
    intro m
    have : ∀ m : Fin 256, (match verLen (BitVec.ofFin m) with
      | some n => decide (1 ≤ n ∧ n ≤ 20) | none => true) = true := by decide +kernel
    intro n hn
    have := this m
    rw [hn] at this
    simpa using this
  exact key b.toFin n h

/-- One round inside a program of moderate length: it moves forward, or stops with a code. -/
theorem verStep_total (prog : List Byte) (hl : prog.length < 2 ^ 32 - 20) (ip : Nat)
    (hip : ip < prog.length) :
    (∃ n, verStep prog ip = .next (ip + n) ∧ 1 ≤ n ∧ ip + n ≤ prog.length) ∨
      ∃ e, verStep prog ip = .done e := by
  unfold verStep
  rw [u32_id (show prog.length < 2 ^ 32 by omega)]
  dsimp only
  obtain ⟨op, hop⟩ : ∃ op, prog[ip]? = some op := ⟨_, List.getElem?_eq_getElem hip⟩
  rw [hop]
  dsimp only
  cases hv : verLen op with
  | none => exact Or.inr ⟨_, rfl⟩
  | some n =>
    dsimp only
    have hn := verLen_pos hv
    rw [u32_id (show ip + n < 2 ^ 32 by omega)]
    have hub : verTables prog prog.length ip op ≠ some .ub := by
      unfold verTables
      split
      · exact verSwitch_ub prog hl ip hip
      · split
        · exact verTable_ub prog hl ip hip
        · simp
    have hnx : ∀ x, verTables prog prog.length ip op ≠ some (.next x) := by
      intro x h
      rcases verTables_res h with h | h | h <;> cases h
    cases ht : verTables prog prog.length ip op with
    | some r =>
      cases r with
      | next x => exact absurd ht (hnx x)
      | done e => exact Or.inr ⟨e, rfl⟩
      | ub => exact absurd ht hub
    | none =>
      dsimp only
      split
      · exact Or.inr ⟨_, rfl⟩
      · split
        · rename_i hfit hj
          have h5 : n = 5 := by
            rcases hj with rfl | rfl <;> · have : some n = some 5 := hv.symm.trans rfl
                                           exact Option.some.inj this
          rw [peekLe_some (by omega)]
          dsimp only
          split
          · exact Or.inl ⟨n, rfl, by omega, by omega⟩
          · exact Or.inr ⟨_, rfl⟩
        · exact Or.inl ⟨n, rfl, by omega, by omega⟩

theorem verRun_total (prog : List Byte) (hl : prog.length < 2 ^ 32 - 20) (f ip : Nat)
    (hip : ip ≤ prog.length) (hf : prog.length < ip + f) : ∃ e, verRun prog f ip = .done e := by
  induction f generalizing ip with
  | zero => omega
  | succ f ih =>
    unfold verRun
    rw [u32_id (show prog.length < 2 ^ 32 by omega)]
    split
    · rename_i hlt
      rcases verStep_total prog hl ip hlt with ⟨n, h, h1, h2⟩ | ⟨e, h⟩
      · rw [h]
        exact ih (ip + n) h2 (by omega)
      · rw [h]; exact ⟨e, rfl⟩
    · exact ⟨_, rfl⟩

/-- **C38.** On every byte string shorter than 2^32 − 20 bytes the verifier returns a result code
after at most one round per byte, and no read leaves the string (a read outside is the outcome `ub`,
more rounds to go is the outcome `next`). -/
theorem C38_verifier_total (prog : List Byte) (hl : prog.length < 2 ^ 32 - 20) :
    ∃ e, verRun prog (prog.length + 1) 0 = .done e :=
  verRun_total prog hl _ 0 (by omega) (by omega)

/-- More rounds do not change a result. -/
theorem verRun_mono (prog : List Byte) (f k ip : Nat) (e : Err) (h : verRun prog f ip = .done e) :
    verRun prog (f + k) ip = .done e := by
  induction f generalizing ip with
  | zero => simp [verRun] at h
  | succ f ih =>
    rw [Nat.add_right_comm]
    unfold verRun at h ⊢
    split
    · rename_i hlt
      rw [if_pos hlt] at h
      cases hs : verStep prog ip with
      | next x => rw [hs] at h; exact ih x h
      | done x => rw [hs] at h; exact h
      | ub => rw [hs] at h; simp at h
    · rename_i hlt
      rw [if_neg hlt] at h; exact h

/-- The result is unique: acceptance can be read off a run with enough rounds. -/
theorem accepted_iff (prog : List Byte) (hl : prog.length < 2 ^ 32 - 20) :
    Accepted prog ↔ verRun prog (prog.length + 1) 0 = .done .ok := by
  constructor
  · intro ⟨f, hf⟩
    obtain ⟨e, he⟩ := C38_verifier_total prog hl
    have h1 := verRun_mono prog f (prog.length + 1) 0 _ hf
    have h2 := verRun_mono prog (prog.length + 1) f 0 _ he
    rw [Nat.add_comm, h2] at h1
    rw [he, h1]
  · intro h; exact ⟨_, h⟩

example : verRun [0x10, 0, 0, 0x38] 5 0 = .done .ok := by decide +kernel
example : verRun [0x10, 0] 3 0 = .done .oob := by decide +kernel
example : verRun [0x51, 0, 0, 0, 0, 0, 0, 1, 0, 0, 0, 0, 0, 5, 0, 0, 0, 0, 0, 0, 0, 0xf9, 0xff, 0xff, 0xff]
    26 0 = .done .invalidOp := by decide +kernel

/-- The bound of C38 is needed: a program of 2^32 − 1 bytes whose last instruction is cut off makes
`ip + instr_len` wrap around, and the verifier walks in circles for ever. -/
def wrapProg : List Byte := List.replicate (2 ^ 32 - 2) 0x00 ++ [0x10]

theorem wrapProg_len : wrapProg.length = 2 ^ 32 - 1 := by
  unfold wrapProg
  rw [List.length_append, List.length_replicate]
  rfl

theorem wrapProg_zero (ip : Nat) (h : ip < 2 ^ 32 - 2) : wrapProg[ip]? = some 0x00 := by
  unfold wrapProg
  rw [List.getElem?_append_left (by rw [List.length_replicate]; exact h),
    List.getElem?_replicate, if_pos h]

theorem wrapProg_last : wrapProg[2 ^ 32 - 2]? = some 0x10 := by
  unfold wrapProg
  rw [List.getElem?_append_right (by rw [List.length_replicate]; exact Nat.le_refl _),
    List.length_replicate, Nat.sub_self]
  rfl

theorem wrapProg_step (ip : Nat) (h : ip < 2 ^ 32 - 1) :
    ∃ ip', verStep wrapProg ip = .next ip' ∧ ip' < 2 ^ 32 - 1 := by
  unfold verStep
  rw [wrapProg_len, u32_id (show 2 ^ 32 - 1 < 2 ^ 32 by omega)]
  dsimp only
  by_cases hlt : ip < 2 ^ 32 - 2
  · rw [wrapProg_zero ip hlt]
    refine ⟨ip + 1, ?_, by omega⟩
    show (if u32 (ip + 1) > 2 ^ 32 - 1 then VRes.done .oob else .next (u32 (ip + 1))) = _
    rw [u32_id (show ip + 1 < 2 ^ 32 by omega), if_neg (by omega)]
  · have : ip = 2 ^ 32 - 2 := by omega
    subst this
    rw [wrapProg_last]
    exact ⟨1, rfl, by omega⟩

theorem C38_limit (f : Nat) : ∃ ip, verRun wrapProg f 0 = .next ip := by
  have : ∀ f ip, ip < 2 ^ 32 - 1 → ∃ ip', verRun wrapProg f ip = .next ip' := by
    intro f
    induction f with
    | zero => intro ip _; exact ⟨ip, rfl⟩
    | succ f ih =>
      intro ip h
      obtain ⟨ip', h1, h2⟩ := wrapProg_step ip h
      unfold verRun
      rw [wrapProg_len, u32_id (show 2 ^ 32 - 1 < 2 ^ 32 by omega), if_pos h, h1]
      exact ih ip' h2
  exact this f 0 (by omega)

/-! ### C39: accepted programs and the instructions the VM executes -/

/-- Instruction boundaries of the verifier's walk (the end of the program included). -/
inductive VBound (prog : List Byte) : Nat → Prop
  | start : VBound prog 0
  | next {ip ip' : Nat} (h : VBound prog ip) (hlt : ip < u32 prog.length)
      (hs : verStep prog ip = .next ip') : VBound prog ip'

/-- What C39 says for one program: whatever the host, the data and the direction, every instruction
executed from the start of the program begins at a boundary and is there completely. -/
def OnlySeen (prog : List Byte) : Prop :=
  ∀ (σ : Type) (E : Env σ) (s0 s : St σ), E.prog = prog → s0.ip = 0 → s0.loops = [] →
    Reach E s0 s → s.ip < prog.length →
    VBound prog s.ip ∧ ∃ n, vmLen (prog.drop s.ip) = some n

/-- Operand bytes of the instructions whose length does not depend on their operands. -/
def fixedArgs (o : Op) : Option Nat :=
  match o with
  | .constCheck | .constWrite | .rangeCheck | .enumCheck | .transPoly | .transSpline => none
  | o => opArgs o []

theorem opArgs_fixed {o : Op} {n : Nat} (h : fixedArgs o = some n) (r : List Byte) :
    opArgs o r = some n := by
  cases o <;> first | exact h | (simp [fixedArgs] at h)

/-- Opcodes to which verifier and VM give the same length, listed. -/
def agreedOp (b : Byte) : Bool :=
  let n := b.toNat
  n ≤ 0x02 || n == 0x04 || (0x10 ≤ n && n ≤ 0x1A) || (0x22 ≤ n && n ≤ 0x26) ||
  (0x30 ≤ n && n ≤ 0x39) || n == 0x4A || (0x50 ≤ n && n ≤ 0x53) || (0x61 ≤ n && n ≤ 0x64) ||
  (0x69 ≤ n && n ≤ 0x77) || (0x80 ≤ n && n ≤ 0x8B) || (0x90 ≤ n && n ≤ 0x97) ||
  (0xA0 ≤ n && n ≤ 0xA5)

theorem agreed_len {b : Byte} (h : agreedOp b = true) :
    ∃ n, verLen b = some (n + 1) ∧ ∀ r, opArgs (decodeOp b) r = some n := by
  have key : ∀ m : Fin 256, agreedOp (BitVec.ofFin m) = true →
      (match verLen (BitVec.ofFin m), fixedArgs (decodeOp (BitVec.ofFin m)) with
        | some k, some n => decide (k = n + 1) | _, _ => false) = true := by decide +kernel
  have := key b.toFin h
  have hb : BitVec.ofFin b.toFin = b := rfl
  rw [hb] at this
  cases h1 : verLen b with
  | none => simp [h1] at this
  | some k =>
    cases h2 : fixedArgs (decodeOp b) with
    | none => simp [h1, h2] at this
    | some n =>
      simp [h1, h2] at this
      subst this
      exact ⟨n, rfl, opArgs_fixed h2⟩

/-- And on the other accepted opcodes the two really differ: the verifier's length is not the VM's,
for some operands at least. -/
theorem agreed_only {b : Byte} {k : Nat} (h : agreedOp b = false) (hv : verLen b = some k) :
    ∃ r : List Byte, opArgs (decodeOp b) r ≠ some (k - 1) := by
  have key : ∀ m : Fin 256, agreedOp (BitVec.ofFin m) = false →
      (match verLen (BitVec.ofFin m) with
        | some k => decide (opArgs (decodeOp (BitVec.ofFin m)) [] ≠ some (k - 1))
        | none => true) = true := by decide +kernel
  have := key b.toFin h
  have hb : BitVec.ofFin b.toFin = b := rfl
  rw [hb, hv] at this
  exact ⟨[], by simpa using this⟩

theorem accepted_from {prog : List Byte} (ha : Accepted prog) {ip : Nat} (hb : VBound prog ip) :
    ∃ f, verRun prog f ip = .done .ok := by
  induction hb with
  | start => exact ha
  | next h hlt hs ih =>
    obtain ⟨f, hf⟩ := ih
    cases f with
    | zero => simp [verRun] at hf
    | succ f =>
      unfold verRun at hf
      rw [if_pos hlt, hs] at hf
      exact ⟨f, hf⟩

theorem accepted_step {prog : List Byte} (ha : Accepted prog) {ip : Nat} (hb : VBound prog ip)
    (hlt : ip < u32 prog.length) : ∃ ip', verStep prog ip = .next ip' := by
  obtain ⟨f, hf⟩ := accepted_from ha hb
  cases f with
  | zero => simp [verRun] at hf
  | succ f =>
    unfold verRun at hf
    rw [if_pos hlt] at hf
    cases hs : verStep prog ip with
    | next x => exact ⟨x, rfl⟩
    | done e =>
      rw [hs] at hf
      -- a round never returns OK by itself
      exfalso
      have : e = .ok := by simpa using hf
      subst this
      unfold verStep at hs
      revert hs
      dsimp only
      split
      · simp
      · split
        · simp
        · split
          · rename_i h
            rcases verTables_res h with h | h | h <;> rw [h] <;> simp
          · repeat' split
            all_goals simp
    | ub => rw [hs] at hf; simp at hf

/-- What an accepting round tells: the opcode is known, the instruction fits, its table was checked. -/
theorem verStep_next {prog : List Byte} (hl : prog.length < 2 ^ 32 - 20) {ip ip' : Nat}
    (hs : verStep prog ip = .next ip') :
    ∃ op n, prog[ip]? = some op ∧ verLen op = some n ∧ ip' = ip + n ∧ ip + n ≤ prog.length ∧
      verTables prog prog.length ip op = none := by
  have hl' : u32 prog.length = prog.length := u32_id (by omega)
  unfold verStep at hs
  rw [hl'] at hs
  dsimp only at hs
  cases hop : prog[ip]? with
  | none => rw [hop] at hs; simp at hs
  | some op =>
    have hip : ip < prog.length := (List.getElem?_eq_some_iff.mp hop).1
    rw [hop] at hs
    dsimp only at hs
    cases hv : verLen op with
    | none => rw [hv] at hs; simp at hs
    | some n =>
      rw [hv] at hs
      dsimp only at hs
      have hn := verLen_pos hv
      rw [u32_id (show ip + n < 2 ^ 32 by omega)] at hs
      have hnx : ∀ x, verTables prog prog.length ip op ≠ some (.next x) := by
        intro x h
        rcases verTables_res h with h | h | h <;> cases h
      refine ⟨op, n, rfl, hv, ?_⟩
      cases ht : verTables prog prog.length ip op with
      | some r =>
        rw [ht] at hs
        dsimp only at hs
        subst hs
        exact absurd ht (hnx _)
      | none =>
        rw [ht] at hs
        dsimp only at hs
        split at hs
        · simp at hs
        · rename_i hfit
          refine ⟨?_, by omega, rfl⟩
          split at hs
          · split at hs
            · simp at hs
            · split at hs
              · simp at hs; exact hs.symm
              · simp at hs
          · simp at hs; exact hs.symm

theorem fetch_peek {prog : List Byte} {a n : Nat} {w : Word} (h : peekLe prog a n = some w) :
    (fetch prog a n).1 = w := by
  unfold peekLe at h
  unfold fetch
  split at h
  · rename_i hh
    rw [if_pos hh]; simpa using h
  · simp at h

/-- A full-range jump table: the number of entries wraps to 0 in the verifier. -/
def fullRange (prog : List Byte) (ip : Nat) : Prop :=
  prog[ip]? = some 0x53 ∧
    (fetch prog (ip + 7 + (fetch prog (ip + 3) 4).1.toNat) 8).1 = 0 ∧
    (fetch prog (ip + 7 + (fetch prog (ip + 3) 4).1.toNat + 8) 8).1 = BitVec.allOnes 64

theorem switch_fits {prog : List Byte} (hl : prog.length < 2 ^ 32 - 20) {ip : Nat}
    (hip : ip < prog.length) (h : verSwitch prog prog.length ip = none) :
    ip + 7 + (fetch prog (ip + 3) 4).1.toNat > prog.length ∨
      ip + 7 + (fetch prog (ip + 3) 4).1.toNat + 6 +
        12 * (fetch prog (ip + 7 + (fetch prog (ip + 3) 4).1.toNat) 2).1.toNat ≤ prog.length := by
  unfold verSwitch at h
  rw [u32_id (show ip + 7 < 2 ^ 32 by omega)] at h
  split at h
  · simp at h
  · rw [peekLe_some (show ip + 3 + 4 ≤ prog.length by omega)] at h
    rw [fetch_full (show ip + 3 + 4 ≤ prog.length by omega)]
    dsimp only at h ⊢
    generalize (leWord (List.take 4 (List.drop (ip + 3) prog))).toNat = rel at h ⊢
    by_cases hw : ip + 7 + rel < 2 ^ 32
    · rw [u32_id hw] at h
      split at h
      · simp at h
      · split at h
        · simp at h
        · rw [peekLe_some (show ip + 7 + rel + 2 ≤ prog.length by omega),
            peekLe_some (show ip + 7 + rel + 2 + 4 ≤ prog.length by omega)] at h
          rw [fetch_full (show ip + 7 + rel + 2 ≤ prog.length by omega)]
          dsimp only at h ⊢
          split at h
          · simp at h
          · right; omega
    · left; omega

theorem table_fits {prog : List Byte} (hl : prog.length < 2 ^ 32 - 20) {ip : Nat}
    (hip : ip < prog.length) (h : verTable prog prog.length ip = none)
    (hf : ¬ ((fetch prog (ip + 7 + (fetch prog (ip + 3) 4).1.toNat) 8).1 = 0 ∧
      (fetch prog (ip + 7 + (fetch prog (ip + 3) 4).1.toNat + 8) 8).1 = BitVec.allOnes 64)) :
    let tbl := ip + 7 + (fetch prog (ip + 3) 4).1.toNat
    tbl + 20 > prog.length ∨
      tbl + 20 + 4 * ((fetch prog (tbl + 8) 8).1.toNat - (fetch prog tbl 8).1.toNat + 1) ≤
        prog.length := by
  unfold verTable at h
  rw [u32_id (show ip + 7 < 2 ^ 32 by omega)] at h
  split at h
  · simp at h
  · rw [peekLe_some (show ip + 3 + 4 ≤ prog.length by omega)] at h
    rw [fetch_full (show ip + 3 + 4 ≤ prog.length by omega)] at hf ⊢
    dsimp only at h hf ⊢
    generalize (leWord (List.take 4 (List.drop (ip + 3) prog))).toNat = rel at h hf ⊢
    by_cases hw : ip + 7 + rel < 2 ^ 32
    · rw [u32_id hw] at h
      split at h
      · simp at h
      · split at h
        · simp at h
        · rw [peekLe_some (show ip + 7 + rel + 8 ≤ prog.length by omega),
            peekLe_some (show ip + 7 + rel + 8 + 8 ≤ prog.length by omega),
            peekLe_some (show ip + 7 + rel + 16 + 4 ≤ prog.length by omega)] at h
          rw [fetch_full (show ip + 7 + rel + 8 ≤ prog.length by omega),
            fetch_full (show ip + 7 + rel + 8 + 8 ≤ prog.length by omega)] at hf ⊢
          dsimp only at h hf ⊢
          generalize leWord (List.take 8 (List.drop (ip + 7 + rel) prog)) = mn at h hf ⊢
          generalize leWord (List.take 8 (List.drop (ip + 7 + rel + 8) prog)) = mx at h hf ⊢
          have h1 := mn.isLt
          have h2 := mx.isLt
          have hne : ¬ (mn.toNat = 0 ∧ mx.toNat = 2 ^ 64 - 1) := by
            intro ⟨ha, hb⟩
            exact hf ⟨BitVec.eq_of_toNat_eq ha, BitVec.eq_of_toNat_eq (by rw [hb]; rfl)⟩
          split at h
          · simp at h
          · rw [Nat.mod_eq_of_lt (show mx.toNat - mn.toNat + 1 < 2 ^ 64 by omega)] at h
            split at h
            · simp at h
            · split at h
              · simp at h
              · split at h
                · simp at h
                · right; omega
    · left; omega

theorem verified_tables {prog : List Byte} (hl : prog.length < 2 ^ 32 - 20) {ip : Nat} {op : Byte}
    (ho : prog[ip]? = some op) (hf : ¬ fullRange prog ip)
    (ht : verTables prog prog.length ip op = none) : tableFits prog ip := by
  have hip : ip < prog.length := (List.getElem?_eq_some_iff.mp ho).1
  have key : ∀ m : Fin 256, (decodeOp (BitVec.ofFin m) = .switch → BitVec.ofFin m = 0x51#8) ∧
      (decodeOp (BitVec.ofFin m) = .switchTable → BitVec.ofFin m = 0x53#8) := by
    intro m
    have : ∀ m : Fin 256, (match decodeOp (BitVec.ofFin m) with
      | .switch => decide (BitVec.ofFin m = 0x51#8)
      | .switchTable => decide (BitVec.ofFin m = 0x53#8) | _ => true) = true := by decide +kernel
    have := this m
    constructor <;> intro h <;> rw [h] at this <;> simpa using this
  have key := key op.toFin
  unfold tableFits
  rw [ho, Option.map_some]
  unfold verTables at ht
  split
  · rename_i h
    have hop : op = 0x51#8 := key.1 (by simpa using h)
    subst hop
    replace ht : verSwitch prog prog.length ip = none := ht
    exact switch_fits hl hip ht
  · rename_i h
    have hop : op = 0x53#8 := key.2 (by simpa using h)
    subst hop
    replace ht : verTable prog prog.length ip = none := ht
    exact ⟨table_fits hl hip ht fun hh => hf ⟨ho, hh⟩, by omega⟩
  · trivial

theorem agreed_vmLen {prog : List Byte} {ip n : Nat} {op : Byte} (ho : prog[ip]? = some op)
    (hag : agreedOp op = true) (hv : verLen op = some n) (hfit : ip + n ≤ prog.length) :
    vmLen (prog.drop ip) = some n := by
  obtain ⟨k, h1, h2⟩ := agreed_len hag
  have hip : ip < prog.length := (List.getElem?_eq_some_iff.mp ho).1
  have hd : prog.drop ip = op :: prog.drop (ip + 1) := by
    rw [List.drop_eq_getElem_cons hip]
    congr 1
    exact (List.getElem?_eq_some_iff.mp ho).2
  rw [hd]
  unfold vmLen
  dsimp only
  rw [h2]
  dsimp only
  have : n = k + 1 := by rw [h1] at hv; simpa using hv.symm
  subst this
  rw [if_pos (by rw [List.length_drop]; omega)]

/-- The common part: any set `R` of boundaries that contains the start and is closed under the ways
control can go carries the whole execution.  Acceptance gives the table bounds and the operands. -/
theorem onlySeen_of (prog : List Byte) (hl : prog.length < 2 ^ 32 - 20) (ha : Accepted prog)
    (R : Nat → Prop) (hR0 : R 0) (hRb : ∀ ip, R ip → VBound prog ip)
    (hfr : ∀ ip, R ip → ¬ fullRange prog ip)
    (hnx : ∀ ip, R ip → ip < prog.length → ∃ n, vmLen (prog.drop ip) = some n ∧ R (ip + n))
    (htg : ∀ ip t, R ip → t ∈ targets prog ip → R t)
    (hsk : ∀ ip op n, R ip → prog[ip]? = some op → (decodeOp op).arr = true →
      vmLen (prog.drop ip) = some n → R (skipBody prog (ip + n))) :
    OnlySeen prog := by
  have hlen : u32 prog.length = prog.length := u32_id (by omega)
  have full : ∀ ip, R ip → ip < prog.length →
      ∃ n, vmLen (prog.drop ip) = some n ∧ R (ip + n) ∧ tableFits prog ip := by
    intro ip hr hlt
    obtain ⟨ip', hs⟩ := accepted_step ha (hRb ip hr) (by rw [hlen]; exact hlt)
    obtain ⟨op, _, ho, _, _, _, htb⟩ := verStep_next hl hs
    obtain ⟨n, hv, hn⟩ := hnx ip hr hlt
    exact ⟨n, hv, hn, verified_tables hl ho (hfr ip hr) htb⟩
  -- an instruction of known length
  have known : ∀ ip op k, R ip → prog[ip]? = some op → (∀ r, opArgs (decodeOp op) r = some k) →
      R (ip + (k + 1)) := by
    intro ip op k hr ho hk
    have hip : ip < prog.length := (List.getElem?_eq_some_iff.mp ho).1
    obtain ⟨n, hv, hn⟩ := hnx ip hr hip
    have hd : prog.drop ip = op :: prog.drop (ip + 1) := by
      rw [List.drop_eq_getElem_cons hip]
      congr 1
      exact (List.getElem?_eq_some_iff.mp ho).2
    rw [hd] at hv
    unfold vmLen at hv
    dsimp only at hv
    rw [hk] at hv
    dsimp only at hv
    split at hv
    · rwa [Option.some.inj hv]
    · simp at hv
  intro σ E s0 s hp h0 hl0 hx hlt
  subst hp
  suffices h : R s.ip ∧ ∀ fr ∈ s.loops, R fr.start from
    ⟨hRb _ h.1, (full s.ip h.1 hlt).imp fun _ h => h.1⟩
  clear hlt
  refine Reach.inv (I := fun s => R s.ip ∧ ∀ fr ∈ s.loops, R fr.start) ?_ hx ?_
  rotate_left
  · rw [h0, hl0]
    exact ⟨hR0, by simp⟩
  · intro m s ⟨hb, hfs⟩ hst
    have hmlt : m.ip < E.prog.length := by
      cases ho : E.prog[m.ip]? with
      | none => unfold step at hst; rw [ho] at hst; simp at hst
      | some op => exact (List.getElem?_eq_some_iff.mp ho).1
    obtain ⟨n, hv, hbn, htf⟩ := full m.ip hb hmlt
    have hnx := step_next E m s n hv htf hst
    generalize s.ip = ip' at hnx ⊢
    generalize s.loops = L' at hnx ⊢
    generalize m.loops = L at hnx hfs
    cases hnx with
    | seq h => rw [hv] at h; obtain rfl := Option.some.inj h; exact ⟨hbn, hfs⟩
    | enter ho harr h =>
      rw [hv] at h; obtain rfl := Option.some.inj h
      refine ⟨hbn, fun fr hfr => ?_⟩
      rcases List.mem_cons.mp hfr with rfl | hfr
      · exact hbn
      · exact hfs fr hfr
    | skip ho harr h hL =>
      rw [hv] at h; obtain rfl := Option.some.inj h
      refine ⟨hsk _ _ _ hb ho harr hv, fun fr hfr => ?_⟩
      rcases hL with rfl | ⟨c, rfl⟩
      · exact hfs fr hfr
      · rcases List.mem_cons.mp hfr with rfl | hfr
        · exact hbn
        · exact hfs fr hfr
    | bulk ho harr h hb1 hb2 he =>
      rw [hv] at h; obtain rfl := Option.some.inj h
      refine ⟨?_, hfs⟩
      have hb3 : R (m.ip + n + (2 + 1)) := by
        rcases hb2 with rfl | rfl
        · exact known _ _ 2 hbn hb1 fun _ => rfl
        · exact known _ _ 2 hbn hb1 fun _ => rfl
      exact known _ _ 0 hb3 he fun _ => rfl
    | @again f fs r op ho harr =>
      refine ⟨hfs f (List.mem_cons_self ..), fun fr hfr => ?_⟩
      rcases List.mem_cons.mp hfr with rfl | hfr
      · exact hfs f (List.mem_cons_self ..)
      · exact hfs _ (List.mem_cons_of_mem _ hfr)
    | leave ho harr =>
      refine ⟨known _ _ 0 hb ho fun r => by rw [harr]; rfl,
        fun fr hfr => hfs _ (List.mem_cons_of_mem _ hfr)⟩
    | jump h => exact ⟨htg _ _ hb h, hfs⟩

/-- **C39, partial.** An accepted program executes only instructions the verifier saw, completely,
provided that
* at the boundaries there are only opcodes to which verifier and VM give the same length,
* no jump table spans the full 64-bit range,
* jumps and switches lead to boundaries (the verifier only checks that they lead into the program),
* skipping the body of an array leads to a boundary (the VM finds the end by scanning bytes).

Missing: without these the claim is false, see `C39_false` and its companions. -/
theorem C39_partial (prog : List Byte) (hl : prog.length < 2 ^ 32 - 20) (ha : Accepted prog)
    (hop : ∀ ip op, VBound prog ip → prog[ip]? = some op → agreedOp op = true)
    (hfr : ∀ ip, VBound prog ip → ¬ fullRange prog ip)
    (htg : ∀ ip t, VBound prog ip → t ∈ targets prog ip → VBound prog t)
    (hsk : ∀ ip op n, VBound prog ip → prog[ip]? = some op → (decodeOp op).arr = true →
      vmLen (prog.drop ip) = some n → VBound prog (skipBody prog (ip + n))) :
    OnlySeen prog := by
  refine onlySeen_of prog hl ha (VBound prog) .start (fun _ h => h) hfr ?_ htg hsk
  intro ip hb hlt
  have hlen : u32 prog.length = prog.length := u32_id (by omega)
  obtain ⟨ip', hs⟩ := accepted_step ha hb (by rw [hlen]; exact hlt)
  obtain ⟨op, n, ho, hv, rfl, hfit, htb⟩ := verStep_next hl hs
  exact ⟨n, agreed_vmLen ho (hop ip op hb ho) hv hfit, .next hb (by rw [hlen]; exact hlt) hs⟩

/-! Counterexamples to the full claim. -/

/-! ### Where the jumps of an accepted program go -/

/-- The four bytes at `at_` are a signed distance from `base` to an address inside the program. -/
def Inside (prog : List Byte) (base at_ : Nat) : Prop :=
  at_ + 4 ≤ prog.length ∧
    let t : Int := (base : Int) + ((leWord ((prog.drop at_).take 4)).setWidth 32).toInt
    0 ≤ t ∧ t < (prog.length : Int)

theorem inside_of {prog : List Byte} {base at_ : Nat} {o : Word} (h : peekLe prog at_ 4 = some o)
    (ht : tgtOk prog.length base o = true) : Inside prog base at_ := by
  unfold peekLe at h
  split at h
  · rename_i hh
    simp only [Option.some.injEq] at h
    subst h
    refine ⟨hh, ?_⟩
    simpa [tgtOk] using ht
  · simp at h

theorem offsOk_inside {prog : List Byte} {base stride : Nat} (n a : Nat)
    (h : offsOk prog prog.length base stride n a = some true) : ∀ i, i < n → Inside prog base (a + stride * i) := by
  induction n generalizing a with
  | zero => intro i hi; omega
  | succ n ih =>
    unfold offsOk at h
    split at h
    · simp at h
    · rename_i o ho
      split at h
      · rename_i ht
        intro i hi
        cases i with
        | zero => simpa using inside_of ho ht
        | succ i =>
          have := ih (a + stride) h i (by omega)
          rw [Nat.mul_add, Nat.mul_one, Nat.add_comm (stride * i), ← Nat.add_assoc]
          exact this
      · simp at h

/-- C39, targets: in an accepted program every jump, every case and every default that the verifier's walk
passes goes to an address inside the program. The table of a switch is where the instruction's offset points,
modulo 2^32 as in the verifier; for a jump table the number of entries is taken modulo 2^64, as there. -/
theorem C39_targets (prog : List Byte) (hl : prog.length < 2 ^ 32 - 20) (ha : Accepted prog) (ip : Nat)
    (hb : VBound prog ip) :
    (prog[ip]? = some 0x50 ∨ prog[ip]? = some 0x52 → Inside prog (ip + 5) (ip + 1)) ∧
    (prog[ip]? = some 0x51 → ∀ t, t = (ip + 7 + leNat ((prog.drop (ip + 3)).take 4)) % 2 ^ 32 →
      Inside prog (ip + 7) (t + 2) ∧
      ∀ i, i < leNat ((prog.drop t).take 2) → Inside prog (ip + 7) (t + 14 + 12 * i)) ∧
    (prog[ip]? = some 0x53 → ∀ t, t = (ip + 7 + leNat ((prog.drop (ip + 3)).take 4)) % 2 ^ 32 →
      Inside prog (ip + 7) (t + 16) ∧ leNat ((prog.drop t).take 8) ≤ leNat ((prog.drop (t + 8)).take 8) ∧
      ∀ i, i < (leNat ((prog.drop (t + 8)).take 8) - leNat ((prog.drop t).take 8) + 1) % 2 ^ 64 →
        Inside prog (ip + 7) (t + 20 + 4 * i)) := by
  by_cases hlt : ip < prog.length
  case neg =>
    have : prog[ip]? = none := by rw [List.getElem?_eq_none_iff]; omega
    rw [this]
    simp
  have hl' : u32 prog.length = prog.length := u32_id (by omega)
  obtain ⟨ip', hs⟩ := accepted_step ha hb (by rw [hl']; exact hlt)
  obtain ⟨op, n, hop, hv, _, hfit, htab⟩ := verStep_next hl hs
  have lw : ∀ (l : List Byte) (k : Nat), k ≤ 8 → (leWord (l.take k)).toNat = leNat (l.take k) := by
    intro l k hk
    exact toNat_leWord _ (by rw [List.length_take]; omega)
  refine ⟨?_, ?_, ?_⟩
  · intro hj
    have hop' : op = 0x52 ∨ op = 0x50 := by
      rw [hop] at hj; rcases hj with h | h <;> cases h <;> simp
    have hn : n = 5 := by rcases hop' with rfl | rfl <;> (cases hv; rfl)
    subst hn
    unfold verStep at hs
    rw [hl', hop] at hs
    dsimp only at hs
    rw [hv] at hs
    dsimp only at hs
    rw [htab, u32_id (show ip + 5 < 2 ^ 32 by omega)] at hs
    dsimp only at hs
    rw [if_neg (by omega), if_pos hop'] at hs
    split at hs
    · simp at hs
    · rename_i o ho
      split at hs
      · rename_i ht; exact inside_of ho ht
      · simp at hs
  · intro hj t ht
    rw [hop] at hj
    cases hj
    replace htab : verSwitch prog prog.length ip = none := htab
    unfold verSwitch at htab
    rw [u32_id (show ip + 7 < 2 ^ 32 by omega)] at htab
    split at htab
    · simp at htab
    rw [peekLe_some (show ip + 3 + 4 ≤ prog.length by omega)] at htab
    dsimp only at htab
    rw [lw _ 4 (by omega)] at htab
    rw [show u32 (ip + 7 + leNat ((prog.drop (ip + 3)).take 4)) = t from ht.symm] at htab
    split at htab
    · simp at htab
    split at htab
    · simp at htab
    rw [peekLe_some (show t + 2 ≤ prog.length by omega), peekLe_some (show t + 2 + 4 ≤ prog.length by omega)] at htab
    dsimp only at htab
    rw [lw _ 2 (by omega)] at htab
    split at htab
    · simp at htab
    split at htab
    · simp at htab
    rename_i hd
    refine ⟨inside_of (peekLe_some (show t + 2 + 4 ≤ prog.length by omega)) (by simpa using hd), ?_⟩
    split at htab
    · simp at htab
    · simp at htab
    · rename_i ho
      exact offsOk_inside _ _ ho
  · intro hj t ht
    rw [hop] at hj
    cases hj
    replace htab : verTable prog prog.length ip = none := htab
    unfold verTable at htab
    rw [u32_id (show ip + 7 < 2 ^ 32 by omega)] at htab
    split at htab
    · simp at htab
    rw [peekLe_some (show ip + 3 + 4 ≤ prog.length by omega)] at htab
    dsimp only at htab
    rw [lw _ 4 (by omega)] at htab
    rw [show u32 (ip + 7 + leNat ((prog.drop (ip + 3)).take 4)) = t from ht.symm] at htab
    split at htab
    · simp at htab
    split at htab
    · simp at htab
    rw [peekLe_some (show t + 8 ≤ prog.length by omega), peekLe_some (show t + 8 + 8 ≤ prog.length by omega),
      peekLe_some (show t + 16 + 4 ≤ prog.length by omega)] at htab
    dsimp only at htab
    rw [lw _ 8 (by omega), lw _ 8 (by omega)] at htab
    split at htab
    · simp at htab
    rename_i hle
    split at htab
    · simp at htab
    split at htab
    · simp at htab
    split at htab
    · simp at htab
    split at htab
    · simp at htab
    rename_i hd
    refine ⟨inside_of (peekLe_some (show t + 16 + 4 ≤ prog.length by omega)) (by simpa using hd), by omega, ?_⟩
    split at htab
    · simp at htab
    · simp at htab
    · rename_i ho
      exact offsOk_inside _ _ ho

/-- A program with a switch whose two cases and default are inside it, and a jump. -/
def switchProg : List Byte :=
  [0x51, 0, 0, 6, 0, 0, 0] ++ [0x52, 25, 0, 0, 0, 0] ++ ([2, 0] ++ [0, 0, 0, 0] ++ [5, 0, 0, 0, 0, 0, 0, 0] ++ [5, 0, 0, 0] ++
    [7, 0, 0, 0, 0, 0, 0, 0] ++ [0, 0, 0, 0]) ++ [0]

example : Accepted switchProg ∧ VBound switchProg 0 ∧ VBound switchProg 7 :=
  ⟨⟨50, by decide +kernel⟩, .start, .next .start (by decide +kernel) (by decide +kernel)⟩

example : Inside switchProg 7 (13 + 14 + 12 * 1) ∧ Inside switchProg 12 8 := by
  unfold Inside; decide +kernel

theorem vbound_iff {prog : List Byte} {bs : List Nat}
    (h : ∀ i ∈ bs, i < u32 prog.length → ∀ j, verStep prog i = .next j → j ∈ bs)
    (h0 : 0 ∈ bs) {ip : Nat} (hb : VBound prog ip) : ip ∈ bs := by
  induction hb with
  | start => exact h0
  | next _ hlt hs ih => exact h _ ih hlt _ hs

/-- The boundaries of the walk, computed. -/
def bounds (prog : List Byte) : Nat → Nat → List Nat
  | 0, _ => []
  | f + 1, ip =>
    ip :: (if ip < u32 prog.length then
      match verStep prog ip with
      | .next ip' => bounds prog f ip'
      | _ => []
    else [])

theorem vbound_bounds {prog : List Byte} {f : Nat} (ha : verRun prog f 0 = .done .ok) {ip : Nat}
    (hb : VBound prog ip) : ip ∈ bounds prog f 0 := by
  refine vbound_iff ?_ ?_ hb
  · have : ∀ f a, verRun prog f a = .done .ok → ∀ i ∈ bounds prog f a, i < u32 prog.length →
        ∀ j, verStep prog i = .next j → j ∈ bounds prog f a := by
      intro f
      induction f with
      | zero => intro a h; simp [verRun] at h
      | succ f ih =>
        intro a h i hi hlt j hj
        unfold verRun at h
        unfold bounds at hi ⊢
        by_cases hal : a < u32 prog.length
        · rw [if_pos hal] at h hi ⊢
          cases hs : verStep prog a with
          | done e => rw [hs] at hi; simp at hi; subst hi; rw [hs] at hj; simp at hj
          | ub => rw [hs] at hi; simp at hi; subst hi; rw [hs] at hj; simp at hj
          | next b =>
            rw [hs] at h hi
            dsimp only at h hi ⊢
            rcases List.mem_cons.mp hi with rfl | hi
            · rw [hs] at hj
              obtain rfl : b = j := by simpa using hj
              refine List.mem_cons_of_mem _ ?_
              cases f with
              | zero => simp [verRun] at h
              | succ f => unfold bounds; exact List.mem_cons_self ..
            · exact List.mem_cons_of_mem _ (ih b h i hi hlt j hj)
        · rw [if_neg hal] at hi
          simp at hi
          omega
    exact this f 0 ha
  · cases f with
    | zero => simp [verRun] at ha
    | succ f => unfold bounds; exact List.mem_cons_self ..

/-- A decoding run of `n` steps is at `ip`, which is no boundary. -/
theorem not_seen {prog : List Byte} {f n ip : Nat} (buf : List Byte)
    (ha : verRun prog f 0 = .done .ok)
    (hr : (match exec (Demo.env prog false) n (Demo.start buf {}) with
      | .run s => some s.ip | _ => none) = some ip)
    (hlt : ip < prog.length)
    (hno : ip ∉ bounds prog f 0 ∨ vmLen (prog.drop ip) = none) :
    Accepted prog ∧ ¬ OnlySeen prog := by
  refine ⟨⟨f, ha⟩, fun h => ?_⟩
  cases hx : exec (Demo.env prog false) n (Demo.start buf {}) with
  | stop e s => rw [hx] at hr; simp at hr
  | ub u => rw [hx] at hr; simp at hr
  | run s =>
    rw [hx] at hr
    obtain rfl : s.ip = ip := by simpa using hr
    obtain ⟨h1, k, h2⟩ := h _ (Demo.env prog false) (Demo.start buf {}) s rfl rfl rfl ⟨n, hx⟩ hlt
    rcases hno with hno | hno
    · exact hno (vbound_bounds ha h1)
    · rw [hno] at h2; simp at h2

/-- A jump into the middle of an instruction is accepted: JUMP +1 lands on the operand of ALIGN_PAD. -/
theorem C39_false : ∃ prog, Accepted prog ∧ ¬ OnlySeen prog :=
  ⟨[0x52, 1, 0, 0, 0, 0x23, 0], not_seen (f := 8) (n := 1) (ip := 6) [] (by decide +kernel) (by decide +kernel)
    (by decide) (Or.inl (by decide +kernel))⟩

/-- Without any jump: META_VERSION takes an operand byte the verifier does not know about, so the
walk and the execution get out of step (`05 10 00 00`: the verifier sees META_VERSION and IO_U8, the
VM sees META_VERSION 16 and two no-ops). -/
theorem C39_false_length : ∃ prog, (∀ b ∈ prog, b ≠ 0x50 ∧ b ≠ 0x51 ∧ b ≠ 0x52 ∧ b ≠ 0x53) ∧
    Accepted prog ∧ ¬ OnlySeen prog :=
  ⟨[0x05, 0x10, 0, 0], by decide, not_seen (f := 8) (n := 1) (ip := 2) [] (by decide +kernel) (by decide +kernel)
    (by decide) (Or.inl (by decide +kernel))⟩

/-- Missing operands: an accepted program may end right after an ARR_DYNAMIC opcode. -/
theorem C39_false_operands : Accepted [0x3B] ∧ ¬ OnlySeen [0x3B] :=
  not_seen (f := 3) (n := 0) (ip := 0) [] (by decide +kernel) (by decide +kernel) (by decide)
    (Or.inr (by decide +kernel))

/-- A jump table over the full 64-bit range, hidden in the operand of a SCALE_LIN instruction: the
number of entries wraps to 0, the verifier accepts, and a host value makes the VM read outside the
program. -/
def fullTable : List Byte :=
  [0x53, 0, 0, 3, 0, 0, 0, 0x43, 0, 0] ++ List.replicate 8 0 ++ List.replicate 8 0xFF ++ [0, 0, 0, 0]

theorem C39_false_table : Accepted fullTable ∧
    exec (Demo.env fullTable true) 1 (Demo.start [] { inp := [BitVec.ofNat 64 (2 ^ 62 - 8)] }) =
      .ub .codeOOB :=
  ⟨⟨12, by decide +kernel⟩, Demo.ub_of_obs (by decide +kernel)⟩

/-! ### C40: compiled programs and the verifier -/

/-- Bytes the verifier reads as a complete instruction. -/
def oneByte (b : Byte) : Bool := verLen b == some 1

/-- Control transfers. -/
def ctlOp (b : Byte) : Bool := b == 0x50 || b == 0x51 || b == 0x52 || b == 0x53

/-- Sequences of instructions, in the verifier's reading, without control transfers. -/
inductive VSeq : List Byte → Prop
  | nil : VSeq []
  | cons (op : Byte) (args rest : List Byte) : verLen op = some (args.length + 1) → ctlOp op = false →
      VSeq rest → VSeq (op :: (args ++ rest))

theorem VSeq.append {a b : List Byte} (ha : VSeq a) (hb : VSeq b) : VSeq (a ++ b) := by
  induction ha with
  | nil => exact hb
  | cons op args rest h1 h2 _ ih =>
    have := VSeq.cons op args (rest ++ b) h1 h2 ih
    simpa using this

theorem VSeq.one {b : Byte} (h : oneByte b = true) (hc : ctlOp b = false) : VSeq [b] := by
  have := VSeq.cons b [] [] (by simpa [oneByte] using h) hc .nil
  simpa using this

theorem VSeq.instr (op : Byte) (args : List Byte) (h : verLen op = some (args.length + 1))
    (hc : ctlOp op = false) : VSeq (op :: args) := by
  have := VSeq.cons op args [] h hc .nil
  simpa using this

theorem oneByte_ctl {b : Byte} (h : oneByte b = true) : ctlOp b = false := by
  have key : ∀ m : Fin 256, oneByte (BitVec.ofFin m) = true → ctlOp (BitVec.ofFin m) = false := by
    decide +kernel
  exact key b.toFin h

theorem verStep_plain {prog : List Byte} (hl : prog.length < 2 ^ 32 - 20) {ip n : Nat} {op : Byte}
    (ho : prog[ip]? = some op) (hv : verLen op = some n) (hc : ctlOp op = false)
    (hfit : ip + n ≤ prog.length) : verStep prog ip = .next (ip + n) := by
  have hip : ip < prog.length := (List.getElem?_eq_some_iff.mp ho).1
  simp only [ctlOp, Bool.or_eq_false_iff, beq_eq_false_iff_ne] at hc
  obtain ⟨⟨⟨h50, h51⟩, h52⟩, h53⟩ := hc
  unfold verStep
  rw [u32_id (show prog.length < 2 ^ 32 by omega), ho]
  dsimp only
  rw [hv]
  dsimp only
  unfold verTables
  rw [if_neg h51, if_neg h53]
  dsimp only
  rw [u32_id (show ip + n < 2 ^ 32 by omega), if_neg (by omega), if_neg (by rintro (h | h); exact h52 h; exact h50 h)]

theorem verRun_seq {code : List Byte} (h : VSeq code) (pre post : List Byte)
    (hl : (pre ++ (code ++ post)).length < 2 ^ 32 - 20) (f : Nat) :
    ∃ k, verRun (pre ++ (code ++ post)) (f + k) pre.length =
      verRun (pre ++ (code ++ post)) f (pre.length + code.length) := by
  induction h generalizing pre f with
  | nil => exact ⟨0, rfl⟩
  | cons op args rest h1 h2 _ ih =>
    obtain ⟨k, hk⟩ := ih (pre ++ op :: args) (by simpa using hl) f
    refine ⟨k + 1, ?_⟩
    have e : pre ++ op :: args ++ (rest ++ post) = pre ++ (op :: (args ++ rest) ++ post) := by simp
    rw [e] at hk
    have ho : (pre ++ (op :: (args ++ rest) ++ post))[pre.length]? = some op := by simp
    rw [← Nat.add_assoc]
    have hu : u32 (pre ++ (op :: (args ++ rest) ++ post)).length =
        (pre ++ (op :: (args ++ rest) ++ post)).length := u32_id (by omega)
    conv => lhs; unfold verRun
    rw [hu, if_pos (by simp), verStep_plain hl ho h1 h2 (by simp)]
    dsimp only
    have e2 : pre.length + (args.length + 1) = (pre ++ op :: args).length := by simp
    have e3 : (pre ++ op :: args).length + rest.length = pre.length + (op :: (args ++ rest)).length := by
      simp only [List.length_append, List.length_cons]; omega
    rw [e2, hk, e3]

/-- A sequence of instructions is accepted. -/
theorem accepted_seq {code : List Byte} (h : VSeq code) (hl : code.length < 2 ^ 32 - 20) :
    Accepted code := by
  obtain ⟨k, hk⟩ := verRun_seq h [] [] (by simpa using hl) 1
  refine ⟨1 + k, ?_⟩
  simp only [List.nil_append, List.append_nil, List.length_nil] at hk
  rw [hk]
  unfold verRun
  rw [u32_id (by omega), if_neg (by omega)]

/-- Packet descriptions made of what the verifier understands: plain scalars, strings, padding, byte
order, fixed and prefixed arrays of these.  Where the verifier does not know of an operand (the keys
of META_NAME, ENTER_STRUCT and ARR_DYNAMIC, the version number) the operand bytes must happen to be
one-byte opcodes. -/
def Fld.passes : Fld → Bool
  | .empty => true
  | .seq a b => a.passes && b.passes
  | .scalar op _ _ => verLen op == some 3
  | .strNull .. | .strPre .. | .bitBool .. | .pad _ | .fill _ | .setLE | .setBE | .nop
  | .enterBit | .exitBit => true
  | .version b => oneByte b
  | .name b0 b1 => oneByte b0 && oneByte b1
  | .struct k0 k1 f => oneByte k0 && oneByte k1 && f.passes
  | .arrFixed _ _ _ f | .arrPre _ _ _ f => f.passes
  | .arrDyn k0 k1 r0 r1 f => oneByte k0 && oneByte k1 && oneByte r0 && oneByte r1 && f.passes
  | .range .. | .enum .. | .const .. | .bitU .. | .bitI .. | .crc .. => false

theorem ones {l : List Byte} (h : ∀ b ∈ l, oneByte b = true) : VSeq l := by
  induction l with
  | nil => exact .nil
  | cons b bs ih =>
    have hb := h b (List.mem_cons_self ..)
    have := (VSeq.one hb (oneByte_ctl hb)).append (ih fun x hx => h x (List.mem_cons_of_mem _ hx))
    simpa using this

theorem ctl_three {op : Byte} (h : verLen op = some 3) : ctlOp op = false := by
  have key : ∀ m : Fin 256, (verLen (BitVec.ofFin m) == some 3) = true → ctlOp (BitVec.ofFin m) = false := by
    decide +kernel
  exact key op.toFin (by simpa using h)

theorem passes_seq (f : Fld) (h : f.passes = true) : VSeq f.code := by
  have end38 : VSeq [0x38] := VSeq.one (by decide) (by decide)
  induction f with
  | empty => exact .nil
  | seq a b iha ihb =>
    simp only [Fld.passes, Bool.and_eq_true] at h
    exact (iha h.1).append (ihb h.2)
  | scalar op k0 k1 =>
    have h3 : verLen op = some 3 := by simpa [Fld.passes] using h
    exact VSeq.instr op [k0, k1] h3 (ctl_three h3)
  | range | enum | const | bitU | bitI | crc => simp [Fld.passes] at h
  | strNull k0 k1 m0 m1 => exact VSeq.instr 0x30 [k0, k1, m0, m1] rfl rfl
  | strPre p k0 k1 =>
    cases p
    · exact VSeq.instr 0x31 [k0, k1] rfl rfl
    · exact VSeq.instr 0x32 [k0, k1] rfl rfl
    · exact VSeq.instr 0x33 [k0, k1] rfl rfl
  | bitBool k0 k1 => exact VSeq.instr 0x22 [k0, k1] rfl rfl
  | pad n => exact VSeq.instr 0x23 [n] rfl rfl
  | fill n => exact VSeq.instr 0x24 [n] rfl rfl
  | setLE | setBE | nop | enterBit | exitBit => exact VSeq.one (by decide) (by decide)
  | version b => exact ones (l := [0x05, b]) (by simpa using ⟨by decide, h⟩)
  | name b0 b1 =>
    simp only [Fld.passes, Bool.and_eq_true] at h
    exact ones (l := [0x07, b0, b1]) (by simpa using ⟨by decide, h.1, h.2⟩)
  | struct k0 k1 f ih =>
    simp only [Fld.passes, Bool.and_eq_true] at h
    exact (ones (l := [0x03, k0, k1]) (by simpa using ⟨by decide, h.1.1, h.1.2⟩)).append
      ((ih h.2).append (VSeq.one (by decide) (by decide)))
  | arrFixed k0 k1 n f ih =>
    refine VSeq.append ?_ ((ih h).append end38)
    exact VSeq.instr 0x34 ([k0, k1] ++ leBytes 4 n) (by simp [leBytes]; rfl) rfl
  | arrPre p k0 k1 f ih =>
    refine VSeq.append ?_ ((ih h).append end38)
    cases p
    · exact VSeq.instr 0x35 [k0, k1] rfl rfl
    · exact VSeq.instr 0x36 [k0, k1] rfl rfl
    · exact VSeq.instr 0x37 [k0, k1] rfl rfl
  | arrDyn k0 k1 r0 r1 f ih =>
    simp only [Fld.passes, Bool.and_eq_true] at h
    refine VSeq.append (a := [0x3B, k0, k1, r0, r1]) ?_ ((ih h.2).append end38)
    exact ones (by simpa using ⟨by decide, h.1.1.1.1, h.1.1.1.2, h.1.1.2, h.1.2⟩)

/-- **C40, partial.** Packets made of what the verifier understands are accepted.  Missing: bit
fields, constants, ranges, enumerations, checksums, transforms, conditions and switches, and keys
whose bytes are not one-byte opcodes; for those the claim is false in general. -/
theorem C40_partial (f : Fld) (h : f.passes = true) (hl : f.code.length < 2 ^ 32 - 20) :
    Accepted f.code :=
  accepted_seq (passes_seq f h) hl

example : (Fld.seq (.name 3 0) (.seq (.scalar 0x11 0 0) (.seq (.strPre .p1 1 0)
    (.arrPre .p2 2 0 (.scalar 0x10 2 0))))).passes = true := by decide +kernel

/-- **C40 is false.** Every packet whose name has the id 8, that is every packet with eight different
field names (parse_packet adds the packet's name after its fields, cnd_parser.c 1523-1527), is
rejected: the verifier takes the id for an opcode. -/
theorem C40_false (f : Fld) (hl : ((Fld.name 8 0).seq f).code.length < 2 ^ 32 - 20) :
    verRun ((Fld.name 8 0).seq f).code 2 0 = .done .invalidOp := by
  show verRun (0x07 :: 8 :: 0 :: f.code) 2 0 = _
  have hl' : u32 (0x07 :: 8 :: 0 :: f.code : List Byte).length = f.code.length + 3 := by
    rw [u32_id (by simp [Fld.code] at hl ⊢; omega)]; rfl
  have h1 : verStep (0x07 :: 8 :: 0 :: f.code) 0 = .next 1 :=
    verStep_plain (prog := 0x07 :: 8 :: 0 :: f.code) (ip := 0) (n := 1) (op := 0x07)
      (by simpa [Fld.code] using hl) rfl rfl rfl (by simp)
  have h2 : verStep (0x07 :: 8 :: 0 :: f.code) 1 = .done .invalidOp := rfl
  unfold verRun
  rw [hl', if_pos (by omega), h1]
  dsimp only
  unfold verRun
  rw [hl', if_pos (by omega), h2]

/-- Independently of names: a packet with an enumeration is rejected wherever the walk meets it. -/
theorem C40_false_enum (t : Ty) (k0 k1 : Byte) (vals : List Word)
    (hl : (Fld.enum t k0 k1 vals).code.length < 2 ^ 32 - 20) :
    verRun (Fld.enum t k0 k1 vals).code 2 0 = .done .invalidOp := by
  have hc : (Fld.enum t k0 k1 vals).code = t.tag :: k0 :: k1 :: enumCode t vals := rfl
  rw [hc] at hl ⊢
  obtain ⟨r, hr⟩ : ∃ r, enumCode t vals = 0x4B :: r := ⟨_, rfl⟩
  rw [hr] at hl ⊢
  have hv : verLen t.tag = some 3 := by cases t <;> rfl
  have h1 : verStep (t.tag :: k0 :: k1 :: 0x4B :: r) 0 = .next 3 :=
    verStep_plain hl rfl hv (ctl_three hv) (by simp)
  have h2 : verStep (t.tag :: k0 :: k1 :: 0x4B :: r) 3 = .done .invalidOp := rfl
  have hl' : u32 (t.tag :: k0 :: k1 :: 0x4B :: r).length = r.length + 4 := by
    rw [u32_id (by omega)]; rfl
  unfold verRun
  rw [hl', if_pos (by omega), h1]
  dsimp only
  unfold verRun
  rw [hl', if_pos (by omega), h2]

end Cnd
