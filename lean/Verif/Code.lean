import Verif.VMEqns
/-
  Program text at an address, and the value of operands found there.
-/

namespace Cnd
variable {σ : Type}

/-- The program contains the bytes `bs` at address `ip`. -/
def At (prog : List Byte) (ip : Nat) (bs : List Byte) : Prop := ∃ rest, prog.drop ip = bs ++ rest

theorem At.left {prog : List Byte} {ip : Nat} {a b : List Byte} (h : At prog ip (a ++ b)) : At prog ip a := by
  obtain ⟨r, h⟩ := h
  exact ⟨b ++ r, by rw [h, List.append_assoc]⟩

theorem At.right {prog : List Byte} {ip : Nat} {a b : List Byte} (h : At prog ip (a ++ b)) :
    At prog (ip + a.length) b := by
  obtain ⟨r, h⟩ := h
  exact ⟨r, by rw [← List.drop_drop, h, List.append_assoc]; simp⟩

theorem At.tail {prog : List Byte} {ip : Nat} {a : Byte} {b : List Byte} (h : At prog ip (a :: b)) :
    At prog (ip + 1) b := At.right (a := [a]) h

theorem At.le {prog : List Byte} {ip : Nat} {bs : List Byte} (h : At prog ip bs) (hne : bs ≠ []) :
    ip + bs.length ≤ prog.length := by
  obtain ⟨r, h⟩ := h
  have := congrArg List.length h
  simp only [List.length_drop, List.length_append] at this
  have : 0 < bs.length := List.length_pos_iff.2 hne
  omega

theorem At.head {prog : List Byte} {ip : Nat} {a : Byte} {b : List Byte} (h : At prog ip (a :: b)) :
    prog[ip]? = some a := by
  obtain ⟨r, h⟩ := h
  have := congrArg (fun l => l[0]?) h
  simpa [List.getElem?_drop] using this

theorem At.take {prog : List Byte} {ip : Nat} {bs : List Byte} (h : At prog ip bs) :
    (prog.drop ip).take bs.length = bs := by
  obtain ⟨r, h⟩ := h
  rw [h]; simp

theorem At.fetch {prog : List Byte} {ip n : Nat} {bs : List Byte} (h : At prog ip bs) (hn : bs.length = n)
    (h0 : 0 < n) : Cnd.fetch prog ip n = (leWord bs, ip + n) := by
  subst hn
  unfold Cnd.fetch
  rw [if_pos (h.le (by intro e; simp [e] at h0)), h.take]

theorem At.of_append (a b c : List Byte) : At (a ++ b ++ c) a.length b :=
  ⟨c, by rw [List.append_assoc, List.drop_left]⟩

/-- The packet position at which the next byte-aligned field is placed. -/
def St.fieldPos (s : St σ) : Nat := if s.bit = 0 then s.cursor else s.cursor + 1

/-- Key operand of an instruction. -/
def keyNum (k0 k1 : Byte) : Nat := k0.toNat + 256 * k1.toNat

theorem leWord_key (k0 k1 : Byte) : (leWord [k0, k1]).toNat = keyNum k0 k1 := by
  rw [toNat_leWord _ (by simp)]
  simp [leNat, keyNum]

theorem pre_aligned (op : Byte) (s : St σ) (ha : aligns op = true) :
    pre op s = { s with ip := s.ip + 1, cursor := s.fieldPos, bit := 0 } := by
  unfold pre alignSt St.fieldPos
  by_cases h : s.bit = 0
  · cases s; simp_all
  · simp [ha, h]

theorem pre_unaligned (op : Byte) (s : St σ) (ha : aligns op = false) :
    pre op s = { s with ip := s.ip + 1 } := by
  unfold pre alignSt
  simp [ha]

end Cnd
