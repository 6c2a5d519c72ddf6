import Verif.Sink
import Verif.Mimic
import Verif.Props.EndToEnd
import Verif.Props.Fits
import Verif.Props.GoBind
import Verif.Props.Cli
/-
  C104: the callback of the kitchen sink example keeps to its arrays.
-/

namespace Cnd

/-! ### What holds at every point of a run -/

/-- A property of the host's state that every call keeps holds as long as the machine runs and when it succeeds, whatever the program and
the packet. -/
theorem host_keeps {σ : Type} (E : Env σ) (he : E.enc = false) (I : σ → Prop)
    (h1 : ∀ a key op, I a → I (E.host.notify a key op).2) (h2 : ∀ a key op v, I a → I (E.host.scalar a key op v).2.2)
    (h3 : ∀ a key op be D p, I a → I (E.host.bytesAt a key op be D p).2.2) (n : Nat) (s : St σ) (h : I s.host) :
    (∀ t, exec E n s = .run t → I t.host) ∧ (∀ t, exec E n s = .stop .ok t → I t.host) := by
  have hS : Same E E (fun a => ¬ I a) (fun _ _ => False) :=
    { prog := rfl, enc := rfl, fl := rfl, bulk := .inr (fun _ _ _ _ _ _ h => h.elim)
      mim :=
        { notify := fun h => h.elim
          notifyMono := fun h i => h (h1 _ _ _ i)
          scalar := fun h => h.elim
          scalarMono := fun h i => h (h2 _ _ _ _ i)
          str := fun h => by rw [he] at h; cases h
          strMono := fun h => by rw [he] at h; cases h
          strNo := fun h => by rw [he] at h; cases h
          bytes := fun _ _ _ _ _ _ _ _ _ _ _ h => h.elim
          bytesMono := fun h i => h (h3 _ _ _ _ _ _ i)
          raw := fun h => h.elim } }
  have hd := exec_dead hS n (s := s) (fun h' => h' h)
  constructor
  · intro t e
    rw [e] at hd
    exact Classical.not_not.1 hd
  · intro t e
    rw [e] at hd
    exact Classical.not_not.1 hd

/-! ### The two arrays that are overrun -/

/-- Element `i` of the array `k` is one of those that can be stored to although the array has no such element. -/
def Wild (names : List (List Byte)) (x : List Byte × Nat) : Prop :=
  x.1 ∈ names ∧ ((x.1 = word "dynamic_bytes" ∧ 256 ≤ x.2 ∧ x.2 < 65535) ∨ (x.1 = word "dynamic_strings" ∧ 10 ≤ x.2 ∧ x.2 < 255))

structure Sink.Kept (names : List (List Byte)) (s : Sink) : Prop where
  dyn : s.dynLen < 65536
  str : s.strCount < 256
  pts : s.ptsLen < 256
  over : ∀ x ∈ s.over, Wild names x

theorem Sink.Kept.put {names : List (List Byte)} {s : Sink} (h : s.Kept names) (k : List Byte) (i size : Nat) (hw : size ≤ i → Wild names (k, i)) : (s.put k i size).Kept names := by
  unfold Sink.put
  split
  · exact h
  · refine ⟨h.dyn, h.str, h.pts, fun x hx => ?_⟩
    rcases List.mem_cons.1 hx with e | e
    · rw [e]; exact hw (by omega)
    · exact h.over x e

theorem Sink.Kept.need {names : List (List Byte)} {s : Sink} (h : s.Kept names) (b : Bool) : (s.need b).Kept names := ⟨h.dyn, h.str, h.pts, h.over⟩

theorem Sink.Kept.copyPre {names : List (List Byte)} {s : Sink} (h : s.Kept names) (buf : List Byte) (p size : Nat) : (s.copyPre buf p size).Kept names := by
  unfold Sink.copyPre
  split <;> exact h.need _

theorem Sink.Kept.setNum {names : List (List Byte)} {s : Sink} (h : s.Kept names) {k : List Byte} {n : Nat} (hk : sinkNums.lookup k = some n) (cell : Word) :
    (s.setNum k n cell).Kept names := by
  have hb : ∀ v : Word, ((if k = word "has_extra" ∨ k = word "adv_has_details" then (if v = 0 then 0 else 1) else v) : Word).toNat ≤ v.toNat := by
    intro v
    split
    · split
      · rename_i e; rw [e]; decide
      · rename_i e
        have : v.toNat ≠ 0 := fun h => e (BitVec.eq_of_toNat_eq (by rw [h]; rfl))
        show 1 ≤ v.toNat
        omega
    · exact Nat.le_refl _
  refine ⟨?_, ?_, h.pts, h.over⟩
  · show ((if word "dynamic_len" = k then _ else s.num (word "dynamic_len")) : Word).toNat < 65536
    split
    · rename_i e
      subst e
      have e2 : n = 2 := by
        have : sinkNums.lookup (word "dynamic_len") = some 2 := by decide +kernel
        rw [this] at hk; cases hk; rfl
      subst e2
      exact Nat.lt_of_le_of_lt (hb _) (truncB_lt 2 cell (by omega))
    · exact h.dyn
  · show ((if word "str_count" = k then _ else s.num (word "str_count")) : Word).toNat < 256
    split
    · rename_i e
      subst e
      have e2 : n = 1 := by
        have : sinkNums.lookup (word "str_count") = some 1 := by decide +kernel
        rw [this] at hk; cases hk; rfl
      subst e2
      exact Nat.lt_of_le_of_lt (hb _) (truncB_lt 1 cell (by omega))
    · exact h.str

theorem sinkTell_kept (names : List (List Byte)) (s : Sink) (key : Nat) (op : Byte) (h : s.Kept names) : (sinkTell names s key op).Kept names := by
  unfold sinkTell
  split
  · exact h
  · split
    · exact ⟨h.dyn, h.str, h.pts, h.over⟩
    · split
      · split
        · exact ⟨h.dyn, h.str, h.pts, h.over⟩
        · exact h
      · exact h

theorem kept_ite {names : List (List Byte)} {c : Prop} [Decidable c] {x y : Word × Sink} (hx : c → x.2.Kept names) (hy : ¬ c → y.2.Kept names) : (if c then x else y).2.Kept names := by
  by_cases hc : c
  · rw [if_pos hc]; exact hx hc
  · rw [if_neg hc]; exact hy hc

theorem sinkVar_kept (names : List (List Byte)) (s : Sink) (key : Nat) (op : Byte) (v : Word) (h : s.Kept names) : (sinkVar names s key op v).2.Kept names := by
  have hd := h.dyn
  have hp := h.pts
  unfold sinkVar
  cases hn : names[key]? with
  | none => exact h
  | some k =>
    dsimp only
    refine kept_ite (fun _ => ?_) (fun _ => kept_ite (fun _ => kept_ite (fun _ => ?_) (fun _ => kept_ite (fun _ => ?_) (fun _ => h))) (fun _ =>
      kept_ite (fun _ => kept_ite (fun _ => ?_) (fun _ => h)) (fun _ =>
      kept_ite (fun _ => kept_ite (fun _ => ?_) (fun _ => kept_ite (fun _ => ?_) (fun _ => h))) (fun _ =>
      kept_ite (fun _ => kept_ite (fun hi => ?_) (fun _ => h)) (fun _ => kept_ite (fun hk => kept_ite (fun hi => ?_) (fun _ => h)) (fun _ =>
      kept_ite (fun hk => kept_ite (fun hi => ?_) (fun _ => h)) (fun _ => kept_ite (fun hk => kept_ite (fun hi => ?_) (fun _ => h)) (fun _ =>
      kept_ite (fun hk => kept_ite (fun hi => ?_) (fun _ => h)) (fun _ => kept_ite (fun _ => h.need _) (fun _ => ?_))))))))))
    · cases sinkNums.lookup k <;> exact h
    · exact ⟨h.dyn, h.str, h.pts, h.over⟩
    · exact ⟨h.dyn, h.str, h.pts, h.over⟩
    · exact ⟨h.dyn, h.str, truncB_lt 1 v (by omega), h.over⟩
    · exact ⟨h.dyn, h.str, h.pts, h.over⟩
    · exact ⟨h.dyn, h.str, h.pts, h.over⟩
    · exact h.put _ _ _ (fun hc => absurd hc (by omega))
    · have := h.put k s.matIdx 4 (fun hc => absurd hc (by omega))
      exact ⟨this.dyn, this.str, this.pts, this.over⟩
    · have := h.put k s.ptsIdx 255 (fun hc => absurd hc (by omega))
      exact ⟨this.dyn, this.str, this.pts, this.over⟩
    · have := h.put k s.dynIdx 256 (fun hc => ⟨List.mem_of_getElem? hn, .inl ⟨hk.1, hc, by show s.dynIdx < _; omega⟩⟩)
      exact ⟨this.dyn, this.str, this.pts, this.over⟩
    · have := h.put k s.restLen 1024 (fun hc => absurd hc (by omega))
      exact ⟨this.dyn, this.str, this.pts, this.over⟩
    · cases hl : sinkNums.lookup k with
      | none => exact h
      | some n => exact h.setNum hl _

theorem sinkPkt_kept (names : List (List Byte)) (s : Sink) (key : Nat) (op : Byte) (buf : List Byte) (p : Nat) (h : s.Kept names) :
    (sinkPkt names s key op buf p).Kept names := by
  have hd := h.dyn
  have hs := h.str
  unfold sinkPkt
  split
  · exact h
  · rename_i k hn
    split
    · split
      · exact h.need _
      · split
        · rename_i hk
          rw [hk]
          refine Sink.Kept.need ?_ _
          split
          · exact h
          · exact h.put _ _ _ (fun hc => ⟨hk ▸ List.mem_of_getElem? hn, .inl ⟨rfl, hc, by show s.dynLen - 1 < _; omega⟩⟩)
        · exact h
    · split
      · split
        · rename_i hk _
          rw [hk]
          have := (h.put (word "dynamic_strings") s.strIdx 10 (fun hc => ⟨hk ▸ List.mem_of_getElem? hn, .inr ⟨rfl, hc, by show s.strIdx < _; omega⟩⟩)).copyPre buf p 64
          exact ⟨this.dyn, this.str, this.pts, this.over⟩
        · exact h
      · split
        · exact h.need _
        · split
          · have := h.need (copyFits buf p 255)
            exact ⟨this.dyn, this.str, this.pts, this.over⟩
          · split
            · exact h.copyPre _ _ _
            · exact h

/-- The environment of a decoding run. -/
def sinkEnv (names : List (List Byte)) (prog : List Byte) (fl : FloatOps) : Env Sink :=
  { prog := prog, enc := false, host := sinkHost names, fl := fl }

/-- **C104 (partial).** Whatever program the image holds and whatever packet is decoded, while the run lasts and when it succeeds no array of the
record but `dynamic_bytes` and `dynamic_strings` was stored to behind its end, those only at indices below 65535 and 255, and only if
the schema has such a field.
Missing: these two; see `C104_false_strings`, `C104_false_bytes`. -/
theorem C104_arrays_partial (names : List (List Byte)) (prog : List Byte) (fl : FloatOps) (n : Nat) (old : St Sink) (packet : List Byte) (t : St Sink)
    (h : exec (sinkEnv names prog fl) n (initSt old packet sinkZero) = .run t ∨ exec (sinkEnv names prog fl) n (initSt old packet sinkZero) = .stop .ok t) :
    ∀ k i, (k, i) ∈ t.host.over → k ∈ names ∧
      ((k = word "dynamic_bytes" ∧ 256 ≤ i ∧ i < 65535) ∨ (k = word "dynamic_strings" ∧ 10 ≤ i ∧ i < 255)) := by
  have hk : sinkZero.Kept names := ⟨by decide, by decide, by decide, by simp [sinkZero]⟩
  obtain ⟨h1, h2⟩ := host_keeps (sinkEnv names prog fl) rfl (Sink.Kept names) (fun a key op => sinkTell_kept names a key op)
    (fun a key op v => sinkVar_kept names a key op v) (fun a key op _ D p => sinkPkt_kept names a key op D p) n (initSt old packet sinkZero) hk
  intro k i hm
  rcases h with h | h
  · exact (h1 t h).over _ hm
  · exact (h2 t h).over _ hm

/-- A schema without these two fields is decoded without an overrun. -/
theorem C104_safe (names : List (List Byte)) (prog : List Byte) (fl : FloatOps) (n : Nat) (old : St Sink) (packet : List Byte) (t : St Sink)
    (h1 : word "dynamic_bytes" ∉ names) (h2 : word "dynamic_strings" ∉ names)
    (h : exec (sinkEnv names prog fl) n (initSt old packet sinkZero) = .run t ∨ exec (sinkEnv names prog fl) n (initSt old packet sinkZero) = .stop .ok t) :
    t.host.over = [] := by
  cases ho : t.host.over with
  | nil => rfl
  | cons x l =>
    obtain ⟨m1, m2⟩ := C104_arrays_partial names prog fl n old packet t h x.1 x.2 (by rw [ho]; exact List.mem_cons_self ..)
    rcases m2 with m2 | m2
    · exact absurd (m2.1 ▸ m1) h1
    · exact absurd (m2.1 ▸ m1) h2

example : word "dynamic_bytes" ∉ [word "points", word "P"] ∧ word "dynamic_strings" ∉ [word "points", word "P"] ∧
    endsIn (fun t => decide (t.host.over = []) && decide (t.host.ptsIdx = 2))
      (exec (sinkEnv [word "points", word "P"] [7, 1, 0, 0x35, 0, 0, 0x11, 0, 0, 0x38] Soft.fl) 40
        (initSt (zeroSt sinkZero) [2, 1, 0, 2, 0] sinkZero)) = true := by decide +kernel

/-- **C104 is false.** A packet with eleven strings, which is decoded without an error, makes the callback store to `dynamic_strings[10]`. -/
theorem C104_false_strings : ∃ (src : List Byte) (names : List (List Byte)) (prog packet : List Byte) (n : Nat) (old t : St Sink),
    compile demoP 1000 src = .image (writeImage names prog) ∧
    exec (sinkEnv names prog Soft.fl) n (initSt old packet sinkZero) = .stop .ok t ∧ t.host.over = [(word "dynamic_strings", 10)] := by
  obtain ⟨t, h1, h2⟩ := endsIn_spec (p := fun t : St Sink => decide (t.host.over = [(word "dynamic_strings", 10)]))
    (r := exec (sinkEnv [word "str_count", word "dynamic_strings", word "KitchenSink"] [7, 2, 0, 0x10, 0, 0, 0x3B, 1, 0, 0, 0, 0x31, 1, 0, 0x38] Soft.fl) 40
      (initSt (zeroSt sinkZero) (11 :: List.replicate 11 0) sinkZero)) (by decide +kernel)
  exact ⟨word "packet KitchenSink { uint8 str_count; @count(str_count) string dynamic_strings[] prefix uint8; }",
    _, _, _, _, _, t, by decide +kernel, h1, of_decide_eq_true h2⟩

/-- A packet with 257 bytes does the same to `dynamic_bytes[256]`. -/
theorem C104_false_bytes : ∃ (src : List Byte) (names : List (List Byte)) (prog packet : List Byte) (n : Nat) (old t : St Sink),
    compile demoP 1000 src = .image (writeImage names prog) ∧
    exec (sinkEnv names prog Soft.fl) n (initSt old packet sinkZero) = .stop .ok t ∧ t.host.over = [(word "dynamic_bytes", 256)] := by
  obtain ⟨t, h1, h2⟩ := endsIn_spec (p := fun t : St Sink => decide (t.host.over = [(word "dynamic_bytes", 256)]))
    (r := exec (sinkEnv [word "dynamic_len", word "dynamic_bytes", word "KitchenSink"] [7, 2, 0, 0x11, 0, 0, 0x3B, 1, 0, 0, 0, 0x10, 1, 0, 0x38] Soft.fl) 40
      (initSt (zeroSt sinkZero) (1 :: 1 :: List.replicate 257 0) sinkZero)) (by decide +kernel)
  exact ⟨word "packet KitchenSink { uint16 dynamic_len; @count(dynamic_len) uint8 dynamic_bytes[]; }",
    _, _, _, _, _, t, by decide +kernel, h1, of_decide_eq_true h2⟩

/-- **The string `reason` is read past its end.** Of a packet with the string `bad` and the byte 50 behind it the record gets `bad2`, and the copy
goes on behind the packet. -/
theorem C104_false_reason : ∃ (src : List Byte) (names : List (List Byte)) (prog packet : List Byte) (n : Nat) (old t : St Sink),
    compile demoP 1000 src = .image (writeImage names prog) ∧
    packet = 3 :: word "bad" ++ [50] ∧ exec (sinkEnv names prog Soft.fl) n (initSt old packet sinkZero) = .stop .ok t ∧
      t.host.reason = word "bad2" ∧ t.host.past = true := by
  obtain ⟨t, h1, h2⟩ := endsIn_spec (p := fun t => decide (t.host.reason = word "bad2") && t.host.past)
    (r := exec (sinkEnv [word "reason", word "percentage", word "KitchenSink"] [7, 2, 0, 0x31, 0, 0, 0x10, 1, 0] Soft.fl) 40
      (initSt (zeroSt sinkZero) (3 :: word "bad" ++ [50]) sinkZero)) (by decide +kernel)
  rw [Bool.and_eq_true] at h2
  exact ⟨word "packet KitchenSink { string reason prefix uint8; uint8 percentage; }",
    _, _, _, _, _, t, by decide +kernel, rfl, h1, of_decide_eq_true h2.1, h2.2⟩

/-- A run within the bounds: two strings, three bytes. -/
example : endsIn (fun t => decide (t.host.over = []) && !t.host.past && decide (t.host.strIdx = 2))
    (exec (sinkEnv [word "str_count", word "dynamic_strings"] [0x10, 0, 0, 0x3B, 1, 0, 0, 0, 0x31, 1, 0, 0x38] Soft.fl) 40
      (initSt (zeroSt sinkZero) [2, 1, 0x41, 0] sinkZero)) = true := by decide +kernel

end Cnd
