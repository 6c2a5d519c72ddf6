import Verif.Fuzz
import Verif.Props.TwoRuns
import Verif.Props.Term
/-
  C101: the fuzzer's counters.
  C102: the dump of hexview.
-/

namespace Cnd

/-! ### The generator -/

theorem shl_free (x : BitVec 32) (k : Nat) (hk : 0 < k) (h : x ^^^ (x <<< k) = 0#32) : x = 0#32 := by
  have hb : ∀ i : Nat, x.getLsbD i = false := by
    intro i
    induction i using Nat.strongRecOn with
    | ind i ih =>
      have hx := congrArg (fun z : BitVec 32 => z.getLsbD i) h
      simp only [BitVec.getLsbD_xor, BitVec.getLsbD_shiftLeft, BitVec.getLsbD_zero] at hx
      by_cases hi : i < 32
      · by_cases hik : i < k
        · simpa [hik] using hx
        · rw [ih (i - k) (by omega)] at hx
          simpa using hx
      · exact BitVec.getLsbD_of_ge _ _ (by omega)
  apply BitVec.eq_of_getLsbD_eq
  intro i _
  simp [hb i]

theorem shr_free (x : BitVec 32) (k : Nat) (hk : 0 < k) (h : x ^^^ (x >>> k) = 0#32) : x = 0#32 := by
  have hb : ∀ m i : Nat, 32 - i ≤ m → x.getLsbD i = false := by
    intro m
    induction m with
    | zero => intro i hi; exact BitVec.getLsbD_of_ge _ _ (by omega)
    | succ m ih =>
      intro i hi
      by_cases h32 : i < 32
      · have := congrArg (fun z : BitVec 32 => z.getLsbD i) h
        simp only [BitVec.getLsbD_xor, BitVec.getLsbD_ushiftRight, BitVec.getLsbD_zero] at this
        rw [ih (k + i) (by omega)] at this
        simpa using this
      · exact BitVec.getLsbD_of_ge _ _ (by omega)
  apply BitVec.eq_of_getLsbD_eq
  intro i _
  simp [hb 32 i (by omega)]

theorem xor_shl (x y : BitVec 32) (k : Nat) : (x ^^^ y) ^^^ ((x ^^^ y) <<< k) = (x ^^^ (x <<< k)) ^^^ (y ^^^ (y <<< k)) := by
  rw [BitVec.shiftLeft_xor_distrib]; ac_rfl

theorem xor_shr (x y : BitVec 32) (k : Nat) : (x ^^^ y) ^^^ ((x ^^^ y) >>> k) = (x ^^^ (x >>> k)) ^^^ (y ^^^ (y >>> k)) := by
  rw [BitVec.ushiftRight_xor_distrib]; ac_rfl

theorem xorshift_xor (x y : BitVec 32) : xorshift (x ^^^ y) = xorshift x ^^^ xorshift y := by
  simp only [xorshift, xor_shl, xor_shr]

theorem xorshift_free {x : BitVec 32} (h : xorshift x = 0#32) : x = 0#32 :=
  shl_free _ 13 (by decide) (shr_free _ 17 (by decide) (shl_free _ 5 (by decide) h))

/-- **C101, generator.** Different states have different successors, and only the state 0 is followed by 0: a sequence
that does not begin with 0 never reaches it, and two sequences never meet at the same position. -/
theorem C101_generator (x y : BitVec 32) : (xorshift x = xorshift y ↔ x = y) ∧ (xorshift x = 0#32 ↔ x = 0#32) := by
  refine ⟨⟨fun h => ?_, fun h => by rw [h]⟩, xorshift_free, fun h => by rw [h]; decide⟩
  have : xorshift (x ^^^ y) = 0#32 := by rw [xorshift_xor, h, BitVec.xor_self]
  have := xorshift_free this
  exact BitVec.xor_eq_zero_iff.1 this

/-- The first numbers after the seed 2463534242 that Marsaglia's paper gives. -/
example : xorshift 2463534242#32 = 723471715#32 ∧ xorshift 723471715#32 = 2497366906#32 := by decide +kernel

/-! ### The packets of the fuzzer, as a reading of the sequence of random numbers -/

/-- The `n`-th state after `x`. -/
def rndState : Nat → BitVec 32 → BitVec 32
  | 0, x => x
  | n + 1, x => rndState n (xorshift x)

theorem rndState_add (a b : Nat) (x : BitVec 32) : rndState (a + b) x = rndState b (rndState a x) := by
  induction a generalizing x with
  | zero => rw [Nat.zero_add, rndState]
  | succ a ih => rw [Nat.succ_add, rndState, rndState, ih]

theorem rndState_nonzero {x : BitVec 32} (h : x ≠ 0#32) (n : Nat) : rndState n x ≠ 0#32 := by
  induction n generalizing x with
  | zero => exact h
  | succ n ih => exact ih (fun e => h ((C101_generator x x).2.1 e))

/-- The `n`-th random number, from 0. -/
def rnd (seed : BitVec 32) (n : Nat) : Nat := (rndState (n + 1) seed).toNat

/-- Where the numbers of the `i`-th packet begin: one number for its length and one for each byte. -/
def rndPos (seed : BitVec 32) : Nat → Nat
  | 0 => 0
  | i + 1 => rndPos seed i + 1 + rnd seed (rndPos seed i) % 4097

/-- The `i`-th packet. -/
def rndPacket (seed : BitVec 32) (i : Nat) : List Byte :=
  (List.range (rnd seed (rndPos seed i) % 4097)).map fun j => BitVec.ofNat 8 (rnd seed (rndPos seed i + 1 + j))

theorem low_byte (y : BitVec 32) : (y &&& 0xFF#32).setWidth 8 = BitVec.ofNat 8 y.toNat := by
  apply BitVec.eq_of_toNat_eq
  simp only [BitVec.toNat_setWidth, BitVec.toNat_and, BitVec.toNat_ofNat]
  rw [show (255 % 2 ^ 32 : Nat) = 2 ^ 8 - 1 by decide, Nat.and_two_pow_sub_one_eq_mod]
  omega

theorem fillRandom_eq (n : Nat) (x : BitVec 32) :
    fillRandom n x = ((List.range n).map fun j => BitVec.ofNat 8 (rnd x j), rndState n x) := by
  induction n generalizing x with
  | zero => rfl
  | succ n ih =>
    rw [fillRandom, ih, List.range_succ_eq_map]
    simp only [List.map_cons, List.map_map, rndState]
    rw [show (xorshift x &&& 255).setWidth 8 = BitVec.ofNat 8 (rnd x 0) from low_byte _]
    rfl

theorem fuzzPacket_eq (seed : BitVec 32) (i : Nat) :
    fuzzPacket (rndState (rndPos seed i) seed) = (rndPacket seed i, rndState (rndPos seed (i + 1)) seed) := by
  have h1 : xorshift (rndState (rndPos seed i) seed) = rndState (rndPos seed i + 1) seed := by
    rw [rndState_add]; rfl
  unfold fuzzPacket
  rw [h1, fillRandom_eq]
  refine Prod.ext ?_ ?_
  · show _ = rndPacket seed i
    unfold rndPacket rnd
    refine List.map_congr_left (fun j _ => ?_)
    rw [← rndState_add]
    rfl
  · show rndState _ _ = _
    rw [← rndState_add]
    rfl

/-! ### The counters -/

/-- A context that was never used. -/
def newCtx : St Unit :=
  { buf := [], ip := 0, cursor := 0, bit := 0, be := false, trans := .none, fFactor := 0, fOffset := 0,
    iVal := 0, polyPos := 0, polyCnt := 0, splPos := 0, splCnt := 0, opt := false, loops := [],
    stack := [], host := () }

/-- How a run of the VM over the packet `buf` ends, from a context that was never used. -/
def fuzzEnd (E : Env Unit) (n : Nat) (buf : List Byte) : Option Err :=
  match exec E n (initSt newCtx buf ()) with
  | .stop e _ => some e
  | _ => none

theorem fuzzEnd_of (E : Env Unit) (n : Nat) (buf : List Byte) (ctx : St Unit) (e : Err) :
    fuzzEnd E n buf = some e ↔ ∃ s, exec E n (initSt ctx buf ()) = .stop e s := by
  unfold fuzzEnd
  have := C33_history E newCtx ctx buf () n
  revert this
  cases exec E n (initSt newCtx buf ()) <;> cases exec E n (initSt ctx buf ()) <;> simp [Res.seen]
  intro h _ _ _ _
  rw [h]

/-- The number of packets among those from `i` on, `k` of them, whose run ends with `e`. -/
def endCount (E : Env Unit) (n : Nat) (seed : BitVec 32) (e : Err) (i k : Nat) : Nat :=
  ((List.range' i k).filter fun j => decide (fuzzEnd E n (rndPacket seed j) = some e)).length

theorem code_inj {a b : Err} (h : a.fuzzCode = b.fuzzCode) : a = b := by
  cases a <;> cases b <;> first | rfl | (exact absurd h (by decide))

theorem code_lt (e : Err) : e.fuzzCode < 10 := by cases e <;> decide

theorem bump_get (t : List Nat) (ht : t.length = 10) (e e' : Err) :
    (bumpCount t e).length = 10 ∧ (bumpCount t e).getD e'.fuzzCode 0 = t.getD e'.fuzzCode 0 + (if e = e' then 1 else 0) := by
  unfold bumpCount
  rw [if_pos (code_lt e)]
  refine ⟨by simpa using ht, ?_⟩
  have := code_lt e
  have := code_lt e'
  by_cases h : e = e'
  · subst h
    simp [List.getD_eq_getElem?_getD, List.getElem?_set, ht, *]
  · have hne : e.fuzzCode ≠ e'.fuzzCode := fun he => h (code_inj he)
    simp [List.getD_eq_getElem?_getD, List.getElem?_set, hne, h]

theorem fuzzLoop_done (E : Env Unit) (n : Nat) (seed : BitVec 32) : ∀ (k i : Nat) (ctx : St Unit) (t t' : List Nat), t.length = 10 →
    fuzzLoop E n k ctx (rndState (rndPos seed i) seed) t = .done t' →
    t'.length = 10 ∧ (∀ j, i ≤ j → j < i + k → ∃ e, fuzzEnd E n (rndPacket seed j) = some e) ∧
      (∀ c, t'[c]?.getD 0 = t[c]?.getD 0 + 0 ∨ ∃ e : Err, e.fuzzCode = c) ∧
      ∀ e : Err, t'.getD e.fuzzCode 0 = t.getD e.fuzzCode 0 + endCount E n seed e i k
  | 0, i, ctx, t, t', ht, h => by
    rw [fuzzLoop] at h
    cases h
    exact ⟨ht, fun j h1 h2 => by omega, fun c => .inl rfl, fun e => rfl⟩
  | k + 1, i, ctx, t, t', ht, h => by
    rw [fuzzLoop, fuzzPacket_eq] at h
    dsimp only at h
    cases hx : exec E n (initSt ctx (rndPacket seed i) ()) with
    | run s => rw [hx] at h; cases h
    | ub u => rw [hx] at h; cases h
    | stop e s =>
      rw [hx] at h
      have he := (fuzzEnd_of E n (rndPacket seed i) ctx e).2 ⟨s, hx⟩
      obtain ⟨h1, h2, h3, h4⟩ := fuzzLoop_done E n seed k (i + 1) s _ t' (bump_get t ht e e).1 h
      refine ⟨h1, fun j hj hk => ?_, fun c => ?_, fun e' => ?_⟩
      · by_cases hji : j = i
        · subst hji; exact ⟨e, he⟩
        · exact h2 j (by omega) (by omega)
      · by_cases hc : ∃ e : Err, e.fuzzCode = c
        · exact .inr hc
        · refine (h3 c).imp (fun h => ?_) id
          rw [h]
          have hne : e.fuzzCode ≠ c := fun h => hc ⟨e, h⟩
          simp [bumpCount, code_lt, List.getElem?_set, hne]
      · rw [h4 e', (bump_get t ht e e').2]
        unfold endCount
        rw [List.range'_succ, List.filter_cons, he]
        by_cases hee : e = e'
        · subst hee; simp; omega
        · simp [hee]

theorem fuzzLoop_ends (E : Env Unit) (n : Nat) (seed : BitVec 32) : ∀ (k i : Nat) (ctx : St Unit) (t : List Nat),
    (∀ j, i ≤ j → j < i + k → ∃ e, fuzzEnd E n (rndPacket seed j) = some e) →
    ∃ t', fuzzLoop E n k ctx (rndState (rndPos seed i) seed) t = .done t'
  | 0, i, ctx, t, h => ⟨t, rfl⟩
  | k + 1, i, ctx, t, h => by
    rw [fuzzLoop, fuzzPacket_eq]
    dsimp only
    obtain ⟨e, he⟩ := h i (by omega) (by omega)
    obtain ⟨s, hs⟩ := (fuzzEnd_of E n _ ctx e).1 he
    rw [hs]
    exact fuzzLoop_ends E n seed k (i + 1) s _ (fun j h1 h2 => h j (by omega) (by omega))

theorem fuzz_counters (prog : List Byte) (fl : FloatOps) (n k : Nat) (ctx : St Unit) (seed : BitVec 32) :
    ((∃ t, fuzzData prog fl n k ctx seed = .done t) ↔ ∀ i, i < k → ∃ e, fuzzEnd (fuzzEnv prog fl) n (rndPacket seed i) = some e) ∧
    ∀ t, fuzzData prog fl n k ctx seed = .done t → t.length = 10 ∧ t[9]? = some 0 ∧
      ∀ e : Err, t[e.fuzzCode]? = some
        ((List.range k).filter fun i => decide (fuzzEnd (fuzzEnv prog fl) n (rndPacket seed i) = some e)).length := by
  refine ⟨⟨fun ⟨t, h⟩ i hi => ?_, fun h => ?_⟩, fun t h => ?_⟩
  · exact (fuzzLoop_done _ n seed k 0 ctx _ t (by simp) h).2.1 i (by omega) (by omega)
  · exact fuzzLoop_ends _ n seed k 0 ctx _ (fun j _ hj => h j (by omega))
  · obtain ⟨h1, _, h3, h4⟩ := fuzzLoop_done _ n seed k 0 ctx _ t (by simp) h
    have some_of : ∀ c v, c < 10 → t[c]?.getD 0 = v → t[c]? = some v := by
      intro c v hc hv
      have : c < t.length := by omega
      rw [List.getElem?_eq_getElem this] at hv ⊢
      simpa using hv
    refine ⟨h1, ?_, fun e => ?_⟩
    · rcases h3 9 with h | ⟨e, he⟩
      · exact some_of 9 0 (by decide) h
      · cases e <;> exact absurd he (by decide)
    · refine some_of _ _ (code_lt e) ?_
      have := h4 e
      rw [List.getD_eq_getElem?_getD, List.getD_eq_getElem?_getD] at this
      rw [this]
      cases e <;> simp [endCount, Err.fuzzCode, List.range_eq_range']

/-- Decoding with a host that takes everything and supplies nothing. -/
def deafEnv (prog : List Byte) (fl : FloatOps) : Env Unit where
  prog := prog
  enc := false
  fl := fl
  host := { notify := fun _ _ _ => (true, ()), scalar := fun _ _ _ w => (true, w, ()), str := fun _ _ _ => (true, none, ()),
            bytesAt := fun _ _ _ _ buf _ => (true, buf, ()) }

theorem fuzzEnv_eq (prog : List Byte) (fl : FloatOps) : fuzzEnv prog fl = deafEnv prog fl := rfl

/-- The results in the order of `cnd_error_t`, concordia.h 150-160. -/
def errOrder : List Err :=
  [.ok, .oob, .invalidOp, .validation, .callback, .stackOverflow, .stackUnderflow, .crcMismatch, .arithmetic]

/-- **C101, counters.** The fuzzer comes to its end exactly if the run over each of the first `k` packets does (without
undefined behaviour), and then the counters are, in the order of the error codes, the numbers of those packets whose run, from a context
never used before, ends with that result; the tenth counter is 0. -/
theorem C101_counters (prog : List Byte) (fl : FloatOps) (n k : Nat) (ctx : St Unit) (seed : BitVec 32) :
    ((∃ t, fuzzData prog fl n k ctx seed = .done t) ↔ ∀ i, i < k → ∃ e, fuzzEnd (deafEnv prog fl) n (rndPacket seed i) = some e) ∧
    ∀ t, fuzzData prog fl n k ctx seed = .done t → t = (errOrder.map fun e =>
      ((List.range k).filter fun i => decide (fuzzEnd (deafEnv prog fl) n (rndPacket seed i) = some e)).length) ++ [0] := by
  rw [← fuzzEnv_eq]
  refine ⟨(fuzz_counters prog fl n k ctx seed).1, fun t h => ?_⟩
  obtain ⟨h1, h9, h2⟩ := (fuzz_counters prog fl n k ctx seed).2 t h
  have fin : ∀ g : Err → Nat, (∀ e : Err, t[e.fuzzCode]? = some (g e)) → t = errOrder.map g ++ [0] := ?_
  · exact fin _ h2
  clear h2 h
  intro g h3
  match t, h1 with
  | [t0, t1, t2, t3, t4, t5, t6, t7, t8, t9], _ =>
    have e0 := h3 .ok
    have e1 := h3 .oob
    have e2 := h3 .invalidOp
    have e3 := h3 .validation
    have e4 := h3 .callback
    have e5 := h3 .stackOverflow
    have e6 := h3 .stackUnderflow
    have e7 := h3 .crcMismatch
    have e8 := h3 .arithmetic
    simp [Err.fuzzCode] at e0 e1 e2 e3 e4 e5 e6 e7 e8 h9
    simp [errOrder, *]

theorem sum_set_succ : ∀ (t : List Nat) (i : Nat), i < t.length → (t.set i (t.getD i 0 + 1)).sum = t.sum + 1
  | [], i, h => by simp at h
  | a :: t, 0, _ => by simp; omega
  | a :: t, i + 1, h => by
    have := sum_set_succ t i (by simpa using h)
    simp only [List.set_cons_succ, List.sum_cons, List.getD_cons_succ]
    omega

theorem fuzzLoop_sum (E : Env Unit) (n : Nat) : ∀ (k : Nat) (ctx : St Unit) (x : BitVec 32) (t t' : List Nat), t.length = 10 →
    fuzzLoop E n k ctx x t = .done t' → t'.sum = t.sum + k
  | 0, ctx, x, t, t', _, h => by rw [fuzzLoop] at h; cases h; rfl
  | k + 1, ctx, x, t, t', ht, h => by
    rw [fuzzLoop] at h
    cases hx : exec E n (initSt ctx (fuzzPacket x).1 ()) with
    | run s => rw [hx] at h; cases h
    | ub u => rw [hx] at h; cases h
    | stop e s =>
      rw [hx] at h
      have := fuzzLoop_sum E n k s _ _ t' (bump_get t ht e e).1 h
      rw [this, bumpCount, if_pos (code_lt e), sum_set_succ t _ (by rw [ht]; exact code_lt e)]
      omega

/-- **C101, report (partial).** The numbers in the report and the number of runs that ended with an arithmetic error make up the number of
iterations: as long as no run ends so, every iteration is in the report. -/
theorem C101_report_partial (prog : List Byte) (fl : FloatOps) (n k : Nat) (ctx : St Unit) (seed : BitVec 32) (t : List Nat)
    (h : fuzzData prog fl n k ctx seed = .done t) :
    (fuzzReport t).length = 8 ∧ (fuzzReport t).sum + ((List.range k).filter fun i =>
      decide (fuzzEnd (deafEnv prog fl) n (rndPacket seed i) = some .arithmetic)).length = k := by
  rw [← fuzzEnv_eq]
  obtain ⟨h1, h9, h2⟩ := (fuzz_counters prog fl n k ctx seed).2 t h
  have hs : t.sum = k := by
    have := fuzzLoop_sum _ n k ctx seed _ t (by simp) h
    simpa using this
  have h8 := h2 .arithmetic
  generalize ((List.range k).filter _).length = a at h8 ⊢
  clear h2 h
  match t, h1 with
  | [t0, t1, t2, t3, t4, t5, t6, t7, t8, t9], _ =>
    simp [Err.fuzzCode] at h8 h9
    simp at hs
    simp [fuzzReport, Err.fuzzCode]
    omega

/-- A program that divides by zero: PUSH_IMM 1, PUSH_IMM 0, DIV. -/
def divProg : List Byte := [0x61, 1, 0, 0, 0, 0, 0, 0, 0, 0x61, 0, 0, 0, 0, 0, 0, 0, 0, 0x75]

theorem divProg_loop (fl : FloatOps) (c : Nat) : ∀ (k : Nat) (ctx : St Unit) (x : BitVec 32),
    fuzzLoop (fuzzEnv divProg fl) 3 k ctx x [0, 0, 0, 0, 0, 0, 0, 0, c, 0] = .done [0, 0, 0, 0, 0, 0, 0, 0, c + k, 0] := by
  intro k
  induction k generalizing c with
  | zero => intro ctx x; rfl
  | succ k ih =>
    intro ctx x
    have hx : ∀ buf, ∃ s, exec (fuzzEnv divProg fl) 3 (initSt ctx buf ()) = .stop .arithmetic s := fun buf => ⟨_, rfl⟩
    obtain ⟨s, hs⟩ := hx (fuzzPacket x).1
    rw [fuzzLoop, hs]
    show fuzzLoop _ 3 k s _ [0, 0, 0, 0, 0, 0, 0, 0, c + 1, 0] = _
    rw [ih (c + 1), show c + 1 + k = c + (k + 1) by omega]

/-- **C101, the report is not complete.** Over a program that divides by zero, whatever the seed and the number of iterations,
every run ends with an arithmetic error and the report says 0 for all the results it lists. -/
theorem C101_false_report (fl : FloatOps) (k : Nat) (ctx : St Unit) (seed : BitVec 32) :
    ∃ t, fuzzData divProg fl 3 k ctx seed = .done t ∧ t[8]? = some k ∧ fuzzReport t = List.replicate 8 0 := by
  refine ⟨_, divProg_loop fl 0 k ctx seed, ?_, rfl⟩
  simp

theorem rndState_zero (n : Nat) : rndState n 0#32 = 0#32 := by
  induction n with
  | zero => rfl
  | succ n ih => rw [rndState, show xorshift 0#32 = 0#32 by decide, ih]

/-- **C101, packets.** No packet is longer than the buffer of 4096 bytes; with the seed 0 all of them are empty. -/
theorem C101_packets (seed : BitVec 32) (i : Nat) :
    (fuzzPacket (rndState (rndPos seed i) seed)).1 = rndPacket seed i ∧ (rndPacket seed i).length ≤ 4096 ∧ rndPacket 0#32 i = [] := by
  refine ⟨by rw [fuzzPacket_eq], ?_, ?_⟩
  · unfold rndPacket
    rw [List.length_map, List.length_range]
    omega
  · unfold rndPacket
    rw [show rnd 0#32 (rndPos 0#32 i) = 0 by unfold rnd; rw [rndState_zero]; rfl]
    rfl

example : (rndPacket 1#32 0).length = 4064 ∧ ((List.range 3).map fun i => rnd 1#32 i) = [270369, 67634689, 2647435461] := by decide +kernel

theorem fuzzLoop_forward (E : Env Unit) (n N : Nat) (hN : N = stepBound E.prog.length) (hn : N ≤ n)
    (hf : ∀ c buf, Forward E (initSt c buf ())) (k : Nat) : ∀ (ctx : St Unit) (x : BitVec 32) (t : List Nat),
    fuzzLoop E n k ctx x t ≠ .hang := by
  induction k with
  | zero => intro ctx x t h; rw [fuzzLoop] at h; cases h
  | succ k ih =>
    intro ctx x t
    rw [fuzzLoop]
    cases hx : exec E n (initSt ctx (fuzzPacket x).1 ()) with
    | run s => exact absurd hx (C32_ends_partial E ctx _ () (hf _ _) n (hN ▸ hn) s)
    | ub u => intro h; cases h
    | stop e s => exact ih s _ _

/-- **C101, end (partial).** If no run of the program jumps backwards or opens a read-to-end array, the fuzzer comes to its end or to undefined
behaviour; it does not hang, whatever the seed and the number of iterations. -/
theorem C101_ends_partial (prog : List Byte) (fl : FloatOps) (n k : Nat) (ctx : St Unit) (seed : BitVec 32)
    (hf : ∀ c buf, Forward (deafEnv prog fl) (initSt c buf ())) (hn : stepBound prog.length ≤ n) :
    fuzzData prog fl n k ctx seed ≠ .hang := by
  rw [← fuzzEnv_eq] at hf
  generalize hN : stepBound prog.length = N at hn
  exact fuzzLoop_forward (fuzzEnv prog fl) n N (by rw [← hN]; simp only [fuzzEnv]) hn hf k ctx seed _

/-- A program that jumps to itself hangs the fuzzer in its first iteration. -/
theorem C101_false_hang (fl : FloatOps) (n k : Nat) (ctx : St Unit) (seed : BitVec 32) :
    fuzzData [0x52, 0xFB, 0xFF, 0xFF, 0xFF] fl n (k + 1) ctx seed = .hang := by
  have hst : ∀ (s : St Unit), s.ip = 0 → s.bit = 0 → step (fuzzEnv [0x52, 0xFB, 0xFF, 0xFF, 0xFF] fl) s = .run s := by
    intro s hi hb
    cases s
    dsimp only at hi hb
    subst hi hb
    rfl
  have hr : ∀ m (s : St Unit), s.ip = 0 → s.bit = 0 → exec (fuzzEnv [0x52, 0xFB, 0xFF, 0xFF, 0xFF] fl) m s = .run s := by
    intro m
    induction m with
    | zero => intro s _ _; rfl
    | succ m ih => intro s hi hb; rw [exec, hst s hi hb]; exact ih s hi hb
  unfold fuzzData
  rw [fuzzLoop, hr n _ rfl rfl]

/-- The hypothesis of `C101_ends_partial` holds of the program above. -/
theorem divProg_forward (fl : FloatOps) (c : St Unit) (buf : List Byte) : Forward (fuzzEnv divProg fl) (initSt c buf ()) := by
  have hr : ∀ s, Reach (fuzzEnv divProg fl) (initSt c buf ()) s → s.loops = [] ∧ (s.ip = 0 ∨ s.ip = 9 ∨ s.ip = 18) := by
    rintro s ⟨n, h⟩
    match n with
    | 0 => cases h; exact ⟨rfl, .inl rfl⟩
    | 1 => cases h; exact ⟨rfl, .inr (.inl rfl)⟩
    | 2 => cases h; exact ⟨rfl, .inr (.inr rfl)⟩
    | n + 3 => cases h
  refine ⟨fun s s' h _ hj => ?_, fun s h f hf => ?_⟩
  · have hp := (hr s h).2
    have : curOp (fuzzEnv divProg fl) s = some .pushImm ∨ curOp (fuzzEnv divProg fl) s = some (.ibin .div) := by
      unfold curOp
      rcases hp with h | h | h <;> rw [h]
      · exact .inl rfl
      · exact .inl rfl
      · exact .inr rfl
    rcases this with h | h <;> rw [h] at hj <;> exact absurd hj (by decide)
  · rw [(hr s h).1] at hf
    cases hf

example (fl : FloatOps) (k : Nat) (ctx : St Unit) (seed : BitVec 32) (n : Nat) (hn : stepBound divProg.length ≤ n) :
    fuzzData divProg fl n k ctx seed ≠ .hang :=
  C101_ends_partial divProg fl n k ctx seed (divProg_forward fl) hn

/-! ### hexview -/

/-- The digits. -/
def hexDigits : List Byte := [0x30, 0x31, 0x32, 0x33, 0x34, 0x35, 0x36, 0x37, 0x38, 0x39, 0x41, 0x42, 0x43, 0x44, 0x45, 0x46]

/-- The two digits of a byte and the space behind them: as in a table of the digits. -/
def hexWord (b : Byte) : List Byte :=
  [hexDigits.getD (b.toNat / 16) 0, hexDigits.getD (b.toNat % 16) 0, 0x20]

/-- The lines of a dump: sixteen bytes each, the last one may be shorter. -/
def dumpLines : Nat → List Byte → List (List Byte)
  | 0, _ => []
  | m + 1, bs => if bs = [] then [] else bs.take 16 :: dumpLines m (bs.drop 16)

/-- The value of a digit. -/
def unDigit (b : Byte) : Option Nat :=
  if 0x30 ≤ b.toNat ∧ b.toNat ≤ 0x39 then some (b.toNat - 0x30)
  else if 0x41 ≤ b.toNat ∧ b.toNat ≤ 0x46 then some (b.toNat - 0x41 + 10)
  else none

/-- Reading a dump back: pairs of digits between blanks and line ends. -/
def unDump : List Byte → Option (List Byte)
  | [] => some []
  | a :: r =>
    if a = 0x20 ∨ a = 0x0A then unDump r
    else
      match r with
      | [] => none
      | b :: r' => match unDigit a, unDigit b, unDump r' with
        | some x, some y, some bs => some (BitVec.ofNat 8 (16 * x + y) :: bs)
        | _, _, _ => none

theorem digit_table : ∀ n : Fin 16, upperHex n.val = hexDigits.getD n.val 0 ∧ unDigit (upperHex n.val) = some n.val ∧
    upperHex n.val ≠ 0x20 ∧ upperHex n.val ≠ 0x0A := by decide +kernel

theorem digit_at (n : Nat) (h : n < 16) : upperHex n = hexDigits.getD n 0 ∧ unDigit (upperHex n) = some n ∧
    upperHex n ≠ 0x20 ∧ upperHex n ≠ 0x0A := digit_table ⟨n, h⟩

theorem viewLoop_some : ∀ (bs : List Byte) (c : Nat), c + bs.length ≤ 0x7FFFFFFF → ∃ t, viewLoop bs c = some (t, c + bs.length) ∧
    unDump t = some bs ∧ unDump (t ++ [0x0A]) = some bs
  | [], c, _ => ⟨[], rfl, rfl, rfl⟩
  | b :: bs, c, h => by
    rw [List.length_cons] at h
    obtain ⟨t, h1, h2, h3⟩ := viewLoop_some bs (c + 1) (by omega)
    have hb : b.toNat < 256 := b.isLt
    obtain ⟨_, d1, e1, f1⟩ := digit_at (b.toNat / 16) (by omega)
    obtain ⟨_, d2, e2, f2⟩ := digit_at (b.toNat % 16) (by omega)
    have hbb : BitVec.ofNat 8 (16 * (b.toNat / 16) + b.toNat % 16) = b := by
      rw [Nat.div_add_mod]; simp
    have key : ∀ u, unDump u = some bs →
        unDump (upperHex (b.toNat / 16) :: upperHex (b.toNat % 16) :: 0x20 :: u) = some (b :: bs) := by
      intro u hu
      have hsp : unDump (0x20 :: u) = unDump u := by rw [unDump.eq_def]; simp
      rw [unDump.eq_def]
      dsimp only
      rw [if_neg (fun h => h.elim e1 f1), d1, d2, hsp, hu]
      dsimp only
      rw [hbb]
    have hnl : ∀ u, unDump (0x0A :: u) = unDump u := by intro u; rw [unDump.eq_def]; simp
    unfold viewLoop
    rw [if_neg (by omega), h1]
    refine ⟨_, by rw [List.length_cons, show c + (bs.length + 1) = c + 1 + bs.length by omega], ?_, ?_⟩
    · refine key _ ?_
      split
      · rw [hnl, h2]
      · exact h2
    · rw [List.cons_append, List.cons_append, List.cons_append]
      refine key _ ?_
      split
      · rw [List.cons_append, hnl, h3]
      · exact h3

/-- The text as a function, without overflow. -/
def hexText : List Byte → Nat → List Byte
  | [], _ => []
  | b :: bs, c => hexWord b ++ ((if (c + 1) % 16 = 0 then [0x0A] else []) ++ hexText bs (c + 1))

theorem viewLoop_text : ∀ (bs : List Byte) (c : Nat), c + bs.length ≤ 0x7FFFFFFF → viewLoop bs c = some (hexText bs c, c + bs.length)
  | [], c, _ => rfl
  | b :: bs, c, h => by
    rw [List.length_cons] at h
    have hb : b.toNat < 256 := b.isLt
    unfold viewLoop
    rw [if_neg (by omega), viewLoop_text bs (c + 1) (by omega)]
    dsimp only
    rw [(digit_at (b.toNat / 16) (by omega)).1, (digit_at (b.toNat % 16) (by omega)).1, List.length_cons,
      show c + (bs.length + 1) = c + 1 + bs.length by omega, hexText, hexWord]
    by_cases hc : (c + 1) % 16 = 0
    · rw [if_pos hc, if_pos hc]; rfl
    · rw [if_neg hc, if_neg hc]; rfl

theorem hexText_short : ∀ (l : List Byte) (c : Nat), l.length + c % 16 < 16 → hexText l c = l.flatMap hexWord
  | [], _, _ => rfl
  | b :: l, c, h => by
    rw [List.length_cons] at h
    rw [hexText, if_neg (by omega), List.nil_append, hexText_short l (c + 1) (by omega), List.flatMap_cons]

theorem hexText_full : ∀ (l rest : List Byte) (c : Nat), l ≠ [] → l.length + c % 16 = 16 →
    hexText (l ++ rest) c = l.flatMap hexWord ++ 0x0A :: hexText rest (c + l.length)
  | [], _, _, h, _ => absurd rfl h
  | [b], rest, c, _, h => by
    rw [List.length_singleton] at h
    rw [List.singleton_append, hexText, if_pos (by omega)]
    simp
  | b :: b' :: l, rest, c, _, h => by
    rw [List.length_cons, List.length_cons] at h
    have ih := hexText_full (b' :: l) rest (c + 1) (by simp) (by rw [List.length_cons]; omega)
    rw [List.cons_append, hexText, if_neg (by omega), List.nil_append, ih, List.flatMap_cons, List.length_cons, List.length_cons,
      List.append_assoc, show c + 1 + (l.length + 1) = c + (l.length + 1 + 1) by omega]
    simp [List.flatMap_cons]

theorem hexText_lines (m : Nat) : ∀ (bs : List Byte) (c : Nat), c % 16 = 0 → bs.length ≤ 16 * m →
    (if (c + bs.length) % 16 ≠ 0 then hexText bs c ++ [0x0A] else hexText bs c) =
      (dumpLines m bs).flatMap fun l => l.flatMap hexWord ++ [0x0A] := by
  induction m with
  | zero =>
    intro bs c hc hl
    have : bs = [] := List.length_eq_zero_iff.1 (by omega)
    subst this
    rw [if_neg (by simpa using hc)]
    rfl
  | succ m ih =>
    intro bs c hc hl
    rw [dumpLines]
    by_cases he : bs = []
    · subst he
      rw [if_neg (by simpa using hc)]
      rfl
    · rw [if_neg he]
      have hp := List.length_pos_iff.2 he
      by_cases h16 : bs.length < 16
      · rw [if_pos (by omega), hexText_short bs c (by omega), List.take_of_length_le (by omega), List.drop_of_length_le (by omega),
          List.flatMap_cons]
        cases m <;> simp [dumpLines]
      · have ht : (bs.take 16).length = 16 := by rw [List.length_take]; omega
        have hf := hexText_full (bs.take 16) (bs.drop 16) c (fun h => by rw [h] at ht; cases ht) (by omega)
        rw [List.take_append_drop, ht] at hf
        have hd : (bs.drop 16).length = bs.length - 16 := List.length_drop
        have := ih (bs.drop 16) (c + 16) (by omega) (by omega)
        rw [List.flatMap_cons, ← this, hf, hd, show c + 16 + (bs.length - 16) = c + bs.length by omega]
        by_cases hm : (c + bs.length) % 16 ≠ 0
        · rw [if_pos hm, if_pos hm]; simp
        · rw [if_neg hm, if_neg hm]; simp

/-- **C102 (partial).** For a file of less than 2^31 bytes the dump is the bytes in order, sixteen to a line, each as two upper-case digits and a
blank, every line ended; and it can be read back to the file. -/
theorem C102_dump_partial (file : List Byte) (h : file.length < 0x80000000) :
    ∃ t, hexview file = some t ∧ t = ((dumpLines file.length file).flatMap fun l => l.flatMap hexWord ++ [0x0A]) ∧ unDump t = some file := by
  obtain ⟨t, h1, h2, h3⟩ := viewLoop_some file 0 (by omega)
  have ht := viewLoop_text file 0 (by omega)
  have : t = hexText file 0 := by rw [h1] at ht; cases ht; rfl
  subst this
  refine ⟨_, by rw [hexview, h1], ?_, ?_⟩
  · exact hexText_lines file.length file 0 rfl (by omega)
  · split
    · exact h3
    · exact h2

theorem viewLoop_none : ∀ (bs : List Byte) (c : Nat), c ≤ 0x7FFFFFFF → 0x80000000 ≤ c + bs.length → viewLoop bs c = none
  | [], c, h, h' => by rw [List.length_nil] at h'; omega
  | b :: bs, c, h, h' => by
    rw [List.length_cons] at h'
    unfold viewLoop
    by_cases hc : c = 0x7FFFFFFF
    · rw [if_pos hc]
    · rw [if_neg hc, viewLoop_none bs (c + 1) (by omega) (by omega)]

/-- **C102 is false of longer files.** On every file of 2^31 bytes or more the counter overflows. -/
theorem C102_false_long (file : List Byte) (h : 0x80000000 ≤ file.length) : hexview file = none := by
  rw [hexview, viewLoop_none file 0 (by omega) (by omega)]

/-- The lines are what they should be: none is empty, all but the last have sixteen bytes, and together they are the file. -/
theorem C102_lines (m : Nat) : ∀ (bs : List Byte), bs.length ≤ m → (dumpLines m bs).flatten = bs ∧
    (∀ l ∈ dumpLines m bs, l ≠ [] ∧ l.length ≤ 16) ∧ ∀ l ∈ (dumpLines m bs).dropLast, l.length = 16 := by
  induction m with
  | zero =>
    intro bs h
    have : bs = [] := List.length_eq_zero_iff.1 (by omega)
    subst this
    simp [dumpLines]
  | succ m ih =>
    intro bs h
    rw [dumpLines]
    by_cases he : bs = []
    · subst he; simp
    · rw [if_neg he]
      have hp := List.length_pos_iff.2 he
      have hd : (bs.drop 16).length = bs.length - 16 := List.length_drop
      obtain ⟨i1, i2, i3⟩ := ih (bs.drop 16) (by omega)
      refine ⟨by rw [List.flatten_cons, i1, List.take_append_drop], fun l hl => ?_, fun l hl => ?_⟩
      · rcases List.mem_cons.1 hl with rfl | hl
        · refine ⟨fun h => ?_, by rw [List.length_take]; omega⟩
          have := congrArg List.length h
          rw [List.length_take, List.length_nil] at this
          omega
        · exact i2 l hl
      · cases hr : dumpLines m (bs.drop 16) with
        | nil => rw [hr] at hl; simp at hl
        | cons x xs =>
          rw [hr, List.dropLast_cons_of_ne_nil (by simp)] at hl
          rcases List.mem_cons.1 hl with rfl | hl
          · rw [List.length_take]
            have hlen : 0 < (bs.drop 16).length := by
              refine List.length_pos_iff.2 (fun h => ?_)
              rw [h] at hr
              cases m <;> simp [dumpLines] at hr
            omega
          · exact i3 l (by rw [hr]; exact hl)

/-- A file of eighteen bytes: two lines. -/
example : hexview [0, 1, 2, 3, 4, 5, 6, 7, 8, 9, 10, 11, 12, 13, 14, 15, 0xAB, 0xFF] =
    some [48, 48, 32, 48, 49, 32, 48, 50, 32, 48, 51, 32, 48, 52, 32, 48, 53, 32, 48, 54, 32, 48, 55, 32, 48, 56, 32, 48, 57, 32, 48, 65, 32, 48, 66, 32,
      48, 67, 32, 48, 68, 32, 48, 69, 32, 48, 70, 32, 10, 65, 66, 32, 70, 70, 32, 10] := by decide +kernel

end Cnd
