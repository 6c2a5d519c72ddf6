/-
  C81: what becomes of an error returned by a callback. And C77: the same through the Go binding.
-/
import Verif.SweepCbErr
import Verif.Props.Calls
import Verif.Props.GoBind
set_option linter.unusedVariables false

namespace Cnd

/-- Any host, with a list of its calls and whether it took them. -/
def answered {σ : Type} (H : Host σ) : Host (σ × List (HostCall × Bool)) where
  notify s key op := let r := H.notify s.1 key op; (r.1, r.2, s.2 ++ [(.notify key op, r.1)])
  scalar s key op v := let r := H.scalar s.1 key op v; (r.1, r.2.1, r.2.2, s.2 ++ [(.scalar key op v, r.1)])
  str s key op := let r := H.str s.1 key op; (r.1, r.2.1, r.2.2, s.2 ++ [(.str key op, r.1)])
  bytesAt s key op be buf p := let r := H.bytesAt s.1 key op be buf p; (r.1, r.2.1, r.2.2, s.2 ++ [(.bytes key op be buf p, r.1)])

/-- Calls whose refusal counts: all but questions for a string, which may be optional, and offers of raw bytes, which may be of an array that
is then gone through byte by byte. -/
def HostCall.firm : HostCall → Bool
  | .notify _ _ | .scalar _ _ _ => true
  | .str _ _ => false
  | .bytes _ op _ _ _ => op ≠ 0x39

theorem answered_err {σ : Type} (enc : Bool) (H : Host σ) : HostErr enc (answered H)
    (fun h => ∃ c, (c, false) ∈ h.2 ∧ c.firm = true)
    (fun h => ∃ l c, h.2 = l ++ [(c, false)] ∧ ∀ x, (x, false) ∈ l → x.firm = false) := by
  have snoc : ∀ {l : List (HostCall × Bool)} {c : HostCall} {b : Bool}, (¬ ∃ c, (c, false) ∈ l ∧ c.firm = true) → (b = true ∨ c.firm = false) →
      ¬ ∃ d, (d, false) ∈ l ++ [(c, b)] ∧ d.firm = true := by
    intro l c b hl hb ⟨d, hd, hf⟩
    rcases List.mem_append.1 hd with hd | hd
    · exact hl ⟨d, hd, hf⟩
    · have := List.mem_singleton.1 hd
      injection this with h1 h2
      subst h1 h2
      rcases hb with hb | hb
      · cases hb
      · rw [hb] at hf; cases hf
  have last : ∀ {l : List (HostCall × Bool)} {c : HostCall} {b : Bool}, (¬ ∃ c, (c, false) ∈ l ∧ c.firm = true) → b = false →
      ∃ l' c', l ++ [(c, b)] = l' ++ [(c', false)] ∧ ∀ x, (x, false) ∈ l' → x.firm = false := by
    intro l c b hl hb
    subst hb
    refine ⟨l, c, rfl, fun x hx => ?_⟩
    cases hf : x.firm with
    | false => rfl
    | true => exact absurd ⟨x, hx, hf⟩ hl
  refine ⟨?_, ?_, ?_, ?_⟩
  · intro h key op b h' hh e
    simp only [answered, Prod.mk.injEq] at e
    rw [← e.2, ← e.1]
    exact ⟨fun hb => snoc hh (.inl hb), fun hb => last hh hb⟩
  · intro h key op v b w h' hh e
    simp only [answered, Prod.mk.injEq] at e
    rw [← e.2.2, ← e.1]
    exact ⟨fun hb => snoc hh (.inl hb), fun hb => last hh hb⟩
  · intro h key op b w h' _ _ hh e
    simp only [answered, Prod.mk.injEq] at e
    rw [← e.2.2, ← e.1]
    exact ⟨snoc hh (.inr rfl), fun hb => last hh hb⟩
  · intro h key op be buf p b w h' hh e
    simp only [answered, Prod.mk.injEq] at e
    rw [← e.2.2, ← e.1]
    refine ⟨fun hb => snoc hh (hb.imp id fun ho => ?_), fun hb => last hh hb⟩
    subst ho
    rfl

/-- **C81.** In every run of every program, on every packet, with every host: as long as the run goes on no firm call has been refused; a run that
stops although one was refused stops with CND_ERR_CALLBACK, at once: it was the last call. And a run stops with CND_ERR_CALLBACK only
if its last call was refused. -/
theorem C81_errors {σ : Type} (prog : List Byte) (enc : Bool) (H : Host σ) (fl : FloatOps) (n : Nat) (old : St (σ × List (HostCall × Bool)))
    (buf : List Byte) (u : σ) :
    match exec { prog := prog, enc := enc, host := answered H, fl := fl } n (initSt old buf (u, [])) with
    | .run s => ∀ c, (c, false) ∈ s.host.2 → c.firm = false
    | .stop e s => ((∃ c, (c, false) ∈ s.host.2 ∧ c.firm = true) → e = .callback) ∧
        (e = .callback → ∃ l c, s.host.2 = l ++ [(c, false)] ∧ ∀ x, (x, false) ∈ l → x.firm = false)
    | .ub _ => True := by
  have h := exec_cberr (E := { prog := prog, enc := enc, host := answered H, fl := fl }) (answered_err enc H) n (initSt old buf (u, []))
    (fun ⟨c, hc, _⟩ => by cases hc)
  revert h
  cases exec { prog := prog, enc := enc, host := answered H, fl := fl } n (initSt old buf (u, [])) with
  | run s =>
    intro h c hc
    cases hf : c.firm with
    | false => rfl
    | true => exact absurd ⟨c, hc, hf⟩ h
  | stop e s => exact fun h => h
  | ub u => exact fun _ => trivial

namespace Demo

/-- A host that refuses the calls about one key. -/
def picky (bad : Nat) : Host Unit where
  notify s key _ := (decide (key ≠ bad), s)
  scalar s key _ v := (decide (key ≠ bad), v, s)
  str s key _ := (decide (key ≠ bad), some [65], s)
  bytesAt s key _ _ buf _ := (decide (key ≠ bad), buf, s)

def errRun (prog : List Byte) (enc : Bool) (bad : Nat) (packet : List Byte) : Option Err × List (HostCall × Bool) :=
  match exec { prog := prog, enc := enc, host := answered (picky bad), fl := fl } 99
    (initSt ⟨[], 0, 0, 0, false, .none, 0, 0, 0, 0, 0, 0, 0, false, [], [], ((), [])⟩ packet ((), [])) with
  | .stop e s => (some e, s.host.2)
  | .run s => (none, s.host.2)
  | .ub _ => (none, [])

end Demo

/-- The second of three numbers is refused: the third is not asked for. -/
example : Demo.errRun [0x10, 1, 0, 0x10, 2, 0, 0x10, 3, 0] false 2 [7, 8, 9] = (some .callback, [(.scalar 1 0x10 7, true), (.scalar 2 0x10 8, false)]) := by
  decide +kernel

/-- A refusal that does not count: the question for an optional string (0x4A marks it). The run goes on. -/
theorem C81_optional_passed : Demo.errRun [0x4A, 0x31, 2, 0, 0x10, 3, 0] true 2 [0, 0, 0] = (some .ok, [(.str 2 0x31, false), (.scalar 3 0x10 0, true)]) := by
  decide +kernel

/-- And the offer of an array of bytes as a whole, after which its elements are offered one by one. -/
theorem C81_bulk_passed : Demo.errRun [0x34, 1, 0, 2, 0, 0, 0, 0x10, 2, 0, 0x38] false 2 [7, 8] =
    (some .callback, [(.scalar 1 0x34 2, true), (.bytes 2 0x39 false [7, 8] 0, false), (.scalar 2 0x10 7, false)]) := by
  decide +kernel

/-! ### Through the Go binding -/

/-- What holds whenever a callback returns. -/
def GoCall.Leaves {σ : Type} (p : Bool → σ → Prop) : GoCall σ → Prop
  | .ret ok u => p ok u
  | .mode k => ∀ b, (k b).Leaves p
  | .isNil k => ∀ b, (k b).Leaves p
  | .load _ k => ∀ w, (k w).Leaves p
  | .store _ _ k => k.Leaves p
  | .text k => ∀ bs, (k bs).Leaves p
  | .setText _ k => k.Leaves p

theorem run_leaves {σ : Type} {enc : Bool} {op : Byte} {be : Bool} {q : Bool → σ → Prop} (call : GoCall σ) :
    ∀ {p : GoPtr} {h : GoHeap} {ok : Bool} {u : σ} {p' : GoPtr} {h' : GoHeap}, call.run enc op be p h = some (ok, u, p', h') → call.Leaves q → q ok u := by
  induction call with
  | ret ok u =>
    intro p h ok u p' h' e hq
    simp only [GoCall.run, Option.some.injEq, Prod.mk.injEq] at e
    obtain ⟨rfl, rfl, _⟩ := e
    exact hq
  | mode k ih => intro p h ok u p' h' e hq; exact ih _ e (hq _)
  | isNil k ih => intro p h ok u p' h' e hq; exact ih _ e (hq _)
  | load n k ih =>
    intro p h ok u p' h' e hq
    simp only [GoCall.run] at e
    split at e
    · cases e
    · exact ih _ e (hq _)
  | store n w k ih =>
    intro p h ok u p' h' e hq
    simp only [GoCall.run] at e
    split at e
    · cases e
    · exact ih e hq
  | text k ih =>
    intro p h ok u p' h' e hq
    simp only [GoCall.run] at e
    split at e
    · cases e
    · exact ih _ e (hq _)
  | setText bs k ih =>
    intro p h ok u p' h' e hq
    simp only [GoCall.run] at e
    split at e
    · exact ih e hq
    · cases e

theorem gate_leaves {σ : Type} {cb : σ → Nat → Byte → GoCall σ} {enc : Bool} {s : GoSt σ} {key : Nat} {op : Byte} {be : Bool} {p : GoPtr} {D : σ → Prop}
    {c : Prop} (hs : ¬ D s.user) (hq : (cb s.user key op).Leaves fun ok u => D u → ok = false ∧ c) :
    D (goGate cb enc s key op be p).2.2.user → (goGate cb enc s key op be p).1 = false ∧ c := by
  unfold goGate
  split
  · exact fun h => absurd h hs
  · split
    · exact fun h => absurd h hs
    · rename_i e
      exact run_leaves _ e hq

/-- **C77**, errors. Let the user's state tell (`D`) that the callback has returned an error, other than for a string asked for or for raw bytes (see
C81). Then Execute of every program on every slice, if it returns, returns ErrCallback. -/
theorem C77_refusal {σ : Type} (fl : FloatOps) (pr : Program) (n : Nat) (data : List Byte) (enc : Bool) (cb : σ → Nat → Byte → GoCall σ) (u : σ)
    (D : σ → Prop) (hu : ¬ D u)
    (hcb : ∀ v key op, ¬ D v → (cb v key op).Leaves fun ok w => D w → ok = false ∧ op ≠ 0x39 ∧ (enc = true → strPrefix op = none))
    (err : Option GoErr) (out : List Byte) (v : σ) (heap : GoHeap) (h : goExecute fl pr n data enc cb u = .done err out v heap) (hv : D v) :
    err = some .callback := by
  have hE : HostErr enc (goHost cb enc) (fun s => D s.user) (fun _ => True) := by
    refine ⟨?_, ?_, ?_, ?_⟩
    · intro h key op b h' hh e
      simp only [goHost, Prod.mk.injEq] at e
      rw [← e.2, ← e.1]
      exact ⟨fun hb hd => (by rw [(gate_leaves hh (hcb _ _ _ hh) hd).1] at hb; cases hb), fun _ => trivial⟩
    · intro h key op x b w h' hh e
      simp only [goHost, Prod.mk.injEq] at e
      rw [← e.2.2, ← e.1]
      exact ⟨fun hb hd => (by rw [(gate_leaves hh (hcb _ _ _ hh) hd).1] at hb; cases hb), fun _ => trivial⟩
    · intro h key op b w h' he ho hh e
      have hg : ¬ D (goGate cb enc h key op false (.slot none)).2.2.user := fun hd => ho ((gate_leaves hh (hcb _ _ _ hh) hd).2.2 he)
      refine ⟨?_, fun _ => trivial⟩
      simp only [goHost] at e
      split at e
      · split at e
        · injection e with _ e; injection e with _ e; rw [← e]; exact hg
        · injection e with _ e; injection e with _ e; rw [← e]; exact hg
      · injection e with _ e; injection e with _ e; rw [← e]; exact hg
    · intro h key op be buf p b w h' hh e
      simp only [goHost, Prod.mk.injEq] at e
      rw [← e.2.2, ← e.1]
      refine ⟨fun hb hd => ?_, fun _ => trivial⟩
      obtain ⟨h1, h2, _⟩ := gate_leaves hh (hcb _ _ _ hh) hd
      rcases hb with hb | hb
      · rw [h1] at hb; cases hb
      · exact h2 hb
  have hx := exec_cberr (E := { prog := pr.code, enc := enc, host := goHost cb enc, fl := fl }) hE n (goStart data u) hu
  unfold goExecute at h
  revert h hx
  cases exec { prog := pr.code, enc := enc, host := goHost cb enc, fl := fl } n (goStart data u) with
  | run s => intro h; dsimp only at h; split at h <;> cases h
  | ub u => intro h; cases h
  | stop e s =>
    intro h hx
    dsimp only at h
    split at h
    · cases h
    · split at h
      · cases h
      · injection h with h1 h2 h3 h4
        rw [← h1, hx.1 (by show D s.host.user; rw [h3]; exact hv)]
        rfl

namespace Demo

/-- A callback that counts its calls and returns an error in the second one, unless that is for raw bytes. -/
def errCb (n : Nat) (_ : Nat) (op : Byte) : GoCall Nat := .ret (decide (¬ (n = 1 ∧ op ≠ 0x39))) (if n = 1 ∧ op = 0x39 then 0 else n + 1)

end Demo

/-- The theorem applies to it, and a run is as it says. -/
example : (∀ v key op, ¬ v = 2 → (Demo.errCb v key op).Leaves fun ok w => w = 2 → ok = false ∧ op ≠ 0x39 ∧ (false = true → strPrefix op = none)) ∧
    (match goExecute Demo.fl ⟨[], 0, 0, [0x10, 1, 0, 0x10, 2, 0, 0x10, 3, 0]⟩ 9 [7, 8, 9] false Demo.errCb 0 with
    | .done e _ u _ => some (e, u)
    | _ => none) = some (some .callback, 2) := by
  refine ⟨fun v key op hv => ?_, by decide +kernel⟩
  simp only [Demo.errCb, GoCall.Leaves]
  intro h
  split at h
  · cases h
  · rename_i hn
    have : v = 1 := by omega
    subst this
    have ho : op ≠ 0x39 := fun e => hn ⟨rfl, e⟩
    exact ⟨by simpa using ho, ho, fun e => by cases e⟩

end Cnd
