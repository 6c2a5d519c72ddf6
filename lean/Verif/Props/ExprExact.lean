/-
  C75: which token sequences the expression parser accepts.

  The specification is the set of trees of Precedence.lean: `Respects` (precedence, left associativity) and `Acc`.
-/
import Verif.Props.Precedence

namespace Cnd

/-! ### Errors are never taken back -/

theorem pull_le (ts : List Tok) (n : List Nat) : n.length ≤ (pull ts n).2.2.length := by
  induction ts generalizing n with
  | nil => exact Nat.le_refl _
  | cons t ts ih =>
    unfold pull
    split
    · exact Nat.le_trans (Nat.le_succ _) (ih (ts.length :: n))
    · exact Nat.le_refl _

theorem advance_le (s : PSt) : s.errs ≤ s.advance.errs := pull_le _ _

theorem consume_le (s : PSt) (t : TT) : s.errs ≤ (s.consume t).errs := by
  unfold PSt.consume
  split
  · exact advance_le s
  · exact Nat.le_succ _

theorem dotLoop_le (f : Nat) (name : List Byte) (s : PSt) (r : Option (List Byte)) (s' : PSt) (h : dotLoop f name s = some (r, s')) :
    s.errs ≤ s'.errs := by
  induction f generalizing name s with
  | zero => cases h
  | succ f ih =>
    have hc := Nat.le_trans (advance_le s) (consume_le s.advance .identifier)
    unfold dotLoop at h
    split at h
    · dsimp only at h
      split at h
      · cases h
        exact Nat.le_trans hc (Nat.le_succ _)
      · exact Nat.le_trans hc (ih _ _ h)
    · cases h; exact Nat.le_refl _

def ErrsLe (dbl : List Byte → Word) (F : Nat) : Prop :=
  (∀ prec s ty s', parsePrec dbl F prec s = .ok ty s' → s.errs ≤ s'.errs) ∧
  (∀ prec l s ty s', infixLoop dbl F prec l s = .ok ty s' → s.errs ≤ s'.errs) ∧
  (∀ pre s ty s', parsePrefix dbl F pre s = .ok ty s' → s.errs ≤ s'.errs)

theorem conv_errs (t : ETy) (s : PSt) : (if t = .int then s.emit [0x90] else s).errs = s.errs := by split <;> rfl

theorem errsLe (dbl : List Byte → Word) (F : Nat) : ErrsLe dbl F := by
  induction F with
  | zero => exact ⟨fun _ _ _ _ h => (by cases h), fun _ _ _ _ _ h => (by cases h), fun _ _ _ _ h => (by cases h)⟩
  | succ f ih =>
    obtain ⟨i1, i2, i3⟩ := ih
    refine ⟨?_, ?_, ?_⟩
    · intro prec s ty s' h
      unfold parsePrec at h
      dsimp only at h
      refine Nat.le_trans (advance_le s) ?_
      split at h
      · cases h
      · cases h; exact Nat.le_succ _
      · split at h
        · next hp => exact Nat.le_trans (i3 _ _ _ _ hp) (i2 _ _ _ _ _ h)
        · next hn => exact absurd h (hn _ _)
    · intro prec l s ty s' h
      unfold infixLoop at h
      split at h
      · cases h
      · split at h
        · dsimp only at h
          split at h
          · next hp => exact Nat.le_trans (Nat.le_trans (advance_le s) (i1 _ _ _ _ hp)) (i2 _ _ (PSt.emit _ _) _ _ h)
          · next hn => exact absurd h (hn _ _)
        · cases h; exact Nat.le_refl _
    · intro pre s ty s' h
      cases pre with
      | none => unfold parsePrefix at h; cases h; exact Nat.le_refl _
      | grouping =>
        unfold parsePrefix at h
        split at h
        · next hp => cases h; exact Nat.le_trans (Nat.le_trans (advance_le s) (i1 _ _ _ _ hp)) (consume_le _ _)
        · next hn => exact absurd h (hn _ _)
      | unary =>
        unfold parsePrefix at h
        dsimp only at h
        split at h
        · next hp =>
          have l := Nat.le_trans (advance_le s) (i1 _ _ _ _ hp)
          cases h; exact l
        · next hn => exact absurd h (hn _ _)
      | primary =>
        unfold parsePrefix at h
        dsimp only at h
        split at h
        · split at h
          · cases h; exact Nat.le_refl _
          · split at h
            · cases h
            · cases h; exact Nat.le_refl _
        · cases h; exact Nat.le_refl _
        · cases h; exact Nat.le_refl _
        · cases h; exact Nat.le_refl _
        · split at h
          · split at h
            · next s1 hp =>
              cases h
              refine Nat.le_trans (Nat.le_trans (consume_le s _) (i1 _ _ _ _ hp)) (Nat.le_trans ?_ (consume_le _ _))
              rw [conv_errs]; exact Nat.le_refl _
            · next hn => exact absurd h (hn _ _)
          · split at h
            · split at h
              · next s1 hp =>
                have h1 := Nat.le_trans (consume_le s _) (i1 _ _ _ _ hp)
                split at h
                · next s2 hq =>
                  have h2 := Nat.le_trans (consume_le _ _) (i1 _ _ _ _ hq)
                  rw [conv_errs] at h2
                  cases h
                  refine Nat.le_trans (Nat.le_trans h1 h2) (Nat.le_trans ?_ (consume_le _ _))
                  rw [conv_errs]; exact Nat.le_refl _
                · next hn => exact absurd h (hn _ _)
              · next hn => exact absurd h (hn _ _)
            · split at h
              · split at h
                · next hp => cases h; exact Nat.le_trans (Nat.le_trans (consume_le s _) (i1 _ _ _ _ hp)) (consume_le _ _)
                · next hn => exact absurd h (hn _ _)
              · split at h
                · split at h
                  · next hp => cases h; exact Nat.le_trans (Nat.le_trans (consume_le s _) (i1 _ _ _ _ hp)) (consume_le _ _)
                  · next hn => exact absurd h (hn _ _)
                · split at h
                  · split at h
                    · cases h; exact Nat.le_succ _
                    · split at h
                      · cases h
                      · next hd => cases h; exact dotLoop_le _ _ _ _ _ hd
                      · next hd =>
                        have l := dotLoop_le _ _ _ _ _ hd
                        cases h; exact l
                  · cases h; exact Nat.le_refl _
        · cases h; exact Nat.le_refl _

/-! ### What has been accepted is a tree -/

/-- The tokens in front of the parser. -/
def PSt.ts (s : PSt) : List Tok := s.cur :: s.toks

/-- The list ends with the end-of-file token. -/
def EndsEof (ts : List Tok) : Prop := ∃ b z, ts = b ++ [z] ∧ z.type = .eof

theorem EndsEof.tail {t : Tok} {ts : List Tok} (h : EndsEof (t :: ts)) (h2 : t.type ≠ .eof ∨ ts ≠ []) : EndsEof ts ∧ ts ≠ [] := by
  obtain ⟨b, z, e, hz⟩ := h
  cases b with
  | nil =>
    cases e
    exact absurd rfl (h2.resolve_left (fun h => h hz))
  | cons x b =>
    cases e
    exact ⟨⟨b, z, rfl, hz⟩, by simp⟩

/-- advance without an error message. -/
theorem advance_ok {s : PSt} (he : EndsEof s.ts) (h : s.advance.errs ≤ s.errs) :
    s.advance.prev = s.cur ∧ s.advance.out = s.out ∧ s.advance.tab = s.tab ∧ s.advance.errs = s.errs ∧ s.advance.cur.type ≠ .error ∧
    ((s.toks = s.advance.ts ∧ EndsEof s.advance.ts) ∨ (s.cur.type = .eof ∧ s.advance.cur.type = .eof)) := by
  obtain ⟨p, c, ts, o, tab, e⟩ := s
  cases ts with
  | nil =>
    refine ⟨rfl, rfl, rfl, rfl, fun h => (by cases h), .inr ⟨?_, rfl⟩⟩
    obtain ⟨b, z, e, hz⟩ := he
    cases b with
    | nil => cases e; exact hz
    | cons x b => cases b <;> cases e
  | cons t ts =>
    by_cases ht : t.type = .error
    · exfalso
      simp only [PSt.advance, pull, if_pos ht] at h
      have := pull_le ts (ts.length :: e)
      simp only [List.length_cons, PSt.errs] at this h
      omega
    · have e1 : (PSt.mk p c (t :: ts) o tab e).advance = ⟨c, t, ts, o, tab, e⟩ := by simp only [PSt.advance, pull, if_neg ht]
      rw [e1]
      exact ⟨rfl, rfl, rfl, rfl, ht, .inl ⟨rfl, (he.tail (.inr (by simp))).1⟩⟩

/-- consume without an error message. -/
theorem consume_ok {s : PSt} {t : TT} (he : EndsEof s.ts) (ht : t ≠ .eof) (h : (s.consume t).errs ≤ s.errs) :
    s.cur.type = t ∧ s.ts = s.cur :: (s.consume t).ts ∧ EndsEof (s.consume t).ts ∧ (s.consume t).out = s.out ∧ (s.consume t).tab = s.tab ∧
    (s.consume t).errs = s.errs ∧ (s.consume t).prev = s.cur ∧ (s.consume t).cur.type ≠ .error := by
  unfold PSt.consume at h ⊢
  by_cases hc : s.cur.type = t
  · rw [if_pos hc] at h ⊢
    obtain ⟨a1, a2, a3, a4, a6, a5⟩ := advance_ok he h
    rcases a5 with ⟨b1, b2⟩ | ⟨b1, _⟩
    · exact ⟨hc, by rw [PSt.ts, b1], b2, a2, a3, a4, a1, a6⟩
    · rw [hc] at b1; exact absurd b1 ht
  · rw [if_neg hc] at h
    exact absurd h (Nat.not_succ_le_self _)

/-- No expression begins with the end-of-file token. -/
theorem prec_eof {dbl : List Byte → Word} {F prec : Nat} {s : PSt} {ty : ETy} {s' : PSt} (hc : s.cur.type = .eof)
    (h : parsePrec dbl F prec s = .ok ty s') : s.errs < s'.errs := by
  cases F with
  | zero => cases h
  | succ F =>
    unfold parsePrec at h
    dsimp only at h
    rw [show s.advance.prev = s.cur from rfl, hc] at h
    have h : PRes.ok .unk s.advance.error = .ok ty s' := h
    cases h
    exact Nat.lt_succ_of_le (advance_le s)

theorem dotLoop_sound (f : Nat) (name : List Byte) (s s' : PSt) (n : Option (List Byte)) (he : EndsEof s.ts) (hce : s.cur.type ≠ .error)
    (h : dotLoop f name s = some (n, s'))
    (hs : s'.errs ≤ s.errs) :
    ∃ subs : List (Tok × Tok), s.ts = subToks subs ++ s'.ts ∧ (∀ p ∈ subs, p.1.type = .dot ∧ p.2.type = .identifier) ∧
      n = some (subs.foldl (fun n p => n ++ 0x2E :: p.2.text) name) ∧
      (subs = [] ∨ (subs.foldl (fun n p => n ++ 0x2E :: p.2.text) name).length < 256) ∧
      s'.out = s.out ∧ s'.tab = s.tab ∧ s'.errs = s.errs ∧ EndsEof s'.ts ∧ s'.cur.type ≠ .dot ∧ s'.cur.type ≠ .error := by
  induction f generalizing name s with
  | zero => cases h
  | succ f ih =>
    unfold dotLoop at h
    split at h
    · next hd =>
      dsimp only at h
      have l1 := advance_le s
      have l2 := consume_le s.advance .identifier
      split at h
      · next hlen =>
        cases h
        have : (s.advance.consume .identifier).errs + 1 ≤ s.errs := hs
        omega
      · next hlen =>
        have l3 := dotLoop_le _ _ _ _ _ h
        obtain ⟨a1, a2, a3, a4, _, a5⟩ := advance_ok he (by omega)
        have a5 : s.toks = s.advance.ts ∧ EndsEof s.advance.ts := a5.resolve_right (fun x => by rw [hd] at x; exact absurd x.1 (by decide))
        obtain ⟨b1, b2, b3, b4, b5, b6, _, b8⟩ := consume_ok a5.2 (by decide) (show (s.advance.consume .identifier).errs ≤ s.advance.errs by omega)
        obtain ⟨subs, c1, c2, c3, c4, c5, c6, c7, c8, c9⟩ := ih _ _ b3 b8 h (by omega)
        refine ⟨(s.cur, s.advance.cur) :: subs, ?_, ?_, c3, ?_, by rw [c5, b4, a2], by rw [c6, b5, a3], by rw [c7, b6, a4], c8, c9⟩
        · rw [PSt.ts, a5.1, b2, c1]
          simp [subToks]
        · intro p hp
          rcases List.mem_cons.1 hp with rfl | hp
          · exact ⟨hd, b1⟩
          · exact c2 p hp
        · refine .inr ?_
          rcases c4 with rfl | c4
          · simp only [List.foldl_cons, List.foldl_nil, List.length_append, List.length_cons]
            omega
          · exact c4
    · next hd =>
      cases h
      exact ⟨[], rfl, by simp, rfl, .inl rfl, rfl, rfl, rfl, he, hd, hce⟩

/-- Behind a tree: the state is that of the tree's code, and the next token is not part of a name. -/
structure TookTree (dbl : List Byte → Word) (t : ETree) (o : List Byte) (tab : List (List Byte)) (e : Nat) (s : PSt) : Prop where
  resp : t.Respects
  acc : t.Acc
  out : s.out = o ++ (t.code dbl tab).1
  tabs : s.tab = (t.code dbl tab).2
  errs : s.errs = e
  fin : EndsEof s.ts
  noerr : s.cur.type ≠ .error
  nodot : t.named = true → s.cur.type ≠ .dot

def Sound (dbl : List Byte → Word) (F : Nat) : Prop :=
  (∀ prec s ty s', 1 ≤ prec → prec ≤ 12 → EndsEof s.ts → parsePrec dbl F prec s = .ok ty s' → s'.errs ≤ s.errs →
    ∃ t, TookTree dbl t s.out s.tab s.errs s' ∧ s.ts = t.flat ++ s'.ts ∧ ty = t.ty ∧ prec ≤ t.root ∧
      ∃ pre q, ruleOf s'.cur.type = some (pre, q) ∧ q < prec) ∧
  (∀ prec l o tab s ty s', 1 ≤ prec → TookTree dbl l o tab s.errs s → prec ≤ l.root → (∀ pre q, ruleOf s.cur.type = some (pre, q) → q ≤ l.root) →
    infixLoop dbl F prec l.ty s = .ok ty s' → s'.errs ≤ s.errs →
    ∃ t mid, TookTree dbl t o tab s.errs s' ∧ s.ts = mid ++ s'.ts ∧ t.flat = l.flat ++ mid ∧ ty = t.ty ∧ prec ≤ t.root ∧
      ∃ pre q, ruleOf s'.cur.type = some (pre, q) ∧ q < prec) ∧
  (∀ pre n s ty s', EndsEof s.ts → s.cur.type ≠ .error → ruleOf s.prev.type = some (pre, n) → pre ≠ .none → parsePrefix dbl F pre s = .ok ty s' →
    s'.errs ≤ s.errs →
    ∃ t cs, TookTree dbl t s.out s.tab s.errs s' ∧ t.atom ∧ t.flat = s.prev :: cs ∧ s.ts = cs ++ s'.ts ∧ ty = t.ty)

theorem rule_le (t : TT) (pre : Prefix) (q : Nat) (h : ruleOf t = some (pre, q)) : q ≤ 10 ∧ q = opLevel t := by
  revert h
  cases t <;> intro h <;> first | (cases h; decide) | (cases h; done)

theorem rule_grouping (t : TT) (n : Nat) (h : ruleOf t = some (.grouping, n)) : t = .lparen := by
  revert h; cases t <;> intro h <;> first | rfl | (cases h; done)

theorem rule_unary (t : TT) (n : Nat) (h : ruleOf t = some (.unary, n)) : t = .minus ∨ t = .bang ∨ t = .tilde := by
  revert h; cases t <;> intro h <;> first | (cases h; done) | simp

theorem rule_primary (t : TT) (n : Nat) (h : ruleOf t = some (.primary, n)) :
    t = .number ∨ t = .kwTrue ∨ t = .kwFalse ∨ t = .kwSelf ∨ t = .identifier := by
  revert h; cases t <;> intro h <;> first | (cases h; done) | simp

theorem TookTree.mono {dbl : List Byte → Word} {t : ETree} {o : List Byte} {tab : List (List Byte)} {e : Nat} {s : PSt} (h : TookTree dbl t o tab e s) :
    TookTree dbl t o tab s.errs s := ⟨h.resp, h.acc, h.out, h.tabs, rfl, h.fin, h.noerr, h.nodot⟩

theorem fracLit_iff (text : List Byte) : isFloatLit text = true ↔ fracLit text := by
  unfold isFloatLit fracLit
  rw [List.any_eq_true]
  constructor
  · rintro ⟨c, hc, hc2⟩
    rw [decide_eq_true_eq] at hc2
    rcases hc2 with rfl | rfl | rfl
    · exact .inl hc
    · exact .inr (.inl hc)
    · exact .inr (.inr hc)
  · rintro (h | h | h) <;> exact ⟨_, h, by decide⟩

theorem fun1_functions {text : List Byte} {op : Byte} (h : fun1.lookup text = some op) (t : ETy) :
    (functions.lookup text).isSome = true ∧ callCode text t = (argCode t ++ [op], .float) := by
  have hm : text ∈ fun1.map (·.1) := by
    rw [List.lookup_eq_some_iff] at h
    obtain ⟨l1, l2, e, _⟩ := h
    rw [e]; simp
  simp only [fun1, List.map_cons, List.map_nil, List.mem_cons, List.not_mem_nil, or_false] at hm
  rcases hm with rfl | rfl | rfl | rfl | rfl | rfl <;> (cases h; exact ⟨rfl, rfl⟩)

theorem not_builtin {text : List Byte} (h1 : fun1.lookup text = none) (h2 : text ≠ powName) (h3 : text ≠ floatName) (h4 : text ≠ intName) :
    text ∉ builtins := by
  intro hm
  have key : ∀ b ∈ builtins, fun1.lookup b ≠ none ∨ b = powName ∨ b = floatName ∨ b = intName := by decide +kernel
  rcases key _ hm with h | h | h | h
  · exact h h1
  · exact h2 h
  · exact h3 h
  · exact h4 h

/-- The argument of a function: parenthesis, expression, closing token. -/
theorem arg_sound {dbl : List Byte → Word} {f : Nat} (ih : Sound dbl f) {s s1 : PSt} {ty : ETy} {open' close : TT} (he : EndsEof s.ts)
    (ho : open' ≠ .eof) (hc : close ≠ .eof) (h : parsePrec dbl f 1 (s.consume open') = .ok ty s1) (b : List Byte)
    (hs : ((s1.emit b).consume close).errs ≤ s.errs) :
    ∃ (t : ETree), TookTree dbl t s.out s.tab s.errs s1 ∧ ty = t.ty ∧ s.cur.type = open' ∧ s1.cur.type = close ∧
      s.ts = s.cur :: (t.flat ++ s1.cur :: ((s1.emit b).consume close).ts) ∧ EndsEof ((s1.emit b).consume close).ts ∧
      ((s1.emit b).consume close).out = s1.out ++ b ∧ ((s1.emit b).consume close).tab = s1.tab ∧ ((s1.emit b).consume close).errs = s.errs ∧
      ((s1.emit b).consume close).cur.type ≠ .error ∧ s1.toks = ((s1.emit b).consume close).ts := by
  have l1 := consume_le s open'
  have l2 := (errsLe dbl f).1 _ _ _ _ h
  have l3 := consume_le (s1.emit b) close
  have l4 : (s1.emit b).errs = s1.errs := rfl
  obtain ⟨a1, a2, a3, a4, a5, a6, a7, a8⟩ := consume_ok he ho (show (s.consume open').errs ≤ s.errs by omega)
  obtain ⟨t, tk, e1, e2, _, _⟩ := ih.1 _ _ _ _ (Nat.le_refl 1) (by decide) a3 h (by omega)
  obtain ⟨b1, b2, b3, b4, b5, b6, b7, b8⟩ := consume_ok (s := s1.emit b) tk.fin hc (show ((s1.emit b).consume close).errs ≤ (s1.emit b).errs by omega)
  refine ⟨t, ⟨tk.resp, tk.acc, by rw [tk.out, a4, a5], by rw [tk.tabs, a5], by rw [tk.errs, a6], tk.fin, tk.noerr, tk.nodot⟩, e2, a1, b1, ?_, b3, b4, b5, by omega, b8, (List.cons.inj b2).2⟩
  rw [a2, e1]
  have : s1.ts = (s1.emit b).ts := rfl
  rw [this, b2]
  rfl

theorem emit_nil (s : PSt) : s.emit [] = s := by
  unfold PSt.emit
  rw [List.append_nil]

theorem conv_emit (t : ETy) (s : PSt) : (if t = .int then s.emit [0x90] else s) = s.emit (argCode t) := by
  unfold argCode
  split
  · rfl
  · rw [emit_nil]

theorem sound (dbl : List Byte → Word) (F : Nat) : Sound dbl F := by
  induction F with
  | zero => exact ⟨fun _ _ _ _ _ _ _ h => (by cases h), fun _ _ _ _ _ _ _ _ _ _ _ h => (by cases h), fun _ _ _ _ _ _ _ _ _ h => (by cases h)⟩
  | succ f ih =>
    obtain ⟨m1, m2, m3⟩ := errsLe dbl f
    have IH := ih
    obtain ⟨i1, i2, i3⟩ := ih
    refine ⟨?_, ?_, ?_⟩
    · intro prec s ty s' h1 h12 he h hs
      unfold parsePrec at h
      dsimp only at h
      have l1 := advance_le s
      split at h
      · cases h
      · cases h
        have : s.advance.errs + 1 ≤ s.errs := hs
        omega
      · next pre n hpre hrule =>
        split at h
        · next left s1 hp =>
          have l2 := m3 _ _ _ _ hp
          have l3 := m2 _ _ _ _ _ h
          obtain ⟨a1, a2, a3, a4, a6, a5⟩ := advance_ok he (by omega)
          rcases a5 with ⟨b1, b2⟩ | ⟨b1, _⟩
          · obtain ⟨t, cs, tk, hat, hfl, hts, rfl⟩ := i3 _ _ _ _ _ b2 a6 hrule hpre hp (by omega)
            obtain ⟨t', mid, tk', e1, e2, e3, e4, e5⟩ := i2 prec t s.out s.tab s1 ty s' h1
              ⟨tk.resp, tk.acc, by rw [tk.out, a2, a3], by rw [tk.tabs, a3], rfl, tk.fin, tk.noerr, tk.nodot⟩
              (by rw [show t.root = 12 from hat]; exact h12) (fun pre q h => by rw [show t.root = 12 from hat]; have := rule_le _ _ _ h; omega) h (by omega)
            refine ⟨t', ⟨tk'.resp, tk'.acc, tk'.out, tk'.tabs, by rw [tk'.errs, tk.errs, a4], tk'.fin, tk'.noerr, tk'.nodot⟩, ?_, e3, e4, e5⟩
            rw [e2, hfl, PSt.ts, b1, hts, e1, a1]
            simp
          · exfalso
            rw [a1, b1] at hrule
            cases hrule
            exact hpre rfl
        · next hn => exact absurd h (hn _ _)
    · intro prec l o tab s ty s' h1 tk hp hq h hs
      unfold infixLoop at h
      split at h
      · cases h
      · next pre q hrule =>
        split at h
        · next hle =>
          dsimp only at h
          split at h
          · next right s1 hpp =>
            have l1 := advance_le s
            have l2 := m1 _ _ _ _ hpp
            have l3 := m2 _ _ _ _ _ h
            have l4 : (s1.emit (binEmit s.advance.prev.type l.ty right).1).errs = s1.errs := rfl
            obtain ⟨a1, a2, a3, a4, a6, a5⟩ := advance_ok tk.fin (by omega)
            obtain ⟨hq10, hlev⟩ := rule_le _ _ _ hrule
            have hpos : 0 < opLevel s.cur.type := by omega
            have a5 : s.toks = s.advance.ts ∧ EndsEof s.advance.ts := a5.resolve_right (fun x => by
              rw [x.1] at hpos; exact absurd hpos (by decide))
            obtain ⟨r, tkr, e1, rfl, e3, pre', q', e4, e5⟩ := i1 _ _ _ _ (by omega) (by omega) a5.2 hpp (by omega)
            have hb := binEmit_code s.cur.type l.ty r.ty hpos
            rw [a1, hb] at h
            dsimp only at h
            have htk : TookTree dbl (.node l s.cur r) o tab s1.errs (s1.emit (opCode s.cur.type l.ty r.ty)) := by
              refine ⟨⟨hpos, ?_, ?_, tk.resp, tkr.resp⟩, ⟨tk.acc, tkr.acc⟩, ?_, ?_, rfl, tkr.fin, tkr.noerr, tkr.nodot⟩
              · rw [← hlev]; exact hq _ _ hrule
              · omega
              · show s1.out ++ _ = _
                rw [tkr.out, a2, tk.out, a3, tk.tabs]
                simp only [ETree.code, List.append_assoc]
              · show s1.tab = _
                rw [tkr.tabs, a3, tk.tabs]
                rfl
            obtain ⟨t, mid, tk', g1, g2, g3, g4, g5⟩ := i2 prec (.node l s.cur r) o tab _ ty s' h1 htk (by show prec ≤ opLevel s.cur.type; omega)
              (fun pre'' q'' hx => by
                have hx : ruleOf s1.cur.type = some (pre'', q'') := hx
                rw [e4] at hx; cases hx; show q' ≤ opLevel s.cur.type; omega) h (by show s'.errs ≤ s1.errs; omega)
            refine ⟨t, s.cur :: (r.flat ++ mid), ⟨tk'.resp, tk'.acc, tk'.out, tk'.tabs, ?_, tk'.fin, tk'.noerr, tk'.nodot⟩, ?_, ?_, g3, g4, g5⟩
            · rw [tk'.errs]; show s1.errs = s.errs; omega
            · have g1 : s1.ts = mid ++ s'.ts := g1
              rw [PSt.ts, a5.1, e1, g1]; simp
            · rw [g2]; simp [ETree.flat]
          · next hn => exact absurd h (hn _ _)
        · next hle =>
          cases h
          exact ⟨l, [], tk, rfl, by simp, rfl, hp, pre, q, hrule, by omega⟩
    · intro pre n s ty s' he hce hrule hpre h hs
      cases pre with
      | none => exact absurd rfl hpre
      | grouping =>
        have hlp := rule_grouping _ _ hrule
        unfold parsePrefix at h
        split at h
        · next t1 s1 hp =>
          cases h
          have l1 := advance_le s
          have l2 := m1 _ _ _ _ hp
          have l3 := consume_le s1 .rparen
          obtain ⟨a1, a2, a3, a4, a6, a5⟩ := advance_ok he (by omega)
          rcases a5 with ⟨b1, b2⟩ | ⟨_, b1⟩
          · obtain ⟨t, tk, e1, rfl, e3, _⟩ := i1 _ _ _ _ (by omega) (by omega) b2 hp (by omega)
            obtain ⟨c1, c2, c3, c4, c5, c6, c7, c8⟩ := consume_ok tk.fin (by decide) (show (s1.consume .rparen).errs ≤ s1.errs by omega)
            refine ⟨.paren s.prev s.cur t s1.cur, s.cur :: (t.flat ++ [s1.cur]), ⟨tk.resp, ⟨hlp, hce, c1, tk.acc⟩, ?_, ?_, by omega, c3, c8, fun h => (by cases h)⟩, rfl, rfl, ?_, rfl⟩
            · rw [c4, tk.out, a2, a3]; rfl
            · rw [c5, tk.tabs, a3]; rfl
            · rw [PSt.ts, b1, e1, c2]; simp
          · have := prec_eof b1 hp
            omega
        · next hn => exact absurd h (hn _ _)
      | unary =>
        have hlp := rule_unary _ _ hrule
        unfold parsePrefix at h
        dsimp only at h
        split at h
        · next t1 s1 hp =>
          cases h
          have hs : s1.errs ≤ s.errs := hs
          have l1 := advance_le s
          have l2 := m1 _ _ _ _ hp
          obtain ⟨a1, a2, a3, a4, a6, a5⟩ := advance_ok he (by omega)
          rcases a5 with ⟨b1, b2⟩ | ⟨_, b1⟩
          · obtain ⟨t, tk, e1, rfl, e3, _⟩ := i1 _ _ _ _ (by omega) (by omega) b2 hp (by omega)
            have hat : t.root = 12 := by
              cases t with
              | node l op r => have := opLevel_le op.type; simp only [ETree.root] at e3; omega
              | _ => rfl
            refine ⟨.unary s.prev s.cur t, s.cur :: t.flat, ⟨⟨hat, tk.resp⟩, ⟨hlp, hce, tk.acc⟩, ?_, ?_, ?_, tk.fin, tk.noerr, tk.nodot⟩, rfl, rfl, ?_, ?_⟩
            · show s1.out ++ _ = _
              rw [tk.out, a2, a3, skip_unEmit]
              simp only [ETree.code, List.append_assoc]
            · show s1.tab = _
              rw [tk.tabs, a3]; rfl
            · show s1.errs = _
              omega
            · show s.cur :: s.toks = s.cur :: t.flat ++ s1.ts
              rw [b1, e1]; rfl
            · rw [skip_unEmit]; rfl
          · have := prec_eof b1 hp
            omega
        · next hn => exact absurd h (hn _ _)
      | primary =>
        have hty := rule_primary _ _ hrule
        unfold parsePrefix at h
        dsimp only at h
        split at h
        · next ht =>
          split at h
          · next hf =>
            cases h
            have hf := (fracLit_iff _).1 hf
            refine ⟨.leaf s.prev [], [], ⟨trivial, .inl ⟨rfl, ht, .inl hf⟩, ?_, ?_, rfl, he, hce, fun h => ?_⟩, rfl, rfl, rfl, ?_⟩
            · simp only [ETree.code, leafCode, ht, if_pos hf]; rfl
            · simp only [ETree.code, leafCode, ht]; rfl
            · simp [ETree.named, ht] at h
            · simp only [ETree.ty, leafTy, ht, if_pos hf]
          · next hf =>
            have hf : ¬ fracLit s.prev.text := fun h => hf ((fracLit_iff _).2 h)
            split at h
            · cases h
            · next w hw =>
              cases h
              refine ⟨.leaf s.prev [], [], ⟨trivial, .inl ⟨rfl, ht, .inr (by rw [hw]; simp)⟩, ?_, ?_, rfl, he, hce, fun h => ?_⟩, rfl, rfl, rfl, ?_⟩
              · simp only [ETree.code, leafCode, ht, if_neg hf, hw]; rfl
              · simp only [ETree.code, leafCode, ht]; rfl
              · simp [ETree.named, ht] at h
              · simp only [ETree.ty, leafTy, ht, if_neg hf]
        · next ht =>
          cases h
          refine ⟨.leaf s.prev [], [], ⟨trivial, .inr (.inl ⟨rfl, .inl ht⟩), ?_, ?_, rfl, he, hce, fun h => ?_⟩, rfl, rfl, rfl, ?_⟩
          · simp only [ETree.code, leafCode, ht]; rfl
          · simp only [ETree.code, leafCode, ht]; rfl
          · simp [ETree.named, ht] at h
          · simp only [ETree.ty, leafTy, ht]
        · next ht =>
          cases h
          refine ⟨.leaf s.prev [], [], ⟨trivial, .inr (.inl ⟨rfl, .inr (.inl ht)⟩), ?_, ?_, rfl, he, hce, fun h => ?_⟩, rfl, rfl, rfl, ?_⟩
          · simp only [ETree.code, leafCode, ht]; rfl
          · simp only [ETree.code, leafCode, ht]; rfl
          · simp [ETree.named, ht] at h
          · simp only [ETree.ty, leafTy, ht]
        · next ht =>
          cases h
          refine ⟨.leaf s.prev [], [], ⟨trivial, .inr (.inl ⟨rfl, .inr (.inr ht)⟩), ?_, ?_, rfl, he, hce, fun h => ?_⟩, rfl, rfl, rfl, ?_⟩
          · simp only [ETree.code, leafCode, ht]; rfl
          · simp only [ETree.code, leafCode, ht]; rfl
          · simp [ETree.named, ht] at h
          · simp only [ETree.ty, leafTy, ht]
        · next ht =>
          split at h
          · next op hop =>
            split at h
            · next t1 s1 hp =>
              cases h
              rw [conv_emit] at hs ⊢
              have hs : ((s1.emit (argCode t1)).consume .rparen).errs ≤ s.errs := hs
              obtain ⟨t, tk, rfl, c1, c2, c3, c4, c5, c6, c7, c8, c9⟩ := arg_sound IH he (by decide) (by decide) hp _ hs
              obtain ⟨f1, f2⟩ := fun1_functions hop t.ty
              refine ⟨.call s.prev s.cur t s1.cur, s.cur :: (t.flat ++ [s1.cur]), ⟨tk.resp, ⟨⟨ht, f1, c1, c2⟩, tk.acc⟩, ?_, ?_, c7, c4, c8, fun h => (by cases h)⟩, rfl, rfl, ?_, ?_⟩
              · show _ ++ _ = _
                rw [c5, tk.out]
                simp only [ETree.code, f2, List.append_assoc]
              · show ((s1.emit _).consume .rparen).tab = _
                rw [c6, tk.tabs]; rfl
              · rw [c3]; simp; rfl
              · simp only [ETree.ty, f2]
            · next hn => exact absurd h (hn _ _)
          · next hnone =>
            split at h
            · next hpow =>
              split at h
              · next t1 s1 hp =>
                split at h
                · next t2 s2 hq =>
                  cases h
                  rw [conv_emit] at hs ⊢
                  rw [conv_emit] at hq
                  have hs : ((s2.emit (argCode t2)).consume .rparen).errs ≤ s.errs := hs
                  have l1 := consume_le s .lparen
                  have l2 := m1 _ _ _ _ hp
                  have l3 := consume_le (s1.emit (argCode t1)) .comma
                  have l4 := m1 _ _ _ _ hq
                  have l5 := consume_le (s2.emit (argCode t2)) .rparen
                  have l6 : (s2.emit (argCode t2)).errs = s2.errs := rfl
                  have l7 : (s1.emit (argCode t1)).errs = s1.errs := rfl
                  obtain ⟨t, tk, rfl, c1, c2, c3, c4, c5, c6, c7, c8, c9⟩ := arg_sound IH (close := .comma) he (by decide) (by decide) hp (argCode t1) (by omega)
                  obtain ⟨u, tu, rfl, d1, d2, d3, d4, d5, d6, d7, d8, d9⟩ := arg_sound IH (s := s1.emit (argCode t.ty)) (close := .rparen) tk.fin (by decide) (by decide) hq (argCode t2) (by omega)
                  refine ⟨.call2 s.prev s.cur t s1.cur u s2.cur, s.cur :: (t.flat ++ s1.cur :: (u.flat ++ [s2.cur])),
                    ⟨⟨tk.resp, tu.resp⟩, ⟨⟨ht, hpow, c1, c2, d2⟩, tk.acc, tu.acc⟩, ?_, ?_, ?_, d4, d8, fun h => (by cases h)⟩, rfl, rfl, ?_, rfl⟩
                  · show _ ++ _ = _
                    rw [d5, tu.out]
                    show s1.out ++ _ ++ _ ++ _ ++ _ = _
                    rw [tk.out, show (s1.emit (argCode t.ty)).tab = s1.tab from rfl, tk.tabs]
                    simp only [ETree.code, List.append_assoc]
                  · show ((s2.emit _).consume .rparen).tab = _
                    rw [d6, tu.tabs, show (s1.emit (argCode t.ty)).tab = s1.tab from rfl, tk.tabs]; rfl
                  · show ((s2.emit _).consume .rparen).errs = _
                    omega
                  · have d3' : s1.toks = u.flat ++ s2.cur :: ((s2.emit (argCode u.ty)).consume .rparen).ts := List.cons.inj d3 |>.2
                    rw [c3, ← c9, d3']
                    show _ = _ ++ ((s2.emit (argCode u.ty)).consume .rparen).ts
                    simp
                · next hn => exact absurd h (hn _ _)
              · next hn => exact absurd h (hn _ _)
            · next hnp =>
              split at h
              · next hfl =>
                split at h
                · next t1 s1 hp =>
                  cases h
                  have hs : (s1.consume .rparen).errs ≤ s.errs := hs
                  obtain ⟨t, tk, rfl, c1, c2, c3, c4, c5, c6, c7, c8, c9⟩ := arg_sound IH (close := .rparen) he (by decide) (by decide) hp [] (by rw [emit_nil]; exact hs)
                  rw [emit_nil] at c3 c4 c5 c6 c7 c8
                  have f1 : (functions.lookup s.prev.text).isSome = true := by rw [hfl]; rfl
                  have f2 : ∀ x, callCode s.prev.text x = ([0x90], .float) := by rw [hfl]; intro x; rfl
                  refine ⟨.call s.prev s.cur t s1.cur, s.cur :: (t.flat ++ [s1.cur]), ⟨tk.resp, ⟨⟨ht, f1, c1, c2⟩, tk.acc⟩, ?_, ?_, c7, c4, c8, fun h => (by cases h)⟩, rfl, rfl, ?_, ?_⟩
                  · show _ ++ _ = _
                    rw [c5, tk.out]
                    simp only [ETree.code, f2, List.append_assoc, List.append_nil]
                  · show (s1.consume .rparen).tab = _
                    rw [c6, tk.tabs]; rfl
                  · rw [c3]; simp; rfl
                  · simp only [ETree.ty, f2]
                · next hn => exact absurd h (hn _ _)
              · next hnf =>
                split at h
                · next hfl =>
                  split at h
                  · next t1 s1 hp =>
                    cases h
                    have hs : (s1.consume .rparen).errs ≤ s.errs := hs
                    obtain ⟨t, tk, rfl, c1, c2, c3, c4, c5, c6, c7, c8, c9⟩ := arg_sound IH (close := .rparen) he (by decide) (by decide) hp [] (by rw [emit_nil]; exact hs)
                    rw [emit_nil] at c3 c4 c5 c6 c7 c8
                    have f1 : (functions.lookup s.prev.text).isSome = true := by rw [hfl]; rfl
                    have f2 : ∀ x, callCode s.prev.text x = ([0x91], .int) := by rw [hfl]; intro x; rfl
                    refine ⟨.call s.prev s.cur t s1.cur, s.cur :: (t.flat ++ [s1.cur]), ⟨tk.resp, ⟨⟨ht, f1, c1, c2⟩, tk.acc⟩, ?_, ?_, c7, c4, c8, fun h => (by cases h)⟩, rfl, rfl, ?_, ?_⟩
                    · show _ ++ _ = _
                      rw [c5, tk.out]
                      simp only [ETree.code, f2, List.append_assoc, List.append_nil]
                    · show (s1.consume .rparen).tab = _
                      rw [c6, tk.tabs]; rfl
                    · rw [c3]; simp; rfl
                    · simp only [ETree.ty, f2]
                  · next hn => exact absurd h (hn _ _)
                · next hni =>
                  have hnb := not_builtin hnone hnp hnf hni
                  split at h
                  · next hd =>
                    split at h
                    · cases h
                      exact absurd hs (Nat.not_succ_le_self _)
                    · next hlen =>
                      split at h
                      · cases h
                      · next s1 hdl =>
                        cases h
                        obtain ⟨_, _, _, e, _⟩ := dotLoop_sound _ _ _ _ _ he hce hdl hs
                        cases e
                      · next name s1 hdl =>
                        cases h
                        obtain ⟨subs, d1, d2, d3, d4, d5, d6, d7, d8, d9, hce'⟩ := dotLoop_sound _ _ _ _ _ he hce hdl hs
                        cases d3
                        refine ⟨.leaf s.prev subs, subToks subs, ⟨trivial, .inr (.inr ⟨ht, hnb, d2, d4⟩), ?_, ?_, d7, d8, hce', fun _ => d9⟩, rfl, rfl, d1, ?_⟩
                        · show s1.out ++ _ = _
                          simp only [ETree.code, leafCode, ht, d5, d6, fullName]
                        · show (strtabAdd s1.tab _).1 = _
                          simp only [ETree.code, leafCode, ht, d6, fullName]
                        · simp only [ETree.ty, leafTy, ht]
                  · next hd =>
                    cases h
                    refine ⟨.leaf s.prev [], [], ⟨trivial, .inr (.inr ⟨ht, hnb, by simp, .inl rfl⟩), ?_, ?_, rfl, he, hce, fun _ => hd⟩, rfl, rfl, rfl, ?_⟩
                    · simp only [ETree.code, leafCode, ht]; rfl
                    · simp only [ETree.code, leafCode, ht]; rfl
                    · simp only [ETree.ty, leafTy, ht]
        · next ht1 ht2 ht3 ht4 ht5 =>
          rcases hty with h | h | h | h | h
          · exact absurd h ht1
          · exact absurd h ht2
          · exact absurd h ht3
          · exact absurd h ht4
          · exact absurd h ht5

/-! ### The language of the expression parser -/

/-- `k` does not continue the expression `t`: no operator, no error token, no documentation comment, and no dot behind a name. -/
def Stops (t : ETree) (k : Tok) : Prop :=
  k.type ≠ .error ∧ k.type ≠ .doc ∧ opLevel k.type = 0 ∧ (t.named = true → k.type ≠ .dot)

/-- What the compiler makes of the tokens `ts`, if it has no error message: type, code, string table, remaining tokens. -/
def Compiles (dbl : List Byte → Word) (ts : List Tok) (tab : List (List Byte)) (ty : ETy) (code : List Byte) (tab' : List (List Byte))
    (rest : List Tok) : Prop :=
  ∃ F s, parseExpr dbl F (psAt eofTok ts [] tab []) = .ok ty s ∧ s.errs = 0 ∧ s.out = code ∧ s.tab = tab' ∧ s.cur :: s.toks = rest

theorem rule_of_stop {k : Tok} (h1 : k.type ≠ .error) (h2 : k.type ≠ .doc) (h3 : opLevel k.type = 0) : ∃ pre, ruleOf k.type = some (pre, 0) := by
  revert h1 h2 h3
  cases k.type <;> intro h1 h2 h3 <;> first | exact ⟨_, rfl⟩ | exact absurd rfl h1 | exact absurd rfl h2 | exact absurd h3 (by decide)

/-- C75 (exactly what is accepted). The compiler accepts a token sequence as an expression, without an error message, just if it begins with the tokens of a tree
that respects precedence and associativity and has the shapes of `Acc`, followed by a token that does not continue it; type,
code, string table and remaining tokens are those of the tree. -/
theorem C75_language (dbl : List Byte → Word) (ts : List Tok) (hts : EndsEof ts) (tab : List (List Byte)) (ty : ETy) (code : List Byte)
    (tab' : List (List Byte)) (rest : List Tok) :
    Compiles dbl ts tab ty code tab' rest ↔
      ∃ (t : ETree) (k : Tok) (ks : List Tok), rest = k :: ks ∧ ts = t.flat ++ k :: ks ∧ t.Respects ∧ t.Acc ∧ Stops t k ∧ ty = t.ty ∧ (code, tab') = t.code dbl tab := by
  constructor
  · rintro ⟨F, s, h, he, rfl, rfl, rfl⟩
    have hne : ∃ c cs, ts = c :: cs := by
      obtain ⟨b, z, rfl, _⟩ := hts
      cases b <;> exact ⟨_, _, rfl⟩
    obtain ⟨c, cs, rfl⟩ := hne
    obtain ⟨t, tk, e1, e2, e3, pre, q, e4, e5⟩ := (sound dbl F).1 1 (psAt eofTok (c :: cs) [] tab []) ty s (Nat.le_refl 1) (by decide) hts h (Nat.le_of_eq he)
    obtain ⟨_, hlev⟩ := rule_le _ _ _ e4
    refine ⟨t, s.cur, s.toks, rfl, e1, tk.resp, tk.acc, ⟨tk.noerr, fun hd => ?_, by omega, tk.nodot⟩, e2, ?_⟩
    · rw [hd] at e4; cases e4
    · have h1 := tk.out
      have h2 := tk.tabs
      simp only [psAt, List.nil_append] at h1 h2
      rw [h1, h2]
  · rintro ⟨t, k, ks, rfl, rfl, hr, ha, ⟨h1, h2, h3, h4⟩, rfl, hc⟩
    obtain ⟨pre, hrule⟩ := rule_of_stop h1 h2 h3
    obtain ⟨F0, hF⟩ := (tree_parse dbl t hr ha).full 1 (respects_root hr) k ks h1 h4 hrule (by omega) eofTok [] tab []
    obtain ⟨last, h⟩ := hF F0 (Nat.le_refl _)
    have hc1 : code = (t.code dbl tab).1 := congrArg Prod.fst hc
    have hc2 : tab' = (t.code dbl tab).2 := congrArg Prod.snd hc
    exact ⟨F0, _, h, rfl, hc1.symm, hc2.symm, rfl⟩

/-! ### Without parentheses and unary operators -/

/-- No parentheses but those of calls, and no unary operators. -/
def ETree.Plain : ETree → Prop
  | .leaf _ _ => True
  | .node l _ r => l.Plain ∧ r.Plain
  | .call _ _ a _ => a.Plain
  | .call2 _ _ a _ b _ => a.Plain ∧ b.Plain
  | .paren _ _ _ _ => False
  | .unary _ _ _ => False

/-- The token can be the end of an operand. -/
def closes (t : TT) : Prop := t = .number ∨ t = .kwTrue ∨ t = .kwFalse ∨ t = .kwSelf ∨ t = .identifier ∨ t = .rparen

/-- In the tokens behind `p`, there is no `!` and no `~`, every minus stands behind an operand, and every opening parenthesis
behind the name of a function. -/
def NoPrefix : Tok → List Tok → Prop
  | _, [] => True
  | p, u :: us => u.type ≠ .bang ∧ u.type ≠ .tilde ∧ (u.type = .minus → closes p.type) ∧
      (u.type = .lparen → p.type = .identifier ∧ p.text ∈ builtins) ∧ NoPrefix u us

theorem NoPrefix.behind : ∀ {p : Tok} {a b : List Tok} {u : Tok}, NoPrefix p (a ++ u :: b) → NoPrefix u b
  | _, [], _, _, h => h.2.2.2.2
  | _, _ :: as, _, _, h => NoPrefix.behind (a := as) h.2.2.2.2

theorem plain_of (t : ETree) (hr : t.Respects) (h : t.Acc) (p : Tok) (hp : ¬ closes p.type) (rest : List Tok) (hn : NoPrefix p (t.flat ++ rest)) : t.Plain := by
  induction t generalizing p rest with
  | leaf => exact trivial
  | node l op r ihl ihr =>
    have e1 : (ETree.node l op r).flat ++ rest = l.flat ++ op :: (r.flat ++ rest) := by simp [ETree.flat]
    rw [e1] at hn
    have hop : ¬ closes op.type := by
      have := hr.1
      revert this
      cases op.type <;> intro h0 hc <;> first | exact absurd h0 (by decide) | (rcases hc with hc | hc | hc | hc | hc | hc <;> cases hc)
    exact ⟨ihl hr.2.2.2.1 h.1 p hp _ hn, ihr hr.2.2.2.2 h.2 op hop _ hn.behind⟩
  | call f lp a rp ih =>
    have e1 : (ETree.call f lp a rp).flat ++ rest = [f] ++ lp :: (a.flat ++ rp :: rest) := by simp [ETree.flat]
    rw [e1] at hn
    exact ih hr h.2 lp (by rw [h.1.2.2.1]; simp [closes]) _ hn.behind
  | call2 f lp a c b rp iha ihb =>
    have e1 : (ETree.call2 f lp a c b rp).flat ++ rest = [f] ++ lp :: (a.flat ++ c :: (b.flat ++ rp :: rest)) := by simp [ETree.flat]
    rw [e1] at hn
    have hn := hn.behind
    exact ⟨iha hr.1 h.2.1 lp (by rw [h.1.2.2.1]; simp [closes]) _ hn, ihb hr.2 h.2.2 c (by rw [h.1.2.2.2.1]; simp [closes]) _ hn.behind⟩
  | paren lp x a rp ih =>
    exfalso
    have hn : NoPrefix p (lp :: (x :: (a.flat ++ [rp]) ++ rest)) := hn
    exact hp (by rw [(hn.2.2.2.1 h.1).1]; simp [closes])
  | unary u x a ih =>
    exfalso
    have hn : NoPrefix p (u :: (x :: a.flat ++ rest)) := hn
    rcases h.1 with hu | hu | hu
    · exact hp (hn.2.2.1 hu)
    · exact hn.1 hu
    · exact hn.2.1 hu

/-- C75 (partial: where the tokens contain no unary operators and no parentheses but those of function calls). The compiler accepts
exactly the expressions of operands, calls and binary operators, and the code is theirs. -/
theorem C75_accepts_partial (dbl : List Byte → Word) (ts : List Tok) (hts : EndsEof ts) (hn : NoPrefix eofTok ts) (tab : List (List Byte)) (ty : ETy)
    (code : List Byte) (tab' : List (List Byte)) (rest : List Tok) :
    Compiles dbl ts tab ty code tab' rest ↔
      ∃ (t : ETree) (k : Tok) (ks : List Tok), rest = k :: ks ∧ ts = t.flat ++ k :: ks ∧ t.Respects ∧ t.Acc ∧ t.Plain ∧ Stops t k ∧ ty = t.ty ∧ (code, tab') = t.code dbl tab := by
  rw [C75_language dbl ts hts]
  constructor
  · rintro ⟨t, k, ks, h1, h2, h3, h4, h5⟩
    exact ⟨t, k, ks, h1, h2, h3, h4, plain_of t h3 h4 eofTok (by simp [closes, eofTok]) (k :: ks) (h2 ▸ hn), h5⟩
  · rintro ⟨t, k, ks, h1, h2, h3, h4, _, h5⟩
    exact ⟨t, k, ks, h1, h2, h3, h4, h5⟩

/-- C75 (refusal). If the tokens do not begin with such a tree, every run of the parser ends in an error message (or in undefined behaviour). -/
theorem C75_refuses (dbl : List Byte → Word) (ts : List Tok) (hts : EndsEof ts) (tab : List (List Byte)) (F : Nat) (ty : ETy) (s : PSt)
    (hno : ∀ (t : ETree) (k : Tok) (ks : List Tok), ts = t.flat ++ k :: ks → t.Respects → t.Acc → ¬ Stops t k)
    (h : parseExpr dbl F (psAt eofTok ts [] tab []) = .ok ty s) : 0 < s.errs := by
  refine Nat.pos_of_ne_zero (fun he => ?_)
  obtain ⟨t, k, ks, _, h2, h3, h4, h5, _⟩ := (C75_language dbl ts hts tab ty s.out s.tab (s.cur :: s.toks)).1 ⟨F, s, h, he, rfl, rfl, rfl⟩
  exact hno t k ks h2 h3 h4 h5

/-! ### Examples and counterexamples -/

namespace Demo

def opTok (t : TT) (c : Byte) : Tok := ⟨t, [c], 1⟩

/-- `sin(a) + pow(b, 2) * c` -/
def callTree : ETree :=
  .node (.call ⟨.identifier, [0x73, 0x69, 0x6E], 1⟩ (opTok .lparen 0x28) (.leaf (ident 0x61) []) (opTok .rparen 0x29)) (opTok .plus 0x2B)
    (.node (.call2 ⟨.identifier, [0x70, 0x6F, 0x77], 1⟩ (opTok .lparen 0x28) (.leaf (ident 0x62) []) (opTok .comma 0x2C)
      (.leaf ⟨.number, [0x32], 1⟩ []) (opTok .rparen 0x29)) (opTok .star 0x2A) (.leaf (ident 0x63) []))

theorem callTree_ok : callTree.Respects ∧ callTree.LeavesOk ∧ callTree.Plain := by
  refine ⟨by simp only [callTree, ETree.Respects, ETree.root]; decide +kernel, ⟨⟨by unfold CallOk; decide +kernel, ?_⟩, ⟨by unfold CallOk2; decide +kernel, ?_, ?_⟩, ?_⟩,
    by simp [callTree, ETree.Plain]⟩
  · exact .inr (.inr ⟨rfl, by decide +kernel, by simp, .inl rfl⟩)
  · exact .inr (.inr ⟨rfl, by decide +kernel, by simp, .inl rfl⟩)
  · exact .inl ⟨rfl, rfl, .inr ⟨by decide +kernel, by decide +kernel, by decide +kernel, by decide +kernel⟩⟩
  · exact .inr (.inr ⟨rfl, by decide +kernel, by simp, .inl rfl⟩)

/-- The tokens of the source `sin(a) + pow(b, 2) * c;`. -/
example : lexAll 40 ([0x73, 0x69, 0x6E, 0x28, 0x61, 0x29, 0x20, 0x2B, 0x20, 0x70, 0x6F, 0x77, 0x28, 0x62, 0x2C, 0x20, 0x32, 0x29, 0x20, 0x2A, 0x20, 0x63, 0x3B, 0]) 1 =
    some (callTree.flat ++ [opTok .semicolon 0x3B, ⟨.eof, [], 1⟩]) := by decide +kernel

example : NoPrefix eofTok (callTree.flat ++ [opTok .semicolon 0x3B, ⟨.eof, [], 1⟩]) := by
  simp [callTree, ETree.flat, NoPrefix, subToks, opTok, ident, closes, builtins]

example : EndsEof (callTree.flat ++ [opTok .semicolon 0x3B, ⟨.eof, [], 1⟩]) := ⟨callTree.flat ++ [opTok .semicolon 0x3B], ⟨.eof, [], 1⟩, by simp, rfl⟩

/-- Its code: the integer literal is converted. -/
example : callTree.code (fun _ => 0) [] =
    ([0x60, 0, 0, 0x85, 0x60, 1, 0, 0x61, 2, 0, 0, 0, 0, 0, 0, 0, 0x90, 0x89, 0x60, 2, 0, 0x82, 0x80], [[0x61], [0x62], [0x63]]) := by decide +kernel

/-- `a b` is refused behind `a`: the remaining tokens begin with `b`. -/
example : Compiles (fun _ => 0) [ident 0x61, ident 0x62, eofTok] [] .unk [0x60, 0, 0] [[0x61]] [ident 0x62, eofTok] :=
  (C75_language _ _ ⟨[ident 0x61, ident 0x62], eofTok, rfl, rfl⟩ _ _ _ _ _).2
    ⟨.leaf (ident 0x61) [], ident 0x62, [eofTok], rfl, rfl, trivial, .inr (.inr ⟨rfl, by decide +kernel, by simp, .inl rfl⟩), by unfold Stops; decide, rfl, rfl⟩

end Demo

/-- C75 is false: `(a - -b)` is accepted, and means `-b`. -/
theorem C75_false_paren : ∃ toks, lexAll 40 [0x28, 0x61, 0x20, 0x2D, 0x20, 0x2D, 0x62, 0x29, 0x3B, 0] 1 = some toks ∧
    Compiles (fun _ => 0) toks [] .int (IExpr.code (.un .neg (.fld 0 0))) [[0x62]] [Demo.opTok .semicolon 0x3B, ⟨.eof, [], 1⟩] :=
  ⟨_, rfl, 20, _, rfl, by decide +kernel, by decide +kernel, by decide +kernel, by decide +kernel⟩

/-- C75 is false: `((a)` is accepted though a parenthesis is missing, and `(a)` is refused. -/
theorem C75_false_open :
    (∃ toks, lexAll 40 [0x28, 0x28, 0x61, 0x29, 0x3B, 0] 1 = some toks ∧
      Compiles (fun _ => 0) toks [] .unk (IExpr.code (.fld 0 0)) [[0x61]] [Demo.opTok .semicolon 0x3B, ⟨.eof, [], 1⟩]) ∧
    (∃ toks, lexAll 40 [0x28, 0x61, 0x29, 0x3B, 0] 1 = some toks ∧ ∀ ty code tab rest, ¬ Compiles (fun _ => 0) toks [] ty code tab rest) := by
  refine ⟨⟨_, rfl, 20, _, rfl, by decide +kernel, by decide +kernel, by decide +kernel, by decide +kernel⟩,
    ⟨[Demo.opTok .lparen 0x28, Demo.ident 0x61, Demo.opTok .rparen 0x29, Demo.opTok .semicolon 0x3B, ⟨.eof, [], 1⟩], by decide +kernel, ?_⟩⟩
  rintro ty code tab rest ⟨F, s, h, he, _⟩
  have key : ∀ F, match parseExpr (fun _ => 0) F (psAt eofTok [Demo.opTok .lparen 0x28, Demo.ident 0x61, Demo.opTok .rparen 0x29,
      Demo.opTok .semicolon 0x3B, ⟨.eof, [], 1⟩] [] [] []) with
      | .ok _ s => s.errs ≠ 0
      | _ => True := by
    intro F
    rcases F with _ | _ | _ | _ | _ | _ | _ | F <;> first | exact trivial | exact (by intro h; cases h)
  have := key F
  rw [h] at this
  exact this he

end Cnd
