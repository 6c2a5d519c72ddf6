import Verif.Parse
import Verif.Props.Lexer
import Verif.Demo
/-
  C58: the compiler ends on every source text.
-/

namespace Cnd

/-- What is left to read: two for every token to come, one for the current one. -/
def PSt.rem (s : PSt) : Nat := 2 * s.toks.length + (if s.cur.type = .eof then 0 else 1)

/-- Between a state with `a` and one with `b` tokens to come, messages were added to `l`: each at a token between, the later ones
not before the earlier ones. -/
def Noted (a b : Nat) (l l' : List Nat) : Prop := b ≤ a ∧ ∃ m, l' = m ++ l ∧ m.Pairwise (· ≤ ·) ∧ ∀ n ∈ m, b ≤ n ∧ n ≤ a

theorem Noted.refl (a : Nat) (l : List Nat) : Noted a a l l := ⟨Nat.le_refl _, [], rfl, .nil, by simp⟩
theorem Noted.trans {a b c : Nat} {k l m : List Nat} (h : Noted a b k l) (g : Noted b c l m) : Noted a c k m := by
  obtain ⟨h1, x, rfl, hx, hx'⟩ := h
  obtain ⟨g1, y, rfl, hy, hy'⟩ := g
  refine ⟨Nat.le_trans g1 h1, y ++ x, by simp, List.pairwise_append.2 ⟨hy, hx, fun n hn m hm => ?_⟩, fun n hn => ?_⟩
  · exact Nat.le_trans (hy' n hn).2 (hx' m hm).1
  · rcases List.mem_append.1 hn with h | h
    · exact ⟨(hy' n h).1, Nat.le_trans (hy' n h).2 h1⟩
    · exact ⟨Nat.le_trans g1 (hx' n h).1, (hx' n h).2⟩

/-- `s'` is behind `s`: nothing is read twice, no message is taken back, and messages are about tokens between. -/
structure Later (s s' : PSt) : Prop where
  rem : s'.rem ≤ s.rem
  log : Noted s.toks.length s'.toks.length s.log s'.log

theorem Later.errs {s s' : PSt} (h : Later s s') : s.errs ≤ s'.errs := by
  obtain ⟨_, m, e, _⟩ := h.log
  unfold PSt.errs
  rw [e, List.length_append]
  omega

/-- Something was read, or a message was given. -/
def Moved (s s' : PSt) : Prop := s'.rem < s.rem ∨ s.errs < s'.errs

theorem Later.refl (s : PSt) : Later s s := ⟨Nat.le_refl _, .refl _ _⟩
theorem Later.trans {a b c : PSt} (h : Later a b) (g : Later b c) : Later a c :=
  ⟨Nat.le_trans g.rem h.rem, h.log.trans g.log⟩

theorem Moved.trans_later {a b c : PSt} (h : Moved a b) (g : Later b c) : Moved a c := by
  rcases h with h | h
  · exact .inl (by have := g.rem; omega)
  · exact .inr (by have := g.errs; omega)

theorem Later.trans_moved {a b c : PSt} (h : Later a b) (g : Moved b c) : Moved a c := by
  rcases g with g | g
  · exact .inl (by have := h.rem; omega)
  · exact .inr (by have := h.errs; omega)

theorem pull_len (ts : List Tok) (n : List Nat) : (pull ts n).2.1.length ≤ ts.length - 1 ∧ Noted ts.length (pull ts n).2.1.length n (pull ts n).2.2 ∧
    (ts = [] → (pull ts n).1.type = .eof) := by
  induction ts generalizing n with
  | nil => exact ⟨Nat.le_refl _, .refl _ _, fun _ => rfl⟩
  | cons t ts ih =>
    unfold pull
    split
    · obtain ⟨h1, h2, -⟩ := ih (ts.length :: n)
      simp only [List.length_cons]
      refine ⟨by omega, Noted.trans ⟨Nat.le_succ _, [ts.length], rfl, by simp, by simp⟩ h2, by simp⟩
    · exact ⟨by simp, ⟨Nat.le_succ _, [], rfl, .nil, by simp⟩, by simp⟩

theorem pull_rest (ts : List Tok) (n m : List Nat) : (pull ts n).1 = (pull ts m).1 ∧ (pull ts n).2.1 = (pull ts m).2.1 := by
  induction ts generalizing n m with
  | nil => exact ⟨rfl, rfl⟩
  | cons t ts ih =>
    unfold pull
    split
    · exact ih _ _
    · exact ⟨rfl, rfl⟩

theorem advance_later (s : PSt) : Later s s.advance ∧ s.advance.rem ≤ s.rem - 1 := by
  obtain ⟨h1, h2, h3⟩ := pull_len s.toks s.log
  have key : s.advance.rem ≤ s.rem - 1 := by
    unfold PSt.advance PSt.rem
    dsimp only
    cases hts : s.toks with
    | nil =>
      rw [hts] at h1 h3
      have e := h3 rfl
      have e2 : (pull [] s.log).2.1.length = 0 := by simp at h1; simpa using h1
      rw [if_pos e, e2]
      omega
    | cons t ts =>
      rw [hts] at h1
      simp only [List.length_cons] at h1 ⊢
      split <;> split <;> omega
  exact ⟨⟨by omega, h2⟩, key⟩

theorem rem_pos {s : PSt} (h : s.cur.type ≠ .eof) : 0 < s.rem := by
  unfold PSt.rem; rw [if_neg h]; omega

theorem advance_moved {s : PSt} (h : s.cur.type ≠ .eof) : Moved s s.advance :=
  .inl (by have := rem_pos h; have := (advance_later s).2; omega)

theorem error_later (s : PSt) : Later s s.error := ⟨Nat.le_refl _, Nat.le_refl _, [_], rfl, by simp, by simp [PSt.error]⟩
theorem error_moved (s : PSt) : Moved s s.error := .inr (Nat.lt_succ_self _)
theorem emit_later (s : PSt) (bs : List Byte) : Later s (s.emit bs) := ⟨Nat.le_refl _, .refl _ _⟩
theorem loadCtx_later (s : PSt) (n : List Byte) : Later s (s.loadCtx n) := ⟨Nat.le_refl _, .refl _ _⟩

theorem consume_later (s : PSt) (ty : TT) : Later s (s.consume ty) := by
  unfold PSt.consume
  split
  · exact (advance_later s).1
  · exact error_later s

theorem consume_moved (s : PSt) {ty : TT} (h : ty ≠ .eof) : Moved s (s.consume ty) := by
  unfold PSt.consume
  split
  · rename_i e; exact advance_moved (by rw [e]; exact h)
  · exact error_moved s

/-! ### Expressions -/

/-- The outcome of an expression: not stuck, and behind `s`, with at most `n` left. -/
def PRes.Fine (s : PSt) (n : Nat) : PRes → Prop
  | .ok _ s' => Later s s' ∧ s'.rem ≤ n
  | .ub => True
  | .stuck => False

theorem PRes.Fine.mono {s t : PSt} {n m : Nat} {r : PRes} (h : r.Fine t n) (hl : Later s t) (hn : n ≤ m) : r.Fine s m := by
  cases r with
  | ok ty s' => exact ⟨hl.trans h.1, Nat.le_trans h.2 hn⟩
  | ub => trivial
  | stuck => exact h

theorem dotLoop_fine (f : Nat) (name : List Byte) (s : PSt) (h : s.rem + 1 ≤ f) :
    ∃ r s', dotLoop f name s = some (r, s') ∧ Later s s' := by
  induction f generalizing name s with
  | zero => omega
  | succ f ih =>
    unfold dotLoop
    split
    · rename_i hd
      have h1 := advance_later s
      have h2 := consume_later s.advance .identifier
      have hp := rem_pos (s := s) (by rw [hd]; decide)
      dsimp only
      split
      · exact ⟨_, _, rfl, h1.1.trans (h2.trans (error_later _))⟩
      · obtain ⟨r, s', e, hl⟩ := ih (name ++ 0x2E :: s.advance.cur.text) (s.advance.consume .identifier)
          (by have := h2.rem; omega)
        exact ⟨r, s', e, h1.1.trans (h2.trans hl)⟩
    · exact ⟨_, _, rfl, Later.refl _⟩

theorem rule_eof : ruleOf .eof = some (.none, 0) := rfl

theorem rem_zero {s : PSt} (h : s.rem = 0) : s.cur.type = .eof := by
  unfold PSt.rem at h
  split at h
  · assumption
  · omega

/-- Behind a sub-expression `E`, read from `t` on, comes `K`. -/
theorem Fine_then {s t : PSt} {n : Nat} {r : PRes} {K : ETy → PSt → PRes} (hr : r.Fine t n) (hl : Later s t)
    (hK : ∀ ty s', Later t s' → s'.rem ≤ n → (K ty s').Fine s' s'.rem) (m : Nat) (hn : n ≤ m) :
    (match r with | .ok ty s' => K ty s' | r => r).Fine s m := by
  cases r with
  | ok ty s' =>
    refine (hK ty s' hr.1 hr.2).mono (hl.trans hr.1) (Nat.le_trans hr.2 hn)
  | ub => trivial
  | stuck => exact hr

theorem Fine_ok {s t : PSt} {n : Nat} {ty : ETy} (h : Later s t) (hn : s.rem ≤ n) : (PRes.ok ty t).Fine s n :=
  ⟨h, Nat.le_trans h.rem hn⟩

theorem expr_fine (dbl : List Byte → Word) (f : Nat) :
    (∀ prec s, 1 ≤ prec → 2 * s.rem + 1 ≤ f → (parsePrec dbl f prec s).Fine s (s.rem - 1)) ∧
    (∀ prec l s, 1 ≤ prec → 2 * s.rem + 1 ≤ f → (infixLoop dbl f prec l s).Fine s s.rem) ∧
    (∀ pre s, 2 * s.rem + 2 ≤ f → (parsePrefix dbl f pre s).Fine s s.rem) := by
  induction f with
  | zero => refine ⟨fun _ _ _ h => ?_, fun _ _ _ _ h => ?_, fun _ _ h => ?_⟩ <;> omega
  | succ f ih =>
    obtain ⟨ih1, ih2, ih3⟩ := ih
    have sub : ∀ s t : PSt, Later s t → 2 * s.rem + 2 ≤ f + 1 → (parsePrec dbl f 1 t).Fine t t.rem := by
      intro s t hl h
      exact (ih1 1 t (by omega) (by have := hl.rem; omega)).mono (Later.refl _) (by omega)
    refine ⟨?_, ?_, ?_⟩
    · intro prec s hp h
      unfold parsePrec
      obtain ⟨h1, h2⟩ := advance_later s
      dsimp only
      by_cases hz : s.rem = 0
      · have hc := rem_zero hz
        rw [show s.advance.prev.type = .eof from hc, rule_eof]
        exact ⟨h1.trans (error_later _), by have := (error_later s.advance).rem; omega⟩
      split
      · trivial
      · exact ⟨h1.trans (error_later _), by have := (error_later s.advance).rem; omega⟩
      · rename_i pre _ _ _
        exact Fine_then (K := fun left s => infixLoop dbl f prec left s) (ih3 pre s.advance (by omega)) h1
          (fun ty s' hl hn => ih2 prec ty s' hp (by have := hl.rem; omega)) _ (by omega)
    · intro prec l s hp h
      unfold infixLoop
      split
      · trivial
      · rename_i q p hq
        split
        · rename_i hle
          have hne : s.cur.type ≠ .eof := by
            intro e; rw [e, rule_eof] at hq; cases hq; omega
          obtain ⟨h1, h2⟩ := advance_later s
          have := rem_pos hne
          dsimp only
          exact Fine_then (K := fun right s' => infixLoop dbl f prec (binEmit s.advance.prev.type l right).2
              (s'.emit (binEmit s.advance.prev.type l right).1)) (ih1 (p + 1) s.advance (by omega) (by omega)) h1
            (fun ty s' hl hn => (ih2 prec _ _ hp (by have := hl.rem; have := (emit_later s' (binEmit s.advance.prev.type l ty).1).rem; omega)).mono
              (emit_later _ _) (emit_later _ _).rem) _ (by omega)
        · exact ⟨Later.refl _, Nat.le_refl _⟩
    · intro pre s h
      cases pre with
      | none => exact ⟨Later.refl _, Nat.le_refl _⟩
      | grouping =>
        obtain ⟨h1, h2⟩ := advance_later s
        unfold parsePrefix
        exact Fine_then (K := fun t s => .ok t (s.consume .rparen)) (sub s _ h1 h) h1
          (fun ty s' _ _ => Fine_ok (consume_later _ _) (Nat.le_refl _)) _ h1.rem
      | unary =>
        obtain ⟨h1, h2⟩ := advance_later s
        unfold parsePrefix
        dsimp only
        exact Fine_then (K := fun t s' => .ok (unEmit s.cur.type t).2 (s'.emit (unEmit s.cur.type t).1))
          ((ih1 11 s.advance (by omega) (by have := h1.rem; omega)).mono (Later.refl _) (Nat.sub_le _ _)) h1
          (fun ty s' _ _ => Fine_ok (emit_later _ _) (Nat.le_refl _)) _ h1.rem
      | primary =>
        unfold parsePrefix
        have hcl := fun ty => consume_later s ty
        have itof : ∀ (t : ETy) (s' : PSt), Later s' (if t = .int then s'.emit [0x90] else s') := by
          intro t s'; split
          · exact emit_later _ _
          · exact Later.refl _
        dsimp only
        split
        · split
          · exact Fine_ok (emit_later _ _) (Nat.le_refl _)
          · split
            · trivial
            · exact Fine_ok (emit_later _ _) (Nat.le_refl _)
        · exact Fine_ok (emit_later _ _) (Nat.le_refl _)
        · exact Fine_ok (emit_later _ _) (Nat.le_refl _)
        · exact Fine_ok (emit_later _ _) (Nat.le_refl _)
        · split
          · rename_i op _
            exact Fine_then (K := fun t s => .ok .float (((if t = .int then s.emit [0x90] else s).consume .rparen).emit [op]))
              (sub s _ (hcl .lparen) h) (hcl _)
              (fun ty s' _ _ => Fine_ok ((itof ty s').trans ((consume_later _ _).trans (emit_later _ _))) (Nat.le_refl _)) _
              (hcl .lparen).rem
          · split
            · refine Fine_then (K := fun t s => match parsePrec dbl f 1 ((if t = .int then s.emit [0x90] else s).consume .comma) with
                  | .ok t s => .ok .float (((if t = .int then s.emit [0x90] else s).consume .rparen).emit [0x89])
                  | r => r) (sub s _ (hcl .lparen) h) (hcl _) ?_ _ (hcl .lparen).rem
              intro ty s' hl _
              have h3 := (itof ty s').trans (consume_later _ .comma)
              exact Fine_then (K := fun t s => .ok .float (((if t = .int then s.emit [0x90] else s).consume .rparen).emit [0x89]))
                (sub s _ ((hcl _).trans (hl.trans h3)) h) h3
                (fun ty s' _ _ => Fine_ok ((itof ty s').trans ((consume_later _ _).trans (emit_later _ _))) (Nat.le_refl _)) _ h3.rem
            · split
              · exact Fine_then (K := fun _ s => .ok .float ((s.consume .rparen).emit [0x90])) (sub s _ (hcl .lparen) h) (hcl _)
                  (fun ty s' _ _ => Fine_ok ((consume_later _ _).trans (emit_later _ _)) (Nat.le_refl _)) _ (hcl .lparen).rem
              · split
                · exact Fine_then (K := fun _ s => .ok .int ((s.consume .rparen).emit [0x91])) (sub s _ (hcl .lparen) h) (hcl _)
                    (fun ty s' _ _ => Fine_ok ((consume_later _ _).trans (emit_later _ _)) (Nat.le_refl _)) _ (hcl .lparen).rem
                · split
                  · split
                    · exact Fine_ok (error_later _) (Nat.le_refl _)
                    · obtain ⟨r, s', e, hl⟩ := dotLoop_fine f s.prev.text s (by omega)
                      rw [e]
                      cases r with
                      | none => exact Fine_ok hl (Nat.le_refl _)
                      | some name => exact Fine_ok (hl.trans (loadCtx_later _ _)) (Nat.le_refl _)
                  · exact Fine_ok (loadCtx_later _ _) (Nat.le_refl _)
        · exact Fine_ok (Later.refl _) (Nat.le_refl _)

/-! ### Statements -/

/-- `t` is behind `s`. -/
abbrev CLater (s t : CSt) : Prop := Later s.toPSt t.toPSt
abbrev CMoved (s t : CSt) : Prop := Moved s.toPSt t.toPSt

/-- The outcome is not `stuck`, and if it is a state it is one with `p`. -/
def CRes.All {α : Type} (p : α → Prop) : CRes α → Prop
  | .ok a => p a
  | .ub => True
  | .imports => True
  | .stuck => False

theorem CRes.All.mono {α : Type} {p q : α → Prop} {r : CRes α} (h : r.All p) (g : ∀ a, p a → q a) : r.All q := by
  cases r <;> first | exact g _ h | exact h

theorem CRes.All.bind {α β : Type} {p : α → Prop} {q : β → Prop} {r : CRes α} {f : α → CRes β} (h : r.All p)
    (g : ∀ a, p a → (f a).All q) : (r.bind f).All q := by
  cases r with
  | ok a => exact g a h
  | ub => trivial
  | imports => trivial
  | stuck => exact h

theorem All_ite {α : Type} {p : α → Prop} {c : Prop} [Decidable c] {x y : CRes α} (h : x.All p) (g : y.All p) :
    (if c then x else y).All p := by
  split <;> assumption

theorem later_adv {a s : CSt} (h : CLater a s) : CLater a s.adv := h.trans (advance_later _).1
theorem later_err {a s : CSt} (h : CLater a s) : CLater a s.err := h.trans (error_later _)
theorem later_eat {a s : CSt} {ty : TT} (h : CLater a s) : CLater a (s.eat ty) := h.trans (consume_later _ _)
theorem later_put {a s : CSt} {bs : List Byte} (h : CLater a s) : CLater a (s.put bs) := h.trans (emit_later _ _)
theorem later_errIf {a s : CSt} {c : Bool} (h : CLater a s) : CLater a (s.errIf c) := by
  unfold CSt.errIf; split
  · exact later_err h
  · exact h
theorem later_patch {a s : CSt} {o : Nat} {bs : List Byte} (h : CLater a s) : CLater a (s.patch o bs) := ⟨h.1, h.2⟩
theorem later_intern {a s : CSt} {n : List Byte} (h : CLater a s) : CLater a (s.intern n).1 := ⟨h.1, h.2⟩
theorem later_number {a s : CSt} (h : CLater a s) : CLater a s.number.2 := later_eat h
theorem later_ite {a s t : CSt} {c : Prop} [Decidable c] (h : CLater a s) (g : CLater a t) : CLater a (if c then s else t) := by
  split <;> assumption
theorem later_bits {a s : CSt} {b : BitVec 32} (h : CLater a s) : CLater a { s with bitCount := b } := h
theorem later_tab {a s : CSt} {b : List (List Byte)} (h : CLater a s) : CLater a { s with tab := b } := ⟨h.1, h.2⟩
theorem later_fields {a s : CSt} {l : List (List Byte)} (h : CLater a s) : CLater a { s with fields := l } := h
theorem later_fold {β : Type} {a : CSt} (l : List β) (s : CSt) (h : CLater a s) : CLater a (l.foldl (fun s _ => s.err) s) := by
  induction l generalizing s with
  | nil => exact h
  | cons x l ih => exact ih _ (later_err h)

macro "later" : tactic => `(tactic|
  repeat (first
    | assumption
    | exact Later.refl _
    | apply later_put
    | apply later_eat
    | apply later_adv
    | apply later_number
    | apply later_errIf
    | apply later_err
    | apply later_patch
    | apply later_intern
    | apply later_ite
    | apply later_fold
    | apply later_bits))

theorem cadv_rem (s : CSt) : s.adv.rem ≤ s.rem - 1 := (advance_later _).2
/-- A message changes nothing about what is read next. -/
theorem errIf_adv_rem (s : CSt) (c : Bool) : (s.errIf c).adv.rem = s.adv.rem := by
  unfold CSt.errIf
  split
  · have e := pull_rest s.toks (s.toks.length :: s.log) s.log
    show 2 * (pull s.toks (s.toks.length :: s.log)).2.1.length + (if (pull s.toks (s.toks.length :: s.log)).1.type = .eof then 0 else 1) = _
    rw [e.1, e.2]
    rfl
  · rfl
theorem cpos {s : CSt} (h : s.cur.type ≠ .eof) : 0 < s.rem := rem_pos h
theorem eat_moved (s : CSt) {ty : TT} (h : ty ≠ .eof) : CMoved s (s.eat ty) := consume_moved _ h
theorem adv_moved {s : CSt} (h : s.cur.type ≠ .eof) : CMoved s s.adv := advance_moved h

theorem cexpr_fine (P : PEnv) (f : Nat) (s : CSt) (h : 2 * s.rem + 1 ≤ f) : (s.expr P f).All (CLater s) := by
  have := (expr_fine P.dbl f).1 1 s.toPSt (by omega) h
  unfold CSt.expr parseExpr
  cases hr : parsePrec P.dbl f 1 s.toPSt with
  | ok ty p => rw [hr] at this; exact this.1
  | ub => trivial
  | stuck => rw [hr] at this; exact this

theorem emitRange_fine (P : PEnv) (op : Byte) (lo hi : Tok) (s : CSt) : (emitRange P op lo hi s).All (CLater s) := by
  unfold emitRange
  split
  · trivial
  · split
    · exact later_err (Later.refl _)
    · exact later_put (Later.refl _)

theorem rangePart_fine (P : PEnv) (op : Byte) (r : Option (Tok × Tok)) (s : CSt) : (rangePart P op r s).All (CLater s) := by
  unfold rangePart
  split
  · exact Later.refl _
  · exact emitRange_fine _ _ _ _ _

theorem polyLoop_fine (P : PEnv) (f : Nat) (cs : List Word) (s : CSt) (h : s.rem + 1 ≤ f) :
    (polyLoop P f cs s).All (fun r => CLater s r.2) := by
  induction f generalizing cs s with
  | zero => omega
  | succ f ih =>
    unfold polyLoop
    have key : ∀ r : List Word × CSt, CLater s r.2 →
        (if r.2.cur.type = .comma then polyLoop P f r.1 r.2.adv else .ok r).All (fun r => CLater s r.2) := by
      intro r hr
      split
      · rename_i hc
        have hp := cpos (s := r.2) (by rw [hc]; decide)
        have := cadv_rem r.2
        have := hr.rem
        refine (ih r.1 r.2.adv (by omega)).mono fun a ha => hr.trans ((advance_later _).1.trans ha)
      · exact hr
    apply key
    dsimp only
    split
    · split <;> later
    · later

theorem splineLoop_fine (P : PEnv) (f : Nat) (cs : List Word) (s : CSt) (h : s.rem + 1 ≤ f) :
    (splineLoop P f cs s).All (fun r => CLater s r.2) := by
  induction f generalizing cs s with
  | zero => omega
  | succ f ih =>
    unfold splineLoop
    have key : ∀ r : List Word × CSt, CLater s r.2 →
        (if r.2.cur.type = .comma then splineLoop P f r.1 r.2.adv else .ok r).All (fun r => CLater s r.2) := by
      intro r hr
      split
      · rename_i hc
        have hp := cpos (s := r.2) (by rw [hc]; decide)
        have := cadv_rem r.2
        have := hr.rem
        refine (ih r.1 r.2.adv (by omega)).mono fun a ha => hr.trans ((advance_later _).1.trans ha)
      · exact hr
    apply key
    dsimp only
    split
    · split <;> later
    · later

theorem skipToParen_fine (f : Nat) (s : CSt) (h : s.rem + 1 ≤ f) : (skipToParen f s).All (CLater s) := by
  induction f generalizing s with
  | zero => omega
  | succ f ih =>
    unfold skipToParen
    split
    · exact Later.refl _
    · rename_i hc
      have hp := cpos (s := s) (fun e => hc (.inr e))
      have := cadv_rem s
      exact (ih s.adv (by omega)).mono fun a ha => (advance_later _).1.trans ha

theorem skipDocs_fine (f : Nat) (s : CSt) (h : s.rem + 1 ≤ f) : (skipDocs f s).All (CLater s) := by
  induction f generalizing s with
  | zero => omega
  | succ f ih =>
    unfold skipDocs
    split
    · rename_i hc
      have hp := cpos (s := s) (by rw [hc]; decide)
      have := cadv_rem s
      exact (ih s.adv (by omega)).mono fun a ha => (advance_later _).1.trans ha
    · exact Later.refl _

theorem decInt_fine (t : Trans) (d : Dec) (s : CSt) : (decInt t d s).All (fun r => CLater s r.2) := by
  unfold decInt
  split
  · trivial
  · exact later_number (Later.refl _)

theorem decArgs_fine (P : PEnv) (f : Nat) (t : Tok) (d : Dec) (s : CSt) (h : 2 * s.rem + 1 ≤ f) :
    (decArgs P f t d s).All (fun r => CLater s r.2) := by
  have hr : s.rem + 1 ≤ f := by omega
  unfold decArgs
  repeat' (first | exact decInt_fine _ _ _ | apply All_ite)
  all_goals first
    | exact (polyLoop_fine P f _ s hr).bind fun a ha => ha
    | exact (splineLoop_fine P f _ s hr).bind fun a ha => ha
    | exact (cexpr_fine P f s h).bind fun a ha => ha
    | exact (skipToParen_fine f s.err hr).bind fun a ha => (later_err (Later.refl _)).trans ha
    | (show CLater s _; later; done)
    | (split
       · trivial
       · show CLater s _; later)

theorem decFill_fine (s : CSt) : CLater s (decFill s) := by
  unfold decFill
  have key : ∀ r : Byte × CSt, CLater s r.2 → CLater s
      (if (r.2.put [0x24, r.1]).inBit ∧ (r.2.put [0x24, r.1]).bitValid then { r.2.put [0x24, r.1] with bitCount := 0 }
        else r.2.put [0x24, r.1]) := by
    intro r hr
    later
  apply key
  split
  · later
  · later

theorem decOne_fine (P : PEnv) (f : Nat) (d : Dec) (s : CSt) (h : 2 * s.rem + 1 ≤ f) :
    (decOne P f d s).All (fun r => CLater s r.2) := by
  unfold decOne
  have hl : CLater s ((s.eat .identifier).eat .lparen) := by later
  have := hl.rem
  repeat' (apply All_ite)
  all_goals first
    | exact (later_eat (Later.refl _)).trans (decFill_fine _)
    | exact (decArgs_fine P f _ _ _ (by omega)).bind fun a ha => later_eat (hl.trans ha)
    | (show CLater s _; later; done)

theorem decLoopS_fine (P : PEnv) (f : Nat) (d : Dec) (s : CSt) (h : 2 * s.rem + 2 ≤ f) :
    (decLoopS P f d s).All (fun r => CLater s r.2 ∧ (s.cur.type = .at → CMoved s r.2) ∧ (s.cur.type ≠ .at → r = (d, s))) := by
  induction f generalizing d s with
  | zero => omega
  | succ f ih =>
    unfold decLoopS
    split
    · rename_i hc
      have hp := cpos (s := s) (by rw [hc]; decide)
      have := cadv_rem s
      have ha := (advance_later s.toPSt).1
      refine (decOne_fine P f d s.adv (by omega)).bind fun a ha' => ?_
      have := ha'.rem
      refine (ih a.1 a.2 (by omega)).mono fun b hb => ?_
      have hm : CMoved s b.2 := (adv_moved (by rw [hc]; decide)).trans_later (ha'.trans hb.1)
      exact ⟨ha.trans (ha'.trans hb.1), fun _ => hm, fun e => absurd hc e⟩
    · rename_i hc
      exact ⟨Later.refl _, fun e => absurd e hc, fun _ => rfl⟩

/-! ### Fields -/

theorem shapeWidth_later {a s : CSt} (h : CLater a s) : CLater a (shapeWidth s).2 := by
  unfold shapeWidth; split <;> later

theorem shapeArr_later {a s : CSt} (h : CLater a s) : CLater a (shapeArr s).2.2.2 := by
  unfold shapeArr; split
  · dsimp only; split <;> later
  · later

theorem shapeMods_later {a s : CSt} {ty : Tok} {d : Dec} {h : Shape} (hl : CLater a s) : CLater a (shapeMods ty d h s).2 := by
  unfold shapeMods
  split
  · dsimp only; repeat' split
    all_goals later
  · split
    · have key : ∀ r : Shape × CSt, CLater a r.2 → CLater a (if r.2.cur.isWord s_max then
          ({ r.1 with maxLen := (parseU32 r.2.adv.number.1).setWidth 16 }, r.2.adv.number.2) else r).2 := by
        intro r hr; split <;> later
      apply key
      split <;> later
    · later

theorem fieldConst_fine (P : PEnv) (ty : Tok) (d : Dec) (key : Nat) (v : Word) (s : CSt) :
    (fieldConst P ty d key v s).All (CLater s) := by
  unfold fieldConst
  refine (rangePart_fine P _ _ _).mono fun a ha => Later.trans ?_ ha
  later

theorem fieldStruct_fine (code : List Byte) (ty name : Tok) (d : Dec) (h : Shape) (key : Nat) (s : CSt) :
    (fieldStruct code ty name d h key s).All (fun r => CLater s r.2) := by
  unfold fieldStruct
  split
  · exact later_err (Later.refl _)
  · dsimp only
    split
    · trivial
    · unfold CRes.All
      refine later_put (later_put (later_tab ?_))
      later

theorem fieldEnum_fine (P : PEnv) (e : EnumD) (d : Dec) (h : Shape) (key : Nat) (s : CSt) :
    (fieldEnum P e d h key s).All (CLater s) := by
  unfold fieldEnum
  refine (rangePart_fine P _ _ _).mono fun a ha => Later.trans ?_ ha
  later

theorem fieldString_later {a s : CSt} {d : Dec} {h : Shape} {key : Nat} (hl : CLater a s) : CLater a (fieldString d h key s) := by
  unfold fieldString
  dsimp only
  split <;> later

theorem fieldPlain_fine (P : PEnv) (ty : Tok) (d : Dec) (h : Shape) (key : Nat) (s : CSt) :
    (fieldPlain P ty d h key s).All (fun r => CLater s r.2) := by
  unfold fieldPlain
  dsimp only
  repeat' split
  all_goals first
    | exact (rangePart_fine P _ _ _).bind fun a ha => (later_put (Later.refl _)).trans ha
    | (unfold CRes.All; later)

theorem fieldValue_fine (P : PEnv) (ty name : Tok) (d : Dec) (h : Shape) (key : Nat) (s : CSt) :
    (fieldValue P ty name d h key s).All (fun r => CLater s r.2) := by
  unfold fieldValue
  split
  · exact (fieldConst_fine P ty d key _ s).bind fun a ha => ha
  · split
    · exact fieldStruct_fine _ _ _ _ _ _ _
    · split
      · exact (fieldEnum_fine P _ _ _ _ _).bind fun a ha => ha
      · split
        · exact fieldString_later (Later.refl _)
        · exact fieldPlain_fine _ _ _ _ _ _

theorem fieldEmit_fine (P : PEnv) (ty name : Tok) (d : Dec) (h : Shape) (key : Nat) (s : CSt) :
    (fieldEmit P ty name d h key s).All (CLater s) := by
  unfold fieldEmit
  refine (fieldValue_fine P ty name d h key _).bind fun a ha => ?_
  have h0 : CLater s a.2 := by
    refine Later.trans ?_ ha
    split <;> later
  split <;> (unfold CRes.All; later)

theorem fieldRest_fine (P : PEnv) (ty name : Tok) (d : Dec) (s : CSt) : (fieldRest P ty name d s).All (CLater s) := by
  unfold fieldRest
  refine (fieldEmit_fine P _ _ _ _ _ _).mono fun a ha => Later.trans ?_ ha
  exact shapeMods_later (shapeArr_later (shapeWidth_later (later_intern (later_fields (later_errIf (Later.refl _))))))

/-- A field reads something or gives a message, unless it is a lone decorator. -/
theorem fieldDecl_fine (P : PEnv) (d : Dec) (s : CSt) :
    (fieldDecl P d s).All (fun t => CLater s t ∧ (d.alone = false → CMoved s t)) := by
  unfold fieldDecl
  split
  · rename_i hc
    refine ⟨by later, fun h => absurd hc.1 (by rw [h]; decide)⟩
  · dsimp only
    have h0 : CLater s (s.put (transEmit d)) := later_put (Later.refl _)
    have hm : CMoved s ((s.put (transEmit d)).eat .identifier) := h0.trans_moved (eat_moved _ (by decide))
    have fin : ∀ t, CLater ((s.put (transEmit d)).eat .identifier) t → CLater s t ∧ (d.alone = false → CMoved s t) :=
      fun t ht => ⟨(later_eat h0).trans ht, fun _ => hm.trans_later ht⟩
    split
    · exact fin _ (later_err (Later.refl _))
    · exact (fieldRest_fine P _ _ d _).mono fun a ha => fin a ((later_eat (Later.refl _)).trans ha)

/-! ### Statements -/

theorem caseLabel_later (s : CSt) (v : Word) (t : CSt) (h : caseLabel s = some (v, t)) : CLater s t := by
  unfold caseLabel at h
  split at h
  · obtain ⟨w, _, e⟩ := Option.map_eq_some_iff.mp h
    cases e; later
  · split at h
    · dsimp only at h
      split at h
      · split at h
        · cases h; later
        · split at h <;> (cases h; later)
      · cases h; later
    · cases h; later

theorem switchEnd_later {a s : CSt} (w : Sw) (loc : Nat) (h : CLater a s) : CLater a (switchEnd w loc s) := by
  unfold switchEnd
  dsimp only
  have key : ∀ (l : List Nat) (g : Nat → List Byte) (t : CSt), CLater a t →
      CLater a (l.foldl (fun s j => s.patch (j + 1) (g j)) t) := by
    intro l g
    induction l with
    | nil => exact fun t ht => ht
    | cons x l ih => exact fun t ht => ih _ (later_patch ht)
  refine later_patch (key _ _ _ ?_)
  later

theorem bad_of_moved {s t : CSt} (h : CMoved s t) (hl : CLater s t) : t.rem < s.rem ∨ (t.bad = true ∧ t.rem ≤ s.rem) := by
  rcases h with h | h
  · exact .inl h
  · refine .inr ⟨?_, hl.rem⟩
    exact decide_eq_true (by have : s.errs < t.errs := h; omega)

/-- Everything about statements. -/
structure StmtFine (P : PEnv) (f : Nat) : Prop where
  field : ∀ s, s.bad = false → 8 * s.rem + 3 ≤ f → (parseField P f s).All (fun t => CLater s t ∧ CMoved s t)
  loop : ∀ s, 8 * s.rem + 4 ≤ f → (blockLoop P f s).All (CLater s)
  block : ∀ s, 8 * s.rem + 5 ≤ f → (parseBlock P f s).All (CLater s)
  iff : ∀ s, 8 * s.rem + 6 ≤ f → (parseIf P f s).All (CLater s)
  swl : ∀ b w s, 8 * s.rem + 4 ≤ f → (switchLoop P f b w s).All (fun r => CLater s r.2)
  sw : ∀ s, 8 * s.rem + 5 ≤ f → (parseSwitch P f s).All (CLater s)
  body : ∀ s, 8 * s.rem + 6 ≤ f → (caseBody P f s).All (CLater s)

theorem field_any {P : PEnv} {f : Nat} (h : StmtFine P f) (s : CSt) (hr : 8 * s.rem + 3 ≤ f) :
    (parseField P f s).All (CLater s) := by
  cases hb : s.bad with
  | false => exact (h.field s hb hr).mono fun a ha => ha.1
  | true =>
    obtain ⟨g, rfl⟩ : ∃ g, f = g + 1 := ⟨f - 1, by omega⟩
    unfold parseField
    rw [if_pos hb]
    exact Later.refl _

theorem loop_bad {P : PEnv} {f : Nat} {s : CSt} (h : s.bad = true) (hf : 1 ≤ f) : blockLoop P f s = .ok s := by
  obtain ⟨g, rfl⟩ : ∃ g, f = g + 1 := ⟨f - 1, by omega⟩
  unfold blockLoop
  rw [if_pos (.inr (.inr h))]

theorem swl_bad {P : PEnv} {f b : Nat} {w : Sw} {s : CSt} (h : s.bad = true) (hf : 1 ≤ f) : switchLoop P f b w s = .ok (w, s) := by
  obtain ⟨g, rfl⟩ : ∃ g, f = g + 1 := ⟨f - 1, by omega⟩
  unfold switchLoop
  rw [if_pos (.inr (.inr h))]

/-- If the first token is an `@`, decorators have been read; otherwise they are the empty ones. -/
theorem field_decl_moved {P : PEnv} {f : Nat} {s : CSt} (h : 2 * s.rem + 2 ≤ f) :
    ((decLoopS P f {} s).bind fun r => fieldDecl P r.1 r.2).All (fun t => CLater s t ∧ CMoved s t) := by
  refine (decLoopS_fine P f {} s h).bind fun a ha => ?_
  refine (fieldDecl_fine P a.1 a.2).mono fun b hb => ⟨ha.1.trans hb.1, ?_⟩
  by_cases hc : s.cur.type = .at
  · exact (ha.2.1 hc).trans_later hb.1
  · have e := ha.2.2 hc
    rw [e] at hb
    exact hb.2 rfl

theorem stmt_fine (P : PEnv) (f : Nat) : StmtFine P f := by
  induction f with
  | zero => constructor <;> (intros; omega)
  | succ f ih =>
    have blockAt : ∀ s t : CSt, CLater s t → 8 * s.rem + 5 ≤ f → (parseBlock P f t).All (CLater s) := by
      intro s t hl h
      have := hl.rem
      exact (ih.block t (by omega)).mono fun a ha => hl.trans ha
    refine ⟨?_, ?_, ?_, ?_, ?_, ?_, ?_⟩
    · intro s hb h
      unfold parseField
      rw [if_neg (by rw [hb]; decide)]
      refine (skipDocs_fine f s (by omega)).bind fun t ht => ?_
      have := ht.rem
      have hadv := cadv_rem t
      split
      · rename_i hc
        have hp := cpos (s := t) (by rw [hc]; decide)
        refine (ih.sw t.adv (by omega)).mono fun a ha => ⟨(later_adv ht).trans ha, ?_⟩
        exact (ht.trans_moved (adv_moved (by rw [hc]; decide))).trans_later ha
      · split
        · rename_i hc
          have hp := cpos (s := t) (by rw [hc]; decide)
          refine (ih.iff t.adv (by omega)).mono fun a ha => ⟨(later_adv ht).trans ha, ?_⟩
          exact (ht.trans_moved (adv_moved (by rw [hc]; decide))).trans_later ha
        · exact (field_decl_moved (P := P) (f := f) (s := t) (by omega)).mono fun a ha => ⟨ht.trans ha.1, ht.trans_moved ha.2⟩
    · intro s h
      unfold blockLoop
      have hadv := cadv_rem s
      split
      · exact Later.refl _
      · rename_i hc
        have hp := cpos (s := s) (fun e => hc (.inr (.inl e)))
        split
        · exact (ih.loop s.adv (by omega)).mono fun a ha => (later_adv (Later.refl _)).trans ha
        · have hb : s.bad = false := by
            cases hb : s.bad with
            | false => rfl
            | true => exact absurd (.inr (.inr hb)) hc
          refine (ih.field s hb (by omega)).bind fun t ht => ?_
          rcases bad_of_moved ht.2 ht.1 with h1 | ⟨h1, _⟩
          · exact (ih.loop t (by omega)).mono fun a ha => ht.1.trans ha
          · rw [loop_bad h1 (by omega)]; exact ht.1
    · intro s h
      unfold parseBlock
      have hl : CLater s (s.eat .lbrace) := by later
      have := hl.rem
      exact (ih.loop _ (by omega)).bind fun a ha => later_eat (hl.trans ha)
    · intro s h
      unfold parseIf
      have hl : CLater s (s.eat .lparen) := by later
      have := hl.rem
      refine (cexpr_fine P f _ (by omega)).bind fun t ht => ?_
      refine (blockAt s _ (later_put (later_eat (hl.trans ht))) (by omega)).bind fun u hu => ?_
      have key : ∀ q : CSt, CLater s q → (if q.cur.type = .kwElse then
            if q.adv.cur.type = .kwIf then parseIf P f q.adv.adv else parseBlock P f q.adv
          else .ok q).All (CLater s) := by
        intro q hq
        have := hq.rem
        split
        · split
          · rename_i hc
            have hp := cpos (s := q.adv) (by rw [hc]; decide)
            have := cadv_rem q.adv
            have := cadv_rem q
            exact (ih.iff q.adv.adv (by omega)).mono fun a ha => (later_adv (later_adv hq)).trans ha
          · exact blockAt s _ (later_adv hq) (by omega)
        · exact hq
      exact (key _ (later_patch (later_put hu))).bind fun v hv => later_patch hv
    · intro b w s h
      unfold switchLoop
      have hadv := cadv_rem s
      split
      · exact Later.refl _
      · rename_i hc
        have hp := cpos (s := s) (fun e => hc (.inr (.inl e)))
        have rest : ∀ (w : Sw) (t : CSt), CLater s.adv t →
            ((caseBody P f t).bind fun s => switchLoop P f b { w with fix := w.fix ++ [s.out.length] }
              (s.put [0x52, 0, 0, 0, 0])).All (fun r => CLater s r.2) := by
          intro w t ht
          have := ht.rem
          refine (ih.body t (by omega)).bind fun u hu => ?_
          have := hu.rem
          refine (ih.swl b _ (u.put [0x52, 0, 0, 0, 0]) (show 8 * u.rem + 4 ≤ f by omega)).mono fun a ha => ?_
          exact (later_put ((later_adv (Later.refl _)).trans (ht.trans hu))).trans ha
        split
        · cases hl : caseLabel s.adv with
          | none => trivial
          | some r =>
            obtain ⟨v, t⟩ := r
            have ht := caseLabel_later _ _ _ hl
            exact rest { w with cases := w.cases ++ [(v, _)] } _ (later_fold _ _ (later_eat ht))
        · split
          · exact rest { w with dflt := some _ } _ (later_eat (Later.refl _))
          · have hl : CLater s.err s.err.adv := later_adv (Later.refl _)
            have he : s.err.adv.bad = true := by
              have := hl.errs
              have e : s.err.errs = s.errs + 1 := rfl
              exact decide_eq_true (by have e' : s.err.adv.errs = s.err.toPSt.advance.errs := rfl; omega)
            rw [swl_bad he (by omega)]
            exact (later_err (Later.refl _)).trans hl
    · intro s h
      unfold parseSwitch
      have key : ∀ (b : Nat) (w : Sw) (t : CSt) (g : Sw × CSt → Nat), CLater s t →
          ((switchLoop P f b w t).bind fun q => .ok (switchEnd q.1 (g q) q.2)).All (CLater s) := by
        intro b w t g ht
        have := ht.rem
        exact (ih.swl b w t (by omega)).bind fun a ha => switchEnd_later _ _ (ht.trans ha)
      exact key _ _ _ (fun _ => _) (by later)
    · intro s h
      unfold caseBody
      split
      · exact ih.block s (by omega)
      · exact field_any ih s (by omega)

/-! ### Declarations -/

theorem enumLoop_fine (f : Nat) (vals : List (List Byte × Word)) (names : List (List Byte)) (next : Word) (s : CSt)
    (h : s.rem + 2 ≤ f) : (enumLoop f vals names next s).All (fun r => CLater s r.2) := by
  induction f generalizing vals names next s with
  | zero => omega
  | succ f ih =>
    unfold enumLoop
    have hadv := cadv_rem s
    split
    · exact Later.refl _
    · rename_i hc
      have hp := cpos (s := s) (fun e => hc (.inr (.inl e)))
      split
      · exact (ih vals names next s.adv (by omega)).mono fun a ha => (later_adv (Later.refl _)).trans ha
      · dsimp only
        split
        · trivial
        · rename_i v t hr
          have hm : CMoved s (s.eat .identifier) := eat_moved _ (by decide)
          have ht : CLater (s.eat .identifier) t := by
            split at hr
            · obtain ⟨w, _, e⟩ := Option.map_eq_some_iff.mp hr
              cases e; later
            · cases hr; later
          split
          · trivial
          · have hl : CLater (s.eat .identifier) (if ((vals.filter (fun c => c.2 = v)).foldl (fun s _ => s.err) t).cur.type = .comma then
                ((vals.filter (fun c => c.2 = v)).foldl (fun s _ => s.err) t).adv
                else ((vals.filter (fun c => c.2 = v)).foldl (fun s _ => s.err) t)) := by later
            have h0 : CLater s (s.eat .identifier) := by later
            rcases bad_of_moved (hm.trans_later hl) (h0.trans hl) with h1 | ⟨h1, _⟩
            · exact (ih _ _ _ _ (by omega)).mono fun a ha => h0.trans (hl.trans ha)
            · obtain ⟨g, rfl⟩ : ∃ g, f = g + 1 := ⟨f - 1, by omega⟩
              unfold enumLoop
              rw [if_pos (.inr (.inr h1))]
              exact h0.trans hl

theorem parseEnum_fine (f : Nat) (s : CSt) (h : s.rem + 2 ≤ f) : (parseEnum f s).All (CLater s) := by
  unfold parseEnum
  have key : ∀ (name : List Byte) (r : Byte × CSt), CLater s r.2 → ((enumLoop f [] [] 0 (r.2.eat .lbrace)).bind fun q =>
      .ok { q.2.eat .rbrace with enums := (q.2.eat .rbrace).enums ++ [⟨name, r.1, q.1⟩] }).All (CLater s) := by
    intro name r hr
    have hl : CLater s (r.2.eat .lbrace) := by later
    have := hl.rem
    refine (enumLoop_fine f [] [] 0 _ (by omega)).bind fun a ha => ?_
    show CLater s (a.2.eat .rbrace)
    exact later_eat (hl.trans ha)
  apply key
  split
  · dsimp only; split <;> later
  · later

theorem parseStruct_fine (P : PEnv) (f : Nat) (s : CSt) (h : 8 * s.rem + 5 ≤ f) : (parseStruct P f s).All (CLater s) := by
  unfold parseStruct
  dsimp only
  have key : ∀ (t : CSt) (g : CSt → CSt), CLater s t → (∀ u, CLater s u → CLater s (g u)) →
      ((parseBlock P f t).bind fun u => .ok (g u)).All (CLater s) := by
    intro t g ht hg
    have := ht.rem
    exact ((stmt_fine P f).block t (by omega)).bind fun a ha => hg a (ht.trans ha)
  refine key _ (fun u => _) ?_ ?_
  · have h0 : CLater s (((s.eat .identifier).errIf ((s.eat .identifier).findStruct s.cur.text).isSome).errIf
        (((s.eat .identifier).errIf ((s.eat .identifier).findStruct s.cur.text).isSome).findEnum s.cur.text).isSome) := by later
    split
    · exact ⟨h0.1, h0.2⟩
    · exact ⟨h0.1, h0.2⟩
  · intro u hu
    split
    · have h1 : CLater s ((u.errIf (u.bitValid ∧ u.bitCount.toNat % 8 ≠ 0)).put [0x26]) := by later
      exact ⟨h1.1, h1.2⟩
    · exact ⟨hu.1, hu.2⟩

theorem parsePacket_fine (P : PEnv) (f : Nat) (s : CSt) (h : 8 * s.rem + 5 ≤ f) : (parsePacket P f s).All (CLater s) := by
  unfold parsePacket
  dsimp only
  have key : ∀ (q : CSt) (loc : Nat) (name : List Byte), CLater s q →
      ((if q.cur.type = .equals then
        match ((q.adv.eat .identifier).eat .semicolon).findStruct q.adv.cur.text with
        | none => CRes.ok ((q.adv.eat .identifier).eat .semicolon).err
        | some code => .ok (((q.adv.eat .identifier).eat .semicolon).put code)
      else (parseBlock P f { q with fields := [] }).bind fun s => .ok { s with fields := [] }).bind fun s =>
        .ok ((s.intern name).1.patch (loc + 1) (u16le (s.intern name).2))).All (CLater s) := by
    intro q loc name hq
    refine CRes.All.bind (p := CLater s) ?_ fun a ha => later_patch (later_intern ha)
    split
    · split
      · show CLater s _; later
      · show CLater s _; later
    · have := hq.rem
      refine ((stmt_fine P f).block { q with fields := [] } (show 8 * q.rem + 5 ≤ f by omega)).bind fun a ha => ?_
      exact Later.trans hq ha
  exact key _ _ _ (by later)

theorem topDec_fine (f : Nat) (s : CSt) (h : s.rem + 1 ≤ f) : (topDec f s).All (CLater s) := by
  unfold topDec
  have hl : CLater s ((s.eat .identifier).eat .lparen) := by later
  have := hl.rem
  have pend : CLater s { s.eat .identifier with pending := true } :=
    show CLater s (s.eat .identifier) from later_eat (Later.refl _)
  repeat' (apply All_ite)
  all_goals first
    | trivial
    | exact pend
    | exact (skipToParen_fine f _ (by omega)).bind fun a ha => later_eat (hl.trans ha)
    | (show CLater s _; later; done)

theorem topDecs_fine (f : Nat) (s : CSt) (h : s.rem + 2 ≤ f) : (topDecs f s).All (CLater s) := by
  induction f generalizing s with
  | zero => omega
  | succ f ih =>
    unfold topDecs
    split
    · rename_i hc
      have hp := cpos (s := s) (by rw [hc]; decide)
      have := cadv_rem s
      refine (topDec_fine f s.adv (by omega)).bind fun a ha => ?_
      have := ha.rem
      exact (ih a (by omega)).mono fun b hb => (later_adv (Later.refl _)).trans (ha.trans hb)
    · exact Later.refl _

theorem topLoop_stop {P : PEnv} {f : Nat} {s : CSt} (h : s.cur.type = .eof ∨ s.bad = true) (hf : 1 ≤ f) :
    topLoop P f s = .ok s := by
  obtain ⟨g, rfl⟩ : ∃ g, f = g + 1 := ⟨f - 1, by omega⟩
  unfold topLoop
  rw [if_pos h]

theorem topLoop_fine (P : PEnv) (f : Nat) (s : CSt) (h : 8 * s.rem + 2 ≤ f) : (topLoop P f s).All (CLater s) := by
  induction f generalizing s with
  | zero => omega
  | succ f ih =>
    unfold topLoop
    have hadv := cadv_rem s
    split
    · exact Later.refl _
    · rename_i hc
      have hp := cpos (s := s) (fun e => hc (.inl e))
      split
      · exact (ih s.adv (by omega)).mono fun a ha => (later_adv (Later.refl _)).trans ha
      · refine (topDecs_fine f s (by omega)).bind fun t ht => ?_
        have := ht.rem
        have hadv' := cadv_rem t
        have next' : ∀ u, CLater t u → u.rem ≤ t.adv.rem → t.cur.type ≠ .eof → (topLoop P f u).All (CLater s) := by
          intro u hu _ hne
          have := cpos hne
          exact (ih u (by omega)).mono fun a ha => ht.trans (hu.trans ha)
        have next : ∀ u, CLater t.adv u → t.cur.type ≠ .eof → (topLoop P f u).All (CLater s) :=
          fun u hu => next' u ((later_adv (Later.refl _)).trans hu) hu.rem
        have stop : ∀ u, CLater s u → u.cur.type = .eof ∨ u.bad = true → (topLoop P f u).All (CLater s) := by
          intro u hu h1
          rw [topLoop_stop h1 (by omega)]
          exact hu
        split
        · rename_i hk
          have hne : t.cur.type ≠ .eof := by rw [hk]; decide
          have := cpos hne
          exact (parseStruct_fine P f t.adv (by omega)).bind fun u hu => next u hu hne
        · rename_i hk
          have hne : t.cur.type ≠ .eof := by rw [hk]; decide
          have := cpos hne
          exact (parseEnum_fine f t.adv (by omega)).bind fun u hu => next u hu hne
        · rename_i hk
          have hne : t.cur.type ≠ .eof := by rw [hk]; decide
          have := cpos hne
          dsimp only
          have hl : CLater t (t.errIf (t.packets > 0)).adv := by later
          have := errIf_adv_rem t (t.packets > 0)
          refine (parsePacket_fine P f { (t.errIf (t.packets > 0)).adv with packets := (t.errIf (t.packets > 0)).packets + 1 }
            (show 8 * (t.errIf (t.packets > 0)).adv.rem + 5 ≤ f by omega)).bind fun u hu => next' u (hl.trans hu) (Nat.le_trans hu.rem (Nat.le_of_eq this)) hne
        · rename_i hk
          exact next t.adv (Later.refl _) (by rw [hk]; decide)
        · rename_i hk
          exact stop t ht (.inl hk)
        · refine stop t.err (later_err ht) (.inr ?_)
          show decide (t.errs + 1 ≠ 0) = true
          simp

/-! ### The compiler -/

theorem lexAll_length (f : Nat) (cur : List Byte) (line : Nat) (toks : List Tok) (h : lexAll f cur line = some toks) :
    toks.length ≤ f := by
  induction f generalizing cur line toks with
  | zero => exact absurd h (by simp [lexAll])
  | succ f ih =>
    unfold lexAll at h
    split at h
    · split at h
      · cases h; simp
      · obtain ⟨ts, h1, rfl⟩ := Option.map_eq_some_iff.mp h
        have := ih _ _ _ h1
        simp only [List.length_cons]; omega
    · exact absurd h (by simp)

theorem lexAll_mono (f : Nat) (cur : List Byte) (line : Nat) (toks : List Tok) (h : lexAll f cur line = some toks) (k : Nat) :
    lexAll (f + k) cur line = some toks := by
  induction f generalizing cur line toks with
  | zero => exact absurd h (by simp [lexAll])
  | succ f ih =>
    rw [show f + 1 + k = (f + k) + 1 by omega]
    unfold lexAll at h ⊢
    split at h
    · split at h
      · rename_i he; rw [if_pos he]; exact h
      · rename_i he
        obtain ⟨ts, h1, e⟩ := Option.map_eq_some_iff.mp h
        rw [if_neg he, ih _ _ _ h1]
        exact congrArg some e
    · exact absurd h (by simp)

/-- The part of a text in front of its first NUL. -/
def upToNul : List Byte → List Byte
  | [] => []
  | c :: s => if c = 0 then [] else c :: upToNul s

theorem upToNul_split (s : List Byte) : NoNul (upToNul s) ∧ ∃ post, s ++ [0] = upToNul s ++ 0 :: post := by
  induction s with
  | nil => exact ⟨fun _ h => (List.not_mem_nil h).elim, [], rfl⟩
  | cons c s ih =>
    unfold upToNul
    split
    · rename_i h; exact ⟨fun _ h => (List.not_mem_nil h).elim, s ++ [0], by rw [h]; rfl⟩
    · rename_i h
      obtain ⟨h1, post, e⟩ := ih
      refine ⟨?_, post, by rw [List.cons_append, List.cons_append, e]⟩
      intro b hb
      rcases List.mem_cons.mp hb with rfl | hb
      · exact h
      · exact h1 b hb

theorem upToNul_le (s : List Byte) : (upToNul s).length ≤ s.length := by
  induction s with
  | nil => exact Nat.le_refl _
  | cons c s ih =>
    unfold upToNul
    split
    · simp
    · simp only [List.length_cons]; omega

/-- Every text is lexed: the tokens of its part in front of the first NUL. -/
theorem lexAll_total (src : List Byte) : ∃ toks, Lexes (upToNul src) 1 toks ∧
    lexAll (src.length + 1) (src ++ [0]) 1 = some toks := by
  obtain ⟨h1, post, e⟩ := upToNul_split src
  obtain ⟨toks, h2, h3⟩ := C49_lexer (upToNul src) h1 1
  refine ⟨toks, h2, ?_⟩
  rw [e]
  have := lexAll_mono _ _ _ _ (h3 post) (src.length - (upToNul src).length)
  rwa [show (upToNul src).length + 1 + (src.length - (upToNul src).length) = src.length + 1 by
    have := upToNul_le src; omega] at this

theorem compileToks_total (P : PEnv) (toks : List Tok) (f : Nat) (h : 16 * toks.length + 2 ≤ f) :
    compileToks P f toks ≠ .stuck := by
  have h1 : (parseStart toks).adv.rem ≤ 2 * toks.length := by
    have := cadv_rem (parseStart toks)
    have e : (parseStart toks).rem = 2 * toks.length := rfl
    omega
  have := (topLoop_fine P f (parseStart toks).adv (by omega)).bind
    (f := fun s => .ok (s.errIf (s.packets = 0))) (q := fun _ => True) fun a _ => trivial
  unfold compileToks parseTop
  split
  · split <;> simp
  · simp
  · simp
  · rename_i e
    rw [e] at this
    exact this.elim

/-! ### The recursion bound does not matter -/

/-- More fuel: either there was too little before, or the outcome is the same. -/
def PRes.le (a b : PRes) : Prop := a = .stuck ∨ a = b

def PRes.then (a : PRes) (F : ETy → PSt → PRes) : PRes :=
  match a with
  | .ok t s => F t s
  | r => r

theorem PRes.le_then {a b : PRes} (h : a.le b) {F G : ETy → PSt → PRes} (g : ∀ t s, (F t s).le (G t s)) :
    (a.then F).le (b.then G) := by
  rcases h with rfl | rfl
  · exact .inl rfl
  · cases a with
    | ok t s => exact g t s
    | ub => exact .inr rfl
    | stuck => exact .inl rfl

theorem dotLoop_more (f : Nat) (name : List Byte) (s : PSt) : dotLoop f name s = none ∨ dotLoop f name s = dotLoop (f + 1) name s := by
  induction f generalizing name s with
  | zero => exact .inl rfl
  | succ f ih =>
    unfold dotLoop
    split
    · dsimp only
      split
      · exact .inr rfl
      · exact ih _ _
    · exact .inr rfl

theorem expr_more (dbl : List Byte → Word) (f : Nat) :
    (∀ prec s, (parsePrec dbl f prec s).le (parsePrec dbl (f + 1) prec s)) ∧
    (∀ prec l s, (infixLoop dbl f prec l s).le (infixLoop dbl (f + 1) prec l s)) ∧
    (∀ pre s, (parsePrefix dbl f pre s).le (parsePrefix dbl (f + 1) pre s)) := by
  induction f with
  | zero => exact ⟨fun _ _ => .inl rfl, fun _ _ _ => .inl rfl, fun _ _ => .inl rfl⟩
  | succ f ih =>
    obtain ⟨ih1, ih2, ih3⟩ := ih
    refine ⟨?_, ?_, ?_⟩
    · intro prec s
      unfold parsePrec
      dsimp only
      split
      · exact .inr rfl
      · exact .inr rfl
      · exact PRes.le_then (ih3 _ _) fun t s => ih2 _ _ _
    · intro prec l s
      unfold infixLoop
      split
      · exact .inr rfl
      · split
        · exact PRes.le_then (ih1 _ _) fun t s => ih2 _ _ _
        · exact .inr rfl
    · intro pre s
      cases pre with
      | none => exact .inr rfl
      | grouping => unfold parsePrefix; exact PRes.le_then (ih1 _ _) fun t s => .inr rfl
      | unary => unfold parsePrefix; exact PRes.le_then (ih1 _ _) fun t s => .inr rfl
      | primary =>
        unfold parsePrefix
        dsimp only
        split
        · exact .inr rfl
        · exact .inr rfl
        · exact .inr rfl
        · exact .inr rfl
        · split
          · exact PRes.le_then (ih1 _ _) fun t s => .inr rfl
          · split
            · exact PRes.le_then (ih1 _ _) fun t s => PRes.le_then (ih1 _ _) fun t s => .inr rfl
            · split
              · exact PRes.le_then (ih1 _ _) fun t s => .inr rfl
              · split
                · exact PRes.le_then (ih1 _ _) fun t s => .inr rfl
                · split
                  · split
                    · exact .inr rfl
                    · rcases dotLoop_more f s.prev.text s with e | e
                      · rw [e]; exact .inl rfl
                      · rw [e]; exact .inr rfl
                  · exact .inr rfl
        · exact .inr rfl

def CRes.le {α : Type} (a b : CRes α) : Prop := a = .stuck ∨ a = b

theorem CRes.le.refl {α : Type} (a : CRes α) : a.le a := .inr rfl

theorem CRes.le.bind {α β : Type} {a b : CRes α} {F G : α → CRes β} (h : a.le b) (g : ∀ x, (F x).le (G x)) :
    (a.bind F).le (b.bind G) := by
  rcases h with rfl | rfl
  · exact .inl rfl
  · cases a with
    | ok x => exact g x
    | ub => exact .inr rfl
    | imports => exact .inr rfl
    | stuck => exact .inl rfl

theorem CRes.le.trans {α : Type} {a b c : CRes α} (h : a.le b) (g : b.le c) : a.le c := by
  rcases h with rfl | rfl
  · exact .inl rfl
  · exact g

theorem le_ite {α : Type} {c : Prop} [Decidable c] {a b a' b' : CRes α} (h : a.le a') (g : b.le b') :
    (if c then a else b).le (if c then a' else b') := by
  split <;> assumption

theorem cexpr_more (P : PEnv) (f : Nat) (s : CSt) : (s.expr P f).le (s.expr P (f + 1)) := by
  unfold CSt.expr parseExpr
  rcases (expr_more P.dbl f).1 1 s.toPSt with e | e
  · rw [e]; exact .inl rfl
  · rw [e]; exact .inr rfl

theorem polyLoop_more (P : PEnv) (f : Nat) (cs : List Word) (s : CSt) : (polyLoop P f cs s).le (polyLoop P (f + 1) cs s) := by
  induction f generalizing cs s with
  | zero => exact .inl rfl
  | succ f ih => unfold polyLoop; exact le_ite (ih _ _) (.refl _)

theorem splineLoop_more (P : PEnv) (f : Nat) (cs : List Word) (s : CSt) : (splineLoop P f cs s).le (splineLoop P (f + 1) cs s) := by
  induction f generalizing cs s with
  | zero => exact .inl rfl
  | succ f ih => unfold splineLoop; exact le_ite (ih _ _) (.refl _)

theorem skipToParen_more (f : Nat) (s : CSt) : (skipToParen f s).le (skipToParen (f + 1) s) := by
  induction f generalizing s with
  | zero => exact .inl rfl
  | succ f ih => unfold skipToParen; exact le_ite (.refl _) (ih _)

theorem skipDocs_more (f : Nat) (s : CSt) : (skipDocs f s).le (skipDocs (f + 1) s) := by
  induction f generalizing s with
  | zero => exact .inl rfl
  | succ f ih => unfold skipDocs; exact le_ite (ih _) (.refl _)

theorem decArgs_more (P : PEnv) (f : Nat) (t : Tok) (d : Dec) (s : CSt) : (decArgs P f t d s).le (decArgs P (f + 1) t d s) := by
  unfold decArgs
  repeat' (first | exact CRes.le.refl _ | apply le_ite)
  · exact (polyLoop_more P f _ _).bind fun _ => .refl _
  · exact (splineLoop_more P f _ _).bind fun _ => .refl _
  · exact (cexpr_more P f _).bind fun _ => .refl _
  · exact (skipToParen_more f _).bind fun _ => .refl _

theorem decOne_more (P : PEnv) (f : Nat) (d : Dec) (s : CSt) : (decOne P f d s).le (decOne P (f + 1) d s) := by
  unfold decOne
  repeat' (first | exact CRes.le.refl _ | apply le_ite)
  exact (decArgs_more P f _ _ _).bind fun _ => .refl _

theorem decLoopS_more (P : PEnv) (f : Nat) (d : Dec) (s : CSt) : (decLoopS P f d s).le (decLoopS P (f + 1) d s) := by
  induction f generalizing d s with
  | zero => exact .inl rfl
  | succ f ih => unfold decLoopS; exact le_ite ((decOne_more P f _ _).bind fun _ => ih _ _) (.refl _)

structure StmtMore (P : PEnv) (f : Nat) : Prop where
  field : ∀ s, (parseField P f s).le (parseField P (f + 1) s)
  loop : ∀ s, (blockLoop P f s).le (blockLoop P (f + 1) s)
  block : ∀ s, (parseBlock P f s).le (parseBlock P (f + 1) s)
  iff : ∀ s, (parseIf P f s).le (parseIf P (f + 1) s)
  swl : ∀ b w s, (switchLoop P f b w s).le (switchLoop P (f + 1) b w s)
  sw : ∀ s, (parseSwitch P f s).le (parseSwitch P (f + 1) s)
  body : ∀ s, (caseBody P f s).le (caseBody P (f + 1) s)

theorem stmt_more (P : PEnv) (f : Nat) : StmtMore P f := by
  induction f with
  | zero =>
    exact ⟨fun _ => .inl rfl, fun _ => .inl rfl, fun _ => .inl rfl, fun _ => .inl rfl, fun _ _ _ => .inl rfl,
      fun _ => .inl rfl, fun _ => .inl rfl⟩
  | succ f ih =>
    refine ⟨?_, ?_, ?_, ?_, ?_, ?_, ?_⟩
    · intro s
      unfold parseField
      refine le_ite (.refl _) ((skipDocs_more f s).bind fun t => le_ite (ih.sw _) (le_ite (ih.iff _) ?_))
      exact (decLoopS_more P f _ _).bind fun _ => .refl _
    · intro s
      unfold blockLoop
      exact le_ite (.refl _) (le_ite (ih.loop _) ((ih.field _).bind fun t => ih.loop t))
    · intro s
      unfold parseBlock
      exact (ih.loop _).bind fun _ => .refl _
    · intro s
      unfold parseIf
      refine (cexpr_more P f _).bind fun t => (ih.block _).bind fun u => CRes.le.bind ?_ fun _ => .refl _
      exact le_ite (le_ite (ih.iff _) (ih.block _)) (.refl _)
    · intro b w s
      unfold switchLoop
      refine le_ite (.refl _) (le_ite ?_ (le_ite ?_ (ih.swl _ _ _)))
      · split
        · exact .refl _
        · exact (ih.body _).bind fun _ => ih.swl _ _ _
      · exact (ih.body _).bind fun _ => ih.swl _ _ _
    · intro s
      unfold parseSwitch
      exact (ih.swl _ _ _).bind fun _ => .refl _
    · intro s
      unfold caseBody
      exact le_ite (ih.block _) (ih.field _)

theorem enumLoop_more (f : Nat) (vals : List (List Byte × Word)) (names : List (List Byte)) (next : Word) (s : CSt) :
    (enumLoop f vals names next s).le (enumLoop (f + 1) vals names next s) := by
  induction f generalizing vals names next s with
  | zero => exact .inl rfl
  | succ f ih =>
    unfold enumLoop
    refine le_ite (.refl _) (le_ite (ih _ _ _ _) ?_)
    dsimp only
    split
    · exact .refl _
    · exact le_ite (.refl _) (ih _ _ _ _)

theorem parseEnum_more (f : Nat) (s : CSt) : (parseEnum f s).le (parseEnum (f + 1) s) := by
  unfold parseEnum
  exact (enumLoop_more f _ _ _ _).bind fun _ => .refl _

theorem parseStruct_more (P : PEnv) (f : Nat) (s : CSt) : (parseStruct P f s).le (parseStruct P (f + 1) s) := by
  unfold parseStruct
  exact ((stmt_more P f).block _).bind fun _ => .refl _

theorem parsePacket_more (P : PEnv) (f : Nat) (s : CSt) : (parsePacket P f s).le (parsePacket P (f + 1) s) := by
  unfold parsePacket
  refine CRes.le.bind (le_ite (.refl _) ?_) fun _ => .refl _
  exact ((stmt_more P f).block _).bind fun _ => .refl _

theorem topDecs_more (f : Nat) (s : CSt) : (topDecs f s).le (topDecs (f + 1) s) := by
  induction f generalizing s with
  | zero => exact .inl rfl
  | succ f ih =>
    unfold topDecs
    refine le_ite (CRes.le.bind ?_ fun _ => ih _) (.refl _)
    unfold topDec
    repeat' (first | exact CRes.le.refl _ | apply le_ite)
    exact (skipToParen_more f _).bind fun _ => .refl _

theorem topLoop_more (P : PEnv) (f : Nat) (s : CSt) : (topLoop P f s).le (topLoop P (f + 1) s) := by
  induction f generalizing s with
  | zero => exact .inl rfl
  | succ f ih =>
    unfold topLoop
    refine le_ite (.refl _) (le_ite (ih _) ((topDecs_more f s).bind fun t => CRes.le.bind ?_ fun _ => ih _))
    split
    · exact parseStruct_more _ _ _
    · exact parseEnum_more _ _
    · exact parsePacket_more _ _ _
    · exact .refl _
    · exact .refl _
    · exact .refl _

theorem topLoop_more_add (P : PEnv) (f k : Nat) (s : CSt) : (topLoop P f s).le (topLoop P (f + k) s) := by
  induction k with
  | zero => exact .refl _
  | succ k ih => exact ih.trans (topLoop_more P (f + k) s)

/-- An outcome the compiler reaches with some recursion bound it reaches with every larger one. -/
theorem compileToks_more (P : PEnv) (f k : Nat) (toks : List Tok) (h : compileToks P f toks ≠ .stuck) :
    compileToks P (f + k) toks = compileToks P f toks := by
  unfold compileToks parseTop at h ⊢
  rcases topLoop_more_add P f k (parseStart toks).adv with e | e
  · rw [e] at h
    exact absurd rfl h
  · rw [e]

/-- C58: on every source text, of whatever bytes, the compiler ends, after a number of nested calls linear in the text's
length. -/
theorem C58_ends (P : PEnv) (src : List Byte) (f : Nat) (h : 16 * src.length + 18 ≤ f) : compile P f src ≠ .stuck := by
  obtain ⟨toks, _, e⟩ := lexAll_total src
  unfold compile
  rw [e]
  have := lexAll_length _ _ _ _ e
  exact compileToks_total P _ f (by rw [List.length_map]; omega)

/-- C58: the outcome is one and the same, whatever bound is taken. -/
theorem C58_one (P : PEnv) (src : List Byte) (f g : Nat) (hf : compile P f src ≠ .stuck) (hg : compile P g src ≠ .stuck) :
    compile P f src = compile P g src := by
  obtain ⟨toks, _, e⟩ := lexAll_total src
  unfold compile at hf hg ⊢
  rw [e] at hf hg ⊢
  dsimp only at hf hg ⊢
  rcases Nat.le_total f g with h | h
  · obtain ⟨k, rfl⟩ : ∃ k, g = f + k := ⟨g - f, by omega⟩
    exact (compileToks_more P f k _ hf).symm
  · obtain ⟨k, rfl⟩ : ∃ k, f = g + k := ⟨f - g, by omega⟩
    exact compileToks_more P g k _ hg

def demoP : PEnv := ⟨fun _ => 0, Demo.fl⟩

/-- `packet P { @range(0, 9) u8 x; if (x > 1) { u16 y; } }` -/
def ex58 : List Byte :=
  [0x70, 0x61, 0x63, 0x6B, 0x65, 0x74, 0x20, 0x50, 0x20, 0x7B, 0x20, 0x40, 0x72, 0x61, 0x6E, 0x67, 0x65, 0x28, 0x30, 0x2C, 0x20, 0x39, 0x29, 0x20, 0x75, 0x38, 0x20, 0x78, 0x3B, 0x20, 0x69, 0x66, 0x20, 0x28, 0x78, 0x20, 0x3E, 0x20, 0x31, 0x29, 0x20, 0x7B, 0x20, 0x75, 0x31, 0x36, 0x20, 0x79, 0x3B, 0x20, 0x7D, 0x20, 0x7D]

/-- With the bound of the theorem the example is translated, and a smaller one is not enough. -/
example : compile demoP (16 * ex58.length + 18) ex58 = .image
      [0x43, 0x4E, 0x44, 0x49, 0x4C, 0x1, 0x3, 0x0, 0x10, 0x0, 0x0, 0x0, 0x16, 0x0, 0x0, 0x0, 0x78, 0x0, 0x79, 0x0, 0x50, 0x0,
       0x7, 0x2, 0x0, 0x10, 0x0, 0x0, 0x42, 0x10, 0x0, 0x9, 0x60, 0x0, 0x0, 0x61, 0x1, 0x0, 0x0, 0x0, 0x0, 0x0, 0x0, 0x0,
       0x6B, 0x50, 0x8, 0x0, 0x0, 0x0, 0x11, 0x1, 0x0, 0x52, 0x0, 0x0, 0x0, 0x0] ∧
    compile demoP 9 ex58 = .stuck := by decide +kernel

/-- A text that is no program at all, `packet { @ ((`: it is refused. -/
example : compile demoP 300 [0x70, 0x61, 0x63, 0x6B, 0x65, 0x74, 0x20, 0x7B, 0x7B, 0x20, 0x40, 0x20, 0x28, 0x28] = .refused := by decide +kernel

end Cnd
