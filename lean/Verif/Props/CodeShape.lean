import Verif.CodeShape
import Verif.Props.Inline
import Verif.Props.ParseTerm
import Verif.Props.SourceSwitch
/-
  C80: the shape of the code of every accepted source text.
-/
set_option linter.unusedVariables false
set_option linter.unusedSimpArgs false

namespace Cnd

/-! ### Instructions -/

theorem vmLen_cons (op : Byte) (r : List Byte) (h : opArgs (decodeOp op) r = some r.length) : vmLen (op :: r) = some (op :: r).length := by
  unfold vmLen
  dsimp only
  rw [h]
  exact if_pos (Nat.le_refl _)

theorem plain_of_args {op : Byte} {r : List Byte} (h : opArgs (decodeOp op) r = some r.length)
    (hp : (decodeOp op).plain = true ∨ op = 0x63) : Plain (op :: r) := ⟨vmLen_cons op r h, op, r, rfl, hp⟩

/-- An opcode without operands. -/
def oneB (b : Byte) : Bool := (opArgs (decodeOp b) [] == some 0) && ((decodeOp b).plain || b == 0x63)

theorem opArgs_zero {o : Op} (h : opArgs o [] = some 0) (r : List Byte) : opArgs o r = some 0 := by
  cases o <;> first | rfl | (exact absurd h (by decide)) | (rename_i t; cases t <;> first | rfl | exact absurd h (by decide))

theorem opArgs_one {b : Byte} (h : oneB b = true) (r : List Byte) : opArgs (decodeOp b) r = some 0 := by
  simp only [oneB, Bool.and_eq_true, beq_iff_eq] at h
  exact opArgs_zero h.1 r

theorem blk_one {q w : Bool} {b : Byte} (h : oneB b = true) : Blk q w [b] := by
  refine .instr (plain_of_args (opArgs_one h []) ?_)
  simp only [oneB, Bool.and_eq_true, Bool.or_eq_true, beq_iff_eq] at h
  exact h.2

theorem blk_ones {q w : Bool} (l : List Byte) (h : l.all oneB = true) : Blk q w l := by
  induction l with
  | nil => exact .nil
  | cons b l ih =>
    simp only [List.all_cons, Bool.and_eq_true] at h
    exact .seq (a := [b]) (blk_one h.1) (ih h.2)

theorem blk_imm {q w : Bool} (v : Word) : Blk q w (0x61 :: leBytes 8 v) :=
  .instr (plain_of_args (by rw [leBytes_length]; rfl) (.inl rfl))

theorem Blk.mono {q w : Bool} {c : List Byte} (h : Blk q w c) : Blk q true c := by
  induction h with
  | nil => exact .nil
  | seq _ _ h1 h2 => exact .seq h1 h2
  | instr h => exact .instr h
  | dud => exact .dud
  | loop h _ h1 => exact .loop h h1
  | stray => exact .stray
  | cond _ _ h1 h2 => exact .cond h1 h2
  | switch h1 h2 h3 _ => exact .switch h1 h2 h3
  | table h1 h2 h3 h4 h5 _ => exact .table h1 h2 h3 h4 h5
  | flag h => exact .flag h
  | big h1 h2 h3 => exact .big h1 h2 h3
  | inlined h1 _ h3 h2 => exact .inlined h1 h2 h3

/-! ### Tokens -/

theorem nice_tail {b : Bool} {t : Tok} {ts : List Tok} (h : Nice b (t :: ts) = true) (h1 : t.type ≠ .kwStruct) (h2 : t.type ≠ .kwPacket) :
    Nice b ts = true := by
  unfold Nice at h
  simp only [Bool.and_eq_true] at h
  have := h.2
  rwa [if_neg h1, if_neg h2] at this

theorem nice_window {b : Bool} {t : Tok} {ts : List Tok} (h : Nice b (t :: ts) = true) : windowOk t ts = true := by
  unfold Nice at h
  simp only [Bool.and_eq_true] at h
  exact h.1.1

theorem nice_switch {t : Tok} {ts : List Tok} (h : Nice true (t :: ts) = true) : t.type ≠ .kwSwitch := by
  unfold Nice at h
  simp only [Bool.and_eq_true, Bool.true_and, Bool.not_eq_true', decide_eq_false_iff_not] at h
  exact h.1.2

theorem nice_eof (b : Bool) : Nice b [eofTok] = true := by cases b <;> decide +kernel

theorem pull_errs (ts : List Tok) (n : List Nat) (h : (pull ts n).2.2.length = 0) :
    n.length = 0 ∧ (ts = (pull ts n).1 :: (pull ts n).2.1 ∨ (ts = [] ∧ (pull ts n).1 = eofTok ∧ (pull ts n).2.1 = [])) := by
  cases ts with
  | nil => exact ⟨h, .inr ⟨rfl, rfl, rfl⟩⟩
  | cons t ts =>
    unfold pull at h ⊢
    split at h
    · obtain ⟨_, m, e, _⟩ := (pull_len ts (ts.length :: n)).2.1
      rw [e] at h
      simp at h
    · rename_i hne
      rw [if_neg hne]
      exact ⟨h, .inl rfl⟩

theorem adv_ahead {s : PSt} (h : s.advance.errs = 0) : s.errs = 0 ∧
    (s.toks = s.advance.cur :: s.advance.toks ∨ (s.toks = [] ∧ s.advance.cur = eofTok ∧ s.advance.toks = [])) :=
  pull_errs s.toks s.log h

theorem nice_ahead {s : PSt} (h : s.advance.errs = 0) {b : Bool} (hn : Nice b s.toks = true) :
    Nice b (s.advance.cur :: s.advance.toks) = true := by
  rcases (adv_ahead h).2 with e | ⟨_, e1, e2⟩
  · rw [← e]; exact hn
  · rw [e1, e2]; exact nice_eof b

/-- The number of tokens ahead, without the end. -/
def PSt.left (s : PSt) : Nat := s.toks.length + if s.cur.type = .eof then 0 else 1

theorem left_adv {s : PSt} (h : s.advance.errs = 0) : s.advance.left ≤ s.toks.length := by
  unfold PSt.left
  rcases (adv_ahead h).2 with e | ⟨e, e1, e2⟩
  · rw [e]; simp only [List.length_cons]; split <;> omega
  · rw [e1, e2, e]; simp [eofTok]

theorem left_adv' {s : PSt} (h : s.advance.errs = 0) : s.advance.left ≤ s.left := Nat.le_trans (left_adv h) (Nat.le_add_right _ _)

/-- Nothing but messages and tokens: no message is taken back, and what is ahead stays nice. -/
structure Go (s s' : PSt) : Prop where
  errs : s'.errs = 0 → s.errs = 0
  nice : s'.errs = 0 → ∀ b, Nice b (s.cur :: s.toks) = true → Nice b (s'.cur :: s'.toks) = true
  ahead : s'.errs = 0 → s'.left ≤ s.left

theorem Go.refl (s : PSt) : Go s s := ⟨id, fun _ _ h => h, fun _ => Nat.le_refl _⟩
theorem Go.trans {a b c : PSt} (h : Go a b) (g : Go b c) : Go a c :=
  ⟨fun e => h.errs (g.errs e), fun e x hx => g.nice e x (h.nice (g.errs e) x hx), fun e => Nat.le_trans (g.ahead e) (h.ahead (g.errs e))⟩
theorem Go.same {s t : PSt} (h1 : t.cur = s.cur) (h2 : t.toks = s.toks) (h3 : t.errs = s.errs) : Go s t :=
  ⟨fun e => h3 ▸ e, fun _ b h => by rw [h1, h2]; exact h, fun _ => by unfold PSt.left; rw [h1, h2]; exact Nat.le_refl _⟩

theorem go_advance {s : PSt} (h1 : s.cur.type ≠ .kwStruct) (h2 : s.cur.type ≠ .kwPacket) : Go s s.advance :=
  ⟨fun e => (adv_ahead e).1, fun e b h => nice_ahead e (nice_tail h h1 h2), fun e => Nat.le_trans (left_adv e) (Nat.le_add_right _ _)⟩
theorem go_error (s : PSt) : Go s s.error :=
  ⟨fun e => by simp [PSt.error] at e, fun e => by simp [PSt.error] at e, fun e => by simp [PSt.error] at e⟩
theorem go_consume {s : PSt} {ty : TT} (h1 : ty ≠ .kwStruct) (h2 : ty ≠ .kwPacket) : Go s (s.consume ty) := by
  unfold PSt.consume
  split
  · rename_i e; exact go_advance (e ▸ h1) (e ▸ h2)
  · exact go_error s

/-- The same, and code is written. -/
structure RP (s s' : PSt) : Prop extends Go s s' where
  code : s'.errs = 0 → ∃ c, s'.out = s.out ++ c ∧ ∀ q w, Blk q w c

theorem RP.trans {a b c : PSt} (h : RP a b) (g : RP b c) : RP a c := by
  refine ⟨h.toGo.trans g.toGo, fun e => ?_⟩
  obtain ⟨c2, e2, b2⟩ := g.code e
  obtain ⟨c1, e1, b1⟩ := h.code (g.errs e)
  exact ⟨c1 ++ c2, by rw [e2, e1, List.append_assoc], fun q w => .seq (b1 q w) (b2 q w)⟩

theorem RP.of {s t : PSt} (h : Go s t) (ho : t.out = s.out) : RP s t :=
  ⟨h, fun _ => ⟨[], by rw [ho, List.append_nil], fun _ _ => .nil⟩⟩
theorem RP.refl (s : PSt) : RP s s := .of (.refl s) rfl
theorem rp_advance {s : PSt} (h1 : s.cur.type ≠ .kwStruct) (h2 : s.cur.type ≠ .kwPacket) : RP s s.advance := .of (go_advance h1 h2) rfl
theorem rp_error (s : PSt) : RP s s.error := .of (go_error s) rfl
theorem rp_consume {s : PSt} {ty : TT} (h1 : ty ≠ .kwStruct) (h2 : ty ≠ .kwPacket) : RP s (s.consume ty) := by
  refine .of (go_consume h1 h2) ?_
  unfold PSt.consume; split <;> rfl
theorem rp_emit (s : PSt) (bs : List Byte) (h : ∀ q w, Blk q w bs) : RP s (s.emit bs) :=
  ⟨.same rfl rfl rfl, fun _ => ⟨bs, rfl, h⟩⟩
theorem rp_loadCtx (s : PSt) (name : List Byte) : RP s (s.loadCtx name) :=
  ⟨.same rfl rfl rfl, fun _ => ⟨_, rfl, fun q w => .instr (plain_of_args (by rw [leBytes_length]; rfl) (.inl rfl))⟩⟩

/-! ### Expressions -/

theorem binEmit_ones (op : TT) (l r : ETy) : (binEmit op l r).1.all oneB = true := by
  unfold binEmit
  have h1 : (convOf l r).all oneB = true := by cases l <;> cases r <;> decide +kernel
  have h2 : ∀ f, (binOp op f).1.all oneB = true := by intro f; cases op <;> cases f <;> decide +kernel
  dsimp only
  rw [List.all_append, h1, h2]
  rfl

theorem unEmit_ones (op : TT) (t : ETy) : (unEmit op t).1.all oneB = true := by
  cases op <;> cases t <;> decide +kernel

theorem fun1_ones (text : List Byte) (op : Byte) (h : fun1.lookup text = some op) : oneB op = true := by
  unfold fun1 at h
  simp only [List.lookup] at h
  repeat' split at h
  all_goals first | (cases h; decide +kernel) | cases h

theorem dotLoop_rp (f : Nat) (name : List Byte) (s : PSt) (r : Option (List Byte)) (s' : PSt) (h : dotLoop f name s = some (r, s')) : RP s s' := by
  induction f generalizing name s with
  | zero => cases h
  | succ f ih =>
    unfold dotLoop at h
    split at h
    · rename_i hd
      have g1 : RP s s.advance := rp_advance (by rw [hd]; decide) (by rw [hd]; decide)
      have g2 : RP s.advance (s.advance.consume .identifier) := rp_consume (by decide) (by decide)
      dsimp only at h
      split at h
      · cases h
        exact g1.trans (g2.trans (rp_error _))
      · exact g1.trans (g2.trans (ih _ _ h))
    · cases h
      exact .refl _

def PRes.Ok (p : PSt → Prop) : PRes → Prop
  | .ok _ s => p s
  | _ => True

theorem PRes.Ok.then {p q : PSt → Prop} {r : PRes} {K : ETy → PSt → PRes} (h : r.Ok p) (g : ∀ t s, p s → (K t s).Ok q) :
    (match r with | .ok t s => K t s | r => r).Ok q := by
  cases r with
  | ok t s => exact g t s h
  | ub => trivial
  | stuck => trivial

/-- Tokens after which the expression parser skips one more. -/
def skipsNext (p : Prefix) : Bool := p = .grouping ∨ p = .unary

theorem rule_prefix (ty : TT) (p : Prefix) (n : Nat) (h : ruleOf ty = some (p, n)) (hp : p ≠ .none) : ty ≠ .kwStruct ∧ ty ≠ .kwPacket ∧
    (skipsNext p = true → ty = .lparen ∨ ty = .minus ∨ ty = .bang ∨ ty = .tilde) := by
  cases ty <;> cases h <;> first | exact absurd rfl hp | decide

theorem rule_infix (ty : TT) (p : Prefix) (n : Nat) (h : ruleOf ty = some (p, n)) (hn : 1 ≤ n) : ty ≠ .kwStruct ∧ ty ≠ .kwPacket := by
  cases ty <;> cases h <;> first | omega | decide

theorem window_skip {t n : Tok} {ts : List Tok} (h : windowOk t (n :: ts) = true)
    (ht : t.type = .lparen ∨ t.type = .minus ∨ t.type = .bang ∨ t.type = .tilde) : n.type ≠ .kwStruct ∧ n.type ≠ .kwPacket := by
  unfold windowOk at h
  simp only [Bool.and_eq_true, Bool.or_eq_true, Bool.not_eq_true', Bool.or_eq_false_iff, decide_eq_false_iff_not, decide_eq_true_eq] at h
  rcases h.2 with hx | hx
  · obtain ⟨⟨⟨a, b⟩, c⟩, d⟩ := hx
    rcases ht with e | e | e | e <;> contradiction
  · exact hx

/-- Like `RP`, for a state whose previous token may make the parser skip the current one. -/
structure RQ (pre : Prefix) (s s' : PSt) : Prop where
  errs : s'.errs = 0 → s.errs = 0
  nice : s'.errs = 0 → (skipsNext pre = true → s.cur.type ≠ .kwStruct ∧ s.cur.type ≠ .kwPacket) →
    ∀ b, Nice b (s.cur :: s.toks) = true → Nice b (s'.cur :: s'.toks) = true
  ahead : s'.errs = 0 → s'.left ≤ s.left
  code : s'.errs = 0 → ∃ c, s'.out = s.out ++ c ∧ ∀ q w, Blk q w c

theorem RP.toRQ {pre : Prefix} {s s' : PSt} (h : RP s s') : RQ pre s s' := ⟨h.errs, fun e _ => h.nice e, h.ahead, h.code⟩

theorem rq_skip {pre : Prefix} {s s' : PSt} (hp : skipsNext pre = true) (h : RP s.advance s') : RQ pre s s' := by
  refine ⟨fun e => (adv_ahead (h.errs e)).1, fun e hs b hn => ?_, fun e => Nat.le_trans (h.ahead e) (left_adv' (h.errs e)), fun e => h.code e⟩
  obtain ⟨h1, h2⟩ := hs hp
  exact h.nice e b ((go_advance h1 h2).nice (h.errs e) b hn)

theorem expr_rp (dbl : List Byte → Word) (f : Nat) :
    (∀ prec s, 1 ≤ prec → (parsePrec dbl f prec s).Ok (RP s)) ∧
    (∀ prec l s, 1 ≤ prec → (infixLoop dbl f prec l s).Ok (RP s)) ∧
    (∀ pre s, (parsePrefix dbl f pre s).Ok (RQ pre s)) := by
  induction f with
  | zero => exact ⟨fun _ _ _ => trivial, fun _ _ _ _ => trivial, fun _ _ => trivial⟩
  | succ f ih =>
    obtain ⟨ih1, ih2, ih3⟩ := ih
    refine ⟨?_, ?_, ?_⟩
    · intro prec s hp
      unfold parsePrec
      dsimp only
      split
      · trivial
      · exact ⟨⟨fun e => by simp [PSt.error] at e, fun e => by simp [PSt.error] at e, fun e => by simp [PSt.error] at e⟩, fun e => by simp [PSt.error] at e⟩
      · rename_i pre n hne hr
        obtain ⟨k1, k2, k3⟩ := rule_prefix _ _ _ hr (fun e => hne e)
        refine (ih3 pre s.advance).then fun t s1 h1 => ?_
        have h2 := ih2 prec t s1 hp
        have : RP s s1 := by
          refine ⟨⟨fun e => (adv_ahead (h1.errs e)).1, fun e b hn => ?_, fun e => Nat.le_trans (h1.ahead e) (left_adv' (h1.errs e))⟩, fun e => h1.code e⟩
          have ea := h1.errs e
          refine h1.nice e (fun hs => ?_) b ((go_advance k1 k2).nice ea b hn)
          rcases (adv_ahead ea).2 with g | ⟨_, g, _⟩
          · have hw := nice_window hn
            rw [g] at hw
            exact window_skip hw (k3 hs)
          · rw [g]; decide
        revert h2
        cases infixLoop dbl f prec t s1 with
        | ok t2 s2 => exact fun h2 => this.trans h2
        | ub => exact fun _ => trivial
        | stuck => exact fun _ => trivial
    · intro prec l s hp
      unfold infixLoop
      split
      · trivial
      · rename_i q p hq
        split
        · rename_i hle
          obtain ⟨k1, k2⟩ := rule_infix _ _ _ hq (by omega)
          dsimp only
          refine (ih1 (p + 1) s.advance (by omega)).then fun t s1 h1 => ?_
          have h2 := ih2 prec (binEmit s.advance.prev.type l t).2 (s1.emit (binEmit s.advance.prev.type l t).1) hp
          have h3 : RP s (s1.emit (binEmit s.advance.prev.type l t).1) :=
            (rp_advance k1 k2).trans (h1.trans (rp_emit _ _ fun _ _ => blk_ones _ (binEmit_ones _ _ _)))
          revert h2
          cases infixLoop dbl f prec (binEmit s.advance.prev.type l t).2 (s1.emit (binEmit s.advance.prev.type l t).1) with
          | ok t2 s2 => exact fun h2 => h3.trans h2
          | ub => exact fun _ => trivial
          | stuck => exact fun _ => trivial
        · exact .refl _
    · have sub : ∀ s, (parsePrec dbl f 1 s).Ok (RP s) := fun s => ih1 1 s (Nat.le_refl _)
      have fltp : ∀ (t : ETy) (s : PSt), RP s (if t = .int then s.emit [0x90] else s) := by
        intro t s
        split
        · exact rp_emit _ _ fun _ _ => blk_one (by decide +kernel)
        · exact .refl _
      have lp : ∀ s : PSt, RP s (s.consume .lparen) := fun s => rp_consume (by decide) (by decide)
      have rp : ∀ s : PSt, RP s (s.consume .rparen) := fun s => rp_consume (by decide) (by decide)
      have cm : ∀ s : PSt, RP s (s.consume .comma) := fun s => rp_consume (by decide) (by decide)
      intro pre s
      cases pre with
      | none => unfold parsePrefix; exact (RP.refl s).toRQ
      | grouping =>
        unfold parsePrefix
        exact (sub s.advance).then fun t s1 h1 => rq_skip rfl (h1.trans (rp _))
      | unary =>
        unfold parsePrefix
        exact (ih1 11 s.advance (by omega)).then fun t s1 h1 =>
          rq_skip rfl (h1.trans (rp_emit _ _ fun _ _ => blk_ones _ (unEmit_ones _ _)))
      | primary =>
        unfold parsePrefix
        dsimp only
        split
        · split
          · exact (rp_emit _ _ fun _ _ => blk_imm _).toRQ
          · split
            · trivial
            · exact (rp_emit _ _ fun _ _ => blk_imm _).toRQ
        · exact (rp_emit _ _ fun _ _ => blk_imm _).toRQ
        · exact (rp_emit _ _ fun _ _ => blk_imm _).toRQ
        · exact (rp_emit _ _ fun _ _ => blk_one (by decide +kernel)).toRQ
        · split
          · rename_i op hop
            refine (sub (s.consume .lparen)).then fun t s1 h1 => ?_
            exact ((lp s).trans (h1.trans ((fltp t s1).trans ((rp _).trans (rp_emit _ _ fun _ _ => blk_one (fun1_ones _ _ hop)))))).toRQ
          · split
            · refine (sub (s.consume .lparen)).then fun t s1 h1 => ?_
              refine (sub _).then fun t2 s2 h2 => ?_
              exact ((lp s).trans (h1.trans ((fltp t s1).trans ((cm _).trans (h2.trans ((fltp t2 s2).trans ((rp _).trans
                (rp_emit _ _ fun _ _ => blk_one (by decide +kernel))))))))).toRQ
            · split
              · exact (sub (s.consume .lparen)).then fun t s1 h1 =>
                  ((lp s).trans (h1.trans ((rp _).trans (rp_emit _ _ fun _ _ => blk_one (by decide +kernel))))).toRQ
              · split
                · exact (sub (s.consume .lparen)).then fun t s1 h1 =>
                    ((lp s).trans (h1.trans ((rp _).trans (rp_emit _ _ fun _ _ => blk_one (by decide +kernel))))).toRQ
                · split
                  · split
                    · exact (rp_error _).toRQ
                    · split
                      · trivial
                      · rename_i s' hd; exact (dotLoop_rp _ _ _ _ _ hd).toRQ
                      · rename_i name s' hd; exact ((dotLoop_rp _ _ _ _ _ hd).trans (rp_loadCtx _ _)).toRQ
                  · exact (rp_loadCtx _ _).toRQ
        · exact (RP.refl s).toRQ

/-! ### The inliner on structured code without switches -/

theorem leBytes_two (v : Word) : ∃ a b, leBytes 2 v = [a, b] := ⟨_, _, rfl⟩

/-- One instruction: the inliner gives up, or renames its key and goes on. -/
theorem inl_instr {pre i : List Byte} {op : Byte} {r : List Byte} (hv : vmLen i = some i.length) (hi : i = op :: r)
    (hm : decodeOp op ≠ .metaVersion) (fuel : Nat) (tab : List (List Byte)) (rest out : List Byte) (tab' : List (List Byte))
    (hf : (i ++ rest).length ≤ fuel) (h : inlineCode pre fuel tab (i ++ rest) = some (out, tab')) :
    ∃ i' rest', out = i' ++ rest' ∧ i'.length = i.length ∧ vmLen i' = some i'.length ∧ (∃ r', i' = op :: r') ∧
      ((decodeOp op).keyed = false → i' = i) ∧
      (rest' = rest ∨ ∃ fuel' tab1, rest.length ≤ fuel' ∧ inlineCode pre fuel' tab1 rest = some (rest', tab')) := by
  subst hi
  obtain ⟨fuel, rfl⟩ : ∃ k, fuel = k + 1 := ⟨fuel - 1, by simp at hf; omega⟩
  simp only [List.length_append, List.length_cons] at hf
  have hr : opArgs (decodeOp op) r = some r.length := by
    unfold vmLen at hv
    dsimp only at hv
    split at hv
    · cases hv
    · rename_i n hn
      split at hv
      · simp only [List.length_cons, Option.some.injEq] at hv; rw [hn]; congr 1; omega
      · cases hv
  unfold inlineCode at h
  dsimp only [List.cons_append] at h
  cases hs : opStops op with
  | true =>
    rw [inlineSize_table op hm, hs, if_pos rfl] at h
    cases h
    exact ⟨op :: r, rest, rfl, rfl, hv, ⟨r, rfl⟩, fun _ => rfl, .inl rfl⟩
  | false =>
    obtain ⟨s1, _⟩ := inlineSize_vm op r _ hm hs hv
    rw [s1] at h
    dsimp only at h
    rw [if_neg (by simp only [List.length_cons, List.length_append]; omega)] at h
    have ed : (op :: (r ++ rest)).drop (op :: r).length = rest := by simp
    rw [ed] at h
    split at h
    · rename_i hk
      have h3 := (inlineSize_pos op _ _ s1).2 hk
      split at h
      · cases h
      · rename_i name hname
        simp only [Option.map_eq_some_iff] at h
        obtain ⟨⟨q, qt⟩, hq, he⟩ := h
        cases he
        obtain ⟨a, b, hab⟩ := leBytes_two (BitVec.ofNat 64 (strtabAdd tab name).2)
        rw [hab]
        have e2 : ((op :: (r ++ rest)).drop 3).take ((op :: r).length - 3) = r.drop 2 := by
          simp only [List.length_cons] at h3
          rw [show (op :: (r ++ rest)).drop 3 = (r ++ rest).drop 2 from rfl, List.drop_append_of_le_length (by omega)]
          rw [List.take_append_of_le_length (by simp)]
          exact List.take_of_length_le (by simp)
        rw [e2]
        have hl : (op :: ([a, b] ++ r.drop 2)).length = (op :: r).length := by
          simp only [List.length_cons, List.length_append, List.length_drop, List.length_nil] at h3 ⊢; omega
        refine ⟨op :: ([a, b] ++ r.drop 2), q, by simp, hl, ?_, ⟨_, rfl⟩, fun hx => (by rw [hx] at hk; cases hk), .inr ⟨fuel, _, by omega, hq⟩⟩
        rw [hl]
        have := vmLen_cons op ([a, b] ++ r.drop 2) (by
          rw [inlineArgs_fixed op _ hs]
          rw [inlineArgs_fixed op _ hs] at hr
          rw [hr]
          simp only [List.length_cons, List.length_append, List.length_drop, List.length_nil] at h3 ⊢
          congr 1; omega)
        rw [this, hl]
    · rename_i hk
      simp only [Option.map_eq_some_iff] at h
      obtain ⟨⟨q, qt⟩, hq, he⟩ := h
      cases he
      refine ⟨op :: r, q, by simp, rfl, hv, ⟨r, rfl⟩, fun _ => rfl, .inr ⟨fuel, tab, by omega, hq⟩⟩

theorem Plain.op_ne {i r : List Byte} {op : Byte} (h : (decodeOp op).plain = true ∨ op = 0x63) : decodeOp op ≠ .metaVersion := by
  intro e
  rcases h with h | h
  · rw [e] at h; cases h
  · rw [h] at e; exact absurd e (by decide +kernel)

theorem inl_blk {pre : List Byte} {w : Bool} {c : List Byte} (h : Blk false w c) : w = false → ∀ (fuel : Nat) (tab : List (List Byte)) (rest out : List Byte)
    (tab' : List (List Byte)), (c ++ rest).length ≤ fuel → inlineCode pre fuel tab (c ++ rest) = some (out, tab') →
    ∃ c' rest', out = c' ++ rest' ∧ c'.length = c.length ∧ Blk false false c' ∧
      (rest' = rest ∨ ∃ fuel' tab1, rest.length ≤ fuel' ∧ inlineCode pre fuel' tab1 rest = some (rest', tab')) := by
  induction h with
  | nil =>
    intro _ fuel tab rest out tab' hf hi
    exact ⟨[], out, rfl, rfl, .nil, .inr ⟨fuel, tab, hf, hi⟩⟩
  | @seq w a b ha hb iha ihb =>
    rintro rfl fuel tab rest out tab' hf hi
    rw [List.append_assoc] at hf hi
    obtain ⟨a', r1, rfl, la, ba, k⟩ := iha rfl fuel tab _ out tab' hf hi
    rcases k with rfl | ⟨f1, t1, hf1, hi1⟩
    · exact ⟨a' ++ b, rest, by rw [List.append_assoc], by rw [List.length_append, List.length_append, la], .seq ba hb, .inl rfl⟩
    · obtain ⟨b', r2, rfl, lb, bb, k⟩ := ihb rfl f1 t1 rest r1 tab' hf1 hi1
      exact ⟨a' ++ b', r2, by rw [List.append_assoc], by rw [List.length_append, List.length_append, la, lb], .seq ba bb, k⟩
  | @instr w i hp =>
    rintro rfl fuel tab rest out tab' hf hi
    obtain ⟨hv, op, r, he, hop⟩ := hp
    obtain ⟨i', r', e1, e2, e3, ⟨r2, e4⟩, _, k⟩ := inl_instr hv he (Plain.op_ne (i := i) (r := r) hop) fuel tab rest out tab' hf hi
    exact ⟨i', r', e1, e2, .instr ⟨e3, op, r2, e4, hop⟩, k⟩
  | dud =>
    rintro rfl fuel tab rest out tab' hf hi
    obtain ⟨fuel, rfl⟩ : ∃ k, fuel = k + 1 := ⟨fuel - 1, by simp at hf; omega⟩
    unfold inlineCode at hi
    dsimp only [List.cons_append] at hi
    rw [show inlineSize 0x42 = none from by decide +kernel] at hi
    cases hi
    exact ⟨[0x42, 0x1A], rest, rfl, rfl, .dud, .inl rfl⟩
  | @loop w o a ho ha iha =>
    rintro rfl fuel tab rest out tab' hf hi
    obtain ⟨hv, op, r, he, hop⟩ := ho
    rw [List.append_assoc] at hf hi
    obtain ⟨o', r1, rfl, lo, e3, ⟨r2, e4⟩, _, k⟩ := inl_instr hv he (fun e => by rw [e] at hop; cases hop) fuel tab _ out tab' hf hi
    have hop' : Opens o' := ⟨e3, op, r2, e4, hop⟩
    rcases k with rfl | ⟨f1, t1, hf1, hi1⟩
    · exact ⟨o' ++ (a ++ [0x38]), rest, by simp only [List.append_assoc], by simp only [List.length_append, lo],
        .loop hop' ha, .inl rfl⟩
    rw [List.append_assoc] at hf1 hi1
    obtain ⟨a', r3, rfl, la, ba, k⟩ := iha rfl f1 t1 _ r1 tab' hf1 hi1
    rcases k with rfl | ⟨f2, t2, hf2, hi2⟩
    · exact ⟨o' ++ (a' ++ [0x38]), rest, by simp only [List.append_assoc], by simp only [List.length_append, lo, la],
        .loop hop' ba, .inl rfl⟩
    obtain ⟨z, r5, rfl, lz, e5, ⟨r6, e6⟩, hz, k⟩ := inl_instr (i := [0x38]) (op := 0x38) (r := []) (by decide +kernel) rfl (by decide +kernel) f2 t2 rest r3 tab' hf2 hi2
    obtain rfl := hz (by decide +kernel)
    exact ⟨o' ++ (a' ++ [0x38]), r5, by simp only [List.append_assoc], by simp only [List.length_append, lo, la], .loop hop' ba, k⟩
  | stray =>
    rintro rfl fuel tab rest out tab' hf hi
    obtain ⟨z, r5, rfl, lz, e5, ⟨r6, e6⟩, hz, k⟩ := inl_instr (i := [0x38]) (op := 0x38) (r := []) (by decide +kernel) rfl (by decide +kernel) fuel tab rest out tab' hf hi
    obtain rfl := hz (by decide +kernel)
    exact ⟨[0x38], r5, rfl, rfl, .stray, k⟩
  | @cond w a b ha hb iha ihb =>
    rintro rfl fuel tab rest out tab' hf hi
    have hj : ∀ (op : Byte) (n : Nat), op = 0x50 ∨ op = 0x52 → vmLen (op :: u32le n) = some (op :: u32le n).length := by
      intro op n ho
      refine vmLen_cons _ _ ?_
      rw [u32le_length]
      rcases ho with rfl | rfl <;> rfl
    have e0 : 0x50 :: (u32le (a.length + 5) ++ (a ++ 0x52 :: (u32le b.length ++ b))) ++ rest =
        (0x50 :: u32le (a.length + 5)) ++ (a ++ ((0x52 :: u32le b.length) ++ (b ++ rest))) := by simp
    rw [e0] at hf hi
    obtain ⟨j, r1, rfl, lj, _, _, hz, k⟩ := inl_instr (hj 0x50 _ (.inl rfl)) rfl (by decide +kernel) fuel tab _ out tab' hf hi
    obtain rfl := hz (by decide +kernel)
    rcases k with rfl | ⟨f1, t1, hf1, hi1⟩
    · exact ⟨_, rest, e0.symm, rfl, .cond ha hb, .inl rfl⟩
    obtain ⟨a', r2, rfl, la, ba, k⟩ := iha rfl f1 t1 _ r1 tab' hf1 hi1
    rcases k with rfl | ⟨f2, t2, hf2, hi2⟩
    · refine ⟨0x50 :: (u32le (a'.length + 5) ++ (a' ++ 0x52 :: (u32le b.length ++ b))), rest, ?_, ?_, .cond ba hb, .inl rfl⟩
      · rw [la]; simp
      · simp only [List.length_cons, List.length_append, u32le_length, la]
    obtain ⟨j, r3, rfl, lj, _, _, hz, k⟩ := inl_instr (hj 0x52 _ (.inr rfl)) rfl (by decide +kernel) f2 t2 _ r2 tab' hf2 hi2
    obtain rfl := hz (by decide +kernel)
    rcases k with rfl | ⟨f3, t3, hf3, hi3⟩
    · refine ⟨0x50 :: (u32le (a'.length + 5) ++ (a' ++ 0x52 :: (u32le b.length ++ b))), rest, ?_, ?_, .cond ba hb, .inl rfl⟩
      · rw [la]; simp
      · simp only [List.length_cons, List.length_append, u32le_length, la]
    obtain ⟨b', r4, rfl, lb, bb, k⟩ := ihb rfl f3 t3 rest r3 tab' hf3 hi3
    refine ⟨0x50 :: (u32le (a'.length + 5) ++ (a' ++ 0x52 :: (u32le b'.length ++ b'))), r4, ?_, ?_, .cond ba bb, k⟩
    · rw [la, lb]; simp
    · simp only [List.length_cons, List.length_append, u32le_length, la, lb]
  | switch => intro h; cases h
  | table => intro h; cases h
  | flag h => cases h
  | big h => cases h
  | inlined h => cases h

/-- Inlining a body without switches gives structured code. -/
theorem inline_blk {q : Bool} {pre body out : List Byte} {tab tab' : List (List Byte)} (h : Blk q q body)
    (hi : inlineCode pre body.length tab body = some (out, tab')) : Blk q q out := by
  cases q with
  | true => exact .inlined rfl h hi
  | false =>
    obtain ⟨c', r, rfl, _, hb, k⟩ := inl_blk h rfl body.length tab [] out tab' (by simp) (by simpa using hi)
    rcases k with rfl | ⟨f1, t1, _, h1⟩
    · simpa using hb
    · have : r = [] := by
        cases f1 <;> · unfold inlineCode at h1; cases h1; rfl
      subst this
      simpa using hb

end Cnd
