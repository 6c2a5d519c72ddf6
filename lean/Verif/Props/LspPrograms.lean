/-
  C87: the context of completion in programs.
-/
import Verif.Props.LspContext
import Verif.Props.SourceMain
import Verif.Demo

namespace Cnd

/-! ### Specification -/

/-- Parentheses and braces are balanced, at signs are not in parentheses, and there are no structs and packets. -/
def Flat (l : List Tok) : Prop := level .lparen .rparen [.at] 0 l = some 0 ∧ ∀ d, level .lbrace .rbrace [.kwStruct, .kwPacket] d l = some d

/-- Tokens of an expression: also no at signs. -/
def CleanExpr (l : List Tok) : Prop := Flat l ∧ ∀ t ∈ l, t.type ≠ .at

/-- The expressions of decorators and conditions. -/
def Deco.exprs : Deco → List ETree
  | .expr e => [e]
  | _ => []

mutual

def Body.exprs : Body → List ETree
  | .done => []
  | .tail decs => decs.flatMap Deco.exprs
  | .doc _ rest => rest.exprs
  | .stmt s rest => s.exprs ++ rest.exprs

def Stmt.exprs : Stmt → List ETree
  | .field d => d.decs.flatMap Deco.exprs
  | .lone decs => decs.flatMap Deco.exprs
  | .ite c thn els => c :: (thn.exprs ++ els.exprs)
  | .switch _ arms => arms.exprs

def Els.exprs : Els → List ETree
  | .none => []
  | .block b => b.exprs
  | .elif c thn els => c :: (thn.exprs ++ els.exprs)

def Arms.exprs : Arms → List ETree
  | .done => []
  | .block _ b rest => b.exprs ++ rest.exprs
  | .stmt _ s rest => s.exprs ++ rest.exprs

end

def Item.exprs : Item → List ETree
  | .decl _ (.struct _ b) | .decl _ (.packet _ b) => b.exprs
  | _ => []

/-- A program of the grammar; nothing is said about declarations and types. -/
def Grammatical (prog : List Item) : Prop := ∀ e ∈ prog.flatMap Item.exprs, CleanExpr e.flat

/-! ### Levels of the parts of programs -/

theorem flat_nil : Flat [] := ⟨rfl, fun _ => rfl⟩

theorem flat_append {a b : List Tok} (ha : Flat a) (hb : Flat b) : Flat (a ++ b) :=
  ⟨level_seq ha.1 hb.1, fun d => level_seq (ha.2 d) (hb.2 d)⟩

/-- Types of tokens without brackets and headers. -/
def plainTy (ty : TT) : Bool := ty ∉ [TT.at, .lparen, .rparen, .lbrace, .rbrace, .kwStruct, .kwPacket]

theorem flat_plain {l : List Tok} (h : ∀ t ∈ l, plainTy t.type = true) : Flat l := by
  have key : ∀ t ∈ l, t.type ∉ [TT.at, .lparen, .rparen, .lbrace, .rbrace, .kwStruct, .kwPacket] := fun t ht => by
    have := h t ht
    unfold plainTy at this
    simpa using this
  refine ⟨level_plain (fun t ht => ?_) 0, fun d => level_plain (fun t ht => ?_) d⟩
  · have := key t ht
    simp only [List.mem_cons, List.not_mem_nil, or_false, not_or] at this ⊢
    exact ⟨this.2.1, this.2.2.1, this.1⟩
  · have := key t ht
    simp only [List.mem_cons, List.not_mem_nil, or_false, not_or] at this ⊢
    exact ⟨this.2.2.2.1, this.2.2.2.2.1, this.2.2.2.2.2.1, this.2.2.2.2.2.2⟩

theorem flat_cons {t : Tok} {l : List Tok} (ht : plainTy t.type = true) (hl : Flat l) : Flat (t :: l) := by
  have : t :: l = [t] ++ l := rfl
  rw [this]
  exact flat_append (flat_plain fun x hx => by rw [List.mem_singleton.1 hx]; exact ht) hl

/-- Parentheses around tokens without at signs. -/
theorem flat_paren {lp rp : Tok} (h1 : lp.type = .lparen) (h2 : rp.type = .rparen) {a b : List Tok} (ha : CleanExpr a) (hb : Flat b) : Flat (lp :: (a ++ rp :: b)) := by
  constructor
  · show level _ _ _ _ _ = _
    rw [level, if_pos h1, level_append, level_shift a 0 0 1 (fun t ht => by simpa using ha.2 t ht) ha.1.1]
    show level _ _ _ _ _ = _
    rw [level, if_neg (by rw [h2]; decide), if_pos h2, if_neg (by decide)]
    exact hb.1
  · intro d
    show level _ _ _ _ _ = _
    rw [level, if_neg (by rw [h1]; decide), if_neg (by rw [h1]; decide), if_neg (by rw [h1]; simp), level_append, ha.1.2 d]
    show level _ _ _ _ _ = _
    rw [level, if_neg (by rw [h2]; decide), if_neg (by rw [h2]; decide), if_neg (by rw [h2]; simp)]
    exact hb.2 d

theorem flat_brace {a b : List Tok} (ha : Flat a) (hb : Flat b) : Flat (tLb :: (a ++ tRb :: b)) := by
  constructor
  · show level _ _ _ _ _ = _
    rw [level, if_neg (by decide), if_neg (by decide), if_neg (by decide), level_append, ha.1]
    show level _ _ _ _ _ = _
    rw [level, if_neg (by decide), if_neg (by decide), if_neg (by decide)]
    exact hb.1
  · intro d
    show level _ _ _ _ _ = _
    rw [level, if_pos (by decide), level_append, ha.2 (d + 1)]
    show level _ _ _ _ _ = _
    rw [level, if_neg (by decide), if_pos (by decide), if_neg (by omega)]
    exact hb.2 d

theorem flat_at {l : List Tok} (hl : Flat l) : Flat (tAt :: l) := by
  constructor
  · show level _ _ _ _ _ = _
    rw [level, if_neg (by decide), if_neg (by decide), if_neg (by decide)]
    exact hl.1
  · intro d
    show level _ _ _ _ _ = _
    rw [level, if_neg (by decide), if_neg (by decide), if_neg (fun h => absurd h.1 (by decide))]
    exact hl.2 d

theorem clean_plain {l : List Tok} (h : ∀ t ∈ l, plainTy t.type = true) : CleanExpr l :=
  ⟨flat_plain h, fun t ht e => by have := h t ht; rw [e] at this; exact absurd this (by decide)⟩

theorem flat_called (n : List Byte) {l : List Tok} (h : CleanExpr l) : Flat (called n l) :=
  flat_at (flat_cons rfl (flat_paren rfl rfl h flat_nil))

theorem commas_plain : ∀ l : List (List Tok), (∀ x ∈ l, ∀ t ∈ x, plainTy t.type = true) → ∀ t ∈ commas l, plainTy t.type = true
  | [], _, t, ht => by cases ht
  | [x], h, t, ht => h x (by simp) t ht
  | x :: y :: xs, h, t, ht => by
    rw [commas, List.mem_append, List.mem_cons] at ht
    rcases ht with ht | rfl | ht
    · exact h x (by simp) t ht
    · rfl
    · exact commas_plain (y :: xs) (fun z hz => h z (List.mem_cons_of_mem _ hz)) t ht

theorem deco_flat (x : Deco) (h : ∀ e ∈ x.exprs, CleanExpr e.flat) : Flat x.toks := by
  have one : ∀ n w, Flat (called n [tNum w]) := fun n w => flat_called n (clean_plain fun t ht => by rw [List.mem_singleton.1 ht]; rfl)
  cases x with
  | expr e => exact flat_called _ (h e (by simp [Deco.exprs]))
  | poly c cs =>
    refine flat_called _ (clean_plain (commas_plain _ ?_))
    intro x hx t ht
    obtain ⟨n, _, rfl⟩ := List.mem_map.1 hx
    rw [List.mem_singleton.1 ht]; rfl
  | spline c cs =>
    refine flat_called _ (clean_plain (commas_plain _ ?_))
    intro x hx t ht
    obtain ⟨n, _, rfl⟩ := List.mem_map.1 hx
    simp only [List.mem_cons, List.not_mem_nil, or_false] at ht
    rcases ht with rfl | rfl | rfl <;> rfl
  | fill v =>
    cases v with
    | none => exact flat_at (flat_cons rfl flat_nil)
    | some v => exact one _ _
  | countOf long n => exact flat_called _ (clean_plain fun t ht => by rw [List.mem_singleton.1 ht]; rfl)
  | range lo hi =>
    refine flat_called _ (clean_plain ?_)
    intro t ht
    simp only [List.mem_cons, List.not_mem_nil, or_false] at ht
    rcases ht with rfl | rfl | rfl <;> rfl
  | be | le | optional | eof | refin | refout => exact flat_at (flat_cons rfl flat_nil)
  | _ => exact one _ _

theorem decos_flat (l : List Deco) (h : ∀ e ∈ l.flatMap Deco.exprs, CleanExpr e.flat) : Flat (l.flatMap Deco.toks) := by
  induction l with
  | nil => exact flat_nil
  | cons x l ih =>
    rw [List.flatMap_cons] at h ⊢
    exact flat_append (deco_flat x fun e he => h e (List.mem_append_left _ he)) (ih fun e he => h e (List.mem_append_right _ he))

theorem field_flat (d : FieldD) (h : ∀ e ∈ d.decs.flatMap Deco.exprs, CleanExpr e.flat) : Flat d.toks := by
  rw [FieldD.toks]
  refine flat_append (decos_flat _ h) (flat_cons rfl (flat_cons rfl (flat_append (flat_append (flat_append ?_ ?_) ?_) (flat_cons rfl flat_nil))))
  · cases d.width with
    | none => exact flat_nil
    | some n => exact flat_cons rfl (flat_cons rfl flat_nil)
  · cases d.dims with
    | none => exact flat_nil
    | empty => exact flat_cons rfl (flat_cons rfl flat_nil)
    | fixed n => exact flat_cons rfl (flat_cons rfl (flat_cons rfl flat_nil))
  · cases d.mods with
    | pre t => exact flat_cons rfl (flat_cons rfl flat_nil)
    | lim u m =>
      refine flat_append ?_ ?_
      · cases u with
        | none => exact flat_nil
        | some n => exact flat_cons rfl (flat_cons rfl flat_nil)
      · cases m with
        | none => exact flat_nil
        | some n => exact flat_cons rfl (flat_cons rfl flat_nil)

theorem label_flat (l : Label) : Flat l.toks := by
  refine flat_plain fun t ht => ?_
  cases l <;> simp only [Label.toks, List.mem_cons, List.not_mem_nil, or_false] at ht
  · rcases ht with rfl | rfl | rfl <;> rfl
  · rcases ht with rfl | rfl | rfl | rfl | rfl <;> rfl
  · rcases ht with rfl | rfl <;> rfl

theorem or_left {l m : List ETree} (h : ∀ e ∈ l ++ m, CleanExpr e.flat) : ∀ e ∈ l, CleanExpr e.flat := fun e he => h e (List.mem_append_left _ he)
theorem or_right {l m : List ETree} (h : ∀ e ∈ l ++ m, CleanExpr e.flat) : ∀ e ∈ m, CleanExpr e.flat := fun e he => h e (List.mem_append_right _ he)
theorem cons_left {x : ETree} {m : List ETree} (h : ∀ e ∈ x :: m, CleanExpr e.flat) : CleanExpr x.flat := h x (by simp)
theorem cons_right {x : ETree} {m : List ETree} (h : ∀ e ∈ x :: m, CleanExpr e.flat) : ∀ e ∈ m, CleanExpr e.flat := fun e he => h e (List.mem_cons_of_mem _ he)

mutual

theorem body_flat : ∀ (b : Body), (∀ e ∈ b.exprs, CleanExpr e.flat) → Flat b.toks
  | .done, _ => by rw [Body.toks]; exact flat_nil
  | .tail decs, h => by
    rw [Body.exprs] at h
    rw [Body.toks]
    exact decos_flat _ h
  | .doc t rest, h => by
    rw [Body.exprs] at h
    rw [Body.toks]
    exact flat_cons rfl (body_flat rest h)
  | .stmt s rest, h => by
    rw [Body.exprs] at h
    rw [Body.toks]
    exact flat_append (stmt_flat s (or_left h)) (body_flat rest (or_right h))

theorem stmt_flat : ∀ (s : Stmt), (∀ e ∈ s.exprs, CleanExpr e.flat) → Flat s.toks
  | .field d, h => by
    rw [Stmt.exprs] at h
    rw [Stmt.toks]
    exact field_flat d h
  | .lone decs, h => by
    rw [Stmt.exprs] at h
    rw [Stmt.toks]
    exact flat_append (decos_flat _ h) (flat_cons rfl flat_nil)
  | .ite c thn els, h => by
    rw [Stmt.exprs] at h
    rw [Stmt.toks]
    exact flat_cons rfl (flat_paren rfl rfl (cons_left h) (flat_brace (body_flat thn (or_left (cons_right h))) (els_flat els (or_right (cons_right h)))))
  | .switch key arms, h => by
    rw [Stmt.exprs] at h
    rw [Stmt.toks]
    exact flat_cons rfl (flat_paren (a := [tId key]) rfl rfl (clean_plain fun t ht => by rw [List.mem_singleton.1 ht]; rfl)
      (flat_brace (arms_flat arms h) flat_nil))

theorem els_flat : ∀ (s : Els), (∀ e ∈ s.exprs, CleanExpr e.flat) → Flat s.toks
  | .none, _ => by rw [Els.toks]; exact flat_nil
  | .block b, h => by
    rw [Els.exprs] at h
    rw [Els.toks]
    exact flat_cons rfl (flat_brace (body_flat b h) flat_nil)
  | .elif c thn els, h => by
    rw [Els.exprs] at h
    rw [Els.toks]
    exact flat_cons rfl (flat_cons rfl (flat_paren rfl rfl (cons_left h) (flat_brace (body_flat thn (or_left (cons_right h)))
      (els_flat els (or_right (cons_right h))))))

theorem arms_flat : ∀ (s : Arms), (∀ e ∈ s.exprs, CleanExpr e.flat) → Flat s.toks
  | .done, _ => by rw [Arms.toks]; exact flat_nil
  | .block l b rest, h => by
    rw [Arms.exprs] at h
    rw [Arms.toks]
    exact flat_append (label_flat l) (flat_brace (body_flat b (or_left h)) (arms_flat rest (or_right h)))
  | .stmt l s rest, h => by
    rw [Arms.exprs] at h
    rw [Arms.toks]
    exact flat_append (flat_append (label_flat l) (stmt_flat s (or_left h))) (arms_flat rest (or_right h))

end

theorem topDecs_flat (l : List TopDec) : Flat (l.flatMap TopDec.toks) := by
  induction l with
  | nil => exact flat_nil
  | cons x l ih =>
    rw [List.flatMap_cons]
    refine flat_append ?_ ih
    cases x with
    | version n => exact flat_called _ (clean_plain fun t ht => by rw [List.mem_singleton.1 ht]; rfl)
    | _ => exact flat_at (flat_cons rfl flat_nil)

theorem enumVs_plain (vs : List EnumV) : Flat (vs.flatMap EnumV.toks) := by
  induction vs with
  | nil => exact flat_nil
  | cons v vs ih =>
    rw [List.flatMap_cons]
    refine flat_append (flat_cons rfl (flat_append ?_ ?_)) ih
    · cases v.value with
      | none => exact flat_nil
      | some n => exact flat_cons rfl (flat_cons rfl flat_nil)
    · cases v.comma
      · exact flat_nil
      · exact flat_cons rfl flat_nil

/-- A struct or packet. -/
theorem block_level {k : Tok} (hk : k.type = .kwStruct ∨ k.type = .kwPacket) (name : List Byte) {b : List Tok} (hb : Flat b) :
    level .lparen .rparen [.at] 0 (k :: tId name :: tLb :: (b ++ [tRb])) = some 0 ∧
    level .lbrace .rbrace [.kwStruct, .kwPacket] 0 (k :: tId name :: tLb :: (b ++ [tRb])) = some 0 := by
  have h2 : Flat (tId name :: tLb :: (b ++ [tRb])) := flat_cons rfl (flat_brace hb flat_nil)
  refine ⟨?_, ?_⟩
  · rw [level, if_neg (by rcases hk with h | h <;> rw [h] <;> decide), if_neg (by rcases hk with h | h <;> rw [h] <;> decide), if_neg (fun h => h.2 rfl)]
    exact h2.1
  · rw [level, if_neg (by rcases hk with h | h <;> rw [h] <;> decide), if_neg (by rcases hk with h | h <;> rw [h] <;> decide), if_neg (fun h => h.2 rfl)]
    exact h2.2 0

theorem item_level (x : Item) (h : ∀ e ∈ x.exprs, CleanExpr e.flat) :
    level .lparen .rparen [.at] 0 x.toks = some 0 ∧ level .lbrace .rbrace [.kwStruct, .kwPacket] 0 x.toks = some 0 := by
  cases x with
  | doc t => exact ⟨(flat_cons rfl flat_nil : Flat [tDoc t]).1, (flat_cons rfl flat_nil : Flat [tDoc t]).2 0⟩
  | decl decs d =>
    have h1 := topDecs_flat decs
    have key : level .lparen .rparen [.at] 0 d.toks = some 0 ∧ level .lbrace .rbrace [.kwStruct, .kwPacket] 0 d.toks = some 0 := by
      cases d with
      | enum name ty vs =>
        have : Flat (Decl.enum name ty vs).toks := by
          simp only [Decl.toks]
          refine flat_cons rfl (flat_cons rfl (flat_append ?_ (flat_brace (enumVs_plain vs) flat_nil)))
          cases ty with
          | none => exact flat_nil
          | some t => exact flat_cons rfl (flat_cons rfl flat_nil)
        exact ⟨this.1, this.2 0⟩
      | struct name b => exact block_level (.inl rfl) name (body_flat b h)
      | packet name b => exact block_level (.inr rfl) name (body_flat b h)
      | packetOf name s => exact ⟨rfl, rfl⟩
      | empty => exact ⟨rfl, rfl⟩
    exact ⟨level_seq h1.1 key.1, level_seq (h1.2 0) key.2⟩

theorem prog_level (prog : List Item) (h : Grammatical prog) :
    level .lparen .rparen [.at] 0 (prog.flatMap Item.toks) = some 0 ∧ level .lbrace .rbrace [.kwStruct, .kwPacket] 0 (prog.flatMap Item.toks) = some 0 := by
  have key : ∀ x ∈ prog, ∀ e ∈ x.exprs, CleanExpr e.flat := fun x hx e he => h e (List.mem_flatMap.2 ⟨x, hx, he⟩)
  exact ⟨level_flatMap _ fun x hx => (item_level x (key x hx)).1, level_flatMap _ fun x hx => (item_level x (key x hx)).2⟩

/-! ### Accepted programs -/

theorem clean_append {a b : List Tok} (ha : CleanExpr a) (hb : CleanExpr b) : CleanExpr (a ++ b) :=
  ⟨flat_append ha.1 hb.1, fun t ht => (List.mem_append.1 ht).elim (ha.2 t) (hb.2 t)⟩

theorem clean_cons {t : Tok} {l : List Tok} (ht : plainTy t.type = true) (hl : CleanExpr l) : CleanExpr (t :: l) :=
  ⟨flat_cons ht hl.1, fun x hx => by
    rcases List.mem_cons.1 hx with rfl | hx
    · intro e; rw [e] at ht; exact absurd ht (by decide)
    · exact hl.2 x hx⟩

theorem clean_nil : CleanExpr [] := ⟨flat_nil, fun _ h => by cases h⟩

theorem clean_paren {lp rp : Tok} (h1 : lp.type = .lparen) (h2 : rp.type = .rparen) {a b : List Tok} (ha : CleanExpr a) (hb : CleanExpr b) : CleanExpr (lp :: (a ++ rp :: b)) :=
  ⟨flat_paren h1 h2 ha hb.1, fun x hx => by
    rcases List.mem_cons.1 hx with rfl | hx
    · rw [h1]; decide
    · rcases List.mem_append.1 hx with hx | hx
      · exact ha.2 x hx
      · rcases List.mem_cons.1 hx with rfl | hx
        · rw [h2]; decide
        · exact hb.2 x hx⟩

theorem op_plain : ∀ ty : TT, 0 < opLevel ty → plainTy ty = true := by
  intro ty h
  cases ty <;> first | rfl | exact absurd h (by decide)

theorem expr_clean (e : ETree) (h1 : e.Respects) (h2 : e.LeavesOk) : CleanExpr e.flat := by
  induction e with
  | leaf first subs =>
    simp only [ETree.LeavesOk, LeafOk] at h2
    rw [ETree.flat]
    rcases h2 with ⟨rfl, h, _⟩ | ⟨rfl, h | h | h⟩ | ⟨h, _, hs, _⟩
    · exact clean_cons (by rw [h]; rfl) clean_nil
    · exact clean_cons (by rw [h]; rfl) clean_nil
    · exact clean_cons (by rw [h]; rfl) clean_nil
    · exact clean_cons (by rw [h]; rfl) clean_nil
    · refine clean_cons (by rw [h]; rfl) (clean_plain ?_)
      intro t ht
      obtain ⟨p, hp, ht⟩ := List.mem_flatMap.1 ht
      simp only [List.mem_cons, List.not_mem_nil, or_false] at ht
      rcases ht with rfl | rfl
      · rw [(hs p hp).1]; rfl
      · rw [(hs p hp).2]; rfl
  | node l op r ihl ihr =>
    simp only [ETree.Respects] at h1
    simp only [ETree.LeavesOk] at h2
    rw [ETree.flat]
    exact clean_append (ihl h1.2.2.2.1 h2.1) (clean_cons (op_plain _ h1.1) (ihr h1.2.2.2.2 h2.2))
  | call f lp a rp ih =>
    obtain ⟨⟨g1, _, g2, g3⟩, g4⟩ := h2
    rw [ETree.flat]
    exact clean_cons (by rw [g1]; rfl) (clean_paren g2 g3 (ih h1 g4) clean_nil)
  | call2 f lp a c b rp iha ihb =>
    obtain ⟨⟨g1, _, g2, gc, g3⟩, g4, g5⟩ := h2
    rw [ETree.flat]
    have e : lp :: (a.flat ++ c :: (b.flat ++ [rp])) = lp :: ((a.flat ++ c :: b.flat) ++ rp :: []) := by simp
    rw [e]
    exact clean_cons (by rw [g1]; rfl) (clean_paren g2 g3 (clean_append (iha h1.1 g4) (clean_cons (by rw [gc]; rfl) (ihb h1.2 g5))) clean_nil)
  | paren => exact h2.elim
  | unary => exact h2.elim

theorem exprGen_clean {C : Ctx} {e : ETree} {tab : List (List Byte)} {r} (h : exprGen C e tab = some r) : CleanExpr e.flat := by
  simp only [exprGen, req_bind] at h
  exact expr_clean e h.1.1 h.1.2

theorem decos_clean {C : Ctx} {xs : List Deco} {a : Dec} {g : Gen} {r} (h : decosGen C xs a g = some r) : ∀ e ∈ xs.flatMap Deco.exprs, CleanExpr e.flat := by
  induction xs generalizing a g r with
  | nil => intro e he; cases he
  | cons x xs ih =>
    simp only [decosGen, bind_some] at h
    obtain ⟨q, hq, w, hw, _⟩ := h
    intro e he
    rw [List.flatMap_cons] at he
    rcases List.mem_append.1 he with he | he
    · cases x with
      | expr y =>
        simp only [Deco.gen, bind_some] at hq
        obtain ⟨q', hq', _⟩ := hq
        rw [List.mem_singleton.1 he]
        exact exprGen_clean hq'
      | _ => cases he
    · exact ih hw e he

theorem all_clean_append {l m : List ETree} (h1 : ∀ e ∈ l, CleanExpr e.flat) (h2 : ∀ e ∈ m, CleanExpr e.flat) : ∀ e ∈ l ++ m, CleanExpr e.flat :=
  fun e he => (List.mem_append.1 he).elim (h1 e) (h2 e)

theorem all_clean_cons {x : ETree} {m : List ETree} (h1 : CleanExpr x.flat) (h2 : ∀ e ∈ m, CleanExpr e.flat) : ∀ e ∈ x :: m, CleanExpr e.flat :=
  fun e he => (List.mem_cons.1 he).elim (fun q => q ▸ h1) (h2 e)

mutual

theorem body_clean {C : Ctx} : ∀ (b : Body) {g : Gen} {r}, b.gen C g = some r → ∀ e ∈ b.exprs, CleanExpr e.flat
  | .done, _, _, _ => by rw [Body.exprs]; intro e he; cases he
  | .tail decs, g, r, h => by
    simp only [Body.gen, bind_some] at h
    obtain ⟨q, hq, _⟩ := h
    rw [Body.exprs]
    exact decos_clean hq
  | .doc t rest, g, r, h => by
    rw [Body.gen] at h
    rw [Body.exprs]
    exact body_clean rest h
  | .stmt s rest, g, r, h => by
    simp only [Body.gen, bind_some] at h
    obtain ⟨q, hq, w, hw, _⟩ := h
    rw [Body.exprs]
    exact all_clean_append (stmt_clean s hq) (body_clean rest hw)

theorem stmt_clean {C : Ctx} : ∀ (s : Stmt) {g : Gen} {r}, s.gen C g = some r → ∀ e ∈ s.exprs, CleanExpr e.flat
  | .field d, g, r, h => by
    rw [Stmt.gen] at h
    simp only [FieldD.gen, bind_some] at h
    obtain ⟨q, hq, _⟩ := h
    rw [Stmt.exprs]
    exact decos_clean hq
  | .lone decs, g, r, h => by
    simp only [Stmt.gen, bind_some] at h
    obtain ⟨q, hq, _⟩ := h
    rw [Stmt.exprs]
    exact decos_clean hq
  | .ite c thn els, g, r, h => by
    simp only [Stmt.gen, bind_some] at h
    obtain ⟨q, hq, w, hw, v, hv, _⟩ := h
    rw [Stmt.exprs]
    exact all_clean_cons (exprGen_clean hq) (all_clean_append (body_clean thn hw) (els_clean els hv))
  | .switch key arms, g, r, h => by
    simp only [Stmt.gen, bind_some] at h
    obtain ⟨q, hq, _⟩ := h
    rw [Stmt.exprs]
    exact arms_clean arms hq

theorem els_clean {C : Ctx} : ∀ (s : Els) {g : Gen} {r}, s.gen C g = some r → ∀ e ∈ s.exprs, CleanExpr e.flat
  | .none, _, _, _ => by rw [Els.exprs]; intro e he; cases he
  | .block b, g, r, h => by
    rw [Els.gen] at h
    rw [Els.exprs]
    exact body_clean b h
  | .elif c thn els, g, r, h => by
    simp only [Els.gen, bind_some] at h
    obtain ⟨q, hq, w, hw, v, hv, _⟩ := h
    rw [Els.exprs]
    exact all_clean_cons (exprGen_clean hq) (all_clean_append (body_clean thn hw) (els_clean els hv))

theorem arms_clean {C : Ctx} : ∀ (s : Arms) {seen} {g : Gen} {r}, s.gen C seen g = some r → ∀ e ∈ s.exprs, CleanExpr e.flat
  | .done, _, _, _, _ => by rw [Arms.exprs]; intro e he; cases he
  | .block l b rest, seen, g, r, h => by
    simp only [Arms.gen, bind_some] at h
    obtain ⟨v, _, _, _, q, hq, w, hw, _⟩ := h
    rw [Arms.exprs]
    exact all_clean_append (body_clean b hq) (arms_clean rest hw)
  | .stmt l s rest, seen, g, r, h => by
    simp only [Arms.gen, bind_some] at h
    obtain ⟨v, _, _, _, q, hq, w, hw, _⟩ := h
    rw [Arms.exprs]
    exact all_clean_append (stmt_clean s hq) (arms_clean rest hw)

end

/-- Accepted programs are grammatical. -/
theorem accepted_grammatical {dbl : List Byte → Word} {fl : FloatOps} {prog : List Item} {t t' : Top} (h : progGen dbl fl prog t = some t') : Grammatical prog := by
  induction prog generalizing t with
  | nil => intro e he; cases he
  | cons x xs ih =>
    unfold Grammatical
    rw [List.flatMap_cons]
    cases x with
    | doc w =>
      rw [progGen] at h
      exact ih h
    | decl decs d =>
      simp only [progGen, bind_some] at h
      obtain ⟨q, hq, h⟩ := h
      refine all_clean_append ?_ (ih h)
      cases d with
      | struct name b =>
        simp only [Decl.gen, bind_some] at hq
        obtain ⟨_, _, r, hr, _⟩ := hq
        exact body_clean b hr
      | packet name b =>
        simp only [Decl.gen, bind_some] at hq
        obtain ⟨_, _, r, hr, _⟩ := hq
        exact body_clean b hr
      | _ => intro e he; cases he

/-! ### C87 -/

/-- What the server takes for the context of a cursor. -/
def contextOf (a b : List Byte) : Scan := scanTo ((a ++ b) ++ [0]) (newlines a) (colOf a)

/-- Every text has tokens before the cursor. -/
theorem C87_tokens (a b : List Byte) (hn : NoNul (a ++ b)) : ∃ toks, TokensBefore a.length (a ++ b) toks := before_exists _ _ _ (Nat.le_refl _) hn

/-- **C87, partial**: in every text, complete or not, in which decorators do not begin in the parentheses of decorators, and structs and packets not in the
braces of structs and packets, the server knows which decorator and which struct or packet the cursor is in. The cursor is behind `a`. -/
theorem C87_context_partial (a b : List Byte) (toks : List (TT × List Byte)) (hn : NoNul (a ++ b)) (h : TokensBefore a.length (a ++ b) toks)
    (h1 : Apart .lparen .rparen [.at] toks) (h2 : Apart .lbrace .rbrace [.kwStruct, .kwPacket] toks) :
    (∀ n, (contextOf a b).deco.name = some n ↔ InDeco toks n) ∧ (∀ n, (contextOf a b).block.name = some n ↔ InBlock toks n) := by
  unfold contextOf
  rw [scanTo_spec hn h]
  exact ⟨scan_deco toks h1, scan_block toks h2⟩

theorem apart_prog {prog : List Item} (hg : Grammatical prog) {toks rest : List (TT × List Byte)} (hp : (prog.flatMap Item.toks).map bare = toks ++ rest) :
    Apart .lparen .rparen [.at] toks ∧ Apart .lbrace .rbrace [.kwStruct, .kwPacket] toks := by
  obtain ⟨g1, g2⟩ := prog_level prog hg
  have k1 := apart_of_level (by decide) (by decide) (by decide) g1
  have k2 := apart_of_level (by decide) (by decide) (by decide) g2
  rw [hp] at k1 k2
  exact ⟨apart_init k1, apart_init k2⟩

/-- **C87** for programs: it suffices that the tokens before the cursor are the beginning of a program; what follows the cursor is arbitrary. -/
theorem C87_context_program (prog : List Item) (hg : Grammatical prog) (a b : List Byte) (toks rest : List (TT × List Byte)) (hn : NoNul (a ++ b))
    (h : TokensBefore a.length (a ++ b) toks) (hp : (prog.flatMap Item.toks).map bare = toks ++ rest) :
    (∀ n, (contextOf a b).deco.name = some n ↔ InDeco toks n) ∧ (∀ n, (contextOf a b).block.name = some n ↔ InBlock toks n) :=
  C87_context_partial a b toks hn h (apart_prog hg hp).1 (apart_prog hg hp).2

theorem staysOpen_of_level {o c : TT} {heads : List TT} (hoc : o ≠ c) {l : List Tok} {e : Nat} (h : level o c heads 0 l = some e) {p r : List (TT × List Byte)}
    (hp : l.map bare = p ++ r) : StaysOpen o c p := by
  rintro q s rfl
  rw [List.append_assoc] at hp
  obtain ⟨l1, l2, rfl, rfl, _⟩ := List.map_eq_append_iff.1 hp
  rw [level_append] at h
  cases h1 : level o c heads 0 l1 with
  | none => rw [h1] at h; cases h
  | some d =>
    have := level_depth hoc l1 0 d h1
    unfold depthOf at this
    omega

theorem outside_of_level {o c : TT} {heads : List TT} (hoc : o ≠ c) (ho : o ≠ .identifier ∧ o ∉ heads) (hc : c ≠ .identifier ∧ c ∉ heads) {l : List Tok}
    (h : level o c heads 0 l = some 0) (n : List Byte) : ¬ InGroup o c heads (l.map bare) n := by
  rintro ⟨q, k, m, x, p, e, f1, f2, f3, f4⟩
  have hk : k.1 ≠ o ∧ k.1 ≠ c := ⟨fun e => ho.2 (e ▸ f1), fun e => hc.2 (e ▸ f1)⟩
  have hm : m.1 ≠ o ∧ m.1 ≠ c := by rw [f2]; exact ⟨fun e => ho.1 e.symm, fun e => hc.1 e.symm⟩
  have hd := level_depth hoc l 0 0 h
  rw [e, depthOf_split o c q p hk hm f3 hoc] at hd
  obtain ⟨l1, l2, rfl, rfl, _⟩ := List.map_eq_append_iff.1 e
  rw [level_append] at h
  cases h1 : level o c heads 0 l1 with
  | none => rw [h1] at h; cases h
  | some d =>
    have h2 := level_depth hoc l1 0 d h1
    have h3 := f4 p [] (by simp)
    unfold depthOf at hd h2
    omega

/-- The declarations of structs and packets with a body. -/
def Decl.block : Decl → Option (List Byte × Body)
  | .struct n b | .packet n b => some (n, b)
  | _ => none

theorem block_toks {d : Decl} {n : List Byte} {b : Body} (h : d.block = some (n, b)) : ∃ k : Tok, (k.type = .kwStruct ∨ k.type = .kwPacket) ∧
    d.toks = k :: tId n :: tLb :: (b.toks ++ [tRb]) := by
  cases d with
  | struct m c => cases h; exact ⟨tStruct, .inl rfl, rfl⟩
  | packet m c => cases h; exact ⟨tPacket, .inr rfl, rfl⟩
  | _ => cases h

/-- **C87**: with the cursor in the body of a struct or packet, wherever it is there, this struct or packet is known. `before` are the declarations before it,
`decs` its decorators, `p` the tokens of its body before the cursor. -/
theorem C87_inside (before : List Item) (decs : List TopDec) (d : Decl) (n : List Byte) (body : Body) (hd : d.block = some (n, body))
    (hg : Grammatical (before ++ [.decl decs d])) (a b : List Byte) (k : TT × List Byte) (p r : List (TT × List Byte)) (hn : NoNul (a ++ b))
    (hk : d.toks.head?.map bare = some k) (hp : body.toks.map bare = p ++ r)
    (h : TokensBefore a.length (a ++ b) ((before.flatMap Item.toks ++ decs.flatMap TopDec.toks).map bare ++ k :: bare (tId n) :: bare tLb :: p)) :
    (contextOf a b).block.name = some n := by
  obtain ⟨k0, hk0, ht⟩ := block_toks hd
  rw [ht] at hk
  injection hk with hk
  subst hk
  have hfl : Flat body.toks := body_flat body fun e he => hg e (List.mem_flatMap.2 ⟨.decl decs d, by simp, by
    cases d with
    | struct m c => cases hd; exact he
    | packet m c => cases hd; exact he
    | _ => cases hd⟩)
  refine ((C87_context_program (before ++ [.decl decs d]) hg a b _ (r ++ [bare tRb]) hn h ?_).2 n).2 ?_
  · rw [List.flatMap_append, List.flatMap_cons, List.flatMap_nil, List.append_nil, Item.toks, ht]
    simp only [List.map_append, List.map_cons, List.map_nil, List.append_assoc, List.cons_append, hp]
  · refine ⟨_, _, _, _, p, rfl, ?_, rfl, rfl, staysOpen_of_level (by decide) (hfl.2 0) hp⟩
    show k0.type ∈ _
    rcases hk0 with e | e <;> rw [e] <;> decide

/-- **C87**: between declarations, no struct, packet or decorator is taken. -/
theorem C87_outside (before : List Item) (hg : Grammatical before) (a b : List Byte) (hn : NoNul (a ++ b))
    (h : TokensBefore a.length (a ++ b) ((before.flatMap Item.toks).map bare)) : (contextOf a b).block.name = none ∧ (contextOf a b).deco.name = none := by
  obtain ⟨h1, h2⟩ := C87_context_program before hg a b _ [] hn h (by simp)
  obtain ⟨g1, g2⟩ := prog_level before hg
  constructor
  · cases e : (contextOf a b).block.name with
    | none => rfl
    | some n => exact absurd ((h2 n).1 e) (outside_of_level (by decide) (by decide) (by decide) g2 n)
  · cases e : (contextOf a b).deco.name with
    | none => rfl
    | some n => exact absurd ((h1 n).1 e) (outside_of_level (by decide) (by decide) (by decide) g1 n)

/-- **C87**: with the cursor in the parentheses of a decorator of a program, wherever it is there, this decorator is known. -/
theorem C87_decorator (prog : List Item) (hg : Grammatical prog) (n : List Byte) (args : List Tok) (hc : CleanExpr args) (q s : List (TT × List Byte))
    (hp : (prog.flatMap Item.toks).map bare = q ++ ((called n args).map bare ++ s)) (a b : List Byte) (p r : List (TT × List Byte)) (hn : NoNul (a ++ b))
    (hargs : args.map bare = p ++ r) (h : TokensBefore a.length (a ++ b) (q ++ bare tAt :: bare (tId n) :: bare tLp :: p)) :
    (contextOf a b).deco.name = some n := by
  refine ((C87_context_program prog hg a b _ (r ++ bare tRp :: s) hn h ?_).1 n).2 ⟨q, _, _, _, p, rfl, by decide, rfl, rfl, staysOpen_of_level (by decide) hc.1.1 hargs⟩
  rw [hp]
  simp only [called, List.map_cons, List.map_append, List.map_nil, hargs, List.append_assoc, List.cons_append, List.nil_append]

/-! ### What is offered -/

/-- The tokens before the cursor do not end with a name and a dot. -/
def NoDot (toks : List (TT × List Byte)) : Prop := ∀ q e d, toks = q ++ [(.identifier, e), d] → d.1 ≠ .dot

theorem scan_last (toks : List (TT × List Byte)) : (toks.foldl scanTok {}).prev = toks.getLastD (.eof, []) ∧
    (∀ q k m, toks = q ++ [k, m] → (toks.foldl scanTok {}).prev2 = k ∧ (toks.foldl scanTok {}).prev = m) := by
  constructor
  · rcases split_last toks with rfl | ⟨q, x, rfl⟩
    · rfl
    · rw [List.foldl_append, List.getLastD_eq_getLast?]
      simp [scanTok]
  · rintro q k m rfl
    rw [List.foldl_append]
    exact ⟨rfl, rfl⟩

theorem scan_two (toks : List (TT × List Byte)) (h1 : (toks.foldl scanTok {}).prev.1 = .dot) (h2 : (toks.foldl scanTok {}).prev2.1 = .identifier) :
    ∃ q, toks = q ++ [(.identifier, (toks.foldl scanTok {}).prev2.2), (toks.foldl scanTok {}).prev] := by
  rcases split_last toks with rfl | ⟨a, x, rfl⟩
  · cases h1
  · rcases split_last a with rfl | ⟨b, y, rfl⟩
    · cases h2
    · have e : (b ++ [y]) ++ [x] = b ++ [y, x] := by simp
      rw [e] at h2 ⊢
      obtain ⟨g1, g2⟩ := (scan_last (b ++ [y, x])).2 b y x rfl
      rw [g1] at h2
      rw [g1, g2]
      exact ⟨b, by rw [← h2]⟩

/-- **C87**: behind the name of an enum and a dot, its values are offered, in order. -/
theorem C87_members (R : Registry) (a b : List Byte) (q : List (TT × List Byte)) (e : List Byte) (dot : List Byte) (d : EnumD) (hn : NoNul (a ++ b))
    (h : TokensBefore a.length (a ++ b) (q ++ [(.identifier, e), (.dot, dot)])) (hd : R.enums.find? (fun x => x.name = e) = some d) :
    completionLabels R ((a ++ b) ++ [0]) (newlines a) (colOf a) = d.values.map (·.1) := by
  unfold completionLabels labelsFor memberOf
  rw [scanTo_spec hn h]
  obtain ⟨g1, g2⟩ := (scan_last _).2 q _ _ rfl
  rw [g1, g2, if_pos ⟨rfl, rfl⟩]
  unfold enumFind
  rw [hd]

/-- The names of the keys. -/
def namesOf (R : Registry) (ks : List Nat) : List (List Byte) := ks.map fun k => R.names.getD k []

/-- **C87, partial**: in the parentheses of @expr, @count and @len within a struct, the fields of this struct are offered, and in those of @expr before them the functions.
It is partial in that the struct's code must be without the instructions the server does not know (C74), and since packets are not among the registered structs. -/
theorem C87_fields_partial (R : Registry) (prog : List Item) (hg : Grammatical prog) (a b : List Byte) (toks rest : List (TT × List Byte)) (hn : NoNul (a ++ b))
    (h : TokensBefore a.length (a ++ b) toks) (hp : (prog.flatMap Item.toks).map bare = toks ++ rest) (hdot : NoDot toks) (n x : List Byte) (hx : InDeco toks x)
    (hb : InBlock toks n) (code : List Byte) (ks : List Nat) (hr : R.structs.lookup n = some code) (hf : Fields false R.names.length code ks) :
    (x = word "expr" → completionLabels R ((a ++ b) ++ [0]) (newlines a) (colOf a) = offeredFunctions ++ namesOf R ks) ∧
    (x = word "count" ∨ x = word "len" → completionLabels R ((a ++ b) ++ [0]) (newlines a) (colOf a) = namesOf R ks) := by
  obtain ⟨h1, h2⟩ := C87_context_program prog hg a b toks rest hn h hp
  unfold contextOf at h1 h2
  have h1 := (h1 x).2 hx
  have h2 := (h2 n).2 hb
  have hm : memberOf R (scanTo ((a ++ b) ++ [0]) (newlines a) (colOf a)) = none := by
    unfold memberOf
    rw [if_neg]
    rintro ⟨k1, k2⟩
    rw [scanTo_spec hn h] at k1 k2
    obtain ⟨q, hq⟩ := scan_two toks k1 k2
    exact hdot q _ _ hq k1
  unfold completionLabels labelsFor
  rw [hm, h1, h2]
  dsimp only
  rw [hr]
  dsimp only
  rw [C74_offered_partial _ _ _ hf]
  constructor
  · rintro rfl
    rw [if_pos (.inl rfl), if_pos rfl]
    rfl
  · intro hx
    have hne : ¬ some x = some (word "expr") := by
      rcases hx with rfl | rfl
      · decide +kernel
      · decide +kernel
    rw [if_pos (.inr (hx.elim (fun e => .inl (by rw [e])) (fun e => .inr (by rw [e])))), if_neg hne]
    rfl

/-- **C87**: where the cursor is in no decorator that takes names, keywords, decorators, structs and enums are offered. -/
theorem C87_others (R : Registry) (prog : List Item) (hg : Grammatical prog) (a b : List Byte) (toks rest : List (TT × List Byte)) (hn : NoNul (a ++ b))
    (h : TokensBefore a.length (a ++ b) toks) (hp : (prog.flatMap Item.toks).map bare = toks ++ rest) (hdot : NoDot toks)
    (hx : ∀ x ∈ [word "expr", word "count", word "len"], ¬ InDeco toks x) :
    completionLabels R ((a ++ b) ++ [0]) (newlines a) (colOf a) = offeredKeywords ++ offeredDecorators ++ R.structs.map (·.1) ++ R.enums.map (·.name) := by
  obtain ⟨h1, h2⟩ := C87_context_program prog hg a b toks rest hn h hp
  unfold contextOf at h1 h2
  have hm : memberOf R (scanTo ((a ++ b) ++ [0]) (newlines a) (colOf a)) = none := by
    unfold memberOf
    rw [if_neg]
    rintro ⟨k1, k2⟩
    rw [scanTo_spec hn h] at k1 k2
    obtain ⟨q, hq⟩ := scan_two toks k1 k2
    exact hdot q _ _ hq k1
  unfold completionLabels labelsFor
  rw [hm]
  dsimp only
  rw [if_neg]
  rintro (k | k | k)
  · exact hx _ (by simp) ((h1 _).1 k)
  · exact hx _ (by simp) ((h1 _).1 k)
  · exact hx _ (by simp) ((h1 _).1 k)

/-! ### Computing the tokens -/

/-- The tokens that begin before an offset, computed by the lexer. -/
def toksTo (src : List Byte) (off : Nat) : Nat → List Byte → Nat → List (TT × List Byte)
  | 0, _, _ => []
  | fuel + 1, cur, line =>
    match lexNext cur line with
    | .tok t rest line' =>
      if t.type = .eof then []
      else if off ≤ src.length - (tokStart (cur.length + 1) cur).length then []
      else (t.type, t.text) :: toksTo src off fuel rest line'
    | _ => []

theorem toksTo_before : ∀ (fuel : Nat) (pre cur : List Byte) (off line : Nat), NoNul (pre ++ cur) → cur.length < fuel →
    TokensBefore (off - pre.length) cur (toksTo ((pre ++ cur) ++ [0]) off fuel (cur ++ [0]) line) := by
  intro fuel
  induction fuel with
  | zero => intro pre cur off line _ h; omega
  | succ f ih =>
    intro pre cur off line hn hf
    rw [toksTo]
    unfold lexNext
    rcases lexLoop_spec [] ((cur ++ [0]).length + 1) cur line hn.right (by simp; omega) with ⟨g1, g2⟩ | ⟨t, raw, s, ty, text, e, g1, g2, g3, g4, g5⟩
    · rw [g2]
      have := TokensBefore.stop (off := off - pre.length) g1 stop_nil (.inl rfl)
      rw [List.append_nil] at this
      exact this
    · rw [g5]
      dsimp only
      rw [if_neg g4]
      subst e
      have hne : raw ++ s ≠ [] := fun h => g3 (List.append_eq_nil_iff.1 h).1
      have hl := isTok_lead g2
      rw [tokStart_spec [] g1 hne (isTok_stop g2) hn.right _ (by simp; omega)]
      by_cases hoff : off ≤ ((pre ++ (t ++ (raw ++ s))) ++ [0]).length - ((raw ++ s).drop (leadOf (raw ++ s)) ++ [0]).length
      · rw [if_pos hoff]
        refine .stop g1 (isTok_stop g2) (.inr ?_)
        simp only [List.length_append, List.length_drop] at hoff
        omega
      · rw [if_neg hoff]
        have hp := List.length_pos_iff.2 g3
        have := ih (pre ++ (t ++ raw)) s off (line + newlines t) (by simpa using hn) (by simp only [List.length_append] at hf; omega)
        have e : pre ++ (t ++ raw) ++ s = pre ++ (t ++ (raw ++ s)) := by simp
        rw [e] at this
        refine .tok g1 g2 ?_ ?_
        · simp only [List.length_append, List.length_drop] at hoff
          omega
        · have e2 : off - (pre ++ (t ++ raw)).length = off - pre.length - (t.length + raw.length) := by
            simp only [List.length_append]; omega
          rw [e2] at this
          exact this

/-- The tokens before the cursor. -/
def cursorToks (a b : List Byte) : List (TT × List Byte) := toksTo ((a ++ b) ++ [0]) a.length ((a ++ b).length + 1) ((a ++ b) ++ [0]) 1

theorem cursorToks_before {a b : List Byte} (hn : NoNul (a ++ b)) : TokensBefore a.length (a ++ b) (cursorToks a b) :=
  toksTo_before _ [] (a ++ b) a.length 1 hn (by simp)

/-! ### Examples -/

namespace CtxDemo

/-- `struct S { u8 n; @count(n) u8 a[]; @expr(n + 1) u8 m; }` and `packet P { S s; u8 k; @count(k) u8 b[]; }` -/
def prog : List Item :=
  [.decl [] (.struct (word "S")
    (.stmt (.field ⟨[], word "u8", word "n", none, .none, .lim none none⟩)
      (.stmt (.field ⟨[.countOf true (word "n")], word "u8", word "a", none, .empty, .lim none none⟩)
        (.stmt (.field ⟨[.expr (.node (.leaf (tId (word "n")) []) (tk .plus (word "+")) (.leaf (tNum (word "1")) []))], word "u8", word "m", none, .none,
          .lim none none⟩) .done)))),
   .decl [] (.packet (word "P")
    (.stmt (.field ⟨[], word "S", word "s", none, .none, .lim none none⟩)
      (.stmt (.field ⟨[], word "u8", word "k", none, .none, .lim none none⟩)
        (.stmt (.field ⟨[.countOf true (word "k")], word "u8", word "b", none, .empty, .lim none none⟩) .done))))]

def t1 : List Byte := word "struct S {\n  u8 n;\n  @count("
def t2 : List Byte := word "n) u8 a[];\n  @expr(n + "
def t3 : List Byte := word "1) u8 m;\n}\npacket P {\n  S s; u8 k; @count("
def t4 : List Byte := word "k) u8 b[];\n}\n"

def flt : FloatOps := Demo.fl

/-- What the compiler knows after the program. -/
def top : Top := (progGen (fun _ => 0) flt prog {}).getD {}

def reg : Registry := ⟨top.structs, top.enums, top.tab⟩

theorem top_ok : progGen (fun _ => 0) flt prog {} = some top := by decide +kernel

theorem gram : Grammatical prog := accepted_grammatical top_ok

/-- The prefix of the program's tokens is computed. -/
theorem split_take {l toks : List (TT × List Byte)} (h : l.take toks.length = toks) : l = toks ++ l.drop toks.length := by
  conv => lhs; rw [← List.take_append_drop toks.length l, h]

def R1 : Registry := ⟨[(word "S", [0x10, 0, 0, 0x11, 1, 0])], [], [word "n", word "k"]⟩

/-- `struct S { u8 n; u16 k; @expr(n + 1) u8 m; }` -/
def prog1 : List Item :=
  [.decl [] (.struct (word "S")
    (.stmt (.field ⟨[], word "u8", word "n", none, .none, .lim none none⟩)
      (.stmt (.field ⟨[], word "u16", word "k", none, .none, .lim none none⟩)
        (.stmt (.field ⟨[.expr (.node (.leaf (tId (word "n")) []) (tk .plus (word "+")) (.leaf (tNum (word "1")) []))], word "u8", word "m", none, .none,
          .lim none none⟩) .done))))]

def a1 : List Byte := word "struct S { u8 n;\n u16 k; @expr(n + "

/-- The text before the cursor as tokens. -/
def toks1 : List Tok := [tStruct, tId (word "S"), tLb, tId (word "u8"), tId (word "n"), tSemi, tId (word "u16"), tId (word "k"), tSemi,
  tAt, tId (word "expr"), tLp, tId (word "n"), tk .plus (word "+")]

theorem gram1 : Grammatical prog1 := accepted_grammatical (dbl := fun _ => 0) (fl := flt) (t := {}) (t' := (progGen (fun _ => 0) flt prog1 {}).getD {}) (by decide +kernel)

/-- Whether no token is NUL. -/
theorem noNul_of {l : List Byte} (h : l.all (· != 0) = true) : NoNul l := fun b hb e => by
  have := List.all_eq_true.1 h b hb
  rw [e] at this
  exact absurd this (by decide)

/-- All hypotheses of the theorem about fields, with nothing behind the cursor. -/
example : completionLabels R1 ((a1 ++ []) ++ [0]) 1 18 = offeredFunctions ++ [word "n", word "k"] := by
  have hB : TokensBefore a1.length (a1 ++ []) (toks1.map bare) := by
    have := cursorToks_before (a := a1) (b := []) (noNul_of (by decide +kernel))
    rwa [show cursorToks a1 [] = toks1.map bare by decide +kernel] at this
  have h := C87_fields_partial R1 prog1 gram1 a1 [] (toks1.map bare) (((prog1.flatMap Item.toks).map bare).drop 14) (noNul_of (by decide +kernel)) hB
    (split_take (toks := toks1.map bare) (by decide +kernel)) (by
      intro q e d h hd
      have := (scan_last _).2 q _ _ h
      have h2 : (List.foldl scanTok {} (toks1.map bare)).prev.1 = .plus := by decide +kernel
      rw [this.2, hd] at h2
      cases h2) (word "S") (word "expr")
    ⟨(toks1.take 9).map bare, bare tAt, bare (tId (word "expr")), bare tLp, [bare (tId (word "n")), bare (tk .plus (word "+"))], rfl, by decide, rfl, rfl,
      staysOpen_of_level (heads := []) (l := [tId (word "n"), tk .plus (word "+")]) (e := 0) (by decide) (by decide) (r := []) rfl⟩
    ⟨[], bare tStruct, bare (tId (word "S")), bare tLb, (toks1.drop 3).map bare, rfl, by decide, rfl, rfl,
      staysOpen_of_level (heads := []) (l := toks1.drop 3) (e := 0) (by decide) (by decide +kernel) (r := []) (by rw [List.append_nil])⟩
    [0x10, 0, 0, 0x11, 1, 0] [0, 1] (by decide +kernel)
    (.field (n := 3) (ks := [1]) (by decide +kernel) (.inr (by decide)) (by decide +kernel)
      (.field (n := 3) (ks := []) (by decide +kernel) (.inr (by decide)) (by decide +kernel) .nil))
  have e1 : newlines a1 = 1 := by decide +kernel
  have e2 : colOf a1 = 18 := by decide +kernel
  rw [e1, e2] at h
  exact h.1 rfl

/-- The values of an enum. -/
example : completionLabels ⟨[], [⟨word "E", 0x12, [(word "A", 0), (word "B", 1)]⟩], []⟩ ((word "case E." ++ word " x") ++ [0]) 0 7 = [word "A", word "B"] := by
  have hn : NoNul (word "case E." ++ word " x") := noNul_of (by decide +kernel)
  have hB := cursorToks_before hn
  rw [show cursorToks (word "case E.") (word " x") = [bare tCase] ++ [(.identifier, word "E"), (.dot, word ".")] by decide +kernel] at hB
  have h := C87_members ⟨[], [⟨word "E", 0x12, [(word "A", 0), (word "B", 1)]⟩], []⟩ _ _ _ _ _ ⟨word "E", 0x12, [(word "A", 0), (word "B", 1)]⟩ hn hB (by decide +kernel)
  rw [show newlines (word "case E.") = 0 by decide +kernel, show colOf (word "case E.") = 7 by decide +kernel] at h
  exact h

/-- The cursor in the second struct of a text. -/
example : (contextOf (word "struct A { } struct B { u8 ") (word "x; }")).block.name = some (word "B") := by
  have hn : NoNul (word "struct A { } struct B { u8 " ++ word "x; }") := noNul_of (by decide +kernel)
  have hB := cursorToks_before hn
  refine C87_inside [.decl [] (.struct (word "A") .done)] [] (.struct (word "B") (.stmt (.field ⟨[], word "u8", word "x", none, .none, .lim none none⟩) .done)) (word "B") _ rfl
    (by intro e he; exact absurd he (by simp [Item.exprs, Body.exprs, Stmt.exprs])) _ _ (bare tStruct) [bare (tId (word "u8"))]
    [bare (tId (word "x")), bare tSemi] hn rfl (by decide +kernel) ?_
  rw [show cursorToks (word "struct A { } struct B { u8 ") (word "x; }") = (List.flatMap Item.toks [Item.decl [] (Decl.struct (word "A") Body.done)] ++
    List.flatMap TopDec.toks []).map bare ++ [bare tStruct, bare (tId (word "B")), bare tLb, bare (tId (word "u8"))] by decide +kernel] at hB
  exact hB

end CtxDemo

/-- **Within packets no fields are offered**, though they have some: packets are not registered as structs. The program is accepted, the cursor is in `@count(` of
its packet, which has the fields `s` and `k` before, and the server offers nothing. -/
theorem C87_false_packet : ∃ (prog : List Item) (t : Top) (a b : List Byte) (toks : List (TT × List Byte)), progGen (fun _ => 0) Demo.fl prog {} = some t ∧ t.packets = 1 ∧
    NoNul (a ++ b) ∧ TokensBefore (a ++ b).length (a ++ b) ((prog.flatMap Item.toks).map bare) ∧ TokensBefore a.length (a ++ b) toks ∧
    (contextOf a b).block.name = some (word "P") ∧ (contextOf a b).deco.name = some (word "count") ∧
    completionLabels ⟨t.structs, t.enums, t.tab⟩ ((a ++ b) ++ [0]) (newlines a) (colOf a) = [] := by
  have hn : NoNul ((CtxDemo.t1 ++ CtxDemo.t2 ++ CtxDemo.t3) ++ CtxDemo.t4) := CtxDemo.noNul_of (by decide +kernel)
  have h0 : TokensBefore ((CtxDemo.t1 ++ CtxDemo.t2 ++ CtxDemo.t3) ++ CtxDemo.t4).length ((CtxDemo.t1 ++ CtxDemo.t2 ++ CtxDemo.t3) ++ CtxDemo.t4)
      ((CtxDemo.prog.flatMap Item.toks).map bare) := by
    have := cursorToks_before (a := (CtxDemo.t1 ++ CtxDemo.t2 ++ CtxDemo.t3) ++ CtxDemo.t4) (b := []) (by rw [List.append_nil]; exact hn)
    rw [show cursorToks ((CtxDemo.t1 ++ CtxDemo.t2 ++ CtxDemo.t3) ++ CtxDemo.t4) [] = (CtxDemo.prog.flatMap Item.toks).map bare by decide +kernel,
      List.append_nil] at this
    exact this
  exact ⟨CtxDemo.prog, CtxDemo.top, CtxDemo.t1 ++ CtxDemo.t2 ++ CtxDemo.t3, CtxDemo.t4, _, CtxDemo.top_ok, by decide +kernel, hn, h0, cursorToks_before hn,
    by decide +kernel, by decide +kernel, by decide +kernel⟩

/-- **Behind a decorator within the parentheses of another, the other is forgotten**: in `@count(@expr()` the cursor is in the parentheses of `@count`. -/
theorem C87_false_nested : ∃ (a b : List Byte) (toks : List (TT × List Byte)), NoNul (a ++ b) ∧ TokensBefore a.length (a ++ b) toks ∧ InDeco toks (word "count") ∧
    (contextOf a b).deco.name = none := by
  have hn : NoNul (word "@count(@expr()" ++ []) := CtxDemo.noNul_of (by decide +kernel)
  refine ⟨word "@count(@expr()", [], _, hn, cursorToks_before hn, ?_, by decide +kernel⟩
  rw [show cursorToks (word "@count(@expr()") [] = [tAt, tId (word "count"), tLp, tAt, tId (word "expr"), tLp, tRp].map bare by decide +kernel]
  exact ⟨[], bare tAt, bare (tId (word "count")), bare tLp, [tAt, tId (word "expr"), tLp, tRp].map bare, rfl, by decide, rfl, rfl,
    staysOpen_of_level (heads := []) (l := [tAt, tId (word "expr"), tLp, tRp]) (e := 0) (by decide) (by decide) (r := []) (by rw [List.append_nil])⟩

end Cnd
