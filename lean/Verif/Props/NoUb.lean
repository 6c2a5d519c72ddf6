/-
  C100: on which source texts the compiler has undefined behaviour (Verif/Parse.lean).

  The parser meets it in four ways: the literal -2^63, an enum value behind 2^63 - 1, a documentation comment where an expression is read,
  and names of nested fields that do not fit an array of 512 bytes. The check `tidy` on the tokens excludes them; the proof follows the
  parser with an invariant about the tokens to come, the lengths of the names in the table and the keys in the code of structs. A `switch`
  is allowed in packets, not in structs; a documentation comment anywhere but between `if` or `expr` and the next `{` or `;`.
-/
import Verif.Parse
import Verif.Props.Names
import Verif.Props.SrcKeys
import Verif.Props.ParseTerm
import Verif.Props.SourceFindings

namespace Cnd.Tidy

/-! ### The condition -/

/-- A literal far from the ends of 64-bit integers: between -2^62 and 2^62. -/
def modest (text : List Byte) : Bool :=
  match parseI64 text with
  | none => false
  | some v => (v + 0x4000000000000000).toNat ≤ 0x8000000000000000

/-- The bounds: bytes of a token, bytes of a name in an expression, and whether there are documentation comments. -/
structure Ctx where
  L : Nat
  A : Nat
  d : Bool

/-- A token: modest if it is taken for a number; not too long; where there are documentation comments, not the function `pow`. -/
def fine (c : Ctx) (t : Tok) : Bool :=
  (if c.d then !t.isWord powName else decide (t.type ≠ .doc)) && decide (t.type ≠ .error) && modest t.text && decide (t.text.length ≤ c.L) &&
    (decide (t.type ≠ .dot) || decide (255 ≤ c.A))

/-- A bit width of 0 or 1. -/
def narrow (n : Tok) : Bool := decide (((parseU32 n.text).setWidth 8 : Byte).toNat ≤ 1)

/-- No `bool` has a bit width but 0 and 1 (where the number is missing, the colon is read as 0). -/
def widthsOk : List Tok → Bool
  | [] => true
  | t :: ts => ((decide (t.type ≠ .colon) || narrow t) && (!t.isWord s_bool ||
      ((match ts with | c :: n :: _ => decide (c.type ≠ .colon) || narrow n | _ => true) &&
       (match ts with | _ :: c :: n :: _ => decide (c.type ≠ .colon) || narrow n | _ => true)))) && widthsOk ts

/-- Tokens that end an expression in any text: `{` and `;`. -/
def stops (t : Tok) : Bool := decide (t.type = .lbrace) || decide (t.type = .semicolon)

/-- Tokens behind which the expression parser drops one: `(` and the unary operators. -/
def opens (t : Tok) : Bool :=
  match ruleOf t.type with
  | some (.grouping, _) => true
  | some (.unary, _) => true
  | _ => false

/-- Tokens behind which an operand is read: those, the binary operators, the names of functions. -/
def wants (t : Tok) : Bool :=
  opens t || (match ruleOf t.type with | some (_, k) => decide (k ≠ 0) | none => false) ||
    (fun1.lookup t.text).isSome || decide (t.text = floatName) || decide (t.text = intName)

/-- No `packet` where a token is dropped; where there are documentation comments, no end of an expression where an operand is read. -/
def windows (c : Ctx) : List Tok → Bool
  | [] => true
  | t :: ts => ((match ts with | u :: _ => (!opens t || decide (u.type ≠ .kwPacket)) && (!c.d || !wants t || !stops u) | [] => true) &&
      (match ts with | _ :: v :: _ => !c.d || !opens t || !stops v | _ => true)) && windows c ts

/-- No `switch` up to the next `packet`. -/
def noSwitch : List Tok → Bool
  | [] => true
  | t :: ts => decide (t.type = .kwPacket) || (decide (t.type ≠ .kwSwitch) && noSwitch ts)

/-- No documentation comment up to the next `{` or `;`. -/
def noDoc : List Tok → Bool
  | [] => true
  | t :: ts => stops t || (decide (t.type ≠ .doc) && noDoc ts)

/-- Between `struct` and the next `packet` there is no `switch`, behind `if` and `expr` no documentation comment up to the next `{` or `;`. -/
def regions : List Tok → Bool
  | [] => true
  | t :: ts => ((decide (t.type ≠ .kwStruct) || noSwitch ts) && (!(decide (t.type = .kwIf) || t.isWord s_expr) || noDoc ts)) && regions ts

def good (c : Ctx) (V : List Tok) : Bool := V.all (fine c) && (widthsOk V && (windows c V && regions V))

def structs (V : List Tok) : Nat := V.countP fun t => t.type = .kwStruct

/-! ### Code of structs as the compiler copies it -/

/-- Code whose keys, where the copying looks for them, are below `n`. -/
inductive W (n : Nat) : List Byte → Prop
  | nil : W n []
  | stop {op : Byte} {r : List Byte} : inlineSize op = none → W n (op :: r)
  | plain {op : Byte} {k : Nat} {x r : List Byte} : inlineSize op = some (k, false) → x.length + 1 = k → W n r → W n (op :: (x ++ r))
  | key {op : Byte} {k : Nat} {k0 k1 : Byte} {x r : List Byte} : inlineSize op = some (k, true) → x.length + 3 = k → (leWord [k0, k1]).toNat < n →
      W n r → W n (op :: k0 :: k1 :: (x ++ r))

theorem W.append {n : Nat} {a b : List Byte} (h : W n a) (g : W n b) : W n (a ++ b) := by
  induction h with
  | nil => exact g
  | stop e => exact .stop e
  | plain e l _ ih => rw [List.cons_append, List.append_assoc]; exact .plain e l ih
  | key e l k _ ih => rw [List.cons_append, List.cons_append, List.cons_append, List.append_assoc]; exact .key e l k ih

theorem W.mono {n n' : Nat} {a : List Byte} (h : W n a) (l : n ≤ n') : W n' a := by
  induction h with
  | nil => exact .nil
  | stop e => exact .stop e
  | plain e l _ ih => exact .plain e l ih
  | key e x k _ ih => exact .key e x (by omega) ih

theorem u16_lt {key n : Nat} (h : key < n) : ∃ k0 k1 : Byte, u16le key = [k0, k1] ∧ (leWord [k0, k1]).toNat < n := by
  refine ⟨_, _, rfl, ?_⟩
  have e : leWord (u16le key) = truncB 2 (BitVec.ofNat 64 key) := leWord_leBytes 2 _ (by decide)
  refine Nat.lt_of_le_of_lt ?_ h
  show (leWord (u16le key)).toNat ≤ key
  rw [e]
  simp only [truncB, BitVec.toNat_setWidth, BitVec.toNat_ofNat]
  omega

/-- An instruction with a key. -/
theorem W.op {n key k : Nat} {op : Byte} {x : List Byte} (e : inlineSize op = some (k, true)) (l : x.length + 3 = k) (h : key < n) : W n (op :: (u16le key ++ x)) := by
  obtain ⟨k0, k1, e1, e2⟩ := u16_lt h
  rw [e1]
  have := W.key e l e2 (.nil (n := n))
  rwa [List.append_nil] at this

theorem W.op3 {n key : Nat} {op : Byte} (e : inlineSize op = some (3, true)) (h : key < n) : W n (op :: u16le key) := by
  have := W.op (x := []) e rfl h
  rwa [List.append_nil] at this

theorem W.one {n k : Nat} {op : Byte} {x : List Byte} (e : inlineSize op = some (k, false)) (l : x.length + 1 = k) : W n (op :: x) := by
  have := W.plain e l (.nil (n := n))
  rwa [List.append_nil] at this

theorem W.one1 {n : Nat} {op : Byte} (e : inlineSize op = some (1, false)) : W n [op] := .one e rfl

theorem prefix_len {a b : List (List Byte)} (h : a <+: b) : a.length ≤ b.length := h.length_le

theorem prefix_getD {a b : List (List Byte)} (h : a <+: b) {i : Nat} (hi : i < a.length) : b.getD i [] = a.getD i [] := by
  obtain ⟨x, rfl⟩ := h
  rw [List.getD_eq_getElem?_getD, List.getD_eq_getElem?_getD, List.getElem?_append_left hi]

theorem add_prefix (tab : List (List Byte)) (n : List Byte) : tab <+: (strtabAdd tab n).1 := by
  rcases strtabAdd_cases tab n with ⟨i, _, _, _, e⟩ | ⟨_, e⟩ <;> rw [e]
  · exact List.prefix_refl _
  · exact List.prefix_append _ _

theorem add_names {tab : List (List Byte)} {n : List Byte} {lim : Nat} (h : ∀ x ∈ tab, x.length ≤ lim) (hn : n.length ≤ lim) :
    ∀ x ∈ (strtabAdd tab n).1, x.length ≤ lim := by
  rcases strtabAdd_cases tab n with ⟨i, _, _, _, e⟩ | ⟨_, e⟩ <;> rw [e]
  · exact h
  · intro x hx
    rcases List.mem_append.mp hx with hx | hx
    · exact h x hx
    · rw [List.mem_singleton.mp hx]; exact hn

/-- Copying a struct into another. -/
theorem inline_ok {n lim L : Nat} {pre : List Byte} (hp : pre.length ≤ L) (hl : lim ≤ 511) {code : List Byte} (h : W n code) :
    ∀ (fuel : Nat) (tab : List (List Byte)), n ≤ tab.length → (∀ i, i < n → (tab.getD i []).length + (L + 1) ≤ lim) → (∀ x ∈ tab, x.length ≤ lim) →
    ∃ bs tab', inlineCode pre fuel tab code = some (bs, tab') ∧ tab <+: tab' ∧ (∀ x ∈ tab', x.length ≤ lim) ∧ W tab'.length bs := by
  induction h with
  | nil =>
    intro fuel tab _ _ h3
    refine ⟨[], tab, ?_, List.prefix_refl _, h3, .nil⟩
    cases fuel <;> rfl
  | @stop op r e =>
    intro fuel tab _ _ h3
    refine ⟨op :: r, tab, ?_, List.prefix_refl _, h3, .stop e⟩
    cases fuel with
    | zero => rfl
    | succ f => simp only [inlineCode, e]
  | @plain op k x r e l hr ih =>
    intro fuel tab h1 h2 h3
    cases fuel with
    | zero => exact ⟨_, tab, rfl, List.prefix_refl _, h3, (W.plain e l hr).mono h1⟩
    | succ f =>
      obtain ⟨bs, tab', e1, e2, e3, e4⟩ := ih f tab h1 h2 h3
      refine ⟨op :: (x ++ bs), tab', ?_, e2, e3, .plain e l e4⟩
      simp only [inlineCode, e]
      rw [if_neg (by simp; omega)]
      have ed : (op :: (x ++ r)).drop k = r := by
        rw [← l, List.drop_succ_cons, List.drop_left]
      have et : (op :: (x ++ r)).take k = op :: x := by
        rw [← l, List.take_succ_cons, List.take_left]
      rw [ed, et, e1]
      rfl
  | @key op k k0 k1 x r e l hk hr ih =>
    intro fuel tab h1 h2 h3
    cases fuel with
    | zero => exact ⟨_, tab, rfl, List.prefix_refl _, h3, (W.key e l hk hr).mono h1⟩
    | succ f =>
      have hn : (pre ++ 0x2E :: tab.getD (leWord [k0, k1]).toNat []).length ≤ lim := by
        have := h2 _ hk
        simp only [List.length_append, List.length_cons]
        omega
      have pp := add_prefix tab (pre ++ 0x2E :: tab.getD (leWord [k0, k1]).toNat [])
      obtain ⟨bs, tab', e1, e2, e3, e4⟩ := ih f (strtabAdd tab (pre ++ 0x2E :: tab.getD (leWord [k0, k1]).toNat [])).1 (Nat.le_trans h1 (prefix_len pp))
        (fun i hi => by rw [prefix_getD pp (by omega)]; exact h2 i hi) (add_names h3 hn)
      have hkey : (strtabAdd tab (pre ++ 0x2E :: tab.getD (leWord [k0, k1]).toNat [])).2 < tab'.length :=
        Nat.lt_of_lt_of_le (strtabAdd_in _ _) (prefix_len e2)
      obtain ⟨j0, j1, f1, f2⟩ := u16_lt hkey
      refine ⟨op :: j0 :: j1 :: (x ++ bs), tab', ?_, pp.trans e2, e3, .key e l f2 e4⟩
      simp only [inlineCode, e]
      rw [if_neg (by simp; omega)]
      have hlt : pre.length + 1 + (tab.getD (leWord [k0, k1]).toNat []).length < 512 := by
        simp only [List.length_append, List.length_cons] at hn; omega
      have ep : prefixedName pre tab (leWord ((List.drop 1 (op :: k0 :: k1 :: (x ++ r))).take 2)).toNat = some (pre ++ 0x2E :: tab.getD (leWord [k0, k1]).toNat []) := by
        show (if pre.length + 1 + (tab.getD (leWord [k0, k1]).toNat []).length < 512 then _ else none) = _
        rw [if_pos hlt]
        rfl
      have ed : (op :: k0 :: k1 :: (x ++ r)).drop k = r := by
        rw [← l]; show (x ++ r).drop x.length = r; rw [List.drop_left]
      have et : ((op :: k0 :: k1 :: (x ++ r)).drop 3).take (k - 3) = x := by
        rw [← l]; show (x ++ r).take (x.length + 3 - 3) = x
        rw [Nat.add_sub_cancel, List.take_left]
      rw [if_pos trivial, ep]
      dsimp only
      rw [ed, et, e1]
      have f1' : leBytes 2 (BitVec.ofNat 64 (strtabAdd tab (pre ++ 0x2E :: tab.getD (leWord [k0, k1]).toNat [])).2) = [j0, j1] := f1
      rw [f1']
      rfl

/-! ### Tokens -/

/-- The token looked at and those to come. -/
def stream (s : PSt) : List Tok := s.cur :: s.toks.filter (fun t => t.type ≠ .error)

theorem pull_eq (ts : List Tok) (n : List Nat) :
    (ts.filter (fun t => t.type ≠ .error) = [] ∧ (pull ts n).1 = eofTok ∧ (pull ts n).2.1 = []) ∨
    ts.filter (fun t => t.type ≠ .error) = (pull ts n).1 :: (pull ts n).2.1.filter (fun t => t.type ≠ .error) := by
  induction ts generalizing n with
  | nil => exact .inl ⟨rfl, rfl, rfl⟩
  | cons t ts ih =>
    unfold pull
    by_cases h : t.type = .error
    · rw [if_pos h, List.filter_cons_of_neg (by simp [h])]
      exact ih _
    · rw [if_neg h, List.filter_cons_of_pos (by simp [h])]
      exact .inr rfl

theorem stream_adv (s : PSt) : (stream s = [s.cur] ∧ stream s.advance = [eofTok]) ∨ stream s = s.cur :: stream s.advance := by
  rcases pull_eq s.toks s.log with ⟨h1, h2, h3⟩ | h
  · left
    constructor
    · unfold stream; rw [h1]
    · show (pull s.toks s.log).1 :: (pull s.toks s.log).2.1.filter _ = _
      rw [h2, h3]; rfl
  · right
    unfold stream
    rw [h]
    rfl

theorem eof_fine (c : Ctx) : fine c eofTok = true := by
  simp only [fine, Bool.and_eq_true, Bool.or_eq_true]
  refine ⟨⟨⟨⟨by split <;> decide, by decide⟩, by decide +kernel⟩, decide_eq_true (Nat.zero_le _)⟩, .inl (by decide)⟩

theorem eof_good (c : Ctx) : good c [eofTok] = true := by
  simp only [good, List.all_cons, List.all_nil, eof_fine, Bool.and_true, Bool.true_and]
  rfl

theorem good_tail {c : Ctx} {t : Tok} {V : List Tok} (h : good c (t :: V) = true) : good c V = true := by
  unfold good at h ⊢
  unfold widthsOk windows regions at h
  rw [List.all_cons] at h
  simp only [Bool.and_eq_true] at h ⊢
  exact ⟨h.1.2, h.2.1.2, h.2.2.1.2, h.2.2.2.2⟩

theorem good_head {c : Ctx} {t : Tok} {V : List Tok} (h : good c (t :: V) = true) : fine c t = true := by
  simp only [good, List.all_cons, Bool.and_eq_true] at h
  exact h.1.1

theorem good_widths {c : Ctx} {V : List Tok} (h : good c V = true) : widthsOk V = true := by
  simp only [good, Bool.and_eq_true] at h; exact h.2.1

theorem good_windows {c : Ctx} {V : List Tok} (h : good c V = true) : windows c V = true := by
  simp only [good, Bool.and_eq_true] at h; exact h.2.2.1

theorem good_regions {c : Ctx} {V : List Tok} (h : good c V = true) : regions V = true := by
  simp only [good, Bool.and_eq_true] at h; exact h.2.2.2

theorem fine_parts {c : Ctx} {t : Tok} (h : fine c t = true) : (c.d = false → t.type ≠ .doc) ∧ t.type ≠ .error ∧ modest t.text = true ∧ t.text.length ≤ c.L ∧
    (t.type = .dot → 255 ≤ c.A) ∧ (c.d = true → t.isWord powName = false) := by
  simp only [fine, Bool.and_eq_true, Bool.or_eq_true, decide_eq_true_eq] at h
  obtain ⟨⟨⟨⟨h1, h2⟩, h3⟩, h4⟩, h5⟩ := h
  refine ⟨fun e => ?_, h2, h3, h4, fun e => h5.resolve_left (fun g => g e), fun e => ?_⟩
  · rw [if_neg (by rw [e]; decide)] at h1; simpa using h1
  · rw [if_pos e] at h1; simpa using h1

/-- What the windows say. -/
theorem windows_next {c : Ctx} {t u : Tok} {V : List Tok} (h : windows c (t :: u :: V) = true) :
    (opens t = true → u.type ≠ .kwPacket) ∧ (c.d = true → wants t = true → stops u = false) := by
  simp only [windows, Bool.and_eq_true, Bool.or_eq_true, Bool.not_eq_true', decide_eq_true_eq] at h
  refine ⟨fun e => h.1.1.1.resolve_left (fun g => by rw [e] at g; cases g), fun e1 e2 => ?_⟩
  rcases h.1.1.2 with (g | g) | g
  · rw [e1] at g; cases g
  · rw [e2] at g; cases g
  · exact g

theorem windows_third {c : Ctx} {t u v : Tok} {V : List Tok} (h : windows c (t :: u :: v :: V) = true) (hd : c.d = true) (ho : opens t = true) : stops v = false := by
  simp only [windows, Bool.and_eq_true, Bool.or_eq_true, Bool.not_eq_true'] at h
  rcases h.1.2 with (g | g) | g
  · rw [hd] at g; cases g
  · rw [ho] at g; cases g
  · exact g

theorem modest_some {text : List Byte} (h : modest text = true) : ∃ v, parseI64 text = some v ∧ (v + 0x4000000000000000).toNat ≤ 0x8000000000000000 := by
  unfold modest at h
  cases e : parseI64 text with
  | none => rw [e] at h; cases h
  | some v => rw [e] at h; exact ⟨v, rfl, of_decide_eq_true h⟩

/-! ### The expression parser -/

/-- From the state `a` the parser has come to `s`; `m` says whether this is the body of a struct. -/
structure JP (c : Ctx) (m : Bool) (lim K : Nat) (a s : PSt) : Prop where
  low : c.L ≤ lim ∧ c.A ≤ lim ∧ lim ≤ K
  good : good c (stream s) = true
  prev : fine c s.prev = true
  room : K + (c.L + 1) * structs (stream s) ≤ 511
  names : ∀ x ∈ s.tab, x.length ≤ lim
  tab : a.tab <+: s.tab
  sw : m = true → s.log ≠ [] ∨ noSwitch (stream s) = true
  code : m = true → ∃ bs, s.out = a.out ++ bs ∧ W s.tab.length bs

variable {c : Ctx} {m : Bool} {lim K : Nat}

theorem JP.cur {a s : PSt} (h : JP c m lim K a s) : fine c s.cur = true := good_head h.good

theorem structs_tail (t : Tok) (V : List Tok) : structs V ≤ structs (t :: V) := by
  unfold structs; rw [List.countP_cons]; omega

theorem pull_log (ts : List Tok) (n : List Nat) (h : n ≠ []) : (pull ts n).2.2 ≠ [] := by
  induction ts generalizing n with
  | nil => exact h
  | cons t ts ih =>
    unfold pull
    split
    · exact ih _ (by simp)
    · exact h

theorem noSwitch_tail {t : Tok} {V : List Tok} (h : noSwitch (t :: V) = true) (ht : t.type ≠ .kwPacket) : noSwitch V = true := by
  simp only [noSwitch, Bool.or_eq_true, decide_eq_true_eq, Bool.and_eq_true] at h
  exact (h.resolve_left ht).2

theorem adv_noSwitch {s : PSt} (h : noSwitch (stream s) = true) (hp : s.cur.type ≠ .kwPacket) : noSwitch (stream s.advance) = true := by
  rcases stream_adv s with ⟨_, e⟩ | e
  · rw [e]; rfl
  · rw [e] at h; exact noSwitch_tail h hp

/-- Advancing, but for `sw`. -/
theorem JP.adv0 {a s : PSt} (h : JP c m lim K a s) (hs : m = true → s.advance.log ≠ [] ∨ noSwitch (stream s.advance) = true) : JP c m lim K a s.advance := by
  refine ⟨h.low, ?_, h.cur, ?_, h.names, h.tab, hs, h.code⟩
  · rcases stream_adv s with ⟨_, e⟩ | e
    · rw [e]; exact eof_good c
    · have := h.good; rw [e] at this; exact good_tail this
  · have := h.room
    rcases stream_adv s with ⟨_, e⟩ | e
    · rw [e]
      have e0 : structs [eofTok] = 0 := rfl
      rw [e0]; omega
    · rw [e] at this
      exact Nat.le_trans (Nat.add_le_add_left (Nat.mul_le_mul_left _ (structs_tail _ _)) _) this

theorem JP.advBad {a s : PSt} (h : JP c m lim K a s) (hl : m = true → s.log ≠ []) : JP c m lim K a s.advance :=
  h.adv0 fun e => .inl (pull_log _ _ (hl e))

theorem JP.adv {a s : PSt} (h : JP c m lim K a s) (hp : m = true → s.cur.type ≠ .kwPacket) : JP c m lim K a s.advance := by
  refine h.adv0 fun e => ?_
  rcases h.sw e with g | g
  · exact .inl (pull_log _ _ g)
  · exact .inr (adv_noSwitch g (hp e))

theorem JP.err {a s : PSt} (h : JP c m lim K a s) : JP c m lim K a s.error := ⟨h.low, h.good, h.prev, h.room, h.names, h.tab, fun _ => .inl (List.cons_ne_nil _ _), h.code⟩

/-- A token dropped with a message. -/
theorem JP.advErr {a s : PSt} (h : JP c m lim K a s) : JP c m lim K a s.advance.error := by
  cases m with
  | false => exact (h.adv0 (fun e => by cases e)).err
  | true =>
    have := (⟨h.low, h.good, h.prev, h.room, h.names, h.tab, (fun e => by cases e), (fun e => by cases e)⟩ : JP c false lim K a s).adv0 (fun e => by cases e)
    exact ⟨this.low, this.good, this.prev, this.room, this.names, this.tab, fun _ => .inl (List.cons_ne_nil _ _), h.code⟩

theorem JP.eat {a s : PSt} {ty : TT} (h : JP c m lim K a s) (hty : ty ≠ .kwPacket := by decide) : JP c m lim K a (s.consume ty) := by
  unfold PSt.consume; split
  · rename_i e; exact h.adv fun _ => by rw [e]; exact hty
  · exact h.err

theorem JP.emit {a s : PSt} {x : List Byte} (h : JP c m lim K a s) (hx : m = true → W s.tab.length x) : JP c m lim K a (s.emit x) := by
  refine ⟨h.low, h.good, h.prev, h.room, h.names, h.tab, h.sw, fun e => ?_⟩
  obtain ⟨bs, e1, e2⟩ := h.code e
  exact ⟨bs ++ x, by show s.out ++ x = _; rw [e1, List.append_assoc], e2.append (hx e)⟩

theorem JP.add {a s : PSt} {n : List Byte} (h : JP c m lim K a s) (hn : n.length ≤ lim) : JP c m lim K a { s with tab := (strtabAdd s.tab n).1 } := by
  refine ⟨h.low, h.good, h.prev, h.room, add_names h.names hn, h.tab.trans (add_prefix _ _), h.sw, fun e => ?_⟩
  obtain ⟨bs, e1, e2⟩ := h.code e
  exact ⟨bs, e1, e2.mono (prefix_len (add_prefix _ _))⟩

theorem JP.load {a s : PSt} {n : List Byte} (h : JP c m lim K a s) (hn : n.length ≤ lim) : JP c m lim K a (s.loadCtx n) :=
  (h.add hn).emit (x := 0x60 :: u16le (strtabAdd s.tab n).2) fun _ => .op3 (by decide) (strtabAdd_in _ _)

def PSafe (p : PSt → Prop) : PRes → Prop
  | .ok _ s => p s
  | .ub => False
  | .stuck => True

/-- Where there are documentation comments, none comes up to the next end of an expression. -/
def Er (c : Ctx) (s : PSt) : Prop := c.d = true → noDoc (stream s) = true

/-- And the token looked at is no such end. -/
def Free (c : Ctx) (s : PSt) : Prop := c.d = true → stops s.cur = false

theorem Er.adv {s : PSt} (h : Er c s) (hz : Free c s) : Er c s.advance := by
  intro e
  have h1 := h e
  rcases stream_adv s with ⟨_, g⟩ | g
  · rw [g]; rfl
  · rw [g] at h1
    simp only [noDoc, Bool.or_eq_true, Bool.and_eq_true] at h1
    rcases h1 with h1 | h1
    · rw [hz e] at h1; cases h1
    · exact h1.2

theorem Er.eat {s : PSt} {ty : TT} (h : Er c s) (hty : ty ≠ .lbrace ∧ ty ≠ .semicolon := by decide) : Er c (s.consume ty) := by
  unfold PSt.consume; split
  · rename_i e
    exact h.adv fun _ => by unfold stops; rw [e]; simp [hty]
  · exact h

theorem rule_fine {s : PSt} (h : fine c s.cur = true) (he : Er c s) (hz : Free c s) : ruleOf s.cur.type ≠ none := by
  have := fine_parts h
  have hdoc : s.cur.type ≠ .doc := by
    cases hd : c.d with
    | false => exact this.1 hd
    | true =>
      have h1 := he hd
      unfold stream at h1
      simp only [noDoc, Bool.or_eq_true, Bool.and_eq_true, decide_eq_true_eq] at h1
      rcases h1 with h1 | h1
      · rw [hz hd] at h1; cases h1
      · exact h1.1
  intro e
  unfold ruleOf at e
  split at e <;> first | (cases e; done) | skip
  · rename_i h1; exact hdoc h1
  · rename_i h1; exact this.2.1 h1

/-- The table of operators is not left at an end of an expression either. -/
theorem rule_fine' {s : PSt} (h : fine c s.cur = true) (he : Er c s) : ruleOf s.cur.type ≠ none := by
  cases hs : stops s.cur with
  | false => exact rule_fine h he fun _ => hs
  | true =>
    unfold stops at hs
    simp only [Bool.or_eq_true, decide_eq_true_eq] at hs
    rcases hs with e | e <;> rw [e] <;> decide

theorem dot_ok {a : PSt} (f : Nat) (name : List Byte) (s : PSt) (h : JP c m lim K a s) (he : Er c s) (hn : name.length ≤ lim) :
    ∀ r s', dotLoop f name s = some (r, s') → JP c m lim K a s' ∧ Er c s' ∧ ∀ n, r = some n → n.length ≤ lim := by
  induction f generalizing name s with
  | zero => intro r s' e; cases e
  | succ f ih =>
    intro r s' e
    unfold dotLoop at e
    split at e
    · rename_i hd
      have hA := (fine_parts h.cur).2.2.2.2.1 hd
      have h1 := h.adv fun _ => by rw [hd]; decide
      have e1 : Er c s.advance := he.adv fun _ => by unfold stops; rw [hd]; decide
      dsimp only at e
      split at e
      · cases e
        exact ⟨h1.eat.err, e1.eat, fun n hn => by cases hn⟩
      · rename_i hlt
        refine ih _ _ h1.eat e1.eat ?_ r s' e
        have := h.low.2.1
        simp only [List.length_append, List.length_cons]
        omega
    · cases e
      exact ⟨h, he, fun n e => by cases e; exact hn⟩

theorem bin_W (n : Nat) (op : TT) (l r : ETy) : W n (binEmit op l r).1 := by
  unfold binEmit
  refine W.append ?_ ?_
  · unfold convOf
    split
    · split
      · exact .plain (x := []) (by decide) rfl (.plain (x := []) (by decide) rfl (.one1 (by decide)))
      · split
        · exact .one1 (by decide)
        · exact .nil
    · exact .nil
  · unfold binOp
    split <;> (try dsimp only) <;> first | exact .nil | exact .one1 (by decide) | (split <;> exact .one1 (by decide))

theorem un_W (n : Nat) (op : TT) (t : ETy) : W n (unEmit op t).1 := by
  unfold unEmit
  split <;> (try dsimp only) <;> first | exact .nil | exact .one1 (by decide) | (split <;> exact .one1 (by decide))

theorem psafe_match {p : PSt → Prop} {q : PSt → Prop} {r : PRes} {F : ETy → PSt → PRes} (h : PSafe q r) (g : ∀ t s, q s → PSafe p (F t s)) :
    PSafe p (match (generalizing := false) r with | .ok t s => F t s | r => r) := by
  cases r with
  | ok t s => exact g t s h
  | ub => exact h
  | stuck => trivial

theorem imm_W (n : Nat) (w : Word) : W n (0x61 :: leBytes 8 w) := .one (k := 9) (by decide) (by rw [leBytes_length])

theorem win_adv {s : PSt} (h : windows c (stream s) = true) : windows c (s.cur :: stream s.advance) = true := by
  rcases stream_adv s with ⟨_, g⟩ | g
  · rw [g]
    simp only [windows, Bool.and_true, Bool.and_eq_true, Bool.or_eq_true]
    exact ⟨.inr (by decide), .inr (by decide)⟩
  · rw [g] at h; exact h

/-- The expression at hand: what is needed before it is read, and what holds behind it. -/
structure In (c : Ctx) (m : Bool) (lim K : Nat) (a s : PSt) : Prop where
  j : JP c m lim K a s
  e : Er c s

theorem In.eat {a s : PSt} {ty : TT} (h : In c m lim K a s) (h1 : ty ≠ .kwPacket := by decide) (h2 : ty ≠ .lbrace ∧ ty ≠ .semicolon := by decide) : In c m lim K a (s.consume ty) :=
  ⟨h.j.eat h1, h.e.eat h2⟩

theorem In.emit {a s : PSt} {x : List Byte} (h : In c m lim K a s) (hx : m = true → W s.tab.length x) : In c m lim K a (s.emit x) := ⟨h.j.emit hx, h.e⟩

theorem opens_wants {t : Tok} (h : opens t = true) : wants t = true := by
  unfold wants; rw [h]; rfl

/-- A function's argument: behind its name and behind `(` no end. -/
theorem arg_free {s : PSt} (h : windows c (s.prev :: stream s) = true) (hw : wants s.prev = true) : Free c (s.consume .lparen) := by
  intro hd
  unfold stream at h
  unfold PSt.consume
  split
  · rename_i e
    have h1 : windows c (stream s) = true := by
      unfold stream; simp only [windows, Bool.and_eq_true] at h ⊢; exact h.2
    have h2 := win_adv h1
    unfold stream at h2
    exact (windows_next h2).2 hd (opens_wants (by unfold opens; rw [e]; rfl))
  · exact (windows_next h).2 hd hw

theorem expr_ok (dbl : List Byte → Word) (f : Nat) :
    (∀ prec (a s : PSt), 1 ≤ prec → In c m lim K a s → Free c s → PSafe (In c m lim K a) (parsePrec dbl f prec s)) ∧
    (∀ prec l (a s : PSt), 1 ≤ prec → In c m lim K a s → PSafe (In c m lim K a) (infixLoop dbl f prec l s)) ∧
    (∀ pre k (a s : PSt), ruleOf s.prev.type = some (pre, k) → windows c (s.prev :: stream s) = true → In c m lim K a s → PSafe (In c m lim K a) (parsePrefix dbl f pre s)) := by
  induction f with
  | zero => exact ⟨fun _ _ _ _ _ _ => trivial, fun _ _ _ _ _ _ => trivial, fun _ _ _ _ _ _ _ => trivial⟩
  | succ f ih =>
    obtain ⟨ih1, ih2, ih3⟩ := ih
    refine ⟨?_, ?_, ?_⟩
    · intro prec a s hp h hz
      unfold parsePrec
      have hr := rule_fine h.j.cur h.e hz
      dsimp only
      have hw := win_adv (good_windows h.j.good)
      have he := h.e.adv hz
      cases e : ruleOf s.cur.type with
      | none => exact absurd e hr
      | some x =>
        obtain ⟨pre, k⟩ := x
        have e' : ruleOf s.advance.prev.type = some (pre, k) := e
        rw [e']
        have hj : pre ≠ .none → JP c m lim K a s.advance := fun hne => h.j.adv fun _ ep => by
          rw [ep] at e; cases e; exact hne rfl
        cases pre with
        | none => exact ⟨h.j.advErr, he⟩
        | grouping => exact psafe_match (ih3 _ k a _ e hw ⟨hj (by decide), he⟩) fun t s hs => ih2 _ _ a s hp hs
        | unary => exact psafe_match (ih3 _ k a _ e hw ⟨hj (by decide), he⟩) fun t s hs => ih2 _ _ a s hp hs
        | primary => exact psafe_match (ih3 _ k a _ e hw ⟨hj (by decide), he⟩) fun t s hs => ih2 _ _ a s hp hs
    · intro prec l a s hp h
      unfold infixLoop
      have hr := rule_fine' h.j.cur h.e
      have hw := win_adv (good_windows h.j.good)
      cases e : ruleOf s.cur.type with
      | none => exact absurd e hr
      | some x =>
        obtain ⟨pre, k⟩ := x
        dsimp only
        split
        · rename_i hk
          have hk0 : k ≠ 0 := by omega
          have hwant : wants s.cur = true := by
            unfold wants; rw [e]; simp [hk0]
          have hz : Free c s := fun _ => by
            unfold stops
            simp only [Bool.or_eq_false_iff, decide_eq_false_iff_not]
            constructor <;> intro g <;> rw [g] at e <;> cases e <;> exact hk0 rfl
          have hj := h.j.adv fun _ g => by
            rw [g] at e; cases e; exact hk0 rfl
          refine psafe_match (ih1 _ a _ (by omega) ⟨hj, h.e.adv hz⟩ fun hd => ?_) fun t s hs => ih2 _ _ a _ hp (hs.emit fun _ => bin_W _ _ _ _)
          have h2 := hw
          unfold stream at h2
          exact (windows_next h2).2 hd hwant
        · exact h
    · intro pre k a s hrule hw h
      have dropped : opens s.prev = true → In c m lim K a s.advance ∧ Free c s.advance := by
        intro ho
        have h2 := hw
        unfold stream at h2
        have h3 := windows_next h2
        refine ⟨⟨h.j.adv fun _ => h3.1 ho, h.e.adv fun hd => h3.2 hd (opens_wants ho)⟩, fun hd => ?_⟩
        rcases stream_adv s with ⟨_, g⟩ | g
        · have : s.advance.cur = eofTok := by unfold stream at g; exact (List.cons.inj g).1
          rw [this]; rfl
        · rw [g] at hw
          have h4 := hw
          unfold stream at h4
          exact windows_third h4 hd ho
      cases pre with
      | none => exact h
      | grouping =>
        unfold parsePrefix
        have := dropped (by unfold opens; rw [hrule])
        exact psafe_match (ih1 _ a _ (Nat.le_refl _) this.1 this.2) fun t s hs => hs.eat
      | unary =>
        unfold parsePrefix
        have := dropped (by unfold opens; rw [hrule])
        exact psafe_match (ih1 _ a _ (by decide) this.1 this.2) fun t s hs => hs.emit fun _ => un_W _ _ _
      | primary =>
        have hp := fine_parts h.j.prev
        have hlen : s.prev.text.length ≤ lim := Nat.le_trans hp.2.2.2.1 h.j.low.1
        have itof : ∀ (t : ETy) (s : PSt), In c m lim K a s → In c m lim K a (if t = .int then s.emit [0x90] else s) := by
          intro t s hs
          split
          · exact hs.emit fun _ => .one1 (by decide)
          · exact hs
        unfold parsePrefix
        dsimp only
        split
        · split
          · exact h.emit fun _ => imm_W _ _
          · obtain ⟨v, e, _⟩ := modest_some hp.2.2.1
            rw [e]
            exact h.emit fun _ => imm_W _ _
        · exact h.emit fun _ => imm_W _ _
        · exact h.emit fun _ => imm_W _ _
        · exact h.emit fun _ => .one1 (by decide)
        · rename_i hid
          cases e : fun1.lookup s.prev.text with
          | some op =>
            have hop : inlineSize op = some (1, false) := by
              have hm : op ∈ fun1.map (·.2) := by
                have := List.lookup_eq_some_iff.mp e
                obtain ⟨l1, l2, e1, _⟩ := this
                rw [e1]; simp
              exact (by decide : ∀ op ∈ fun1.map (·.2), inlineSize op = some (1, false)) op hm
            have hz := arg_free hw (by unfold wants; rw [e]; simp)
            exact psafe_match (ih1 _ a _ (Nat.le_refl _) h.eat hz) fun t s hs => (In.eat (itof t s hs)).emit fun _ => .one1 hop
          | none =>
            dsimp only
            split
            · rename_i hpow
              have hd : c.d = false := by
                cases hd : c.d with
                | false => rfl
                | true =>
                  have := hp.2.2.2.2.2 hd
                  rw [Tok.isWord, decide_eq_false_iff_not] at this
                  exact absurd ⟨hid, hpow⟩ this
              have free : ∀ s : PSt, Free c s := fun s e => by rw [hd] at e; cases e
              refine psafe_match (ih1 _ a _ (Nat.le_refl _) h.eat (free _)) fun t s hs => ?_
              exact psafe_match (ih1 _ a _ (Nat.le_refl _) (In.eat (itof t s hs)) (free _)) fun t s hs => (In.eat (itof t s hs)).emit fun _ => .one1 (by decide)
            · split
              · rename_i hfn
                have hz := arg_free hw (by unfold wants; rw [hfn]; simp)
                exact psafe_match (ih1 _ a _ (Nat.le_refl _) h.eat hz) fun t s hs => (In.eat hs).emit fun _ => .one1 (by decide)
              · split
                · rename_i hfn
                  have hz := arg_free hw (by unfold wants; rw [hfn]; simp)
                  exact psafe_match (ih1 _ a _ (Nat.le_refl _) h.eat hz) fun t s hs => (In.eat hs).emit fun _ => .one1 (by decide)
                · split
                  · split
                    · exact ⟨h.j.err, h.e⟩
                    · have hd := dot_ok f s.prev.text s h.j h.e hlen
                      cases e1 : dotLoop f s.prev.text s with
                      | none => trivial
                      | some x =>
                        obtain ⟨r, s'⟩ := x
                        obtain ⟨d1, d2, d3⟩ := hd r s' e1
                        cases r with
                        | none => exact ⟨d1, d2⟩
                        | some nm => exact ⟨d1.load (d3 nm rfl), d2⟩
                  · exact ⟨h.j.load hlen, h.e⟩
        · exact h

/-- A whole expression. -/
theorem whole_ok (dbl : List Byte → Word) (f : Nat) {a s : PSt} (h : In c m lim K a s) : PSafe (JP c m lim K a) (parsePrec dbl f 1 s) := by
  by_cases hz : Free c s
  · have := (expr_ok (c := c) (m := m) (lim := lim) (K := K) dbl f).1 1 a s (Nat.le_refl _) h hz
    cases e : parsePrec dbl f 1 s with
    | ok t p => rw [e] at this; exact this.j
    | ub => rw [e] at this; exact this
    | stuck => trivial
  · cases f with
    | zero => trivial
    | succ f =>
      have hs : stops s.cur = true := by
        cases hs : stops s.cur with
        | true => rfl
        | false => exact absurd (fun _ => hs) hz
      have hr : ruleOf s.advance.prev.type = some (.none, 0) := by
        show ruleOf s.cur.type = _
        unfold stops at hs
        simp only [Bool.or_eq_true, decide_eq_true_eq] at hs
        rcases hs with e | e <;> rw [e] <;> rfl
      unfold parsePrec
      dsimp only
      rw [hr]
      exact h.j.advErr

/-! ### The rest of the parser -/

structure J (c : Ctx) (m : Bool) (lim K : Nat) (a s : CSt) : Prop where
  p : JP c m lim K a.toPSt s.toPSt
  structs : s.structs = a.structs
  enums : s.enums = a.enums

/-- What is declared. -/
structure Base (c : Ctx) (lim : Nat) (a : CSt) : Prop where
  regs : ∀ x ∈ a.structs, ∃ n, W n x.2 ∧ n ≤ a.tab.length ∧ ∀ i, i < n → (a.tab.getD i []).length + (c.L + 1) ≤ lim
  enums : ∀ e ∈ a.enums, inlineSize e.type = some (3, true)

def CSafe {α : Type} (p : α → Prop) : CRes α → Prop
  | .ok a => p a
  | .ub => False
  | _ => True

theorem csafe_bind {α β : Type} {p : α → Prop} {q : β → Prop} {r : CRes α} {F : α → CRes β} (h : CSafe p r) (g : ∀ a, p a → CSafe q (F a)) : CSafe q (r.bind F) := by
  cases r with
  | ok a => exact g a h
  | ub => exact h
  | imports => trivial
  | stuck => trivial

theorem csafe_mono {α : Type} {p q : α → Prop} {r : CRes α} (h : CSafe p r) (g : ∀ a, p a → q a) : CSafe q r := by
  cases r with
  | ok a => exact g a h
  | ub => exact h
  | imports => trivial
  | stuck => trivial

theorem csafe_dite {α : Type} {p : α → Prop} {b : Prop} [Decidable b] {x y : CRes α} (h : b → CSafe p x) (g : ¬ b → CSafe p y) : CSafe p (if b then x else y) := by
  split
  · exact h ‹_›
  · exact g ‹_›

theorem csafe_ite {α : Type} {p : α → Prop} {b : Prop} [Decidable b] {x y : CRes α} (h : CSafe p x) (g : CSafe p y) : CSafe p (if b then x else y) := by
  split <;> assumption

section
variable {a s : CSt}

theorem JP.refl_of {a s : PSt} (h : JP c m lim K a s) : JP c m lim K s s :=
  ⟨h.low, h.good, h.prev, h.room, h.names, List.prefix_refl _, h.sw, fun _ => ⟨[], (List.append_nil _).symm, .nil⟩⟩

theorem JP.trans {a b s : PSt} (h : JP c m lim K a b) (g : JP c m lim K b s) : JP c m lim K a s := by
  refine ⟨g.low, g.good, g.prev, g.room, g.names, h.tab.trans g.tab, g.sw, fun e => ?_⟩
  obtain ⟨x, e1, e2⟩ := h.code e
  obtain ⟨y, e3, e4⟩ := g.code e
  exact ⟨x ++ y, by rw [e3, e1, List.append_assoc], (e2.mono (prefix_len g.tab)).append e4⟩

theorem J.refl_of (h : J c m lim K a s) : J c m lim K s s := ⟨h.p.refl_of, rfl, rfl⟩
theorem J.trans {b : CSt} (h : J c m lim K a b) (g : J c m lim K b s) : J c m lim K a s := ⟨h.p.trans g.p, g.structs.trans h.structs, g.enums.trans h.enums⟩
theorem Base.of (hb : Base c lim a) (h : J c m lim K a s) : Base c lim s := by
  refine ⟨fun x hx => ?_, fun e he => hb.enums e (h.enums ▸ he)⟩
  obtain ⟨n, h1, h2, h3⟩ := hb.regs x (h.structs ▸ hx)
  exact ⟨n, h1, Nat.le_trans h2 (prefix_len h.p.tab), fun i hi => by rw [prefix_getD h.p.tab (by omega)]; exact h3 i hi⟩

theorem J.adv (h : J c m lim K a s) (hp : m = true → s.cur.type ≠ .kwPacket) : J c m lim K a s.adv := ⟨h.p.adv hp, h.structs, h.enums⟩
theorem J.advT {ty : TT} (h : J c m lim K a s) (e : s.cur.type = ty) (hty : ty ≠ .kwPacket := by decide) : J c m lim K a s.adv := h.adv fun _ => by rw [e]; exact hty
theorem J.advW {w : List Byte} (h : J c m lim K a s) (e : s.cur.isWord w = true) : J c m lim K a s.adv := h.advT (of_decide_eq_true e).1
theorem J.err (h : J c m lim K a s) : J c m lim K a s.err := ⟨h.p.err, h.structs, h.enums⟩
theorem J.errIf {b : Bool} (h : J c m lim K a s) : J c m lim K a (s.errIf b) := by
  unfold CSt.errIf; split
  · exact h.err
  · exact h
theorem J.eat {ty : TT} (h : J c m lim K a s) (hty : ty ≠ .kwPacket := by decide) : J c m lim K a (s.eat ty) := ⟨h.p.eat hty, h.structs, h.enums⟩
theorem J.put {x : List Byte} (h : J c m lim K a s) (hx : m = true → W s.tab.length x) : J c m lim K a (s.put x) := ⟨h.p.emit hx, h.structs, h.enums⟩
theorem J.number (h : J c m lim K a s) : J c m lim K a s.number.2 := h.eat
theorem J.intern {n : List Byte} (h : J c m lim K a s) (hn : n.length ≤ lim) : J c m lim K a (s.intern n).1 := ⟨h.p.add hn, h.structs, h.enums⟩
theorem intern_key (s : CSt) (n : List Byte) : (s.intern n).2 < (s.intern n).1.tab.length := strtabAdd_in _ _
theorem J.cur (h : J c m lim K a s) : fine c s.cur = true := h.p.cur
theorem J.curLen (h : J c m lim K a s) : s.cur.text.length ≤ lim := Nat.le_trans (fine_parts h.cur).2.2.2.1 h.p.low.1
theorem J.curNum (h : J c m lim K a s) : ∃ v, parseI64 s.cur.text = some v := by
  obtain ⟨v, e, _⟩ := modest_some (fine_parts h.cur).2.2.1
  exact ⟨v, e⟩
theorem J.errs {α : Type} (l : List α) (h : J c m lim K a s) : J c m lim K a (l.foldl (fun s _ => s.err) s) := by
  induction l generalizing s with
  | nil => exact h
  | cons x l ih => exact ih h.err

theorem errIf_tab (s : CSt) (b : Bool) : (s.errIf b).tab = s.tab := by
  unfold CSt.errIf; split <;> rfl

theorem advance_tab (s : PSt) : s.advance.tab = s.tab := rfl
theorem eat_tab (s : CSt) (ty : TT) : (s.eat ty).tab = s.tab := by
  show (s.toPSt.consume ty).tab = s.tab
  unfold PSt.consume; split <;> rfl

theorem cexpr_ok (P : PEnv) (f : Nat) (h : J c m lim K a s) (he : Er c s.toPSt) : CSafe (J c m lim K a) (s.expr P f) := by
  have := whole_ok (c := c) P.dbl f (a := a.toPSt) (s := s.toPSt) ⟨h.p, he⟩
  unfold CSt.expr parseExpr
  cases e : parsePrec P.dbl f 1 s.toPSt with
  | ok t p => rw [e] at this; exact ⟨this, h.structs, h.enums⟩
  | ub => rw [e] at this; exact this
  | stuck => trivial

/-- Behind `if` and `expr` no documentation comment comes up to the next end. -/
theorem er_start {s : PSt} (h : JP c m lim K a.toPSt s) (hc : s.cur.type = .kwIf ∨ s.cur.isWord s_expr = true) : Er c s.advance := by
  intro _
  rcases stream_adv s with ⟨_, g⟩ | g
  · rw [g]; rfl
  · have h1 := good_regions h.good
    rw [g] at h1
    simp only [regions, Bool.and_eq_true, Bool.or_eq_true, Bool.not_eq_true', Bool.or_eq_false_iff, decide_eq_false_iff_not] at h1
    rcases h1.1.2 with h2 | h2
    · rcases hc with hc | hc
      · exact absurd hc h2.1
      · rw [hc] at h2; cases h2.2
    · exact h2

def RangeOk (c : Ctx) (r : Option (Tok × Tok)) : Prop := ∀ x, r = some x → fine c x.1 = true ∧ fine c x.2 = true

theorem stopW {n : Nat} {op : Byte} {r : List Byte} (h : inlineSize op = none) : W n (op :: r) := .stop h

theorem bounds_some (P : PEnv) (op : Byte) {lo hi : Tok} (h1 : fine c lo = true) (h2 : fine c hi = true) : rangeBounds P op lo.text hi.text ≠ none := by
  obtain ⟨v, e, _⟩ := modest_some (fine_parts h1).2.2.1
  obtain ⟨w, e', _⟩ := modest_some (fine_parts h2).2.2.1
  unfold rangeBounds
  rw [e, e']
  dsimp only
  split <;> (intro h; cases h)

theorem range_ok (P : PEnv) (op : Byte) {r : Option (Tok × Tok)} (hr : RangeOk c r) (h : J c m lim K a s) : CSafe (J c m lim K a) (rangePart P op r s) := by
  unfold rangePart
  cases r with
  | none => exact h
  | some x =>
    have hb := bounds_some (c := c) P op (hr x rfl).1 (hr x rfl).2
    dsimp only
    unfold emitRange
    cases e : rangeBounds P op x.1.text x.2.text with
    | none => exact absurd e hb
    | some y =>
      dsimp only
      exact csafe_ite h.err (h.put fun _ => .stop (by decide))

theorem poly_ok (P : PEnv) (f : Nat) (cs : List Word) (h : J c m lim K a s) : CSafe (fun r => J c m lim K a r.2) (polyLoop P f cs s) := by
  induction f generalizing cs s with
  | zero => trivial
  | succ f ih =>
    unfold polyLoop
    have key : ∀ r : List Word × CSt, J c m lim K a r.2 → CSafe (fun r => J c m lim K a r.2) (if r.2.cur.type = .comma then polyLoop P f r.1 r.2.adv else .ok r) :=
      fun r hr => csafe_dite (fun e => ih r.1 (hr.advT e)) fun _ => hr
    apply key
    dsimp only
    split
    · rename_i e
      split
      · exact h.advT e
      · exact (h.advT e).err
    · exact h.eat

theorem spline_ok (P : PEnv) (f : Nat) (cs : List Word) (h : J c m lim K a s) : CSafe (fun r => J c m lim K a r.2) (splineLoop P f cs s) := by
  induction f generalizing cs s with
  | zero => trivial
  | succ f ih =>
    unfold splineLoop
    have key : ∀ r : List Word × CSt, J c m lim K a r.2 → CSafe (fun r => J c m lim K a r.2) (if r.2.cur.type = .comma then splineLoop P f r.1 r.2.adv else .ok r) :=
      fun r hr => csafe_dite (fun e => ih r.1 (hr.advT e)) fun _ => hr
    apply key
    dsimp only
    split
    · rename_i e
      split
      · exact (h.advT e).eat.eat
      · exact (h.advT e).err
    · exact h.eat

theorem skip_ok (f : Nat) (h : J c m lim K a s) (hl : m = true → s.log ≠ []) : CSafe (J c m lim K a) (skipToParen f s) := by
  induction f generalizing s with
  | zero => trivial
  | succ f ih => unfold skipToParen; exact csafe_ite h (ih ⟨h.p.advBad hl, h.structs, h.enums⟩ fun e => pull_log _ _ (hl e))

theorem docs_ok (f : Nat) (h : J c m lim K a s) : CSafe (fun t => J c m lim K a t ∧ (noSwitch (stream s.toPSt) = true → noSwitch (stream t.toPSt) = true)) (skipDocs f s) := by
  induction f generalizing s with
  | zero => trivial
  | succ f ih =>
    unfold skipDocs
    refine csafe_dite (fun e => ?_) fun _ => ⟨h, id⟩
    exact csafe_mono (ih (h.advT e)) fun t ht => ⟨ht.1, fun g => ht.2 (adv_noSwitch g (by rw [e]; decide))⟩

/-- The decorators read so far. -/
def DOk (c : Ctx) (m : Bool) (lim K : Nat) (a : CSt) (r : Dec × CSt) : Prop := RangeOk c r.1.range ∧ J c m lim K a r.2

theorem decInt_ok (t : Trans) (d : Dec) (hd : RangeOk c d.range) (h : J c m lim K a s) : CSafe (DOk c m lim K a) (decInt t d s) := by
  unfold decInt
  obtain ⟨v, e⟩ := h.curNum
  have e' : parseI64 s.number.1 = some v := e
  rw [e']
  exact ⟨hd, h.number⟩

theorem bits_J {x : BitVec 32} (h : J c m lim K a s) : J c m lim K a { s with bitCount := x } := ⟨h.p, h.structs, h.enums⟩

theorem decArgs_ok (P : PEnv) (f : Nat) (t : Tok) (hE : t.isWord s_expr = true → Er c s.toPSt) (d : Dec) (hd : RangeOk c d.range) (h : J c m lim K a s) : CSafe (DOk c m lim K a) (decArgs P f t d s) := by
  unfold decArgs
  refine csafe_ite ?_ ?_
  · exact csafe_dite (fun e => ⟨hd, (h.advT e).intern h.curLen⟩) fun _ => csafe_dite (fun e => ⟨hd, h.advT e⟩) fun _ => ⟨hd, h.err⟩
  refine csafe_ite ?_ ?_
  · obtain ⟨v, e⟩ := h.curNum
    have e' : parseI64 s.number.1 = some v := e
    rw [e']
    exact ⟨hd, h.number⟩
  refine csafe_ite ?_ ?_
  · refine ⟨hd, ?_⟩
    have h1 : J c m lim K a (s.number.2.put [0x23, (parseU32 s.number.1).setWidth 8]) := h.number.put fun _ => .one (k := 2) (by decide) rfl
    dsimp only
    split
    · exact bits_J h1
    · exact h1
  refine csafe_ite ?_ ?_
  · refine ⟨fun x e => ?_, h.eat.eat.eat⟩
    cases e
    exact ⟨h.cur, h.eat.eat.cur⟩
  refine csafe_ite ?_ ?_
  · refine ⟨?_, h.number⟩
    dsimp only
    split
    · exact hd
    · split <;> exact hd
  refine csafe_ite ⟨hd, h.number⟩ (csafe_ite ⟨hd, h.number⟩ (csafe_ite ⟨hd, h.number⟩ (csafe_ite ⟨hd, h.number⟩ ?_)))
  refine csafe_ite ?_ ?_
  · refine ⟨?_, h.number⟩
    dsimp only
    split <;> exact hd
  refine csafe_ite (decInt_ok _ _ hd h) (csafe_ite (decInt_ok _ _ hd h) (csafe_ite (decInt_ok _ _ hd h) (csafe_ite (decInt_ok _ _ hd h) ?_)))
  refine csafe_ite (csafe_bind (poly_ok P f _ h) fun r hr => ⟨hd, hr⟩) ?_
  refine csafe_ite (csafe_bind (spline_ok P f _ h) fun r hr => ⟨hd, hr⟩) ?_
  split
  · rename_i he
    exact csafe_bind (cexpr_ok P f h (hE he)) fun r hr => ⟨hd, hr⟩
  · exact csafe_bind (skip_ok f h.err fun _ => List.cons_ne_nil _ _) fun r hr => ⟨hd, hr⟩

theorem fill_ok (h : J c m lim K a s) : J c m lim K a (decFill s) := by
  unfold decFill
  have key : ∀ r : Byte × CSt, J c m lim K a r.2 → J c m lim K a
      (if (r.2.put [0x24, r.1]).inBit ∧ (r.2.put [0x24, r.1]).bitValid then { r.2.put [0x24, r.1] with bitCount := 0 } else r.2.put [0x24, r.1]) := by
    intro r hr
    have h1 : J c m lim K a (r.2.put [0x24, r.1]) := hr.put fun _ => .one (k := 2) (by decide) rfl
    split
    · exact bits_J h1
    · exact h1
  apply key
  split
  · rename_i e; exact (J.errIf (h.advT e).number).eat
  · exact h

theorem decOne_ok (P : PEnv) (f : Nat) (d : Dec) (hd : RangeOk c d.range) (h : J c m lim K a s) : CSafe (DOk c m lim K a) (decOne P f d s) := by
  unfold decOne
  refine csafe_ite ⟨hd, h.eat⟩ (csafe_ite ⟨hd, h.eat⟩ (csafe_ite ⟨hd, fill_ok h.eat⟩ (csafe_ite ⟨hd, h.eat⟩ (csafe_ite ⟨hd, h.eat⟩ (csafe_ite ⟨hd, ?_⟩ (csafe_ite ⟨hd, h.eat⟩ ?_))))))
  · exact h.eat.put fun _ => .stop (by decide)
  · refine csafe_bind (decArgs_ok P f _ (fun he => ?_) d hd h.eat.eat) fun r hr => ⟨hr.1, hr.2.eat⟩
    have e1 : s.toPSt.consume .identifier = s.toPSt.advance := by
      unfold PSt.consume; rw [if_pos (of_decide_eq_true he).1]
    show Er c ((s.toPSt.consume .identifier).consume .lparen)
    rw [e1]
    exact (er_start h.p (.inr he)).eat

theorem decLoop_ok (P : PEnv) (f : Nat) (d : Dec) (hd : RangeOk c d.range) (h : J c m lim K a s) : CSafe (DOk c m lim K a) (decLoopS P f d s) := by
  induction f generalizing d s with
  | zero => trivial
  | succ f ih =>
    unfold decLoopS
    exact csafe_dite (fun e => csafe_bind (decOne_ok P f d hd (h.advT e)) fun r hr => ih r.1 hr.1 hr.2) fun _ => ⟨hd, h⟩

theorem trans_W (n : Nat) (d : Dec) : W n (transEmit d) := by
  unfold transEmit
  split <;> first | exact .nil | exact .stop (by decide)

/-! ### Fields -/

theorem find_mem {α : Type} {t : Tok} {l : List (List Byte × α)} {k : α} (h : t.find l = some k) : (t.text, k) ∈ l := by
  unfold Tok.find at h
  split at h
  · exact lookup_mem h
  · cases h

theorem eofs {s : PSt} (h : stream s = [eofTok]) : s.cur = eofTok ∧ stream s.advance = [eofTok] := by
  have h0 : s.cur = eofTok := by
    unfold stream at h; exact (List.cons.inj h).1
  refine ⟨h0, ?_⟩
  rcases stream_adv s with ⟨_, e⟩ | e
  · exact e
  · rw [h] at e
    unfold stream at e
    exact absurd (List.cons.inj e).2 (by simp)

/-- A width that comes next is 0 or 1. -/
def NW (s : PSt) : Prop := s.cur.type = .colon → narrow s.cur = true ∧ (s.advance.cur.type = .number → narrow s.advance.cur = true)

theorem pull_cur (ts : List Tok) (n m : List Nat) : (pull ts n).1 = (pull ts m).1 := by
  induction ts generalizing n m with
  | nil => rfl
  | cons t ts ih =>
    unfold pull
    split
    · exact ih _ _
    · rfl

theorem NW.err {s : PSt} (h : NW s) : NW s.error := by
  intro e
  refine ⟨(h e).1, fun e2 => ?_⟩
  have e3 : s.error.advance.cur = s.advance.cur := pull_cur _ _ _
  rw [e3] at e2 ⊢
  exact (h e).2 e2

theorem nw_eof {s : PSt} (h : stream s = [eofTok]) : NW s := fun e => by
  rw [(eofs h).1] at e; cases e

theorem widths_tail {t : Tok} {V : List Tok} (h : widthsOk (t :: V) = true) : widthsOk V = true := by
  simp only [widthsOk, Bool.and_eq_true] at h; exact h.2

theorem widths_colon {t : Tok} {V : List Tok} (h : widthsOk (t :: V) = true) (e : t.type = .colon) : narrow t = true := by
  simp only [widthsOk, Bool.and_eq_true, Bool.or_eq_true, decide_eq_true_eq] at h
  exact h.1.1.resolve_left (fun g => g e)

theorem nw_of {s : PSt} (hw : widthsOk (stream s) = true) (hn : stream s = s.cur :: stream s.advance → s.cur.type = .colon → narrow s.advance.cur = true) : NW s := by
  intro e
  refine ⟨widths_colon (V := s.toks.filter (fun t => t.type ≠ .error)) hw e, fun e2 => ?_⟩
  rcases stream_adv s with ⟨_, h⟩ | h
  · rw [(eofs h).1] at e2; cases e2
  · exact hn h e

theorem bool_widths {s : PSt} (hg : widthsOk (stream s) = true) (hb : s.cur.isWord s_bool = true) : NW s.advance ∧ NW s.advance.advance := by
  rcases stream_adv s with ⟨_, h⟩ | h
  · exact ⟨nw_eof h, nw_eof (eofs h).2⟩
  · rw [h] at hg
    have hg1 := widths_tail hg
    have key := hg
    simp only [widthsOk, Bool.and_eq_true, Bool.or_eq_true, hb, Bool.not_true] at key
    have key2 := key.1.2.resolve_left (by decide)
    constructor
    · refine nw_of hg1 fun e ec => ?_
      have k1 := key2.1
      rw [e] at k1
      unfold stream at k1
      simp only [Bool.or_eq_true, decide_eq_true_eq] at k1
      exact k1.resolve_left (fun g => g ec)
    · rcases stream_adv s.advance with ⟨_, h2⟩ | h2
      · exact nw_eof h2
      · rw [h2] at hg1
        refine nw_of (widths_tail hg1) fun e ec => ?_
        have k1 := key2.2
        rw [h2, e] at k1
        unfold stream at k1
        simp only [Bool.or_eq_true, decide_eq_true_eq] at k1
        exact k1.resolve_left (fun g => g ec)

theorem width_small {s : CSt} (h : NW s.toPSt) : (shapeWidth s).1.toNat ≤ 1 := by
  unfold shapeWidth
  split
  · rename_i e
    have h1 := h e
    have : narrow (s.adv.eat .number).prev = true := by
      show narrow (s.toPSt.advance.consume .number).prev = true
      unfold PSt.consume
      split
      · rename_i e2; exact h1.2 e2
      · exact h1.1
    exact of_decide_eq_true this
  · exact Nat.zero_le 1

/-- The shape of a field. -/
structure ShOk (ty : Tok) (h : Shape) : Prop where
  arr : ∀ op, h.arrPre = some op → inlineSize op = some (3, true)
  str : ∀ op, h.strPre = some op → inlineSize op = some (3, true)
  width : ty.isWord s_bool = true → h.width.toNat ≤ 1

theorem width_ok (h : J c m lim K a s) : J c m lim K a (shapeWidth s).2 := by
  unfold shapeWidth; split
  · rename_i e; exact (h.advT e).eat
  · exact h

theorem shapeArr_ok (h : J c m lim K a s) : J c m lim K a (shapeArr s).2.2.2 := by
  unfold shapeArr; split
  · rename_i e
    have h1 := h.advT e
    dsimp only
    split
    · rename_i e2; exact h1.advT e2
    · exact h1.number.eat
  · exact h

theorem pre_sizes : ∀ x ∈ prefixTypes, inlineSize (0x35 + x.2) = some (3, true) ∧ inlineSize (0x31 + x.2) = some (3, true) := by decide

theorem mods_ok (ty : Tok) (d : Dec) {sh : Shape} (hs : ShOk ty sh) (h : J c m lim K a s) : ShOk ty (shapeMods ty d sh s).1 ∧ J c m lim K a (shapeMods ty d sh s).2 := by
  unfold shapeMods
  split
  · rename_i hw
    have h1 := h.advW hw
    dsimp only
    split
    · split
      · rename_i k e
        exact ⟨⟨fun op g => by cases g; exact (pre_sizes _ (find_mem e)).1, hs.str, hs.width⟩, h1.eat⟩
      · exact ⟨hs, h1.eat.err⟩
    · split
      · split
        · rename_i k e
          exact ⟨⟨hs.arr, fun op g => by cases g; exact (pre_sizes _ (find_mem e)).2, hs.width⟩, h1.eat⟩
        · exact ⟨hs, h1.eat.err⟩
      · exact ⟨hs, h1.eat.err⟩
  · split
    · have key : ∀ r : Shape × CSt, ShOk ty r.1 → J c m lim K a r.2 →
          ShOk ty (if r.2.cur.isWord s_max then ({ r.1 with maxLen := (parseU32 r.2.adv.number.1).setWidth 16 }, r.2.adv.number.2) else r : Shape × CSt).1 ∧
          J c m lim K a (if r.2.cur.isWord s_max then ({ r.1 with maxLen := (parseU32 r.2.adv.number.1).setWidth 16 }, r.2.adv.number.2) else r : Shape × CSt).2 := by
        intro r h1 h2
        split
        · rename_i e; exact ⟨⟨h1.arr, h1.str, h1.width⟩, (h2.advW e).number⟩
        · exact ⟨h1, h2⟩
      apply key
      · split
        · exact ⟨hs.arr, hs.str, hs.width⟩
        · exact hs
      · split
        · rename_i e; exact (h.advW e).eat
        · exact h
    · exact ⟨hs, h⟩

theorem arr_W {n key : Nat} (d : Dec) {ty : Tok} {sh : Shape} (hs : ShOk ty sh) (hk : key < n) : W n (arrCode d sh key) := by
  unfold arrCode
  split
  · rename_i op e; exact .op3 (hs.arr op e) hk
  · split
    · exact .op3 (by decide) hk
    · split
      · split
        · exact .op (k := 5) (by decide) (by rfl) hk
        · split <;> exact .nil
      · split
        · exact .op (k := 7) (by decide) (by rfl) hk
        · exact .nil
      · exact .nil

theorem const_ok (P : PEnv) (ty : Tok) (d : Dec) (hd : RangeOk c d.range) (key : Nat) (v : Word) (h : J c m lim K a s) : CSafe (J c m lim K a) (fieldConst P ty d key v s) := by
  unfold fieldConst
  exact range_ok P _ hd (h.errIf.errIf.put fun _ => .stop (by decide))

theorem J.retab {tab' : List (List Byte)} (h : J c m lim K a s) (hp : s.tab <+: tab') (hn : ∀ x ∈ tab', x.length ≤ lim) : J c m lim K a { s with tab := tab' } := by
  refine ⟨⟨h.p.low, h.p.good, h.p.prev, h.p.room, hn, h.p.tab.trans hp, h.p.sw, fun e => ?_⟩, h.structs, h.enums⟩
  obtain ⟨x, e1, e2⟩ := h.p.code e
  exact ⟨x, e1, e2.mono (prefix_len hp)⟩

theorem J.lim511 (h : J c m lim K a s) : lim ≤ 511 := by
  have := h.p.room
  have := h.p.low.2.2
  omega

theorem struct_ok {code : List Byte} {ty name : Tok} (d : Dec) (sh : Shape) {key : Nat} (hname : name.text.length ≤ c.L) (h : J c m lim K a s) (hk : key < s.tab.length)
    (hc : ∃ n, W n code ∧ n ≤ s.tab.length ∧ ∀ i, i < n → (s.tab.getD i []).length + (c.L + 1) ≤ lim) : CSafe (fun r => J c m lim K a r.2) (fieldStruct code ty name d sh key s) := by
  unfold fieldStruct
  refine csafe_ite h.err ?_
  dsimp only
  have h1 : J c m lim K a ((((s.errIf (d.trans ≠ .none)).errIf d.range.isSome).errIf d.crc).errIf (sh.width ≠ 0)) := h.errIf.errIf.errIf.errIf
  have ht : ((((s.errIf (d.trans ≠ .none)).errIf d.range.isSome).errIf d.crc).errIf (sh.width ≠ 0)).tab = s.tab := by simp only [errIf_tab]
  generalize ((((s.errIf (d.trans ≠ .none)).errIf d.range.isSome).errIf d.crc).errIf (sh.width ≠ 0)) = t at h1 ht ⊢
  have h2 : J c m lim K a (t.put (0x03 :: u16le key)) := h1.put fun _ => .op3 (by decide) (by rw [ht]; exact hk)
  obtain ⟨n, c1, c2, c3⟩ := hc
  have hpre : (name.text.take 255).length ≤ c.L := by rw [List.length_take]; omega
  obtain ⟨bs, tab', e1, e2, e3, e4⟩ := inline_ok hpre h.lim511 c1 code.length t.tab (by rw [ht]; exact c2) (by rw [ht]; exact c3) h1.p.names
  have e1' : inlineCode (name.text.take 255) code.length (t.put (0x03 :: u16le key)).tab code = some (bs, tab') := e1
  rw [e1']
  exact ((h2.retab e2 e3).put fun _ => e4).put fun _ => .one1 (by decide)

theorem enum_ok (P : PEnv) {e : EnumD} (he : inlineSize e.type = some (3, true)) (d : Dec) (hd : RangeOk c d.range) (sh : Shape) {key : Nat} (h : J c m lim K a s) (hk : key < s.tab.length) :
    CSafe (J c m lim K a) (fieldEnum P e d sh key s) := by
  unfold fieldEnum
  refine range_ok P _ hd ((h.errIf.errIf.errIf.put fun _ => .op3 he ?_).put fun _ => .stop (by decide))
  simp only [errIf_tab]; exact hk

theorem string_ok (d : Dec) (sh : Shape) {key : Nat} (h : J c m lim K a s) (hk : key < s.tab.length) : J c m lim K a (fieldString d sh key s) := by
  unfold fieldString
  dsimp only
  split
  · exact h.errIf.errIf.errIf.errIf
  · refine h.errIf.errIf.errIf.errIf.errIf.put fun _ => .op (k := 5) (by decide) (by rfl) ?_
    simp only [errIf_tab]; exact hk

theorem bit_W {n key : Nat} {ty : Tok} {op width : Byte} (ho : bitOp ty = some op) (hw : ty.isWord s_bool = true → width.toNat ≤ 1) (hk : key < n) : W n (op :: (u16le key ++ [width])) := by
  unfold bitOp at ho
  split at ho
  · cases ho; exact .op (k := 4) (by decide) rfl hk
  · split at ho
    · cases ho; exact .op (k := 4) (by decide) rfl hk
    · split at ho
      · rename_i hb
        cases ho
        have h1 : W n (0x22 :: u16le key) := .op3 (by decide) hk
        have h2 : W n [width] := by
          refine .one1 ?_
          have := hw hb
          have hc : width.toNat = 0 ∨ width.toNat = 1 := by omega
          rcases hc with hc | hc
          · have : width = 0 := BitVec.eq_of_toNat_eq hc
            rw [this]; decide
          · have : width = 1 := BitVec.eq_of_toNat_eq hc
            rw [this]; decide
        exact h1.append h2
      · cases ho

theorem bitWidths_bool {ty : Tok} (h : ty.isWord s_bool = true) : (bitWidths ty).toNat ≤ 1 := by
  have h' := of_decide_eq_true h
  unfold bitWidths Tok.find
  rw [if_pos h'.1, h'.2]
  have : List.lookup s_bool (unsignedTypes ++ signedTypes) = none := by decide
  rw [this]
  dsimp only
  split <;> decide

theorem plain_sizes : ∀ x ∈ plainTypes, inlineSize x.2 = some (3, true) := by decide

theorem crc_W (n : Nat) (d : Dec) : W n (crcEmit d) := by
  unfold crcEmit
  split
  · exact .stop (by decide)
  · split
    · exact .stop (by decide)
    · exact .nil

theorem plain_ok (P : PEnv) {ty : Tok} (d : Dec) (hd : RangeOk c d.range) {sh : Shape} (hs : ShOk ty sh) {key : Nat} (h : J c m lim K a s) (hk : key < s.tab.length) :
    CSafe (fun r => J c m lim K a r.2) (fieldPlain P ty d sh key s) := by
  unfold fieldPlain
  have hw : ty.isWord s_bool = true → (if s.inBit ∧ sh.width = 0 then bitWidths ty else sh.width).toNat ≤ 1 := by
    intro e; split
    · exact bitWidths_bool e
    · exact hs.width e
  dsimp only
  generalize (if s.inBit ∧ sh.width = 0 then bitWidths ty else sh.width) = width at hw ⊢
  refine csafe_ite ?_ ?_
  · split
    · exact h.err
    · rename_i op ho
      have h1 := h.put fun _ => bit_W ho hw hk
      dsimp only [CSafe]
      split
      · exact bits_J h1
      · exact h1
  · refine csafe_ite h.err ?_
    split
    · exact h.err
    · rename_i op ho
      have hp := plain_sizes _ (find_mem ho)
      refine csafe_ite ?_ (csafe_ite ?_ ?_)
      · exact h.errIf.errIf.put fun _ => crc_W _ _
      · refine h.put fun _ => ?_
        have w1 : W s.tab.length [0x64] := .one1 (by decide)
        have w2 : W s.tab.length (0x78 :: u16le key) := .op3 (by decide) hk
        have w3 : W s.tab.length [0x65, op] := .one (k := 2) (by decide) rfl
        exact w1.append (w2.append w3)
      · exact csafe_bind (range_ok P op hd (h.put fun _ => .op3 hp hk)) fun r hr => hr

theorem value_ok (P : PEnv) {ty name : Tok} (d : Dec) (hd : RangeOk c d.range) {sh : Shape} (hs : ShOk ty sh) {key : Nat} (hname : name.text.length ≤ c.L) (hb : Base c lim s)
    (h : J c m lim K a s) (hk : key < s.tab.length) : CSafe (fun r => J c m lim K a r.2) (fieldValue P ty name d sh key s) := by
  unfold fieldValue
  split
  · exact csafe_bind (const_ok P ty d hd key _ h) fun r hr => hr
  · split
    · rename_i code hf
      exact struct_ok d sh hname h hk (hb.regs _ (lookup_mem hf))
    · split
      · rename_i e hf
        exact csafe_bind (enum_ok P (hb.enums e (List.mem_of_find?_eq_some hf)) d hd sh h hk) fun r hr => hr
      · exact csafe_ite (string_ok d sh h hk) (plain_ok P d hd hs h hk)

theorem emit_ok (P : PEnv) {ty name : Tok} (d : Dec) (hd : RangeOk c d.range) {sh : Shape} (hs : ShOk ty sh) {key : Nat} (hname : name.text.length ≤ c.L) (hb : Base c lim a)
    (h : J c m lim K a s) (hk : key < s.tab.length) : CSafe (J c m lim K a) (fieldEmit P ty name d sh key s) := by
  unfold fieldEmit
  dsimp only
  have h1 := h.errIf (b := decide (sh.arr ∧ ty.isWord s_string ∧ sh.strPre = none ∧ ¬ sh.until_ ∧ d.count = none ∧ d.ref = none))
  have k1 : key < (s.errIf (decide (sh.arr ∧ ty.isWord s_string ∧ sh.strPre = none ∧ ¬ sh.until_ ∧ d.count = none ∧ d.ref = none))).tab.length := by
    rw [errIf_tab]; exact hk
  generalize s.errIf (decide (sh.arr ∧ ty.isWord s_string ∧ sh.strPre = none ∧ ¬ sh.until_ ∧ d.count = none ∧ d.ref = none)) = t1 at h1 k1 ⊢
  have h2 : J c m lim K a (if d.be then t1.put [0x02] else t1) := by
    split
    · exact h1.put fun _ => .one1 (by decide)
    · exact h1
  have k2 : key < (if d.be then t1.put [0x02] else t1).tab.length := by
    split <;> exact k1
  generalize (if d.be then t1.put [0x02] else t1) = t2 at h2 k2 ⊢
  have h3 := h2.put fun _ => arr_W d hs k2
  have k3 : key < (t2.put (arrCode d sh key)).tab.length := k2
  generalize t2.put (arrCode d sh key) = t3 at h3 k3 ⊢
  have fin : ∀ t4 : CSt, J c m lim K a t4 → key < t4.tab.length → CSafe (J c m lim K a) ((fieldValue P ty name d sh key t4).bind fun r =>
      if r.1 then .ok r.2
      else .ok (if d.be then ((if sh.arr then r.2.put [0x38] else r.2).eat .semicolon).put [0x01] else (if sh.arr then r.2.put [0x38] else r.2).eat .semicolon)) := by
    intro t4 h4 k4
    refine csafe_bind (value_ok P d hd hs hname (hb.of h4) h4 k4) fun r hr => ?_
    refine csafe_ite hr ?_
    have h5 : J c m lim K a (if sh.arr then r.2.put [0x38] else r.2) := by
      split
      · exact hr.put fun _ => .one1 (by decide)
      · exact hr
    generalize (if sh.arr then r.2.put [0x38] else r.2) = t5 at h5 ⊢
    dsimp only [CSafe]
    split
    · exact h5.eat.put fun _ => .one1 (by decide)
    · exact h5.eat
  apply fin
  · split
    · rename_i op e; exact h3.put fun _ => .op3 (hs.str op e) k3
    · exact h3
  · split <;> exact k3

theorem fields_J {l : List (List Byte)} (h : J c m lim K a s) : J c m lim K a { s with fields := l } := ⟨h.p, h.structs, h.enums⟩

theorem rest_ok (P : PEnv) {ty name : Tok} (d : Dec) (hd : RangeOk c d.range) (hname : name.text.length ≤ c.L) (hb : Base c lim a)
    (hw : ty.isWord s_bool = true → NW s.toPSt) (h : J c m lim K a s) : CSafe (J c m lim K a) (fieldRest P ty name d s) := by
  unfold fieldRest
  dsimp only
  have hnl : name.text.length ≤ lim := Nat.le_trans hname h.p.low.1
  have h1 : J c m lim K a { s.errIf (decide ((strtabAdd s.fields name.text).1.length = s.fields.length)) with fields := (strtabAdd s.fields name.text).1 } := fields_J h.errIf
  have w1 : ty.isWord s_bool = true → NW ({ s.errIf (decide ((strtabAdd s.fields name.text).1.length = s.fields.length)) with fields := (strtabAdd s.fields name.text).1 } : CSt).toPSt := by
    intro e
    have := hw e
    unfold CSt.errIf
    split
    · exact this.err
    · exact this
  generalize ({ s.errIf (decide ((strtabAdd s.fields name.text).1.length = s.fields.length)) with fields := (strtabAdd s.fields name.text).1 } : CSt) = t1 at h1 w1 ⊢
  have h2 := h1.intern hnl
  have w2 : ty.isWord s_bool = true → NW (t1.intern name.text).1.toPSt := w1
  have k2 := intern_key t1 name.text
  generalize t1.intern name.text = r at h2 w2 k2 ⊢
  have h3 : J c m lim K r.1 (shapeArr (shapeWidth r.1).2).2.2.2 := shapeArr_ok (width_ok h2.refl_of)
  have hsh : ShOk ty { width := (shapeWidth r.1).1, arr := (shapeArr (shapeWidth r.1).2).1, var := (shapeArr (shapeWidth r.1).2).2.1 } :=
    ⟨fun op e => by (cases e), fun op e => by (cases e), fun e => width_small (w2 e)⟩
  have fin : ∀ d' : Dec, d'.range = d.range → CSafe (J c m lim K a) (fieldEmit P ty name d'
      (shapeMods ty d' { width := (shapeWidth r.1).1, arr := (shapeArr (shapeWidth r.1).2).1, var := (shapeArr (shapeWidth r.1).2).2.1 } (shapeArr (shapeWidth r.1).2).2.2.2).1 r.2
      (shapeMods ty d' { width := (shapeWidth r.1).1, arr := (shapeArr (shapeWidth r.1).2).1, var := (shapeArr (shapeWidth r.1).2).2.1 } (shapeArr (shapeWidth r.1).2).2.2.2).2) := by
    intro d' hd'
    have h4 := mods_ok ty d' hsh h3
    exact emit_ok P d' (by rw [hd']; exact hd) h4.1 hname hb (h2.trans h4.2) (Nat.lt_of_lt_of_le k2 (prefix_len h4.2.p.tab))
  apply fin
  split <;> rfl

theorem decl_ok (P : PEnv) (d : Dec) (hd : RangeOk c d.range) (hb : Base c lim a) (h : J c m lim K a s) : CSafe (J c m lim K a) (fieldDecl P d s) := by
  unfold fieldDecl
  refine csafe_ite ?_ ?_
  · dsimp only [CSafe]
    split
    · rename_i e; exact h.advT e
    · exact h
  · dsimp only
    have h1 := h.put (x := transEmit d) fun _ => trans_W _ d
    generalize s.put (transEmit d) = t at h1 ⊢
    refine csafe_ite h1.eat.err ?_
    refine rest_ok P d hd (fine_parts h1.eat.cur).2.2.2.1 hb (fun e => ?_) h1.eat.eat
    have hbw := bool_widths (good_widths h1.p.good) e
    have e1 : t.cur.type = .identifier := (of_decide_eq_true e).1
    have e2 : (t.eat .identifier).toPSt = t.toPSt.advance := by
      show t.toPSt.consume .identifier = _
      unfold PSt.consume; rw [if_pos e1]
    show NW ((t.eat .identifier).toPSt.consume .identifier)
    rw [e2]
    unfold PSt.consume
    split
    · exact hbw.2
    · exact hbw.1.err

/-! ### Statements -/

theorem splice_mid (p r o y : List Byte) (op : Byte) (h : o.length = y.length) : splice (p ++ op :: (o ++ r)) (p.length + 1) y = p ++ op :: (y ++ r) := by
  unfold splice
  have e1 : (p ++ op :: (o ++ r)).take (p.length + 1) = p ++ [op] := by
    rw [List.take_append, List.take_of_length_le (by omega), Nat.add_sub_cancel_left]; rfl
  have e2 : (p ++ op :: (o ++ r)).drop (p.length + 1 + y.length) = r := by
    rw [List.drop_append, List.drop_of_length_le (by omega)]
    have : p.length + 1 + y.length - p.length = y.length + 1 := by omega
    rw [this, List.drop_succ_cons, ← h, List.drop_left]; rfl
  rw [e1, e2]
  simp

theorem patch_out {t : CSt} {p r o y : List Byte} {op : Byte} (e : t.out = p ++ op :: (o ++ r)) (h : o.length = y.length) : (t.patch (p.length + 1) y).out = p ++ op :: (y ++ r) := by
  show (if p.length + 1 + y.length > t.out.length then t.out else splice t.out (p.length + 1) y) = _
  rw [if_neg, e, splice_mid _ _ _ _ _ h]
  rw [e]; simp; omega

/-- Patching an instruction without key. -/
theorem J.patch {off : Nat} {y : List Byte} (h : J c m lim K a s)
    (hx : m = true → ∃ b r o op, s.out = a.out ++ b ++ op :: (o ++ r) ∧ W s.tab.length b ∧ W s.tab.length r ∧ inlineSize op = some (o.length + 1, false) ∧ o.length = y.length ∧
      off = (a.out ++ b).length + 1) : J c m lim K a (s.patch off y) := by
  refine ⟨⟨h.p.low, h.p.good, h.p.prev, h.p.room, h.p.names, h.p.tab, h.p.sw, fun e => ?_⟩, h.structs, h.enums⟩
  obtain ⟨b, r, o, op, e1, w1, w2, e2, e3, e4⟩ := hx e
  refine ⟨b ++ op :: (y ++ r), ?_, ?_⟩
  · rw [e4]
    have := patch_out e1 e3
    rw [List.append_assoc] at this
    exact this
  · exact w1.append (.plain e2 (by rw [e3]) w2)

theorem J.advS (hm : m = false) (h : J c m lim K a s) : J c m lim K a s.adv := h.adv fun e => by rw [hm] at e; cases e

theorem label_ok (hm : m = false) (h : J c m lim K a s) : ∃ v t, caseLabel s = some (v, t) ∧ J c m lim K a t := by
  unfold caseLabel
  split
  · obtain ⟨v, e⟩ := h.curNum
    rw [e]; exact ⟨v, _, rfl, h.advS hm⟩
  · split
    · dsimp only
      split
      · split
        · exact ⟨_, _, rfl, ((h.advS hm).advS hm).eat.err⟩
        · split
          · exact ⟨_, _, rfl, ((h.advS hm).advS hm).eat⟩
          · exact ⟨_, _, rfl, ((h.advS hm).advS hm).eat.err⟩
      · exact ⟨_, _, rfl, (h.advS hm).err⟩
    · exact ⟨_, _, rfl, h⟩

theorem J.patchS {off : Nat} {y : List Byte} (hm : m = false) (h : J c m lim K a s) : J c m lim K a (s.patch off y) :=
  h.patch fun e => by rw [hm] at e; cases e

theorem J.putS {y : List Byte} (hm : m = false) (h : J c m lim K a s) : J c m lim K a (s.put y) :=
  h.put fun e => by rw [hm] at e; cases e

theorem fixes_ok (hm : m = false) (n : Nat) (l : List Nat) (h : J c m lim K a s) : J c m lim K a (l.foldl (fun s j => s.patch (j + 1) (u32le (n - (j + 5)))) s) := by
  induction l generalizing s with
  | nil => exact h
  | cons x l ih => exact ih (h.patchS hm)

theorem end_ok (hm : m = false) (w : Sw) (loc : Nat) (h : J c m lim K a s) : J c m lim K a (switchEnd w loc s) := by
  unfold switchEnd
  refine (fixes_ok hm _ _ (J.putS hm ?_)).patchS hm
  split
  · exact h.eat.patchS hm
  · exact h.eat

/-- All statements of a given depth. -/
structure StOk (c : Ctx) (m : Bool) (lim K : Nat) (P : PEnv) (f : Nat) : Prop where
  if_ : ∀ a s, Base c lim a → J c m lim K a s → Er c s.toPSt → CSafe (J c m lim K a) (parseIf P f s)
  sw : m = false → ∀ a s, Base c lim a → J c m lim K a s → CSafe (J c m lim K a) (parseSwitch P f s)
  loop : m = false → ∀ b w a s, Base c lim a → J c m lim K a s → CSafe (fun r => J c m lim K a r.2) (switchLoop P f b w s)
  case_ : ∀ a s, Base c lim a → J c m lim K a s → CSafe (J c m lim K a) (caseBody P f s)
  field : ∀ a s, Base c lim a → J c m lim K a s → CSafe (J c m lim K a) (parseField P f s)
  block : ∀ a s, Base c lim a → J c m lim K a s → CSafe (J c m lim K a) (parseBlock P f s)
  bloop : ∀ a s, Base c lim a → J c m lim K a s → CSafe (J c m lim K a) (blockLoop P f s)

theorem st_ok (P : PEnv) (f : Nat) : StOk c m lim K P f := by
  induction f with
  | zero =>
    constructor <;> intros <;> simp [parseIf, parseSwitch, switchLoop, caseBody, parseField, parseBlock, blockLoop, CSafe]
  | succ f ih =>
    constructor
    · intro a s hb h he
      unfold parseIf
      refine csafe_bind (cexpr_ok P f h.eat he.eat) fun t ht => ?_
      dsimp only
      have hu := ht.eat (ty := .rparen)
      generalize t.eat .rparen = u at hu ⊢
      have hv : J c m lim K a (u.put [0x50, 0, 0, 0, 0]) := hu.put fun _ => .one (k := 5) (by decide) rfl
      refine csafe_bind (ih.block (u.put [0x50, 0, 0, 0, 0]) _ (hb.of hv) hv.refl_of) fun w hw => ?_
      have hq : J c m lim K a ((w.put [0x52, 0, 0, 0, 0]).patch (u.out.length + 1) (u32le ((w.put [0x52, 0, 0, 0, 0]).out.length - (u.out.length + 5)))) ∧
          (m = true → ∃ b, ((w.put [0x52, 0, 0, 0, 0]).patch (u.out.length + 1) (u32le ((w.put [0x52, 0, 0, 0, 0]).out.length - (u.out.length + 5)))).out = a.out ++ b ++ [0x52, 0, 0, 0, 0] ∧
            W w.tab.length b ∧ w.out.length = (a.out ++ b).length) := by
        have h1 : J c m lim K a (w.put [0x52, 0, 0, 0, 0]) := (hv.trans hw).put fun _ => .one (k := 5) (by decide) rfl
        generalize hx : u32le ((w.put [0x52, 0, 0, 0, 0]).out.length - (u.out.length + 5)) = x
        have hxl : x.length = 4 := by rw [← hx]; rfl
        have main : m = true → ∃ b0 b1, u.out = a.out ++ b0 ∧ W w.tab.length b0 ∧ W w.tab.length b1 ∧ w.out = a.out ++ b0 ++ 0x50 :: ([0, 0, 0, 0] ++ b1) := by
          intro e
          obtain ⟨b0, e0, w0⟩ := hu.p.code e
          obtain ⟨b1, e1, w1⟩ := hw.p.code e
          refine ⟨b0, b1, e0, w0.mono (prefix_len hw.p.tab), w1, ?_⟩
          rw [e1]
          show (u.out ++ [0x50, 0, 0, 0, 0]) ++ b1 = _
          rw [e0]; simp
        constructor
        · refine h1.patch fun e => ?_
          obtain ⟨b0, b1, e0, w0, w1, e1⟩ := main e
          refine ⟨b0, b1 ++ [0x52, 0, 0, 0, 0], [0, 0, 0, 0], 0x50, ?_, w0, w1.append (.one (k := 5) (by decide) rfl), by decide, by rw [hxl]; rfl, by rw [e0]⟩
          show w.out ++ [0x52, 0, 0, 0, 0] = _
          rw [e1]; simp
        · intro e
          obtain ⟨b0, b1, e0, w0, w1, e1⟩ := main e
          refine ⟨b0 ++ 0x50 :: (x ++ b1), ?_, w0.append (.plain (k := 5) (by decide) (by rw [hxl]) w1), ?_⟩
          · have e2 : (w.put [0x52, 0, 0, 0, 0]).out = u.out ++ 0x50 :: ([0, 0, 0, 0] ++ (b1 ++ [0x52, 0, 0, 0, 0])) := by
              show w.out ++ _ = _
              rw [e1, e0]; simp
            rw [patch_out e2 (by rw [hxl]; rfl), e0]; simp
          · rw [e1]; simp [hxl]; omega
      have hqt : ((w.put [0x52, 0, 0, 0, 0]).patch (u.out.length + 1) (u32le ((w.put [0x52, 0, 0, 0, 0]).out.length - (u.out.length + 5)))).tab = w.tab := rfl
      generalize (w.put [0x52, 0, 0, 0, 0]).patch (u.out.length + 1) (u32le ((w.put [0x52, 0, 0, 0, 0]).out.length - (u.out.length + 5))) = q at hq hqt ⊢
      have hbq := hb.of hq.1
      have hr : CSafe (J c m lim K q) (if q.cur.type = .kwElse then if q.adv.cur.type = .kwIf then parseIf P f q.adv.adv else parseBlock P f q.adv else .ok q) :=
        csafe_dite (fun e => csafe_dite (fun e2 => ih.if_ q _ hbq ((hq.1.refl_of.advT e).advT e2) (er_start (a := q) (hq.1.refl_of.advT e).p (.inl e2)))
          fun _ => ih.block q _ hbq (hq.1.refl_of.advT e)) fun _ => hq.1.refl_of
      refine csafe_bind hr fun r hr => ?_
      refine (hq.1.trans hr).patch fun e => ?_
      obtain ⟨b, e1, w1, e2⟩ := hq.2 e
      obtain ⟨b2, e3, w3⟩ := hr.p.code e
      refine ⟨b, b2, [0, 0, 0, 0], 0x52, ?_, w1.mono (by rw [← hqt]; exact prefix_len hr.p.tab), w3, by decide, rfl, by rw [e2]⟩
      rw [e3, e1]; simp
    · intro hm a s hb h
      unfold parseSwitch
      dsimp only
      have h1 : J c m lim K a (((((s.eat .lparen).eat .identifier).intern (s.eat .lparen).cur.text).1.eat .rparen).eat .lbrace) :=
        (h.eat.eat.intern h.eat.curLen).eat.eat
      exact csafe_bind (ih.loop hm _ _ a _ hb (h1.putS hm)) fun q hq => end_ok hm _ _ hq
    · intro hm b w a s hb h
      unfold switchLoop
      refine csafe_ite h (csafe_ite ?_ (csafe_ite ?_ ?_))
      · obtain ⟨v, t, e, ht⟩ := label_ok hm (h.advS hm)
        rw [e]
        exact csafe_bind (ih.case_ a _ hb (J.errs _ ht.eat)) fun r hr => ih.loop hm _ _ a _ hb (hr.putS hm)
      · exact csafe_bind (ih.case_ a _ hb (h.advS hm).eat) fun r hr => ih.loop hm _ _ a _ hb (hr.putS hm)
      · exact ih.loop hm _ _ a _ hb (h.err.advS hm)
    · intro a s hb h
      unfold caseBody
      exact csafe_ite (ih.block a s hb h) (ih.field a s hb h)
    · intro a s hb h
      unfold parseField
      refine csafe_dite (fun _ => h) fun hbad => csafe_bind (docs_ok f h) fun t ht => ?_
      obtain ⟨ht, hns⟩ := ht
      split
      · rename_i hk
        cases m with
        | true =>
          rcases h.p.sw rfl with g | g
          · exact absurd (decide_eq_true (by simpa using g)) hbad
          · have := hns g
            unfold stream at this
            simp only [noSwitch, Bool.or_eq_true, Bool.and_eq_true, decide_eq_true_eq] at this
            rcases this with e | e
            · rw [hk] at e; cases e
            · exact absurd hk e.1
        | false => exact ih.sw rfl a _ hb (ht.advS rfl)
      · split
        · rename_i hk
          exact ih.if_ a _ hb (ht.advT hk) (er_start ht.p (.inl hk))
        exact csafe_bind (decLoop_ok P f {} (fun x e => by cases e) ht) fun r hr => decl_ok P r.1 hr.1 hb hr.2
    · intro a s hb h
      unfold parseBlock
      exact csafe_bind (ih.bloop a _ hb h.eat) fun r hr => hr.eat
    · intro a s hb h
      unfold blockLoop
      exact csafe_ite h (csafe_dite (fun e => ih.bloop a _ hb (h.advT e)) fun _ => (csafe_bind (ih.field a s hb h) fun r hr => ih.bloop a r hb hr))

/-! ### Declarations -/

theorem next_le (v : Word) : (v + 1 + 0x4000000000000000).toNat ≤ (v + 0x4000000000000000).toNat + 1 := by
  have e : v + 1 + 0x4000000000000000 = v + 0x4000000000000000 + 1 := by
    rw [BitVec.add_assoc, BitVec.add_comm 1, ← BitVec.add_assoc]
  rw [e, BitVec.toNat_add]
  exact Nat.mod_le _ _

theorem vals_ok {F : Nat} (hF : F < 0x2000000000000000) (f : Nat) (hf : f ≤ F) (vals : List (List Byte × Word)) (names : List (List Byte)) (next : Word)
    (hn : (next + 0x4000000000000000).toNat + f ≤ 0x8000000000000000 + F) (h : J c false lim K a s) : CSafe (fun r => J c false lim K a r.2) (enumLoop f vals names next s) := by
  induction f generalizing vals names next s with
  | zero => trivial
  | succ f ih =>
    unfold enumLoop
    refine csafe_ite h (csafe_ite (ih (by omega) _ _ _ (by omega) (h.advS rfl)) ?_)
    dsimp only
    have h1 : J c false lim K a ((s.eat .identifier).errIf (decide ((strtabAdd names s.cur.text).1.length = names.length))) := h.eat.errIf
    generalize (s.eat .identifier).errIf (decide ((strtabAdd names s.cur.text).1.length = names.length)) = t at h1 ⊢
    have fin : ∀ r : Option (Word × CSt), (∃ v u, r = some (v, u) ∧ J c false lim K a u ∧ (v + 0x4000000000000000).toNat + (f + 1) ≤ 0x8000000000000000 + F) →
        CSafe (fun r => J c false lim K a r.2) (match r with
          | none => .ub
          | some (v, s_1) => if v = 0x7FFFFFFFFFFFFFFF then .ub
            else enumLoop f (vals ++ [(s.cur.text, v)]) (strtabAdd names s.cur.text).1 (v + 1)
              (if ((vals.filter (fun c => c.2 = v)).foldl (fun s _ => s.err) s_1).cur.type = .comma then ((vals.filter (fun c => c.2 = v)).foldl (fun s _ => s.err) s_1).adv
               else (vals.filter (fun c => c.2 = v)).foldl (fun s _ => s.err) s_1)) := by
      rintro _ ⟨v, u, rfl, hu, hv⟩
      dsimp only
      rw [if_neg]
      · refine ih (by omega) _ _ _ ?_ ?_
        · have := next_le v; omega
        · have hu' := J.errs (vals.filter (fun c => c.2 = v)) hu
          split
          · exact hu'.advS rfl
          · exact hu'
      · intro e
        subst e
        have e2 : ((0x7FFFFFFFFFFFFFFF : Word) + 0x4000000000000000).toNat = 0xBFFFFFFFFFFFFFFF := by decide +kernel
        rw [e2] at hv
        omega
    apply fin
    split
    · obtain ⟨v, e, e2⟩ := modest_some (fine_parts (h1.advS rfl).cur).2.2.1
      have e' : parseI64 t.adv.number.1 = some v := e
      rw [e']
      exact ⟨v, _, rfl, (h1.advS rfl).number, by omega⟩
    · exact ⟨next, t, rfl, h1, hn⟩

/-- Between declarations; `X` is kept for what comes from other files. -/
def Tp (c : Ctx) (X lim : Nat) (s : CSt) : Prop := J c false lim (lim + X) s s ∧ Base c lim s

variable {X : Nat}

theorem J.restart {t : CSt} (h : J c m lim K a s) (e1 : t.cur = s.cur) (e2 : t.toks = s.toks) (e3 : t.prev = s.prev) (e4 : t.tab = s.tab) (e5 : t.log = s.log) : J c m lim K t t := by
  have e : stream t.toPSt = stream s.toPSt := by unfold stream; rw [e1, e2]
  exact ⟨⟨h.p.low, by rw [e]; exact h.p.good, by rw [e3]; exact h.p.prev, by rw [e]; exact h.p.room, by rw [e4]; exact h.p.names, List.prefix_refl _,
    by rw [e, e5]; exact h.p.sw, fun _ => ⟨[], (List.append_nil _).symm, .nil⟩⟩, rfl, rfl⟩

theorem Tp.step (h : Tp c X lim a) (g : J c false lim (lim + X) a s) : Tp c X lim s := ⟨g.refl_of, h.2.of g⟩

theorem Tp.same {t : CSt} (h : Tp c X lim s) (e1 : t.cur = s.cur) (e2 : t.toks = s.toks) (e3 : t.prev = s.prev) (e4 : t.tab = s.tab) (e5 : t.structs = s.structs) (e6 : t.enums = s.enums) (e7 : t.log = s.log) :
    Tp c X lim t :=
  ⟨h.1.restart e1 e2 e3 e4 e7, by rw [e5, e4]; exact h.2.regs, by rw [e6]; exact h.2.enums⟩

theorem Tp.put {x : List Byte} (h : Tp c X lim s) : Tp c X lim (s.put x) := h.same rfl rfl rfl rfl rfl rfl rfl
theorem Tp.adv (h : Tp c X lim s) : Tp c X lim s.adv := h.step (h.1.advS rfl)
theorem Tp.err (h : Tp c X lim s) : Tp c X lim s.err := h.step h.1.err
theorem Tp.eat {ty : TT} (h : Tp c X lim s) (hty : ty ≠ .kwPacket := by decide) : Tp c X lim (s.eat ty) := h.step (h.1.eat hty)
theorem Tp.errIf {b : Bool} (h : Tp c X lim s) : Tp c X lim (s.errIf b) := h.step h.1.errIf

theorem enum_sizes : ∀ x ∈ enumTypes, inlineSize x.2 = some (3, true) := by decide

theorem parseEnum_ok {f : Nat} (hf : f < 0x2000000000000000) (h : Tp c X lim s) : CSafe (Tp c X lim) (parseEnum f s) := by
  unfold parseEnum
  dsimp only
  have h1 : Tp c X lim (((s.eat .identifier).errIf ((s.eat .identifier).findEnum s.cur.text).isSome).errIf
      (((s.eat .identifier).errIf ((s.eat .identifier).findEnum s.cur.text).isSome).findStruct s.cur.text).isSome) := h.eat.errIf.errIf
  generalize (((s.eat .identifier).errIf ((s.eat .identifier).findEnum s.cur.text).isSome).errIf
      (((s.eat .identifier).errIf ((s.eat .identifier).findEnum s.cur.text).isSome).findStruct s.cur.text).isSome) = t at h1 ⊢
  have fin : ∀ r : Byte × CSt, Tp c X lim r.2 → inlineSize r.1 = some (3, true) → CSafe (Tp c X lim) ((enumLoop f [] [] 0 (r.2.eat .lbrace)).bind fun q =>
      .ok { q.2.eat .rbrace with enums := (q.2.eat .rbrace).enums ++ [⟨s.cur.text, r.1, q.1⟩] }) := by
    intro r hr hs
    refine csafe_bind (vals_ok hf f (Nat.le_refl _) _ _ _ ?_ hr.eat.1) fun q hq => ?_
    · have : ((0 : Word) + 0x4000000000000000).toNat = 0x4000000000000000 := by decide +kernel
      rw [this]; omega
    · have h2 := hr.eat.step hq.eat (s := q.2.eat .rbrace)
      refine ⟨h2.1.restart rfl rfl rfl rfl rfl, h2.2.regs, fun e he => ?_⟩
      rcases List.mem_append.mp he with he | he
      · exact h2.2.enums e he
      · rw [List.mem_singleton.mp he]; exact hs
  apply fin
  · split
    · split
      · exact h1.adv.eat
      · exact h1.adv.eat.err
    · exact h1
  · split
    · split
      · rename_i op e; exact enum_sizes _ (find_mem e)
      · show inlineSize 0x12 = _; decide
    · show inlineSize 0x12 = _; decide

theorem setLast_append (l : List (List Byte × List Byte)) (x : List Byte × List Byte) (code : List Byte) : setLast (l ++ [x]) code = l ++ [(x.1, code)] := by
  induction l with
  | nil => rfl
  | cons y l ih =>
    cases l with
    | nil => rfl
    | cons z l => exact congrArg (y :: ·) ih

theorem more_room {s : CSt} (hk : s.cur.type = .kwStruct) (h : J c false lim (lim + X) s s) : J c true lim (lim + (c.L + 1) + X) s.adv s.adv := by
  have h1 := (h.advS rfl).refl_of
  refine ⟨⟨⟨h1.p.low.1, h1.p.low.2.1, by omega⟩, h1.p.good, h1.p.prev, ?_, h1.p.names, h1.p.tab, fun _ => .inr ?_, fun _ => ⟨[], (List.append_nil _).symm, .nil⟩⟩, rfl, rfl⟩
  case refine_2 =>
    show noSwitch (stream s.toPSt.advance) = true
    rcases stream_adv s.toPSt with ⟨_, g⟩ | g
    · rw [g]; rfl
    · have h2 := good_regions h.p.good
      rw [g] at h2
      simp only [regions, Bool.and_eq_true, Bool.or_eq_true, decide_eq_true_eq] at h2
      exact h2.1.1.resolve_left (fun e => e hk)
  have := h.p.room
  show lim + (c.L + 1) + X + (c.L + 1) * structs (stream s.toPSt.advance) ≤ 511
  have e0 : structs [eofTok] = 0 := rfl
  have e1 : structs [s.cur] = 1 := by unfold structs; simp [hk]
  rcases stream_adv s.toPSt with ⟨a1, a2⟩ | a1
  · rw [a1, e1] at this
    rw [a2, e0]; omega
  · have e2 : structs (s.cur :: stream s.toPSt.advance) = structs (stream s.toPSt.advance) + 1 := by
      unfold structs; rw [List.countP_cons]; simp [hk]
    rw [a1, e2, Nat.mul_add, Nat.mul_one] at this
    omega

theorem parseStruct_ok (P : PEnv) (f : Nat) (h : J c true lim (lim + (c.L + 1) + X) s s) (hb : Base c lim s) : CSafe (Tp c X (lim + (c.L + 1))) (parseStruct P f s) := by
  unfold parseStruct
  dsimp only
  have h0 : J c true lim (lim + (c.L + 1) + X) s (((s.eat .identifier).errIf ((s.eat .identifier).findStruct s.cur.text).isSome).errIf
      (((s.eat .identifier).errIf ((s.eat .identifier).findStruct s.cur.text).isSome).findEnum s.cur.text).isSome) := h.eat.errIf.errIf
  generalize (((s.eat .identifier).errIf ((s.eat .identifier).findStruct s.cur.text).isSome).errIf
      (((s.eat .identifier).errIf ((s.eat .identifier).findStruct s.cur.text).isSome).findEnum s.cur.text).isSome) = o at h0 ⊢
  have hbo := hb.of h0
  have h1 : J c true lim (lim + (c.L + 1) + X) { o with structs := o.structs ++ [(s.cur.text, [])], fields := [], self := some s.cur.text, out := [] }
      { o with structs := o.structs ++ [(s.cur.text, [])], fields := [], self := some s.cur.text, out := [] } := h0.restart rfl rfl rfl rfl rfl
  have hb1 : Base c lim { o with structs := o.structs ++ [(s.cur.text, [])], fields := [], self := some s.cur.text, out := [] } := by
    refine ⟨fun x hx => ?_, hbo.enums⟩
    rcases List.mem_append.mp hx with hx | hx
    · exact hbo.regs x hx
    · rw [List.mem_singleton.mp hx]
      exact ⟨0, .nil, Nat.zero_le _, fun i hi => absurd hi (Nat.not_lt_zero _)⟩
  have fin : ∀ t u : CSt, J c true lim (lim + (c.L + 1) + X) t u → Base c lim t → t.structs = o.structs ++ [(s.cur.text, [])] → t.out = [] →
      CSafe (Tp c X (lim + (c.L + 1))) ((parseBlock P f u).bind fun w =>
        let s := if w.inBit ∧ ¬ o.inBit then (w.errIf (decide (w.bitValid ∧ w.bitCount.toNat % 8 ≠ 0))).put [0x26] else w
        .ok { s with structs := setLast s.structs s.out, out := o.out, self := o.self, inBit := o.inBit,
                     bitCount := o.bitCount, bitValid := o.bitValid, fields := [] }) := by
    intro t u h2 hb1 e1 e2
    refine csafe_bind ((st_ok P f).block t u hb1 h2) fun w hw => ?_
    have h3 : J c true lim (lim + (c.L + 1) + X) t (if w.inBit ∧ ¬ o.inBit then (w.errIf (decide (w.bitValid ∧ w.bitCount.toNat % 8 ≠ 0))).put [0x26] else w) := by
      split
      · exact hw.errIf.put fun _ => .one1 (by decide)
      · exact hw
    generalize (if w.inBit ∧ ¬ o.inBit then (w.errIf (decide (w.bitValid ∧ w.bitCount.toNat % 8 ≠ 0))).put [0x26] else w) = x at h3 ⊢
    obtain ⟨bs, e4, e5⟩ := h3.p.code rfl
    rw [e2, List.nil_append] at e4
    have hbx := hb1.of h3
    have hs : setLast x.structs x.out = o.structs ++ [(s.cur.text, bs)] := by
      rw [h3.structs, e1, setLast_append, e4]
    have hl : ∀ i, (x.tab.getD i []).length ≤ lim := by
      intro i
      rw [List.getD_eq_getElem?_getD]
      cases e : x.tab[i]? with
      | none => exact Nat.zero_le _
      | some y => exact h3.p.names y (List.mem_of_getElem? e)
    constructor
    · refine ⟨⟨?_, h3.p.good, h3.p.prev, h3.p.room, ?_, List.prefix_refl _, fun e => (by cases e), fun _ => ⟨[], (List.append_nil _).symm, .nil⟩⟩, rfl, rfl⟩
      · have := h3.p.low; omega
      · intro y hy; have := h3.p.names y hy; omega
    · refine ⟨fun y hy => ?_, hbx.enums⟩
      have hy' : y ∈ o.structs ++ [(s.cur.text, bs)] := by rw [← hs]; exact hy
      rcases List.mem_append.mp hy' with hy | hy
      · obtain ⟨n, k1, k2, k3⟩ := hbx.regs y (by rw [h3.structs, e1]; exact List.mem_append_left _ hy)
        exact ⟨n, k1, k2, fun i hi => Nat.le_trans (k3 i hi) (by omega)⟩
      · rw [List.mem_singleton.mp hy]
        exact ⟨x.tab.length, e5, Nat.le_refl _, fun i _ => by have := hl i; show (x.tab.getD i []).length + _ ≤ _; omega⟩
  refine fin _ _ ?_ hb1 rfl rfl
  split
  · have w1 : W o.tab.length [0x25] := .one1 (by decide)
    have w2 : W o.tab.length [0x02] := .one1 (by decide)
    have := h1.put fun _ => w1.append w2
    exact ⟨this.p, this.structs, this.enums⟩
  · exact h1

theorem parsePacket_ok (P : PEnv) (f : Nat) (h : Tp c X lim s) : CSafe (Tp c X lim) (parsePacket P f s) := by
  unfold parsePacket
  dsimp only
  have hn := h.1.curLen
  have h0 : Tp c X lim (((s.eat .identifier).errIf ((s.eat .identifier).findStruct s.cur.text).isSome).errIf
      (((s.eat .identifier).errIf ((s.eat .identifier).findStruct s.cur.text).isSome).findEnum s.cur.text).isSome) := h.eat.errIf.errIf
  generalize (((s.eat .identifier).errIf ((s.eat .identifier).findStruct s.cur.text).isSome).errIf
      (((s.eat .identifier).errIf ((s.eat .identifier).findStruct s.cur.text).isSome).findEnum s.cur.text).isSome) = t at h0 ⊢
  have h1 : Tp c X lim (t.put [0x07, 0xFF, 0xFF]) := h0.put
  generalize t.put [0x07, 0xFF, 0xFF] = u at h1 ⊢
  have fin : ∀ r : CRes CSt, CSafe (Tp c X lim) r → CSafe (Tp c X lim) (r.bind fun v => .ok ((v.intern s.cur.text).1.patch (t.out.length + 1) (u16le (v.intern s.cur.text).2))) := by
    intro r hr
    refine csafe_bind hr fun v hv => ?_
    exact (hv.step (hv.1.intern hn)).same rfl rfl rfl rfl rfl rfl rfl
  apply fin
  split
  · split
    · exact h1.adv.eat.eat.err
    · exact h1.adv.eat.eat.put
  · have h2 : Tp c X lim { u with fields := [] } := h1.same rfl rfl rfl rfl rfl rfl rfl
    exact csafe_bind ((st_ok P f).block _ _ h2.2 h2.1) fun v hv => (h2.step hv).same rfl rfl rfl rfl rfl rfl rfl

theorem topDec_ok (f : Nat) (h : Tp c X lim s) : CSafe (Tp c X lim) (topDec f s) := by
  unfold topDec
  dsimp only
  refine csafe_ite ?_ (csafe_ite trivial (csafe_ite h.eat.put (csafe_ite h.eat.put (csafe_ite ?_ (csafe_ite ?_ h.eat)))))
  · exact Tp.eat (Tp.put (h.eat.eat.step h.eat.eat.1.number))
  · exact h.eat.same rfl rfl rfl rfl rfl rfl rfl
  · exact csafe_bind (skip_ok f h.eat.eat.1 fun e => by cases e) fun r hr => (h.eat.eat.step hr).eat

theorem topDecs_ok (f : Nat) (h : Tp c X lim s) : CSafe (Tp c X lim) (topDecs f s) := by
  induction f generalizing s with
  | zero => trivial
  | succ f ih => unfold topDecs; exact csafe_ite (csafe_bind (topDec_ok f h.adv) fun r hr => ih hr) h

theorem topLoop_ok (P : PEnv) (f : Nat) (hf : f < 0x2000000000000000) (h : Tp c X lim s) : CSafe (fun _ => True) (topLoop P f s) := by
  induction f generalizing lim s with
  | zero => trivial
  | succ f ih =>
    unfold topLoop
    refine csafe_ite trivial (csafe_ite (ih (by omega) h.adv) (csafe_bind (topDecs_ok f h) fun t ht => ?_))
    have fin : ∀ (l : Nat) (r : CRes CSt), CSafe (Tp c X l) r → CSafe (fun _ => True) (r.bind (topLoop P f)) :=
      fun l r hr => csafe_bind hr fun v hv => ih (by omega) hv
    split
    · rename_i hk
      exact fin (lim + (c.L + 1)) _ (parseStruct_ok P f (more_room hk ht.1) ht.adv.2)
    · exact fin lim _ (parseEnum_ok (by omega) ht.adv)
    · refine fin lim _ (parsePacket_ok P f ?_)
      exact Tp.same (s := (t.errIf (decide (t.packets > 0))).adv) ht.errIf.adv rfl rfl rfl rfl rfl rfl rfl
    · exact fin lim _ ht.adv
    · exact fin lim _ ht
    · exact fin lim _ ht.err

end

/-! ### The compiler -/

/-- The check: on the tokens without those the lexer reports as errors. -/
def tidyToks (c : Ctx) (toks : List Tok) : Bool :=
  good c (toks.filter (fun t => t.type ≠ .error)) && decide (max c.L c.A + (c.L + 1) * structs (toks.filter (fun t => t.type ≠ .error)) ≤ 511)

theorem toks_no_ub (P : PEnv) (f : Nat) (hf : f < 0x2000000000000000) (toks : List Tok) (h : tidyToks c toks = true) : compileToks P f toks ≠ .ub := by
  simp only [tidyToks, Bool.and_eq_true, decide_eq_true_eq] at h
  have e : stream (parseStart toks).toPSt = eofTok :: toks.filter (fun t => t.type ≠ .error) := rfl
  have hst : structs (stream (parseStart toks).toPSt) = structs (toks.filter (fun t => t.type ≠ .error)) := by
    rw [e]; unfold structs; rw [List.countP_cons]; rfl
  have hg : good c (stream (parseStart toks).toPSt) = true := by
    rw [e]
    have h1 := h.1
    simp only [good, Bool.and_eq_true, List.all_cons, eof_fine, true_and] at h1 ⊢
    refine ⟨h1.1, ?_, ?_, ?_⟩
    · unfold widthsOk
      rw [h1.2.1]
      rfl
    · unfold windows
      rw [h1.2.2.1]
      have e1 : opens eofTok = false := by decide
      have e2 : wants eofTok = false := by decide +kernel
      rw [e1, e2]
      generalize toks.filter (fun t => t.type ≠ .error) = V
      rcases V with _ | ⟨u, _ | ⟨v, V⟩⟩ <;> simp
    · unfold regions
      rw [h1.2.2.2]
      rfl
  have h0 : Tp c 0 (max c.L c.A) (parseStart toks) :=
    ⟨⟨⟨⟨Nat.le_max_left _ _, Nat.le_max_right _ _, Nat.le_refl _⟩, hg, eof_fine c, by rw [hst]; exact h.2, fun x hx => absurd hx List.not_mem_nil, List.prefix_refl _,
      fun e => (by cases e), fun _ => ⟨[], rfl, .nil⟩⟩, rfl, rfl⟩, fun x hx => absurd hx List.not_mem_nil, fun x hx => absurd hx List.not_mem_nil⟩
  have h1 := topLoop_ok P f hf h0.adv
  unfold compileToks parseTop
  cases e : topLoop P f (parseStart toks).adv with
  | ub => rw [e] at h1; exact h1.elim
  | ok s =>
    dsimp only [CRes.bind]
    split
    · exact fun h => nomatch h
    · exact fun h => nomatch h
  | imports => exact fun h => nomatch h
  | stuck => exact fun h => nomatch h

/-- The bounds taken from the tokens. -/
def ctxOf (toks : List Tok) : Ctx :=
  ⟨(toks.map fun t => t.text.length).foldl max 0, if toks.any (fun t => t.type = .dot) then 255 else 0, toks.any (fun t => t.type = .doc)⟩

/-- The check on a source text. -/
def tidy (src : List Byte) : Bool :=
  match lexAll (src.length + 1) (src ++ [0]) 1 with
  | none => false
  | some toks => tidyToks (ctxOf (toks.map Tok.bare)) (toks.map Tok.bare)

end Cnd.Tidy

namespace Cnd

open Tidy in
/-- C100: on a text that passes the check the compiler meets no undefined behaviour, however far it gets. -/
theorem C100_no_ub_partial (P : PEnv) (f : Nat) (src : List Byte) (hl : src.length < 0x100000000000000) (h : tidy src = true) : compile P f src ≠ .ub := by
  have small : ∀ g, g < 0x2000000000000000 → compile P g src ≠ .ub := by
    intro g hg
    unfold tidy at h
    unfold compile
    cases e : lexAll (src.length + 1) (src ++ [0]) 1 with
    | none => rw [e] at h; cases h
    | some toks => rw [e] at h; exact toks_no_ub P g hg _ h
  intro e
  have h1 := C58_one P src f (16 * src.length + 18) (by rw [e]; exact fun g => nomatch g) (C58_ends P src _ (Nat.le_refl _))
  exact small (16 * src.length + 18) (by omega) (h1.symm.trans e)

/-! ### Texts on which it does -/

/-- `packet P { @const(-9223372036854775808) i64 x; }`: the number is negated after its digits have been read as an unsigned one. -/
def ex100lit : List Byte :=
  [0x70, 0x61, 0x63, 0x6B, 0x65, 0x74, 0x20, 0x50, 0x20, 0x7B, 0x20, 0x40, 0x63, 0x6F, 0x6E, 0x73, 0x74, 0x28, 0x2D, 0x39, 0x32, 0x32, 0x33, 0x33, 0x37, 0x32, 0x30, 0x33, 0x36, 0x38, 0x35, 0x34, 0x37, 0x37, 0x35, 0x38, 0x30, 0x38, 0x29, 0x20, 0x69, 0x36, 0x34, 0x20, 0x78, 0x3B, 0x20, 0x7D]

/-- `enum E { A = 9223372036854775807 }`: the value behind it is computed although nothing uses it. -/
def ex100enum : List Byte :=
  [0x65, 0x6E, 0x75, 0x6D, 0x20, 0x45, 0x20, 0x7B, 0x20, 0x41, 0x20, 0x3D, 0x20, 0x39, 0x32, 0x32, 0x33, 0x33, 0x37, 0x32, 0x30, 0x33, 0x36, 0x38, 0x35, 0x34, 0x37, 0x37, 0x35, 0x38, 0x30, 0x37, 0x20, 0x7D]

/-- `packet P { if (` / `/// d` / `x) { u8 y; } }`: the table of operators has no row for documentation comments. -/
def ex100doc : List Byte :=
  [0x70, 0x61, 0x63, 0x6B, 0x65, 0x74, 0x20, 0x50, 0x20, 0x7B, 0x20, 0x69, 0x66, 0x20, 0x28, 0x0A, 0x2F, 0x2F, 0x2F, 0x20, 0x64, 0x0A, 0x78, 0x29, 0x20, 0x7B, 0x20, 0x75, 0x38, 0x20, 0x79, 0x3B, 0x20, 0x7D, 0x20, 0x7D]

/-- `struct S { u8 nn…; } struct T { S mm…; } struct U { T a; }` with names of 255 letters: the third level has a name of 513 bytes. -/
def ex100long : List Byte :=
  [0x73, 0x74, 0x72, 0x75, 0x63, 0x74, 0x20, 0x53, 0x20, 0x7B, 0x20, 0x75, 0x38, 0x20] ++ List.replicate 255 0x6E ++
  [0x3B, 0x20, 0x7D, 0x20, 0x73, 0x74, 0x72, 0x75, 0x63, 0x74, 0x20, 0x54, 0x20, 0x7B, 0x20, 0x53, 0x20] ++ List.replicate 255 0x6D ++
  [0x3B, 0x20, 0x7D, 0x20, 0x73, 0x74, 0x72, 0x75, 0x63, 0x74, 0x20, 0x55, 0x20, 0x7B, 0x20, 0x54, 0x20, 0x61, 0x3B, 0x20, 0x7D]

/-- C100 without the check is false, in each of the four ways. -/
theorem C100_false (P : PEnv) (f : Nat) :
    (16 * ex100lit.length + 18 ≤ f → compile P f ex100lit = .ub) ∧ (16 * ex100enum.length + 18 ≤ f → compile P f ex100enum = .ub) ∧
    (16 * ex100doc.length + 18 ≤ f → compile P f ex100doc = .ub) ∧ (16 * ex100long.length + 18 ≤ f → compile demoP f ex100long = .ub) := by
  have key : ∀ (P : PEnv) (src : List Byte) (g : Nat), compile P g src = .ub → 16 * src.length + 18 ≤ f → compile P f src = .ub := fun P src g e h =>
    (C58_one P src f g (C58_ends P src f h) (by rw [e]; exact fun g => nomatch g)).trans e
  exact ⟨key P _ 60 rfl, key P _ 60 rfl, key P _ 60 rfl, key demoP _ 600 (by decide +kernel)⟩

/-- The check finds all four. -/
example : Tidy.tidy ex100lit = false ∧ Tidy.tidy ex100enum = false ∧ Tidy.tidy ex100doc = false ∧ Tidy.tidy ex100long = false := by decide +kernel

/-- A text with an enum, a bit field, ranges, nested structs, an array of structs and conditions:
`enum K : u8 { A = 1, B }` / `struct V { bool f : 1; i16 x; @range(-5, 5) i8 y; }` / `struct S { V v; K k; u8 n; @count(n) V vs[]; }` / `packet P { S s; if (s.n > 3 && s.k == 1) { u32 t; } else { V w; } }` -/
def ex100 : List Byte :=
  [0x65, 0x6E, 0x75, 0x6D, 0x20, 0x4B, 0x20, 0x3A, 0x20, 0x75, 0x38, 0x20, 0x7B, 0x20, 0x41, 0x20, 0x3D, 0x20, 0x31, 0x2C, 0x20, 0x42, 0x20, 0x7D, 0x0A, 0x73, 0x74, 0x72, 0x75, 0x63, 0x74, 0x20, 0x56, 0x20, 0x7B, 0x20, 0x62, 0x6F, 0x6F, 0x6C, 0x20, 0x66, 0x20, 0x3A, 0x20, 0x31, 0x3B, 0x20, 0x69, 0x31, 0x36, 0x20, 0x78, 0x3B, 0x20, 0x40, 0x72, 0x61, 0x6E, 0x67, 0x65, 0x28, 0x2D, 0x35, 0x2C, 0x20, 0x35, 0x29, 0x20, 0x69, 0x38, 0x20, 0x79, 0x3B, 0x20, 0x7D, 0x0A, 0x73, 0x74, 0x72, 0x75, 0x63, 0x74, 0x20, 0x53, 0x20, 0x7B, 0x20, 0x56, 0x20, 0x76, 0x3B, 0x20, 0x4B, 0x20, 0x6B, 0x3B, 0x20, 0x75, 0x38, 0x20, 0x6E, 0x3B, 0x20, 0x40, 0x63, 0x6F, 0x75, 0x6E, 0x74, 0x28, 0x6E, 0x29, 0x20, 0x56, 0x20, 0x76, 0x73, 0x5B, 0x5D, 0x3B, 0x20, 0x7D, 0x0A, 0x70, 0x61, 0x63, 0x6B, 0x65, 0x74, 0x20, 0x50, 0x20, 0x7B, 0x20, 0x53, 0x20, 0x73, 0x3B, 0x20, 0x69, 0x66, 0x20, 0x28, 0x73, 0x2E, 0x6E, 0x20, 0x3E, 0x20, 0x33, 0x20, 0x26, 0x26, 0x20, 0x73, 0x2E, 0x6B, 0x20, 0x3D, 0x3D, 0x20, 0x31, 0x29, 0x20, 0x7B, 0x20, 0x75, 0x33, 0x32, 0x20, 0x74, 0x3B, 0x20, 0x7D, 0x20, 0x65, 0x6C, 0x73, 0x65, 0x20, 0x7B, 0x20, 0x56, 0x20, 0x77, 0x3B, 0x20, 0x7D, 0x20, 0x7D]

/-- It passes the check. -/
example : Tidy.tidy ex100 = true ∧ ex100.length < 0x100000000000000 := by decide +kernel

/-- And it is translated. -/
example : (match compile demoP (16 * ex100.length + 18) ex100 with | .image b => b.length | _ => 0) = 207 := by decide +kernel

/-- demos/telemetry.cnd starts like this; documentation comments are no obstacle. -/
example : Tidy.tidy (word "packet T {\n    /// Unique ID of the device\n    uint32 device_id;\n    /// Status flags\n    uint8 status;\n}\n") = true := by decide +kernel

/-- Nor are they beside an expression, or a `switch` in the packet beside a struct: `struct V { u8 x; }` / `packet P {` / `/// kind` / `u8 k;` /
`if (k > 1 && !(k == 7)) {` / `/// more` / `V v; }` / `switch (k) { case 1: V w; default: u8 z; } }` -/
def ex100mix : List Byte :=
  [0x73, 0x74, 0x72, 0x75, 0x63, 0x74, 0x20, 0x56, 0x20, 0x7B, 0x20, 0x75, 0x38, 0x20, 0x78, 0x3B, 0x20, 0x7D, 0x0A, 0x70, 0x61, 0x63, 0x6B, 0x65, 0x74, 0x20, 0x50, 0x20, 0x7B, 0x0A, 0x20, 0x20, 0x2F, 0x2F, 0x2F, 0x20, 0x6B, 0x69, 0x6E, 0x64, 0x0A, 0x20, 0x20, 0x75, 0x38, 0x20, 0x6B, 0x3B, 0x0A, 0x20, 0x20, 0x69, 0x66, 0x20, 0x28, 0x6B, 0x20, 0x3E, 0x20, 0x31, 0x20, 0x26, 0x26, 0x20, 0x21, 0x28, 0x6B, 0x20, 0x3D, 0x3D, 0x20, 0x37, 0x29, 0x29, 0x20, 0x7B, 0x0A, 0x20, 0x20, 0x20, 0x20, 0x2F, 0x2F, 0x2F, 0x20, 0x6D, 0x6F, 0x72, 0x65, 0x0A, 0x20, 0x20, 0x20, 0x20, 0x56, 0x20, 0x76, 0x3B, 0x0A, 0x20, 0x20, 0x7D, 0x0A, 0x20, 0x20, 0x73, 0x77, 0x69, 0x74, 0x63, 0x68, 0x20, 0x28, 0x6B, 0x29, 0x20, 0x7B, 0x20, 0x63, 0x61, 0x73, 0x65, 0x20, 0x31, 0x3A, 0x20, 0x56, 0x20, 0x77, 0x3B, 0x20, 0x64, 0x65, 0x66, 0x61, 0x75, 0x6C, 0x74, 0x3A, 0x20, 0x75, 0x38, 0x20, 0x7A, 0x3B, 0x20, 0x7D, 0x0A, 0x7D, 0x0A]

example : Tidy.tidy ex100mix = true ∧ ex100mix.length < 0x100000000000000 := by decide +kernel

/-- `struct V { u8 x; switch (x) { case 1: u8 y; } } packet P { V v; }` -/
def ex100sw : List Byte :=
  [0x73, 0x74, 0x72, 0x75, 0x63, 0x74, 0x20, 0x56, 0x20, 0x7B, 0x20, 0x75, 0x38, 0x20, 0x78, 0x3B, 0x20, 0x73, 0x77, 0x69, 0x74, 0x63, 0x68, 0x20, 0x28, 0x78, 0x29, 0x20, 0x7B, 0x20, 0x63, 0x61, 0x73, 0x65, 0x20, 0x31, 0x3A, 0x20, 0x75, 0x38, 0x20, 0x79, 0x3B, 0x20, 0x7D, 0x20, 0x7D, 0x20, 0x70, 0x61, 0x63, 0x6B, 0x65, 0x74, 0x20, 0x50, 0x20, 0x7B, 0x20, 0x56, 0x20, 0x76, 0x3B, 0x20, 0x7D]

/-- It does not pass, although the compiler is well defined on it. -/
example : Tidy.tidy ex100sw = false ∧ (match compile demoP 1000 ex100sw with | .image _ => true | _ => false) = true := by decide +kernel

end Cnd
