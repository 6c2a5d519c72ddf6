/-
  The expression parser of the compiler.

  Models /repo/src/compiler/cnd_parser.c lines 3-184 (precedences, parse_unary, parse_binary, parse_grouping, rules,
  parse_precedence), 253-278 (advance, consume, match_keyword) and 352-469 (parse_primary).

  The lexer is represented by the list of tokens still to come (Lexer.lean); behind the last one every further
  call gives the end-of-file token. Error messages are counted, their text is not modelled. The conversion of a
  literal with fraction to a double (parse_number_double) is the parameter `dbl`.
-/
import Verif.Lexer
import Verif.CompUtil

namespace Cnd

/-- ExprType, cnd_parser.c 20-24. -/
inductive ETy
  | int | float | unk
  deriving DecidableEq, Repr

/-- The part of Parser the expression parser uses. -/
structure PSt where
  prev : Tok
  cur : Tok
  toks : List Tok
  out : List Byte
  tab : List (List Byte)
  /-- The messages given so far, the last one first: for each the number of tokens behind `p->current` at that time, which says at
  which token the message is reported (cnd_parser.c 193-216). -/
  log : List Nat
  deriving DecidableEq, Repr

/-- p->error_count; p->had_error is set iff it is not 0 (cnd_parser.c 190-191). -/
abbrev PSt.errs (s : PSt) : Nat := s.log.length

/-- Outcome: a type and the new state; undefined behaviour; `stuck` if the model's recursion bound is too small. -/
inductive PRes
  | ok (t : ETy) (s : PSt)
  | ub
  | stuck
  deriving DecidableEq, Repr

def eofTok : Tok := ⟨.eof, [], 0⟩

/-- The loop of advance, cnd_parser.c 255-259: error tokens are reported and skipped. -/
def pull : List Tok → List Nat → Tok × List Tok × List Nat
  | [], n => (eofTok, [], n)
  | t :: ts, n => if t.type = .error then pull ts (ts.length :: n) else (t, ts, n)

/-- advance, cnd_parser.c 253-260. -/
def PSt.advance (s : PSt) : PSt :=
  let r := pull s.toks s.log
  { s with prev := s.cur, cur := r.1, toks := r.2.1, log := r.2.2 }

/-- parser_error, cnd_parser.c 188. -/
def PSt.error (s : PSt) : PSt := { s with log := s.toks.length :: s.log }

/-- consume, cnd_parser.c 262-268. -/
def PSt.consume (s : PSt) (ty : TT) : PSt := if s.cur.type = ty then s.advance else s.error

/-- buf_push and friends. -/
def PSt.emit (s : PSt) (bs : List Byte) : PSt := { s with out := s.out ++ bs }

/-- strtab_add on the parser's table, then OP_LOAD_CTX with the id, cnd_parser.c 457-466. -/
def PSt.loadCtx (s : PSt) (name : List Byte) : PSt :=
  let r := strtabAdd s.tab name
  { s with tab := r.1, out := s.out ++ 0x60 :: leBytes 2 (BitVec.ofNat 64 r.2) }

/-- The prefix column of the rules table. -/
inductive Prefix
  | none | grouping | unary | primary
  deriving DecidableEq, Repr

/-- rules, cnd_parser.c 132-159: prefix and precedence; the infix column is parse_binary exactly where the
precedence is not PREC_NONE. The array ends at TOK_PERCENT: for the two later token types it is read outside. -/
def ruleOf : TT → Option (Prefix × Nat)
  | .lparen => some (.grouping, 0)
  | .minus => some (.unary, 9)
  | .plus => some (.none, 9)
  | .slash | .star | .percent => some (.none, 10)
  | .bang | .tilde => some (.unary, 0)
  | .pipePipe => some (.none, 1)
  | .ampAmp => some (.none, 2)
  | .pipe => some (.none, 3)
  | .caret => some (.none, 4)
  | .amp => some (.none, 5)
  | .eqEq | .bangEq => some (.none, 6)
  | .lt | .ltEq | .gt | .gtEq => some (.none, 7)
  | .lshift | .rshift => some (.none, 8)
  | .number | .kwTrue | .kwFalse | .kwSelf | .identifier => some (.primary, 0)
  | .doc | .error => none
  | _ => some (.none, 0)

/-- The conversions, cnd_parser.c 69-77. -/
def convOf (l r : ETy) : List Byte :=
  if l = .float ∨ r = .float then
    if l = .int then [0x63, 0x90, 0x63] else if r = .int then [0x90] else []
  else []

/-- The operator's opcode and type, cnd_parser.c 79-121. -/
def binOp (op : TT) (isF : Bool) : List Byte × ETy :=
  match op with
  | .pipePipe => ([0x70], .int)
  | .ampAmp => ([0x6F], .int)
  | .pipe => ([0xA1], .int)
  | .caret => ([0xA2], .int)
  | .amp => ([0xA0], .int)
  | .eqEq => (if isF then [0x92] else [0x69], .int)
  | .bangEq => (if isF then [0x93] else [0x6A], .int)
  | .lt => (if isF then [0x95] else [0x6C], .int)
  | .ltEq => (if isF then [0x97] else [0x6E], .int)
  | .gt => (if isF then [0x94] else [0x6B], .int)
  | .gtEq => (if isF then [0x96] else [0x6D], .int)
  | .lshift => ([0xA4], .int)
  | .rshift => ([0xA5], .int)
  | .plus => if isF then ([0x80], .float) else ([0x72], .int)
  | .minus => if isF then ([0x81], .float) else ([0x73], .int)
  | .star => if isF then ([0x82], .float) else ([0x74], .int)
  | .slash => if isF then ([0x83], .float) else ([0x75], .int)
  | .percent => ([0x76], .int)
  | _ => ([], .unk)

/-- parse_binary behind the right operand, cnd_parser.c 69-121. -/
def binEmit (op : TT) (l r : ETy) : List Byte × ETy :=
  let o := binOp op (l = .float ∨ r = .float)
  (convOf l r ++ o.1, o.2)

/-- The operator part of parse_unary, cnd_parser.c 54-61. -/
def unEmit (op : TT) (t : ETy) : List Byte × ETy :=
  match op with
  | .bang => ([0x71], .int)
  | .tilde => ([0xA3], .int)
  | .minus => if t = .float then ([0x84], .float) else ([0x77], .int)
  | _ => ([], .unk)

/-- is_float_literal, cnd_parser.c 43-48. -/
def isFloatLit (text : List Byte) : Bool := text.any fun c => c = 0x2E ∨ c = 0x65 ∨ c = 0x45

/-- Names of one-argument functions and their opcodes, cnd_parser.c 380-415: sin cos tan sqrt log abs. -/
def fun1 : List (List Byte × Byte) :=
  [([0x73, 0x69, 0x6E], 0x85), ([0x63, 0x6F, 0x73], 0x86), ([0x74, 0x61, 0x6E], 0x87),
   ([0x73, 0x71, 0x72, 0x74], 0x88), ([0x6C, 0x6F, 0x67], 0x8A), ([0x61, 0x62, 0x73], 0x8B)]

def powName : List Byte := [0x70, 0x6F, 0x77]
def floatName : List Byte := [0x66, 0x6C, 0x6F, 0x61, 0x74]
def intName : List Byte := [0x69, 0x6E, 0x74]

/-- The loop over a dotted name, cnd_parser.c 445-455; `none` in the first place: the name has become too long. -/
def dotLoop : Nat → List Byte → PSt → Option (Option (List Byte) × PSt)
  | 0, _, _ => none
  | f + 1, name, s =>
    if s.cur.type = .dot then
      let s := s.advance
      let sub := s.cur
      let s := s.consume .identifier
      if name.length + 1 + sub.text.length ≥ 256 then some (none, s.error)
      else dotLoop f (name ++ 0x2E :: sub.text) s
    else some (some name, s)

mutual

/-- parse_precedence, cnd_parser.c 169-184. -/
def parsePrec (dbl : List Byte → Word) : Nat → Nat → PSt → PRes
  | 0, _, _ => .stuck
  | f + 1, prec, s =>
    let s := s.advance
    match ruleOf s.prev.type with
    | none => .ub
    | some (.none, _) => .ok .unk s.error
    | some (pre, _) =>
      match parsePrefix dbl f pre s with
      | .ok left s => infixLoop dbl f prec left s
      | r => r

/-- The loop of parse_precedence, lines 179-183, with parse_binary, lines 64-122. -/
def infixLoop (dbl : List Byte → Word) : Nat → Nat → ETy → PSt → PRes
  | 0, _, _, _ => .stuck
  | f + 1, prec, left, s =>
    match ruleOf s.cur.type with
    | none => .ub
    | some (_, p) =>
      if prec ≤ p then
        let s := s.advance
        let op := s.prev.type
        match parsePrec dbl f (p + 1) s with
        | .ok right s =>
          let e := binEmit op left right
          infixLoop dbl f prec e.2 (s.emit e.1)
        | r => r
      else .ok left s

/-- parse_grouping, parse_unary and parse_primary. -/
def parsePrefix (dbl : List Byte → Word) : Nat → Prefix → PSt → PRes
  | 0, _, _ => .stuck
  | _ + 1, .none, s => .ok .unk s
  | f + 1, .grouping, s =>
    -- lines 124-129
    match parsePrec dbl f 1 s.advance with
    | .ok t s => .ok t (s.consume .rparen)
    | r => r
  | f + 1, .unary, s =>
    -- lines 50-62; note that the operator is taken from `current`
    let op := s.cur.type
    match parsePrec dbl f 11 s.advance with
    | .ok t s =>
      let e := unEmit op t
      .ok e.2 (s.emit e.1)
    | r => r
  | f + 1, .primary, s =>
    -- lines 352-469
    let text := s.prev.text
    match s.prev.type with
    | .number =>
      if isFloatLit text then .ok .float (s.emit (0x61 :: leBytes 8 (dbl text)))
      else match parseI64 text with
        | none => .ub
        | some w => .ok .int (s.emit (0x61 :: leBytes 8 w))
    | .kwTrue => .ok .int (s.emit (0x61 :: leBytes 8 1))
    | .kwFalse => .ok .int (s.emit (0x61 :: leBytes 8 0))
    | .kwSelf => .ok .unk (s.emit [0x64])
    | .identifier =>
      match fun1.lookup text with
      | some op =>
        match parsePrec dbl f 1 (s.consume .lparen) with
        | .ok t s =>
          let s := if t = .int then s.emit [0x90] else s
          .ok .float ((s.consume .rparen).emit [op])
        | r => r
      | none =>
        if text = powName then
          match parsePrec dbl f 1 (s.consume .lparen) with
          | .ok t s =>
            let s := if t = .int then s.emit [0x90] else s
            match parsePrec dbl f 1 (s.consume .comma) with
            | .ok t s =>
              let s := if t = .int then s.emit [0x90] else s
              .ok .float ((s.consume .rparen).emit [0x89])
            | r => r
          | r => r
        else if text = floatName then
          match parsePrec dbl f 1 (s.consume .lparen) with
          | .ok _ s => .ok .float ((s.consume .rparen).emit [0x90])
          | r => r
        else if text = intName then
          match parsePrec dbl f 1 (s.consume .lparen) with
          | .ok _ s => .ok .int ((s.consume .rparen).emit [0x91])
          | r => r
        else if s.cur.type = .dot then
          if text.length ≥ 256 then .ok .unk s.error
          else match dotLoop f text s with
            | none => .stuck
            | some (none, s) => .ok .unk s
            | some (some name, s) => .ok .unk (s.loadCtx name)
        else .ok .unk (s.loadCtx text)
    | _ => .ok .unk s

end

/-- parse_expression, cnd_parser.c 165-167. -/
def parseExpr (dbl : List Byte → Word) (fuel : Nat) (s : PSt) : PRes := parsePrec dbl fuel 1 s

end Cnd
