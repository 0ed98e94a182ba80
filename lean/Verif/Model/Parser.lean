import Verif.Model.Lexer
import Verif.Model.Ast
/-
Model of `src/syntax/parser.rs`.

The parser's only state is its lexer.  Recursion and loops are bounded by a fuel argument;
`PRes.fuel` means that the fuel ran out, which `parse` and `parseExpr` below never do
(`Verif/Props/Parser.lean`).  Not modelled: stack overflow on deep nesting, `eat_then`,
`bump_then` and `sep_by1` as functions of their own (parser.rs:122-146; the first two are inlined
where they are used, the last is not used).
-/
namespace Pemdas

/-- `Error` (parser.rs:13-17). -/
inductive ParseError where
  | expected (t : Token) (loc : Loc) (found : Token)
  | unexpected (t : Token) (loc : Loc)
  deriving DecidableEq, Repr

/-- `Error::loc` (parser.rs:20-24). -/
def ParseError.loc : ParseError → Loc
  | .expected _ loc _ => loc
  | .unexpected _ loc => loc

/-- `impl Display for Error` (parser.rs:54-64). -/
def ParseError.text [CharTables] : ParseError → Except Panic Text
  | .expected t loc found => do
    let t ← t.text
    let found ← found.text
    .ok (t!"expected `" ++ t ++ t!"`, but found `" ++ found ++ t!"` at " ++ loc.text)
  | .unexpected t loc => do
    let t ← t.text
    .ok (t!"unexpected token `" ++ t ++ t!"` found at " ++ loc.text)

/-- Outcome of a parsing function: `Ok`, `Err` (both with the lexer afterwards), a panic, or fuel
exhausted. -/
inductive PRes (α : Type) where
  | ok (a : α) (l : Lexer)
  | err (e : ParseError) (l : Lexer)
  | panic (p : Panic)
  | fuel
  deriving DecidableEq, Repr

/-- A parsing function `fn(&mut self, ..) -> Parsed<α>`. -/
def P (α : Type) : Type := Lexer → PRes α

namespace P

/-- Sequencing with `?`. -/
def bind {α β : Type} (m : P α) (f : α → P β) : P β := fun l =>
  match m l with
  | .ok a l => f a l
  | .err e l => .err e l
  | .panic p => .panic p
  | .fuel => .fuel

/-- A value. -/
def pure {α : Type} (a : α) : P α := fun l => .ok a l

instance : Monad P where
  pure := P.pure
  bind := P.bind

/-- `return Err(e)`. -/
def fail {α : Type} (e : ParseError) : P α := fun l => .err e l

/-- A panic. -/
def crash {α : Type} (p : Panic) : P α := fun _ => .panic p

/-- No fuel left. -/
def outOfFuel {α : Type} : P α := fun _ => .fuel

/-- `self.lexer.curr_loc()`. -/
def loc : P Loc := fun l => .ok l.currLoc l

/-- `bump` (parser.rs:95-97). -/
def bump : P Token := fun l => .ok l.bump.1 l.bump.2

section
variable [CharTables]

/-- `peek` (parser.rs:87-89). -/
def peek : P Token := fun l =>
  match l.peek with
  | .error p => .panic p
  | .ok (some t, l) => .ok t l
  | .ok (none, l) => .ok .eof l

/-- `is_done` (parser.rs:80-85). -/
def isDone : P Bool := do
  let t ← peek
  return t = .eof

/-- `peek_on` with a token (parser.rs:91-93). -/
def peekOn (t : Token) : P Bool := do
  let t' ← peek
  return t = t'

/-- `bump_on` with a token (parser.rs:99-105), also `ignore` (parser.rs:107-109). -/
def bumpOn (t : Token) : P Bool := do
  let on ← peekOn t
  if on then
    let _ ← bump
    return true
  else return false

/-- `eat` (parser.rs:111-120), whose result is not used. -/
def eat (t : Token) : P Unit := do
  let loc ← loc
  let t' ← peek
  if t' = t then
    let _ ← bump
    return ()
  else fail (.expected t loc t')

end
end P

/-- `begins_expr` (parser.rs:465-477). -/
def beginsExpr (t : Token) (allowNeg : Bool) : Bool :=
  match t with
  | .parenL | .brackL | .lambda | .let_ | .lit _ | .upper _ | .lower _ => true
  | .dash => allowNeg
  | _ => false

/-- `arg_expr_tok` (parser.rs:479-483). -/
def argExprTok (t : Token) : Bool :=
  match t with
  | .parenL | .brackL | .lit _ | .upper _ | .lower _ => true
  | _ => false

/-- `begins_pat` (parser.rs:485-497). -/
def beginsPat (t : Token) (allowNeg : Bool) : Bool :=
  match t with
  | .underscore | .parenL | .parenR | .brackL | .brackR | .upper _ | .lower _ => true
  | .dash => allowNeg
  | _ => false

/-- `Prec::MAX_VAL` (fixity.rs:53). -/
def precMax : Nat := 9

namespace Parser
variable [CharTables]
open P

/-- `infix` (parser.rs:254-268); `Symbol::DASH` and `Symbol::AT` are the symbols `-` and `@`. -/
def infixOp : P Infix := do
  let loc ← loc
  match ← peek with
  | .dash => let _ ← bump; return .standard t!"-"
  | .at_ => let _ ← bump; return .standard t!"@"
  | .affix s promoted => let _ ← bump; return if promoted then .promoted s else .standard s
  | t => fail (.unexpected t loc)

/-- `while let Ok(affix) = self.infix()` (parser.rs:240): an error ends the loop. -/
def tryInfix : P (Option Infix) := fun l =>
  match infixOp l with
  | .ok op l => .ok (some op) l
  | .err _ l => .ok none l
  | .panic p => .panic p
  | .fuel => .fuel

/-- The first part of `fixity` (parser.rs:186-194). -/
def fixityAssoc : P Assoc := do
  let loc ← loc
  match ← peek with
  | .infixL => let _ ← bump; return .left
  | .infixR => let _ ← bump; return .right
  | .infix_ => let _ ← bump; return .neither
  | t => fail (.unexpected t loc)

/-- The second part of `fixity` (parser.rs:195-209). `Prec::default()` is 9 (fixity.rs:70-74). -/
def fixityPrec : P Nat := do
  let loc ← loc
  match ← peek with
  | .lit (.int n) =>
    let _ ← bump
    if n ≤ precMax then return n else crash .precTodo
  | .affix _ _ => return precMax
  | t => fail (.unexpected t loc)

/-- `fixity` (parser.rs:185-211). -/
def fixity : P Fixity := do
  let assoc ← fixityAssoc
  let prec ← fixityPrec
  return ⟨prec, assoc⟩

/-- The loop of `infix_decl` (parser.rs:179-181). -/
def infixLoop : Nat → List Infix → P (List Infix)
  | 0, _ => outOfFuel
  | n + 1, ops => do
    if ← bumpOn .comma then
      let op ← infixOp
      infixLoop n (ops ++ [op])
    else return ops

/-- `infix_decl` (parser.rs:176-183). -/
def infixDecl (n : Nat) : P InfixDecl := do
  let fx ← fixity
  let op ← infixOp
  let ops ← infixLoop n [op]
  return ⟨ops, fx⟩

/-! ### patterns -/

mutual

/-- `pattern` (parser.rs:270-280). -/
def pattern : Nat → P Pat
  | 0 => outOfFuel
  | n + 1 => do
    let loc ← loc
    match ← peek with
    | .underscore => let _ ← bump; return .wild
    | .parenL => parenPat n
    | .brackL => brackPat n
    | .upper s => let _ ← bump; return .con s []
    | .lower s => lowerPat n s
    | t => fail (.unexpected t loc)

/-- `inner_pat` (parser.rs:282-294). -/
def innerPat : Nat → P Pat
  | 0 => outOfFuel
  | n + 1 => do
    let loc ← loc
    match ← peek with
    | .underscore => let _ ← bump; return .wild
    | .parenL => parenPat n
    | .brackL => brackPat n
    | .upper s => upperPat n s
    | .lower s => lowerPat n s
    | .lit l => let _ ← bump; return .lit l
    | .dash => let _ ← bump; pattern n
    | t => fail (.unexpected t loc)

/-- `brack_pat` (parser.rs:296-305). -/
def brackPat : Nat → P Pat
  | 0 => outOfFuel
  | n + 1 => do
    eat .brackL
    let pat ← (do
      if ← bumpOn .brackR then return .arr []
      else
        let first ← innerPat n
        let ps ← innerTail n [first]
        return .arr ps : P Pat)
    eat .brackR
    return pat

/-- `upper_pat` (parser.rs:307-320). -/
def upperPat : Nat → Symbol → P Pat
  | 0, _ => outOfFuel
  | n + 1, ctor => do
    let _ ← bump
    let args ← patArgs n []
    if ← peekOn .comma then
      let ps ← patTail n [.con ctor args]
      return .tup ps
    else return .con ctor args

/-- `lower_pat` (parser.rs:322-329). -/
def lowerPat : Nat → Symbol → P Pat
  | 0, _ => outOfFuel
  | n + 1, var => do
    let _ ← bump
    if ← bumpOn .at_ then
      let p ← pattern n
      return .as_ var p
    else return .var var

/-- `paren_pat` (parser.rs:331-355). -/
def parenPat : Nat → P Pat
  | 0 => outOfFuel
  | n + 1 => do
    eat .parenL
    let loc ← loc
    let pat ← (do
      match ← peek with
      | .affix s _ => let _ ← bump; return .var s
      | .upper con => upperPat n con
      | .dash => let _ ← bump; let p ← pattern n; return .neg p
      | t => if beginsPat t true then pattern n else fail (.unexpected t loc) : P Pat)
    let pat ← (do
      if ← peekOn .comma then
        let ps ← innerTail n [pat]
        return .tup ps
      else return pat : P Pat)
    eat .parenR
    return pat

/-- The loop `while begins_pat(..) { .. pattern() }` (parser.rs:310-312,373-375). -/
def patArgs : Nat → List Pat → P (List Pat)
  | 0, _ => outOfFuel
  | n + 1, ps => do
    let t ← peek
    if beginsPat t false then
      let p ← pattern n
      patArgs n (ps ++ [p])
    else return ps

/-- The loop of `collection_tail` with `pattern` (parser.rs:357-368,316). -/
def patTail : Nat → List Pat → P (List Pat)
  | 0, _ => outOfFuel
  | n + 1, ps => do
    if ← bumpOn .comma then
      let p ← pattern n
      patTail n (ps ++ [p])
    else return ps

/-- The loop of `collection_tail` with `inner_pat` (parser.rs:357-368,302,352). -/
def innerTail : Nat → List Pat → P (List Pat)
  | 0, _ => outOfFuel
  | n + 1, ps => do
    if ← bumpOn .comma then
      let p ← innerPat n
      innerTail n (ps ++ [p])
    else return ps

end

/-! ### expressions -/

/-- `reduce` inside `binary` (parser.rs:232-236). -/
def reduce (stack : List (Expr × Infix)) (last : Expr) : Expr :=
  stack.foldr (fun x right => .bin x.1 x.2 right) last

/-- `while self.bump_on(Token::Comma) { count += 1 }` (parser.rs:397-400). -/
def commaLoop : Nat → Nat → P Nat
  | 0, _ => outOfFuel
  | n + 1, k => do
    if ← bumpOn .comma then commaLoop n (k + 1) else return k

mutual

/-- `expression` (parser.rs:213-215), i.e. `binary` of `subexpression` (parser.rs:231-252). -/
def expression : Nat → P Expr
  | 0 => outOfFuel
  | n + 1 => do
    let left ← subexpression n
    binaryLoop n left []

/-- The loop of `binary` (parser.rs:240-251). -/
def binaryLoop : Nat → Expr → List (Expr × Infix) → P Expr
  | 0, _, _ => outOfFuel
  | n + 1, left, stack => do
    match ← tryInfix with
    | none => return reduce stack left
    | some op =>
      let loc ← loc
      let t ← peek
      if beginsExpr t false then
        let left' ← subexpression n
        binaryLoop n left' (stack ++ [(left, op)])
      else fail (.unexpected t loc)

/-- `subexpression` (parser.rs:217-219), i.e. `application` of `atom` (parser.rs:221-229). -/
def subexpression : Nat → P Expr
  | 0 => outOfFuel
  | n + 1 => do
    let loc ← loc
    let e ← atom n
    appLoop n loc e

/-- The loop of `application` (parser.rs:225-227). -/
def appLoop : Nat → Loc → Expr → P Expr
  | 0, _, _ => outOfFuel
  | n + 1, start, e => do
    let t ← peek
    let loc ← loc
    if argExprTok t ∧ start.col < loc.col then
      let x ← atom n
      appLoop n start (.app e x)
    else return e

/-- `atom` (parser.rs:435-462). -/
def atom : Nat → P Expr
  | 0 => outOfFuel
  | n + 1 => do
    let loc ← loc
    match ← peek with
    | .lambda => lambda n
    | .parenL => parenExpr n
    | .brackL => brackExpr n
    | .let_ =>
      let _ ← bump
      let d ← infixDecl n
      eat .in_
      let body ← expression n
      return .let_ d body
    | .lit l => let _ ← bump; return .lit l
    | .upper s => let _ ← bump; return .var (.upper s)
    | .lower s => let _ ← bump; return .var (.lower s)
    | t => fail (.unexpected t loc)

/-- `lambda` (parser.rs:370-381). -/
def lambda : Nat → P Expr
  | 0 => outOfFuel
  | n + 1 => do
    eat .lambda
    let p ← pattern n
    let ps ← patArgs n [p]
    eat .arrow
    let body ← expression n
    return ps.foldr (fun p e => .lam p e) body

/-- `paren_expr` (parser.rs:383-420). -/
def parenExpr : Nat → P Expr
  | 0 => outOfFuel
  | n + 1 => do
    eat .parenL
    let loc ← loc
    match ← peek with
    | .parenR => let _ ← bump; return .unit
    | .affix s _ =>
      let _ ← bump
      eat .parenR
      return .var (.infix_ s)
    | .comma =>
      let k ← commaLoop n 0
      eat .parenR
      return .var (.commas k)
    | t =>
      if beginsExpr t true then
        let first ← expression n
        if ← peekOn .comma then
          let es ← exprTail n [first]
          eat .parenR
          return .tup es
        else
          eat .parenR
          return .grp first
      else fail (.unexpected t loc)

/-- The loop over tuple elements in `paren_expr` (parser.rs:407-410). -/
def exprTail : Nat → List Expr → P (List Expr)
  | 0, _ => outOfFuel
  | n + 1, es => do
    if ← bumpOn .comma then
      let e ← expression n
      exprTail n (es ++ [e])
    else return es

/-- `brack_expr` (parser.rs:422-433). -/
def brackExpr : Nat → P Expr
  | 0 => outOfFuel
  | n + 1 => do
    eat .brackL
    let es ← brackLoop n []
    eat .brackR
    return .list es

/-- The loop of `brack_expr` (parser.rs:424-430). -/
def brackLoop : Nat → List Expr → P (List Expr)
  | 0, _ => outOfFuel
  | n + 1, es => do
    if ← isDone then return es
    else if ← peekOn .brackR then return es
    else
      let e ← expression n
      let _ ← bumpOn .comma
      brackLoop n (es ++ [e])

end

/-! ### declarations -/

/-- `decl` (parser.rs:165-174). -/
def decl (n : Nat) : P Decl := do
  let loc ← loc
  match ← peek with
  | .infixL | .infixR | .infix_ => let d ← infixDecl n; return .infix_ d
  | t =>
    if beginsExpr t true then
      let e ← expression n
      return .expr e
    else fail (.unexpected t loc)

/-- `parse_into` (parser.rs:154-163). -/
def parseInto : Nat → Ast → P Ast
  | 0, _ => outOfFuel
  | n + 1, ast => do
    if ← isDone then return ast
    else
      let d ← decl n
      let _ ← bumpOn .semi
      parseInto n (ast.push d)

/-- Enough fuel for every source (`Verif/Props/Parser.lean`). -/
def fuelFor (src : Text) : Nat := 16 * src.length + 16

end Parser

section
variable [CharTables]

/-- `parse` (parser.rs:503-505,148-152). -/
def parse (src : Text) : PRes Ast :=
  Parser.parseInto (Parser.fuelFor src) Ast.empty (Lexer.new src)

/-- `parse_expr` (parser.rs:499-501). -/
def parseExpr (src : Text) : PRes Expr :=
  Parser.expression (Parser.fuelFor src) (Lexer.new src)

end
end Pemdas
