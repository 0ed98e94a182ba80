import Verif.Model.Ast
/-
Model of `src/syntax/fixity.rs` without the printer (`Model/Printer.lean`): fixity tables,
the infix rewriting loop, and the scoped resolver.
-/
namespace Pemdas

/-- `Assoc::keyword` (fixity.rs:40-46). -/
def Assoc.keyword : Assoc → Text
  | .left => t!"infixl"
  | .right => t!"infixr"
  | .neither => t!"infix"

/-- `Assoc::adjective` (fixity.rs:32-38). -/
def Assoc.adjective : Assoc → Text
  | .left => t!"left-associative"
  | .right => t!"right-associative"
  | .neither => t!"non-associative"

namespace Fixity
/-- `Fixity::DEFAULT` (fixity.rs:90-93) with `Prec::MAX` (fixity.rs:53,55). -/
def dflt : Fixity := ⟨9, .left⟩
/-- `Fixity::CONS` (fixity.rs:95-98). -/
def cons : Fixity := ⟨5, .right⟩
/-- `Fixity::PLUS_MINUS` (fixity.rs:100-103). -/
def plusMinus : Fixity := ⟨6, .left⟩
/-- `Fixity::MULT_DIV_REM` (fixity.rs:105-108). -/
def multDivRem : Fixity := ⟨7, .left⟩
/-- `Fixity::POW` (fixity.rs:110-113) with `Prec::POW` (fixity.rs:67). -/
def pow : Fixity := ⟨8, .right⟩
end Fixity

/-! ### The shift/reduce rule -/

/-- `Rule` (fixity.rs:135-140). -/
inductive Rule where
  | shift
  | reduce
  | ambiguous (prev curr : Fixity)
  deriving DecidableEq, Repr

/-- `Rule::from_fixities` (fixity.rs:143-163). -/
def Rule.fromFixities (prev curr : Fixity) : Rule :=
  if curr.prec > prev.prec then .shift
  else if curr.prec = prev.prec then
    match curr.assoc, prev.assoc with
    | .left, .left => .reduce
    | .right, .right => .shift
    | _, _ => .ambiguous prev curr
  else .reduce

/-- `Operator` (fixity.rs:182). -/
abbrev Operator := Infix × Fixity

/-- `AssocError` (fixity.rs:184-188). -/
structure AssocError where
  prev : Operator
  curr : Operator
  deriving DecidableEq, Repr

/-- Derived `PartialEq` of `AssocError` (fixity.rs:184): operators compare by symbol
(ast.rs:248-252). -/
def AssocError.same (a b : AssocError) : Bool :=
  a.prev.1.symbol == b.prev.1.symbol && a.prev.2 == b.prev.2 &&
  a.curr.1.symbol == b.curr.1.symbol && a.curr.2 == b.curr.2

/-- `impl Display for AssocError` (fixity.rs:192-203). -/
def AssocError.text (e : AssocError) : Text :=
  t!"found " ++ e.prev.2.assoc.adjective ++ t!" operator `" ++ e.prev.1.text ++ t!"` and " ++
  e.curr.2.assoc.adjective ++ t!" operator `" ++ e.curr.1.text ++
  t!"` in the same infix expression"

/-! ### Fixity tables -/

/-- `Fixities` (fixity.rs:205-211): an `IndexMap`, i.e. entries in insertion order; keys
are compared by symbol (ast.rs:248-260). -/
abbrev Fixities := List (Infix × Fixity)

namespace Fixities

/-- `Fixities::get_defined` (fixity.rs:244-246). -/
def getDefined : Fixities → Infix → Option Fixity
  | [], _ => none
  | (k, v) :: m, op => if k.symbol = op.symbol then some v else getDefined m op

/-- `Fixities::get` (fixity.rs:248-250), with the default of fixity.rs:83-87. -/
def get (m : Fixities) (op : Infix) : Fixity := (m.getDefined op).getD Fixity.dflt

/-- `Fixities::has` (fixity.rs:240-242). -/
def has (m : Fixities) (op : Infix) : Bool := (m.getDefined op).isSome

/-- `IndexMap::get_key_value`, used at fixity.rs:354. -/
def getKeyValue : Fixities → Infix → Option (Infix × Fixity)
  | [], _ => none
  | (k, v) :: m, op => if k.symbol = op.symbol then some (k, v) else getKeyValue m op

/-- `Fixities::insert` (fixity.rs:252-254): `IndexMap::insert` overwrites the value of an
equal key in place, keeping the old key, and appends otherwise. -/
def insert : Fixities → Infix → Fixity → Option Fixity × Fixities
  | [], op, fx => (none, [(op, fx)])
  | (k, v) :: m, op, fx =>
    if k.symbol = op.symbol then (some v, (k, fx) :: m)
    else
      let (old, m') := insert m op fx
      (old, (k, v) :: m')

/-- `Fixities::remove` (fixity.rs:256-258): `IndexMap::shift_remove`. -/
def remove : Fixities → Infix → Option Fixity × Fixities
  | [], _ => (none, [])
  | (k, v) :: m, op =>
    if k.symbol = op.symbol then (some v, m)
    else
      let (old, m') := remove m op
      (old, (k, v) :: m')

/-- `Fixities::remove_last` (fixity.rs:260-262), fully consumed: the range is consumed from
its back and each step pops, so the entries come out last first. -/
def removeLast : Nat → Fixities → List (Infix × Fixity) × Fixities
  | 0, m => ([], m)
  | n + 1, m =>
    match m.getLast? with
    | some e =>
      let (es, m') := removeLast n m.dropLast
      (e :: es, m')
    | none => removeLast n m

/-- `Fixities::insert_many_with_fixity` (fixity.rs:264-272). -/
def insertMany (m : Fixities) (fx : Fixity) : List Infix → Fixities
  | [] => m
  | op :: ops => insertMany (m.insert op fx).2 fx ops

/-! ### `Fixities::rewrite` (fixity.rs:274-314)

Both `Vec`s are used as stacks; here the head of the list is the top. -/

/-- `Rule::reduce` (fixity.rs:165-171) for the infix `op` on top of the operator stack. -/
def reduceTop (op : Infix) : List Expr → Except Panic (List Expr)
  | right :: left :: rest => .ok (.bin left op right :: rest)
  | _ => .error .reduceUnderflow

/-- The inner `loop` (fixity.rs:282-301): operands and operators after the new operator
`infx` has been placed, or an error. -/
def place (m : Fixities) (infx : Infix) :
    List Expr → List Infix → Except Panic (Except AssocError (List Expr × List Infix))
  | operands, [] => .ok (.ok (operands, [infx]))
  | operands, prev :: rest =>
    match Rule.fromFixities (m.get prev) (m.get infx) with
    | .shift => .ok (.ok (operands, infx :: prev :: rest))
    | .reduce =>
      match reduceTop prev operands with
      | .error p => .error p
      | .ok operands => place m infx operands rest
    | .ambiguous pf cf => .ok (.error ⟨(prev, pf), (infx, cf)⟩)

/-- The final `while` (fixity.rs:303-310). -/
def finish : List Expr → List Infix → Expr → Except Panic Expr
  | _, [], right => .ok right
  | left :: operands, infx :: infixes, right => finish operands infixes (.bin left infx right)
  | [], _ :: _, _ => .error .finishUnderflow

/-- The outer `loop` (fixity.rs:277-313). -/
def rewriteLoop (m : Fixities) :
    List Expr → List Infix → Expr → Except Panic (Except AssocError Expr)
  | operands, infixes, .bin left infx right =>
    match place m infx (left :: operands) infixes with
    | .error p => .error p
    | .ok (.error e) => .ok (.error e)
    | .ok (.ok (operands, infixes)) => rewriteLoop m operands infixes right
  | operands, infixes, right =>
    match finish operands infixes right with
    | .error p => .error p
    | .ok e => .ok (.ok e)

/-- `Fixities::rewrite` (fixity.rs:274-314). -/
def rewrite (m : Fixities) (e : Expr) : Except Panic (Except AssocError Expr) :=
  rewriteLoop m [] [] e

end Fixities

/-! ### `Resolver` -/

/-- Why a bounded computation did not produce a value. -/
inductive Stop where
  /-- the Rust code panics -/
  | panic (p : Panic)
  /-- the model's fuel ran out (shown not to happen) -/
  | fuel
  deriving DecidableEq, Repr

/-- `Resolver` (fixity.rs:317-321). -/
structure Resolver where
  fixities : Fixities
  errors : List AssocError
  deriving DecidableEq, Repr

namespace Resolver

/-- `Resolver::new` (fixity.rs:333-335). -/
def new : Resolver := ⟨[], []⟩

/-- `Resolver::clear` (fixity.rs:337-341). -/
def clear (r : Resolver) : Nat × Resolver := (r.fixities.length, { r with fixities := [] })

/-- `Resolver::store_error` (fixity.rs:365-369). -/
def storeError (r : Resolver) (e : AssocError) : Resolver :=
  if r.errors.any (·.same e) then r else { r with errors := r.errors ++ [e] }

/-- `Resolver::take_errors` (fixity.rs:371-373). -/
def takeErrors (r : Resolver) : List AssocError × Resolver := (r.errors, { r with errors := [] })

/-- `Resolver::add_fixity` (fixity.rs:375-379). -/
def addFixity (r : Resolver) (op : Infix) (fx : Fixity) : Option (Infix × Fixity) × Resolver :=
  let (old, m) := r.fixities.insert op fx
  (old.map fun f => (op, f), { r with fixities := m })

/-- Loading the declarations of an AST into a table (fixity.rs:382-385 and 572-575). -/
def loadDecls (m : Fixities) : List InfixDecl → Fixities
  | [] => m
  | d :: ds => loadDecls (m.insertMany d.fixity d.infixes) ds

/-- `Resolver::load_fixities` (fixity.rs:381-387). -/
def loadFixities (r : Resolver) (a : Ast) : Resolver :=
  { r with fixities := loadDecls r.fixities a.infxs }

/-- The `.map(..).collect()` of the `Let` case (fixity.rs:549-554): insert the local
fixities, remembering what each insertion returned. -/
def insertLocal (fx : Fixity) : List Infix → Fixities → List (Infix × Option Fixity) × Fixities
  | [], m => ([], m)
  | op :: ops, m =>
    let (old, m) := m.insert op fx
    let (olds, m) := insertLocal fx ops m
    ((op, old) :: olds, m)

/-- The restoring `for_each` of the `Let` case (fixity.rs:556-565), first to last. -/
def restore : List (Infix × Option Fixity) → Fixities → Fixities
  | [], m => m
  | (op, some fx) :: rest, m => restore rest (m.insert op fx).2
  | (op, none) :: rest, m => restore rest (m.remove op).2

/-- Result of visiting: the new resolver and the new expression. -/
abbrev Visit := Except Stop (Resolver × Expr)

/-- `for_each` over the elements of a `Vec<Expr>` in `walk_expr_mut` (ast.rs:475). -/
def walkList (v : Resolver → Expr → Visit) :
    Resolver → List Expr → Except Stop (Resolver × List Expr)
  | r, [] => .ok (r, [])
  | r, e :: es => do
    let (r, e) ← v r e
    let (r, es) ← walkList v r es
    .ok (r, e :: es)

/-- `walk_expr_mut` (ast.rs:462-479) with visitor `v`. -/
def walkExpr (v : Resolver → Expr → Visit) (r : Resolver) : Expr → Visit
  | .lit l => .ok (r, .lit l)
  | .var i => .ok (r, .var i)
  | .app f x => do
    let (r, f) ← v r f
    let (r, x) ← v r x
    .ok (r, .app f x)
  | .bin a op b => do
    let (r, a) ← v r a
    let (r, b) ← v r b
    .ok (r, .bin a op b)
  | .lam p b => do
    let (r, b) ← v r b
    .ok (r, .lam p b)
  | .grp e => do
    let (r, e) ← v r e
    .ok (r, .grp e)
  | .neg e => do
    let (r, e) ← v r e
    .ok (r, .neg e)
  | .tup es => do
    let (r, es) ← walkList v r es
    .ok (r, .tup es)
  | .list es => do
    let (r, es) ← walkList v r es
    .ok (r, .list es)
  | .let_ d b => do
    let (r, b) ← v r b
    .ok (r, .let_ d b)

/-- `Resolver::visit_expr_mut` (fixity.rs:535-569). The recursion of the code is bounded by
fuel; `visit` below supplies enough. -/
def visitN : Nat → Resolver → Expr → Visit
  | 0, _, _ => .error .fuel
  | n + 1, r, e =>
    match e with
    | .bin .. =>
      match r.fixities.rewrite e with
      | .error p => .error (.panic p)
      | .ok (.ok e') => walkExpr (visitN n) r e'
      | .ok (.error err) => .ok (r.storeError err, e)
    | .let_ d body => do
      let (olds, m) := insertLocal d.fixity d.infixes r.fixities
      let (r, body) ← visitN n { r with fixities := m } body
      .ok ({ r with fixities := restore olds r.fixities }, .let_ d body)
    | e => walkExpr (visitN n) r e

end Resolver

mutual
/-- Number of constructors of an expression: a bound on the recursion of the visitor. -/
def Expr.size : Expr → Nat
  | .lit _ => 1
  | .var _ => 1
  | .app f x => f.size + x.size + 1
  | .bin l _ r => l.size + r.size + 1
  | .lam _ b => b.size + 1
  | .grp e => e.size + 1
  | .neg e => e.size + 1
  | .tup es => Expr.sizeList es + 1
  | .list es => Expr.sizeList es + 1
  | .let_ _ b => b.size + 1
/-- Sum of the sizes of the elements. -/
def Expr.sizeList : List Expr → Nat
  | [] => 0
  | e :: es => e.size + Expr.sizeList es
end

namespace Resolver

/-- `Resolver::visit_expr_mut` (fixity.rs:535-569). -/
def visit (r : Resolver) (e : Expr) : Visit := visitN e.size r e

/-- `Resolver::visit_ast_mut` (fixity.rs:571-577) with `walk_ast_mut` (ast.rs:432-439). -/
def visitAst (r : Resolver) (a : Ast) : Except Stop (Resolver × Ast) := do
  let r := { r with fixities := loadDecls r.fixities a.infxs }
  let (r, es) ← walkList visit r a.exprs
  .ok (r, { a with exprs := es })

/-- `Resolver::resolve_ast` (fixity.rs:389-396): the final resolver, the AST as mutated, and
the reported errors (`[]` is `Ok(())`). -/
def resolveAst (r : Resolver) (a : Ast) :
    Except Stop (Resolver × Ast × List AssocError) := do
  let (r, a) ← visitAst r a
  if r.errors = [] then .ok (r, a, [])
  else
    let (es, r) := r.takeErrors
    .ok (r, a, es)

/-- `Resolver::resolved` (fixity.rs:361-363). -/
def resolved (a : Ast) : Except Stop (Ast × List AssocError) := do
  let (_, a, es) ← resolveAst (loadFixities new a) a
  .ok (a, es)

/-- `Resolver::resolve_expr` (fixity.rs:398-400). -/
def resolveExpr (r : Resolver) (e : Expr) : Except Panic (Except AssocError Expr) :=
  r.fixities.rewrite e

/-- `Resolver::load_hs_prelude` (fixity.rs:410-511). The `Symbol` constants denote the texts
given in `Model/Lexicon.lean`. -/
def loadHsPrelude (r : Resolver) : Nat × Resolver :=
  let m := r.fixities
  let m := (m.insert (.standard t!"$") ⟨0, .right⟩).2
  let m := m.insertMany ⟨1, .left⟩ [.standard t!">>=", .standard t!">>"]
  let m := (m.insert (.standard t!"=<<") ⟨1, .right⟩).2
  let m := (m.insert (.standard t!"||") ⟨2, .right⟩).2
  let m := (m.insert (.standard t!"&&") ⟨3, .right⟩).2
  let m := m.insertMany ⟨4, .neither⟩
    [.standard t!"==", .standard t!"/=", .standard t!"<", .standard t!"<=", .standard t!">",
     .standard t!">=", .promoted t!"elem"]
  let m := m.insertMany Fixity.cons [.standard t!":", .standard t!"++"]
  let m := (m.insert (.standard t!"<>") ⟨6, .right⟩).2
  let m := m.insertMany Fixity.plusMinus [.standard t!"+", .standard t!"-"]
  let m := m.insertMany Fixity.multDivRem [.standard t!"*", .standard t!"/", .standard t!"%"]
  let m := m.insertMany Fixity.pow [.standard t!"^", .standard t!"^^", .standard t!"**"]
  (23, { r with fixities := m })

/-- `Resolver::load_arithmetic` (fixity.rs:513-531). -/
def loadArithmetic (r : Resolver) : Nat × Resolver :=
  let m := r.fixities
  let m := m.insertMany Fixity.plusMinus [.standard t!"+", .standard t!"-"]
  let m := m.insertMany Fixity.plusMinus [.standard t!"*", .standard t!"/", .standard t!"%"]
  let m := m.insertMany Fixity.pow [.standard t!"^", .standard t!"^^", .standard t!"**"]
  (8, { r with fixities := m })

/-- `Resolver::entries_for` (fixity.rs:347-355). -/
def entriesFor (r : Resolver) (ops : List Infix) : List (Infix × Fixity) :=
  ops.filterMap r.fixities.getKeyValue

end Resolver
end Pemdas
