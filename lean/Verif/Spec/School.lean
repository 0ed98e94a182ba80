import Verif.Spec.Resolve
/-
Specification of calculating by the order of operations, the way it is taught at school: the line as
it is written is gone through once for every level of precedence, from the highest to the lowest, and
every operator of the level is carried out where it stands. Nothing here refers to the resolver or to
how an expression is grouped.
-/
namespace Pemdas

/-- A meaning for every construct except grouping: what operators, names, literals, applications and
so on stand for. It can be numbers, functions, machine code, sets of names, ... -/
structure Meaning (V : Type) where
  lit : Literal → V
  var : Ident → V
  op : Infix → V → V → V
  app : V → V → V
  lam : Pat → V → V
  grp : V → V
  neg : V → V
  tup : List V → V
  list : List V → V
  let_ : InfixDecl → V → V

mutual
/-- What an expression stands for, by how it is grouped. -/
def Expr.meaning {V : Type} (M : Meaning V) : Expr → V
  | .lit l => M.lit l
  | .var i => M.var i
  | .app f x => M.app (f.meaning M) (x.meaning M)
  | .bin l op r => M.op op (l.meaning M) (r.meaning M)
  | .lam p b => M.lam p (b.meaning M)
  | .grp e => M.grp (e.meaning M)
  | .neg e => M.neg (e.meaning M)
  | .tup es => M.tup (Expr.meaningList M es)
  | .list es => M.list (Expr.meaningList M es)
  | .let_ d b => M.let_ d (b.meaning M)
/-- What the elements stand for. -/
def Expr.meaningList {V : Type} (M : Meaning V) : List Expr → List V
  | [] => []
  | e :: es => e.meaning M :: Expr.meaningList M es
end

namespace School

/-- Going through a line (a first value, then operators each with the value after it) from left to
right, carrying out the operators in `now`. -/
def leftward {V : Type} (f : Infix → V → V → V) (now : Infix → Bool) :
    V → List (Infix × V) → V × List (Infix × V)
  | x, [] => (x, [])
  | x, (o, y) :: rest =>
    if now o then leftward f now (f o x y) rest
    else (x, (o, (leftward f now y rest).1) :: (leftward f now y rest).2)

/-- Going through a line from right to left, carrying out the operators in `now`. -/
def rightward {V : Type} (f : Infix → V → V → V) (now : Infix → Bool) :
    V → List (Infix × V) → V × List (Infix × V)
  | x, [] => (x, [])
  | x, (o, y) :: rest =>
    if now o then (f o x (rightward f now y rest).1, (rightward f now y rest).2)
    else (x, (o, (rightward f now y rest).1) :: (rightward f now y rest).2)

/-- One level: the right-associative operators of the level from right to left, then the others of
the level from left to right. -/
def level {V : Type} (f : Infix → V → V → V) (fx : Env) (p : Nat) (line : V × List (Infix × V)) :
    V × List (Infix × V) :=
  let mid := rightward f (fun o => (fx o).prec == p && (fx o).assoc == .right) line.1 line.2
  leftward f (fun o => (fx o).prec == p && (fx o).assoc != .right) mid.1 mid.2

/-- The levels in the order in which they are done. -/
def levels : List Nat := [9, 8, 7, 6, 5, 4, 3, 2, 1, 0]

/-- All levels; one value has to be left in the end. -/
def calculate {V : Type} (f : Infix → V → V → V) (fx : Env) (line : V × List (Infix × V)) : Option V :=
  match levels.foldl (fun line p => level f fx p line) line with
  | (v, []) => some v
  | _ => none

/-- What stands at a place of a line: an operator or a value. -/
inductive Item (V : Type) where
  | op (o : Infix)
  | val (v : V)

/-- Values with operators between them. -/
def asLine {V : Type} : List (Item V) → Option (V × List (Infix × V))
  | [.val v] => some (v, [])
  | .val v :: .op o :: rest => (asLine rest).map fun l => (v, (o, l.1) :: l.2)
  | _ => none

mutual
/-- What a thing in a line is: an operator, or something to calculate with, which is calculated first
where it has parts of its own. -/
def item {V : Type} (M : Meaning V) (fx : Env) : Tok → Option (Item V)
  | .op o => some (.op o)
  | .lit l => some (.val (M.lit l))
  | .var i => some (.val (M.var i))
  | .app f x => do
    let f ← (items M fx f).bind fun l => (asLine l).bind (calculate M.op fx)
    let x ← (items M fx x).bind fun l => (asLine l).bind (calculate M.op fx)
    return .val (M.app f x)
  | .lam p b => do
    let b ← (items M fx b).bind fun l => (asLine l).bind (calculate M.op fx)
    return .val (M.lam p b)
  | .grp e => do
    let e ← (items M fx e).bind fun l => (asLine l).bind (calculate M.op fx)
    return .val (M.grp e)
  | .neg e => do
    let e ← (items M fx e).bind fun l => (asLine l).bind (calculate M.op fx)
    return .val (M.neg e)
  | .tup es => do
    let es ← each M fx es
    return .val (M.tup es)
  | .list es => do
    let es ← each M fx es
    return .val (M.list es)
  | .let_ d b => do
    let b ← (items M (fx.extend d) b).bind fun l => (asLine l).bind (calculate M.op (fx.extend d))
    return .val (M.let_ d b)
/-- The things in a line. -/
def items {V : Type} (M : Meaning V) (fx : Env) : List Tok → Option (List (Item V))
  | [] => some []
  | t :: ts => do
    let i ← item M fx t
    let is ← items M fx ts
    return i :: is
/-- Several lines, each calculated on its own. -/
def each {V : Type} (M : Meaning V) (fx : Env) : List (List Tok) → Option (List V)
  | [] => some []
  | ts :: tss => do
    let v ← (items M fx ts).bind fun l => (asLine l).bind (calculate M.op fx)
    let vs ← each M fx tss
    return v :: vs
end

/-- What a line comes to, by the order of operations. -/
def result {V : Type} (M : Meaning V) (fx : Env) (ts : List Tok) : Option V :=
  (items M fx ts).bind fun l => (asLine l).bind (calculate M.op fx)

end School
end Pemdas
