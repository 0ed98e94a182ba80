import Verif.Spec.Becomes
/-
Specification of the fixities that a session knows, in the order in which it lists them.
Nothing here refers to the table of the resolver or to the resolver.
-/
namespace Pemdas

/-- The operators that have a fixity, each with its fixity, in the order in which they are listed and
as they are shown. No two of them have the same text. -/
abbrev Ledger := List (Infix × Fixity)

namespace Ledger

/-- The operator has an entry. -/
def Knows (l : Ledger) (op : Infix) : Prop := op.symbol ∈ l.map (·.1.symbol)

instance (l : Ledger) (op : Infix) : Decidable (l.Knows op) :=
  inferInstanceAs (Decidable (_ ∈ _))

/-- The fixity of an operator: that of its entry, `infixl 9` if there is none. -/
def fixity (l : Ledger) : Env := fun op =>
  match l.find? fun x => x.1.symbol = op.symbol with
  | some x => x.2
  | none => ⟨9, .left⟩

/-- A declaration of one operator: its entry is changed, and keeps its place and the operator as it was
first written; a new entry comes last. -/
def enter (l : Ledger) (x : Infix × Fixity) : Ledger :=
  if l.Knows x.1 then l.map fun y => if y.1.symbol = x.1.symbol then (y.1, x.2) else y else l ++ [x]

/-- Declarations of operators, one after the other. -/
def enterAll (l : Ledger) (xs : List (Infix × Fixity)) : Ledger := xs.foldl enter l

end Ledger

/-- The operators that are named for the second time, in order; `seen` has been named already. -/
def seconds (seen : List Symbol) : List Infix → List Infix
  | [] => []
  | op :: ops =>
    (if seen.count op.symbol = 1 then [op] else []) ++ seconds (op.symbol :: seen) ops

/-- What a declaration declares. -/
def InfixDecl.entries (d : InfixDecl) : List (Infix × Fixity) := d.infixes.map fun op => (op, d.fixity)

/-- The ledger after a `let` with declaration `d`, if it was `l` before it and its body has left `l'`:
operators that the `let` has added are taken out again, but those that it names more than once are
then put last, as they are written the second time. The fixities are those of `Env.afterLet`. -/
def Ledger.afterLet (l : Ledger) (d : InfixDecl) (l' : Ledger) : Ledger :=
  ((l'.map (·.1)).filter (fun op => d.times op = 0 ∨ l.Knows op) ++
    (seconds [] d.infixes).filter (fun op => ¬ l.Knows op)).map
    fun op => (op, l.fixity.afterLet d l'.fixity op)

mutual
/-- `Turns l e e' es l'`: with the ledger `l` the expression `e` turns into `e'`, the errors `es` are
met in this order, and the ledger `l'` is left. The rules are those of `Becomes`. -/
inductive Turns : Ledger → Expr → Expr → List AssocError → Ledger → Prop where
  | lit {l n} : Turns l (.lit n) (.lit n) [] l
  | var {l i} : Turns l (.var i) (.var i) [] l
  | app {l f f' x x' es es' l₁ l₂} : Turns l f f' es l₁ → Turns l₁ x x' es' l₂ →
      Turns l (.app f x) (.app f' x') (es ++ es') l₂
  | lam {l p b b' es l'} : Turns l b b' es l' → Turns l (.lam p b) (.lam p b') es l'
  | grp {l b b' es l'} : Turns l b b' es l' → Turns l (.grp b) (.grp b') es l'
  | neg {l b b' es l'} : Turns l b b' es l' → Turns l (.neg b) (.neg b') es l'
  | tup {l xs xs' es l'} : TurnAll l xs xs' es l' → Turns l (.tup xs) (.tup xs') es l'
  | list {l xs xs' es l'} : TurnAll l xs xs' es l' → Turns l (.list xs) (.list xs') es l'
  | let_ {l d b b' es l'} : Turns (l.enterAll d.entries) b b' es l' →
      Turns l (.let_ d b) (.let_ d b') es (l.afterLet d l')
  | ambiguous {l x op y p c} : FirstClash l.fixity (Expr.bin x op y).chainOperators p c →
      Turns l (.bin x op y) (.bin x op y) [clashError l.fixity p c] l
  | grouped {l x op y s o t s' t' es es' l₁ l₂} : (OpTree.node s o t).WellGrouped l.fixity →
      (OpTree.node s o t).operators = (Expr.bin x op y).chainOperators →
      (OpTree.node s o t).operands = (Expr.bin x op y).chainOperands →
      Turns l s.toExpr s' es l₁ → Turns l₁ t.toExpr t' es' l₂ →
      Turns l (.bin x op y) (.bin s' o t') (es ++ es') l₂
/-- The same for expressions one after the other. -/
inductive TurnAll : Ledger → List Expr → List Expr → List AssocError → Ledger → Prop where
  | nil {l} : TurnAll l [] [] [] l
  | cons {l x x' xs xs' es es' l₁ l₂} : Turns l x x' es l₁ → TurnAll l₁ xs xs' es' l₂ →
      TurnAll l (x :: xs) (x' :: xs') (es ++ es') l₂
end

end Pemdas
