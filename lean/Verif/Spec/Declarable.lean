import Verif.Spec.Grouping
/-
Spec for C177: how many precedences a grouping takes.
-/
namespace Pemdas
namespace OpTree

/-- How many precedences a grouping takes if its outermost operator is left-associative, and if it is
right-associative, and has the lowest of them. An operand on the side to which the operator associates may begin
on the same level; all others begin on a higher one. -/
def rungs : OpTree → Nat × Nat
  | leaf _ => (0, 0)
  | node l _ r =>
    (max (min l.rungs.1 (min l.rungs.1 l.rungs.2 + 1)) (min r.rungs.1 r.rungs.2 + 1),
     max (min l.rungs.1 l.rungs.2 + 1) (min r.rungs.2 (min r.rungs.1 r.rungs.2 + 1)))

/-- How many precedences a grouping takes. -/
def levels (t : OpTree) : Nat := min t.rungs.1 t.rungs.2

/-- The operators are pairwise different. -/
def Distinct (t : OpTree) : Prop := (t.operators.map Infix.symbol).Pairwise (· ≠ ·)

end OpTree
end Pemdas
