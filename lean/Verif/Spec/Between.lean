import Verif.Spec.Grouping
/-
Specification of which operator of a chain is applied to which, without groupings: pairs of operators and
what stands between them.
-/
namespace Pemdas

/-- In this grouping the operator at position `i` is applied to something that contains the operator at
position `j` (positions count from the left). -/
def OpTree.Over : OpTree → Nat → Nat → Prop
  | leaf _, _, _ => False
  | node l _ r, i, j =>
    (i = l.operators.length ∧ j < l.operators.length + 1 + r.operators.length ∧ j ≠ i) ∨
    (i < l.operators.length ∧ j < l.operators.length ∧ l.Over i j) ∨
    (l.operators.length < i ∧ l.operators.length < j ∧
      r.Over (i - (l.operators.length + 1)) (j - (l.operators.length + 1)))

/-- Every operator from position `i` (exclusive) to `j` (inclusive), in whichever direction, may stand under
the one at position `i` on its side. -/
def Outlasts (fx : Env) (ops : List Infix) (i j : Nat) : Prop :=
  i ≠ j ∧ j < ops.length ∧ ∃ a, ops[i]? = some a ∧ ∀ k b, ops[k]? = some b →
    (i < k ∧ k ≤ j → RightOk (fx b) (fx a)) ∧ (j ≤ k ∧ k < i → LeftOk (fx b) (fx a))

/-- Between two operators of the same precedence there always is a looser one. -/
def Spread (fx : Env) (ops : List Infix) : Prop :=
  ∀ pre a mid b post, ops = pre ++ a :: (mid ++ b :: post) → (fx a).prec = (fx b).prec →
    ∃ c ∈ mid, (fx c).prec < (fx a).prec

/-- The second grouping is the first one with `u` in the place of the part `s`. -/
inductive OpTree.Swap (s u : OpTree) : OpTree → OpTree → Prop
  | here : Swap s u s u
  | left {l l' op r} : Swap s u l l' → Swap s u (.node l op r) (.node l' op r)
  | right {l op r r'} : Swap s u r r' → Swap s u (.node l op r) (.node l op r')

end Pemdas
