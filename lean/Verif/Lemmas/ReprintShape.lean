import Verif.Spec.Reprint
import Verif.Model.Printer
/-
Helper lemmas: the expression that printed text shows.
-/
namespace Pemdas
open Printer

mutual
/-- The expression with the parentheses that the printer writes, without `let` declarations; `deep`
says whether it is inside an infix expression, `body` whether it is the body of a lambda. -/
def Expr.shown (deep body : Bool) : Expr → Expr
  | .lit l => .lit l
  | .var i => .var i
  | .app f x => .app (f.shown deep false) (x.shown deep false)
  | .bin l op r =>
    .bin (if noParen l then l.shown true false else .grp (l.shown true false)) op
      (if noParen r then r.shown true false else .grp (r.shown true false))
  | .lam p b =>
    if deep && !body then .grp (.lam p (b.shown deep true)) else .lam p (b.shown deep true)
  | .grp e => .grp (e.shown deep false)
  | .neg e => .neg (e.shown deep false)
  | .tup es => .tup (Expr.shownList es)
  | .list es => .list (Expr.shownList es)
  | .let_ _ b => b.shown deep false
/-- The elements of a tuple or list. -/
def Expr.shownList : List Expr → List Expr
  | [] => []
  | e :: es => e.shown false false :: Expr.shownList es
end

/-! ### the expression shown -/

mutual
theorem shown_skeleton : ∀ (e : Expr) (deep body : Bool), (e.shown deep body).skeleton = e.skeleton
  | .lit _, _, _ => rfl
  | .var _, _, _ => rfl
  | .app f x, _, _ => by simp only [Expr.shown, Expr.skeleton, shown_skeleton f, shown_skeleton x]
  | .bin l op r, _, _ => by
    simp only [Expr.shown, Expr.skeleton]
    split <;> split <;> simp only [Expr.skeleton, shown_skeleton l, shown_skeleton r]
  | .lam p b, _, _ => by
    simp only [Expr.shown]
    split <;> simp only [Expr.skeleton, shown_skeleton b]
  | .grp e, _, _ => by simp only [Expr.shown, Expr.skeleton, shown_skeleton e]
  | .neg e, _, _ => by simp only [Expr.shown, Expr.skeleton, shown_skeleton e]
  | .tup es, _, _ => by simp only [Expr.shown, Expr.skeleton, shown_skeletonList es]
  | .list es, _, _ => by simp only [Expr.shown, Expr.skeleton, shown_skeletonList es]
  | .let_ _ b, _, _ => by simp only [Expr.shown, Expr.skeleton, shown_skeleton b]
theorem shown_skeletonList : ∀ (es : List Expr),
    Expr.skeletonList (Expr.shownList es) = Expr.skeletonList es
  | [] => rfl
  | e :: es => by simp only [Expr.shownList, Expr.skeletonList, shown_skeleton e, shown_skeletonList es]
end

theorem shown_rootOp {e : Expr} (h : noParen e = true) (deep body : Bool) :
    (e.shown deep body).rootOp = none := by
  revert h; cases e <;> simp [noParen, Expr.shown, Expr.rootOp]

mutual
theorem shown_grouped : ∀ (e : Expr) (deep body : Bool) (fx : Env),
    (e.shown deep body).Grouped fx ∧ (e.shown deep body).LetsDistinct
  | .lit _, _, _, _ => ⟨trivial, trivial⟩
  | .var _, _, _, _ => ⟨trivial, trivial⟩
  | .app f x, _, _, fx => by
    have h1 := shown_grouped f; have h2 := shown_grouped x
    simp only [Expr.shown, Expr.Grouped, Expr.LetsDistinct]
    exact ⟨⟨(h1 _ _ fx).1, (h2 _ _ fx).1⟩, (h1 _ _ fx).2, (h2 _ _ fx).2⟩
  | .bin l op r, _, _, fx => by
    have h1 := shown_grouped l true false fx; have h2 := shown_grouped r true false fx
    have key : ∀ e : Expr, (e.shown true false).Grouped fx ∧ (e.shown true false).LetsDistinct →
        (if noParen e then e.shown true false else .grp (e.shown true false)).Grouped fx ∧
        (if noParen e then e.shown true false else .grp (e.shown true false)).LetsDistinct ∧
        (if noParen e then e.shown true false else .grp (e.shown true false)).rootOp = none := by
      intro e he
      split
      · rename_i hp; exact ⟨he.1, he.2, shown_rootOp hp _ _⟩
      · exact ⟨he.1, he.2, rfl⟩
    obtain ⟨a1, a2, a3⟩ := key l h1
    obtain ⟨b1, b2, b3⟩ := key r h2
    simp only [Expr.shown, Expr.Grouped, Expr.LetsDistinct]
    exact ⟨⟨a1, b1, by rw [a3]; simp, by rw [b3]; simp⟩, a2, b2⟩
  | .lam p b, _, _, fx => by
    have h1 := shown_grouped b
    simp only [Expr.shown]
    split <;> exact h1 _ _ fx
  | .grp e, _, _, fx => shown_grouped e _ _ fx
  | .neg e, _, _, fx => shown_grouped e _ _ fx
  | .tup es, _, _, fx => shown_groupedList es fx
  | .list es, _, _, fx => shown_groupedList es fx
  | .let_ _ b, deep, _, fx => shown_grouped b deep false fx
theorem shown_groupedList : ∀ (es : List Expr) (fx : Env),
    Expr.GroupedList fx (Expr.shownList es) ∧ Expr.LetsDistinctList (Expr.shownList es)
  | [], _ => ⟨trivial, trivial⟩
  | e :: es, fx => by
    have h1 := shown_grouped e false false fx; have h2 := shown_groupedList es fx
    exact ⟨⟨h1.1, h2.1⟩, h1.2, h2.2⟩
end

end Pemdas
