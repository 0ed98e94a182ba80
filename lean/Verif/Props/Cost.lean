import Verif.Lemmas.Cost
/-
C168: resolving is quadratic at worst, and quadratic for the simplest chains.
-/
namespace Pemdas
namespace Resolver
open Counted Fixities

/-- **C168** Counting changes nothing: what is counted is the work of the resolver. -/
theorem C168_counted (r : Resolver) :
    (∀ e, (visitC r e).result = visit r e) ∧ ∀ a, (visitAstC r a).result = visitAst r a :=
  ⟨visitC_result r, visitAstC_result r⟩

/-- **C168** Resolving an expression in which `n` operators are applied compares fixities at most
`n * (n - 1)` times, and copies each node at most `n` times; with every table, also if errors are found,
and for whole programs. -/
theorem C168_bound (r : Resolver) :
    (∀ e, (visitC r e).compared ≤ e.operations * (e.operations - 1) ∧
      (visitC r e).copied ≤ e.operations * e.nodes) ∧
    ∀ a : Ast, (visitAstC r a).compared ≤
        Expr.operationsList a.exprs * (Expr.operationsList a.exprs - 1) ∧
      (visitAstC r a).copied ≤ Expr.operationsList a.exprs * Expr.nodesList a.exprs := by
  have key : ∀ {α : Type} {x : Counted α} {b s : Nat}, x.Within b s → x.compared ≤ b * (b - 1) ∧
      x.copied ≤ b * s := by
    intro α x b s h
    refine ⟨?_, h.2⟩
    have := h.1
    rw [Nat.mul_sub, Nat.mul_one]
    omega
  refine ⟨fun e => key (visitNC_within _ r e), fun a => key ?_⟩
  exact (walkListC_within (fun r e => visitNC_within _ r e) _ a.exprs).one

/-! ### chains of one operator -/

/-- `x op x op … op x`, grouped to the left. -/
def leftOf (x : Expr) (op : Infix) : Nat → Expr
  | 0 => x
  | n + 1 => .bin (leftOf x op n) op x

section
variable {m : Fixities} {op : Infix} {p : Nat} {i : Ident}

theorem finish_right (x : Expr) (op : Infix) (n j : Nat) :
    finish (List.replicate j x) (List.replicate j op) (Expr.chainOf x op n) =
      .ok (Expr.chainOf x op (n + j)) := by
  induction j generalizing n with
  | zero => rfl
  | succ j ih =>
    have := ih (n + 1)
    simp only [Expr.chainOf] at this
    simp only [List.replicate_succ, finish, this]
    rw [show n + 1 + j = n + (j + 1) by omega]

theorem rewriteLoopC_right (h : m.get op = ⟨p, .right⟩) (n j : Nat) :
    rewriteLoopC m (List.replicate (j + 1) (.var i)) (List.replicate (j + 1) op) (Expr.chainOf (.var i) op n) =
      ⟨n, 0, .ok (.ok (Expr.chainOf (.var i) op (n + (j + 1))))⟩ := by
  induction n generalizing j with
  | zero =>
    have := finish_right (.var i) op 0 (j + 1)
    simp only [Expr.chainOf] at this ⊢
    simp only [rewriteLoopC, this]
  | succ n ih =>
    have hr : Rule.fromFixities (m.get op) (m.get op) = .shift := by
      rw [h]; simp [Rule.fromFixities]
    have := ih (j + 1)
    rw [show n + (j + 1 + 1) = n + 1 + (j + 1) by omega] at this
    generalize Expr.chainOf (.var i) op (n + 1 + (j + 1)) = z at this ⊢
    simp only [Expr.chainOf, rewriteLoopC, List.replicate_succ, placeC, hr] at this ⊢
    simp only [this, Nat.add_comm 1 n]

theorem rewriteC_right (h : m.get op = ⟨p, .right⟩) (n : Nat) :
    rewriteC m (Expr.chainOf (.var i) op (n + 1)) =
      ⟨n, (Expr.chainOf (.var i) op (n + 1)).size, .ok (.ok (Expr.chainOf (.var i) op (n + 1)))⟩ := by
  have := rewriteLoopC_right (i := i) h n 0
  simp only [List.replicate_succ, List.replicate_zero] at this
  simp only [rewriteC, Expr.chainOf, rewriteLoopC, placeC, this, Nat.zero_add, Nat.add_zero]

theorem size_chainOf (n : Nat) : (Expr.chainOf (.var i) op n).size = 2 * n + 1 := by
  induction n with
  | zero => rfl
  | succ n ih => simp only [Expr.chainOf, Expr.size, ih]; omega

theorem visitNC_var (k : Nat) (r : Resolver) : visitNC (k + 1) r (.var i) = .pure (r, .var i) := rfl

theorem visitNC_bin {k : Nat} {r : Resolver} {l rt l' r' : Expr} {o o' : Infix} {c d c1 d1 c2 d2 : Nat}
    (h : rewriteC r.fixities (.bin l o rt) = ⟨c, d, .ok (.ok (.bin l' o' r'))⟩)
    (h1 : visitNC k r l' = ⟨c1, d1, .ok (r, l')⟩) (h2 : visitNC k r r' = ⟨c2, d2, .ok (r, r')⟩) :
    visitNC (k + 1) r (.bin l o rt) = ⟨c + (c1 + c2), d + (d1 + d2), .ok (r, .bin l' o' r')⟩ := by
  simp only [visitNC, h, walkExprC, Counted.bind, h1, h2, Counted.pure, Nat.add_zero]

theorem visitNC_right {r : Resolver} (h : r.fixities.get op = ⟨p, .right⟩) (n k : Nat)
    (hk : 2 * n + 1 ≤ k) : ∃ c d, visitNC k r (Expr.chainOf (.var i) op n) =
      ⟨c, d, .ok (r, Expr.chainOf (.var i) op n)⟩ ∧ 2 * c + n = n * n ∧ d = n * n + 2 * n := by
  induction n generalizing k with
  | zero =>
    obtain ⟨k, rfl⟩ : ∃ j, k = j + 1 := ⟨k - 1, by omega⟩
    exact ⟨0, 0, rfl, rfl, rfl⟩
  | succ n ih =>
    obtain ⟨k, rfl⟩ : ∃ j, k = j + 1 + 1 := ⟨k - 2, by omega⟩
    obtain ⟨c, d, h1, h2, h3⟩ := ih (k + 1) (by omega)
    have h4 := rewriteC_right (i := i) h n
    have h5 := size_chainOf (i := i) (op := op) (n + 1)
    have hs := square_add n 1
    refine ⟨n + c, 2 * n + 3 + d, ?_, by omega, by omega⟩
    rw [h5] at h4
    have := visitNC_bin h4 (visitNC_var k r) h1
    simp only [Nat.zero_add] at this
    rw [show 2 * n + 3 + d = 2 * (n + 1) + 1 + d by omega]
    exact this

theorem rewriteLoopC_left (h : m.get op = ⟨p, .left⟩) (n j : Nat) :
    rewriteLoopC m [leftOf (.var i) op j] [op] (Expr.chainOf (.var i) op n) =
      ⟨n, 0, .ok (.ok (leftOf (.var i) op (n + j + 1)))⟩ := by
  induction n generalizing j with
  | zero => simp only [Expr.chainOf, rewriteLoopC, finish, Nat.zero_add, leftOf]
  | succ n ih =>
    have hr : Rule.fromFixities (m.get op) (m.get op) = .reduce := by
      rw [h]; simp [Rule.fromFixities]
    have := ih (j + 1)
    rw [show n + (j + 1) + 1 = n + 1 + j + 1 by omega] at this
    generalize leftOf (.var i) op (n + 1 + j + 1) = z at this ⊢
    simp only [leftOf] at this
    simp only [Expr.chainOf, rewriteLoopC, placeC, hr, reduceTop, this, Nat.add_comm 1 n]

theorem rewriteC_left (h : m.get op = ⟨p, .left⟩) (n : Nat) :
    rewriteC m (Expr.chainOf (.var i) op (n + 1)) =
      ⟨n, 2 * n + 3, .ok (.ok (leftOf (.var i) op (n + 1)))⟩ := by
  have h1 := rewriteLoopC_left (i := i) h n 0
  have h2 := size_chainOf (i := i) (op := op) (n + 1)
  simp only [leftOf] at h1
  simp only [Expr.chainOf] at h2
  simp only [rewriteC, Expr.chainOf, rewriteLoopC, placeC, h1, h2, Nat.zero_add, Nat.add_zero, leftOf]
  rw [show 2 * (n + 1) + 1 = 2 * n + 3 by omega]

theorem size_leftOf (n : Nat) : (leftOf (.var i) op n).size = 2 * n + 1 := by
  induction n with
  | zero => rfl
  | succ n ih => simp only [leftOf, Expr.size, ih]; omega

theorem rewriteC_done (n : Nat) : rewriteC m (leftOf (.var i) op (n + 1)) =
    ⟨0, 2 * n + 3, .ok (.ok (leftOf (.var i) op (n + 1)))⟩ := by
  have h2 := size_leftOf (i := i) (op := op) (n + 1)
  simp only [leftOf] at h2
  simp only [rewriteC, leftOf, rewriteLoopC, placeC, finish, h2]
  rw [show 2 * (n + 1) + 1 + (0 + 0) = 2 * n + 3 by omega]

theorem visitNC_done {r : Resolver} (n k : Nat) (hk : 2 * n + 1 ≤ k) :
    visitNC k r (leftOf (.var i) op n) = ⟨0, n * n + 2 * n, .ok (r, leftOf (.var i) op n)⟩ := by
  induction n generalizing k with
  | zero =>
    obtain ⟨k, rfl⟩ : ∃ j, k = j + 1 := ⟨k - 1, by omega⟩
    rfl
  | succ n ih =>
    obtain ⟨k, rfl⟩ : ∃ j, k = j + 1 + 1 := ⟨k - 2, by omega⟩
    have h1 := ih (k + 1) (by omega)
    have h4 := rewriteC_done (m := r.fixities) (i := i) (op := op) n
    have hs := square_add n 1
    have := visitNC_bin h4 h1 (visitNC_var k r)
    simp only [Nat.add_zero] at this
    rw [show (n + 1) * (n + 1) + 2 * (n + 1) = 2 * n + 3 + (n * n + 2 * n) by omega]
    exact this

theorem visitNC_left {r : Resolver} (h : r.fixities.get op = ⟨p, .left⟩) (n k : Nat)
    (hk : 2 * n + 1 ≤ k) : visitNC k r (Expr.chainOf (.var i) op n) =
      ⟨n - 1, n * n + 2 * n, .ok (r, leftOf (.var i) op n)⟩ := by
  cases n with
  | zero =>
    obtain ⟨k, rfl⟩ : ∃ j, k = j + 1 := ⟨k - 1, by omega⟩
    rfl
  | succ n =>
    obtain ⟨k, rfl⟩ : ∃ j, k = j + 1 + 1 := ⟨k - 2, by omega⟩
    have h1 := visitNC_done (r := r) (i := i) (op := op) n (k + 1) (by omega)
    have h4 := rewriteC_left (i := i) h n
    have hs := square_add n 1
    have := visitNC_bin h4 h1 (visitNC_var k r)
    simp only [Nat.add_zero] at this
    rw [show (n + 1) * (n + 1) + 2 * (n + 1) = 2 * n + 3 + (n * n + 2 * n) by omega]
    exact this

end

/-- **C168** The bound is met up to a constant factor by the simplest expressions: in a chain of `n`
right-associative operators, fixities are compared `n * (n - 1) / 2` times, because the rest of the chain
is resolved again and again; and both there and for left-associative operators (for which `n - 1`
comparisons are enough) `n * (n + 2)` nodes are copied, because everything is copied before it is
resolved, and its parts once more. -/
theorem C168_chains (r : Resolver) (op : Infix) (p : Nat) (i : Ident) (n : Nat) :
    (r.fixities.get op = ⟨p, .right⟩ →
      2 * (visitC r (Expr.chainOf (.var i) op n)).compared = n * (n - 1) ∧
      (visitC r (Expr.chainOf (.var i) op n)).copied = n * (n + 2)) ∧
    (r.fixities.get op = ⟨p, .left⟩ →
      (visitC r (Expr.chainOf (.var i) op n)).compared = n - 1 ∧
      (visitC r (Expr.chainOf (.var i) op n)).copied = n * (n + 2)) := by
  have hs : (Expr.chainOf (.var i) op n).size = 2 * n + 1 := size_chainOf n
  refine ⟨fun h => ?_, fun h => ?_⟩
  · obtain ⟨c, d, h1, h2, h3⟩ := visitNC_right (i := i) h n _ (Nat.le_of_eq hs.symm)
    unfold visitC
    rw [h1, Nat.mul_sub, Nat.mul_one, Nat.mul_add]
    exact ⟨by simp only; omega, by simp only; omega⟩
  · have h1 := visitNC_left (i := i) h n _ (Nat.le_of_eq hs.symm)
    unfold visitC
    rw [h1, Nat.mul_add]
    exact ⟨rfl, by simp only; omega⟩

/-- C168: tables in which operators are like this; and the numbers for `x ^ x ^ x ^ x ^ x`. -/
example : (loadArithmetic new).2.fixities.get (.standard t!"^") = ⟨8, .right⟩ ∧
    (loadArithmetic new).2.fixities.get (.standard t!"+") = ⟨6, .left⟩ ∧
    (visitC (loadArithmetic new).2 (Expr.chainOf (.var (.lower t!"x")) (.standard t!"^") 4)).compared = 6 ∧
    (visitC (loadArithmetic new).2 (Expr.chainOf (.var (.lower t!"x")) (.standard t!"^") 4)).copied = 24 := by
  decide +kernel

/-- C168: a mixed chain, and one that is ambiguous. -/
example : (visitC (loadArithmetic new).2 (.bin (.lit (.int 1)) (.standard t!"^") (.bin (.lit (.int 2))
      (.standard t!"+") (.bin (.lit (.int 3)) (.standard t!"^") (.lit (.int 4)))))).compared = 2 ∧
    (visitC { new with fixities := [(.standard t!"<", ⟨4, .neither⟩)] }
      (Expr.chainOf (.var (.lower t!"x")) (.standard t!"<") 2)).compared = 1 := by decide +kernel

end Resolver
end Pemdas
