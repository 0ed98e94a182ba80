import Verif.Model.Visitors
import Verif.Lemmas.Visit
/-
C142 visitors reach every expression once, in the order of the source.
-/
namespace Pemdas
open Visitors

mutual
/-- The subexpressions of an expression, itself first, in the order in which they begin in the
source. -/
def Expr.preorder : Expr → List Expr
  | .lit l => [.lit l]
  | .var i => [.var i]
  | .app f x => .app f x :: (f.preorder ++ x.preorder)
  | .bin l op r => .bin l op r :: (l.preorder ++ r.preorder)
  | .lam p e => .lam p e :: e.preorder
  | .grp e => .grp e :: e.preorder
  | .neg e => .neg e :: e.preorder
  | .tup es => .tup es :: Expr.preorderList es
  | .list es => .list es :: Expr.preorderList es
  | .let_ d b => .let_ d b :: b.preorder
/-- Of all elements. -/
def Expr.preorderList : List Expr → List Expr
  | [] => []
  | e :: es => e.preorder ++ Expr.preorderList es
end

mutual
/-- The subexpressions of an expression, itself last, in the order in which they end in the
source. -/
def Expr.postorder : Expr → List Expr
  | .lit l => [.lit l]
  | .var i => [.var i]
  | .app f x => f.postorder ++ x.postorder ++ [.app f x]
  | .bin l op r => l.postorder ++ r.postorder ++ [.bin l op r]
  | .lam p e => e.postorder ++ [.lam p e]
  | .grp e => e.postorder ++ [.grp e]
  | .neg e => e.postorder ++ [.neg e]
  | .tup es => Expr.postorderList es ++ [.tup es]
  | .list es => Expr.postorderList es ++ [.list es]
  | .let_ d b => b.postorder ++ [.let_ d b]
/-- Of all elements. -/
def Expr.postorderList : List Expr → List Expr
  | [] => []
  | e :: es => e.postorder ++ Expr.postorderList es
end

/-- Induction on expressions, with all elements of tuples and lists. -/
private theorem expr_ind {P : Expr → Prop}
    (h : ∀ e, (∀ x, x.size < e.size → P x) → P e) (e : Expr) : P e := by
  generalize hn : e.size = n
  induction n using Nat.strongRecOn generalizing e with
  | ind n ih => subst hn; exact h e fun x hx => ih _ hx x rfl

private theorem foldl_pre {σ : Type} {f v : σ → Expr → σ} {es : List Expr}
    (h : ∀ x ∈ es, ∀ s, v s x = x.preorder.foldl f s) (s : σ) :
    es.foldl v s = (Expr.preorderList es).foldl f s := by
  induction es generalizing s with
  | nil => rfl
  | cons e es ih =>
    rw [List.foldl_cons, h e (by simp), Expr.preorderList, List.foldl_append]
    exact ih (fun x hx => h x (by simp [hx])) _

private theorem foldl_post {σ : Type} {f v : σ → Expr → σ} {es : List Expr}
    (h : ∀ x ∈ es, ∀ s, v s x = x.postorder.foldl f s) (s : σ) :
    es.foldl v s = (Expr.postorderList es).foldl f s := by
  induction es generalizing s with
  | nil => rfl
  | cons e es ih =>
    rw [List.foldl_cons, h e (by simp), Expr.postorderList, List.foldl_append]
    exact ih (fun x hx => h x (by simp [hx])) _

private theorem mem_lt {x : Expr} {es : List Expr} (h : x ∈ es) : x.size < Expr.sizeList es + 1 := by
  have := Resolver.mem_sizeList h; omega

/-- **C142** A visitor whose method does something with the expression and then walks on does it to
all subexpressions, each once, an expression before those in it and the left before the right. -/
theorem C142_pre {σ : Type} (f : σ → Expr → σ) (v : σ → Expr → σ) :
    (∀ s e, v s e = walkExpr v (f s e) e) ↔ ∀ s e, v s e = e.preorder.foldl f s := by
  constructor
  · intro hv s e
    induction e using expr_ind generalizing s with
    | h e ih =>
      rw [hv]
      cases e with
      | lit | var => rfl
      | app f x | bin f op x =>
        simp only [walkExpr, Expr.preorder, List.foldl_cons, List.foldl_append]
        rw [ih _ (by simp only [Expr.size]; omega), ih _ (by simp only [Expr.size]; omega)]
      | lam p b | grp b | neg b | let_ d b =>
        simp only [walkExpr, Expr.preorder, List.foldl_cons]
        rw [ih _ (by simp only [Expr.size]; omega)]
      | tup es | list es =>
        simp only [walkExpr, Expr.preorder, List.foldl_cons]
        exact foldl_pre (fun x hx s => ih x (mem_lt hx) s) _
  · intro hv s e
    rw [hv]
    cases e with
    | lit | var => rfl
    | tup es | list es =>
      simp only [walkExpr, Expr.preorder, List.foldl_cons]
      exact (foldl_pre (fun x _ s => hv s x) _).symm
    | _ => simp only [walkExpr, Expr.preorder, List.foldl_cons, List.foldl_append, hv]

/-- **C142** A visitor whose method walks first does it to all subexpressions, each once, an
expression after those in it and the left before the right. -/
theorem C142_post {σ : Type} (f : σ → Expr → σ) (v : σ → Expr → σ) :
    (∀ s e, v s e = f (walkExpr v s e) e) ↔ ∀ s e, v s e = e.postorder.foldl f s := by
  constructor
  · intro hv s e
    induction e using expr_ind generalizing s with
    | h e ih =>
      rw [hv]
      cases e with
      | lit | var => rfl
      | app f x | bin f op x =>
        simp only [walkExpr, Expr.postorder, List.foldl_append, List.foldl_cons, List.foldl_nil]
        rw [ih _ (by simp only [Expr.size]; omega), ih _ (by simp only [Expr.size]; omega)]
      | lam p b | grp b | neg b | let_ d b =>
        simp only [walkExpr, Expr.postorder, List.foldl_append, List.foldl_cons, List.foldl_nil]
        rw [ih _ (by simp only [Expr.size]; omega)]
      | tup es | list es =>
        simp only [walkExpr, Expr.postorder, List.foldl_append, List.foldl_cons, List.foldl_nil]
        rw [foldl_post (fun x hx s => ih x (mem_lt hx) s)]
  · intro hv s e
    rw [hv]
    cases e with
    | lit | var => rfl
    | tup es | list es =>
      simp only [walkExpr, Expr.postorder, List.foldl_append, List.foldl_cons, List.foldl_nil]
      rw [foldl_post (fun x _ s => hv s x)]
    | _ => simp only [walkExpr, Expr.postorder, List.foldl_append, List.foldl_cons, List.foldl_nil, hv]

/-- **C142** Walking a program does it to the subexpressions of its expressions, in the order of the
source. -/
theorem C142_program {σ : Type} (f : σ → Expr → σ) (v : σ → Expr → σ) (s : σ) (a : Ast) :
    ((∀ s e, v s e = walkExpr v (f s e) e) →
      walkAst v s a = (Expr.preorderList a.exprs).foldl f s) ∧
    ((∀ s e, v s e = f (walkExpr v s e) e) →
      walkAst v s a = (Expr.postorderList a.exprs).foldl f s) :=
  ⟨fun h => foldl_pre (fun x _ s => (C142_pre f v).1 h s x) s,
   fun h => foldl_post (fun x _ s => (C142_post f v).1 h s x) s⟩

/-- **C142** In particular the default methods do nothing. -/
theorem C142_default {σ : Type} (v : σ → Expr → σ) (h : ∀ s e, v s e = walkExpr v s e) (s : σ)
    (e : Expr) (a : Ast) : v s e = s ∧ walkAst v s a = s := by
  have hn : ∀ (l : List Expr) (s : σ), l.foldl (fun s _ => s) s = s := by
    intro l; induction l with
    | nil => intro; rfl
    | cons x l ih => intro s; exact ih s
  have hv : ∀ s e, v s e = s := fun s e => by
    rw [(C142_pre (fun s _ => s) v).1 h, hn]
  refine ⟨hv s e, ?_⟩
  show a.exprs.foldl v s = s
  rw [show v = fun s _ => s from funext fun s => funext fun e => hv s e, hn]

private theorem walkListMut_same {σ : Type} {v : σ → Expr → σ × Expr} {u : σ → Expr → σ}
    {es : List Expr} (h : ∀ x ∈ es, ∀ s, v s x = (u s x, x)) (s : σ) :
    walkListMut v s es = (es.foldl u s, es) := by
  induction es generalizing s with
  | nil => rfl
  | cons e es ih =>
    simp only [walkListMut, h e (by simp), ih (fun x hx => h x (by simp [hx])), List.foldl_cons]

/-- **C142** A mutable visitor that does not change expressions itself leaves them, and programs, as
they are, and sees what the visitor for shared references sees. -/
theorem C142_mut {σ : Type} (f : σ → Expr → σ) (v : σ → Expr → σ × Expr) (a : Ast) (s : σ) :
    ((∀ s e, v s e = walkExprMut v (f s e) e) →
      (∀ s e, v s e = (e.preorder.foldl f s, e)) ∧
      walkAstMut v s a = ((Expr.preorderList a.exprs).foldl f s, a)) ∧
    ((∀ s e, v s e = (f (walkExprMut v s e).1 (walkExprMut v s e).2, (walkExprMut v s e).2)) →
      (∀ s e, v s e = (e.postorder.foldl f s, e)) ∧
      walkAstMut v s a = ((Expr.postorderList a.exprs).foldl f s, a)) := by
  refine ⟨fun hv => ?_, fun hv => ?_⟩
  · have h : ∀ s e, v s e = (e.preorder.foldl f s, e) := by
      intro s e
      induction e using expr_ind generalizing s with
      | h e ih =>
        rw [hv]
        cases e with
        | lit | var => rfl
        | app f x | bin f op x =>
          simp only [walkExprMut, Expr.preorder, List.foldl_cons, List.foldl_append]
          rw [ih _ (by simp only [Expr.size]; omega)]
          simp only
          rw [ih _ (by simp only [Expr.size]; omega)]
        | lam p b | grp b | neg b | let_ d b =>
          simp only [walkExprMut, Expr.preorder, List.foldl_cons]
          rw [ih _ (by simp only [Expr.size]; omega)]
        | tup es | list es =>
          simp only [walkExprMut, Expr.preorder, List.foldl_cons]
          rw [walkListMut_same (fun x hx s => ih x (mem_lt hx) s), foldl_pre (fun x _ s => rfl)]
    refine ⟨h, ?_⟩
    simp only [walkAstMut, walkListMut_same (fun x _ s => h s x), foldl_pre (fun x _ s => rfl)]
  · have h : ∀ s e, v s e = (e.postorder.foldl f s, e) := by
      intro s e
      induction e using expr_ind generalizing s with
      | h e ih =>
        rw [hv]
        cases e with
        | lit | var => rfl
        | app g x | bin g op x =>
          have h1 := ih g (by simp only [Expr.size]; omega)
          have h2 := ih x (by simp only [Expr.size]; omega)
          simp only [walkExprMut, Expr.postorder, List.foldl_append, List.foldl_cons,
            List.foldl_nil, h1, h2]
        | lam p b | grp b | neg b | let_ d b =>
          have h1 := ih b (by simp only [Expr.size]; omega)
          simp only [walkExprMut, Expr.postorder, List.foldl_append, List.foldl_cons,
            List.foldl_nil, h1]
        | tup es | list es =>
          simp only [walkExprMut, Expr.postorder, List.foldl_append, List.foldl_cons, List.foldl_nil]
          rw [walkListMut_same (fun x hx s => ih x (mem_lt hx) s), foldl_post (fun x _ s => rfl)]
    refine ⟨h, ?_⟩
    simp only [walkAstMut, walkListMut_same (fun x _ s => h s x), foldl_post (fun x _ s => rfl)]

mutual
/-- The literals and variables of an expression, from left to right. -/
def Expr.leaves : Expr → List Expr
  | .lit l => [.lit l]
  | .var i => [.var i]
  | .app a b | .bin a _ b => a.leaves ++ b.leaves
  | .lam _ b | .grp b | .neg b | .let_ _ b => b.leaves
  | .tup es | .list es => Expr.leavesList es
/-- Of all elements. -/
def Expr.leavesList : List Expr → List Expr
  | [] => []
  | e :: es => e.leaves ++ Expr.leavesList es
end

mutual
/-- The expression with all literals and variables replaced by `_`. -/
def Expr.blanked : Expr → Expr
  | .lit _ | .var _ => .var (.lower t!"_")
  | .app a b => .app a.blanked b.blanked
  | .bin a op b => .bin a.blanked op b.blanked
  | .lam p b => .lam p b.blanked
  | .grp b => .grp b.blanked
  | .neg b => .neg b.blanked
  | .tup es => .tup (Expr.blankedList es)
  | .list es => .list (Expr.blankedList es)
  | .let_ d b => .let_ d b.blanked
/-- Of all elements. -/
def Expr.blankedList : List Expr → List Expr
  | [] => []
  | e :: es => e.blanked :: Expr.blankedList es
end

/-- Replace the elements one after the other. -/
def mapThread {σ α : Type} (f : σ → α → σ × α) : σ → List α → σ × List α
  | s, [] => (s, [])
  | s, a :: l => ((mapThread f (f s a).1 l).1, (f s a).2 :: (mapThread f (f s a).1 l).2)

private theorem mapThread_append {σ α : Type} (f : σ → α → σ × α) (a b : List α) (s : σ) :
    mapThread f s (a ++ b) = ((mapThread f (mapThread f s a).1 b).1,
      (mapThread f s a).2 ++ (mapThread f (mapThread f s a).1 b).2) := by
  induction a generalizing s with
  | nil => rfl
  | cons x a ih => simp only [List.cons_append, mapThread, ih]

/-- Literals and variables. -/
def Expr.Leaf (e : Expr) : Prop := (∃ l, e = .lit l) ∨ ∃ i, e = .var i

/-- What a visitor that replaces leaves does to an expression. -/
private def Replaced {σ : Type} (f : σ → Expr → σ × Expr) (v : σ → Expr → σ × Expr) (s : σ) (e : Expr) :
    Prop :=
  (v s e).1 = (mapThread f s e.leaves).1 ∧ (v s e).2.leaves = (mapThread f s e.leaves).2 ∧
    (v s e).2.blanked = e.blanked

private theorem walkListMut_replaced {σ : Type} {f v : σ → Expr → σ × Expr} {es : List Expr}
    (h : ∀ x ∈ es, ∀ s, Replaced f v s x) (s : σ) :
    (walkListMut v s es).1 = (mapThread f s (Expr.leavesList es)).1 ∧
    Expr.leavesList (walkListMut v s es).2 = (mapThread f s (Expr.leavesList es)).2 ∧
    Expr.blankedList (walkListMut v s es).2 = Expr.blankedList es := by
  induction es generalizing s with
  | nil => exact ⟨rfl, rfl, rfl⟩
  | cons e es ih =>
    obtain ⟨h1, h2, h3⟩ := h e (by simp) s
    obtain ⟨h4, h5, h6⟩ := ih (fun x hx => h x (by simp [hx])) (v s e).1
    simp only [walkListMut, Expr.leavesList, Expr.blankedList, mapThread_append, h4, h5, h6, h2, h3,
      ← h1, and_self]

/-- **C142** A mutable visitor that replaces literals and variables by others replaces all of them,
each once and from left to right, and changes nothing else. -/
theorem C142_replace {σ : Type} (f : σ → Expr → σ × Expr) (hf : ∀ s e, e.Leaf → (f s e).2.Leaf)
    (v : σ → Expr → σ × Expr) (h1 : ∀ s e, e.Leaf → v s e = f s e)
    (h2 : ∀ s e, ¬ e.Leaf → v s e = walkExprMut v s e) (s : σ) (e : Expr) :
    (v s e).1 = (mapThread f s e.leaves).1 ∧ (v s e).2.leaves = (mapThread f s e.leaves).2 ∧
    (v s e).2.blanked = e.blanked := by
  show Replaced f v s e
  induction e using expr_ind generalizing s with
  | h e ih =>
    have leaf : e.Leaf → Replaced f v s e := by
      intro he
      have hl := hf s e he
      have h3 : ∀ x : Expr, x.Leaf → x.leaves = [x] ∧ x.blanked = .var (.lower t!"_") := by
        rintro x (⟨l, rfl⟩ | ⟨i, rfl⟩) <;> exact ⟨by simp [Expr.leaves], by simp [Expr.blanked]⟩
      unfold Replaced
      rw [h1 s e he, (h3 _ hl).1, (h3 _ hl).2, (h3 _ he).1, (h3 _ he).2]
      exact ⟨rfl, rfl, rfl⟩
    cases e with
    | lit l => exact leaf (.inl ⟨l, rfl⟩)
    | var i => exact leaf (.inr ⟨i, rfl⟩)
    | app a b | bin a op b =>
      obtain ⟨a1, a2, a3⟩ := ih a (by simp only [Expr.size]; omega) s
      obtain ⟨b1, b2, b3⟩ := ih b (by simp only [Expr.size]; omega) (v s a).1
      unfold Replaced
      rw [h2 _ _ (by simp [Expr.Leaf])]
      simp only [walkExprMut, Expr.leaves, Expr.blanked, mapThread_append, b1, b2, b3, a2, a3, ← a1,
        and_self]
    | lam p b | grp b | neg b | let_ d b =>
      obtain ⟨b1, b2, b3⟩ := ih b (by simp only [Expr.size]; omega) s
      unfold Replaced
      rw [h2 _ _ (by simp [Expr.Leaf])]
      simp only [walkExprMut, Expr.leaves, Expr.blanked, b1, b2, b3, and_self]
    | tup es | list es =>
      obtain ⟨b1, b2, b3⟩ := walkListMut_replaced (f := f) (v := v) (es := es)
        (fun x hx s => ih x (mem_lt hx) s) s
      unfold Replaced
      rw [h2 _ _ (by simp [Expr.Leaf])]
      simp only [walkExprMut, Expr.leaves, Expr.blanked, b1, b2, b3, and_self]

/-- **C142** The same for programs; fixity declarations and the order of the declarations are not
touched. -/
theorem C142_replace_program {σ : Type} (f : σ → Expr → σ × Expr)
    (hf : ∀ s e, e.Leaf → (f s e).2.Leaf)
    (v : σ → Expr → σ × Expr) (h1 : ∀ s e, e.Leaf → v s e = f s e)
    (h2 : ∀ s e, ¬ e.Leaf → v s e = walkExprMut v s e) (s : σ) (a : Ast) :
    (walkAstMut v s a).1 = (mapThread f s (Expr.leavesList a.exprs)).1 ∧
    Expr.leavesList (walkAstMut v s a).2.exprs = (mapThread f s (Expr.leavesList a.exprs)).2 ∧
    Expr.blankedList (walkAstMut v s a).2.exprs = Expr.blankedList a.exprs ∧
    (walkAstMut v s a).2.infxs = a.infxs ∧ (walkAstMut v s a).2.kinds = a.kinds := by
  obtain ⟨b1, b2, b3⟩ := walkListMut_replaced (f := f) (v := v) (es := a.exprs)
    (fun x _ s => C142_replace f hf v h1 h2 s x) s
  exact ⟨b1, b2, b3, rfl, rfl⟩

/-- The walk with which the resolver is modelled is this one. -/
theorem Resolver.walkExpr_eq (v : Resolver → Expr → Resolver × Expr) (r : Resolver) (e : Expr) :
    Resolver.walkExpr (fun r e => .ok (v r e)) r e = .ok (walkExprMut v r e) := by
  have hl : ∀ es r, Resolver.walkList (fun r e => .ok (v r e)) r es = .ok (walkListMut v r es) := by
    intro es
    induction es with
    | nil => intro r; rfl
    | cons e es ih =>
      intro r
      simp only [Resolver.walkList, bind, Except.bind, ih, walkListMut]
  cases e <;> simp only [Resolver.walkExpr, walkExprMut, bind, Except.bind, hl]

/-- A visitor that counts: its method adds one and walks on. -/
example : ∃ v : Nat → Expr → Nat, (∀ s e, v s e = walkExpr v (s + 1) e) ∧
    v 0 (.app (.var (.lower t!"f")) (.tup [.var (.lower t!"x"), .grp (.var (.lower t!"y"))])) = 6 :=
  ⟨fun s e => e.preorder.foldl (fun s _ => s + 1) s,
    (C142_pre (fun s _ => s + 1) _).2 fun _ _ => rfl, by decide⟩

example : (Expr.bin (.var (.lower t!"a")) (.standard t!"+") (.grp (.var (.lower t!"b")))).preorder =
    [.bin (.var (.lower t!"a")) (.standard t!"+") (.grp (.var (.lower t!"b"))), .var (.lower t!"a"),
      .grp (.var (.lower t!"b")), .var (.lower t!"b")] := by decide

/-- A mutable visitor that changes nothing itself. -/
example : ∃ v : Nat → Expr → Nat × Expr, ∀ s e, v s e = walkExprMut v (s + 1) e := by
  refine ⟨fun s e => (e.preorder.foldl (fun s _ => s + 1) s, e), fun s e => ?_⟩
  have h := fun es s => walkListMut_same
    (v := fun s e => (Expr.preorder e |>.foldl (fun s _ => s + 1) s, e))
    (es := es) (fun x _ s => rfl) s
  cases e with
  | tup es | list es =>
    simp only [walkExprMut, h, Expr.preorder, List.foldl_cons]
    rw [foldl_pre (fun x _ s => rfl)]
  | _ => simp only [walkExprMut, Expr.preorder, List.foldl_cons, List.foldl_append, List.foldl_nil]

/-- A mutable visitor that replaces all literals and variables by `_`. -/
example : ∃ v : Unit → Expr → Unit × Expr,
    (∀ s e, e.Leaf → v s e = ((), .var (.lower t!"_"))) ∧
    (∀ s e, ¬ e.Leaf → v s e = walkExprMut v s e) := by
  have hl : ∀ es, walkListMut (fun _ e => ((), Expr.blanked e)) () es = ((), Expr.blankedList es) := by
    intro es
    induction es with
    | nil => rfl
    | cons e es ih => simp only [walkListMut, ih, Expr.blankedList]
  refine ⟨fun _ e => ((), e.blanked), ?_, ?_⟩
  · rintro s e (⟨l, rfl⟩ | ⟨i, rfl⟩) <;> simp [Expr.blanked]
  · intro s e he
    cases e with
    | lit l => exact absurd (.inl ⟨l, rfl⟩) he
    | var i => exact absurd (.inr ⟨i, rfl⟩) he
    | tup es | list es => simp only [walkExprMut, hl, Expr.blanked]
    | _ => simp only [walkExprMut, Expr.blanked]

end Pemdas
