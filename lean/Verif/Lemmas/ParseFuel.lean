import Verif.Model.Parser
/-
More fuel never changes an outcome other than "out of fuel".
-/
namespace Pemdas
variable [CharTables]

/-- `m'` does the same as `m` wherever `m` does not run out of fuel. -/
def P.Below {α : Type} (m m' : P α) : Prop := ∀ l, m l = .fuel ∨ m l = m' l

omit [CharTables] in
theorem P.Below.rfl {α : Type} {m : P α} : P.Below m m := fun _ => .inr (Eq.refl _)

omit [CharTables] in
theorem P.Below.zero {α : Type} {m : P α} : P.Below P.outOfFuel m := fun _ => .inl (Eq.refl _)

omit [CharTables] in
theorem P.Below.bind {α β : Type} {m m' : P α} {f f' : α → P β} (h : P.Below m m')
    (hf : ∀ a, P.Below (f a) (f' a)) : P.Below (m >>= f) (m' >>= f') := by
  intro l
  show P.bind m f l = .fuel ∨ P.bind m f l = P.bind m' f' l
  unfold P.bind
  rcases h l with h | h
  · rw [h]; exact .inl (Eq.refl _)
  · rw [← h]
    cases m l with
    | ok a l' => exact hf a l'
    | err e l' => exact .inr (Eq.refl _)
    | panic p => exact .inr (Eq.refl _)
    | fuel => exact .inl (Eq.refl _)

namespace Parser

theorem infixLoop_below (n : Nat) : ∀ ops, P.Below (infixLoop n ops) (infixLoop (n + 1) ops) := by
  induction n with
  | zero => intro ops; exact .zero
  | succ n ih =>
    intro ops
    unfold infixLoop
    refine P.Below.bind .rfl fun b => ?_
    split
    · exact P.Below.bind .rfl fun op => ih _
    · exact .rfl

theorem infixDecl_below (n : Nat) : P.Below (infixDecl n) (infixDecl (n + 1)) := by
  unfold infixDecl
  refine P.Below.bind .rfl fun _ => P.Below.bind .rfl fun _ => ?_
  exact P.Below.bind (infixLoop_below n _) fun _ => .rfl

theorem commaLoop_below (n : Nat) : ∀ k, P.Below (commaLoop n k) (commaLoop (n + 1) k) := by
  induction n with
  | zero => intro ops; exact .zero
  | succ n ih =>
    intro ops
    unfold commaLoop
    refine P.Below.bind .rfl fun b => ?_
    split
    · exact ih _
    · exact .rfl

structure PatBelow (n : Nat) : Prop where
  pattern : P.Below (pattern n) (pattern (n + 1))
  innerPat : P.Below (innerPat n) (innerPat (n + 1))
  brackPat : P.Below (brackPat n) (brackPat (n + 1))
  upperPat : ∀ s, P.Below (upperPat n s) (upperPat (n + 1) s)
  lowerPat : ∀ s, P.Below (lowerPat n s) (lowerPat (n + 1) s)
  parenPat : P.Below (parenPat n) (parenPat (n + 1))
  patArgs : ∀ s, P.Below (patArgs n s) (patArgs (n + 1) s)
  patTail : ∀ s, P.Below (patTail n s) (patTail (n + 1) s)
  innerTail : ∀ s, P.Below (innerTail n s) (innerTail (n + 1) s)

theorem patBelow (n : Nat) : PatBelow n := by
  induction n with
  | zero => constructor <;> intros <;> exact .zero
  | succ n ih =>
    obtain ⟨h1, h2, h3, h4, h5, h6, h7, h8, h9⟩ := ih
    constructor
    · unfold Parser.pattern
      repeat' first
        | exact .rfl | exact h6 | exact h3 | exact h5 _ | (refine P.Below.bind ?_ fun _ => ?_)
        | split
    · unfold Parser.innerPat
      repeat' first
        | exact .rfl | exact h6 | exact h3 | exact h5 _ | exact h4 _ | exact h1
        | (refine P.Below.bind ?_ fun _ => ?_) | split
    · unfold Parser.brackPat
      repeat' first
        | exact .rfl | exact h2 | exact h9 _ | (refine P.Below.bind ?_ fun _ => ?_) | split
    · intro s
      unfold Parser.upperPat
      repeat' first
        | exact .rfl | exact h7 _ | exact h8 _ | (refine P.Below.bind ?_ fun _ => ?_) | split
    · intro s
      unfold Parser.lowerPat
      repeat' first
        | exact .rfl | exact h1 | (refine P.Below.bind ?_ fun _ => ?_) | split
    · unfold Parser.parenPat
      repeat' first
        | exact .rfl | exact h1 | exact h4 _ | exact h9 _ | (refine P.Below.bind ?_ fun _ => ?_)
        | split
    · intro s
      unfold Parser.patArgs
      repeat' first
        | exact .rfl | exact h1 | exact h7 _ | (refine P.Below.bind ?_ fun _ => ?_) | split
    · intro s
      unfold Parser.patTail
      repeat' first
        | exact .rfl | exact h1 | exact h8 _ | (refine P.Below.bind ?_ fun _ => ?_) | split
    · intro s
      unfold Parser.innerTail
      repeat' first
        | exact .rfl | exact h2 | exact h9 _ | (refine P.Below.bind ?_ fun _ => ?_) | split

structure ExprBelow (n : Nat) : Prop where
  expression : P.Below (expression n) (expression (n + 1))
  binaryLoop : ∀ e s, P.Below (binaryLoop n e s) (binaryLoop (n + 1) e s)
  subexpression : P.Below (subexpression n) (subexpression (n + 1))
  appLoop : ∀ l e, P.Below (appLoop n l e) (appLoop (n + 1) l e)
  atom : P.Below (atom n) (atom (n + 1))
  lambda : P.Below (lambda n) (lambda (n + 1))
  parenExpr : P.Below (parenExpr n) (parenExpr (n + 1))
  exprTail : ∀ es, P.Below (exprTail n es) (exprTail (n + 1) es)
  brackExpr : P.Below (brackExpr n) (brackExpr (n + 1))
  brackLoop : ∀ es, P.Below (brackLoop n es) (brackLoop (n + 1) es)

theorem exprBelow (n : Nat) : ExprBelow n := by
  induction n with
  | zero => constructor <;> intros <;> exact .zero
  | succ n ih =>
    obtain ⟨h1, h2, h3, h4, h5, h6, h7, h8, h9, h10⟩ := ih
    have hp := patBelow n
    constructor
    · unfold Parser.expression
      exact P.Below.bind h3 fun _ => h2 _ _
    · intro e s
      unfold Parser.binaryLoop
      repeat' first
        | exact .rfl | exact h3 | exact h2 _ _ | (refine P.Below.bind ?_ fun _ => ?_) | split
    · unfold Parser.subexpression
      exact P.Below.bind .rfl fun _ => P.Below.bind h5 fun _ => h4 _ _
    · intro l e
      unfold Parser.appLoop
      repeat' first
        | exact .rfl | exact h5 | exact h4 _ _ | (refine P.Below.bind ?_ fun _ => ?_) | split
    · unfold Parser.atom
      repeat' first
        | exact .rfl | exact h1 | exact h6 | exact h7 | exact h9 | exact infixDecl_below n
        | (refine P.Below.bind ?_ fun _ => ?_) | split
    · unfold Parser.lambda
      repeat' first
        | exact .rfl | exact h1 | exact hp.pattern | exact hp.patArgs _
        | (refine P.Below.bind ?_ fun _ => ?_) | split
    · unfold Parser.parenExpr
      repeat' first
        | exact .rfl | exact h1 | exact h8 _ | exact commaLoop_below n _
        | (refine P.Below.bind ?_ fun _ => ?_) | split
    · intro es
      unfold Parser.exprTail
      repeat' first
        | exact .rfl | exact h1 | exact h8 _ | (refine P.Below.bind ?_ fun _ => ?_) | split
    · unfold Parser.brackExpr
      exact P.Below.bind .rfl fun _ => P.Below.bind (h10 _) fun _ => .rfl
    · intro es
      unfold Parser.brackLoop
      repeat' first
        | exact .rfl | exact h1 | exact h10 _ | (refine P.Below.bind ?_ fun _ => ?_) | split

theorem decl_below (n : Nat) : P.Below (decl n) (decl (n + 1)) := by
  have h1 := (exprBelow n).expression
  unfold decl
  repeat' first
    | exact .rfl | exact h1 | exact infixDecl_below n | (refine P.Below.bind ?_ fun _ => ?_) | split

theorem parseInto_below (n : Nat) : ∀ ast, P.Below (parseInto n ast) (parseInto (n + 1) ast) := by
  induction n with
  | zero => intro ast; exact .zero
  | succ n ih =>
    intro ast
    unfold parseInto
    repeat' first
      | exact .rfl | exact ih _ | exact decl_below n | (refine P.Below.bind ?_ fun _ => ?_) | split

end Parser

omit [CharTables] in
/-- Any amount of fuel that suffices gives the same outcome. -/
theorem same_of_below {α : Type} {m : Nat → P α} (h : ∀ n, P.Below (m n) (m (n + 1))) {n k : Nat}
    {l : Lexer} (hn : m n l ≠ .fuel) (hk : n ≤ k) : m k l = m n l := by
  induction hk with
  | refl => rfl
  | step _ ih =>
    rename_i k _
    rcases h k l with h | h
    · rw [ih] at h; exact absurd h hn
    · rw [← h, ih]

end Pemdas
