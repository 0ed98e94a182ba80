import Verif.Spec.Grouping
/-
The algorithm for resolving fixities given in the Haskell 2010 Language Report, section 10.6, for
expressions without negation. Nothing here refers to the resolver.

    parseNeg :: Op -> [Token] -> Maybe (Exp, [Token])
    parseNeg op1 (TExp e1 : rest) = parse1 op1 e1 rest

    parse1 :: Op -> Exp -> [Token] -> Maybe (Exp, [Token])
    parse1 _ e1 [] = Just (e1, [])
    parse1 op1@(Op _ prec1 fix1) e1 (TOp op2@(Op _ prec2 fix2) : rest)
      -- case (1): check for illegal expressions
      | prec1 == prec2 && (fix1 /= fix2 || fix1 == Nonfix) = Nothing
      -- case (2): op1 and op2 should associate to the left
      | prec1 > prec2 || (prec1 == prec2 && fix1 == Leftfix) = Just (e1, TOp op2 : rest)
      -- case (3): op1 and op2 should associate to the right
      | otherwise = do (r, rest') <- parseNeg op2 rest
                       parse1 op1 (Op op2 e1 r) rest'

    resolve tokens = fmap fst $ parseNeg (Op "" (-1) Nonfix) tokens
-/
namespace Pemdas
namespace Haskell

/-- The tokens of an expression: operands and operators. -/
inductive Token where
  | exp (e : Expr)
  | op (o : Infix)
  deriving DecidableEq

/-- The operator to the left: one with its fixity, or the one of precedence -1 before everything. -/
abbrev Op1 := Option Fixity

/-- The guard of case (1). -/
def illegal (op1 : Op1) (op2 : Fixity) : Bool :=
  match op1 with
  | none => false
  | some op1 => op1.prec == op2.prec && (op1.assoc != op2.assoc || op1.assoc == .neither)

/-- The guard of case (2). -/
def toTheLeft (op1 : Op1) (op2 : Fixity) : Bool :=
  match op1 with
  | none => false
  | some op1 => decide (op1.prec > op2.prec) || (op1.prec == op2.prec && op1.assoc == .left)

/-- `parse1`, with `parseNeg` in it; that the tokens returned are not more than those given is part
of the result, because the recursion depends on it. -/
def parse1 (fx : Env) (op1 : Op1) (e1 : OpTree) :
    (ts : List Token) → Option (OpTree × { r : List Token // r.length ≤ ts.length })
  | [] => some (e1, ⟨[], Nat.le_refl _⟩)
  | .op op2 :: rest =>
    if illegal op1 (fx op2) then none
    else if toTheLeft op1 (fx op2) then some (e1, ⟨.op op2 :: rest, Nat.le_refl _⟩)
    else match rest with
      | .exp x :: rest =>
        match parse1 fx (some (fx op2)) (.leaf x) rest with
        | some (r, rest') =>
          match parse1 fx op1 (.node e1 op2 r) rest'.1 with
          | some (e, rest'') => some (e, ⟨rest''.1, by
              have := rest''.2; have := rest'.2; simp only [List.length_cons]; omega⟩)
          | none => none
        | none => none
      | _ => none
  | .exp _ :: _ => none
termination_by ts => ts.length
decreasing_by
  · simp only [List.length_cons]; omega
  · have := rest'.2; simp only [List.length_cons]; omega

/-- `resolve`. -/
def resolve (fx : Env) : List Token → Option OpTree
  | .exp x :: rest => (parse1 fx none (.leaf x) rest).map (·.1)
  | _ => none

/-- The tokens of the chain that an expression spells out. -/
def tokens : Expr → List Token
  | .bin l op r => .exp l :: .op op :: tokens r
  | e => [.exp e]

end Haskell
end Pemdas
