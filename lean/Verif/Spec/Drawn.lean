import Verif.Spec.Print
/-
Specification: what is written for any expression, with its colours. Nothing here refers to the
printer.
-/
namespace Pemdas

/-- Text in which a character may have the colour of a depth (of operators around it). -/
abbrev Drawing := List (Char × Option Nat)

/-- Text in no colour. -/
def ink (t : Text) : Drawing := t.map (·, none)

/-- In parentheses of the colour of a depth. -/
def boxed (d : Nat) (x : Drawing) : Drawing := [('(', some d)] ++ x ++ [(')', some d)]

/-- In parentheses of the colour of a depth, if the condition holds. -/
def boxedIf (b : Bool) (d : Nat) (x : Drawing) : Drawing := if b then boxed d x else x

/-- The colours of the rainbow, by red, green and blue: those of the depths 0, 1, 2, …, repeated. -/
def rainbow : List (Nat × Nat × Nat) :=
  [(228, 3, 3), (255, 140, 0), (255, 237, 0), (0, 128, 38), (0, 77, 255), (117, 7, 135),
    (129, 43, 166)]

/-- The colour of a depth (a 64-bit number). -/
def depthColor (d : Nat) : Nat × Nat × Nat := rainbow.getD (d % 2 ^ 64 % 7) (0, 0, 0)

/-- What is sent to the terminal: every coloured character has its own escape sequences. -/
def Drawing.sent (x : Drawing) : Text :=
  x.flatMap fun cd => match cd with
    | (c, none) => [c]
    | (c, some d) =>
      painted (t!"38;2;" ++ decText (depthColor d).1 ++ t!";" ++ decText (depthColor d).2.1 ++
        t!";" ++ decText (depthColor d).2.2) [c]

/-- What is seen on the terminal. -/
def Drawing.seen (x : Drawing) : List (Char × Pen) :=
  x.map fun cd => (cd.1, match cd.2 with
    | none => Pen.default
    | some d => { Pen.default with
        fg := some (.rgb (depthColor d).1 (depthColor d).2.1 (depthColor d).2.2) })

/-- Patterns that a minus sign can directly precede. -/
def Pat.simple : Pat → Bool
  | .wild | .lit _ | .var _ => true
  | _ => false

/-- Patterns that are in parentheses next to a colon. -/
def Pat.isLink : Pat → Bool
  | .lnk _ _ | .as_ _ _ => true
  | _ => false

/-- Expressions that are not in parentheses next to an operator. -/
def Expr.closed : Expr → Bool
  | .grp _ | .list _ | .lit _ | .tup _ | .var _ => true
  | _ => false

/-- With a separator between. -/
def joined (sep : Text) (xs : List Drawing) : Drawing := List.intercalate (ink sep) xs

section
variable [CharTables]

mutual
/-- A pattern, with `d` colons around it. -/
def Pat.drawn (d : Nat) : Pat → Drawing
  | .wild => ink t!"_"
  | .lit l => ink l.text
  | .var s => ink s
  | .neg p => ink t!"(-" ++ boxedIf (!p.simple) d (p.drawn d) ++ ink t!")"
  | .con c args =>
    if args.isEmpty then ink c
    else ink t!"(" ++ joined t!" " (ink c :: Pat.drawnList d args) ++ ink t!")"
  | .tup ps => ink t!"(" ++ joined t!", " (Pat.drawnList d ps) ++ ink t!")"
  | .arr ps => ink t!"[" ++ joined t!", " (Pat.drawnList d ps) ++ ink t!"]"
  | .lnk l r =>
    boxed (d + 1) (boxedIf l.isLink (d + 1) (l.drawn (d + 1)) ++ ink t!":" ++
      boxedIf r.isLink (d + 1) (r.drawn (d + 1)))
  | .as_ s p => ink (s ++ t!"@") ++ p.drawn d
/-- Patterns. -/
def Pat.drawnList (d : Nat) : List Pat → List Drawing
  | [] => []
  | p :: ps => p.drawn d :: Pat.drawnList d ps
end

/-- A lambda with its parameters and its body (or the body itself, if there are no parameters): in
(plain) parentheses if it is inside the operand of an operator. -/
def lambda (d : Nat) (x : List Drawing × Drawing) : Drawing :=
  if x.1.isEmpty then x.2
  else ink (if d = 0 then t!"\\" else t!"(\\") ++ joined t!" " x.1 ++ ink t!" -> " ++ x.2 ++
    ink (if d = 0 then [] else t!")")

mutual
/-- An expression inside operands of `d` operators: the parameters of the lambdas it starts with, and
what follows them. -/
def Expr.parts (d : Nat) : Expr → List Drawing × Drawing
  | .lam p b => (p.drawn 0 :: (b.parts d).1, (b.parts d).2)
  | .lit l => ([], ink l.text)
  | .var (.infix_ s) => ([], ink (t!"(" ++ s ++ t!")"))
  | .var i => ([], ink i.text)
  | .app f x => ([], lambda d (f.parts d) ++ ink t!" " ++ lambda d (x.parts d))
  | .bin l op r =>
    ([], boxedIf (!l.closed) (d + 1) (lambda (d + 1) (l.parts (d + 1))) ++
      ink (t!" " ++ op.text ++ t!" ") ++
      boxedIf (!r.closed) (d + 1) (lambda (d + 1) (r.parts (d + 1))))
  | .grp e => ([], boxed d (lambda d (e.parts d)))
  | .tup es => ([], ink t!"(" ++ joined t!", " (Expr.drawnList es) ++ ink t!")")
  | .list es => ([], ink t!"[" ++ joined t!", " (Expr.drawnList es) ++ ink t!"]")
  | .let_ _ b => ([], lambda d (b.parts d))
  | .neg _ => ([], [])
/-- The elements of a tuple or list. -/
def Expr.drawnList : List Expr → List Drawing
  | [] => []
  | e :: es => lambda 0 (e.parts 0) :: Expr.drawnList es
end

/-- What is written for an expression. -/
def Expr.drawn (e : Expr) : Drawing := lambda 0 (e.parts 0)

end
end Pemdas
