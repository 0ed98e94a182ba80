import Verif.Spec.Layout
/-
The grammar of sources written on one line, where no columns are needed: an application goes on as
long as arguments follow, and the body of a lambda or `let` goes on as long as possible.
-/
namespace Pemdas

/-- The end, or a token that neither continues a chain nor starts an argument. -/
def Closed : List Token → Prop
  | [] => True
  | t :: _ => t.joins = false ∧ t.startsArg = false

/-- The tokens of an element of a list with the comma after it, if there is one. -/
def elemToks (x : Expr × List Token × Bool) : List Token :=
  x.2.1 ++ if x.2.2 then [.comma] else []

/-- Expressions on one line. -/
inductive Line : ExprCat → Expr → List Token → Prop
  | last {e ts} : Line .operand e ts → Line .chain e ts
  | lastOpen {e ts} : Line .atom e ts → Line .chain e ts
  | bin {l op t r ts us} : Line .operand l ts → OpTok op t → Line .chain r us →
      Line .chain (.bin l op r) (ts ++ t :: us)
  | head {e ts} : Line .arg e ts → Line .operand e ts
  | app {f x ts us} : Line .operand f ts → Line .arg x us → Line .operand (.app f x) (ts ++ us)
  | lam {ps : List (Pat × List Token)} {e ts} : ps ≠ [] → (∀ x ∈ ps, PatWritten x.1 x.2) →
      Line .chain e ts →
      Line .atom ((ps.map (·.1)).foldr .lam e) (.lambda :: (ps.map (·.2)).flatten ++ .arrow :: ts)
  | let_ {d e ds ts} : DeclWritten d ds → Line .chain e ts →
      Line .atom (.let_ d e) (.let_ :: ds ++ .in_ :: ts)
  | lit (l) : Line .arg (.lit l) [.lit l]
  | upper (s) : Line .arg (.var (.upper s)) [.upper s]
  | lower (s) : Line .arg (.var (.lower s)) [.lower s]
  | unit : Line .arg (.tup []) [.parenL, .parenR]
  | op (s b) : Line .arg (.var (.infix_ s)) [.parenL, .affix s b, .parenR]
  | commas {k : Nat} : 0 < k →
      Line .arg (.var (.commas k)) (.parenL :: List.replicate k .comma ++ [.parenR])
  | grp {e ts} : Line .chain e ts → Line .arg (.grp e) (.parenL :: ts ++ [.parenR])
  | tup {e ts} {xs : List (Expr × List Token)} : Line .chain e ts → xs ≠ [] →
      (∀ x ∈ xs, Line .chain x.1 x.2) →
      Line .arg (.tup (e :: xs.map (·.1)))
        (.parenL :: ts ++ (xs.map fun x => .comma :: x.2).flatten ++ [.parenR])
  | list {xs : List (Expr × List Token × Bool)} : (∀ x ∈ xs, Line .chain x.1 x.2.1) →
      (∀ a x b, xs = a ++ x :: b → x.2.2 = false →
        Closed ((b.map elemToks).flatten ++ [.brackR])) →
      Line .arg (.list (xs.map (·.1))) (.brackL :: (xs.map elemToks).flatten ++ [.brackR])

/-- Programs on one line. -/
inductive LineProg : List Decl → List Token → Prop
  | nil : LineProg [] []
  | infix_ {d ds ts us} (semi : Bool) : DeclWritten d ts → LineProg ds us →
      LineProg (.infix_ d :: ds) (ts ++ (if semi then [.semi] else []) ++ us)
  | expr {e ds ts us} (semi : Bool) : Line .chain e ts → LineProg ds us →
      (semi = false → Closed us) →
      LineProg (.expr e :: ds) (ts ++ (if semi then [.semi] else []) ++ us)

end Pemdas
