import Verif.Model.AstMore
/-
C156: changing declarations taken from the ends of a list, and through a mutable iterator.
-/
namespace Pemdas

/-- What may be done to a declaration: something to infix declarations, something to expressions. -/
structure Change where
  infix_ : InfixDecl → InfixDecl
  expr : Expr → Expr

/-- The change of a declaration. -/
def Change.on (c : Change) : Decl → Decl
  | .infix_ d => .infix_ (c.infix_ d)
  | .expr e => .expr (c.expr e)

/-- Take declarations from the front (`true`) or the back (`false`) and change what was taken. -/
def changed : List (Bool × Change) → List Decl → List Decl
  | [], ds => ds
  | (true, c) :: qs, ds => ds.head?.toList.map c.on ++ changed qs ds.tail
  | (false, c) :: qs, ds => changed qs ds.dropLast ++ ds.getLast?.toList.map c.on

/-- The same with a mutable iterator: each reference is used when it is given out. -/
def AstIterMut.changeAll : List (Bool × Change) → AstIterMut → Ast → Ast
  | [], _, a => a
  | (q, c) :: qs, it, a =>
    let (r, it) := if q then it.next else it.nextBack
    changeAll qs it (match r with | none => a | some r => a.assign c.infix_ c.expr r)

/-- The references a mutable iterator gives out. -/
def AstIterMut.run : List Bool → AstIterMut → List (Option DeclMut) × AstIterMut
  | [], it => ([], it)
  | true :: qs, it => let (d, it) := it.next; let (o, l) := AstIterMut.run qs it; (d :: o, l)
  | false :: qs, it => let (d, it) := it.nextBack; let (o, l) := AstIterMut.run qs it; (d :: o, l)

end Pemdas
