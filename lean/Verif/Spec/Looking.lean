import Verif.Model.Lexer
/-
Spec for C176: what a client of the lexer gets from the calls it makes.
-/
namespace Pemdas

/-- The calls with which a client reads tokens. -/
inductive Call where
  | peek | bump | next
  deriving DecidableEq, Repr

section
variable [CharTables]

/-- The tokens a client takes with a list of calls: those `bump` and `next` hand over (`Eof` if
there is none), in order, and the lexer that is left. What `peek` shows is only looked at. -/
def Lexer.taken : Lexer → List Call → Except Panic (List Token × Lexer)
  | l, [] => .ok ([], l)
  | l, .peek :: cs =>
    match l.peek with
    | .error p => .error p
    | .ok (_, m) => m.taken cs
  | l, .bump :: cs =>
    match l.bump.2.taken cs with
    | .error p => .error p
    | .ok (ts, m) => .ok (l.bump.1 :: ts, m)
  | l, .next :: cs =>
    match l.next with
    | .error p => .error p
    | .ok (x, k) =>
      match k.taken cs with
      | .error p => .error p
      | .ok (ts, m) => .ok ((match x with | some (t, _) => t | none => .eof) :: ts, m)

/-- The tokens alone, from the beginning of a source. -/
def Lexer.takenOf (src : Text) (cs : List Call) : Option (List Token) :=
  match (Lexer.new src).taken cs with
  | .ok (ts, _) => some ts
  | .error _ => none

end

/-- The same calls without looking ahead: each token is taken with `next`. -/
def Call.plain : List Call → List Call
  | [] => []
  | .peek :: cs => plain cs
  | _ :: cs => .next :: plain cs

/-- Every `bump` comes after a `peek`, and no `next` comes between the two. `held`: has there been
a `peek` since the last `bump`? -/
def Call.careful : Bool → List Call → Bool
  | held, [] => !held
  | _, .peek :: cs => careful true cs
  | held, .bump :: cs => held && careful false cs
  | held, .next :: cs => !held && careful false cs

end Pemdas
