import Verif.Model.Lexer
import Verif.Spec.Lex
/-
Uses of the lexer's public interface: the states a client can observe, and iteration.
-/
namespace Pemdas
namespace Lexer
variable [CharTables]

/-- The lexer states a client can reach on source `src` with `new`, `next`, `peek`, `bump`. -/
inductive Point (src : Text) : Lexer → Prop
  | new : Point src (Lexer.new src)
  | next {l l' r} : Point src l → l.next = .ok (r, l') → Point src l'
  | peek {l l' r} : Point src l → l.peek = .ok (r, l') → Point src l'
  | bump {l} : Point src l → Point src l.bump.2

/-- What the first `n` calls of `next` yield, up to the first `None`. -/
def items : Nat → Lexer → Except Panic (List (Token × LocSpan))
  | 0, _ => .ok []
  | n + 1, l =>
    match l.next with
    | .error p => .error p
    | .ok (none, _) => .ok []
    | .ok (some x, l') =>
      match items n l' with
      | .error p => .error p
      | .ok xs => .ok (x :: xs)

/-- The outcome of iteration without locations. -/
def noLocs (r : Except Panic (List (Token × LocSpan))) : Except Panic (List Token) :=
  r.map (·.map fun x => x.1.noLoc)

end Lexer
end Pemdas
