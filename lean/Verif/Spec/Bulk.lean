import Verif.Model.Session
/-
How much is sent to the terminal.
-/
namespace Pemdas

/-- How many bytes are sent to the terminal, by the program itself. -/
def Effect.sent : Effect → Nat
  | .out t => utf8Len t
  | .err t => utf8Len t
  | _ => 0

end Pemdas
