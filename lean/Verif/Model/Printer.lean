import Verif.Model.Fixity
import Verif.Model.Style
/-
Model of the printing part of `src/syntax/fixity.rs` (`Printer`, `FixityEntries`).

What the code writes to a formatter is a `Text` here, with the escape sequences of the colours;
writing never fails.  `print_expr` and `print_fixities` write the same text to stdout, followed by
a newline.
-/
namespace Pemdas

/-- An action of `Printer` (fixity.rs:580-583): it writes text and may change `stack`
(the head of the list is the top), or panics. -/
def Pr (α : Type) : Type := List Fixity → Except Panic (α × Text × List Fixity)

namespace Pr

/-- Sequencing with `?`. -/
def bind {α β : Type} (m : Pr α) (f : α → Pr β) : Pr β := fun s =>
  match m s with
  | .error p => .error p
  | .ok (a, o, s) =>
    match f a s with
    | .error p => .error p
    | .ok (b, o', s) => .ok (b, o ++ o', s)

/-- A value. -/
def pure {α : Type} (a : α) : Pr α := fun s => .ok (a, [], s)

instance : Monad Pr where
  pure := Pr.pure
  bind := Pr.bind

/-- `write!(f, ..)`. -/
def write (t : Text) : Pr Unit := fun s => .ok ((), t, s)

/-- A panic. -/
def crash (p : Panic) : Pr Unit := fun _ => .error p

/-- `&self.stack`. -/
def getStack : Pr (List Fixity) := fun s => .ok (s, [], s)

/-- `self.stack = s`. -/
def setStack (s : List Fixity) : Pr Unit := fun _ => .ok ((), [], s)

/-- `std::mem::take(&mut self.stack)`. -/
def takeStack : Pr (List Fixity) := fun s => .ok (s, [], [])

/-- `self.stack.push(fx)`. -/
def push (fx : Fixity) : Pr Unit := fun s => .ok ((), [], fx :: s)

/-- `self.stack.pop()`. -/
def pop : Pr Unit := fun s => .ok ((), [], s.tail)

end Pr

namespace Printer
open Pr

/-- `Printer::curr_prec` (fixity.rs:600-605), of the stack. -/
def currPrec (s : List Fixity) : Nat := (s.head?.map Fixity.prec).getD 0

/-- `Printer::curr_assoc` (fixity.rs:607-612). -/
def currAssoc (s : List Fixity) : Assoc := (s.head?.map Fixity.assoc).getD .neither

/-- `Printer::curr_fixity` (fixity.rs:593-598). -/
def currFixity (s : List Fixity) : Fixity := s.head?.getD ⟨currPrec s, currAssoc s⟩

/-- `rainbow.highlight(c).fmt(f)` (fixity.rs:644,646; style.rs:962-964) for a rainbow in state
`n`. -/
def highlight (n : Nat) (t : Text) : Pr Unit :=
  match Rainbow.color (UInt64.ofNat n) with
  | .ok c => write (Style.highlighted t c)
  | .error p => crash p

/-- `write_grouped` (fixity.rs:637-648). -/
def writeGrouped (print : Pr Unit) : Pr Unit := do
  let stack ← getStack
  highlight stack.length t!"("
  print
  highlight stack.length t!")"

/-- In parentheses if the condition holds: the closures `parens` (fixity.rs:707-713) and `ppr`
(fixity.rs:760-766), and the two cases of `Neg` (fixity.rs:671-678). -/
def parensIf (b : Bool) (print : Pr Unit) : Pr Unit := if b then writeGrouped print else print

/-- The separator before an element that is not the first. -/
def sep (first : Bool) : Pr Unit := if first then Pr.pure () else write t!", "

/-- The patterns that `Neg` does not put in parentheses (fixity.rs:671). -/
def bareNeg : Pat → Bool
  | .wild | .lit _ | .var _ => true
  | _ => false

/-- The operands that `Lnk` puts in parentheses (fixity.rs:708). -/
def lnkParens : Pat → Bool
  | .lnk .. | .as_ .. => true
  | _ => false

section
variable [CharTables]

mutual

/-- `write_pat` (fixity.rs:650-729). -/
def writePat : Pat → Pr Unit
  | .wild => write t!"_"
  | .lit l => write l.text
  | .var s => write s
  | .neg p => do
    write t!"("
    write t!"-"
    parensIf (!bareNeg p) (writePat p)
    write t!")"
  | .con c args =>
    match args with
    | [] => write c
    | _ => do
      write (t!"(" ++ c)
      writePatArgs args
      write t!")"
  | .tup ps => do
    write t!"("
    writePats true ps
    write t!")"
  | .arr ps => do
    write t!"["
    writePats true ps
    write t!"]"
  | .lnk l r => do
    push Fixity.cons
    writeGrouped (do
      parensIf (lnkParens l) (writePat l)
      write t!":"
      parensIf (lnkParens r) (writePat r))
    pop
  | .as_ s p => do
    write (s ++ t!"@")
    writePat p

/-- `write_sequence` (fixity.rs:651-663); `first` says whether no element was written yet. -/
def writePats : Bool → List Pat → Pr Unit
  | _, [] => return ()
  | first, p :: ps => do
    sep first
    writePat p
    writePats false ps

/-- The loop over the arguments of `Con` (fixity.rs:687-690). -/
def writePatArgs : List Pat → Pr Unit
  | [] => return ()
  | p :: ps => do
    write t!" "
    writePat p
    writePatArgs ps

end

/-- `no_paren` (fixity.rs:750-759). -/
def noParen : Expr → Bool
  | .grp _ | .list _ | .lit _ | .tup _ | .var _ => true
  | _ => false

/-- What happens when the `while let Expr::Lam(..)` loop over the parameters of a lambda
(fixity.rs:787-791) meets a body that is no lambda (fixity.rs:792-793): `saved` is the stack to
restore if we come from that loop. -/
def enter : Option (List Fixity) → Pr Unit
  | none => return ()
  | some s => do
    write t!" -> "
    setStack s

mutual

/-- `write_expr` (fixity.rs:731-839). The parameter loop of a lambda (fixity.rs:787-791) is part of
the recursion: `lams` is the saved stack if `e` is the body of a lambda being printed, `none`
otherwise. -/
def writeGo (m : Fixities) (lams : Option (List Fixity)) : Expr → Pr Unit
  | .lit l => do
    enter lams
    write l.text
  | .var i => do
    enter lams
    write (if i.isInfix then t!"(" ++ i.text ++ t!")" else i.text)
  | .app f x => do
    enter lams
    writeGo m none f
    write t!" "
    writeGo m none x
  | .bin l op r => do
    enter lams
    push (m.get op)
    parensIf (!noParen l) (writeGo m none l)
    write (t!" " ++ op.text ++ t!" ")
    parensIf (!noParen r) (writeGo m none r)
    pop
  | .lam p b =>
    match lams with
    | some s => do
      write t!" "
      writePat p
      writeGo m (some s) b
    | none => do
      let stack ← getStack
      write (if stack.isEmpty then t!"\\" else t!"(\\")
      let stack ← takeStack
      writePat p
      writeGo m (some stack) b
      write (if stack.isEmpty then t!"" else t!")")
  | .grp e => do
    enter lams
    writeGrouped (writeGo m none e)
  | .neg _ => do
    enter lams
    crash .negTodo
  | .tup es => do
    enter lams
    let old ← takeStack
    write t!"("
    writeExprs m true es
    write t!")"
    setStack old
  | .list es => do
    enter lams
    let old ← takeStack
    write t!"["
    writeExprs m true es
    write t!"]"
    setStack old
  | .let_ _ b => do
    enter lams
    writeGo m none b

/-- The elements of a tuple or list (fixity.rs:802-811,820-829). -/
def writeExprs (m : Fixities) : Bool → List Expr → Pr Unit
  | _, [] => return ()
  | first, e :: es => do
    sep first
    writeGo m none e
    writeExprs m false es

end

/-- `write_expr` (fixity.rs:731-839) with the stack of a new printer (fixity.rs:586-591): the text
written. -/
def writeExpr (m : Fixities) (e : Expr) : Except Panic Text :=
  (writeGo m none e []).map (·.2.1)

/-- `print_expr` (fixity.rs:615-624): the line printed. -/
def printExpr (m : Fixities) (e : Expr) : Except Panic Text := do
  let t ← writeExpr m e
  .ok (t!"  " ++ t ++ t!"\n")

end

/-! ### listing fixities -/

/-- `Fixity::write_alignable` (fixity.rs:115-121). `set_fg_purple` is style.rs:762. -/
def alignable (fx : Fixity) : Text :=
  (Style.ansi .red fx.assoc.keyword).display ++
  (if fx.assoc = .neither then t!" " else []) ++
  t!" " ++ ((Style.new (decText fx.prec)).setFg (.rgb ⟨128, 0, 128⟩)).display

/-- Collecting into an `IndexSet`: the values in order of first occurrence. -/
def indexSet : List Fixity → List Fixity → List Fixity
  | [], acc => acc
  | x :: xs, acc => indexSet xs (if acc.contains x then acc else acc ++ [x])

/-- The operators of one line: `write!(" {op}")` for the first, `write!(", {op}")` for the others
(fixity.rs:860-863). -/
def opsText : List Infix → Text
  | [] => []
  | op :: ops => t!" " ++ op.text ++ (ops.map fun o => t!", " ++ o.text).flatten

/-- The loop of `write_fixities` (fixity.rs:853-868, 913-931); the condition `n + 1 < len` says that
another fixity follows. -/
def writeLines (es : List (Infix × Fixity)) : List Fixity → Text
  | [] => []
  | fx :: fxs =>
    (match (es.filterMap fun e => if fx = e.2 then some e.1 else none) with
     | [] => []
     | ops => alignable fx ++ opsText ops ++ (if fxs.isEmpty then [] else t!"\n")) ++
    writeLines es fxs

/-- `Printer::write_fixities` (fixity.rs:841-871) and `FixityEntries::write_fixities`
(fixity.rs:905-933), which do the same. -/
def writeFixities (es : List (Infix × Fixity)) : Text := writeLines es (indexSet (es.map (·.2)) [])

end Printer
end Pemdas
