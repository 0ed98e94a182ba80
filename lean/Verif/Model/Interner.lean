import Verif.Model.Symbol
/-
Model of `Interner` (`src/text/lexicon.rs:182-233`), the thread-local access to the lexicon through
a `RefCell`, and of the functions of `Symbol` that go through it (`src/text/symbol.rs`).

`borrowed` says whether a `RefMut` is alive.  A panic unwinds and drops it.  Arguments of type
`impl AsRef<str>` are either texts or symbols, the two cases that differ: `as_ref` on a symbol asks
the interner (symbol.rs:85-89), `as_ref` on any string type does not.
-/
namespace Pemdas.Interner
open Lexicon

/-- `Shared<Lexicon>` (lexicon.rs:180): the lexicon, and whether it is mutably borrowed. -/
structure Cell where
  lex : Lexicon
  borrowed : Bool

/-- An argument of type `impl AsRef<str>`. -/
inductive Arg where
  | text (t : Text)
  | symbol (s : Nat)
  deriving DecidableEq, Repr

/-- `Interner::lookup` (lexicon.rs:186-189): `borrow` panics while a `RefMut` is alive. -/
def lookup (c : Cell) (s : Nat) : Except Panic Text :=
  if c.borrowed then .error .alreadyBorrowed else c.lex.lookup s

/-- `as_ref` on an argument (symbol.rs:85-89). -/
def asRef (c : Cell) : Arg → Except Panic Text
  | .text t => .ok t
  | .symbol s => lookup c s

/-- `lex.borrow_mut().intern(s.as_ref())` (lexicon.rs:192) once the `RefMut` exists; the receiver is
evaluated before the argument. -/
def internIn (sl : Slack) (c : Cell) (a : Arg) : Except Panic Nat × Cell :=
  match asRef c a with
  | .error p => (.error p, c)
  | .ok t =>
    let (id, l) := c.lex.intern sl t
    (.ok id, { c with lex := l })

/-- Run with a mutable borrow, which ends with the call whatever happens. -/
def withMut {α : Type} (c : Cell) (f : Cell → Except Panic α × Cell) : Except Panic α × Cell :=
  if c.borrowed then (.error .alreadyBorrowed, c)
  else
    let (r, c) := f { c with borrowed := true }
    (r, { c with borrowed := false })

/-- `Interner::intern` (lexicon.rs:191-194), `Symbol::intern` (symbol.rs:31-34), `lexicon::intern`
(lexicon.rs:223-227). -/
def intern (sl : Slack) (c : Cell) (a : Arg) : Except Panic Nat × Cell :=
  withMut c (fun c => internIn sl c a)

/-- The loop of `intern_iter` and `intern_n`. -/
def internLoop (sl : Slack) : List Arg → Cell → Except Panic (List Nat) × Cell
  | [], c => (.ok [], c)
  | a :: as, c =>
    match internIn sl c a with
    | (.error p, c) => (.error p, c)
    | (.ok id, c) =>
      match internLoop sl as c with
      | (.error p, c) => (.error p, c)
      | (.ok ids, c) => (.ok (id :: ids), c)

/-- `Interner::intern_iter` (lexicon.rs:196-206), `Symbol::intern_iter` (symbol.rs:36-43), and
`intern_n` (lexicon.rs:208-220, symbol.rs:123-128). -/
def internIter (sl : Slack) (c : Cell) (as : List Arg) : Except Panic (List Nat) × Cell :=
  withMut c (internLoop sl as)

end Pemdas.Interner
