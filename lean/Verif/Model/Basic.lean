/-
Common vocabulary of the model of `lctr/pemdas`.
-/
namespace Pemdas

/-- Rust `str`/`String` content as a list of Unicode scalar values
(`Char` in Lean and in Rust range over the same set). -/
abbrev Text := List Char

open Lean in
/-- `t!"abc"` is the explicit character list `['a','b','c']`. -/
macro:max "t!" s:str : term => do
  let cs := s.getString.toList.toArray.map Syntax.mkCharLit
  `(([ $[$cs],* ] : List Char))

/-- Every way in which the modelled code can abort the process. -/
inductive Panic where
  /-- `&src[a..b]` out of range or off a char boundary
  (lexer.rs:159,188,198,237,248,295,365,368). -/
  | badSlice
  /-- `assert!(c.is_lowercase(), ..)` in `identifier` (lexer.rs:464-469). -/
  | identAssert
  /-- `.expect("all characters are known to be ascii hex digits")` (lexer.rs:296). -/
  | hexExpect
  /-- `todo!("Precedence values must be ..")` (parser.rs:203). -/
  | precTodo
  /-- `assert!(operands.len() >= 2)` / `unwrap` in `Rule::reduce` (fixity.rs:166-169). -/
  | reduceUnderflow
  /-- `assert!(operands.len() >= 1)` / `unwrap` in `rewrite` (fixity.rs:305-307). -/
  | finishUnderflow
  /-- `Expr::Neg(_) => todo!()` in `write_expr` (fixity.rs:789). -/
  | negTodo
  /-- `LexError::EmptyChar(..) => todo!()` in `Display` (token.rs:322). -/
  | emptyCharTodo
  /-- indexing past the end of a `Vec`/array. -/
  | indexOutOfBounds
  /-- `char::encode_utf8` into a buffer that is too small (ast.rs:328-332). -/
  | encodeBuffer
  /-- `todo!()` in `Ident::as_str` (ast.rs:335-337). -/
  | identTodo
  /-- `RefCell::borrow` while the interner is mutably borrowed (lexicon.rs:188). -/
  | alreadyBorrowed
  /-- the assertion in the default `ExactSizeIterator::len` (ast.rs:105). -/
  | sizeHintAssert
  deriving DecidableEq, Repr

deriving instance DecidableEq for Except

/-- UTF-8 length of a text (`str::len`). -/
def utf8Len : Text → Nat
  | [] => 0
  | c :: cs => c.utf8Size + utf8Len cs

/-- Drop exactly `n` bytes from the front; `none` if `n` is past the end or
not on a character boundary. -/
def dropBytes : Text → Nat → Option Text
  | [], n => if n = 0 then some [] else none
  | c :: cs, n =>
    if n = 0 then some (c :: cs)
    else if c.utf8Size ≤ n then dropBytes cs (n - c.utf8Size) else none

/-- Take exactly `n` bytes from the front; `none` if `n` is past the end or
not on a character boundary. -/
def takeBytes : Text → Nat → Option Text
  | [], n => if n = 0 then some [] else none
  | c :: cs, n =>
    if n = 0 then some []
    else if c.utf8Size ≤ n then (takeBytes cs (n - c.utf8Size)).map (c :: ·) else none

/-- `&s[a..b]` on a `str`: `none` is Rust's panic. -/
def byteSlice (s : Text) (a b : Nat) : Option Text :=
  if a ≤ b then (dropBytes s a).bind (fun r => takeBytes r (b - a)) else none

/-- `byteSlice` with the panic made explicit. -/
def byteSlice! (s : Text) (a b : Nat) : Except Panic Text :=
  match byteSlice s a b with
  | some t => .ok t
  | none => .error .badSlice

/-- Decimal rendering of an unsigned integer (`{}` on `usize`/`u32`/`u8`). -/
def decText (n : Nat) : Text := Nat.toDigits 10 n

end Pemdas
