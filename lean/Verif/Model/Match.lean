import Verif.Model.Grapheme
import Verif.Model.Symbol
/-
Model of the trait `Match` of `src/text/grapheme.rs` with its implementations, of the functions that
take any matcher of strings, and of `bytestring`.  A matcher of `T` is the function `T → Bool` that
its method `check` is.  (`on_char` of the lexer and `peek_on`, `bump_on`, `ignore` of the parser take
matchers too; these are only used with literals and functions and are inlined in the models of the
lexer and the parser.)
-/
namespace Pemdas.Match

/-- `impl Match<char> for Option<&char>` (grapheme.rs:343-347). -/
def optChar (o : Option Char) (c : Char) : Bool :=
  match o with
  | some d => d == c
  | none => false

/-- `impl Match<str> for char` (grapheme.rs:349-356). -/
def char (c : Char) (t : Text) : Bool :=
  c.utf8Size == utf8Len t && (t.head? == some c && t.tail.head? == none)

/-- `impl Match<char> for str` (grapheme.rs:358-362). -/
def strChar (t : Text) (c : Char) : Bool := char c t

/-- `impl Match<str> for &&str`, `for String`, `impl Match<T> for T`, `for &T`
(grapheme.rs:364-392): comparison with `==`. -/
def eq {α : Type} [BEq α] (a : α) (x : α) : Bool := a == x

/-- `impl Match<T> for fn(&T) -> bool`, `for fn(T) -> bool` (grapheme.rs:394-410). -/
def fn {α : Type} (f : α → Bool) (x : α) : Bool := f x

/-- `impl Match<S> for [T]` (grapheme.rs:412-424), for the matchers that the elements are. -/
def slice {α : Type} : List (α → Bool) → α → Bool
  | [], _ => false
  | m :: ms, x => if m x then true else slice ms x

/-- `is_prefix` (grapheme.rs:28-30). -/
def isPrefix (pre : Text → Bool) (s : Text) : Bool :=
  match (splitWhitespace s).head? with
  | some t => pre t
  | none => false

/-- `strip_prefix` (grapheme.rs:43-56). `s[plen..]` may panic. -/
def stripPrefix (pre : Text → Bool) (s : Text) : Except Panic Text :=
  match (splitWhitespace s).head? with
  | some p =>
    if pre p then
      let plen := utf8Len p
      if plen < utf8Len (trim s) then
        match byteSlice s plen (utf8Len s) with
        | some r => .ok (trim r)
        | none => .error .badSlice
      else .ok []
    else .ok s
  | none => .ok s

/-- `bytestring` (grapheme.rs:276-283); `std::str::from_utf8` is Lean's decoder of UTF-8. -/
def bytestring (bytes : List UInt8) : Option Text :=
  match String.fromUTF8? ⟨bytes.toArray⟩ with
  | some s => some s.toList
  | none => none

end Pemdas.Match
