import Verif.Model.Lexicon
import Verif.Model.Token
/-
Model of `src/text/symbol.rs`.  A `Symbol` is the number it holds (symbol.rs:6); the thread-local
interner it consults is passed explicitly.
Not modelled: the accessors returning the number, `by_str`/`Deref`/`AsRef` (they
hand out `as_str`).
-/
namespace Pemdas.Symbol
open Lexicon

/-- `Symbol::as_str` (symbol.rs:18-20), also what `Deref`, `Borrow`, `AsRef` and `Display` give
(symbol.rs:75-77, 81-83, 87-89, 113-115). -/
def asStr (l : Lexicon) (s : Nat) : Except Panic Text := l.lookup s

/-- `Symbol::len` (symbol.rs:27-29): in bytes. -/
def len (l : Lexicon) (s : Nat) : Except Panic Nat := do
  let t ← asStr l s
  pure (utf8Len t)

/-- `impl PartialEq<str> for Symbol` and its mirror image (symbol.rs:50-60). -/
def eqStr (l : Lexicon) (s : Nat) (other : Text) : Except Panic Bool := do
  let t ← asStr l s
  pure (t == other)

/-- `impl PartialEq<char> for Symbol` (symbol.rs:62-70). -/
def eqChar (l : Lexicon) (s : Nat) (other : Char) : Except Panic Bool := do
  let t ← asStr l s
  pure (other.utf8Size == utf8Len t &&
    match t with
    | [] => false
    | c :: cs => c == other && cs.isEmpty)

/-- `impl Debug for Symbol` (symbol.rs:105-109). -/
def debugText [CharTables] (l : Lexicon) (s : Nat) : Except Panic Text := do
  let t ← asStr l s
  pure (t!"Symbol(" ++ decText s ++ t!")(" ++ debugStr t ++ t!")")

/-- `impl Debug for DebugSymbol` (symbol.rs:93-97); `{:#?}`, which breaks lines, is left out. -/
def debugWrapped [CharTables] (l : Lexicon) (s : Nat) : Except Panic Text := do
  let t ← debugText l s
  pure (t!"Symbol(" ++ t ++ t!")")

/-- The generated predicates `is_arrow`, `is_plus`, … (lexicon.rs:156-161), by the name of the
constant they compare with. -/
def isNamed (name : Text) (s : Nat) : Bool := s == constant name

/-- The bytes of a text in UTF-8. -/
def utf8Bytes (t : Text) : List UInt8 := t.flatMap String.utf8EncodeChar

/-- What `#[derive(Hash)]` on `Symbol(u32)` (symbol.rs:5-6) feeds to the hasher: the number as four
little-endian bytes. -/
def hashFeed (s : Nat) : List UInt8 :=
  [UInt8.ofNat s, UInt8.ofNat (s / 2 ^ 8), UInt8.ofNat (s / 2 ^ 16), UInt8.ofNat (s / 2 ^ 24)]

/-- What the standard library's `Hash for str` feeds to the hasher: the bytes and `0xff`. -/
def strHashFeed (t : Text) : List UInt8 := utf8Bytes t ++ [0xff]

end Pemdas.Symbol
