import Verif.Model.Grapheme
/-
Model of `src/syntax/token.rs`.  `Symbol` is modelled by the text it interns
(justified by the interner theorems, `Verif/Props/Interner.lean`).
`Char` (token.rs:435-510) is an `Option char` here; the type itself is in `Model/Memory.lean`, of
`Float::to_f64` the text that it parses is modelled (`FloatRep.text`).
-/
namespace Pemdas

/-- An interned symbol, identified with its text (symbol.rs:6). -/
abbrev Symbol := Text

/-- `Loc` (token.rs:9-14). `u32`/`usize` counters are unbounded here (justified by C137). -/
structure Loc where
  line : Nat
  col : Nat
  pos : Nat
  deriving DecidableEq, Repr

/-- `impl Default for Loc` (token.rs:16-24). -/
def Loc.default : Loc := ⟨1, 1, 0⟩

/-- `Span` (token.rs:48-52). -/
structure Span where
  lo : Nat
  hi : Nat
  deriving DecidableEq, Repr

/-- `LocSpan` (token.rs:68-72). -/
structure LocSpan where
  lo : Loc
  hi : Loc
  deriving DecidableEq, Repr

/-- `LocSpan::span` (token.rs:79-84). -/
def LocSpan.span (s : LocSpan) : Span := ⟨s.lo.pos, s.hi.pos⟩

/-- `LocSpan::lines` (token.rs:86-88): `abs_diff`. -/
def LocSpan.lines (s : LocSpan) : Nat :=
  if s.hi.line ≤ s.lo.line then s.lo.line - s.hi.line else s.hi.line - s.lo.line

/-- `LocSpan::is_empty` (token.rs:90-92). -/
def LocSpan.isEmpty (s : LocSpan) : Bool := s.lo == s.hi

/-- `Float` (token.rs:118-126). -/
structure FloatRep where
  int : Nat
  frac : Option Nat
  exp : Int
  deriving DecidableEq, Repr

/-- `Literal` (token.rs:166-171). -/
inductive Literal where
  | char (c : Char)
  | str (s : Symbol)
  | int (n : Nat)
  | frac (f : FloatRep)
  deriving DecidableEq, Repr

/-- `IntError` (token.rs:387-395). -/
inductive IntError where
  | incomplete | invalidDigit | posOverflow | negOverflow
  deriving DecidableEq, Repr

/-- `CodePointError` (token.rs:373-378). -/
inductive CodePointError where
  | empty
  | badConnector (c : Char)
  | tooLong (s : Symbol)
  | notInCharRange (s : Symbol) (n : Nat)
  deriving DecidableEq, Repr

/-- `LexError` (token.rs:307-317). -/
inductive LexError where
  | emptyChar (lo hi : Loc)
  | invalidEscape (c : Char) (lo hi : Loc)
  | invalidInt (loc : Loc) (e : IntError)
  | invalidPromotedInfix (loc : Loc) (s : Symbol)
  | unterminatedChar (lo hi : Loc)
  | unterminatedString (lo : Loc)
  | unterminatedComment (lo hi : Loc)
  | invalidUnicode (loc : Loc) (e : CodePointError)
  | unknown
  deriving DecidableEq, Repr

/-- `Token` (token.rs:185-211). -/
inductive Token where
  | parenL | parenR | brackL | brackR | curlyL | curlyR
  | comma | semi | underscore | lambda | arrow | dash | dot | at_
  | infixL | infixR | infix_ | let_ | in_
  | upper (s : Symbol)
  | lower (s : Symbol)
  | affix (s : Symbol) (promoted : Bool)
  | lit (l : Literal)
  | eof
  | error (e : LexError)
  deriving DecidableEq, Repr

/-! ### Display -/

/-- `{}` on a signed integer. -/
def intText (i : Int) : Text :=
  match i with
  | .ofNat n => decText n
  | .negSucc n => '-' :: decText (n + 1)

/-- `Float::write_fmt_str` (token.rs:133-144) and `Float::string` (token.rs:146-158),
which build the same text. -/
def FloatRep.text (f : FloatRep) : Text :=
  decText f.int ++
  (match f.frac with | some n => '.' :: decText n | none => []) ++
  (if f.exp ≠ 0 then intText f.exp else [])

/-- Lower-case hexadecimal rendering, used by `\u{..}` escapes of `{:?}`. -/
def hexText (n : Nat) : Text := Nat.toDigits 16 n

section
variable [CharTables]

/-- `char::escape_debug_ext` of std with grapheme-extended escaping on;
`escSingle`/`escDouble` say which quote is escaped. -/
def escapeDebug (escSingle escDouble : Bool) (c : Char) : Text :=
  if c = '\x00' then t!"\\0"
  else if c = '\t' then t!"\\t"
  else if c = '\r' then t!"\\r"
  else if c = '\n' then t!"\\n"
  else if c = '\\' then t!"\\\\"
  else if c = '"' ∧ escDouble then t!"\\\""
  else if c = '\'' ∧ escSingle then t!"\\'"
  else if isGraphemeExtended c then t!"\\u{" ++ hexText c.toNat ++ t!"}"
  else if isPrintable c then [c]
  else t!"\\u{" ++ hexText c.toNat ++ t!"}"

/-- `{:?}` on `char` (std), used at token.rs:176. -/
def debugChar (c : Char) : Text := '\'' :: (escapeDebug true false c ++ t!"'")

/-- `{:?}` on `str` (std), used at token.rs:177. -/
def debugStr (s : Text) : Text := '"' :: (s.flatMap (escapeDebug false true) ++ t!"\"")

/-- `impl Display for Literal` (token.rs:173-182). -/
def Literal.text : Literal → Text
  | .char c => debugChar c
  | .str s => debugStr s
  | .int n => decText n
  | .frac f => f.text
end

/-- `impl Display for Loc` (token.rs:36-40). -/
def Loc.text (l : Loc) : Text :=
  t!"[" ++ decText l.pos ++ t!"]:" ++ decText l.line ++ t!":" ++ decText l.col

/-- `Loc::write_lncol` (token.rs:31-33). -/
def Loc.lncol (l : Loc) : Text := decText l.line ++ t!":" ++ decText l.col

/-- `Display for Span` (token.rs:54-58). -/
def Span.text (s : Span) : Text := decText s.lo ++ t!":" ++ decText s.hi

/-- `Display for LocSpan` (token.rs:109-113). -/
def LocSpan.text (s : LocSpan) : Text := s.lo.text ++ t!"-" ++ s.hi.text

/-- `Index<Span> for str` and `Index<LocSpan> for str` (token.rs:60-66, 101-107). -/
def Span.index (src : Text) (s : Span) : Except Panic Text := byteSlice! src s.lo s.hi

/-- `IntError::text` (token.rs:413-432). -/
def IntError.text : IntError → Text × Text
  | .incomplete =>
    (t!"no digits found after the numeric prefix ", t!" while parsing into an integer")
  | .invalidDigit => (t!"invalid digit found in the token ", t!" while parsing into an integer")
  | .posOverflow => (t!"the token ", t!" is too large to be correctly parsed into an integer")
  | .negOverflow => (t!"the token ", t!" is too small to be correctly parsed into an integer")

/-- `impl Display for LexError` (token.rs:319-369); `EmptyChar` is a `todo!()`. -/
def LexError.text : LexError → Except Panic Text
  | .emptyChar _ _ => .error .emptyCharTodo
  | .invalidEscape c _ _ =>
    .ok (t!"the sequence `\\" ++ [c] ++ t!"` is not a valid character escape")
  | .invalidInt loc e => .ok (e.text.1 ++ t!"at " ++ loc.text ++ e.text.2)
  | .invalidPromotedInfix loc s =>
    .ok (t!"invalid identifier `" ++ s ++ t!"` in operator promotion at " ++ loc.text)
  | .unterminatedChar lo _ => .ok (t!"unterminated character literal starting at " ++ lo.text)
  | .unterminatedString lo => .ok (t!"unterminated string literal starting at " ++ lo.text)
  | .unterminatedComment lo _ =>
    .ok (t!"block comment starting at " ++ decText lo.line ++ t!":" ++ decText lo.col ++
      t!" was not terminated")
  | .invalidUnicode loc k =>
    match k with
    | .empty => .ok (t!"expected codepoint for unicode escape at " ++ loc.text)
    | .badConnector c =>
      .ok (t!"invalid character `" ++ [c] ++
        t!"` found following unicode escape `\\u`; expected `+` or hexadecimal after")
    | .tooLong s =>
      .ok (t!"unicode escape `" ++ s ++ t!"` is more than the maximum length of 6 hex digits")
    | .notInCharRange s n =>
      .ok (t!"the integer `" ++ s ++ t!"` (" ++ decText n ++
        t!") is out of the range for valid character values")
  | .unknown => .ok t!"unknown lexer error"

/-- `impl Display for Token` (token.rs:241-304). -/
def Token.text [CharTables] : Token → Except Panic Text
  | .parenL => .ok t!"("
  | .parenR => .ok t!")"
  | .brackL => .ok t!"["
  | .brackR => .ok t!"]"
  | .curlyL => .ok t!"{"
  | .curlyR => .ok t!"}"
  | .comma => .ok t!","
  | .semi => .ok t!";"
  | .underscore => .ok t!"_"
  | .dash => .ok t!"-"
  | .dot => .ok t!"."
  | .at_ => .ok t!"@"
  | .lambda => .ok t!"\\"
  | .arrow => .ok t!"->"
  | .infixL => .ok t!"infixl"
  | .infixR => .ok t!"infixr"
  | .infix_ => .ok t!"infix"
  | .let_ => .ok t!"let"
  | .in_ => .ok t!"in"
  | .upper s => .ok s
  | .lower s => .ok s
  | .affix s promoted => .ok (if promoted then '\'' :: s else s)
  | .lit l => .ok l.text
  | .eof => .ok ['\x00']
  | .error e => e.text

end Pemdas
