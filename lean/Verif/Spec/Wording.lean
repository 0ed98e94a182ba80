import Verif.Model.Session
/-
What error messages say, written with interpolated strings.  Numbers are written by Lean's own
`toString`.
-/
namespace Pemdas

/-- A text as a string. -/
abbrev str (t : Text) : String := String.ofList t

/-- A position: the byte offset in brackets, line and column. -/
def Loc.shown (l : Loc) : String := s!"[{l.pos}]:{l.line}:{l.col}"

/-- The message of a lexical error (none for empty character literals). -/
def LexError.wording : LexError → Option String
  | .emptyChar _ _ => none
  | .invalidEscape c _ _ => some s!"the sequence `\\{c}` is not a valid character escape"
  | .invalidInt at_ .incomplete =>
    some s!"no digits found after the numeric prefix at {at_.shown} while parsing into an integer"
  | .invalidInt at_ .invalidDigit =>
    some s!"invalid digit found in the token at {at_.shown} while parsing into an integer"
  | .invalidInt at_ .posOverflow =>
    some s!"the token at {at_.shown} is too large to be correctly parsed into an integer"
  | .invalidInt at_ .negOverflow =>
    some s!"the token at {at_.shown} is too small to be correctly parsed into an integer"
  | .invalidPromotedInfix at_ name =>
    some s!"invalid identifier `{str name}` in operator promotion at {at_.shown}"
  | .unterminatedChar start _ => some s!"unterminated character literal starting at {start.shown}"
  | .unterminatedString start => some s!"unterminated string literal starting at {start.shown}"
  | .unterminatedComment start _ =>
    some s!"block comment starting at {start.line}:{start.col} was not terminated"
  | .invalidUnicode at_ .empty => some s!"expected codepoint for unicode escape at {at_.shown}"
  | .invalidUnicode _ (.badConnector c) =>
    some s!"invalid character `{c}` found following unicode escape `\\u`; expected `+` or hexadecimal after"
  | .invalidUnicode _ (.tooLong digits) =>
    some s!"unicode escape `{str digits}` is more than the maximum length of 6 hex digits"
  | .invalidUnicode _ (.notInCharRange digits n) =>
    some s!"the integer `{str digits}` ({n}) is out of the range for valid character values"
  | .unknown => some "unknown lexer error"

/-- The message about an ambiguous chain. -/
def AssocError.wording (e : AssocError) : String :=
  let kind : Assoc → String := fun
    | .left => "left-associative"
    | .right => "right-associative"
    | .neither => "non-associative"
  s!"found {kind e.prev.2.assoc} operator `{str e.prev.1.text}` and {kind e.curr.2.assoc} " ++
    s!"operator `{str e.curr.1.text}` in the same infix expression"

/-- What a lexical error message is about: the parts of the error that are shown. -/
inductive LexError.Topic where
  | escape (c : Char) | int (at_ : Loc) (e : IntError) | promotion (at_ : Loc) (name : Text)
  | char (start : Loc) | string (start : Loc) | comment (line col : Nat) | noCode (at_ : Loc)
  | connector (c : Char) | tooLong (digits : Text) | range (digits : Text) (n : Nat) | unknown
  deriving DecidableEq

/-- What a lexical error is about. -/
def LexError.topic : LexError → Option LexError.Topic
  | .emptyChar _ _ => none
  | .invalidEscape c _ _ => some (.escape c)
  | .invalidInt at_ e => some (.int at_ e)
  | .invalidPromotedInfix at_ name => some (.promotion at_ name)
  | .unterminatedChar start _ => some (.char start)
  | .unterminatedString start => some (.string start)
  | .unterminatedComment start _ => some (.comment start.line start.col)
  | .invalidUnicode at_ .empty => some (.noCode at_)
  | .invalidUnicode _ (.badConnector c) => some (.connector c)
  | .invalidUnicode _ (.tooLong digits) => some (.tooLong digits)
  | .invalidUnicode _ (.notInCharRange digits n) => some (.range digits n)
  | .unknown => some .unknown

end Pemdas
