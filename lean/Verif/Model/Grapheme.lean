import Verif.Model.Unicode
/-
Model of `src/text/grapheme.rs` and of the `str` methods of Rust's std it relies on.
`charstring` and `combine_chars` (grapheme.rs:285-335) are in `Model/Memory.lean`, the trait `Match`
(grapheme.rs:339-424), the functions taking matchers and `bytestring` in `Model/Match.lean`; here
`is_prefix` and `strip_prefix` are for strings, the matchers they are called with.
-/
namespace Pemdas

/-! ### `str` methods of std -/

/-- `str::trim_start`. -/
def trimStart (s : Text) : Text := s.dropWhile isWhitespace
/-- `str::trim_end`. -/
def trimEnd (s : Text) : Text := (s.reverse.dropWhile isWhitespace).reverse
/-- `str::trim`. -/
def trim (s : Text) : Text := trimEnd (trimStart s)
/-- `str::trim_start_matches(c)`. -/
def trimStartMatches (c : Char) (s : Text) : Text := s.dropWhile (· == c)
/-- `str::trim_end_matches(c)`. -/
def trimEndMatches (c : Char) (s : Text) : Text := (s.reverse.dropWhile (· == c)).reverse
/-- `str::starts_with(&str)`. -/
def startsWith (s pre : Text) : Bool := pre.isPrefixOf s
/-- `str::ends_with(&str)`. -/
def endsWith (s suf : Text) : Bool := suf.isSuffixOf s

/-- Worker of `splitWhitespace`; `cur` is the word being read. -/
def splitWsGo : Text → Text → List Text
  | [], cur => if cur = [] then [] else [cur]
  | c :: cs, cur =>
    if isWhitespace c then
      (if cur = [] then splitWsGo cs [] else cur :: splitWsGo cs [])
    else splitWsGo cs (cur ++ [c])

/-- `str::split_whitespace`. -/
def splitWhitespace (s : Text) : List Text := splitWsGo s []

/-! ### grapheme.rs -/

/-- `is_prefix` for string patterns (grapheme.rs:28-30). -/
def isPrefix (pre s : Text) : Bool :=
  match (splitWhitespace s).head? with
  | some t => t == pre
  | none => false

/-- `strip_prefix` for string patterns (grapheme.rs:43-56). `s[plen..]` may panic. -/
def stripPrefix (pre s : Text) : Except Panic Text :=
  match (splitWhitespace s).head? with
  | some p =>
    if p = pre then
      let plen := utf8Len p
      if plen < utf8Len (trim s) then
        match byteSlice s plen (utf8Len s) with
        | some r => .ok (trim r)
        | none => .error .badSlice
      else .ok []
    else .ok s
  | none => .ok s

/-- `char::to_digit(radix)` for `radix ≤ 36`, as used by `char::is_digit`. -/
def toDigit (radix : Nat) (c : Char) : Option Nat :=
  let n := c.toNat
  let d :=
    if '0' ≤ c ∧ c ≤ '9' then some (n - 48)
    else if 'a' ≤ c ∧ c ≤ 'z' then some (n - 97 + 10)
    else if 'A' ≤ c ∧ c ≤ 'Z' then some (n - 65 + 10)
    else none
  d.bind fun d => if d < radix then some d else none

/-- `is_num_char` (grapheme.rs:131-133). -/
def isNumChar (radix : Nat) (c : Char) (first : Bool) : Bool :=
  (toDigit radix c).isSome || (!first && c == '_')

section
variable [CharTables]

/-- `has_case` (grapheme.rs:168-170). -/
def hasCase (c : Char) : Bool := isUppercase c || isLowercase c

/-- `is_ident_start` (grapheme.rs:137-139). -/
def isIdentStart (c : Char) : Bool := c == '_' || hasCase c

/-- `is_ident_start_ext` (grapheme.rs:150-152). -/
def isIdentStartExt (c : Char) : Bool := c == '_' || isAlphabetic c

/-- `is_ident_char` (grapheme.rs:178-180). -/
def isIdentChar (c : Char) : Bool := isAlphanumeric c || c == '_' || c == '\''
end

/-- The characters listed in `is_infix_char` (grapheme.rs:184-207). -/
def infixChars : Text :=
  ['~', '!', '@', '#', '$', '%', '^', '&', '*', '-', '+', '=', '<', '>', '/', '\\', ':', '|',
   '?', '.']

/-- `is_infix_char` (grapheme.rs:184-207). -/
def isInfixChar (c : Char) : Bool := infixChars.contains c

/-- The characters listed in `is_subscript` (grapheme.rs:210-227). -/
def subscriptChars : Text :=
  ['₀', '₁', '₂', '₃', '₄', '₅', '₆', '₇', '₈', '₉', '₍', '₎', '₊', '₋']

/-- `is_subscript` (grapheme.rs:210-227). -/
def isSubscript (c : Char) : Bool := subscriptChars.contains c

/-- The characters listed in `is_superscript` (grapheme.rs:230-247). -/
def superscriptChars : Text :=
  ['⁰', '¹', '²', '³', '⁴', '⁵', '⁶', '⁷', '⁸', '⁹', '⁽', '⁾', '⁺', '⁻']

/-- `is_superscript` (grapheme.rs:230-247). -/
def isSuperscript (c : Char) : Bool := superscriptChars.contains c

/-- `is_trailing` (grapheme.rs:252-254). -/
def isTrailing (c : Char) : Bool := isSubscript c || isSuperscript c

/-- `get_escaped` (grapheme.rs:256-268). -/
def getEscaped (c : Char) : Char :=
  if c = 't' then '\t'
  else if c = 'n' then '\n'
  else if c = 'r' then '\r'
  else if c = '"' then '"'
  else if c = '\'' then '\''
  else if c = '\\' then '\\'
  else if c = 'b' then '\x08'
  else if c = 'f' then '\x0C'
  else c

/-- `is_escapable` (grapheme.rs:270-272). -/
def isEscapable (c : Char) : Bool := ['t', 'n', 'r', '"', '\'', '\\', 'b', 'f'].contains c

/-- The `while n > 0` loop of `numlen_base` (grapheme.rs:432-435). The fuel argument is
the loop variable's initial value, an upper bound on the iterations when `base ≥ 2`. -/
def numlenLoop (base : Nat) : Nat → Nat → Nat → Nat
  | 0, _, k => k
  | fuel + 1, n, k => if n > 0 then numlenLoop base fuel (n / base) (k + 1) else k

/-- `numlen_base::<BASE>` (grapheme.rs:427-438), for `BASE ≥ 2` (`BASE = 0` divides by zero
and `BASE = 1` does not terminate in the code). -/
def numlenBase (base n : Nat) : Nat := if n = 0 then 1 else numlenLoop base n n 0

/-- `numlen` (grapheme.rs:442-444). -/
def numlen (n : Nat) : Nat := numlenBase 10 n

/-- `IntPrefix` (grapheme.rs:464-468). -/
inductive IntPrefix where
  | bin | oct | hex
  deriving DecidableEq, Repr

/-- `IntPrefix::from_char` (grapheme.rs:471-478). -/
def IntPrefix.fromChar (c : Char) : Option IntPrefix :=
  if c = 'b' ∨ c = 'B' then some .bin
  else if c = 'o' ∨ c = 'O' then some .oct
  else if c = 'x' ∨ c = 'X' then some .hex
  else none

/-- `IntPrefix::radix` (grapheme.rs:480-482) with the discriminants of grapheme.rs:465-467. -/
def IntPrefix.radix : IntPrefix → Nat
  | .bin => 2
  | .oct => 8
  | .hex => 16

end Pemdas
