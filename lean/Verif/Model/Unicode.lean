import Verif.Model.Basic
/-
Unicode predicates of Rust's standard library.

`char::is_whitespace` is concrete (the Unicode `White_Space` property is a
closed list).  The other predicates are table driven in Rust's std; they are
parameters of the model (`CharTables`), and `LawfulTables` collects the only
facts about them that the proofs use.  These facts are part of the trusted
base: they hold of the Unicode tables that ship with Rust.
-/
namespace Pemdas

/-- `char::is_whitespace` (Unicode `White_Space`), used at lexer.rs:130,363 and by
`str::trim`/`split_whitespace`. -/
def isWhitespace (c : Char) : Bool :=
  let n := c.toNat
  (9 ≤ n && n ≤ 13) || n == 32 || n == 0x85 || n == 0xA0 || n == 0x1680 ||
  (0x2000 ≤ n && n ≤ 0x200A) || n == 0x2028 || n == 0x2029 || n == 0x202F ||
  n == 0x205F || n == 0x3000

/-- `char::is_digit(10)` (lexer.rs:142,187): ASCII decimal digits only. -/
def isDigit10 (c : Char) : Bool := '0' ≤ c && c ≤ '9'

/-- `char::is_ascii_hexdigit` (lexer.rs:277). -/
def isHexDigit (c : Char) : Bool :=
  ('0' ≤ c && c ≤ '9') || ('a' ≤ c && c ≤ 'f') || ('A' ≤ c && c ≤ 'F')

/-- The table-driven predicates of `char` used by the code. -/
class CharTables where
  /-- `char::is_alphabetic` -/
  isAlphabetic : Char → Bool
  /-- `char::is_alphanumeric` -/
  isAlphanumeric : Char → Bool
  /-- `char::is_lowercase` -/
  isLowercase : Char → Bool
  /-- `char::is_uppercase` -/
  isUppercase : Char → Bool
  /-- `core::unicode::printable::is_printable` (used by `{:?}` on `char`/`str`) -/
  isPrintable : Char → Bool
  /-- `char::is_grapheme_extended` (used by `{:?}` on `char`/`str`) -/
  isGraphemeExtended : Char → Bool

export CharTables (isAlphabetic isAlphanumeric isLowercase isUppercase isPrintable
  isGraphemeExtended)

/-- ASCII lower-case letters. -/
def asciiLower (c : Char) : Bool := 'a' ≤ c && c ≤ 'z'
/-- ASCII upper-case letters. -/
def asciiUpper (c : Char) : Bool := 'A' ≤ c && c ≤ 'Z'

/-- Facts about the Unicode tables assumed by the proofs. -/
class LawfulTables [CharTables] : Prop where
  lower_alphabetic : ∀ c, isLowercase c = true → isAlphabetic c = true
  upper_alphabetic : ∀ c, isUppercase c = true → isAlphabetic c = true
  alphabetic_alnum : ∀ c, isAlphabetic c = true → isAlphanumeric c = true
  lower_not_upper : ∀ c, isLowercase c = true → isUppercase c = false
  ws_not_alnum : ∀ c, isWhitespace c = true → isAlphanumeric c = false
  ascii_lower : ∀ c, c.toNat < 128 → isLowercase c = asciiLower c
  ascii_upper : ∀ c, c.toNat < 128 → isUppercase c = asciiUpper c
  ascii_alphabetic : ∀ c, c.toNat < 128 → isAlphabetic c = (asciiLower c || asciiUpper c)
  ascii_alnum : ∀ c, c.toNat < 128 →
    isAlphanumeric c = (asciiLower c || asciiUpper c || isDigit10 c)
  ascii_printable : ∀ c, c.toNat < 128 → isPrintable c = (32 ≤ c.toNat && c.toNat < 127)
  ascii_not_extended : ∀ c, c.toNat < 128 → isGraphemeExtended c = false

/-- The ASCII restriction of the tables: a concrete instance, used for examples and to
show that the assumed laws are satisfiable. -/
@[reducible] def asciiTables : CharTables where
  isAlphabetic c := asciiLower c || asciiUpper c
  isAlphanumeric c := asciiLower c || asciiUpper c || isDigit10 c
  isLowercase c := asciiLower c
  isUppercase c := asciiUpper c
  isPrintable c := 32 ≤ c.toNat && c.toNat < 127
  isGraphemeExtended _ := false

theorem toNat_le_iff (a b : Char) : (a ≤ b) ↔ a.toNat ≤ b.toNat := by
  exact Iff.rfl

theorem asciiTables_lawful : @LawfulTables asciiTables := by
  refine @LawfulTables.mk asciiTables ?_ ?_ ?_ ?_ ?_ ?_ ?_ ?_ ?_ ?_ ?_ <;> intro c
  · intro h; show (asciiLower c || asciiUpper c) = true; simp [show asciiLower c = true from h]
  · intro h; show (asciiLower c || asciiUpper c) = true; simp [show asciiUpper c = true from h]
  · intro h
    show (asciiLower c || asciiUpper c || isDigit10 c) = true
    simp [show (asciiLower c || asciiUpper c) = true from h]
  · show asciiLower c = true → asciiUpper c = false
    simp only [asciiLower, asciiUpper, toNat_le_iff, Bool.and_eq_true, decide_eq_true_eq,
      Bool.and_eq_false_iff, decide_eq_false_iff_not, Char.reduceToNat]
    omega
  · show isWhitespace c = true → (asciiLower c || asciiUpper c || isDigit10 c) = false
    simp only [asciiLower, asciiUpper, isDigit10, isWhitespace, toNat_le_iff, Bool.or_eq_true,
      Bool.and_eq_true, decide_eq_true_eq, beq_iff_eq, Bool.or_eq_false_iff,
      Bool.and_eq_false_iff, decide_eq_false_iff_not, Char.reduceToNat]
    omega
  all_goals intro _; rfl

end Pemdas
