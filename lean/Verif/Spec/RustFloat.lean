import Verif.Model.Basic
/-
Specification: the texts `str::parse::<f64>` of the standard library accepts for finite numbers, and
the decimal number `m · 10^e` they denote (before rounding to a float).
-/
namespace Pemdas

/-- Digits with an optional point: `12`, `1.5`, `.5`, `2.`. -/
inductive DecimalText : Text → Nat → Int → Prop where
  | int (ds : Text) (hd : ∀ c ∈ ds, c.isDigit = true) (hne : ds ≠ []) :
      DecimalText ds (Nat.ofDigitChars 10 ds 0) 0
  | point (ip fp : Text) (hi : ∀ c ∈ ip, c.isDigit = true) (hf : ∀ c ∈ fp, c.isDigit = true)
      (hne : ip ++ fp ≠ []) :
      DecimalText (ip ++ '.' :: fp) (Nat.ofDigitChars 10 (ip ++ fp) 0) (-(fp.length : Int))

/-- An unsigned number with an optional exponent. -/
inductive UnsignedFloatText : Text → Nat → Int → Prop where
  | plain {s : Text} {m : Nat} {e : Int} (h : DecimalText s m e) : UnsignedFloatText s m e
  | exp {s : Text} {m : Nat} {e : Int} (h : DecimalText s m e) (mark : Char)
      (hmark : mark = 'e' ∨ mark = 'E') (ds : Text) (hd : ∀ c ∈ ds, c.isDigit = true)
      (hne : ds ≠ []) (sign : Text) (hsign : sign = [] ∨ sign = ['+'] ∨ sign = ['-']) :
      UnsignedFloatText (s ++ mark :: (sign ++ ds)) m
        (e + (if sign = ['-'] then -1 else 1) * Nat.ofDigitChars 10 ds 0)

/-- `s` denotes `m · 10^e`, or minus that when `neg`. -/
inductive FloatText : Text → Bool → Nat → Int → Prop where
  | pos {s : Text} {m : Nat} {e : Int} (h : UnsignedFloatText s m e) : FloatText s false m e
  | plus {s : Text} {m : Nat} {e : Int} (h : UnsignedFloatText s m e) :
      FloatText ('+' :: s) false m e
  | minus {s : Text} {m : Nat} {e : Int} (h : UnsignedFloatText s m e) :
      FloatText ('-' :: s) true m e

end Pemdas
