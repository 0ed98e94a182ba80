import Verif.Props.Parser
import Verif.Model.Session
/-
C68 exactly: which parse errors cannot be displayed.
-/
namespace Pemdas

/-- The token a parse error complains about. -/
def ParseError.culprit : ParseError → Token
  | .expected _ _ t => t
  | .unexpected t _ => t

section
variable [CharTables] [LawfulTables]
open Lexer Parser

/-- **C68** exactly: displaying the error of a rejected source, with or without its location, panics
if and only if the token it complains about is the error for an empty character literal, and then
with the `todo!()` of that error; the source then contains two adjacent apostrophes. -/
theorem C68_exactly {src : Text} {e : ParseError} {l' : Lexer}
    (h : parse src = .err e l' ∨ parseExpr src = .err e l') :
    (∀ p, e.text = .error p ↔ p = .emptyCharTodo ∧ ∃ a b, e.culprit = .error (.emptyChar a b)) ∧
    (∀ p, e.textWithoutLoc = .error p ↔
      p = .emptyCharTodo ∧ ∃ a b, e.culprit = .error (.emptyChar a b)) ∧
    ((∃ a b, e.culprit = .error (.emptyChar a b)) → t!"''" <:+: src) := by
  have hp : ErrAt (Lexer.new src) e l' := by
    rcases h with h | h
    · have := parse_run src; rw [h] at this; exact this
    · have := parseExpr_run src; rw [h] at this; exact this
  have hq : (∃ a b, e.culprit = .error (.emptyChar a b)) → t!"''" <:+: src := by
    rintro ⟨a, b, hc⟩
    obtain ⟨t, loc, h1, h2⟩ := hp.token
    have ht : t = .error (.emptyChar a b) := by
      rcases h1 with rfl | ⟨t', _, rfl⟩ <;> exact hc
    subst ht
    rcases h2 with h2 | ⟨l, m, sp, h3, h4⟩
    · cases h2
    · obtain ⟨hs, ⟨pre, hat⟩, _⟩ := h3.inv
      exact (lex_empty (next_some h4).1 rfl).trans ⟨pre, [], by rw [List.append_nil, ← hs, hat.src]⟩
  have ht : ∀ t : Token, (∃ s, t.text = .ok s ∧ ∀ a b, t ≠ .error (.emptyChar a b)) ∨
      (t.text = .error .emptyCharTodo ∧ ∃ a b, t = .error (.emptyChar a b)) := by
    intro t
    cases ht : t.isEmptyChar with
    | false =>
      obtain ⟨s, hs⟩ := token_text_ok ht
      exact .inl ⟨s, hs, by rintro a b rfl; cases ht⟩
    | true =>
      cases t with
      | error x =>
        cases x with
        | emptyChar a b => exact .inr ⟨rfl, a, b, rfl⟩
        | _ => cases ht
      | _ => cases ht
  obtain ⟨t, loc, h1, _⟩ := hp.token
  rcases h1 with rfl | ⟨t', h6, rfl⟩
  · refine ⟨fun p => ?_, fun p => ?_, hq⟩ <;>
    · simp only [ParseError.text, ParseError.textWithoutLoc, ParseError.culprit]
      rcases ht t with ⟨s, hs, hn⟩ | ⟨hs, hn⟩
      · rw [hs]; simp [bind, Except.bind, hn]
      · rw [hs]; simp [bind, Except.bind, hn, eq_comm]
  · obtain ⟨s', hs'⟩ : ∃ s, t'.text = .ok s := by
      apply token_text_ok
      cases t' <;> first | rfl | exact absurd rfl (wanted_ne h6 _)
    refine ⟨fun p => ?_, fun p => ?_, hq⟩ <;>
    · simp only [ParseError.text, ParseError.textWithoutLoc, ParseError.culprit, hs']
      rcases ht t with ⟨s, hs, hn⟩ | ⟨hs, hn⟩
      · rw [hs]; simp [bind, Except.bind, hn]
      · rw [hs]; simp [bind, Except.bind, hn, eq_comm]

/-- **C130** Only a closing parenthesis, a closing bracket, an arrow or an `in` is ever said to be
expected, and never where there is one. -/
theorem C130_expected {src : Text} {t t' : Token} {loc : Loc} {l' : Lexer}
    (h : parse src = .err (.expected t loc t') l' ∨ parseExpr src = .err (.expected t loc t') l') :
    t ∈ [Token.parenR, .brackR, .arrow, .in_] ∧ t' ≠ t := by
  have hp : ErrAt (Lexer.new src) (.expected t loc t') l' := by
    rcases h with h | h
    · have := parse_run src; rw [h] at this; exact this
    · have := parseExpr_run src; rw [h] at this; exact this
  obtain ⟨ts, m, x, -, -, h | ⟨y, h1, h2, h3⟩⟩ := hp
  · cases h
  · cases h3
    exact ⟨h2, fun h => h1 h.symm⟩

end

attribute [local instance] asciiTables asciiTables_lawful

/-- C130: each of them is expected somewhere. -/
example : ([t!"(1", t!"[1", t!"\\x y", t!"let infixl 6 + x"].map fun src => match parse src with
    | .err (.expected t _ f) _ => some (t, f)
    | _ => none) = [some (.parenR, .eof), some (.brackR, .eof), some (.arrow, .eof),
      some (.in_, .lower t!"x")] := by decide +kernel

end Pemdas
