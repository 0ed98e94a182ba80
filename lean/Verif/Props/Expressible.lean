import Verif.Lemmas.Expressible
import Verif.Lemmas.Laid
import Verif.Props.LexGrammar
/-
C97 which syntax trees the parser can produce, from one line and from any number of lines.
-/
namespace Pemdas
open Lexer

section
variable [CharTables] [LawfulTables]

/-! ### C97 -/

/-- C97: a syntax tree is what some text on one line is parsed as exactly if all its declarations
are expressible. -/
theorem C97_range (ast : Ast) : (∃ src l', '\n' ∉ src ∧ parse src = .ok ast l') ↔
    ∃ ds, ast = Ast.ofDecls ds ∧ ∀ d ∈ ds, d.Expressible false := by
  constructor
  · rintro ⟨src, l', hn, h⟩
    obtain ⟨ts, ds, h1, h2, h3⟩ := (C96_one_line_programs hn ast).1 ⟨l', h⟩
    exact ⟨ds, h3, h2.expressible (h1.writable hn)⟩
  · rintro ⟨ds, rfl, h⟩
    obtain ⟨ts, h1, h2⟩ := decls_toks h
    obtain ⟨src, h3, h4⟩ := writable_line h2
    obtain ⟨l', h5⟩ := (C96_one_line_programs h3 _).2 ⟨ts, ds, h4, h1, rfl⟩
    exact ⟨src, l', h3, h5⟩

/-- C97 for one expression. -/
theorem C97_expression (e : Expr) :
    (∃ src l', '\n' ∉ src ∧ parse src = .ok ⟨[.expr], [], [e]⟩ l') ↔ e.Expressible false := by
  have he : (⟨[.expr], [], [e]⟩ : Ast) = Ast.ofDecls [.expr e] := rfl
  rw [C97_range, he]
  constructor
  · rintro ⟨ds, h1, h2⟩
    rw [← ofDecls_inj h1] at h2
    exact h2 (.expr e) (by simp)
  · intro h
    exact ⟨_, rfl, fun d hd => by rw [List.mem_singleton.1 hd]; exact h⟩

/-- C97 for one declaration of operators. -/
theorem C97_declaration (d : InfixDecl) :
    (∃ src l', '\n' ∉ src ∧ parse src = .ok ⟨[.infix_], [d], []⟩ l') ↔ d.Expressible false := by
  have he : (⟨[.infix_], [d], []⟩ : Ast) = Ast.ofDecls [.infix_ d] := rfl
  rw [C97_range, he]
  constructor
  · rintro ⟨ds, h1, h2⟩
    rw [← ofDecls_inj h1] at h2
    exact h2 (.infix_ d) (by simp)
  · intro h
    exact ⟨_, rfl, fun d hd => by rw [List.mem_singleton.1 hd]; exact h⟩

/-- C97 for `parse_expr`: what it returns for texts on one line that can be read as tokens are the
expressible expressions. -/
theorem C97_parse_expr (e : Expr) :
    (∃ src ts l', '\n' ∉ src ∧ Tokenizes src ts ∧ parseExpr src = .ok e l') ↔ e.Expressible false := by
  constructor
  · rintro ⟨src, ts, l', hn, ht, h⟩
    obtain ⟨us, rest, rfl, h1, _⟩ := (C96_one_line_expressions hn ht e).1 ⟨l', h⟩
    exact (h1.expressible fun t hm => ht.writable (ml := false) hn t (by simp [hm])).1
  · intro h
    obtain ⟨ts, h1, h2⟩ := Expr.Expressible.toks h
    obtain ⟨src, h3, h4⟩ := writable_line h2
    obtain ⟨l', h5⟩ := (C96_one_line_expressions h3 h4 e).2 ⟨ts, [], by simp, h1.1, trivial⟩
    exact ⟨src, ts, l', h3, h4, h5⟩

/-- C97: some trees that no text on one line is parsed as: negations, constructors, `(-)` as a name,
fractions, applied lambdas, tuples with one component, patterns that are literals, constructors or
units. -/
theorem C97_never (e : Expr) (p : Pat) (s : Text) (x : FloatRep) (l : Literal) :
    ∀ e' ∈ [Expr.neg e, .var (.upper s), .var (.infix_ t!"-"), .lit (.frac x), .app (.lam p e) e,
      .tup [e], .lam (.lit l) e, .lam (.con s []) e, .lam (.tup []) e],
    ¬ ∃ src l', '\n' ∉ src ∧ parse src = .ok ⟨[.expr], [], [e']⟩ l' := by
  intro e' he'
  rw [C97_expression]
  simp only [List.mem_cons, List.not_mem_nil, or_false] at he'
  rcases he' with rfl | rfl | rfl | rfl | rfl | rfl | rfl | rfl | rfl
  · exact id
  · exact id
  · rintro (⟨c, y, h, _, _, h'⟩ | ⟨c, y, h, hc, _⟩ | ⟨c, w, h, _⟩)
    · exact h' (by decide)
    · injection h with h _
      subst h
      have := isIdentStart_identChar hc
      rw [TLex.ascii_identChar (by decide)] at this
      revert this; decide
    · cases h
  · exact id
  · exact fun h => by simp [Expr.Expressible, Expr.isOpen] at h
  · exact fun h => h.1 rfl
  · exact fun h => h.1
  · exact fun h => h.1
  · exact fun h => h.1

/-- C97 for any number of lines: a syntax tree is what some text (without newlines before carriage
returns) is parsed as exactly if all its declarations are expressible, where lambdas and `let`s may
be applied and newlines be part of promoted names. -/
theorem C97_range_lines (ast : Ast) : (∃ src l', NoLFCR src ∧ parse src = .ok ast l') ↔
    ∃ ds, ast = Ast.ofDecls ds ∧ ∀ d ∈ ds, d.Expressible true := by
  constructor
  · rintro ⟨src, l', hc, h⟩
    obtain ⟨cs, ds, _, h1, h2, h3⟩ := (C96_programs hc ast).1 ⟨l', h⟩
    exact ⟨ds, h3, h2.expressible (h1.writable (ml := true) hc)⟩
  · rintro ⟨ds, rfl, h⟩
    obtain ⟨ts, h1, h2⟩ := decls_laid h
    obtain ⟨src, h3, _, h4⟩ := h2.placed
    obtain ⟨l', h5⟩ := (C96_programs h3 _).2
      ⟨ts, ds, (h4 []).lexes h3, (h4 []).tokenizes, h1, rfl⟩
    exact ⟨src, l', h3, h5⟩

/-- C97 for one expression on any number of lines. -/
theorem C97_expression_lines (e : Expr) :
    (∃ src l', NoLFCR src ∧ parse src = .ok ⟨[.expr], [], [e]⟩ l') ↔ e.Expressible true := by
  have he : (⟨[.expr], [], [e]⟩ : Ast) = Ast.ofDecls [.expr e] := rfl
  rw [C97_range_lines, he]
  constructor
  · rintro ⟨ds, h1, h2⟩
    rw [← ofDecls_inj h1] at h2
    exact h2 (.expr e) (by simp)
  · intro h
    exact ⟨_, rfl, fun d hd => by rw [List.mem_singleton.1 hd]; exact h⟩

/-- C97: of these trees only applied lambdas can be had from several lines. -/
theorem C97_never_lines (e : Expr) (s : Text) (x : FloatRep) (l : Literal) :
    ∀ e' ∈ [Expr.neg e, .var (.upper s), .var (.infix_ t!"-"), .lit (.frac x),
      .tup [e], .lam (.lit l) e, .lam (.con s []) e, .lam (.tup []) e],
    ¬ ∃ src l', NoLFCR src ∧ parse src = .ok ⟨[.expr], [], [e']⟩ l' := by
  intro e' he'
  rw [C97_expression_lines]
  simp only [List.mem_cons, List.not_mem_nil, or_false] at he'
  rcases he' with rfl | rfl | rfl | rfl | rfl | rfl | rfl | rfl
  · exact id
  · exact id
  · rintro (⟨c, y, h, _, _, h'⟩ | ⟨c, y, h, hc, _⟩ | ⟨c, w, h, _⟩)
    · exact h' (by decide)
    · injection h with h _
      subst h
      have := isIdentStart_identChar hc
      rw [TLex.ascii_identChar (by decide)] at this
      revert this; decide
    · cases h
  · exact id
  · exact fun h => h.1 rfl
  · exact fun h => h.1
  · exact fun h => h.1
  · exact fun h => h.1

/-- C97: a lambda with an expressible pattern and body applied to an expressible argument can be had
from several lines, but from no single line. -/
theorem C97_applied_lambda {p : Pat} {b x : Expr} (hp : p.Expressible true) (hb : b.Expressible true)
    (hx : x.Expressible true) (ha : x.isArg = true) :
    (∃ src l', NoLFCR src ∧ parse src = .ok ⟨[.expr], [], [.app (.lam p b) x]⟩ l') ∧
    ¬ ∃ src l', '\n' ∉ src ∧ parse src = .ok ⟨[.expr], [], [.app (.lam p b) x]⟩ l' := by
  constructor
  · rw [C97_expression_lines]
    exact ⟨rfl, .inl rfl, ha, ⟨hp, hb⟩, hx⟩
  · rw [C97_expression]
    exact fun h => by simp [Expr.Expressible, Expr.isOpen] at h

end

section
attribute [local instance] asciiTables asciiTables_lawful

/-- An expressible tree with a `let`, a lambda with a nested pattern, a chain, a tuple and a list:
`let infixl 3 +, -, `f` in \(-x, y@_, 'c') -> (x + y - f [1, ""]) `g␣` ((),)`. -/
def exExpressible : Expr :=
  .let_ ⟨[.standard t!"+", .standard t!"-", .promoted t!"f"], ⟨3, .left⟩⟩
    (.lam (.tup [.neg (.var t!"x"), .as_ t!"y" .wild, .lit (.char 'c')])
      (.bin (.grp (.bin (.var (.lower t!"x")) (.standard t!"+")
          (.bin (.var (.lower t!"y")) (.standard t!"-")
            (.app (.var (.lower t!"f")) (.list [.lit (.int 1), .lit (.str [])])))))
        (.promoted t!"g ") (.tup [.tup [], .var (.commas 1)])))

/-- It is expressible. -/
theorem exExpressible_ok : exExpressible.Expressible false := by
  have low : ∀ c : Char, asciiLower c = true → LowerName [c] := fun c hc =>
    ⟨c, [], rfl, hc, ⟨[], [], rfl, rfl, rfl⟩, by
      intro h
      have : c = '_' := by simpa [keywords] using h
      subst this
      revert hc; decide⟩
  have op : OpName t!"+" := ⟨'+', [], rfl, by decide, ⟨[], [], rfl, rfl, rfl⟩, by decide⟩
  refine ⟨⟨by simp, by decide, ?_⟩, ⟨.inl (low 'x' (by decide)), ⟨.inl ⟨low _ (by decide), trivial⟩,
    .inr ⟨_, rfl, trivial⟩, trivial⟩⟩, ?_, rfl, rfl, ?_, ?_⟩
  · intro o ho
    simp only [List.mem_cons, List.not_mem_nil, or_false] at ho
    rcases ho with rfl | rfl | rfl
    · exact .inr op
    · exact .inl (by decide)
    · exact .inl ⟨'f', [], rfl, by decide, [], [], rfl, rfl, rfl⟩
  · exact .inr ⟨'g', ' ', rfl, by decide, by decide, by decide⟩
  · exact ⟨.inr op, rfl, rfl, low _ (by decide), .inl (by decide), rfl, rfl, low _ (by decide),
      rfl, .inr rfl, rfl, low _ (by decide), show (1 : Nat) < 2 ^ 64 by decide, trivial, trivial⟩
  · exact ⟨by decide, ⟨by decide, trivial⟩, Nat.one_pos, trivial⟩

/-- An applied lambda, written on two lines. -/
example : (parse t!"    \\x -> x\n      1").value? =
    some ⟨[.expr], [], [.app (.lam (.var t!"x") (.var (.lower t!"x"))) (.lit (.int 1))]⟩ := by
  decide +kernel

end
end Pemdas
