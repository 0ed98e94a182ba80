import Verif.Lemmas.LexGrammar
import Verif.Lemmas.GrammarSound
import Verif.Props.Reprint
/-
C95 the lexer reads exactly the lexical grammar. C96 the parser accepts exactly the texts of the
two grammars.
-/
namespace Pemdas
open Lexer

section
variable [CharTables] [LawfulTables]

/-! ### C95 -/

omit [LawfulTables] in
theorem TLex.Has.of_tokens {n : Nat} : ∀ {s : Text} {ts : List Token}, TLex.tokens n s = .ok ts →
    ts.length < n → (∀ e, .error e ∉ ts) → TLex.Has s ts := by
  induction n with
  | zero => intro s ts _ h; simp at h
  | succ n ih =>
    intro s ts h hl he
    unfold TLex.tokens at h
    split at h
    · cases h
    · rename_i r hr
      cases h
      exact .nil hr
    · rename_i t r hne hr
      split at h
      · cases h
      · rename_i ts' ht
        injection h with h
        subst h
        refine .cons hr ⟨fun h => hne (h ▸ rfl), fun e h => he e (by simp [h])⟩ ?_
        exact ih ht (by simpa using hl) fun e hm => he e (by simp [hm])

omit [LawfulTables] in
theorem lexes_iff_has {src : Text} (hc : NoLFCR src) (ts : List Token) :
    (∃ cs, Lexes src cs ∧ cs.map (·.1) = ts ∧ ∀ e, .error e ∉ ts) ↔ TLex.Has src ts := by
  have hch : (Lexer.new src).chars = src.dropWhile isWhitespace := by
    have h0 : Sync (⟨src, src, none, 1, 1, 0, Loc.default⟩ : Lexer) :=
      ⟨⟨[], ⟨rfl, rfl, by simp⟩⟩, hc⟩
    exact h0.eatWhitespace
  have same : ∀ xs : List (Token × LocSpan), (∀ e, .error e ∉ xs.map (·.1)) →
      (xs.map fun x => x.1.noLoc) = xs.map (·.1) := by
    intro xs h
    apply List.map_congr_left
    intro x hm
    cases he : x.1 with
    | error e => exact absurd (List.mem_map.2 ⟨x, hm, he⟩) (h e)
    | _ => rfl
  constructor
  · rintro ⟨cs, ⟨xs, n, hlt, hi, rfl⟩, h, hne⟩
    have h' : xs.map (·.1) = ts := by rw [← h]; simp
    have ht := (sync_new hc).items (n := n)
    rw [hi, hch] at ht
    have : noLocs (.ok xs) = .ok ts := by
      show Except.ok (xs.map fun x => x.1.noLoc) = _
      rw [← h', same xs (by rw [h']; exact hne)]
    rw [this] at ht
    have hh := TLex.Has.of_tokens ht.symm (by rw [← h']; simpa using hlt) hne
    exact hh.congr (TLex.lex_dropWhile src).symm
  · intro h
    have hi := (sync_new hc).items (n := ts.length + 1)
    rw [hch, h.dropWhile.tokens _ (Nat.le_refl _)] at hi
    unfold noLocs at hi
    cases hx : items (ts.length + 1) (Lexer.new src) with
    | error p => rw [hx] at hi; cases hi
    | ok xs =>
      rw [hx] at hi
      simp only [Except.map, Except.ok.injEq] at hi
      have hs : xs.map (·.1) = ts := by
        rw [← hi]
        apply List.map_congr_left
        intro x hm
        have hne := h.noError
        rw [← hi] at hne
        cases he : x.1 with
        | error e =>
          exact absurd (List.mem_map.2 ⟨x, hm, by rw [he]; rfl⟩) (hne e.noLoc)
        | _ => rfl
      refine ⟨xs.map fun x => (x.1, x.2.hi.col), ⟨xs, _, ?_, hx, rfl⟩,
        by simpa [Function.comp_def] using hs, h.noError⟩
      rw [← hs]; simp

/-- C95: the tokens of a text are read without a panic and without an error exactly if the text is
derived by the lexical grammar for these tokens. -/
theorem C95_lexical_grammar {src : Text} (hc : NoLFCR src) (ts : List Token) :
    (∃ cs, Lexes src cs ∧ cs.map (·.1) = ts ∧ ∀ e, .error e ∉ ts) ↔ Tokenizes src ts := by
  rw [lexes_iff_has hc, TLex.has_iff]

/-- C95: the lexical grammar is unambiguous: no text is derived for two sequences of tokens. -/
theorem C95_unambiguous {src : Text} {ts ts' : List Token} (h : Tokenizes src ts)
    (h' : Tokenizes src ts') : ts = ts' := by
  rw [← TLex.has_iff] at h h'
  have h1 := h.tokens (max ts.length ts'.length) (Nat.le_max_left _ _)
  rw [h'.tokens _ (Nat.le_max_right _ _)] at h1
  exact (Except.ok.inj h1).symm

/-! ### C96 -/

/-- C96: which texts on one line are programs, and for which declarations, from characters to
syntax tree: the text is derived by the lexical grammar for tokens that are derived by the grammar
of programs. -/
theorem C96_one_line_programs {src : Text} (hn : '\n' ∉ src) (ast : Ast) :
    (∃ l', parse src = .ok ast l') ↔
      ∃ ts ds, Tokenizes src ts ∧ LineProg ds ts ∧ ast = Ast.ofDecls ds := by
  have hc : NoLFCR src := fun hi => hn (hi.subset (by simp))
  rw [C81_one_line hn]
  constructor
  · rintro ⟨cs, ds, h1, h2, h3⟩
    exact ⟨_, ds, (C95_lexical_grammar hc _).1 ⟨cs, h1, rfl, fun e hm => h2.sound _ hm e rfl⟩, h2, h3⟩
  · rintro ⟨ts, ds, h1, h2, h3⟩
    obtain ⟨cs, h4, rfl, _⟩ := (C95_lexical_grammar hc ts).2 h1
    exact ⟨cs, ds, h4, h2, h3⟩

/-- C96 for `parse_expr`, which leaves what follows the expression alone: if all of the text can be
read as tokens, some of them, up to one that cannot continue the expression, are those of the
expression. -/
theorem C96_one_line_expressions {src : Text} (hn : '\n' ∉ src) {ts : List Token}
    (ht : Tokenizes src ts) (e : Expr) : (∃ l', parseExpr src = .ok e l') ↔
      ∃ us rest, ts = us ++ rest ∧ Line .chain e us ∧ Closed rest := by
  have hc : NoLFCR src := fun hi => hn (hi.subset (by simp))
  obtain ⟨cs, h1, rfl, _⟩ := (C95_lexical_grammar hc ts).2 ht
  exact C81_one_line_expression hn h1 e

/-- C96 for programs on any number of lines: the characters decide the tokens as the lexical grammar
says; the columns at which these end decide how the layout grammar reads them. -/
theorem C96_programs {src : Text} (hc : NoLFCR src) (ast : Ast) :
    (∃ l', parse src = .ok ast l') ↔
      ∃ cs ds, Lexes src cs ∧ Tokenizes src (cs.map (·.1)) ∧ WrittenProg ds cs ∧
        ast = Ast.ofDecls ds := by
  rw [C81_program]
  constructor
  · rintro ⟨cs, ds, h1, h2, h3⟩
    exact ⟨cs, ds, h1, (C95_lexical_grammar hc _).1 ⟨cs, h1, rfl, fun e hm => h2.sound _ hm e rfl⟩,
      h2, h3⟩
  · rintro ⟨cs, ds, h1, _, h2, h3⟩
    exact ⟨cs, ds, h1, h2, h3⟩

end

section
attribute [local instance] asciiTables asciiTables_lawful

/-- The lexical grammar derives a text with a name that ends in a subscript, a line with an escape
in a string, a promoted name, a character whose code loses the parenthesis after it, and
comments. -/
theorem ex_tokenizes : Tokenizes t!"a₁b 12 'f \"x\\ty\" ~{c}~ `g` '\\u41') -> ~~ end"
    [.lower t!"a₁", .lower t!"b", .lit (.int 12), .affix t!"f " true, .lit (.str t!"x\ty"),
      .affix t!"g" true, .lit (.char 'A'), .arrow] :=
  TLex.has_iff.1 (TLex.Has.of_tokens (n := 20) (by decide +kernel) (by decide) (by simp))

/-- The hypothesis of C95 holds for that text. -/
example : NoLFCR t!"a₁b 12 'f \"x\\ty\" ~{c}~ `g` '\\u41') -> ~~ end" := by
  intro h; exact absurd (h.subset (by simp : '\n' ∈ ['\n', '\r'])) (by decide)

/-- C95 has content: a text whose first letter is a capital is not derived at all. -/
example (ts : List Token) : ¬ Tokenizes t!"Ab" ts := by
  intro h
  have := (TLex.has_iff.2 h).tokens (ts.length) (Nat.le_refl _)
  have h0 : TLex.lex t!"Ab" = .error .identAssert := by decide +kernel
  unfold TLex.tokens at this
  rw [h0] at this
  cases this

/-- C96 is about programs such as this one, which is accepted. -/
example : '\n' ∉ t!"\\x -> x + 1; f 'c'" ∧
    ∃ ast l', parse t!"\\x -> x + 1; f 'c'" = .ok ast l' := by
  refine ⟨by decide, ?_⟩
  have h : (parse t!"\\x -> x + 1; f 'c'").value? =
      some (Ast.ofDecls [.expr (.lam (.var t!"x") (.bin (.var (.lower t!"x")) (.standard t!"+")
        (.lit (.int 1)))), .expr (.app (.var (.lower t!"f")) (.lit (.char 'c')))]) := by
    decide +kernel
  cases hp : parse t!"\\x -> x + 1; f 'c'" with
  | ok ast l' => exact ⟨ast, l', rfl⟩
  | _ => rw [hp] at h; cases h

end
end Pemdas
