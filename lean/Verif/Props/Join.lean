import Verif.Lemmas.Join
import Verif.Props.Spellings
/-
C95 and C96 with columns. C111 where whitespace and comments do not matter. C112 a semicolon joins
two programs.
-/
namespace Pemdas
open Lexer

section
variable [CharTables] [LawfulTables]

/-! ### C95 and C96 with columns -/

/-- C95: the lexer yields the tokens of a text without a panic and without an error, ending at
these columns, exactly if the lexical grammar derives them with these columns. -/
theorem C95_columns {src : Text} (hc : NoLFCR src) (cs : List CTok) :
    (Lexes src cs ∧ ∀ e, .error e ∉ cs.map (·.1)) ↔ Placed [] src cs := lexes_iff_placed hc cs

/-- C96: which texts, on any number of lines, are programs, and for which declarations, from
characters to syntax tree, by the two grammars alone. -/
theorem C96_texts {src : Text} (hc : NoLFCR src) (ast : Ast) :
    (∃ l', parse src = .ok ast l') ↔
      ∃ cs ds, Placed [] src cs ∧ WrittenProg ds cs ∧ ast = Ast.ofDecls ds := by
  rw [C96_programs hc]
  constructor
  · rintro ⟨cs, ds, h1, _, h2, h3⟩
    exact ⟨cs, ds, (C95_columns hc cs).1 ⟨h1, fun e hm => h2.sound _ hm e rfl⟩, h2, h3⟩
  · rintro ⟨cs, ds, h1, h2, h3⟩
    exact ⟨cs, ds, h1.lexes hc, h1.tokenizes, h2, h3⟩

/-! ### C111 -/

/-- C111: texts on one line that consist of the same tokens are accepted alike: what is between the
tokens does not matter. -/
theorem C111_same_tokens {src src' : Text} (hn : '\n' ∉ src) (hn' : '\n' ∉ src') {ts : List Token}
    (h : Tokenizes src ts) (h' : Tokenizes src' ts) (ast : Ast) :
    (∃ l', parse src = .ok ast l') ↔ ∃ l', parse src' = .ok ast l' := by
  rw [C96_one_line_programs hn, C96_one_line_programs hn']
  constructor
  · rintro ⟨us, ds, h1, h2⟩; rw [C95_unambiguous h1 h] at h2; exact ⟨ts, ds, h', h2⟩
  · rintro ⟨us, ds, h1, h2⟩; rw [C95_unambiguous h1 h'] at h2; exact ⟨ts, ds, h, h2⟩

theorem Placed.blank_iff {g : Text} (hg : g.all isWhitespace = true) {pre s : Text}
    {cs : List CTok} : Placed pre (g ++ s) cs ↔ Placed (pre ++ g) s cs := by
  induction g generalizing pre with
  | nil => simp
  | cons c g ih =>
    simp only [List.all_cons, Bool.and_eq_true] at hg
    rw [List.cons_append, Placed.space_iff hg.1, ih hg.2]
    simp

theorem tokenizes_blank {g : Text} (hg : g.all isWhitespace = true) {s : Text} {ts : List Token} :
    Tokenizes (g ++ s) ts ↔ Tokenizes s ts := by
  constructor
  · intro h
    obtain ⟨cs, rfl, h2⟩ := h.placed []
    exact ((Placed.blank_iff hg).1 h2).tokenizes
  · intro h
    obtain ⟨cs, rfl, h2⟩ := h.placed ([] ++ g)
    exact h2.blank hg |>.tokenizes

/-- C111: blanks before a text of one line do not matter. -/
theorem C111_leading_blanks {g src : Text} (hg : g.all isWhitespace = true) (hn : '\n' ∉ g ++ src)
    (ast : Ast) : (∃ l', parse (g ++ src) = .ok ast l') ↔ ∃ l', parse src = .ok ast l' := by
  rw [C96_one_line_programs hn, C96_one_line_programs fun hm => hn (by simp [hm])]
  simp only [tokenizes_blank hg]

/-- C111: blank lines before a text do not matter, whatever its layout. -/
theorem C111_leading_lines {g src : Text} (hg : g.all isWhitespace = true)
    (hc : NoLFCR (g ++ '\n' :: src)) (ast : Ast) :
    (∃ l', parse (g ++ '\n' :: src) = .ok ast l') ↔ ∃ l', parse src = .ok ast l' := by
  rw [C96_texts hc, C96_texts (hc.infix ⟨g ++ ['\n'], [], by simp⟩)]
  have : ∀ cs, Placed [] (g ++ '\n' :: src) cs ↔ Placed [] src cs := by
    intro cs
    rw [Placed.blank_iff hg, Placed.space_iff (by decide), Placed.newline]
  simp only [this]

/-- C111: whitespace after a text does not matter, whatever its layout. (Missing: texts that end in
a character given by its code or in a promoted name of one character, for which it is false, see
`C111_trailing_wrong` and `C111_code_wrong`.) -/
theorem C111_trailing_partial {src g : Text} (hg : g.all isWhitespace = true)
    (hc : NoLFCR (src ++ g)) {ts : List Token} (ht : Tokenizes src ts) (hl : NoCodeEnd src)
    (he : NoShortEnd ts) (ast : Ast) :
    (∃ l', parse (src ++ g) = .ok ast l') ↔ ∃ l', parse src = .ok ast l' := by
  by_cases hne : g = []
  · rw [hne, List.append_nil]
  rw [C96_texts hc, C96_texts (hc.infix ⟨[], g, by simp⟩)]
  obtain ⟨cs', rfl, h2⟩ := ht.placed []
  have h3 : Placed [] (src ++ g) cs' := by
    have := h2.gap (r := []) (cs' := []) hg hne hl he (.inr (.inr ⟨by simp, rfl⟩)) .nil
    simpa using this
  constructor
  · rintro ⟨cs, ds, h4, h5⟩
    rw [h4.hasC.unique h3.hasC] at h5
    exact ⟨_, ds, h2, h5⟩
  · rintro ⟨cs, ds, h4, h5⟩
    rw [h4.hasC.unique h2.hasC] at h5
    exact ⟨_, ds, h3, h5⟩

/-- C111: whitespace at the end of a line, and blank lines after it, do not matter, whatever the
layout of the text before and after. (Missing: as for whitespace after a text.) -/
theorem C111_line_end_partial {a b g g' : Text} (hg : g.all isWhitespace = true)
    (hg' : g'.all isWhitespace = true) (hc : NoLFCR (a ++ g ++ '\n' :: b))
    (hc' : NoLFCR (a ++ g' ++ '\n' :: b)) {ts us : List Token} (ha : Tokenizes a ts)
    (hb : Tokenizes b us) (hl : NoCodeEnd a) (he : NoShortEnd ts) (ast : Ast) :
    (∃ l', parse (a ++ g ++ '\n' :: b) = .ok ast l') ↔
      ∃ l', parse (a ++ g' ++ '\n' :: b) = .ok ast l' := by
  obtain ⟨cs, rfl, h1⟩ := ha.placed []
  obtain ⟨cs', _, h2⟩ := hb.placed []
  have key : ∀ g : Text, g.all isWhitespace = true → Placed [] (a ++ g ++ '\n' :: b) (cs ++ cs') := by
    intro g hg
    have := h1.gap (g := g ++ ['\n']) (r := b) (cs' := cs') (by simp [hg]; decide) (by simp) hl he
      (.inl (by simp)) (by rw [← List.append_assoc]; exact Placed.newline.2 h2)
    simpa using this
  rw [C96_texts hc, C96_texts hc']
  constructor
  · rintro ⟨cs, ds, h4, h5⟩
    rw [h4.hasC.unique (key g hg).hasC] at h5
    exact ⟨_, ds, key g' hg', h5⟩
  · rintro ⟨cs, ds, h4, h5⟩
    rw [h4.hasC.unique (key g' hg').hasC] at h5
    exact ⟨_, ds, key g hg, h5⟩

/-- C111: how much whitespace there is between two parts of a line does not matter. (Missing: first
parts that end in a promoted name of one character.) -/
theorem C111_between_partial {a b g g' : Text} (hn : '\n' ∉ a ++ g ++ b) (hn' : '\n' ∉ g')
    (hg : g.all isWhitespace = true) (hne : g ≠ []) (hg' : g'.all isWhitespace = true)
    (hne' : g' ≠ []) {ts us : List Token} (ha : Tokenizes a ts) (hb : Tokenizes b us)
    (he : NoShortEnd ts) (ast : Ast) :
    (∃ l', parse (a ++ g ++ b) = .ok ast l') ↔ ∃ l', parse (a ++ g' ++ b) = .ok ast l' := by
  have hn2 : '\n' ∉ a ++ g' ++ b := by
    simp only [List.mem_append, not_or] at hn ⊢
    exact ⟨⟨hn.1.1, hn'⟩, hn.2⟩
  have hng : '\n' ∉ g := fun h => hn (by simp [h])
  rw [List.append_assoc, List.append_assoc] at *
  rcases ha.gap hb (fun h => hn (by simp [h])) (fun h => hn (by simp [h])) he with h | h
  · exact C111_same_tokens hn hn2 (h g hg hne hng) (h g' hg' hne' hn') ast
  · exact C111_same_tokens hn hn2 (h g hg hne hng) (h g' hg' hne' hn') ast

/-- C111: a comment at the end of a line, after a blank, does not matter. (Missing: lines that end
in a promoted name of one character.) -/
theorem C111_comment_partial {src b : Text} (hn : '\n' ∉ src) (hb : '\n' ∉ b) {ts : List Token}
    (ht : Tokenizes src ts) (he : NoShortEnd ts) (ast : Ast) :
    (∃ l', parse (src ++ t!" ~~ " ++ b) = .ok ast l') ↔ ∃ l', parse src = .ok ast l' := by
  have hcom : Tokenizes (t!"~~ " ++ b) [] := by
    have := Tokenizes.line (b := ' ' :: b) (s := []) (ts := []) (by simp [hb])
      (TLex.Maximal.of_head (by rintro c hc; cases hc; decide)) (by simp) .nil
    simpa using this
  refine C111_same_tokens (by simp [hn, hb]) hn ?_ ht ast
  rcases ht.gap hcom hn (by simp [hb]) he with h | h
  · simpa using h t!" " (by decide) (by simp) (by decide)
  · simpa using h t!" " (by decide) (by simp) (by decide)

/-! ### C112 -/

/-- C112: two programs on one line each, joined by a semicolon, are the program with the
declarations of the first and then those of the second; and nothing else is accepted. (Missing:
first programs that end in a comment or in a character given by its code, for which it is false, see
`C112_semicolon_wrong`, and those with two tildes in a literal or operator on their last line.) -/
theorem C112_semicolon_partial {a b : Text} (hn : '\n' ∉ a) (hn' : '\n' ∉ b) {ts : List Token}
    (ha : Tokenizes a ts) (hl : CleanEnd a) (hne : ts ≠ []) (he : ts.getLast? ≠ some .semi)
    (ds : List Decl) :
    (∃ l', parse (a ++ t!";" ++ b) = .ok (Ast.ofDecls ds) l') ↔
      ∃ ds₁ ds₂, ds = ds₁ ++ ds₂ ∧ (∃ l', parse a = .ok (Ast.ofDecls ds₁) l') ∧
        ∃ l', parse b = .ok (Ast.ofDecls ds₂) l' := by
  have hs : ∀ xs, Tokenizes (a ++ t!";" ++ b) xs ↔ ∃ us, xs = ts ++ .semi :: us ∧ Tokenizes b us := by
    intro xs
    obtain ⟨cs, h1, h2⟩ := ha.placed []
    have hse : isWhitespace ';' = true → NoShortEnd (cs.map (·.1)) := fun h => absurd h (by decide)
    have e : a ++ t!";" ++ b = a ++ ';' :: b := by simp
    rw [e]
    constructor
    · intro h
      obtain ⟨zs, rfl, h3⟩ := h.placed []
      obtain ⟨cs', rfl, h4⟩ := (h2.join_iff Seals.semi hl hse).1 h3
      obtain ⟨cs'', rfl, h5⟩ := Placed.semi_iff.1 h4
      exact ⟨_, by simp [h1], h5.tokenizes⟩
    · rintro ⟨us, rfl, h⟩
      obtain ⟨zs, rfl, h3⟩ := h.placed ([] ++ a ++ [';'])
      have := ((h2.join_iff Seals.semi hl hse).2 ⟨_, rfl, Placed.semi_iff.2 ⟨_, rfl, h3⟩⟩).tokenizes
      simpa [h1] using this
  rw [C96_one_line_programs (by simp [hn, hn'])]
  simp only [C96_one_line_programs hn, C96_one_line_programs hn', hs]
  constructor
  · rintro ⟨_, ds', ⟨us, rfl, h1⟩, h2, h3⟩
    cases ofDecls_inj h3
    obtain ⟨ds₁, ds₂, rfl, h4, h5⟩ := (LineProg.split_iff hne he).1 h2
    exact ⟨ds₁, ds₂, rfl, ⟨ts, ds₁, ha, h4, rfl⟩, us, ds₂, h1, h5, rfl⟩
  · rintro ⟨ds₁, ds₂, rfl, ⟨ts', d1, h1, h2, h3⟩, us, d2, h4, h5, h6⟩
    cases ofDecls_inj h3
    cases ofDecls_inj h6
    cases C95_unambiguous ha h1
    exact ⟨_, _, ⟨us, rfl, h4⟩, (LineProg.split_iff hne he).2 ⟨_, _, rfl, h2, h5⟩, rfl⟩

/-- C112: two programs of any number of lines, joined by a semicolon and a line break, are the
program with the declarations of the first and then those of the second; and nothing else is
accepted. (Missing: as for one line.) -/
theorem C112_lines_partial {a b : Text} (hc : NoLFCR (a ++ t!";\n" ++ b)) {ts : List Token}
    (ha : Tokenizes a ts) (hl : CleanEnd a) (hne : ts ≠ []) (he : ts.getLast? ≠ some .semi)
    (ds : List Decl) :
    (∃ l', parse (a ++ t!";\n" ++ b) = .ok (Ast.ofDecls ds) l') ↔
      ∃ ds₁ ds₂, ds = ds₁ ++ ds₂ ∧ (∃ l', parse a = .ok (Ast.ofDecls ds₁) l') ∧
        ∃ l', parse b = .ok (Ast.ofDecls ds₂) l' := by
  obtain ⟨cs, h1, h2⟩ := ha.placed []
  have hs : ∀ xs, Placed [] (a ++ t!";\n" ++ b) xs ↔
      ∃ us, xs = cs ++ (.semi, colAfter (a ++ [';'])) :: us ∧ Placed [] b us := by
    intro xs
    have hse : isWhitespace ';' = true → NoShortEnd (cs.map (·.1)) := fun h => absurd h (by decide)
    have e : a ++ t!";\n" ++ b = a ++ ';' :: '\n' :: b := by simp
    rw [e, h2.join_iff Seals.semi hl hse]
    simp only [Placed.semi_iff, Placed.space_iff (show isWhitespace '\n' = true by decide),
      Placed.newline, List.nil_append]
    constructor
    · rintro ⟨_, rfl, us, rfl, h⟩; exact ⟨us, rfl, h⟩
    · rintro ⟨us, rfl, h⟩; exact ⟨_, rfl, us, rfl, h⟩
  have hca : NoLFCR a := hc.infix ⟨[], t!";\n" ++ b, by simp⟩
  have hcb : NoLFCR b := hc.infix ⟨a ++ t!";\n", [], by simp⟩
  have hne' : cs ≠ [] := by rintro rfl; exact hne h1.symm
  rw [C96_texts hc]
  simp only [C96_texts hca, C96_texts hcb, hs]
  constructor
  · rintro ⟨_, ds', ⟨us, rfl, h1⟩, h3, h4⟩
    cases ofDecls_inj h4
    obtain ⟨ds₁, ds₂, rfl, h5, h6, _⟩ := h3.split rfl
    exact ⟨ds₁, ds₂, rfl, ⟨cs, ds₁, h2, h5, rfl⟩, us, ds₂, h1, h6, rfl⟩
  · rintro ⟨ds₁, ds₂, rfl, ⟨ts', d1, h3, h4, h5⟩, us, d2, h6, h7, h8⟩
    cases ofDecls_inj h5
    cases ofDecls_inj h8
    cases h2.hasC.unique h3.hasC
    exact ⟨_, _, ⟨us, rfl, h6⟩, h4.join h7 hne' (by rw [h1]; exact he), rfl⟩

/-- C112: a program does not begin with a semicolon, and no semicolon follows another one. -/
theorem C112_no_empty_declarations {src : Text} (hc : NoLFCR src) {ts : List Token}
    (h : Tokenizes src ts) {us vs : List Token} (he : ts = us ++ .semi :: vs)
    (hu : us = [] ∨ us.getLast? = some .semi) (ast : Ast) : ¬ ∃ l', parse src = .ok ast l' := by
  rw [C96_texts hc]
  rintro ⟨cs, ds, h1, h2, -⟩
  have h3 : cs.map (·.1) = us ++ .semi :: vs := (C95_unambiguous h1.tokenizes h).trans he
  obtain ⟨as, bs, rfl, ha, hb⟩ := List.map_eq_append_iff.1 h3
  obtain ⟨x, ys, rfl, hx, _⟩ := List.map_eq_cons_iff.1 hb
  obtain ⟨t, k⟩ := x
  cases hx
  obtain ⟨_, _, _, _, _, h4, h5⟩ := h2.split rfl
  rcases hu with rfl | hu
  · exact h4 (by simpa using ha)
  · exact h5 (by rw [ha]; exact hu)

end

/-! ### What does matter, and examples -/

section
attribute [local instance] asciiTables asciiTables_lawful

/-- C111 is false for texts that end in a promoted name of one character: a blank after them is
part of the name. -/
theorem C111_trailing_wrong : ∃ src ast ast' l l', parse src = .ok ast l ∧
    parse (src ++ t!" ") = .ok ast' l' ∧ ast ≠ ast' := by
  obtain ⟨l, h⟩ := of_value (src := t!"infixl 6 'f")
    (ast := ⟨[.infix_], [⟨[.promoted t!"f"], ⟨6, .left⟩⟩], []⟩) (by decide +kernel)
  obtain ⟨l', h'⟩ := of_value (src := t!"infixl 6 'f ")
    (ast := ⟨[.infix_], [⟨[.promoted t!"f "], ⟨6, .left⟩⟩], []⟩) (by decide +kernel)
  exact ⟨_, _, _, l, l', h, h', by decide⟩

/-- C111 is false for texts that end in a character given by its code: a blank after it moves it by
one column, which may be what makes it part of the declaration before. -/
theorem C111_code_wrong : ∃ src ast ast' l l', parse src = .ok ast l ∧
    parse (src ++ t!" ") = .ok ast' l' ∧ ast ≠ ast' := by
  obtain ⟨l, h⟩ := of_value (src := t!"abcdef\n'\\u41'")
    (ast := ⟨[.expr, .expr], [], [.var (.lower t!"abcdef"), .lit (.char 'A')]⟩) (by decide +kernel)
  obtain ⟨l', h'⟩ := of_value (src := t!"abcdef\n'\\u41' ")
    (ast := ⟨[.expr], [], [.app (.var (.lower t!"abcdef")) (.lit (.char 'A'))]⟩) (by decide +kernel)
  exact ⟨_, _, _, l, l', h, h', by decide⟩

/-- C111 is false for comments: without a blank after it, a comment removes a character of what
follows. -/
theorem C111_comment_wrong : ∃ a b ast ast' l l', parse (a ++ t!" " ++ b) = .ok ast l ∧
    parse (a ++ b) = .ok ast' l' ∧ a = t!"f ~{c}~" ∧ ast ≠ ast' := by
  obtain ⟨l, h⟩ := of_value (src := t!"f ~{c}~ xy")
    (ast := ⟨[.expr], [], [.app (.var (.lower t!"f")) (.var (.lower t!"xy"))]⟩) (by decide +kernel)
  obtain ⟨l', h'⟩ := of_value (src := t!"f ~{c}~xy")
    (ast := ⟨[.expr], [], [.app (.var (.lower t!"f")) (.var (.lower t!"y"))]⟩) (by decide +kernel)
  exact ⟨t!"f ~{c}~", t!"xy", _, _, l, l', h, h', rfl, by decide⟩

/-- C111 is false for more than one line: the blanks before the first token of a line decide what
it belongs to. -/
theorem C111_lines_wrong : ∃ a b ast ast' l l', parse (a ++ t!"\n" ++ b) = .ok ast l ∧
    parse (a ++ t!"\n " ++ b) = .ok ast' l' ∧ ast ≠ ast' := by
  obtain ⟨l, h⟩ := of_value (src := t!"f\nx")
    (ast := ⟨[.expr, .expr], [], [.var (.lower t!"f"), .var (.lower t!"x")]⟩) (by decide +kernel)
  obtain ⟨l', h'⟩ := of_value (src := t!"f\n x")
    (ast := ⟨[.expr], [], [.app (.var (.lower t!"f")) (.var (.lower t!"x"))]⟩) (by decide +kernel)
  exact ⟨t!"f", t!"x", _, _, l, l', h, h', by decide⟩

/-- C112 is false for programs that end in a comment or in a character given by its code: the
semicolon is lost. -/
theorem C112_semicolon_wrong :
    (∃ a b l l₁ l₂, a = t!"f ~{c}~" ∧ b = t!"x" ∧
      parse a = .ok ⟨[.expr], [], [.var (.lower t!"f")]⟩ l₁ ∧
      parse b = .ok ⟨[.expr], [], [.var (.lower t!"x")]⟩ l₂ ∧
      parse (a ++ t!";" ++ b) =
        .ok ⟨[.expr], [], [.app (.var (.lower t!"f")) (.var (.lower t!"x"))]⟩ l) ∧
    ∃ a b l l₁ l₂, a = t!"'\\u41'" ∧ b = t!"x" ∧
      parse a = .ok ⟨[.expr], [], [.lit (.char 'A')]⟩ l₁ ∧
      parse b = .ok ⟨[.expr], [], [.var (.lower t!"x")]⟩ l₂ ∧
      parse (a ++ t!";" ++ b) =
        .ok ⟨[.expr], [], [.app (.lit (.char 'A')) (.var (.lower t!"x"))]⟩ l := by
  obtain ⟨l₂, h₂⟩ := of_value (src := t!"x")
    (ast := ⟨[.expr], [], [.var (.lower t!"x")]⟩) (by decide +kernel)
  obtain ⟨l₁, h₁⟩ := of_value (src := t!"f ~{c}~")
    (ast := ⟨[.expr], [], [.var (.lower t!"f")]⟩) (by decide +kernel)
  obtain ⟨l, h⟩ := of_value (src := t!"f ~{c}~;x")
    (ast := ⟨[.expr], [], [.app (.var (.lower t!"f")) (.var (.lower t!"x"))]⟩) (by decide +kernel)
  obtain ⟨l₁', h₁'⟩ := of_value (src := t!"'\\u41'")
    (ast := ⟨[.expr], [], [.lit (.char 'A')]⟩) (by decide +kernel)
  obtain ⟨l', h'⟩ := of_value (src := t!"'\\u41';x")
    (ast := ⟨[.expr], [], [.app (.lit (.char 'A')) (.var (.lower t!"x"))]⟩) (by decide +kernel)
  exact ⟨⟨_, _, l, l₁, l₂, rfl, rfl, h₁, h₂, h⟩, _, _, l', l₁', l₂, rfl, rfl, h₁', h₂, h'⟩

/-- Columns are those of the end of a token. -/
example : Placed [] t!"ab\n c" [(.lower t!"ab", 3), (.lower t!"c", 3)] := by
  refine (lexes_iff_placed (by unfold NoLFCR; decide) _).1 ⟨⟨_, 3, ?_, rfl, rfl⟩, by simp⟩
  decide

/-- The hypotheses of C111 are met. -/
example : Tokenizes t!"f (x  + 1)" [.lower t!"f", .parenL, .lower t!"x", .affix t!"+" false,
      .lit (.int 1), .parenR] ∧
    Tokenizes t!"f(x+1)" [.lower t!"f", .parenL, .lower t!"x", .affix t!"+" false,
      .lit (.int 1), .parenR] ∧
    Tokenizes t!"f ~{c}~ x ~~ y" [.lower t!"f", .lower t!"x"] ∧
    NoCodeEnd t!"f (x  + 1)" ∧ NoCodeEnd t!"f ~{c}~ x ~~ y" ∧ NoShortEnd [.lower t!"f", .parenR] :=
  ⟨exTokens 9 (by decide +kernel) (by decide) (by simp),
    exTokens 9 (by decide +kernel) (by decide) (by simp),
    exTokens 9 (by decide +kernel) (by decide) (by simp),
    noCodeEnd_of_last (by decide), noCodeEnd_of_last (by decide), by simp [NoShortEnd]⟩

/-- Whitespace at the end of a line: both sides are accepted. -/
example : (∃ l, parse (t!"f ~{c}~" ++ [] ++ '\n' :: t!" x") = .ok ⟨[.expr], [],
      [.app (.var (.lower t!"f")) (.var (.lower t!"x"))]⟩ l) ∧
    ∃ l, parse (t!"f ~{c}~" ++ t!" \n \n\t" ++ '\n' :: t!" x") = .ok ⟨[.expr], [],
      [.app (.var (.lower t!"f")) (.var (.lower t!"x"))]⟩ l :=
  ⟨of_value (by decide +kernel), of_value (by decide +kernel)⟩

/-- Both sides of C111 are accepted. -/
example : (∃ l, parse t!"f(x+1)" = .ok ⟨[.expr], [], [.app (.var (.lower t!"f"))
    (.grp (.bin (.var (.lower t!"x")) (.standard t!"+") (.lit (.int 1))))]⟩ l) ∧
    NoLFCR t!" \t\n\n  f\n x" :=
  ⟨of_value (by decide +kernel), by unfold NoLFCR; decide⟩

/-- The hypotheses of C112 are met, and both sides are accepted. -/
example : Tokenizes t!"infixl 6 +" [.infixL, .lit (.int 6), .affix t!"+" false] ∧
    CleanEnd t!"infixl 6 +" ∧ CleanEnd t!"f ~{c}~ '\\u41' x" ∧
    (∃ l, parse t!"infixl 6 +;x + 1" = .ok (Ast.ofDecls
      ([.infix_ ⟨[.standard t!"+"], ⟨6, .left⟩⟩] ++
       [.expr (.bin (.var (.lower t!"x")) (.standard t!"+") (.lit (.int 1)))])) l) ∧
    ∃ l, parse t!"f\n x;\ng\n y" = .ok (Ast.ofDecls
      ([.expr (.app (.var (.lower t!"f")) (.var (.lower t!"x")))] ++
       [.expr (.app (.var (.lower t!"g")) (.var (.lower t!"y")))])) l :=
  ⟨exTokens 9 (by decide +kernel) (by decide) (by simp), cleanEnd_of_last (by decide) (by decide) (by decide),
    cleanEnd_of_last (by decide) (by decide) (by decide), of_value (by decide +kernel), of_value (by decide +kernel)⟩

/-- Empty declarations: the hypotheses are met. -/
example : Tokenizes t!"f;;x" ([.lower t!"f", .semi] ++ .semi :: [.lower t!"x"]) :=
  exTokens 9 (by decide +kernel) (by decide) (by simp)

end
end Pemdas
