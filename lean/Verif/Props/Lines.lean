import Verif.Lemmas.Lines
import Verif.Props.Ledger
/-
C171: lines are read one by one.
-/
namespace Pemdas
open Session Resolver

section
variable [CharTables] [LawfulTables]

/-- **C171** (part that holds) A text of lines each of which is a program by itself is the program of all
their declarations, if no line begins with an argument whose end is further to the right than the end of
the first token of the line before. (Missing: the lines for which it is false, see `C171_lines_wrong`, and
lines that end in a character given by its code or in a promoted name of one character.) -/
theorem C171_lines_partial {ls : List SourceLine} {last : SourceLine} (h : ∀ x ∈ ls ++ [last], x.Fine)
    (ha : AllApart (ls ++ [last])) :
    ∃ l, parse (withEol t!"\n" (ls.map (·.text)) last.text) =
      .ok (Ast.ofDecls ((ls ++ [last]).flatMap (·.decls))) l := by
  obtain ⟨h1, h2, _⟩ := each_placed (h last (by simp)) (ls := ls) fun x hx => h x (by simp [hx])
  exact (C96_texts h2 _).2 ⟨_, _, h1, each_written h ha, rfl⟩

/-- **C171** Fixity declarations can always be written in lines: what comes after a line of them is not
taken for a part of it. -/
theorem C171_declarations {ls : List SourceLine} {last : SourceLine} (h : ∀ x ∈ ls ++ [last], x.Fine)
    (hd : ∀ x ∈ ls, ∀ e, .expr e ∉ x.decls) :
    ∃ l, parse (withEol t!"\n" (ls.map (·.text)) last.text) =
      .ok (Ast.ofDecls ((ls ++ [last]).flatMap (·.decls))) l := by
  refine C171_lines_partial h ?_
  rintro a x b y c hs - ⟨e, he⟩
  have hx : x ∈ ls := by
    have h1 : ls = a ++ x :: (b ++ y :: c).dropLast := by
      have := congrArg List.dropLast hs
      rw [List.dropLast_concat] at this
      rw [this, show a ++ x :: b ++ y :: c = (a ++ [x]) ++ (b ++ y :: c) by simp,
        List.dropLast_append_of_ne_nil (by simp)]
      simp
    rw [h1]; simp
  exact absurd (List.mem_of_getLast? he) (hd x hx e)

omit [LawfulTables] in
private theorem feed_decls {s : Session} (hw : s.resolver.fixities.Wf) (he : s.resolver.errors = []) {src : Text}
    {ds : List Decl} {l : Lexer} (hp : parse src = .ok (Ast.ofDecls ds) l) (hd : ∀ e, .expr e ∉ ds) :
    feedInput s src = .ok (.ok (Ast.ofDecls ds), { s with
      resolver := ⟨loadDecls s.resolver.fixities (ds.filterMap Decl.asInfix?), []⟩ }) := by
  have h0 : ds.filterMap Decl.asExpr? = [] := by
    simp only [List.filterMap_eq_nil_iff]
    intro d hx
    cases d with
    | infix_ d => rfl
    | expr e => exact absurd hx (hd e)
  rw [Ast.ofDecls_eq, h0] at hp ⊢
  unfold feedInput
  simp only [hp, loadFixities, resolveAst, visitAst, walkList, he, loadDecls_twice hw, bind, Except.bind, if_true]

/-- **C171** Declaring line by line is declaring all at once: whatever has happened before, feeding the lines
of a text of fixity declarations one by one has the same effect as feeding the text (as loading it from a
file does). -/
theorem C171_fed {s : Session} {log : List Event} (hh : History s log) {ls : List SourceLine} {last : SourceLine}
    (h : ∀ x ∈ ls ++ [last], x.Fine) (hd : ∀ x ∈ ls ++ [last], ∀ e, .expr e ∉ x.decls) :
    ∃ s' ast, feedInput s (withEol t!"\n" (ls.map (·.text)) last.text) = .ok (.ok ast, s') ∧
      FedAll s ((ls ++ [last]).map (·.text)) s' := by
  obtain ⟨l, hp⟩ := C171_declarations h fun x hx => hd x (by simp [hx])
  have hw : s.resolver.fixities.Wf := (history_books hh).1
  have he := C14_no_pending_error hh
  refine ⟨_, _, feed_decls hw he hp ?_, ?_⟩
  · intro e hm
    obtain ⟨x, hx, hm⟩ := List.mem_flatMap.1 hm
    exact hd x hx e hm
  · clear hp
    generalize ls ++ [last] = xs at h hd
    obtain ⟨⟨m, es⟩, b, p, q⟩ := s
    simp only at hw he ⊢
    subst he
    clear hh
    induction xs generalizing m with
    | nil => exact .nil
    | cons x xs ih =>
      obtain ⟨l, hp⟩ := (h x (by simp)).reads
      refine .cons (feed_decls (s := ⟨⟨m, []⟩, b, p, q⟩) hw rfl hp (hd x (by simp))) ?_
      have := ih (fun y hy => h y (by simp [hy])) (fun y hy => hd y (by simp [hy]))
        (loadDecls m (x.decls.filterMap Decl.asInfix?)) (wf_loadDecls hw _)
      have e : ∀ (m : Fixities) (a b : List InfixDecl), loadDecls m (a ++ b) = loadDecls (loadDecls m a) b := by
        intro m a b
        induction a generalizing m with
        | nil => rfl
        | cons d a ih => exact ih _
      simpa [e] using this

end

section
attribute [local instance] asciiTables asciiTables_lawful

/-- C171 is false in general: of these two lines, which begin in the same column, the second is an argument of
the first, because its first word is longer. -/
theorem C171_lines_wrong : ∃ (x y : SourceLine) (l : Lexer), x.Fine ∧ y.Fine ∧ x.text = t!"f" ∧ y.text = t!"goo" ∧
    x.decls ++ y.decls = [.expr (.var (.lower t!"f")), .expr (.var (.lower t!"goo"))] ∧
    parse (withEol t!"\n" [x.text] y.text) =
      .ok (Ast.ofDecls [.expr (.app (.var (.lower t!"f")) (.var (.lower t!"goo")))]) l := by
  obtain ⟨l1, h1⟩ := of_value (src := t!"f") (ast := ⟨[.expr], [], [.var (.lower t!"f")]⟩) (by decide +kernel)
  obtain ⟨l2, h2⟩ := of_value (src := t!"goo") (ast := ⟨[.expr], [], [.var (.lower t!"goo")]⟩)
    (by decide +kernel)
  obtain ⟨l3, h3⟩ := of_value (src := t!"f\ngoo")
    (ast := ⟨[.expr], [], [.app (.var (.lower t!"f")) (.var (.lower t!"goo"))]⟩) (by decide +kernel)
  exact ⟨⟨t!"f", [(.lower t!"f", 2)], [.expr (.var (.lower t!"f"))]⟩,
    ⟨t!"goo", [(.lower t!"goo", 4)], [.expr (.var (.lower t!"goo"))]⟩, l3,
    ⟨by decide, by decide, noCodeEnd_of_last (by decide), by rintro x ⟨⟩,
      lexes_of 9 (by decide +kernel) (by decide), l1, h1⟩,
    ⟨by decide, by decide, noCodeEnd_of_last (by decide), by rintro x ⟨⟩,
      lexes_of 9 (by decide +kernel) (by decide), l2, h2⟩, rfl, rfl, rfl, h3⟩

/-- C171 is false for lines that end in a promoted name of one character: followed by another line it is another
operator, whose name ends with the line end. -/
theorem C171_short_wrong :
    (parse t!"infixl 5 'f").value? = some (Ast.ofDecls [.infix_ ⟨[.promoted t!"f"], ⟨5, .left⟩⟩]) ∧
    (parse t!"infixl 6 +").value? = some (Ast.ofDecls [.infix_ ⟨[opPlus], ⟨6, .left⟩⟩]) ∧
    (parse (withEol t!"\n" [t!"infixl 5 'f"] t!"infixl 6 +")).value? =
      some (Ast.ofDecls [.infix_ ⟨[.promoted t!"f\n"], ⟨5, .left⟩⟩, .infix_ ⟨[opPlus], ⟨6, .left⟩⟩]) := by
  decide +kernel

private theorem fine_of {x : SourceLine} (n : Nat) (h1 : '\n' ∉ x.text) (h2 : x.text.head? ≠ some '\r')
    (h3 : x.text.getLast? ≠ some '\'') (h4 : NoShortEnd (x.toks.map (·.1)))
    (h5 : (Lexer.items n (Lexer.new x.text)).toOption.map (fun xs => (decide (xs.length < n),
      xs.map fun y => (y.1, y.2.hi.col))) = some (true, x.toks))
    (h6 : (parse x.text).value? = some (Ast.ofDecls x.decls)) : x.Fine := by
  obtain ⟨l, h⟩ := of_value h6
  refine ⟨h1, h2, noCodeEnd_of_last h3, h4, ?_, l, h⟩
  cases hi : Lexer.items n (Lexer.new x.text) with
  | error e => rw [hi] at h5; cases h5
  | ok xs =>
    rw [hi] at h5
    simp only [Except.toOption, Option.map_some, Option.some.injEq, Prod.mk.injEq, decide_eq_true_eq] at h5
    exact ⟨xs, n, h5.1, hi, h5.2.symm⟩

/-- Comparing lines two by two, `b` being the lines after `x`. -/
private def apartAll : List SourceLine → Bool
  | [] => true
  | x :: b => b.all (fun y => match y.toks with
      | [] => true
      | (t, k) :: _ => !t.startsArg || k ≤ firstCol x.toks || match x.decls.getLast? with
        | some (.expr _) => false
        | _ => true) && apartAll b

private theorem allApart_of {ls : List SourceLine} (h : apartAll ls = true) : AllApart ls := by
  rintro a x b y c rfl -
  have h1 : apartAll (x :: b ++ y :: c) = true := by
    induction a with
    | nil => exact h
    | cons z a ih => exact ih (by simp only [List.cons_append, apartAll, Bool.and_eq_true] at h; exact h.2)
  simp only [List.cons_append, apartAll, Bool.and_eq_true, List.all_eq_true] at h1
  have h2 := h1.1 y (by simp)
  rintro ⟨e, he⟩ - t k ht hs
  cases hy : y.toks with
  | nil => rw [hy] at ht; cases ht
  | cons q qs =>
    rw [hy] at h2 ht
    obtain ⟨t', k'⟩ := q
    cases ht
    simpa [he, hs] using h2

/-- C171: lines of declarations, with an empty line between them and a comment; and an expression, which is
followed by another one that begins with a word that is not longer. -/
example : ∃ x y z w v : SourceLine, (∀ u ∈ [x, y, z, w, v], u.Fine) ∧ AllApart [x, y, z, w, v] ∧
    (∀ u ∈ [x, y, z], ∀ e, .expr e ∉ u.decls) ∧
    withEol t!"\n" ([x, y, z, w].map (·.text)) v.text =
      t!"infixl 6 +, -\n\ninfixr 5 'ff ~~ f\na + b\nc" := by
  refine ⟨⟨t!"infixl 6 +, -", [(.infixL, 7), (.lit (.int 6), 9), (.affix t!"+" false, 11), (.comma, 12), (.dash, 14)],
      [.infix_ ⟨[opPlus, .standard t!"-"], ⟨6, .left⟩⟩]⟩, ⟨[], [], []⟩,
    ⟨t!"infixr 5 'ff ~~ f", [(.infixR, 7), (.lit (.int 5), 9), (.affix t!"ff" true, 13)],
      [.infix_ ⟨[.promoted t!"ff"], ⟨5, .right⟩⟩]⟩,
    ⟨t!"a + b", [(.lower t!"a", 2), (.affix t!"+" false, 4), (.lower t!"b", 6)], [.expr (.bin exA opPlus exB)]⟩,
    ⟨t!"c", [(.lower t!"c", 2)], [.expr exC]⟩, ?_, allApart_of (by decide), ?_, by decide⟩
  · intro u hu
    simp only [List.mem_cons, List.not_mem_nil, or_false] at hu
    rcases hu with rfl | rfl | rfl | rfl | rfl
    all_goals
      refine fine_of 9 ?_ ?_ ?_ ?_ ?_ ?_
      · decide
      · decide
      · decide
      · rintro x ⟨⟩ <;> decide
      · decide +kernel
      · decide +kernel
  · intro u hu e
    simp only [List.mem_cons, List.not_mem_nil, or_false] at hu
    rcases hu with rfl | rfl | rfl <;> simp

end
end Pemdas
