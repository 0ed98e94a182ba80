import Verif.Lemmas.Reprint
import Verif.Lemmas.ReprintSource
import Verif.Props.ParserShapes
import Verif.Props.Printer
/-
C46 reading back what is printed.
-/
namespace Pemdas
open Printer Resolver Lexer

section
variable [CharTables] [LawfulTables]

omit [LawfulTables] in
/-- A text on one line and its tokens. -/
theorem lexes_has {src : Text} {ts : List Token} (hn : '\n' ∉ src) (h : TLex.Has src ts) :
    ∃ cs, Lexes src cs ∧ cs.map (·.1) = ts := by
  have hc : NoLFCR src := fun hi => hn (hi.subset (by simp))
  have hch : (Lexer.new src).chars = src.dropWhile isWhitespace := by
    have h0 : Sync (⟨src, src, none, 1, 1, 0, Loc.default⟩ : Lexer) :=
      ⟨⟨[], ⟨rfl, rfl, by simp⟩⟩, hc⟩
    exact h0.eatWhitespace
  have hi := (sync_new hc).items (n := ts.length + 1)
  rw [hch, h.dropWhile.tokens _ (Nat.le_refl _)] at hi
  unfold noLocs at hi
  cases hx : items (ts.length + 1) (Lexer.new src) with
  | error p => rw [hx] at hi; cases hi
  | ok xs =>
    rw [hx] at hi
    simp only [Except.map, Except.ok.injEq] at hi
    have hs : xs.map (·.1) = ts := by
      rw [← hi]
      apply List.map_congr_left
      intro x hm
      have hne := h.noError
      rw [← hi] at hne
      cases he : x.1 with
      | error e =>
        exact absurd (List.mem_map.2 ⟨x, hm, by rw [he]; rfl⟩) (hne e.noLoc)
      | _ => rfl
    refine ⟨xs.map fun x => (x.1, x.2.hi.col), ⟨xs, _, ?_, hx, rfl⟩, by simpa [Function.comp_def] using hs⟩
    rw [← hs]; simp

/-- C46, part that holds (expressions whose names, operators, literals and patterns can be read
back, and in which no lambda or `let` is applied; infix expressions may be grouped in any way):
what is printed for an expression, without the colours, is parsed as a single expression that
differs only in parentheses and missing `let` declarations. Resolving that expression does not
change it and reports no error, whatever the table of fixities. (Missing: other expressions, for
which it is false, see `C46_..._wrong` below.) -/
theorem C46_reparse_partial {e : Expr} (h : e.Rereads) (m : Fixities) :
    ∃ t e' l', writeExpr m e = .ok t ∧ parse (Term.visible t) = .ok ⟨[.expr], [], [e']⟩ l' ∧
      e'.skeleton = e.skeleton ∧
      ∀ m' : Fixities, visit ⟨m', []⟩ e' = .ok (⟨m', []⟩, e') ∧
        resolveAst ⟨m', []⟩ ⟨[.expr], [], [e']⟩ = .ok (⟨m', []⟩, ⟨[.expr], [], [e']⟩, []) := by
  have hn := h.names
  have hg := ppGo_good e 0 none hn.2
  obtain ⟨ts, ⟨h1, h2⟩, h3, _⟩ := (expr_shows e h).1 0
  have hvis : Term.visible (render (ppGo 0 none e)) = plain (ppGo 0 none e) := by
    unfold Term.visible
    rw [run_render hg.1, screen_plain]
  obtain ⟨cs, hl, rfl⟩ := lexes_has h1 (by
    have := h2 [] [] .nil (.nil (r := []) rfl)
    simpa using this)
  obtain ⟨l', hp⟩ := (C81_one_line h1 ⟨[.expr], [], [e.shown false false]⟩).2 ⟨cs, [.expr (e.shown false false)], hl, by
    have := LineProg.expr false h3 .nil (fun _ => trivial)
    simpa using this, rfl⟩
  have hv : ∀ m' : Fixities, visit ⟨m', []⟩ (e.shown false false) = .ok (⟨m', []⟩, e.shown false false) := by
    intro m'
    obtain ⟨g, d⟩ := shown_grouped e false false m'.get
    exact grouped_vis _ m' d g []
  refine ⟨_, e.shown false false, l', writeExpr_noNeg m hn.1, by rw [show pp e = ppGo 0 none e from rfl, hvis]; exact hp,
    shown_skeleton e false false, fun m' => ⟨hv m', ?_⟩⟩
  simp [resolveAst, visitAst, loadDecls, walkList, hv, bind, Except.bind]

/-- C46 for what is printed for any source in which no lambda or `let` is applied, whatever the
fixities used and whether or not errors are reported: names, operators, literals and patterns must be
such that they can be read back. -/
theorem C46_lines_partial {src : Text} {ast : Ast} {l' : Lexer}
    (h : parse src = .ok ast l') (hb : ∀ x ∈ ast.exprs, x.BodiesLast true)
    {r r' : Resolver} {ast' : Ast} {errs : List AssocError}
    (hr : resolveAst r ast = .ok (r', ast', errs)) {e : Expr} (he : e ∈ ast'.exprs)
    (hp : e.PlainParts) (m : Fixities) :
    ∃ t e' l', writeExpr m e = .ok t ∧ parse (Term.visible t) = .ok ⟨[.expr], [], [e']⟩ l' ∧
      e'.skeleton = e.skeleton ∧
      ∀ m' : Fixities, visit ⟨m', []⟩ e' = .ok (⟨m', []⟩, e') ∧
        resolveAst ⟨m', []⟩ ⟨[.expr], [], [e']⟩ = .ok (⟨m', []⟩, ⟨[.expr], [], [e']⟩, []) := by
  obtain ⟨x, hx, hs⟩ := resolveAst_exprs (P := SameShape) visit_shape hr e he
  have hw : x.WellApplied := (C40_shape h x hx).wellApplied (hb x hx)
  exact C46_reparse_partial ((hs.2.2.2.2 hw).rereads hp) m

/-- C46 for what is printed for sources on one line, where no lambda or `let` is applied. -/
theorem C46_source_partial {src : Text} (hn : '\n' ∉ src) {ast : Ast} {l' : Lexer}
    (h : parse src = .ok ast l') {r r' : Resolver} {ast' : Ast} {errs : List AssocError}
    (hr : resolveAst r ast = .ok (r', ast', errs)) {e : Expr} (he : e ∈ ast'.exprs)
    (hp : e.PlainParts) (m : Fixities) :
    ∃ t e' l', writeExpr m e = .ok t ∧ parse (Term.visible t) = .ok ⟨[.expr], [], [e']⟩ l' ∧
      e'.skeleton = e.skeleton ∧
      ∀ m' : Fixities, visit ⟨m', []⟩ e' = .ok (⟨m', []⟩, e') ∧
        resolveAst ⟨m', []⟩ ⟨[.expr], [], [e']⟩ = .ok (⟨m', []⟩, ⟨[.expr], [], [e']⟩, []) :=
  C46_lines_partial h (C42_never_applied_on_line hn h) hr he hp m

end

/-! ### concrete cases -/

section
attribute [local instance] asciiTables asciiTables_lawful

/-- What is printed for an expression, without colours. -/
private def shownText (e : Expr) : Option Text := (writeExpr [] e).toOption.map Term.visible

/-- The expressions read from what is printed for an expression. -/
private def reread (e : Expr) : Option (List Expr) :=
  (shownText e).bind fun t => (parse t).value?.map (·.exprs)

/-- C46: an expression that can be read back, with an infix expression grouped to the right. -/
example : exPrinted.Rereads ∧
    (reread exPrinted).map (·.map (·.skeleton)) = some [exPrinted.skeleton] := by
  refine ⟨?_, by decide +kernel⟩
  have hx : PlainName t!"x" :=
    ⟨⟨'x', [], rfl, by decide, ⟨[], [], rfl, rfl, rfl⟩, by decide⟩, by decide⟩
  have hf : PlainName t!"f" :=
    ⟨⟨'f', [], rfl, by decide, ⟨[], [], rfl, rfl, rfl⟩, by decide⟩, by decide⟩
  have hp : OpName t!"+" := ⟨'+', [], rfl, by decide, ⟨[], [], rfl, rfl, rfl⟩, by decide⟩
  exact ⟨.inl ⟨'o', 'f', [], rfl, by decide, by decide, ⟨t!"f", [], rfl, by decide, rfl⟩⟩,
    ⟨⟨by decide, hx, trivial, trivial⟩, hp⟩,
    .inr (.inl rfl), ⟨by simp [Expr.NonBin, Expr.rootOp], rfl, rfl, hf,
      fun c hc => .inr (by rw [List.mem_singleton.1 hc]; decide)⟩,
    show 1 < 2 ^ 64 by decide, ⟨by decide, trivial⟩, trivial⟩

/-- C46: a source that meets the hypotheses; the fixities make a difference. -/
example : '\n' ∉ t!"a + b + c" ∧ ∃ e e', e.PlainParts ∧ e'.PlainParts ∧ e.skeleton ≠ e'.skeleton ∧
    (parse t!"a + b + c").value?.map (·.exprs) = some [e] ∧
    ((parse t!"a + b + c").value?.bind fun a =>
      (resolveAst ⟨[(.standard t!"+", ⟨6, .left⟩)], []⟩ a).toOption.map (·.2.1.exprs)) = some [e'] := by
  have hn : ∀ c ∈ t!"abc", PlainName [c] := by
    intro c hc
    have := (by decide : ∀ c ∈ t!"abc", isLowercase c = true ∧ [c] ∉ keywords ∧ isTrailing c = false) c hc
    exact ⟨⟨c, [], rfl, this.1, ⟨[], [], rfl, rfl, rfl⟩, this.2.1⟩, by simpa using this.2.2⟩
  have hp : OpName t!"+" := ⟨'+', [], rfl, by decide, ⟨[], [], rfl, rfl, rfl⟩, by decide⟩
  refine ⟨by decide, .bin (.var (.lower t!"a")) (.standard t!"+") (.bin (.var (.lower t!"b"))
      (.standard t!"+") (.var (.lower t!"c"))), .bin (.bin (.var (.lower t!"a")) (.standard t!"+")
      (.var (.lower t!"b"))) (.standard t!"+") (.var (.lower t!"c")), ?_, ?_, by decide,
    by decide +kernel, by decide +kernel⟩
  · exact ⟨.inl hp, hn 'a' (by decide), .inl hp, hn 'b' (by decide), hn 'c' (by decide)⟩
  · exact ⟨.inl hp, ⟨.inl hp, hn 'a' (by decide), hn 'b' (by decide)⟩, hn 'c' (by decide)⟩

/-- C46: a source on several lines that meets the hypotheses; the element on its own line is printed
after a comma. -/
example : ∃ e, e.PlainParts ∧ e.BodiesLast true ∧
    (parse t!" [a +\n b\nc]").value?.map (·.exprs) = some [e] ∧ shownText e = some t!"[a + b, c]" ∧
    reread e = some [e] := by
  have hn : ∀ c ∈ t!"abc", PlainName [c] := by
    intro c hc
    have := (by decide : ∀ c ∈ t!"abc", isLowercase c = true ∧ [c] ∉ keywords ∧ isTrailing c = false) c hc
    exact ⟨⟨c, [], rfl, this.1, ⟨[], [], rfl, rfl, rfl⟩, this.2.1⟩, by simpa using this.2.2⟩
  have hp : OpName t!"+" := ⟨'+', [], rfl, by decide, ⟨[], [], rfl, rfl, rfl⟩, by decide⟩
  exact ⟨.list [.bin (.var (.lower t!"a")) (.standard t!"+") (.var (.lower t!"b")), .var (.lower t!"c")],
    ⟨⟨.inl hp, hn 'a' (by decide), hn 'b' (by decide)⟩, hn 'c' (by decide), trivial⟩,
    ⟨⟨rfl, trivial, trivial⟩, trivial, trivial⟩, by decide +kernel⟩

/-- C46 is false: an operator in parentheses that is a promoted name is printed without the
apostrophe and read back as an ordinary name. -/
theorem C46_section_wrong : ∃ e, (parse t!"f ('elem)").value?.map (·.exprs) = some [e] ∧
    shownText e = some t!"f (elem)" ∧
    (reread e).map (·.map (·.skeleton)) =
      some [.app (.var (.lower t!"f")) (.var (.lower t!"elem"))] ∧
    e.skeleton ≠ .app (.var (.lower t!"f")) (.var (.lower t!"elem")) :=
  ⟨.app (.var (.lower t!"f")) (.var (.infix_ t!"elem")), by decide +kernel⟩

/-- C46 is false: a name of one character used as an operator is read back as another operator,
whose name ends with a space. -/
theorem C46_short_operator_wrong : ∃ e, (parse t!"a `f` b").value?.map (·.exprs) = some [e] ∧
    shownText e = some t!"a 'f b" ∧
    (reread e).map (·.map (·.rootOp)) = some [some (.promoted t!"f ")] ∧
    e.rootOp = some (.promoted t!"f") :=
  ⟨.bin (.var (.lower t!"a")) (.promoted t!"f") (.var (.lower t!"b")), by decide +kernel⟩

/-- C46 is false: an applied lambda, which can be written on several lines, is printed without
parentheses, and the argument is read back as part of the body. -/
theorem C46_applied_lambda_wrong :
    ∃ e, (parse t!"  \\x ->\n      x\n   y").value?.map (·.exprs) = some [e] ∧
    e = .app (.lam (.var t!"x") (.var (.lower t!"x"))) (.var (.lower t!"y")) ∧
    shownText e = some t!"\\x -> x y" ∧
    reread e = some [.lam (.var t!"x") (.app (.var (.lower t!"x")) (.var (.lower t!"y")))] :=
  ⟨.app (.lam (.var t!"x") (.var (.lower t!"x"))) (.var (.lower t!"y")), by decide +kernel⟩

/-- C46 is false: patterns that are operators or empty lists are printed in a form that cannot be
parsed. -/
theorem C46_patterns_wrong :
    ((parse t!"\\(+) -> a").value?.map (·.exprs.map fun e => (shownText e, reread e))) =
      some [(some t!"\\+ -> a", none)] ∧
    ((parse t!"\\[]] -> a").value?.map (·.exprs.map fun e => (shownText e, reread e))) =
      some [(some t!"\\[] -> a", none)] := by decide +kernel

/-- C46 is false: characters that are not printable are printed with an escape that the lexer does
not know, and are read back as several characters. -/
theorem C46_escape_wrong :
    ∃ e, (parse ['"', '\x01', '"']).value?.map (·.exprs) = some [e] ∧ e = .lit (.str ['\x01']) ∧
    shownText e = some t!"\"\\u{1}\"" ∧ reread e = some [.lit (.str t!"u{1}")] :=
  ⟨.lit (.str ['\x01']), by decide +kernel⟩

/-- C46: the declaration of a `let` is not printed, so it is missing in what is read back. -/
theorem C46_let_wrong :
    ∃ e e', (parse t!"let infixl 3 + in a + b").value?.map (·.exprs) = some [e] ∧
    reread e = some [e'] ∧ e.lets = [⟨[.standard t!"+"], ⟨3, .left⟩⟩] ∧ e'.lets = [] :=
  ⟨.let_ ⟨[.standard t!"+"], ⟨3, .left⟩⟩ (.bin (.var (.lower t!"a")) (.standard t!"+")
    (.var (.lower t!"b"))), .bin (.var (.lower t!"a")) (.standard t!"+") (.var (.lower t!"b")),
    by decide +kernel⟩

/-- C46: reading back and printing again can add parentheses. -/
theorem C46_parentheses_grow :
    ∃ e e', (parse t!"a + \\x -> x").value?.map (·.exprs) = some [e] ∧ reread e = some [e'] ∧
    shownText e = some t!"a + ((\\x -> x))" ∧ shownText e' = some t!"a + (((\\x -> x)))" :=
  ⟨.bin (.var (.lower t!"a")) (.standard t!"+") (.lam (.var t!"x") (.var (.lower t!"x"))),
    .bin (.var (.lower t!"a")) (.standard t!"+")
      (.grp (.grp (.lam (.var t!"x") (.var (.lower t!"x"))))), by decide +kernel⟩

end
end Pemdas
