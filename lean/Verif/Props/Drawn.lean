import Verif.Lemmas.Drawn
import Verif.Props.Printer
import Verif.Props.Echo
import Verif.Props.Clashes
import Verif.Props.Messages
/-
C149, C150: exactly what is written for every expression and every input.
-/
namespace Pemdas
open Printer Resolver Session

/-- The answer to an input whose expressions become `xs` and in which the errors `errs` are met:
all different errors; or the first expression, if the input starts with one; or nothing. -/
def answer [CharTables] (kinds : List DeclKind) (xs : List Expr) (errs : List AssocError) :
    List Effect :=
  let tag := painted t!"0" (painted t!"31" t!"[Error]:" ++ t!" ")
  match firstOfEach errs, kinds, xs with
  | [], .expr :: _, x :: _ => [.out (t!"  " ++ x.drawn.sent ++ t!"\n")]
  | [], _, _ => []
  | [e], _, _ => [.err (tag ++ e.wording.toList ++ t!"\n")]
  | es, _, _ => [.err (tag ++ (es.flatMap fun e => t!"\n  " ++ e.wording.toList) ++ t!"\n")]

section
variable [CharTables]

/-- **C149** What is written for an expression is exactly its drawing; the only expressions for which
nothing is written are those with negations. -/
theorem C149_written (m : Fixities) (e : Expr) (t : Text) :
    writeExpr m e = .ok t ↔ e.NoNeg ∧ t = e.drawn.sent := by
  by_cases hn : e.NoNeg
  · rw [writeExpr_noNeg m hn, ← sent_draw, show pp e = ppGo 0 none e from rfl, draw_go e hn]
    simp [hn, Expr.drawn, eq_comm]
  · rw [writeExpr_neg m hn]
    simp [hn]

/-- **C149** for patterns, in any state of the printer. -/
theorem C149_pattern (p : Pat) (s : List Fixity) :
    writePat p s = .ok ((), (p.drawn s.length).sent, s) := by
  have := writePat_does p s
  unfold Pr.Does at this
  rw [this, ← sent_draw, draw_pat]

omit [CharTables] in
/-- **C149** What is seen of a drawing on a terminal: its characters, those with a depth in the colour
of the depth, the others in no colour. -/
theorem C149_seen {x : Drawing} (h : ∀ cd ∈ x, cd.1 ≠ '\x1b') :
    Term.run Term.start x.sent = ⟨.ground, Pen.default, x.seen⟩ := by
  obtain ⟨ps, h1, h2⟩ : ∃ ps : List Piece, draw ps = x ∧ ∀ p ∈ ps, p.NoEsc := by
    refine ⟨x.map fun cd => match cd with
      | (c, none) => .txt [c]
      | (c, some d) => .par d c, ?_, ?_⟩
    · clear h
      induction x with
      | nil => rfl
      | cons a x ih =>
        rw [List.map_cons, draw_cons, ih]
        rcases a with ⟨c, _ | d⟩ <;> rfl
    · intro p hp
      obtain ⟨⟨c, d⟩, ha, rfl⟩ := List.mem_map.1 hp
      have := h _ ha
      cases d
      · simpa [Piece.NoEsc, eq_comm] using this
      · exact this
  rw [← h1, sent_draw, run_render h2, seen_draw]

/-- **C149** for expressions in whose names there is no bracket or escape character. -/
theorem C149_expression_seen [LawfulTables] (m : Fixities) {e : Expr} (hn : e.NoNeg)
    (hc : e.CleanNames) :
    ∃ t, writeExpr m e = .ok t ∧ Term.run Term.start t = ⟨.ground, Pen.default, e.drawn.seen⟩ := by
  refine ⟨_, (C149_written m e _).2 ⟨hn, rfl⟩, ?_⟩
  have := (ppGo_good e 0 none hc).1
  rw [Expr.drawn, ← draw_go e hn 0, seen_draw, sent_draw, run_render this]

omit [CharTables] in
theorem innermost_idem (fx : Env) (ds : List InfixDecl) :
    innermost (innermost fx ds) ds = innermost fx ds := by
  funext op
  simp only [innermost]
  split <;> rename_i h
  · rfl
  · rfl

omit [CharTables] in
theorem firstOfEach_ne_nil {es : List AssocError} : firstOfEach es = [] ↔ es = [] := by
  cases es <;> simp [firstOfEach]

/-- What is answered, given what the expressions become. -/
theorem answer_step [LawfulTables] (w : World) {s : Session} {line src : Text}
    (hc : Completes s line src) {ast : Ast} {l : Lexer} (hp : parse src = .ok ast l)
    {xs : List Expr} {es : List AssocError} {m : Fixities}
    (hr : (s.resolver.loadFixities ast).resolveAst ast =
      .ok (⟨m, []⟩, { ast with exprs := xs }, firstOfEach es)) :
    ∃ s', step w s line = .ok (true, s', answer ast.kinds xs es) ∧ s'.buffer = [] ∧
      s'.resolver = ⟨m, []⟩ := by
  cases hes : firstOfEach es with
  | nil =>
    rw [hes] at hr
    obtain ⟨ds, ds', s', fx, e1, e2, e3, -, e5, e6, e7⟩ := C55_first_echoed w hc hp hr
    have hk : ast.kinds = ds'.map Decl.kind := by rw [e1, Ast.ofDecls_eq, e3]
    have hx : xs = ds'.filterMap Decl.asExpr? := by
      have := congrArg Ast.exprs e2
      rw [Ast.ofDecls_eq] at this
      exact this
    obtain ⟨p, hstep⟩ := step_completes (w := w) hc
    have hb : s'.buffer = [] := by
      rw [hstep] at e5
      exact (process_applies e5).2.1
    refine ⟨s', ?_, hb, e6⟩
    rw [e5]
    congr 3
    unfold answer
    rw [hes, hk]
    rcases e7 with ⟨e, rest, rfl, h⟩ | ⟨h, rfl⟩
    · obtain ⟨p, hp, rfl⟩ := h []
      obtain ⟨-, rfl⟩ := (C149_written [] e p).1 hp
      cases xs with
      | nil => simp [Decl.asExpr?] at hx
      | cons z xs =>
        simp only [List.filterMap_cons, Decl.asExpr?, List.cons.injEq] at hx
        simp [Decl.kind, hx.1]
    · cases ds' with
      | nil => rfl
      | cons d ds' =>
        cases d with
        | expr e => exact absurd rfl (h e ds')
        | infix_ i => rfl
  | cons err errs =>
    rw [hes] at hr
    obtain ⟨p, hs⟩ := (C130_reported_partial w hc).2 ast _ l _ _ hp hr (by simp)
    refine ⟨{ s with buffer := [], prompt := p, resolver := ⟨m, []⟩ }, hs.trans ?_, rfl, rfl⟩
    congr 3
    unfold answer
    rw [hes]
    cases errs with
    | nil => simp [C130_ambiguous, painted]
    | cons e es => simp [C130_ambiguous, painted, List.flatMap]

/-- **C150** For every input that can be parsed and in whose `let`s no operator is named twice: its
expressions are resolved under the fixities of the last declarations, those of the input included;
the answer is exactly the errors met, or what the first expression has become; the fixities are those
declared, and the next input starts afresh. -/
theorem C150_answer_partial [LawfulTables] (w : World) {s : Session} {log : List Event}
    (hh : History s log) (hd : ∀ ev ∈ log, ev.NoDup) {line src : Text} (hc : Completes s line src)
    {ast : Ast} {l : Lexer} (hp : parse src = .ok ast l) (hl : ∀ e ∈ ast.exprs, e.LetsDistinct) :
    ∃ zs : List (Expr × Expr × List AssocError), ast.exprs = zs.map (·.1) ∧
      (∀ z ∈ zs, Resolves (innermost (fixitiesAfter log) ast.infxs) z.1 z.2.1 z.2.2) ∧
      ∃ s', step w s line =
          .ok (true, s', answer ast.kinds (zs.map (·.2.1)) (zs.flatMap (·.2.2))) ∧ s'.buffer = [] ∧
        s'.resolver.fixities.get = innermost (fixitiesAfter log) ast.infxs ∧
        s'.resolver.errors = [] := by
  have hfx : s.resolver.fixities.get = fixitiesAfter log := by
    funext op
    rw [fixitiesAfter, ← C15_last_writer_wins_partial hh hd]; rfl
  have her := C14_no_pending_error hh
  have hld : s.resolver.loadFixities ast = ⟨loadDecls s.resolver.fixities ast.infxs, []⟩ := by
    rw [loadFixities, her]
  have hget : (loadDecls s.resolver.fixities ast.infxs).get =
      innermost (fixitiesAfter log) ast.infxs := by
    rw [C13_last_declaration_wins, hfx]
  have hget2 : (loadDecls (loadDecls s.resolver.fixities ast.infxs) ast.infxs).get =
      innermost (fixitiesAfter log) ast.infxs := by
    rw [C13_last_declaration_wins, hget, innermost_idem]
  obtain ⟨zs, h1, h2, h3⟩ := list_follows
    (m := loadDecls (loadDecls s.resolver.fixities ast.infxs) ast.infxs) (xs := ast.exprs)
    (fun x hx => visit_follows x (hl x hx) (C40_right_nested hp x hx) _)
  have hr := (C99_input_exact_partial (loadDecls s.resolver.fixities ast.infxs) ast
    { ast with exprs := zs.map (·.2.1) } ⟨_, []⟩ (firstOfEach (zs.flatMap (·.2.2)))
    (C40_right_nested hp) hl).2
    ⟨rfl, zs, h1.symm, rfl, by rw [← C13_last_declaration_wins]; exact h3, rfl⟩
  rw [← hld] at hr
  rw [hget2] at h3
  refine ⟨zs, h1.symm, h3, ?_⟩
  obtain ⟨s', k1, k2, k3⟩ := answer_step w hc hp hr
  exact ⟨s', k1, k2, by rw [k3]; exact hget2, by rw [k3]⟩

end

/-! ### concrete cases -/

section
attribute [local instance] asciiTables asciiTables_lawful

/-- `a + (\x y@_ -> (x, \z -> y)) b`, as it may be grouped. -/
def exDrawn : Expr := .bin exA opPlus (.app (.lam (.var t!"x") (.lam (.as_ t!"y" .wild)
  (.tup [.var (.lower t!"x"), .lam (.var t!"z") (.var (.lower t!"y"))]))) exB)

/-- C149: nested lambdas, tuples and operators. -/
example : exDrawn.NoNeg ∧ exDrawn.drawn.map (·.1) = t!"a + ((\\x y@_ -> (x, \\z -> y)) b)" ∧
    exDrawn.drawn.filter (·.2.isSome) = [('(', some 1), (')', some 1)] := by
  refine ⟨by simp [exDrawn, Expr.NoNeg, Expr.NoNegList, exA, exB], by decide, by decide⟩

/-- C149: patterns; the colours of the parentheses tell how many colons are around them. -/
example : (Pat.lnk (.lnk (.neg (.con t!"J" [.wild, .lit (.int 1)])) (.arr [])) (.tup [.wild, .wild])
    |>.drawn 0).map (·.1) = t!"((((-((J _ 1))):[])):(_, _))" ∧
    ((Pat.lnk (.lnk .wild .wild) .wild).drawn 0).filterMap (·.2) = [1, 1, 2, 2, 1, 1] := by decide

/-- C149: the colours sent, and what a terminal makes of them. -/
example : (Drawing.sent (exDrawn.drawn.take 5)) = t!"a + \x1b[38;2;255;140;0m(\x1b[0m" ∧
    (Term.run Term.start (Drawing.sent (exDrawn.drawn.take 5))).screen.getLast? =
      some ('(', ⟨[], some (.rgb 255 140 0), none⟩) ∧
    ∀ cd ∈ exDrawn.drawn, cd.1 ≠ '\x1b' := by decide

/-- C150: an input of a declaration and expressions with a lambda, a `let` and a clash meets the
hypotheses. -/
example : ∃ ast, (parse t!"infixl 6 +\n\\x -> let infixr 5 & in x & x & x\na").value? = some ast ∧
    ast.kinds = [.infix_, .expr, .expr] ∧ ∀ e ∈ ast.exprs, e.LetsDistinct := by
  refine ⟨⟨[.infix_, .expr, .expr], [⟨[opPlus], ⟨6, .left⟩⟩], [.lam (.var t!"x") (.let_ ⟨[.standard t!"&"], ⟨5, .right⟩⟩
    (.bin (.var (.lower t!"x")) (.standard t!"&") (.bin (.var (.lower t!"x")) (.standard t!"&")
      (.var (.lower t!"x"))))), exA]⟩, by decide +kernel, rfl, ?_⟩
  simp [Expr.LetsDistinct, exA]

/-- C150: what is shown. -/
example : exShown [t!"infixl 6 +", t!"\\x -> let infixr 5 & in x & x + a & x"] =
    some [t!"  \\x -> x & ((x + a) & x)\n"] := by decide +kernel

/-- **C150 fails in general**: a `let` that names an operator twice leaves its fixity behind, and what
follows it is not grouped as the rules demand. -/
theorem C150_answer_wrong : ∃ src e g, (parse src).value? = some ⟨[.expr], [], [e]⟩ ∧
    Resolves (fun _ => ⟨9, .left⟩) e g [] ∧
    exShown [src] ≠ some [t!"  " ++ g.drawn.map (·.1) ++ t!"\n"] := by
  refine ⟨t!"(let infixr 9 +, + in a, a + b + c)",
    .tup [.let_ ⟨[opPlus, opPlus], ⟨9, .right⟩⟩ exA, .bin exA opPlus (.bin exB opPlus exC)],
    .tup [.let_ ⟨[opPlus, opPlus], ⟨9, .right⟩⟩ exA, .bin (.bin exA opPlus exB) opPlus exC],
    by decide +kernel, ?_, by decide +kernel⟩
  have h := Resolves.grouped (fx := fun _ => ⟨9, .left⟩) (l := exA) (op := opPlus)
    (r := .bin exB opPlus exC)
    (.node (.node (.leaf exA) opPlus (.leaf exB)) opPlus (.leaf exC))
    [(exA, exA, []), (exB, exB, []), (exC, exC, [])]
    (by simp [OpTree.WellGrouped, OpTree.root, LeftOk]) rfl rfl rfl (by
      intro z hz
      simp only [List.mem_cons, List.not_mem_nil, or_false] at hz
      rcases hz with rfl | rfl | rfl <;> exact .var)
  exact .tup [(_, _, []), (_, _, [])] rfl (by
    intro z hz
    simp only [List.mem_cons, List.not_mem_nil, or_false] at hz
    rcases hz with rfl | rfl
    · exact .let_ .var
    · exact h)

end
end Pemdas
