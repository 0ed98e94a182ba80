import Verif.Lemmas.Retyped
import Verif.Props.Reprint
import Verif.Props.Drawn
import Verif.Props.Spellings
/-
C172: what is shown can be typed in.
-/
namespace Pemdas
open Session Resolver Printer

section
variable [CharTables] [LawfulTables]

theorem drawn_plain {e : Expr} (h : e.Rereads) : e.drawn.map (·.1) = plain (ppGo 0 none e) := by
  rw [show e.drawn = draw (ppGo 0 none e) from (draw_go e h.names.1 0).symm, ← screen_plain, ← seen_draw]
  simp [Drawing.seen, Function.comp_def]

theorem visible_sent {e : Expr} (h : e.Rereads) : Term.visible e.drawn.sent = e.drawn.map (·.1) := by
  rw [drawn_plain h]
  unfold Term.visible
  rw [show e.drawn = draw (ppGo 0 none e) from (draw_go e h.names.1 0).symm, sent_draw,
    run_render (ppGo_good e 0 none h.names.2).1, screen_plain]

theorem drawn_parses {e : Expr} (h : e.Rereads) :
    ∃ l, parse (e.drawn.map (·.1)) = .ok ⟨[.expr], [], [e.shown false false]⟩ l := by
  rw [drawn_plain h]
  obtain ⟨ts, ⟨h1, h2⟩, h3, _⟩ := (expr_shows e h).1 0
  obtain ⟨cs, hl, rfl⟩ := lexes_has h1 (by
    have := h2 [] [] .nil (.nil (r := []) rfl)
    simpa using this)
  exact (C81_one_line h1 ⟨[.expr], [], [e.shown false false]⟩).2 ⟨cs, [.expr (e.shown false false)], hl, by
    have := LineProg.expr false h3 .nil (fun _ => trivial)
    simpa using this, rfl⟩

/-- **C172** Typing what is shown for an expression into any session, whatever its fixities, is answered by an
expression with the same names, literals and operators grouped in the same way, and changes no fixity. (For expressions
that can be read back, see C46.) -/
theorem C172_grouping (w : World) {s : Session} {log : List Event} (hh : History s log)
    (hb : s.buffer = []) {e : Expr} (h : e.Rereads) :
    ∃ (s' : Session) (g : Expr), step w s (t!"  " ++ Term.visible e.drawn.sent) =
        .ok (true, s', [.out (t!"  " ++ g.drawn.sent ++ t!"\n")]) ∧ g.skeleton = e.skeleton ∧
      (e.Steady false → g.drawn = e.drawn) ∧ s'.buffer = [] ∧ s'.resolver = s.resolver := by
  rw [visible_sent h]
  obtain ⟨l, hp⟩ := drawn_parses h
  have he := C14_no_pending_error hh
  obtain ⟨⟨m, es⟩, b, p, q⟩ := s
  simp only at hb he
  subst hb he
  obtain ⟨g, d⟩ := shown_grouped e false false m.get
  have hv : visit ⟨m, []⟩ (e.shown false false) = .ok (⟨m, []⟩, e.shown false false) := grouped_vis _ m d g []
  obtain ⟨s', h1, h2, h3⟩ := answer_step w (s := ⟨⟨m, []⟩, [], p, q⟩) (m := m) (xs := [e.shown false false]) (es := [])
    ⟨_, .inl h.upright.ends, rfl⟩ hp (by
      simp [loadFixities, loadDecls, resolveAst, visitAst, walkList, hv, bind, Except.bind, firstOfEach])
  exact ⟨s', e.shown false false, h1, shown_skeleton e false false, shown_drawn, h2, h3⟩

/-- **C172** (part that holds) Typing what is shown for an expression into any session, whatever its fixities,
gives the same answer, with the same colours, and changes no fixity. (Missing: what cannot be read back, see C46, and
lambdas in operands or under `let`s in lambdas, for which it is false, see `C172_..._wrong`.) -/
theorem C172_expression_partial (w : World) {s : Session} {log : List Event} (hh : History s log)
    (hb : s.buffer = []) {e : Expr} (h : e.Rereads) (hs : e.Steady false) :
    ∃ s', step w s (t!"  " ++ Term.visible e.drawn.sent) =
        .ok (true, s', [.out (t!"  " ++ e.drawn.sent ++ t!"\n")]) ∧ s'.buffer = [] ∧ s'.resolver = s.resolver := by
  obtain ⟨s', g, h1, -, h2, h3⟩ := C172_grouping w hh hb h
  rw [h2 hs] at h1
  exact ⟨s', h1, h3⟩

/-- **C172** (part that holds) The answer to an input, typed in again, is its own answer, in every session that is
not waiting for the rest of an input, whatever its fixities; and it changes no fixity. -/
theorem C172_answer_partial (w : World) {s : Session}
    {line src : Text} (hc : Completes s line src) {ast : Ast} {l : Lexer} (hp : parse src = .ok ast l)
    (hl : ∀ x ∈ ast.exprs, x.BodiesLast true) {e : Expr} {es : List Expr} {r : Resolver}
    (hr : (s.resolver.loadFixities ast).resolveAst ast = .ok (r, { ast with exprs := e :: es }, []))
    (hk : ast.kinds.head? = some .expr) (he : e.PlainParts) (hs : e.Steady false) :
    ∃ s' t, step w s line = .ok (true, s', [.out (t!"  " ++ t ++ t!"\n")]) ∧
      ∀ (w' : World) (s₁ : Session) (log₁ : List Event), History s₁ log₁ → s₁.buffer = [] →
        ∃ s₂, step w' s₁ (t!"  " ++ Term.visible t) = .ok (true, s₂, [.out (t!"  " ++ t ++ t!"\n")]) ∧
          s₂.buffer = [] ∧ s₂.resolver = s₁.resolver := by
  have h : e.Rereads := by
    obtain ⟨x, hx, hs⟩ := resolveAst_exprs (P := SameShape) visit_shape hr e (by simp)
    have hw : x.WellApplied := (C40_shape hp x hx).wellApplied (hl x hx)
    exact (hs.2.2.2.2 hw).rereads he
  have hre := resolveAst_errors hr
  obtain ⟨m, errs⟩ := r
  simp only at hre
  subst hre
  obtain ⟨s', h1, -, -⟩ := answer_step w (es := []) hc hp hr
  refine ⟨s', e.drawn.sent, ?_, fun w' s₁ log₁ h' hb' => C172_expression_partial w' h' hb' h hs⟩
  rw [h1]
  cases hks : ast.kinds with
  | nil => rw [hks] at hk; cases hk
  | cons k ks =>
    rw [hks] at hk
    cases hk
    rfl

end

section
attribute [local instance] asciiTables asciiTables_lawful

/-- C172: an answer with lambdas and parentheses that the resolver has added. -/
example : ∃ (s : Session) (src : Text) (ast : Ast) (l : Lexer) (e : Expr) (r : Resolver), History s [] ∧ s.buffer = [] ∧
    Completes s src src ∧ parse src = .ok ast l ∧ (∀ x ∈ ast.exprs, x.BodiesLast true) ∧
    (s.resolver.loadFixities ast).resolveAst ast = .ok (r, { ast with exprs := [e] }, []) ∧
    ast.kinds.head? = some .expr ∧ e.PlainParts ∧ e.Rereads ∧ e.Steady false ∧
    exShown [src] = some [t!"  \\b -> (a + b) + [\\a -> c]\n"] ∧
    exShown [t!"\\b -> (a + b) + [\\a -> c]"] = some [t!"  \\b -> (a + b) + [\\a -> c]\n"] := by
  have hn : ∀ c ∈ t!"abc", PlainName [c] := by
    intro c hc
    have := (by decide : ∀ c ∈ t!"abc", isLowercase c = true ∧ [c] ∉ keywords ∧ isTrailing c = false) c hc
    exact ⟨⟨c, [], rfl, this.1, ⟨[], [], rfl, rfl, rfl⟩, this.2.1⟩, by simpa using this.2.2⟩
  have hp : OpName t!"+" := ⟨'+', [], rfl, by decide, ⟨[], [], rfl, rfl, rfl⟩, by decide⟩
  obtain ⟨l, h⟩ := of_value (src := t!"\\b -> a + b + [\\a -> c]")
    (ast := ⟨[.expr], [], [.lam (.var t!"b") (.bin exA opPlus (.bin exB opPlus (.list [.lam (.var t!"a") exC])))]⟩)
    (by decide +kernel)
  refine ⟨(Session.new exFs none).1, t!"\\b -> a + b + [\\a -> c]", _, l,
    .lam (.var t!"b") (.bin (.bin exA opPlus exB) opPlus (.list [.lam (.var t!"a") exC])), ⟨[], []⟩, .start _ _, by decide,
    ⟨t!"\\b -> a + b + [\\a -> c]", .inl (.plain ⟨[], [], by simp, by simp [Blank], by simp [Blank], ⟨_, _, rfl, by decide⟩,
      ⟨t!"\\b -> a + b + [\\a -> c", ']', rfl, by decide⟩⟩ (by decide) (by decide) (by decide)), rfl⟩, h, ?_, by decide +kernel,
    rfl, ?_, ?_, ?_, by decide +kernel, by decide +kernel⟩
  · intro x hx
    rw [List.mem_singleton.1 hx]
    simp [Expr.BodiesLast, Expr.BodiesLastList, Expr.isOpen, exA, exB, exC]
  · exact ⟨hn 'b' (by decide), ⟨.inl hp, ⟨.inl hp, hn 'a' (by decide), hn 'b' (by decide)⟩,
      ⟨hn 'a' (by decide), hn 'c' (by decide)⟩, trivial⟩⟩
  · exact ⟨hn 'b' (by decide), ⟨.inl hp, ⟨.inl hp, hn 'a' (by decide), hn 'b' (by decide)⟩,
      ⟨hn 'a' (by decide), hn 'c' (by decide)⟩, trivial⟩⟩
  · exact ⟨rfl, by decide, ⟨trivial, trivial⟩, ⟨rfl, by decide, trivial⟩, trivial⟩

/-- C172 is false: a lambda in an operand gets one more pair of parentheses each time the answer is typed in. -/
theorem C172_operand_wrong : exShown [t!"a + \\x -> x"] = some [t!"  a + ((\\x -> x))\n"] ∧
    exShown [t!"a + ((\\x -> x))"] = some [t!"  a + (((\\x -> x)))\n"] ∧
    exShown [t!"a + (((\\x -> x)))"] = some [t!"  a + ((((\\x -> x))))\n"] := by decide +kernel

/-- C172 is false: `let`s are not shown, so a lambda in one is joined with the one around it when the answer is
typed in. -/
theorem C172_let_wrong :
    exShown [t!"\\x -> let infixl 5 + in \\y -> z"] = some [t!"  \\x -> \\y -> z\n"] ∧
    exShown [t!"  \\x -> \\y -> z"] = some [t!"  \\x y -> z\n"] := by decide +kernel

end
end Pemdas
