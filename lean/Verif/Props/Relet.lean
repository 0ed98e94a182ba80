import Verif.Lemmas.Relet
import Verif.Props.Apart
/-
C188: the order of `let`s, and `let`s that another one hides.
-/
namespace Pemdas
open Resolver Session

/-- **C188** (part that holds) An expression in which neighbouring `let`s for different operators are exchanged, operators
of one `let` are exchanged, and `let`s are removed or added directly around a `let` that names all of their operators, is
resolved to the same result, but for these `let`s, with the same errors in the same order, and leaves the same fixities.
Missing: `let`s that name an operator twice. -/
theorem C188_resolved_partial {m m' : Fixities} (hw : m.Wf) {e e' x : Expr} {errs : List AssocError}
    (hr : e.Relet e') (hl : e.LetsDistinct) (hl' : e'.LetsDistinct)
    (h : visit ⟨m, []⟩ e = .ok (⟨m', errs⟩, x)) :
    ∃ x', visit ⟨m, []⟩ e' = .ok (⟨m', errs⟩, x') ∧ x.Relet x' := by
  obtain ⟨x₁, es, fx, hb, m₁, -, -, h1⟩ := C152_expression hw e
  obtain ⟨x₂, es₂, fx₂, hb₂, m₂, -, -, h2⟩ := C152_expression hw e'
  obtain ⟨g, k1, k2⟩ := ((hb _ _ _).2 ⟨rfl, rfl, rfl⟩).relet hr hl hl'
  obtain ⟨rfl, rfl, rfl⟩ := (hb₂ _ _ _).1 k1
  have e1 := C11_no_leak_partial _ _ _ _ hl h
  have e2 := C11_no_leak_partial _ _ _ _ hl' h2
  rw [h] at h1
  cases h1
  simp only at e1 e2
  exact ⟨g, by rw [h2, e1, e2], k2⟩

section
variable [CharTables]

/-- **C188** What is shown for such expressions is the same, down to the colours; if nothing can be shown for one of them,
this is so for the other. -/
theorem C188_shown (m m' : Fixities) {x x' : Expr} (h : x.Relet x') (t : Text) :
    Printer.writeExpr m x = .ok t ↔ Printer.writeExpr m' x' = .ok t := by
  rw [C149_written, C149_written, h.noNeg, Expr.drawn, Expr.drawn, h.parts]

theorem answer_relet (k k' : List DeclKind) {xs xs' : List Expr} (h : AllRelet xs xs') (es : List AssocError)
    (hk : k'.head? = k.head?) : answer k' xs' es = answer k xs es := by
  unfold answer
  rcases he : firstOfEach es with _ | ⟨e, _ | ⟨e', es'⟩⟩
  · cases k with
    | nil =>
      cases k' with
      | nil => rfl
      | cons _ _ => cases hk
    | cons a k =>
      cases k' with
      | nil => cases hk
      | cons b k' =>
        simp only [List.head?_cons, Option.some.injEq] at hk
        subst hk
        cases h with
        | nil => cases b <;> rfl
        | cons h1 h2 => cases b <;> simp [Expr.drawn, h1.parts]
  · rfl
  · rfl

variable [LawfulTables]

/-- **C188** (part that holds) An input with the same declarations and such expressions has the same answer, be it a result
or errors, and leaves the same fixities. Missing: `let`s that name an operator twice. -/
theorem C188_answer_partial (w : World) {s : Session} {log : List Event} (hh : History s log) {line line' src src' : Text}
    (hc : Completes s line src) (hc' : Completes s line' src') {ast ast' : Ast} {l l' : Lexer}
    (hp : parse src = .ok ast l) (hp' : parse src' = .ok ast' l') (hl : ∀ e ∈ ast.exprs, e.LetsDistinct)
    (hl' : ∀ e ∈ ast'.exprs, e.LetsDistinct) (hk : ast'.kinds.head? = ast.kinds.head?) (hi : ast'.infxs = ast.infxs)
    (hx : AllRelet ast.exprs ast'.exprs) :
    ∃ s₁ s₂ out, step w s line = .ok (true, s₁, out) ∧ step w s line' = .ok (true, s₂, out) ∧
      s₁.buffer = [] ∧ s₂.buffer = [] ∧ s₂.resolver = s₁.resolver := by
  obtain ⟨s₁, xs, es, fx, a1, a2, a3, a4⟩ := input_leaves w hh hc hp hl
  obtain ⟨s₂, xs', es', fx', b1, b2, b3, b4⟩ := input_leaves w hh hc' hp' hl'
  obtain ⟨ys, c1, c2⟩ := a1.relet hx ((letsDistinctList_iff _).2 hl) ((letsDistinctList_iff _).2 hl')
  rw [hi] at b1
  obtain ⟨rfl, rfl, rfl⟩ := b1.unique c1
  exact ⟨s₁, s₂, _, a2, by rw [b2, answer_relet _ _ c2 _ hk], a3, b3, by rw [a4, b4, hi]⟩

end

/-! ### concrete cases -/

/-- Two `let`s for different operators in one order … -/
def letsOneWay : Expr :=
  .let_ ⟨[opPlus], ⟨6, .left⟩⟩ (.let_ ⟨[opMul], ⟨6, .right⟩⟩ (.bin exA opPlus (.bin exB opMul exC)))

/-- … and in the other. -/
def letsOtherWay : Expr :=
  .let_ ⟨[opMul], ⟨6, .right⟩⟩ (.let_ ⟨[opPlus], ⟨6, .left⟩⟩ (.bin exA opPlus (.bin exB opMul exC)))

theorem letsOneWay_relet : letsOneWay.Relet letsOtherWay := by
  refine .swap ?_ (.bin .var (.bin .var .var))
  intro o h h'
  revert h h'
  simp only [opPlus, opMul, List.map_cons, List.map_nil, List.mem_singleton]
  rintro rfl
  decide

theorem letsOneWay_distinct : letsOneWay.LetsDistinct ∧ letsOtherWay.LetsDistinct := by
  simp [letsOneWay, letsOtherWay, Expr.LetsDistinct, exA, exB, exC, opPlus, opMul, Infix.symbol]

/-- C188: the hypotheses of `C188_resolved_partial` are met by two `let`s with an error. -/
example : exTable.Wf ∧ letsOneWay.Relet letsOtherWay ∧ letsOneWay ≠ letsOtherWay ∧ letsOneWay.LetsDistinct ∧
    letsOtherWay.LetsDistinct ∧ ∃ err x, visit ⟨exTable, []⟩ letsOneWay = .ok (⟨exTable, [err]⟩, x) :=
  ⟨by unfold Fixities.Wf; decide, letsOneWay_relet, by decide, letsOneWay_distinct.1, letsOneWay_distinct.2,
    ⟨(opPlus, ⟨6, .left⟩), (opMul, ⟨6, .right⟩)⟩, letsOneWay, by decide⟩

section
attribute [local instance] asciiTables asciiTables_lawful

/-- C188: exchanged, hidden and rearranged `let`s, also in operands. -/
example : exShown [t!"let infixl 6 + in let infixr 7 * in a + b * c", t!"let infixr 7 * in let infixl 6 + in a + b * c",
      t!"let infixr 9 + in let infixl 6 + in a + b + c", t!"let infixl 6 + in a + b + c",
      t!"a ^ let infixl 5 +, * in b + c * d", t!"a ^ let infixl 5 *, + in b + c * d"] =
    some [t!"  a + (b * c)\n", t!"  a + (b * c)\n", t!"  (a + b) + c\n", t!"  (a + b) + c\n",
      t!"  a ^ ((b + c) * d)\n", t!"  a ^ ((b + c) * d)\n"] := by
  decide +kernel

/-- C188: the hypotheses of `C188_answer_partial` are met. -/
example : ∃ (s : Session) (src src' : Text) (ast ast' : Ast) (l l' : Lexer), History s [] ∧
    Completes s src src ∧ Completes s src' src' ∧ parse src = .ok ast l ∧ parse src' = .ok ast' l' ∧
    (∀ e ∈ ast.exprs, e.LetsDistinct) ∧ (∀ e ∈ ast'.exprs, e.LetsDistinct) ∧ ast'.kinds.head? = ast.kinds.head? ∧
    ast'.infxs = ast.infxs ∧ AllRelet ast.exprs ast'.exprs ∧ ast'.exprs ≠ ast.exprs := by
  obtain ⟨l, h⟩ := of_value (src := t!"let infixl 6 + in let infixr 6 * in a + b * c")
    (ast := ⟨[.expr], [], [letsOneWay]⟩) (by decide +kernel)
  obtain ⟨l', h'⟩ := of_value (src := t!"let infixr 6 * in let infixl 6 + in a + b * c")
    (ast := ⟨[.expr], [], [letsOtherWay]⟩) (by decide +kernel)
  refine ⟨(Session.new exFs none).1, _, _, _, _, l, l', .start _ _,
    ⟨t!"let infixl 6 + in let infixr 6 * in a + b * c",
      .inl (.plain ((says_iff (by decide)).2 (by decide)) (by decide) (by decide) (by decide)), rfl⟩,
    ⟨t!"let infixr 6 * in let infixl 6 + in a + b * c",
      .inl (.plain ((says_iff (by decide)).2 (by decide)) (by decide) (by decide) (by decide)), rfl⟩,
    h, h', ?_, ?_, rfl, rfl, .cons letsOneWay_relet .nil, by decide⟩
  · intro x hx
    rw [List.mem_singleton.1 hx]
    exact letsOneWay_distinct.1
  · intro x hx
    rw [List.mem_singleton.1 hx]
    exact letsOneWay_distinct.2

/-- C188 is false: a `let` that names an operator twice leaves its fixity behind although another `let` hides it, and an
operator that is named by both `let`s has the fixity of the inner one. -/
theorem C188_let_wrong :
    exShown [t!"infixl 6 +", t!"(let infixr 9 +, + in let infixl 4 + in a, b + c + d)"] =
      some [t!"  (a, b + (c + d))\n"] ∧
    exShown [t!"infixl 6 +", t!"(let infixl 4 + in a, b + c + d)"] = some [t!"  (a, (b + c) + d)\n"] ∧
    exShown [t!"let infixl 6 + in let infixr 6 + in a + b + c", t!"let infixr 6 + in let infixl 6 + in a + b + c"] =
      some [t!"  a + (b + c)\n", t!"  (a + b) + c\n"] := by
  decide +kernel

end
end Pemdas
