import Verif.Props.Unrelated
/-
C190: declaring operators before an expression, along with it, or by `let`.
-/
namespace Pemdas
open Session Resolver

theorem Becomes.lets : ∀ (ds : List InfixDecl) {fx : Env} {b g : Expr} {es : List AssocError} {fx' : Env},
    Becomes fx (Pemdas.lets ds b) g es fx' →
    ∃ x fx₁, g = Pemdas.lets ds x ∧ Becomes (innermost fx ds) b x es fx₁
  | [], _, _, _, _, _, h => ⟨_, _, rfl, h⟩
  | _ :: ds, _, _, _, _, _, h => by
    rw [Pemdas.lets] at h
    cases h with
    | let_ h =>
      obtain ⟨x, fx₁, rfl, h'⟩ := Becomes.lets ds h
      exact ⟨x, fx₁, rfl, by rw [innermost_cons]; exact h'⟩

section
variable [CharTables]

theorem drawn_lets : ∀ (ds : List InfixDecl) (x : Expr), (lets ds x).drawn = x.drawn
  | [], _ => rfl
  | d :: ds, x => by
    rw [← drawn_lets ds x, lets]
    simp [Expr.drawn, Expr.parts, lambda]

variable [LawfulTables]

theorem input_becomes (w : World) {s : Session} {log : List Event} (hh : History s log) {line src : Text}
    (hc : Completes s line src) {ast : Ast} {l : Lexer} (hp : parse src = .ok ast l) :
    ∃ s' xs es fx, BecomeAll (innermost s.resolver.fixities.get ast.infxs) ast.exprs xs es fx ∧
      step w s line = .ok (true, s', answer ast.kinds xs es) ∧ s'.buffer = [] ∧ s'.resolver.fixities.get = fx := by
  obtain ⟨fx, xs, es, fx', h1, h2, s', h3, h4, h5, -⟩ := C152_answer w hh hc hp
  rw [(history_after hh).2.unique h1]
  exact ⟨s', xs, es, fx', h2, h3, h4, h5⟩

theorem answer_lets {s t : Session} {log log' : List Event} (hs : History s log) (ht : History t log') (w w' : World)
    {line line' src src' : Text} (hc : Completes s line src) (hc' : Completes t line' src') {ast ast' : Ast}
    {l l' : Lexer} (hp : parse src = .ok ast l) (hp' : parse src' = .ok ast' l') {k k' : List DeclKind} {b : Expr}
    {ds : List InfixDecl} (ha : ast = ⟨.expr :: k, [], [lets ds b]⟩) (hk : ast'.kinds = .expr :: k')
    (hb : ast'.exprs = [b])
    (hf : innermost t.resolver.fixities.get ast'.infxs = innermost s.resolver.fixities.get ds) :
    ∃ s' t' out, step w s line = .ok (true, s', out) ∧ step w' t line' = .ok (true, t', out) := by
  obtain ⟨s', xs, es, fx, a1, a2, -, -⟩ := input_becomes w hs hc hp
  obtain ⟨t', ys, es', fx', b1, b2, -, -⟩ := input_becomes w' ht hc' hp'
  subst ha
  rw [hf, hb] at b1
  rw [hk] at b2
  simp only at a1 a2
  cases a1 with
  | cons a1 a =>
    cases a
    cases b1 with
    | cons b1 b =>
      cases b
      obtain ⟨x, fx₁, rfl, h⟩ := a1.lets ds
      obtain ⟨rfl, rfl, -⟩ := h.unique b1
      refine ⟨s', t', _, a2, ?_⟩
      rw [b2]
      unfold answer
      rw [List.append_nil]
      rcases firstOfEach _ with _ | ⟨e, _ | ⟨e', es'⟩⟩
      · simp only [drawn_lets]
      · rfl
      · rfl

/-- **C190** An expression with `let`s around it has the same answer, be it a result or errors, as the expression alone
has in an input with the declarations of these `let`s behind it. (With declarations in front of it, nothing but errors is
shown: C55.) -/
theorem C190_along {s : Session} {log : List Event} (hs : History s log) (w w' : World) {line line' src src' : Text}
    (hc : Completes s line src) (hc' : Completes s line' src') {k k' : List DeclKind} {b : Expr} {ds : List InfixDecl}
    {l l' : Lexer} (hp : parse src = .ok ⟨.expr :: k, [], [lets ds b]⟩ l)
    (hp' : parse src' = .ok ⟨.expr :: k', ds, [b]⟩ l') :
    ∃ s' t' out, step w s line = .ok (true, s', out) ∧ step w' s line' = .ok (true, t', out) :=
  answer_lets hs hs w w' hc hc' hp hp' rfl rfl rfl rfl

/-- **C190** It also has the same answer as the expression alone has after an input with these declarations. -/
theorem C190_after {s : Session} {log : List Event} (hs : History s log) (w w₁ w₂ : World)
    {line line₁ line₂ src src₁ src₂ : Text} (hc : Completes s line src) (hc₁ : Completes s line₁ src₁)
    {k k₁ k₂ : List DeclKind} {b : Expr} {ds : List InfixDecl} {l l₁ l₂ : Lexer}
    (hp : parse src = .ok ⟨.expr :: k, [], [lets ds b]⟩ l) (hp₁ : parse src₁ = .ok ⟨k₁, ds, []⟩ l₁)
    (hp₂ : parse src₂ = .ok ⟨.expr :: k₂, [], [b]⟩ l₂) (hl₂ : Single line₂ src₂) :
    ∃ s₁ out₁, step w₁ s line₁ = .ok (true, s₁, out₁) ∧
      ∃ s' s₂ out, step w s line = .ok (true, s', out) ∧ step w₂ s₁ line₂ = .ok (true, s₂, out) := by
  obtain ⟨s₁, xs, es, fx, a1, a2, a3, a4⟩ := input_becomes w₁ hs hc₁ hp₁
  obtain ⟨log₁, hs₁⟩ : ∃ log₁, History s₁ log₁ := by
    by_cases hr : ∃ evs, Reads w₁ s.buffer line₁ evs
    · exact ⟨_, .reads hs hr.choose_spec a2⟩
    · exact ⟨_, .quiet hs hr a2⟩
  refine ⟨s₁, _, a2, answer_lets hs hs₁ w w₂ hc ⟨src₂, hl₂, by rw [a3]; rfl⟩ hp hp₂ rfl rfl rfl ?_⟩
  rw [a4]
  cases a1
  rfl

end

/-! ### concrete cases -/

section
attribute [local instance] asciiTables asciiTables_lawful

/-- C190: declared by `let`, before the expression and behind it. -/
example : exShown [t!"let infixl 6 + in let infixr 7 * in a + b * c * d"] = some [t!"  a + (b * (c * d))\n"] ∧
    exShown [t!"infixl 6 +; infixr 7 *", t!"a + b * c * d"] = some [t!"  a + (b * (c * d))\n"] ∧
    exShown [t!"a + b * c * d; infixl 6 +; infixr 7 *"] = some [t!"  a + (b * (c * d))\n"] := by
  decide +kernel

/-- C190: the hypotheses of `C190_after` and `C190_along` are met. -/
example : ∃ (s : Session) (b : Expr) (ds : List InfixDecl) (src src₁ src₂ src₃ : Text) (l l₁ l₂ l₃ : Lexer), History s [] ∧
    Completes s src src ∧ Completes s src₁ src₁ ∧ Completes s src₃ src₃ ∧ Single src₂ src₂ ∧ ds ≠ [] ∧
    parse src = .ok ⟨[.expr], [], [lets ds b]⟩ l ∧ parse src₁ = .ok ⟨[.infix_], ds, []⟩ l₁ ∧
    parse src₂ = .ok ⟨[.expr], [], [b]⟩ l₂ ∧ parse src₃ = .ok ⟨[.expr, .infix_], ds, [b]⟩ l₃ := by
  obtain ⟨l, h⟩ := of_value (src := t!"let infixr 6 + in a + b")
    (ast := ⟨[.expr], [], [lets [⟨[opPlus], ⟨6, .right⟩⟩] (.bin exA opPlus exB)]⟩) (by decide +kernel)
  obtain ⟨l₁, h₁⟩ := of_value (src := t!"infixr 6 +") (ast := ⟨[.infix_], [⟨[opPlus], ⟨6, .right⟩⟩], []⟩) (by decide +kernel)
  obtain ⟨l₂, h₂⟩ := of_value (src := t!"a + b") (ast := ⟨[.expr], [], [.bin exA opPlus exB]⟩) (by decide +kernel)
  obtain ⟨l₃, h₃⟩ := of_value (src := t!"a + b; infixr 6 +")
    (ast := ⟨[.expr, .infix_], [⟨[opPlus], ⟨6, .right⟩⟩], [.bin exA opPlus exB]⟩) (by decide +kernel)
  exact ⟨(Session.new exFs none).1, _, _, t!"let infixr 6 + in a + b", t!"infixr 6 +", t!"a + b", t!"a + b; infixr 6 +",
    l, l₁, l₂, l₃, .start _ _,
    ⟨_, .inl (.plain ((says_iff (by decide)).2 (by decide)) (by decide) (by decide) (by decide)), rfl⟩,
    ⟨_, .inl (.plain ((says_iff (by decide)).2 (by decide)) (by decide) (by decide) (by decide)), rfl⟩,
    ⟨_, .inl (.plain ((says_iff (by decide)).2 (by decide)) (by decide) (by decide) (by decide)), rfl⟩,
    plus_only.1, by simp, h, h₁, h₂, h₃⟩

end
end Pemdas
