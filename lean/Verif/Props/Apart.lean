import Verif.Lemmas.Apart
import Verif.Props.Becomes
import Verif.Props.Retyped
/-
C186: declarations of several operators and declarations of one operator each.
-/
namespace Pemdas
open Resolver Session

theorem letEach_distinct (f : Fixity) (os : List Infix) (b : Expr) :
    (letEach f os b).LetsDistinct ↔ b.LetsDistinct := by
  fun_induction letEach f os b <;> simp_all [Expr.LetsDistinct]

mutual
theorem letsDistinct_apart : ∀ e : Expr, e.LetsDistinct → e.apart.LetsDistinct
  | .lit _, _ => trivial
  | .var _, _ => trivial
  | .app f x, h => ⟨letsDistinct_apart f h.1, letsDistinct_apart x h.2⟩
  | .bin l _ r, h => ⟨letsDistinct_apart l h.1, letsDistinct_apart r h.2⟩
  | .lam _ b, h => letsDistinct_apart b h
  | .grp b, h => letsDistinct_apart b h
  | .neg b, h => letsDistinct_apart b h
  | .tup es, h => letsDistinctList_apart es h
  | .list es, h => letsDistinctList_apart es h
  | .let_ _ b, h => (letEach_distinct _ _ _).2 (letsDistinct_apart b h.2)
theorem letsDistinctList_apart : ∀ es : List Expr, Expr.LetsDistinctList es → Expr.LetsDistinctList (Expr.apartList es)
  | [], _ => trivial
  | e :: es, h => ⟨letsDistinct_apart e h.1, letsDistinctList_apart es h.2⟩
end

/-- **C186** Loading declarations and loading one declaration for each of their operators, in the same order, leaves the
same table, whatever it was before; also if the declarations are split in other ways. -/
theorem C186_declarations (m : Fixities) (ds ds' : List InfixDecl)
    (h : ds.flatMap InfixDecl.singly = ds'.flatMap InfixDecl.singly) : loadDecls m ds = loadDecls m ds' := by
  rw [← loadDecls_flat m ds, h, loadDecls_flat]

/-- **C186** (part that holds) An expression with one `let` for each operator instead of each of its `let`s is resolved to
the same result, but for these `let`s, with the same errors in the same order, and leaves the same fixities. Missing: `let`s
that name an operator twice. -/
theorem C186_resolved_partial {m m' : Fixities} (hw : m.Wf) {e x : Expr} {errs : List AssocError} (hl : e.LetsDistinct)
    (h : visit ⟨m, []⟩ e = .ok (⟨m', errs⟩, x)) : visit ⟨m, []⟩ e.apart = .ok (⟨m', errs⟩, x.apart) := by
  obtain ⟨x₁, es, fx, hb, m₁, -, -, h1⟩ := C152_expression hw e
  obtain ⟨x₂, es₂, fx₂, hb₂, m₂, -, -, h2⟩ := C152_expression hw e.apart
  obtain ⟨rfl, rfl, rfl⟩ := (hb₂ _ _ _).1 (((hb _ _ _).2 ⟨rfl, rfl, rfl⟩).apart hl)
  have e1 := C11_no_leak_partial _ _ _ _ hl h
  have e2 := C11_no_leak_partial _ _ _ _ (letsDistinct_apart e hl) h2
  rw [h] at h1
  cases h1
  simp only at e1 e2
  rw [h2, e1, e2]

section
variable [CharTables]

/-- **C186** What is shown for an expression is the same, down to the colours, with one `let` for each operator; for an
expression for which nothing can be shown, this remains so. -/
theorem C186_shown (m m' : Fixities) (x : Expr) (t : Text) :
    Printer.writeExpr m x = .ok t ↔ Printer.writeExpr m' x.apart = .ok t := by
  rw [C149_written, C149_written, noNeg_apart, drawn_apart]

theorem answer_apart (k k' : List DeclKind) (xs : List Expr) (es : List AssocError) (hk : k'.head? = k.head?) :
    answer k' (Expr.apartList xs) es = answer k xs es := by
  unfold answer
  rcases he : firstOfEach es with _ | ⟨e, _ | ⟨e', es'⟩⟩
  · cases k with
    | nil =>
      cases k' with
      | nil => rfl
      | cons _ _ => cases hk
    | cons a k =>
      cases k' with
      | nil => cases hk
      | cons b k' =>
        simp only [List.head?_cons, Option.some.injEq] at hk
        subst hk
        cases b <;> cases xs <;> simp [Expr.apartList, drawn_apart]
  · rfl
  · rfl

variable [LawfulTables]

theorem input_leaves (w : World) {s : Session} {log : List Event} (hh : History s log) {line src : Text}
    (hc : Completes s line src) {ast : Ast} {l : Lexer} (hp : parse src = .ok ast l)
    (hl : ∀ e ∈ ast.exprs, e.LetsDistinct) :
    ∃ s' xs es fx, BecomeAll (innermost s.resolver.fixities.get ast.infxs) ast.exprs xs es fx ∧
      step w s line = .ok (true, s', answer ast.kinds xs es) ∧ s'.buffer = [] ∧
      s'.resolver = ⟨loadDecls s.resolver.fixities ast.infxs, []⟩ := by
  obtain ⟨hw, -⟩ := history_after hh
  have hld : s.resolver.loadFixities ast = ⟨loadDecls s.resolver.fixities ast.infxs, []⟩ := by
    rw [loadFixities, C14_no_pending_error hh]
  obtain ⟨xs, es, fx, hb, m', -, -, h2⟩ := C152_input (wf_loadDecls hw ast.infxs) ast
  obtain ⟨_, a, h1, -⟩ := resolveAst_spec (loadDecls s.resolver.fixities ast.infxs) ast
    (fun e h => (C40_shape hp e h).rightNested) hl
  have hm := h2
  rw [h1] at hm
  simp only [Except.ok.injEq, Prod.mk.injEq, Resolver.mk.injEq, and_true] at hm
  obtain ⟨rfl, -⟩ := hm
  rw [← hld, loadDecls_twice hw] at h2
  obtain ⟨s', k1, k2, k3⟩ := answer_step w hc hp h2
  have := (hb xs es fx).2 ⟨rfl, rfl, rfl⟩
  rw [C13_last_declaration_wins, innermost_idem] at this
  exact ⟨s', xs, es, fx, this, k1, k2, k3⟩

/-- **C186** (part that holds) An input whose declarations are written one operator at a time, at its beginning and in its
`let`s, has the same answer, be it a result or errors, and leaves the same fixities. Missing: `let`s that name an operator
twice. -/
theorem C186_answer_partial (w : World) {s : Session} {log : List Event} (hh : History s log) {line line' src src' : Text}
    (hc : Completes s line src) (hc' : Completes s line' src') {ast ast' : Ast} {l l' : Lexer}
    (hp : parse src = .ok ast l) (hp' : parse src' = .ok ast' l') (hl : ∀ e ∈ ast.exprs, e.LetsDistinct)
    (hk : ast'.kinds.head? = ast.kinds.head?)
    (hi : ast'.infxs.flatMap InfixDecl.singly = ast.infxs.flatMap InfixDecl.singly)
    (hx : ast'.exprs = Expr.apartList ast.exprs) :
    ∃ s₁ s₂ out, step w s line = .ok (true, s₁, out) ∧ step w s line' = .ok (true, s₂, out) ∧
      s₁.buffer = [] ∧ s₂.buffer = [] ∧ s₂.resolver = s₁.resolver := by
  have hl1 := (letsDistinctList_iff ast.exprs).2 hl
  have hl2 : ∀ e ∈ ast'.exprs, e.LetsDistinct := by
    rw [hx]; exact (letsDistinctList_iff _).1 (letsDistinctList_apart _ hl1)
  obtain ⟨s₁, xs, es, fx, a1, a2, a3, a4⟩ := input_leaves w hh hc hp hl
  obtain ⟨s₂, xs', es', fx', b1, b2, b3, b4⟩ := input_leaves w hh hc' hp' hl2
  have hd := C186_declarations s.resolver.fixities _ _ hi
  rw [← C13_last_declaration_wins, hd, C13_last_declaration_wins, hx] at b1
  obtain ⟨rfl, rfl, rfl⟩ := b1.unique (a1.apart hl1)
  exact ⟨s₁, s₂, _, a2, by rw [b2, answer_apart _ _ _ _ hk], a3, b3, by rw [a4, b4, hd]⟩

/-- **C186** (part that holds) Declarations that are entered in one input or one after the other in two leave the same
fixities, also if each input contains expressions. Missing: `let`s that name an operator twice. -/
theorem C186_entered_partial (w : World) {s : Session} {log : List Event} (hh : History s log)
    {line line₁ line₂ src src₁ src₂ : Text} (hc : Completes s line src) (hc₁ : Completes s line₁ src₁)
    {ast ast₁ ast₂ : Ast} {l l₁ l₂ : Lexer}
    (hp : parse src = .ok ast l) (hp₁ : parse src₁ = .ok ast₁ l₁) (hp₂ : parse src₂ = .ok ast₂ l₂)
    (hl : ∀ e ∈ ast.exprs, e.LetsDistinct) (hl₁ : ∀ e ∈ ast₁.exprs, e.LetsDistinct)
    (hl₂ : ∀ e ∈ ast₂.exprs, e.LetsDistinct)
    (hi : ast.infxs.flatMap InfixDecl.singly = (ast₁.infxs ++ ast₂.infxs).flatMap InfixDecl.singly)
    {s₁ : Session} {b₁ : Bool} {out₁ : List Effect} (h₁ : step w s line₁ = .ok (b₁, s₁, out₁))
    (hc₂ : Completes s₁ line₂ src₂) :
    ∃ s₂ s' out₂ out, step w s₁ line₂ = .ok (true, s₂, out₂) ∧ step w s line = .ok (true, s', out) ∧
      s'.resolver = s₂.resolver := by
  obtain ⟨log₁, hh₁⟩ : ∃ log₁, History s₁ log₁ := by
    by_cases hr : ∃ evs, Reads w s.buffer line₁ evs
    · exact ⟨_, .reads hh hr.choose_spec h₁⟩
    · exact ⟨_, .quiet hh hr h₁⟩
  obtain ⟨s', xs, es, fx, -, a2, -, a4⟩ := input_leaves w hh hc hp hl
  obtain ⟨s₀, xs₁, es₁, fx₁, -, b2, -, b4⟩ := input_leaves w hh hc₁ hp₁ hl₁
  obtain ⟨s₂, xs₂, es₂, fx₂, -, c2, -, c4⟩ := input_leaves w hh₁ hc₂ hp₂ hl₂
  rw [h₁] at b2
  cases b2
  exact ⟨s₂, s', _, _, c2, a2, by rw [a4, c4, b4, C186_declarations _ _ _ hi, loadDecls_cat]⟩

end

/-! ### concrete cases -/

section
attribute [local instance] asciiTables asciiTables_lawful

/-- C186: declarations of two operators and declarations of one each are answered alike. -/
example : exShown [t!"infixl 6 +, *", t!"a + b * c", t!"let infixr 5 +, * in a + b * c"] =
      some [t!"  (a + b) * c\n", t!"  a + (b * c)\n"] ∧
    exShown [t!"infixl 6 +", t!"infixl 6 *", t!"a + b * c", t!"let infixr 5 + in let infixr 5 * in a + b * c"] =
      some [t!"  (a + b) * c\n", t!"  a + (b * c)\n"] := by
  decide +kernel

/-- C186: `C186_resolved_partial` for a `let` with two operators that are ambiguous in its body. -/
example : ∃ e x : Expr, exTable.Wf ∧ e.LetsDistinct ∧ e.apart ≠ e ∧ ∃ err,
    visit ⟨exTable, []⟩ e = .ok (⟨exTable, [err]⟩, x) ∧ visit ⟨exTable, []⟩ e.apart = .ok (⟨exTable, [err]⟩, x.apart) := by
  refine ⟨.let_ ⟨[opPlus, opMul], ⟨4, .neither⟩⟩ (.bin exA opPlus (.bin exB opMul exC)),
    .let_ ⟨[opPlus, opMul], ⟨4, .neither⟩⟩ (.bin exA opPlus (.bin exB opMul exC)), by unfold Fixities.Wf; decide, ?_, by decide,
    ⟨(opPlus, ⟨4, .neither⟩), (opMul, ⟨4, .neither⟩)⟩, by decide, by decide⟩
  simp [Expr.LetsDistinct, exA, exB, exC, opPlus, opMul, Infix.symbol]

/-- C186: the hypotheses of `C186_answer_partial` are met. -/
example : ∃ (s : Session) (src src' : Text) (ast ast' : Ast) (l l' : Lexer), History s [] ∧
    Completes s src src ∧ Completes s src' src' ∧ parse src = .ok ast l ∧ parse src' = .ok ast' l' ∧
    (∀ e ∈ ast.exprs, e.LetsDistinct) ∧ ast'.kinds.head? = ast.kinds.head? ∧
    ast'.infxs.flatMap InfixDecl.singly = ast.infxs.flatMap InfixDecl.singly ∧
    ast'.exprs = Expr.apartList ast.exprs ∧ ast'.exprs ≠ ast.exprs := by
  obtain ⟨l, h⟩ := of_value (src := t!"let infixl 6 +, * in a + b")
    (ast := ⟨[.expr], [], [.let_ ⟨[opPlus, opMul], ⟨6, .left⟩⟩ (.bin exA opPlus exB)]⟩) (by decide +kernel)
  obtain ⟨l', h'⟩ := of_value (src := t!"let infixl 6 + in let infixl 6 * in a + b")
    (ast := ⟨[.expr], [], [.let_ ⟨[opPlus], ⟨6, .left⟩⟩ (.let_ ⟨[opMul], ⟨6, .left⟩⟩ (.bin exA opPlus exB))]⟩)
    (by decide +kernel)
  refine ⟨(Session.new exFs none).1, t!"let infixl 6 +, * in a + b", t!"let infixl 6 + in let infixl 6 * in a + b",
    _, _, l, l', .start _ _,
    ⟨_, .inl (.plain ((says_iff (by decide)).2 (by decide)) (by decide) (by decide) (by decide)), rfl⟩,
    ⟨_, .inl (.plain ((says_iff (by decide)).2 (by decide)) (by decide) (by decide) (by decide)), rfl⟩,
    h, h', ?_, rfl, rfl, rfl, by decide⟩
  intro x hx
  rw [List.mem_singleton.1 hx]
  simp [Expr.LetsDistinct, exA, exB, opPlus, opMul, Infix.symbol]

/-- C186: the hypotheses of `C186_entered_partial` are met. -/
example : ∃ (w : World) (s s₁ : Session) (src src₁ src₂ : Text) (ast ast₁ ast₂ : Ast) (l l₁ l₂ : Lexer) (b : Bool)
    (out : List Effect), History s [] ∧ Completes s src src ∧ Completes s src₁ src₁ ∧ parse src = .ok ast l ∧
    parse src₁ = .ok ast₁ l₁ ∧ parse src₂ = .ok ast₂ l₂ ∧ ast.exprs = [] ∧ ast₁.exprs = [] ∧ ast₂.exprs = [] ∧
    ast.infxs.flatMap InfixDecl.singly = (ast₁.infxs ++ ast₂.infxs).flatMap InfixDecl.singly ∧
    step w s src₁ = .ok (b, s₁, out) ∧ Completes s₁ src₂ src₂ := by
  obtain ⟨l, h⟩ := of_value (src := t!"infixl 6 +, *")
    (ast := ⟨[.infix_], [⟨[opPlus, opMul], ⟨6, .left⟩⟩], []⟩) (by decide +kernel)
  obtain ⟨l₁, h₁⟩ := of_value (src := t!"infixl 6 +") (ast := ⟨[.infix_], [⟨[opPlus], ⟨6, .left⟩⟩], []⟩) (by decide +kernel)
  obtain ⟨l₂, h₂⟩ := of_value (src := t!"infixl 6 *") (ast := ⟨[.infix_], [⟨[opMul], ⟨6, .left⟩⟩], []⟩) (by decide +kernel)
  have hc : Completes (Session.new exFs none).1 t!"infixl 6 +" t!"infixl 6 +" :=
    ⟨_, .inl (.plain ((says_iff (by decide)).2 (by decide)) (by decide) (by decide) (by decide)), rfl⟩
  obtain ⟨s₁, xs, es, fx, -, k1, k2, -⟩ := input_leaves exWorld (.start exFs none) hc h₁ (by simp)
  exact ⟨exWorld, (Session.new exFs none).1, s₁, t!"infixl 6 +, *", t!"infixl 6 +", t!"infixl 6 *", _, _, _, l, l₁, l₂, _, _,
    .start _ _, ⟨_, .inl (.plain ((says_iff (by decide)).2 (by decide)) (by decide) (by decide) (by decide)), rfl⟩, hc,
    h, h₁, h₂, rfl, rfl, rfl, rfl, k1,
    ⟨t!"infixl 6 *", .inl (.plain ((says_iff (by decide)).2 (by decide)) (by decide) (by decide) (by decide)), by rw [k2]; rfl⟩⟩

/-- C186 is false: a `let` that names an operator twice leaves its fixity behind, two `let`s do not. -/
theorem C186_let_wrong :
    exShown [t!"infixl 6 +", t!"(let infixr 9 +, + in a, b + c + d)"] = some [t!"  (a, b + (c + d))\n"] ∧
    exShown [t!"infixl 6 +", t!"(let infixr 9 + in let infixr 9 + in a, b + c + d)"] =
      some [t!"  (a, (b + c) + d)\n"] := by
  decide +kernel

end
end Pemdas
