import Verif.Lemmas.Redundant
import Verif.Props.Retyped
/-
C183: parentheses around operands that are grouped that way anyway.
-/
namespace Pemdas
open Resolver Session

theorem Expr.toksList_inj_of_grouped {fx : Env} : ∀ {xs ys : List Expr}, Expr.toksList xs = Expr.toksList ys →
    Expr.GroupedList fx xs → Expr.GroupedList fx ys → xs = ys
  | [], [], _, _, _ => rfl
  | [], _ :: _, h, _, _ => by simp [Expr.toksList] at h
  | _ :: _, [], h, _, _ => by simp [Expr.toksList] at h
  | x :: xs, y :: ys, h, g, g' => by
    simp only [Expr.toksList, List.cons.injEq] at h
    rw [grouped_unique x y fx h.1 g.1 g'.1, Expr.toksList_inj_of_grouped h.2 g.2 g'.2]

/-- **C183** (part that holds) If an expression is resolved without an error, then also with parentheses around any operands of the
result, and the result is the same but for these parentheses. Missing: `let`s that name an operator twice. -/
theorem C183_resolved_partial (m m' : Fixities) (e e' x x' : Expr) (hs : e.RightNested) (hs' : e'.RightNested)
    (hl : e.LetsDistinct) (hl' : e'.LetsDistinct) (h : visit ⟨m, []⟩ e = .ok (⟨m', []⟩, x)) (hx : x.Enclosed x')
    (ht : e'.toks = x'.toks) : visit ⟨m, []⟩ e' = .ok (⟨m', []⟩, x') := by
  have h1 := C09_result_grouped_partial m m' e x hs hl h
  have h2 := C10_result_is_regrouping_partial m e x hs hl (C09_only_grouping_changes _ _ _ _ h) h1
  rw [h] at h2
  simp only [Except.ok.injEq, Prod.mk.injEq, Resolver.mk.injEq, and_true] at h2
  rw [h2]
  exact C10_result_is_regrouping_partial m e' x' hs' hl' ht.symm (hx.grouped _ h1)

section
variable [CharTables]

/-- **C183** What is shown for an expression is the same, down to the colours, with parentheses around any operands. -/
theorem C183_shown (m m' : Fixities) {x x' : Expr} (h : x.Enclosed x') (hn : x.NoNeg) (hn' : x'.NoNeg) :
    ∃ t, Printer.writeExpr m x = .ok t ∧ Printer.writeExpr m' x' = .ok t :=
  ⟨_, (C149_written m x _).2 ⟨hn, rfl⟩, (C149_written m' x' _).2 ⟨hn', by rw [h.drawn]⟩⟩

variable [LawfulTables]

/-- **C183** (part that holds) An input that is accepted has the same answer with parentheses around any operands of the result, and
leaves the same fixities. Missing: `let`s that name an operator twice. -/
theorem C183_answer_partial (w : World) {s : Session} {log : List Event} (hh : History s log) {line line' src src' : Text}
    (hc : Completes s line src) (hc' : Completes s line' src') {ast ast' : Ast} {l l' : Lexer}
    (hp : parse src = .ok ast l) (hp' : parse src' = .ok ast' l') (hl : ∀ e ∈ ast.exprs, e.LetsDistinct)
    (hl' : ∀ e ∈ ast'.exprs, e.LetsDistinct) {r : Resolver} {xs xs' : List Expr}
    (hr : (s.resolver.loadFixities ast).resolveAst ast = .ok (r, { ast with exprs := xs }, []))
    (hk : ast'.kinds = ast.kinds) (hi : ast'.infxs = ast.infxs) (hx : AllEnclosed xs xs')
    (ht : Expr.toksList ast'.exprs = Expr.toksList xs') :
    ∃ s₁ s₂ out, step w s line = .ok (true, s₁, out) ∧ step w s line' = .ok (true, s₂, out) ∧
      s₁.buffer = [] ∧ s₂.buffer = [] ∧ s₂.resolver = s₁.resolver := by
  have he := C14_no_pending_error hh
  have hre := resolveAst_errors hr
  have hrn : ∀ e ∈ ast.exprs, e.RightNested := fun e h => (C40_shape hp e h).rightNested
  have hrn' : ∀ e ∈ ast'.exprs, e.RightNested := fun e h => (C40_shape hp' e h).rightNested
  have hq : s.resolver.loadFixities ast = ⟨loadDecls s.resolver.fixities ast.infxs, []⟩ := by rw [loadFixities, he]
  have hq' : s.resolver.loadFixities ast' = ⟨loadDecls s.resolver.fixities ast.infxs, []⟩ := by
    rw [loadFixities, he, hi]
  obtain ⟨es, a, h1, -, h2, h3, h4, -, -⟩ := resolveAst_spec (loadDecls s.resolver.fixities ast.infxs) ast hrn hl
  obtain ⟨es', a', h1', -, h2', h3', h4', h5', h6'⟩ :=
    resolveAst_spec (loadDecls s.resolver.fixities ast.infxs) ast' hrn' hl'
  rw [hi] at h1' h2' h3'
  have hr0 := hr
  rw [hq, h1] at hr0
  simp only [Except.ok.injEq, Prod.mk.injEq] at hr0
  obtain ⟨rfl, rfl, hes⟩ := hr0
  obtain rfl : es = [] := (storeAll_eq_nil es).1 hes
  have hg := hx.grouped _ (h3 rfl)
  obtain rfl : es' = [] := h2'.2 ⟨xs', ht.symm, hg⟩
  have ha : a'.exprs = xs' := Expr.toksList_inj_of_grouped (h4'.trans ht) (h3' rfl) hg
  have hr' : (s.resolver.loadFixities ast').resolveAst ast' =
      .ok (⟨loadDecls (loadDecls s.resolver.fixities ast.infxs) ast.infxs, []⟩, { ast' with exprs := xs' }, []) := by
    rw [hq', h1']
    cases a'
    simp only at ha h5' h6'
    subst ha h5' h6'
    rfl
  obtain ⟨s₁, e1, e2, e3⟩ := answer_step w (es := []) hc hp hr
  obtain ⟨s₂, f1, f2, f3⟩ := answer_step w (es := []) hc' hp' hr'
  refine ⟨s₁, s₂, _, e1, ?_, e2, f2, by rw [e3, f3]⟩
  rw [f1, hk]
  congr 3
  cases hx with
  | nil => rfl
  | cons h _ =>
    cases ast.kinds with
    | nil => rfl
    | cons k _ => cases k <;> simp [answer, firstOfEach, h.drawn]

/-- **C183** Parentheses around operands change the answer if they are not those that the fixities demand: if an
input and another one with parentheses have the same answer, then the result for the second is that for the first, with
these parentheses. Missing: expressions whose texts cannot be read back (C46). -/
theorem C183_visible_partial (m m' : Fixities) {x y x' : Expr} (hx : x.Rereads) (hx' : x'.Rereads) (hy : y.Enclosed x')
    (ht : y.toks = x.toks) {t : Text} (h : Printer.writeExpr m x = .ok t) (h' : Printer.writeExpr m' x' = .ok t) :
    y = x := by
  obtain ⟨t₁, e₁, l₁, a1, a2, a3, -⟩ := C46_reparse_partial hx m
  obtain ⟨t₂, e₂, l₂, b1, b2, b3, -⟩ := C46_reparse_partial hx' m'
  rw [h] at a1
  rw [h'] at b1
  cases a1
  cases b1
  rw [a2] at b2
  cases b2
  exact expr_of_toks y x ht (by rw [← a3, b3, hy.skeleton])

end

/-! ### concrete cases -/

section
attribute [local instance] asciiTables asciiTables_lawful

/-- C183: `a + (b * c) + d` is answered like `a + b * c + d`, but `(a + b) * c + d` is not. -/
example : exShown [t!"infixl 6 +", t!"infixl 7 *", t!"a + b * c + d"] = some [t!"  (a + (b * c)) + d\n"] ∧
    exShown [t!"infixl 6 +", t!"infixl 7 *", t!"a + (b * c) + d"] = some [t!"  (a + (b * c)) + d\n"] ∧
    exShown [t!"infixl 6 +", t!"infixl 7 *", t!"(a + (b * c)) + d"] = some [t!"  (a + (b * c)) + d\n"] ∧
    exShown [t!"infixl 6 +", t!"infixl 7 *", t!"(a + b) * c + d"] = some [t!"  ((a + b) * c) + d\n"] := by
  decide +kernel

/-- C183: the hypotheses of `C183_resolved_partial` are met. -/
example : ∃ e e' x x' : Expr, e.RightNested ∧ e'.RightNested ∧ e.LetsDistinct ∧ e'.LetsDistinct ∧
    visit ⟨exTable, []⟩ e = .ok (⟨exTable, []⟩, x) ∧ x.Enclosed x' ∧ x ≠ x' ∧ e'.toks = x'.toks ∧
    visit ⟨exTable, []⟩ e' = .ok (⟨exTable, []⟩, x') := by
  refine ⟨exChain, .bin exA opMul (.bin (.grp (.bin exB opPow exC)) opPlus exD), exTree.toExpr,
    .bin (.bin exA opMul (.grp (.bin exB opPow exC))) opPlus exD, ?_, ?_, ?_, ?_, by decide,
    .more .same (.inLeft (.right rfl)), by decide, rfl, by decide⟩ <;>
  simp [exChain, Expr.RightNested, Expr.LetsDistinct, Expr.NonBin, Expr.rootOp, exA, exB, exC, exD]

/-- C183: the hypotheses of `C183_answer_partial` are met. -/
example : ∃ (s : Session) (src src' : Text) (ast ast' : Ast) (l l' : Lexer) (x x' : Expr) (r : Resolver), History s [] ∧
    Completes s src src ∧ Completes s src' src' ∧ parse src = .ok ast l ∧ parse src' = .ok ast' l' ∧
    (∀ e ∈ ast.exprs, e.LetsDistinct) ∧ (∀ e ∈ ast'.exprs, e.LetsDistinct) ∧
    (s.resolver.loadFixities ast).resolveAst ast = .ok (r, { ast with exprs := [x] }, []) ∧
    ast'.kinds = ast.kinds ∧ ast'.infxs = ast.infxs ∧ AllEnclosed [x] [x'] ∧ x ≠ x' ∧
    Expr.toksList ast'.exprs = Expr.toksList [x'] := by
  obtain ⟨l, h⟩ := of_value (src := t!"a + b + c")
    (ast := ⟨[.expr], [], [.bin exA opPlus (.bin exB opPlus exC)]⟩) (by decide +kernel)
  obtain ⟨l', h'⟩ := of_value (src := t!"(a + b) + c")
    (ast := ⟨[.expr], [], [.bin (.grp (.bin exA opPlus exB)) opPlus exC]⟩) (by decide +kernel)
  refine ⟨(Session.new exFs none).1, t!"a + b + c", t!"(a + b) + c", _, _, l, l',
    .bin (.bin exA opPlus exB) opPlus exC, .bin (.grp (.bin exA opPlus exB)) opPlus exC, ⟨[], []⟩, .start _ _,
    ⟨t!"a + b + c", .inl (.plain ⟨[], [], by simp, by simp [Blank], by simp [Blank], ⟨_, _, rfl, by decide⟩,
      ⟨t!"a + b + ", 'c', rfl, by decide⟩⟩ (by decide) (by decide) (by decide)), rfl⟩,
    ⟨t!"(a + b) + c", .inl (.plain ⟨[], [], by simp, by simp [Blank], by simp [Blank], ⟨_, _, rfl, by decide⟩,
      ⟨t!"(a + b) + ", 'c', rfl, by decide⟩⟩ (by decide) (by decide) (by decide)), rfl⟩, h, h', ?_, ?_,
    by decide +kernel, rfl, rfl, .cons (.more .same (.left rfl)) .nil, by decide, rfl⟩ <;>
  · intro x hx
    rw [List.mem_singleton.1 hx]
    simp [Expr.LetsDistinct, exA, exB, exC]

/-- C183: the hypotheses of `C183_visible_partial` are met. -/
example : ∃ x x' : Expr, x.Rereads ∧ x'.Rereads ∧ x.Enclosed x' ∧ x ≠ x' := by
  have hn : ∀ c ∈ t!"abc", PlainName [c] := by
    intro c hc
    have := (by decide : ∀ c ∈ t!"abc", isLowercase c = true ∧ [c] ∉ keywords ∧ isTrailing c = false) c hc
    exact ⟨⟨c, [], rfl, this.1, ⟨[], [], rfl, rfl, rfl⟩, this.2.1⟩, by simpa using this.2.2⟩
  have hp : OpName t!"+" := ⟨'+', [], rfl, by decide, ⟨[], [], rfl, rfl, rfl⟩, by decide⟩
  exact ⟨.bin (.bin exA opPlus exB) opPlus exC, .bin (.grp (.bin exA opPlus exB)) opPlus exC,
    ⟨.inl hp, ⟨.inl hp, hn 'a' (by decide), hn 'b' (by decide)⟩, hn 'c' (by decide)⟩,
    ⟨.inl hp, ⟨.inl hp, hn 'a' (by decide), hn 'b' (by decide)⟩, hn 'c' (by decide)⟩,
    .more .same (.left rfl), by decide⟩

/-- C183 is false: what stands in parentheses is grouped after what stands to the left of it has been resolved, so
that the fixities left behind by a `let` that names an operator twice apply to it. -/
theorem C183_let_wrong :
    exShown [t!"infixl 6 +", t!"infixl 7 *", t!"infixr 0 $", t!"(let infixl 0 *, * in x) $ b * c + d"] =
      some [t!"  (x) $ ((b * c) + d)\n"] ∧
    exShown [t!"infixl 6 +", t!"infixl 7 *", t!"infixr 0 $", t!"(let infixl 0 *, * in x) $ (b * c + d)"] =
      some [t!"  (x) $ (b * (c + d))\n"] := by
  decide +kernel

end
end Pemdas
