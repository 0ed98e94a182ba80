import Verif.Lemmas.Clashes
import Verif.Props.Resolver
/-
C98–C100: exactly which errors resolution reports.
-/
namespace Pemdas
open OpTree Resolver

/-- `a + b == c == d == a` as the parser delivers it. -/
def exTwo : Expr := .bin exA opPlus (.bin exB opEq (.bin exC opEq (.bin exD opEq exA)))

/-- **C98** `rewrite` reports exactly the first clash of a chain, with the fixities of the
table. -/
theorem C98_first_clash (m : Fixities) (e : Expr) (err : AssocError) :
    m.rewrite e = .ok (.error err) ↔
      ∃ p c, FirstClash m.get e.chainOperators p c ∧ err = clashError m.get p c := by
  constructor
  · intro h
    obtain ⟨p, c, h1, h2⟩ := rewrite_first h
    exact ⟨p, c, h2, h1⟩
  · rintro ⟨p, c, h, rfl⟩
    obtain ⟨err, he⟩ := (C03_error_iff_clash m e).2 ⟨p, c, h.clashIn⟩
    obtain ⟨p', c', h1, h2⟩ := rewrite_first he
    obtain ⟨rfl, rfl⟩ := h.unique h2
    rw [he, h1]

example : FirstClash exTable.get exTwo.chainOperators opEq opEq := by
  refine ⟨[opPlus], [], [opEq], rfl, by unfold Clash; decide, by simp, ?_⟩
  rintro ⟨p', c', hc⟩
  exact no_clash_of_wellGrouped (fx := exTable.get)
    (t := .node (.node (.leaf exA) opPlus (.leaf exB)) opEq (.leaf exC))
    (by simp [WellGrouped, root, LeftOk, exTable, Fixities.get, Fixities.getDefined,
      Infix.symbol, opPlus, opMul, opPow, opEq]) hc

/-- **C98** A chain has a first clash iff it has a clash, and it has only one. -/
theorem C98_first_exists_unique (fx : Env) (ops : List Infix) :
    ((∃ p c, FirstClash fx ops p c) ↔ ∃ p c, ClashIn fx ops p c) ∧
      ∀ p c p' c', FirstClash fx ops p c → FirstClash fx ops p' c' → p = p' ∧ c = c' := by
  refine ⟨⟨fun ⟨p, c, h⟩ => ⟨p, c, h.clashIn⟩, ?_⟩, fun p c p' c' h h' => h.unique h'⟩
  rintro ⟨p, c, h⟩
  cases hm : machine fx [] (.leaf exA) (ops.map fun o => (o, exA)) with
  | ok t =>
    refine (no_clash_of_wellGrouped (machine_sound (st := []) trivial hm) (p := p) (c := c) ?_).elim
    rw [t.operators_eq, (machine_order hm).2]
    simpa [pendingRest, rest, List.map_map, Function.comp_def] using h
  | error err =>
    obtain ⟨p', c', -, h'⟩ := machine_first hm
    refine ⟨p', c', ?_⟩
    simpa [List.map_map, Function.comp_def] using h'

/-- **C98** What stands to the right of the first clash has no influence on the error, and
neither have the operands. -/
theorem C98_prefix_decides (m : Fixities) (e e' : Expr) (err : AssocError)
    (h : m.rewrite e = .ok (.error err)) (more : List Infix)
    (he : e'.chainOperators = e.chainOperators ++ more) : m.rewrite e' = .ok (.error err) := by
  rw [C98_first_clash] at h ⊢
  obtain ⟨p, c, ⟨pre, mid, post, h1, h2, h3, h4⟩, h5⟩ := h
  exact ⟨p, c, ⟨pre, mid, post ++ more, by rw [he, h1]; simp, h2, h3, h4⟩, h5⟩

example : exTable.rewrite exBad = .ok (.error ⟨(opEq, ⟨4, .neither⟩), (opEq, ⟨4, .neither⟩)⟩) ∧
    (Expr.bin exC opEq (.bin exB opMul (.bin exC opEq (.bin exA opPow exD)))).chainOperators =
      exBad.chainOperators ++ [opPow] := by decide

/-- **C99** Resolving an expression in the shape the parser gives, whose `let`s do not name an
operator twice, has exactly the outcome of the rules: the resolved expression, and the errors in
the order met, those alike reported once.  The table is unchanged. -/
theorem C99_exact_partial (m m' : Fixities) (e e' : Expr) (errs : List AssocError)
    (hs : e.RightNested) (hl : e.LetsDistinct) :
    visit ⟨m, []⟩ e = .ok (⟨m', errs⟩, e') ↔
      m' = m ∧ ∃ es, Resolves m.get e e' es ∧ errs = firstOfEach es := by
  obtain ⟨es, e₁, f⟩ := visit_follows e hl hs m
  have hv := f.vis []
  rw [storeAll_firstOfEach] at hv
  constructor
  · intro h
    rw [hv] at h
    simp only [Except.ok.injEq, Prod.mk.injEq, Resolver.mk.injEq] at h
    obtain ⟨⟨rfl, rfl⟩, rfl⟩ := h
    exact ⟨rfl, es, f.rules, rfl⟩
  · rintro ⟨rfl, es', h, rfl⟩
    obtain ⟨rfl, rfl⟩ := f.rules.unique h
    exact hv

example : exErr.RightNested ∧ exErr.LetsDistinct ∧
    visit ⟨exTable, []⟩ exErr =
      .ok (⟨exTable, [⟨(opEq, ⟨4, .neither⟩), (opEq, ⟨4, .neither⟩)⟩]⟩, exErr) :=
  ⟨exErr_ok.1, exErr_ok.2, by decide⟩

/-- **C99** The same for a whole input: its expressions are resolved one after the other under
the fixities its declarations leave, and nothing else of it changes. -/
theorem C99_input_exact_partial (m : Fixities) (a a' : Ast) (r' : Resolver)
    (errs : List AssocError) (hs : ∀ e ∈ a.exprs, e.RightNested)
    (hl : ∀ e ∈ a.exprs, e.LetsDistinct) :
    resolveAst ⟨m, []⟩ a = .ok (r', a', errs) ↔
      r' = ⟨loadDecls m a.infxs, []⟩ ∧ ∃ zs : List (Expr × Expr × List AssocError),
        a.exprs = zs.map (·.1) ∧ a' = { a with exprs := zs.map (·.2.1) } ∧
        (∀ z ∈ zs, Resolves (innermost m.get a.infxs) z.1 z.2.1 z.2.2) ∧
        errs = firstOfEach (zs.flatMap (·.2.2)) := by
  rw [← C13_last_declaration_wins]
  obtain ⟨zs, h1, h2, h3⟩ := list_follows (m := loadDecls m a.infxs) (xs := a.exprs)
    (fun x hx => visit_follows x (hl x hx) (hs x hx) _)
  have hv : resolveAst ⟨m, []⟩ a = .ok (⟨loadDecls m a.infxs, []⟩,
      { a with exprs := zs.map (·.2.1) }, firstOfEach (zs.flatMap (·.2.2))) := by
    rw [← storeAll_firstOfEach]
    simp only [resolveAst, visitAst, bind, Except.bind, h2 []]
    split
    · rename_i h
      rw [h]
    · rfl
  constructor
  · intro h
    rw [hv] at h
    simp only [Except.ok.injEq, Prod.mk.injEq] at h
    obtain ⟨rfl, rfl, rfl⟩ := h
    exact ⟨rfl, zs, h1.symm, rfl, h3, rfl⟩
  · rintro ⟨rfl, zs', g1, rfl, g3, rfl⟩
    obtain rfl := triples_eq (fun z hz e es h => (h3 z hz).unique h) g3 (h1.trans g1)
    exact hv

/-- **C99** Every expression has exactly one outcome under the rules. -/
theorem C99_rules_functional (fx : Env) (e e₁ e₂ : Expr) (es₁ es₂ : List AssocError)
    (h₁ : Resolves fx e e₁ es₁) (h₂ : Resolves fx e e₂ es₂) : e₁ = e₂ ∧ es₁ = es₂ :=
  h₁.unique h₂

example : Resolves exTable.get exChain exTree.toExpr [] := by
  have := visit_follows exChain (by simp [exChain, Expr.LetsDistinct, exA, exB, exC, exD])
    (by simp [exChain, Expr.RightNested, Expr.NonBin, Expr.rootOp, exA, exB, exC, exD]) exTable
  obtain ⟨es, e', f⟩ := this
  have hv := f.vis []
  have he : visit ⟨exTable, []⟩ exChain = .ok (⟨exTable, []⟩, exTree.toExpr) := by decide
  rw [he, storeAll_firstOfEach] at hv
  simp only [Except.ok.injEq, Prod.mk.injEq, Resolver.mk.injEq, true_and] at hv
  obtain ⟨h1, rfl⟩ := hv
  cases es with
  | nil => exact f.rules
  | cons a b => simp [firstOfEach] at h1

/-- **C99 fails in general**: after a `let` naming an operator twice, the table is not the same
as before and a later expression is not grouped as the rules demand. -/
theorem C99_exact_wrong : ∃ m' e' e'', exDup.RightNested ∧
    visit ⟨exTable, []⟩ exDup = .ok (⟨m', []⟩, e') ∧ m' ≠ exTable ∧
    Resolves exTable.get exDup e'' [] ∧ e' ≠ e'' := by
  refine ⟨[(opPlus, ⟨4, .right⟩), (opMul, ⟨7, .left⟩), (opPow, ⟨8, .right⟩), (opEq, ⟨4, .neither⟩)],
    exDup, .list [.let_ ⟨[opPlus, opPlus], ⟨4, .right⟩⟩ exA, .bin (.bin exA opPlus exB) opPlus exC],
    ?_, by decide, by decide, ?_, by decide⟩
  · simp [exDup, Expr.RightNested, Expr.RightNestedList, Expr.NonBin, Expr.rootOp, exA, exB, exC]
  · have hb : Resolves exTable.get (.bin exA opPlus (.bin exB opPlus exC))
        (.bin (.bin exA opPlus exB) opPlus exC) [] :=
      .grouped (.node (.node (.leaf exA) opPlus (.leaf exB)) opPlus (.leaf exC))
        [(exA, exA, []), (exB, exB, []), (exC, exC, [])]
        (by simp [WellGrouped, root, LeftOk, exTable, Fixities.get, Fixities.getDefined,
          Infix.symbol, opPlus]) rfl rfl rfl
        (fun z hz => by
          simp only [List.mem_cons, List.not_mem_nil, or_false] at hz
          rcases hz with rfl | rfl | rfl <;> exact .var)
    refine .list [(.let_ ⟨[opPlus, opPlus], ⟨4, .right⟩⟩ exA,
      .let_ ⟨[opPlus, opPlus], ⟨4, .right⟩⟩ exA, []), (_, _, [])] rfl (fun z hz => ?_)
    simp only [List.mem_cons, List.not_mem_nil, or_false] at hz
    rcases hz with rfl | rfl
    · exact .let_ .var
    · exact hb

/-- `a == (a + b <> c) == d` -/
def exNested : Expr :=
  .bin exA opEq (.bin (.grp (.bin exA opPlus (.bin exB (.standard t!"<>") exC))) opEq exD)

/-- `exTable` with `infixr 6 <>`. -/
def exTable' : Fixities := (.standard t!"<>", ⟨6, .right⟩) :: exTable

/-- **C100 fails in general**: a chain inside an operand of an ambiguous chain is not looked at;
its clash is not reported. -/
theorem C100_all_reported_wrong : ∃ (m : Fixities) (e : Expr) (errs : List AssocError)
    (fx' : Env) (e' : Expr) (p c : Infix), e.RightNested ∧ e.LetsDistinct ∧
    visit ⟨m, []⟩ e = .ok (⟨m, errs⟩, e) ∧ SubAt m.get e fx' e' ∧
    FirstClash fx' e'.chainOperators p c ∧ ¬ ∃ err ∈ errs, err.Alike (clashError fx' p c) := by
  refine ⟨exTable', exNested, [⟨(opEq, ⟨4, .neither⟩), (opEq, ⟨4, .neither⟩)⟩], exTable'.get,
    .bin exA opPlus (.bin exB (.standard t!"<>") exC), opPlus, .standard t!"<>", ?_, ?_,
    by decide, .binR (.binL (.grp .here)), ?_, by decide⟩
  · simp [exNested, Expr.RightNested, Expr.NonBin, Expr.rootOp, exA, exB, exC, exD]
  · simp [exNested, Expr.LetsDistinct, exA, exB, exC, exD]
  · refine ⟨[], [], [], rfl, by unfold Clash; decide, by simp, ?_⟩
    rintro ⟨p', c', pre, mid, post, h, -⟩
    have := congrArg List.length h
    simp at this
    omega

/-- **C100** What holds: exactly the outermost ambiguous chains are reported, each with its
first clash. -/
theorem C100_outermost_reported_partial (m m' : Fixities) (e e' : Expr) (errs : List AssocError)
    (hs : e.RightNested) (hl : e.LetsDistinct) (h : visit ⟨m, []⟩ e = .ok (⟨m', errs⟩, e')) :
    (∀ fx' x p c, Outermost m.get e fx' x → FirstClash fx' x.chainOperators p c →
      ∃ err ∈ errs, err.Alike (clashError fx' p c)) ∧
    ∀ err ∈ errs, ∃ fx' x p c, Outermost m.get e fx' x ∧
      FirstClash fx' x.chainOperators p c ∧ err = clashError fx' p c := by
  obtain ⟨-, es, h1, rfl⟩ := (C99_exact_partial m m' e e' errs hs hl).1 h
  refine ⟨fun fx' x p c ho hc => mem_firstOfEach es _ (h1.reports ho hc), fun err he => ?_⟩
  refine h1.origin err ?_
  rw [← storeAll_firstOfEach] at he
  exact (mem_storeAll es [] err he).resolve_left (by simp)

end Pemdas
