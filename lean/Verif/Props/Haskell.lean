import Verif.Lemmas.Haskell
import Verif.Props.Grouping
import Verif.Props.Resolver
/-
C165: fixities are resolved as in Haskell.
-/
namespace Pemdas
open Resolver

/-- **C165** For every table of fixities and every chain: `rewrite` returns exactly what the algorithm
of the Haskell report returns. -/
theorem C165_chain (m : Fixities) (e e' : Expr) :
    m.rewrite e = .ok (.ok e') ↔ (Haskell.resolve m.get (Haskell.tokens e)).map (·.toExpr) = some e' := by
  have h := Haskell.resolve_spec m.get e
  cases hr : Haskell.resolve m.get (Haskell.tokens e) with
  | some t =>
    rw [hr] at h
    rw [C02_grouping_complete m e t h.1 h.2]
    simp
  | none =>
    rw [hr] at h
    obtain ⟨err, he⟩ := (C03_error_iff_clash m e).2 h
    rw [he]
    simp

/-- **C165** It reports an error exactly if that algorithm returns nothing. -/
theorem C165_refused (m : Fixities) (e : Expr) :
    (∃ err, m.rewrite e = .ok (.error err)) ↔ Haskell.resolve m.get (Haskell.tokens e) = none := by
  have h := Haskell.resolve_spec m.get e
  cases hr : Haskell.resolve m.get (Haskell.tokens e) with
  | some t =>
    rw [hr] at h
    rw [C02_grouping_complete m e t h.1 h.2]
    simp
  | none =>
    rw [hr] at h
    simpa using (C03_error_iff_clash m e).2 h

/-- The tokens of an infix expression, however it is grouped: operands that are not infix expressions
with operators between them. -/
def Haskell.allTokens : Expr → List Haskell.Token
  | .bin l op r => allTokens l ++ .op op :: allTokens r
  | e => [.exp e]

/-- An expression put before an operator and what follows it, with its own chain nested to the
right. -/
def Haskell.nestBefore : Expr → Infix → Expr → Expr
  | .bin l op r, o, k => nestBefore l op (nestBefore r o k)
  | e, o, k => .bin e o k

/-- An infix expression nested to the right. -/
def Haskell.nested : Expr → Expr
  | .bin l op r => nestBefore l op (nested r)
  | e => e

theorem Haskell.nestBefore_spec (e : Expr) : ∀ (o : Infix) (k : Expr),
    tokens (nestBefore e o k) = allTokens e ++ .op o :: tokens k ∧
    (nestBefore e o k).chainOperands = e.tree.operands ++ k.chainOperands ∧
    (nestBefore e o k).chainOperators = e.tree.operators ++ o :: k.chainOperators := by
  induction e using Expr.tree.induct with
  | case1 l op r ih1 ih2 =>
    intro o k
    obtain ⟨a1, a2, a3⟩ := ih1 op (nestBefore r o k)
    obtain ⟨b1, b2, b3⟩ := ih2 o k
    rw [nestBefore]
    refine ⟨?_, ?_, ?_⟩
    · rw [a1, b1]; simp [allTokens]
    · rw [a2, b2]; simp [Expr.tree, OpTree.operands]
    · rw [a3, b3]; simp [Expr.tree, OpTree.operators]
  | case2 e h =>
    intro o k
    cases e <;> first
      | exact (h _ _ _ rfl).elim
      | exact ⟨rfl, rfl, rfl⟩

theorem Haskell.nested_spec (e : Expr) :
    tokens (nested e) = allTokens e ∧ IsGrouping (nested e) e.tree := by
  induction e using Expr.tree.induct with
  | case1 l op r ih1 ih2 =>
    obtain ⟨a1, a2, a3⟩ := nestBefore_spec l op (nested r)
    obtain ⟨b1, b2, b3⟩ := ih2
    rw [nested]
    refine ⟨?_, ?_, ?_⟩
    · rw [a1, b1]; simp [allTokens]
    · rw [a2, ← b2]; simp [Expr.tree, OpTree.operands]
    · rw [a3, ← b3]; simp [Expr.tree, OpTree.operators]
  | case2 e h =>
    cases e <;> first
      | exact (h _ _ _ rfl).elim
      | exact ⟨rfl, rfl, rfl⟩

/-- The report's algorithm finds every grouping that respects the fixities. -/
theorem Haskell.resolve_grouped {fx : Env} {b : Expr} (hb : b.Grouped fx) :
    (resolve fx (allTokens b)).map (·.toExpr) = some b := by
  have hs := nested_spec b
  have hw := ((grouped_iff_tree fx b).1 hb).1
  have h := resolve_spec fx (nested b)
  rw [hs.1] at h
  cases hr : resolve fx (allTokens b) with
  | none =>
    rw [hr] at h
    obtain ⟨p, c, hc⟩ := h
    rw [← hs.2.2] at hc
    exact absurd hc (no_clash_of_wellGrouped hw)
  | some t =>
    rw [hr] at h
    rw [C02_grouping_unique fx (nested b) t b.tree h.1 hs.2 h.2 hw]
    simp [Expr.tree_toExpr]

theorem groupedList_mem {fx : Env} {es : List Expr} (h : Expr.GroupedList fx es) :
    ∀ e ∈ es, e.Grouped fx := by
  induction es with
  | nil => simp
  | cons x xs ih =>
    intro e he
    rcases List.mem_cons.1 he with rfl | he
    · exact h.1
    · exact ih h.2 e he

/-- Every part of a grouped expression is grouped, under the fixities in scope there. -/
theorem SubAt.grouped {fx fx' : Env} {e b : Expr} (hs : SubAt fx e fx' b) (hg : e.Grouped fx) :
    b.Grouped fx' := by
  induction hs with
  | here => exact hg
  | appL _ ih => exact ih hg.1
  | appR _ ih => exact ih hg.2
  | binL _ ih => exact ih hg.1
  | binR _ ih => exact ih hg.2.1
  | lam _ ih => exact ih hg
  | grp _ ih => exact ih hg
  | neg _ ih => exact ih hg
  | tup hm _ ih => exact ih (groupedList_mem hg _ hm)
  | list hm _ ih => exact ih (groupedList_mem hg _ hm)
  | let_ _ ih => exact ih hg

/-- **C165** for whole expressions: if no error is reported, every infix expression in the result,
wherever it is, is what the algorithm of the report makes of its operands and operators with the
fixities in scope there. -/
theorem C165_resolved_partial {m m' : Fixities} {e e' : Expr} (hs : e.RightNested)
    (hl : e.LetsDistinct) (h : visit ⟨m, []⟩ e = .ok (⟨m', []⟩, e')) {fx' : Env} {b : Expr}
    (hb : SubAt m.get e' fx' b) :
    (Haskell.resolve fx' (Haskell.allTokens b)).map (·.toExpr) = some b :=
  Haskell.resolve_grouped (hb.grouped (C09_result_grouped_partial m m' e e' hs hl h))

/-- **C165** for whole expressions: an error is reported exactly if the algorithm of the report
refuses one of the chains in it, with the fixities in scope there. -/
theorem C165_refused_partial {m m' : Fixities} {e e' : Expr} {errs : List AssocError}
    (hs : e.RightNested) (hl : e.LetsDistinct) (h : visit ⟨m, []⟩ e = .ok (⟨m', errs⟩, e')) :
    errs ≠ [] ↔ ∃ fx' b, SubAt m.get e fx' b ∧ Haskell.resolve fx' (Haskell.tokens b) = none := by
  rw [C16_reported_iff_conflict_partial m m' e e' errs hs hl h]
  constructor
  · rintro ⟨p, c, fx', b, hb, -, -, hc⟩
    refine ⟨fx', b, hb, ?_⟩
    have := Haskell.resolve_spec fx' b
    cases hr : Haskell.resolve fx' (Haskell.tokens b) with
    | none => rfl
    | some t =>
      rw [hr] at this
      rw [← this.1.2] at hc
      exact absurd hc (no_clash_of_wellGrouped this.2)
  · rintro ⟨fx', b, hb, hr⟩
    have := Haskell.resolve_spec fx' b
    rw [hr] at this
    obtain ⟨p, c, hc⟩ := this
    exact ⟨(p, fx' p), (c, fx' c), fx', b, hb, rfl, rfl, hc⟩

/-! ### concrete cases -/

/-- C165: the report's algorithm at work, on `a * b ^ c + d` and on `a == b * c == d`. -/
example : (Haskell.resolve exTable.get (Haskell.tokens exChain)).map (·.toExpr) = some exTree.toExpr ∧
    Haskell.resolve exTable.get (Haskell.tokens exBad) = none := by
  refine ⟨?_, ?_⟩
  · rw [← C165_chain]; decide
  · rw [← C165_refused]; exact ⟨_, rfl⟩

/-- C165: the same worked out by the algorithm itself. -/
example : Haskell.resolve exTable.get (Haskell.tokens exBad) = none := by
  simp [Haskell.resolve, Haskell.tokens, exBad, exA, exB, exC, exD, Haskell.parse1, Haskell.illegal,
    Haskell.toTheLeft, exTable, Fixities.get, Fixities.getDefined, opEq, opMul, opPlus, opPow, Infix.symbol]

/-- C165: a `let` with an infix expression under its fixities meets the hypotheses. -/
example : ∃ e', exLet.RightNested ∧ exLet.LetsDistinct ∧
    visit ⟨exTable, []⟩ exLet = .ok (⟨exTable, []⟩, e') ∧ SubAt exTable.get e' exTable.get e' := by
  obtain ⟨r, e', h⟩ := C04_visit_never_panics ⟨exTable, []⟩ exLet
  have h2 : (visit ⟨exTable, []⟩ exLet).toOption.map (·.1) = some ⟨exTable, []⟩ := by decide
  rw [h] at h2
  simp only [Except.toOption, Option.map_some, Option.some.injEq] at h2
  subst h2
  exact ⟨e', exLet_ok.1, exLet_ok.2, h, .here⟩

/-- **C165 fails in general**: after a `let` that names an operator twice a chain that the report's
algorithm groups to the left is grouped to the right. -/
theorem C165_resolved_wrong : ∃ m' e' fx' b, exDup.RightNested ∧
    visit ⟨exTable, []⟩ exDup = .ok (⟨m', []⟩, e') ∧ SubAt exTable.get e' fx' b ∧
    (Haskell.resolve fx' (Haskell.allTokens b)).map (·.toExpr) ≠ some b := by
  refine ⟨[(opPlus, ⟨4, .right⟩), (opMul, ⟨7, .left⟩), (opPow, ⟨8, .right⟩), (opEq, ⟨4, .neither⟩)],
    exDup, exTable.get, .bin exA opPlus (.bin exB opPlus exC), ?_, by decide,
    .list (x := .bin exA opPlus (.bin exB opPlus exC)) (by simp) .here, ?_⟩
  · simp [exDup, Expr.RightNested, Expr.RightNestedList, Expr.NonBin, Expr.rootOp, exA, exB, exC]
  · rw [show Haskell.allTokens (.bin exA opPlus (.bin exB opPlus exC)) =
      Haskell.tokens (.bin exA opPlus (.bin exB opPlus exC)) from rfl]
    intro h
    have := (C165_chain _ _ _).2 h
    revert this
    decide

end Pemdas
