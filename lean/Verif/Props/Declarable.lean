import Verif.Lemmas.Declarable
import Verif.Props.Grouping
/-
C177: which groupings can be brought about by declarations.
-/
namespace Pemdas
open OpTree

theorem rewrite_grouped {m : Fixities} {e : Expr} {t : OpTree} (hg : IsGrouping e t) :
    m.rewrite e = .ok (.ok t.toExpr) ↔ t.WellGrouped m.get := by
  constructor
  · intro h
    obtain ⟨t', h1, h2, h3⟩ := C01_grouping_sound m e _ h
    rw [← toExpr_injective (h2.1.trans hg.1.symm) (h2.2.trans hg.2.symm) h1]
    exact h3
  · exact C02_grouping_complete m e t hg

theorem levels_le {fx : Env} {t : OpTree} {n : Nat} (h : t.WellGrouped fx)
    (hn : ∀ o ∈ t.operators, (fx o).prec < n) : t.levels ≤ n := by
  cases t with
  | leaf => exact Nat.zero_le _
  | node l op r => have := (rungs_le h hn op rfl).2.2; omega

theorem declarable (m : Fixities) {t : OpTree} (hd : t.Distinct) :
    ∃ ds : List InfixDecl, (∀ d ∈ ds, d.infixes ≠ [] ∧ d.fixity.prec < t.levels) ∧
      (∀ o ∈ t.operators, ((Resolver.loadDecls m ds).get o).prec < t.levels) ∧
      t.WellGrouped (Resolver.loadDecls m ds).get := by
  obtain ⟨a, ps, hp⟩ := plan_levels t
  have hg := get_decls m (ps := ps) (by
    have := hd
    unfold Distinct at this
    rw [← hp.keys, List.map_map] at this
    exact this)
  refine ⟨decls ps, ?_, ?_, (hp.grouped _ hg).1⟩
  · intro d h
    obtain ⟨x, hx, rfl⟩ := List.mem_map.1 h
    exact ⟨by simp, hp.hi x hx⟩
  · intro o ho
    rw [← hp.keys] at ho
    obtain ⟨x, hx, rfl⟩ := List.mem_map.1 ho
    rw [hg x hx]
    exact hp.hi x hx

/-- **C177** A grouping of a chain of different operators is the one some table with `n` precedences demands
exactly if it takes at most `n` levels. -/
theorem C177_levels (e : Expr) (t : OpTree) (hg : IsGrouping e t) (hd : t.Distinct) (n : Nat) :
    (∃ m : Fixities, (∀ o ∈ e.chainOperators, (m.get o).prec < n) ∧ m.rewrite e = .ok (.ok t.toExpr)) ↔
      t.levels ≤ n := by
  constructor
  · rintro ⟨m, hm, h⟩
    rw [← hg.2] at hm
    exact levels_le ((rewrite_grouped hg).1 h) hm
  · intro h
    obtain ⟨ds, -, h2, h3⟩ := declarable [] hd
    refine ⟨_, fun o ho => ?_, (rewrite_grouped hg).2 h3⟩
    rw [← hg.2] at ho
    have := h2 o ho
    omega

/-- **C177** Whatever is declared before: declarations (with precedences from 0 to 9) can bring about a grouping
of different operators exactly if it takes at most ten levels. -/
theorem C177_declared (m : Fixities) (hm : ∀ o, (m.get o).prec ≤ 9) (e : Expr) (t : OpTree)
    (hg : IsGrouping e t) (hd : t.Distinct) :
    (∃ ds : List InfixDecl, (∀ d ∈ ds, d.infixes ≠ [] ∧ d.fixity.prec ≤ 9) ∧
      (Resolver.loadDecls m ds).rewrite e = .ok (.ok t.toExpr)) ↔ t.levels ≤ 10 := by
  constructor
  · rintro ⟨ds, hds, h⟩
    refine levels_le ((rewrite_grouped hg).1 h) fun o _ => ?_
    have ho := hm o
    unfold Fixities.get at ho ⊢
    rw [Resolver.getDefined_loadDecls]
    split
    · rename_i d hf
      have := (hds d (List.mem_reverse.1 (List.mem_of_find?_eq_some hf))).2
      simp only [Option.getD_some]
      omega
    · omega
  · intro h
    obtain ⟨ds, h1, -, h3⟩ := declarable m hd
    exact ⟨ds, fun d hx => ⟨(h1 d hx).1, by have := (h1 d hx).2; omega⟩, (rewrite_grouped hg).2 h3⟩

/-- **C177** So every grouping of up to twenty different operators can be declared. -/
theorem C177_twenty (m : Fixities) (e : Expr) (t : OpTree) (hg : IsGrouping e t) (hd : t.Distinct)
    (hn : e.chainOperators.length ≤ 20) :
    ∃ ds : List InfixDecl, (∀ d ∈ ds, d.infixes ≠ [] ∧ d.fixity.prec ≤ 9) ∧
      (Resolver.loadDecls m ds).rewrite e = .ok (.ok t.toExpr) := by
  rw [← hg.2] at hn
  have hl : t.levels ≤ 10 := by
    by_cases h : t.operators = []
    · cases t with
      | leaf => exact Nat.zero_le _
      | node => simp [operators] at h
    · have := rungs_sum h
      have e3 : t.levels = min t.rungs.1 t.rungs.2 := rfl
      omega
  obtain ⟨ds, h1, -, h3⟩ := declarable m hd
  exact ⟨ds, fun d hx => ⟨(h1 d hx).1, by have := (h1 d hx).2; omega⟩, (rewrite_grouped hg).2 h3⟩

/-- **C177** And every longer chain, whatever its operators, has a grouping that no table with precedences from
0 to 9 demands. -/
theorem C177_more (e : Expr) (hn : 20 < e.chainOperators.length) :
    ∃ t : OpTree, IsGrouping e t ∧ ∀ m : Fixities, (∀ o, (m.get o).prec ≤ 9) →
      m.rewrite e ≠ .ok (.ok t.toExpr) := by
  have hl : e.chainOperands.length = e.chainOperators.length + 1 := by
    clear hn
    induction e using Expr.chainOperators.induct with
    | case1 l op r ih => simp only [Expr.chainOperands, Expr.chainOperators, List.length_cons, ih]
    | case2 e h =>
      unfold Expr.chainOperands Expr.chainOperators
      split
      · exact absurd rfl (h _ _ _)
      · rfl
  have key : ∃ t : OpTree, t.operands = e.chainOperands ∧ t.operators = e.chainOperators ∧ 10 < t.levels := by
    revert hl hn
    generalize e.chainOperands = es
    generalize e.chainOperators = ops
    intro hn hl
    by_cases hp : ops.length % 2 = 1
    · obtain ⟨t, h1, h2, h3⟩ := zigzag (ops.length / 2) es ops (by omega) (by omega)
      refine ⟨t, h1, h2, ?_⟩
      unfold levels
      rw [h3]
      simp only
      omega
    · have n1 : ops ≠ [] := by rintro rfl; simp at hn
      have n2 : es ≠ [] := by rintro rfl; simp at hl
      obtain ⟨t, h1, h2, h3⟩ := zigzag (ops.length / 2 - 1) es.dropLast ops.dropLast
        (by rw [List.length_dropLast]; omega) (by rw [List.length_dropLast]; omega)
      refine ⟨.node t (ops.getLast n1) (.leaf (es.getLast n2)), ?_, ?_, ?_⟩
      · simp only [operands, h1, List.dropLast_concat_getLast]
      · simp only [operators, h2, List.dropLast_concat_getLast]
      · unfold levels
        simp only [rungs, h3]
        omega
  obtain ⟨t, h1, h2, h3⟩ := key
  refine ⟨t, ⟨h1, h2⟩, fun m hm h => ?_⟩
  have := levels_le ((rewrite_grouped ⟨h1, h2⟩).1 h) (n := 10) fun o _ => by have := hm o; omega
  omega

/-! ### concrete cases -/

/-- C177: `(a * (b ^ c)) + d` has different operators and takes two levels (not three: `*` and `+` can share one). -/
example : exTree.Distinct ∧ IsGrouping exChain exTree ∧ exTree.levels = 2 := by
  refine ⟨?_, ⟨rfl, rfl⟩, rfl⟩
  unfold Distinct
  decide

/-- C177: against all custom, `a * ((b ^ c) + d)` can be declared: on one level it cannot, with two it can. -/
example : IsGrouping exChain
    (.node (.leaf exA) opMul (.node (.node (.leaf exB) opPow (.leaf exC)) opPlus (.leaf exD))) ∧
    (OpTree.node (.leaf exA) opMul (.node (.node (.leaf exB) opPow (.leaf exC)) opPlus (.leaf exD))).levels = 2 ∧
    (Resolver.loadDecls exTable [⟨[opMul, opPlus], ⟨0, .right⟩⟩, ⟨[opPow], ⟨1, .left⟩⟩]).rewrite exChain =
      .ok (.ok (.bin exA opMul (.bin (.bin exB opPow exC) opPlus exD))) :=
  ⟨⟨rfl, rfl⟩, rfl, by decide⟩

/-- C177: a chain of 21 operators. -/
example : (Nat.repeat (fun e => Expr.bin exA opMul e) 21 exB).chainOperators.length = 21 := rfl

end Pemdas
