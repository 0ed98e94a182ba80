import Verif.Lemmas.Between
import Verif.Props.Grouping
/-
C175: what stands between two operators decides which of them is applied first.
-/
namespace Pemdas
open OpTree

/-- **C175** In the grouping of a chain an operator is applied to something that contains another one exactly
if it outlasts all operators up to that one; and this describes the grouping completely. -/
theorem C175_decided (m : Fixities) (e x : Expr) (h : m.rewrite e = .ok (.ok x)) :
    ∃ t : OpTree, t.toExpr = x ∧ IsGrouping e t ∧
      (∀ i j, t.Over i j ↔ Outlasts m.get e.chainOperators i j) ∧
      ∀ t' : OpTree, IsGrouping e t' → (∀ i j, t'.Over i j ↔ Outlasts m.get e.chainOperators i j) → t' = t := by
  obtain ⟨t, ht, hg, hw⟩ := C01_grouping_sound m e x h
  have ho : ∀ i j, t.Over i j ↔ Outlasts m.get e.chainOperators i j := by rw [← hg.2]; exact over_iff hw
  refine ⟨t, ht, hg, ho, fun t' hg' ho' => ?_⟩
  exact over_ext (hg'.1.trans hg.1.symm) (hg'.2.trans hg.2.symm) fun i j => (ho' i j).trans (ho i j).symm

/-- **C175** Nothing outside matters: if two chains are not ambiguous and have the same fixities from one
operator to another, then the one is above the other in both or in neither. -/
theorem C175_between (m m' : Fixities) (e e' x x' : Expr) (h : m.rewrite e = .ok (.ok x))
    (h' : m'.rewrite e' = .ok (.ok x')) :
    ∃ t t' : OpTree, t.toExpr = x ∧ IsGrouping e t ∧ t'.toExpr = x' ∧ IsGrouping e' t' ∧
      ∀ i j d, (∀ k, min i j ≤ k → k ≤ max i j →
          e.chainOperators[k]?.map m.get = e'.chainOperators[k + d]?.map m'.get) →
        (t.Over i j ↔ t'.Over (i + d) (j + d)) := by
  obtain ⟨t, ht, hg, ho, -⟩ := C175_decided m e x h
  obtain ⟨t', ht', hg', ho', -⟩ := C175_decided m' e' x' h'
  refine ⟨t, t', ht, hg, ht', hg', fun i j d hk => ?_⟩
  rw [ho, ho']
  have some_of : ∀ {α β γ : Type} {f : α → γ} {g : β → γ} {a : Option α} {b : Option β} {x : α},
      a.map f = b.map g → a = some x → ∃ y, b = some y ∧ f x = g y := by
    intro α β γ f g a b x h1 h2
    subst h2
    cases b with
    | none => cases h1
    | some y => exact ⟨y, rfl, by simpa using h1⟩
  constructor
  · rintro ⟨hne, hj, a, ha, hs⟩
    obtain ⟨a', ha', hf⟩ := some_of (hk i (by omega) (by omega)) ha
    obtain ⟨b', hb', -⟩ := some_of (hk j (by omega) (by omega)) (List.getElem?_eq_getElem hj)
    refine ⟨by omega, (List.getElem?_eq_some_iff.1 hb').1, a', ha', fun k b hb => ⟨fun h => ?_, fun h => ?_⟩⟩
    · have := hk (k - d) (by omega) (by omega)
      rw [show k - d + d = k by omega] at this
      obtain ⟨c, hc, hf'⟩ := some_of this.symm hb
      rw [hf', ← hf]
      exact (hs _ c hc).1 (by omega)
    · have := hk (k - d) (by omega) (by omega)
      rw [show k - d + d = k by omega] at this
      obtain ⟨c, hc, hf'⟩ := some_of this.symm hb
      rw [hf', ← hf]
      exact (hs _ c hc).2 (by omega)
  · rintro ⟨hne, hj, a, ha, hs⟩
    obtain ⟨a', ha', hf⟩ := some_of (hk i (by omega) (by omega)).symm ha
    obtain ⟨b', hb', -⟩ := some_of (hk j (by omega) (by omega)).symm (List.getElem?_eq_getElem hj)
    refine ⟨by omega, (List.getElem?_eq_some_iff.1 hb').1, a', ha', fun k b hb => ⟨fun h => ?_, fun h => ?_⟩⟩
    · obtain ⟨c, hc, hf'⟩ := some_of (hk k (by omega) (by omega)) hb
      rw [hf', ← hf]
      exact (hs _ c hc).1 (by omega)
    · obtain ⟨c, hc, hf'⟩ := some_of (hk k (by omega) (by omega)) hb
      rw [hf', ← hf]
      exact (hs _ c hc).2 (by omega)

theorem rewrite_total (m : Fixities) (e : Expr) (h : ¬ ∃ p c, ClashIn m.get e.chainOperators p c) :
    ∃ x, m.rewrite e = .ok (.ok x) := by
  cases hr : m.rewrite e with
  | error p => exact absurd hr (C04_rewrite_never_panics m e p)
  | ok y =>
    cases y with
    | ok x => exact ⟨x, rfl⟩
    | error err => exact absurd ((C03_error_iff_clash m e).1 ⟨err, hr⟩) h

/-- **C175** Every part of a chain that is not ambiguous is not ambiguous. -/
theorem C175_part (m : Fixities) (e e' x : Expr) (h : m.rewrite e = .ok (.ok x))
    (hp : e'.chainOperators <:+: e.chainOperators) : ∃ x', m.rewrite e' = .ok (.ok x') := by
  refine rewrite_total m e' ?_
  rintro ⟨p, c, pre, mid, post, he, hc⟩
  obtain ⟨a, b, hab⟩ := hp
  obtain ⟨err, he'⟩ := (C03_error_iff_clash m e).2 ⟨p, c, a ++ pre, mid, post ++ b, by rw [← hab, he]; simp, hc⟩
  rw [h] at he'
  cases he'

/-- **C175** If there is a looser operator between any two of the same precedence, then the chain is not
ambiguous, and associativities do not matter: two tables with the same precedences give the same result. -/
theorem C175_associativity (m m' : Fixities) (e : Expr) (hs : Spread m.get e.chainOperators)
    (hp : ∀ o ∈ e.chainOperators, (m'.get o).prec = (m.get o).prec) :
    ∃ x, m.rewrite e = .ok (.ok x) ∧ m'.rewrite e = .ok (.ok x) := by
  obtain ⟨x, h⟩ := rewrite_total m e (by
    rintro ⟨p, c, pre, mid, post, he, hc, hm⟩
    obtain ⟨q, hq, hlt⟩ := hs pre p mid c post he hc.1
    have := hm q hq
    omega)
  refine ⟨x, h, ?_⟩
  obtain ⟨t, rfl, hg, hw⟩ := C01_grouping_sound m e x h
  rw [← hg.2] at hs hp
  exact C02_grouping_complete m' e t hg (hw.spread hs hp)

/-- **C175** What is grouped together is grouped the same way on its own; and the rest is grouped the same way
if it is replaced by an operand (for instance by itself, in parentheses). -/
theorem C175_group (m : Fixities) (e x : Expr) (h : m.rewrite e = .ok (.ok x)) :
    ∃ t : OpTree, t.toExpr = x ∧ IsGrouping e t ∧ ∀ s u t', Swap s u t t' →
      (∀ e', IsGrouping e' s → m.rewrite e' = .ok (.ok s.toExpr)) ∧
      ∀ y e', u = .leaf y → IsGrouping e' t' → m.rewrite e' = .ok (.ok t'.toExpr) := by
  obtain ⟨t, ht, hg, hw⟩ := C01_grouping_sound m e x h
  refine ⟨t, ht, hg, fun s u t' hs => ?_⟩
  obtain ⟨h1, h2⟩ := hs.wellGrouped hw
  exact ⟨fun e' he => C02_grouping_complete m e' s he h1,
    fun y e' hy he => C02_grouping_complete m e' t' he (h2 y hy).1⟩

/-! ### concrete cases -/

/-- C175: in `a * b ^ c + d` the last operator is above the others, and the first one above the second. -/
example : exTable.rewrite exChain = .ok (.ok exTree.toExpr) ∧ exTree.Over 2 0 ∧ exTree.Over 2 1 ∧
    exTree.Over 0 1 ∧ ¬ exTree.Over 0 2 ∧ ¬ exTree.Over 1 0 :=
  ⟨by decide, by simp [exTree, Over, operators]⟩

/-- C175: in `a * b + c * d` there is a looser operator between the two of the same precedence. -/
example : Spread exTable.get [opMul, opPlus, opMul] ∧
    exTable.rewrite (.bin exA opMul (.bin exB opPlus (.bin exC opMul exD))) =
      .ok (.ok (.bin (.bin exA opMul exB) opPlus (.bin exC opMul exD))) := by
  refine ⟨?_, by decide⟩
  intro pre a mid b post he hp
  rcases pre with _ | ⟨p, _ | ⟨q, _ | ⟨r, pre⟩⟩⟩ <;> rcases mid with _ | ⟨x, _ | ⟨y, mid⟩⟩ <;>
    simp only [List.nil_append, List.cons_append, List.cons.injEq, List.nil_eq, reduceCtorEq, and_false,
      List.append_eq_nil_iff] at he
  · obtain ⟨rfl, rfl, -⟩ := he
    exact absurd hp (by decide)
  · obtain ⟨rfl, rfl, -⟩ := he
    exact ⟨opPlus, by simp, by decide⟩
  · obtain ⟨-, rfl, rfl, -⟩ := he
    exact absurd hp (by decide)

/-- C175: `b ^ c` on its own, and `(b ^ c)` as an operand. -/
example : Swap (.node (.leaf exB) opPow (.leaf exC)) (.leaf (.grp (.bin exB opPow exC))) exTree
    (.node (.node (.leaf exA) opMul (.leaf (.grp (.bin exB opPow exC)))) opPlus (.leaf exD)) :=
  .left (.right .here)

end Pemdas
