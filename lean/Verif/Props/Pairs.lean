import Verif.Props.Declarable
/-
C178: chains of two operators determine how all chains are grouped.
-/
namespace Pemdas
open OpTree

theorem pair_left {m : Fixities} {x y z : Expr} {a b : Infix} (hz : z.chainOperators = []) :
    m.rewrite (.bin x a (.bin y b z)) = .ok (.ok (.bin (.bin x a y) b z)) ↔ LeftOk (m.get a) (m.get b) := by
  have ho : z.chainOperands = [z] := by cases z <;> first | rfl | simp [Expr.chainOperators] at hz
  have hg : IsGrouping (.bin x a (.bin y b z)) (.node (.node (.leaf x) a (.leaf y)) b (.leaf z)) :=
    ⟨by simp [operands, Expr.chainOperands, ho], by simp [operators, Expr.chainOperators, hz]⟩
  have := rewrite_grouped (m := m) hg
  simp only [toExpr] at this
  rw [this]
  simp [WellGrouped, root]

theorem pair_right {m : Fixities} {x y z : Expr} {a b : Infix} (hz : z.chainOperators = []) :
    m.rewrite (.bin x a (.bin y b z)) = .ok (.ok (.bin x a (.bin y b z))) ↔ RightOk (m.get b) (m.get a) := by
  have ho : z.chainOperands = [z] := by cases z <;> first | rfl | simp [Expr.chainOperators] at hz
  have hg : IsGrouping (.bin x a (.bin y b z)) (.node (.leaf x) a (.node (.leaf y) b (.leaf z))) :=
    ⟨by simp [operands, Expr.chainOperands, ho], by simp [operators, Expr.chainOperators, hz]⟩
  have := rewrite_grouped (m := m) hg
  simp only [toExpr] at this
  rw [this]
  simp [WellGrouped, root]

/-- **C178** If two tables give the same results for all chains `x a y b z` of two operators from a list, with
any fixed operands, then they give the same results for all chains of these operators. And that is the case
exactly if they order the precedences of these operators alike and give them the same associativities. -/
theorem C178_pairs (m m' : Fixities) (ops : List Infix) (x y z : Expr) (hz : z.chainOperators = []) :
    ((∀ a ∈ ops, ∀ b ∈ ops, ∀ r, m.rewrite (.bin x a (.bin y b z)) = .ok (.ok r) ↔
        m'.rewrite (.bin x a (.bin y b z)) = .ok (.ok r)) ↔ SameOrder m.get m'.get ops) ∧
    (SameOrder m.get m'.get ops ↔ ∀ e : Expr, (∀ o ∈ e.chainOperators, o ∈ ops) →
      ∀ r, m.rewrite e = .ok (.ok r) ↔ m'.rewrite e = .ok (.ok r)) := by
  have down : (∀ e : Expr, (∀ o ∈ e.chainOperators, o ∈ ops) →
      ∀ r, m.rewrite e = .ok (.ok r) ↔ m'.rewrite e = .ok (.ok r)) →
      ∀ a ∈ ops, ∀ b ∈ ops, ∀ r, m.rewrite (.bin x a (.bin y b z)) = .ok (.ok r) ↔
        m'.rewrite (.bin x a (.bin y b z)) = .ok (.ok r) := by
    intro h a ha b hb
    refine h _ fun o ho => ?_
    simp only [Expr.chainOperators, hz, List.mem_cons, List.not_mem_nil, or_false] at ho
    rcases ho with rfl | rfl
    · exact ha
    · exact hb
  have up : SameOrder m.get m'.get ops → ∀ e : Expr, (∀ o ∈ e.chainOperators, o ∈ ops) →
      ∀ r, m.rewrite e = .ok (.ok r) ↔ m'.rewrite e = .ok (.ok r) := by
    intro h e he r
    exact C07_relative_order m m' e r
      ⟨fun a ha b hb => h.1 a (he a ha) b (he b hb), fun a ha => h.2 a (he a ha)⟩
  have across : (∀ a ∈ ops, ∀ b ∈ ops, ∀ r, m.rewrite (.bin x a (.bin y b z)) = .ok (.ok r) ↔
        m'.rewrite (.bin x a (.bin y b z)) = .ok (.ok r)) → SameOrder m.get m'.get ops := by
    intro h
    have hl : ∀ a ∈ ops, ∀ b ∈ ops, (LeftOk (m.get a) (m.get b) ↔ LeftOk (m'.get a) (m'.get b)) :=
      fun a ha b hb => (pair_left hz).symm.trans ((h a ha b hb _).trans (pair_left hz))
    have hr : ∀ a ∈ ops, ∀ b ∈ ops, (RightOk (m.get a) (m.get b) ↔ RightOk (m'.get a) (m'.get b)) :=
      fun a ha b hb => (pair_right hz).symm.trans ((h b hb a ha _).trans (pair_right hz))
    constructor
    · have one : ∀ {f f' : Infix → Fixity}, (∀ a ∈ ops, ∀ b ∈ ops, (LeftOk (f a) (f b) ↔ LeftOk (f' a) (f' b))) →
          (∀ a ∈ ops, ∀ b ∈ ops, (RightOk (f a) (f b) ↔ RightOk (f' a) (f' b))) →
          ∀ a ∈ ops, ∀ b ∈ ops, (f a).prec < (f b).prec → (f' a).prec < (f' b).prec := by
        intro f f' hl hr a ha b hb hlt
        rcases (hl b hb a ha).1 (.inl hlt) with h1 | ⟨_, h1, _⟩
        · exact h1
        · rcases (hr b hb a ha).1 (.inl hlt) with h2 | ⟨_, h2, _⟩
          · exact h2
          · rw [h1] at h2; cases h2
      exact fun a ha b hb => ⟨one hl hr a ha b hb,
        one (fun a ha b hb => (hl a ha b hb).symm) (fun a ha b hb => (hr a ha b hb).symm) a ha b hb⟩
    · intro a ha
      have h1 := hl a ha a ha
      have h2 := hr a ha a ha
      unfold LeftOk at h1
      unfold RightOk at h2
      simp only [gt_iff_lt, Nat.lt_irrefl, false_or, true_and, and_self] at h1 h2
      cases h3 : (m.get a).assoc <;> cases h4 : (m'.get a).assoc <;> simp_all
  exact ⟨⟨across, fun h => down (up h)⟩, up, fun h => across (down h)⟩

/-- **C178** So what is shown for chains of two operators tells which of two operators binds tighter, and how
each associates: directly, without the table. -/
theorem C178_tell (m : Fixities) (x y z : Expr) (hz : z.chainOperators = []) (a b : Infix) :
    ((m.get a).prec > (m.get b).prec ↔
      m.rewrite (.bin x a (.bin y b z)) = .ok (.ok (.bin (.bin x a y) b z)) ∧
      m.rewrite (.bin x b (.bin y a z)) = .ok (.ok (.bin x b (.bin y a z)))) ∧
    ((m.get a).assoc = .left ↔ m.rewrite (.bin x a (.bin y a z)) = .ok (.ok (.bin (.bin x a y) a z))) ∧
    ((m.get a).assoc = .right ↔ m.rewrite (.bin x a (.bin y a z)) = .ok (.ok (.bin x a (.bin y a z)))) := by
  rw [pair_left hz, pair_right hz, pair_left hz, pair_right hz]
  unfold LeftOk RightOk
  refine ⟨⟨fun h => ⟨.inl h, .inl h⟩, ?_⟩, by simp, by simp⟩
  rintro ⟨h | ⟨_, h, _⟩, h' | ⟨_, h', _⟩⟩
  · exact h
  · exact h
  · exact h'
  · rw [h] at h'; cases h'

/-! ### concrete cases -/

/-- C178: two tables with different precedences that agree on all chains of `*`, `+` and `^`. -/
example : exC.chainOperators = [] ∧
    SameOrder exTable.get (Resolver.loadDecls [] [⟨[opMul], ⟨2, .left⟩⟩, ⟨[opPlus], ⟨1, .left⟩⟩,
      ⟨[opPow], ⟨3, .right⟩⟩]).get [opMul, opPlus, opPow] := by
  refine ⟨rfl, ?_, ?_⟩ <;> decide

/-- C178: and one that differs on some chain of two operators. -/
example : ¬ SameOrder exTable.get (Resolver.loadDecls [] [⟨[opMul], ⟨1, .left⟩⟩, ⟨[opPlus], ⟨1, .left⟩⟩,
      ⟨[opPow], ⟨3, .right⟩⟩]).get [opMul, opPlus, opPow] := by
  intro h
  exact absurd ((h.1 opPlus (by simp) opMul (by simp)).1 (by decide)) (by decide)

end Pemdas
