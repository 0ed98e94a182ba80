import Verif.Lemmas.ResolverMore
/-
Helper lemmas on resolving a second time: a tree is left alone by `rewrite` if each operator on its
right edge binds tighter than the one before, and visiting only takes operators away from that edge.
-/
namespace Pemdas

namespace Fixities

/-- The rule shifts `y` on top of `x`. -/
def Shifts (m : Fixities) (x y : Infix) : Prop := Rule.fromFixities (m.get x) (m.get y) = .shift

theorem shift_iff (p c : Fixity) : Rule.fromFixities p c = .shift ↔
    p.prec < c.prec ∨ (c.prec = p.prec ∧ p.assoc = .right ∧ c.assoc = .right) := by
  unfold Rule.fromFixities
  obtain ⟨pp, pa⟩ := p
  obtain ⟨cp, ca⟩ := c
  by_cases h : pp < cp
  · simp [h]
  · by_cases h2 : cp = pp
    · subst h2
      cases pa <;> cases ca <;> simp
    · simp [h, h2]

theorem Shifts.trans {m : Fixities} {x y z : Infix} (h1 : m.Shifts x y) (h2 : m.Shifts y z) :
    m.Shifts x z := by
  unfold Shifts at *
  rw [shift_iff] at *
  rcases h1 with h1 | ⟨h1, h1a, h1b⟩ <;> rcases h2 with h2 | ⟨h2, h2a, h2b⟩
  · exact .inl (by omega)
  · exact .inl (by omega)
  · exact .inl (by omega)
  · exact .inr ⟨by omega, h1a, h2b⟩

/-- If everything shifts, `rewrite` puts the chain together as it was. -/
theorem rewriteLoop_shifts (m : Fixities) (e : Expr) : ∀ (operands : List Expr) (infixes : List Infix),
    (infixes.reverse ++ e.chainOperators).Pairwise m.Shifts →
    rewriteLoop m operands infixes e =
      match finish operands infixes e with
      | .error p => .error p
      | .ok e => .ok (.ok e) := by
  induction e using Expr.chainOperators.induct with
  | case1 l op r ih =>
    intro operands infixes h
    rw [rewriteLoop]
    have hp : place m op (l :: operands) infixes = .ok (.ok (l :: operands, op :: infixes)) := by
      cases infixes with
      | nil => rfl
      | cons x xs =>
        have : m.Shifts x op := by
          rw [List.pairwise_append] at h
          exact h.2.2 x (by simp) op (by simp [Expr.chainOperators])
        unfold Shifts at this
        simp [place, this]
    rw [hp]
    simp only
    rw [ih (l :: operands) (op :: infixes) (by simpa [Expr.chainOperators] using h)]
    rfl
  | case2 e he =>
    intro operands infixes _
    cases e with
    | bin a b c => exact absurd rfl (he a b c)
    | _ => simp only [rewriteLoop]; cases finish operands infixes _ <;> rfl

theorem rewrite_shifts {m : Fixities} {e : Expr} (h : e.chainOperators.Pairwise m.Shifts) :
    m.rewrite e = .ok (.ok e) := by
  unfold rewrite
  rw [rewriteLoop_shifts m e [] [] (by simpa using h)]
  simp [finish]

theorem place_shifts {m : Fixities} {op : Infix} : ∀ {infixes : List Infix} {operands operands' : List Expr}
    {infixes' : List Infix}, infixes.reverse.Pairwise m.Shifts →
    place m op operands infixes = .ok (.ok (operands', infixes')) →
    infixes'.reverse.Pairwise m.Shifts ∧ List.Sublist infixes'.reverse (infixes.reverse ++ [op]) := by
  intro infixes
  induction infixes with
  | nil =>
    intro operands operands' infixes' _ h
    simp only [place, Except.ok.injEq, Prod.mk.injEq] at h
    obtain ⟨_, rfl⟩ := h
    simp
  | cons x xs ih =>
    intro operands operands' infixes' hp h
    have hp' : xs.reverse.Pairwise m.Shifts := by
      rw [List.reverse_cons, List.pairwise_append] at hp; exact hp.1
    rw [place] at h
    cases hr : Rule.fromFixities (m.get x) (m.get op) with
    | shift =>
      rw [hr] at h
      simp only [Except.ok.injEq, Prod.mk.injEq] at h
      obtain ⟨_, rfl⟩ := h
      refine ⟨?_, by simp⟩
      have hx : m.Shifts x op := hr
      rw [List.reverse_cons, List.pairwise_append]
      refine ⟨hp, by simp, ?_⟩
      intro y hy z hz
      simp only [List.mem_singleton] at hz
      subst hz
      simp only [List.reverse_cons, List.mem_append, List.mem_singleton] at hy
      rcases hy with hy | rfl
      · rw [List.reverse_cons, List.pairwise_append] at hp
        exact (hp.2.2 y hy x (by simp)).trans hx
      · exact hx
    | reduce =>
      rw [hr] at h
      simp only at h
      cases ht : reduceTop x operands with
      | error p => rw [ht] at h; simp at h
      | ok operands₁ =>
        rw [ht] at h
        obtain ⟨h1, h2⟩ := ih hp' h
        refine ⟨h1, h2.trans ?_⟩
        simp
    | ambiguous p c => rw [hr] at h; simp at h

theorem finish_chain : ∀ {infixes : List Infix} {operands : List Expr} {e e' : Expr},
    finish operands infixes e = .ok e' →
    e'.chainOperators = infixes.reverse ++ e.chainOperators := by
  intro infixes
  induction infixes with
  | nil => intro operands e e' h; simp only [finish, Except.ok.injEq] at h; simp [h]
  | cons x xs ih =>
    intro operands e e' h
    cases operands with
    | nil => simp [finish] at h
    | cons l operands =>
      rw [finish] at h
      rw [ih h]
      simp [Expr.chainOperators]

theorem rewriteLoop_chain (m : Fixities) (e : Expr) : ∀ (operands : List Expr) (infixes : List Infix)
    (e' : Expr), infixes.reverse.Pairwise m.Shifts →
    rewriteLoop m operands infixes e = .ok (.ok e') →
    e'.chainOperators.Pairwise m.Shifts ∧
      List.Sublist e'.chainOperators (infixes.reverse ++ e.chainOperators) := by
  induction e using Expr.chainOperators.induct with
  | case1 l op r ih =>
    intro operands infixes e' hp h
    rw [rewriteLoop] at h
    cases hpl : place m op (l :: operands) infixes with
    | error p => rw [hpl] at h; simp at h
    | ok y =>
      rw [hpl] at h
      cases y with
      | error err => simp at h
      | ok z =>
        obtain ⟨operands', infixes'⟩ := z
        obtain ⟨h1, h2⟩ := place_shifts hp hpl
        obtain ⟨h3, h4⟩ := ih operands' infixes' e' h1 h
        refine ⟨h3, h4.trans ?_⟩
        have := List.Sublist.append h2 (List.Sublist.refl r.chainOperators)
        simpa [Expr.chainOperators] using this
  | case2 e he =>
    intro operands infixes e' hp h
    have hc : e.chainOperators = [] := by
      cases e <;> simp_all [Expr.chainOperators]
    have hl : rewriteLoop m operands infixes e =
        match finish operands infixes e with
        | .error p => .error p
        | .ok e => .ok (.ok e) := rewriteLoop_shifts m e operands infixes (by simpa [hc] using hp)
    rw [hl] at h
    cases hf : finish operands infixes e with
    | error p => rw [hf] at h; simp at h
    | ok x =>
      rw [hf] at h
      simp only [Except.ok.injEq] at h
      subst h
      rw [finish_chain hf, hc]
      simpa using hp

theorem rewrite_chain {m : Fixities} {e e' : Expr} (h : m.rewrite e = .ok (.ok e')) :
    e'.chainOperators.Pairwise m.Shifts ∧ List.Sublist e'.chainOperators e.chainOperators := by
  simpa using rewriteLoop_chain m e [] [] e' (by simp) h

end Fixities

namespace Resolver

/-- Visiting the result again gives the same; the right edge has lost operators at most. -/
def Settles (r : Resolver) (e : Expr) (r' : Resolver) (e' : Expr) : Prop :=
  visit r e' = .ok (r', e') ∧ List.Sublist e'.chainOperators e.chainOperators

theorem thread_settles {r es r' es'} (h : Thread Settles r es r' es') :
    walkList visit r es' = .ok (r', es') := by
  induction h with
  | nil => rfl
  | cons hp _ ih => simp [walkList, bind, Except.bind, hp.1, ih]

theorem visit_settles : ∀ e r r' e', visit r e = .ok (r', e') → Settles r e r' e' := by
  apply visit_induct
  case bin =>
    intro r a op b a₁ op₁ b₁ r₁ a₂ r₂ b₂ hr h1 h2
    obtain ⟨hp, hs⟩ := Fixities.rewrite_chain hr
    have hsub : List.Sublist (Expr.bin a₂ op₁ b₂).chainOperators (Expr.bin a₁ op₁ b₁).chainOperators := by
      simpa [Expr.chainOperators] using h2.2
    refine ⟨?_, hsub.trans hs⟩
    rw [visit_eq]
    simp only [Fixities.rewrite_shifts (hp.sublist hsub), walkExpr, bind, Except.bind, h1.1, h2.1]
  case bad =>
    intro r a op b err hr
    refine ⟨?_, List.Sublist.refl _⟩
    rw [visit_eq]
    simp only [hr]
  case let_ =>
    intro r d b r₁ b' h
    refine ⟨?_, by simp [Expr.chainOperators]⟩
    rw [visit_eq]
    simp only [bind, Except.bind, h.1]
  case tup =>
    intro r es r₁ es' h
    refine ⟨?_, by simp [Expr.chainOperators]⟩
    rw [visit_eq]
    simp only [walkExpr, bind, Except.bind, thread_settles h]
  case list =>
    intro r es r₁ es' h
    refine ⟨?_, by simp [Expr.chainOperators]⟩
    rw [visit_eq]
    simp only [walkExpr, bind, Except.bind, thread_settles h]
  case app =>
    intro r f x r₁ f' r₂ x' h1 h2
    refine ⟨?_, by simp [Expr.chainOperators]⟩
    rw [visit_eq]
    simp only [walkExpr, bind, Except.bind, h1.1, h2.1]
  case lit => intro r l; exact ⟨by rw [visit_eq]; rfl, List.Sublist.refl _⟩
  case var => intro r l; exact ⟨by rw [visit_eq]; rfl, List.Sublist.refl _⟩
  all_goals
    intros
    rename_i h
    refine ⟨?_, by simp [Expr.chainOperators]⟩
    rw [visit_eq]
    simp only [walkExpr, bind, Except.bind, h.1]

end Resolver
end Pemdas
