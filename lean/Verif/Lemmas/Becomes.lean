import Verif.Spec.Becomes
import Verif.Lemmas.Clashes
import Verif.Lemmas.Leaks
/-
Helper lemmas: resolving does what `Becomes` says.
-/
namespace Pemdas
open OpTree Resolver

mutual
theorem Becomes.unique : ∀ {fx : Env} {e e₁ e₂ : Expr} {es₁ es₂ : List AssocError} {f₁ f₂ : Env},
    Becomes fx e e₁ es₁ f₁ → Becomes fx e e₂ es₂ f₂ → e₁ = e₂ ∧ es₁ = es₂ ∧ f₁ = f₂
  | _, _, _, _, _, _, _, _, .lit, h => by cases h; exact ⟨rfl, rfl, rfl⟩
  | _, _, _, _, _, _, _, _, .var, h => by cases h; exact ⟨rfl, rfl, rfl⟩
  | _, _, _, _, _, _, _, _, .app a b, h => by
    cases h with
    | app a' b' =>
      obtain ⟨rfl, rfl, rfl⟩ := a.unique a'
      obtain ⟨rfl, rfl, rfl⟩ := b.unique b'
      exact ⟨rfl, rfl, rfl⟩
  | _, _, _, _, _, _, _, _, .lam a, h => by
    cases h with
    | lam a' => obtain ⟨rfl, rfl, rfl⟩ := a.unique a'; exact ⟨rfl, rfl, rfl⟩
  | _, _, _, _, _, _, _, _, .grp a, h => by
    cases h with
    | grp a' => obtain ⟨rfl, rfl, rfl⟩ := a.unique a'; exact ⟨rfl, rfl, rfl⟩
  | _, _, _, _, _, _, _, _, .neg a, h => by
    cases h with
    | neg a' => obtain ⟨rfl, rfl, rfl⟩ := a.unique a'; exact ⟨rfl, rfl, rfl⟩
  | _, _, _, _, _, _, _, _, .tup a, h => by
    cases h with
    | tup a' => obtain ⟨rfl, rfl, rfl⟩ := a.unique a'; exact ⟨rfl, rfl, rfl⟩
  | _, _, _, _, _, _, _, _, .list a, h => by
    cases h with
    | list a' => obtain ⟨rfl, rfl, rfl⟩ := a.unique a'; exact ⟨rfl, rfl, rfl⟩
  | _, _, _, _, _, _, _, _, .let_ a, h => by
    cases h with
    | let_ a' => obtain ⟨rfl, rfl, rfl⟩ := a.unique a'; exact ⟨rfl, rfl, rfl⟩
  | _, _, _, _, _, _, _, _, .ambiguous c, h => by
    cases h with
    | ambiguous c' =>
      obtain ⟨rfl, rfl⟩ := c.unique c'
      exact ⟨rfl, rfl, rfl⟩
    | grouped w o _ _ _ => exact absurd (o ▸ c.clashIn) (no_clash_of_wellGrouped w)
  | _, _, _, _, _, _, _, _, .grouped w o n a b, h => by
    cases h with
    | ambiguous c => exact absurd (o ▸ c.clashIn) (no_clash_of_wellGrouped w)
    | grouped w' o' n' a' b' =>
      cases tree_unique (n.trans n'.symm) (o.trans o'.symm) w w'
      obtain ⟨rfl, rfl, rfl⟩ := a.unique a'
      obtain ⟨rfl, rfl, rfl⟩ := b.unique b'
      exact ⟨rfl, rfl, rfl⟩
theorem BecomeAll.unique : ∀ {fx : Env} {e e₁ e₂ : List Expr} {es₁ es₂ : List AssocError}
    {f₁ f₂ : Env}, BecomeAll fx e e₁ es₁ f₁ → BecomeAll fx e e₂ es₂ f₂ →
      e₁ = e₂ ∧ es₁ = es₂ ∧ f₁ = f₂
  | _, _, _, _, _, _, _, _, .nil, h => by cases h; exact ⟨rfl, rfl, rfl⟩
  | _, _, _, _, _, _, _, _, .cons a b, h => by
    cases h with
    | cons a' b' =>
      obtain ⟨rfl, rfl, rfl⟩ := a.unique a'
      obtain ⟨rfl, rfl, rfl⟩ := b.unique b'
      exact ⟨rfl, rfl, rfl⟩
end

/-- What a visit does. -/
def BecomesAt (r : Resolver) (e : Expr) (r' : Resolver) (e' : Expr) : Prop :=
  r.fixities.Wf → r'.fixities.Wf ∧ ∃ es, Becomes r.fixities.get e e' es r'.fixities.get ∧
    r'.errors = storeAll r.errors es

theorem thread_becomes {r xs r' xs'} (h : Thread BecomesAt r xs r' xs') :
    r.fixities.Wf → r'.fixities.Wf ∧ ∃ es, BecomeAll r.fixities.get xs xs' es r'.fixities.get ∧
      r'.errors = storeAll r.errors es := by
  induction h with
  | nil => exact fun hw => ⟨hw, [], .nil, rfl⟩
  | cons hp _ ih =>
    intro hw
    obtain ⟨w1, es, b1, e1⟩ := hp hw
    obtain ⟨w2, es', b2, e2⟩ := ih w1
    exact ⟨w2, es ++ es', .cons b1 b2, by rw [storeAll_append, ← e1, e2]⟩

theorem visit_becomes : ∀ e r r' e', visit r e = .ok (r', e') → BecomesAt r e r' e' := by
  apply visit_induct (P := BecomesAt)
  case lit => exact fun r l hw => ⟨hw, [], .lit, rfl⟩
  case var => exact fun r l hw => ⟨hw, [], .var, rfl⟩
  case app =>
    intro r f x r₁ f' r₂ x' h1 h2 hw
    obtain ⟨w1, es, b1, e1⟩ := h1 hw
    obtain ⟨w2, es', b2, e2⟩ := h2 w1
    exact ⟨w2, es ++ es', .app b1 b2, by rw [storeAll_append, ← e1, e2]⟩
  case lam => exact fun r p b r₁ b' h hw => (h hw).imp id fun ⟨es, a, e⟩ => ⟨es, .lam a, e⟩
  case grp => exact fun r b r₁ b' h hw => (h hw).imp id fun ⟨es, a, e⟩ => ⟨es, .grp a, e⟩
  case neg => exact fun r b r₁ b' h hw => (h hw).imp id fun ⟨es, a, e⟩ => ⟨es, .neg a, e⟩
  case tup =>
    exact fun r xs r₁ xs' h hw => (thread_becomes h hw).imp id fun ⟨es, a, e⟩ => ⟨es, .tup a, e⟩
  case list =>
    exact fun r xs r₁ xs' h hw => (thread_becomes h hw).imp id fun ⟨es, a, e⟩ => ⟨es, .list a, e⟩
  case let_ =>
    intro r d b r₁ b' h hw
    rw [insertLocal_snd] at h
    obtain ⟨w1, es, b1, e1⟩ := h (Fixities.wf_insertMany hw _ _)
    refine ⟨wf_restore w1 _, es, ?_, e1⟩
    simp only [get_insertMany] at b1
    have := Becomes.let_ b1
    have he : (restore (insertLocal d.fixity d.infixes r.fixities).1 r₁.fixities).get =
        Env.afterLet r.fixities.get d r₁.fixities.get := by
      funext op
      have := getDefined_restore d.fixity d.infixes op r.fixities r₁.fixities w1
      simp only [Fixities.get, this, Env.afterLet, InfixDecl.times]
      generalize (d.infixes.map Infix.symbol).count op.symbol = n
      rcases n with _ | _ | n <;> rfl
    show Becomes _ _ _ _ (restore (insertLocal d.fixity d.infixes r.fixities).1 r₁.fixities).get
    rw [he]
    exact this
  case bad =>
    intro r a op b err h hw
    obtain ⟨p, c, rfl, hc⟩ := rewrite_first h
    have : r.storeError (clashError r.fixities.get p c) = ⟨r.fixities, storeAll r.errors [_]⟩ :=
      storeError_mk r.fixities r.errors _
    rw [this]
    exact ⟨hw, _, .ambiguous hc, rfl⟩
  case bin =>
    intro r a op b a₁ op₁ b₁ r₁ a₂ r₂ b₂ hr h1 h2 hw
    obtain ⟨w1, es, c1, e1⟩ := h1 hw
    obtain ⟨w2, es', c2, e2⟩ := h2 w1
    obtain ⟨t, ht, hg, hk⟩ := rewrite_ok_grouping hr
    cases t with
    | leaf e => have := hg.2; simp [operators, Expr.chainOperators] at this
    | node s o t =>
      simp only [OpTree.toExpr, Expr.bin.injEq] at ht
      obtain ⟨rfl, rfl, rfl⟩ := ht
      exact ⟨w2, es ++ es', .grouped hk hg.2 hg.1 c1 c2, by rw [storeAll_append, ← e1, e2]⟩

end Pemdas
