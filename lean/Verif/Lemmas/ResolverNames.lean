import Verif.Lemmas.Resolver
import Verif.Spec.Print
/-
Helper lemmas: resolution keeps names and does not introduce negations.
-/
namespace Pemdas
namespace Resolver
open OpTree

theorem noNeg_toExpr (t : OpTree) : t.toExpr.NoNeg ↔ ∀ x ∈ t.operands, x.NoNeg := by
  induction t with
  | leaf e => simp [toExpr, operands]
  | node l op r ihl ihr =>
    simp only [toExpr, Expr.NoNeg, ihl, ihr, operands, List.mem_append]
    exact ⟨fun h x hx => hx.elim (h.1 x) (h.2 x), fun h => ⟨fun x hx => h x (.inl hx),
      fun x hx => h x (.inr hx)⟩⟩

theorem noNeg_chain (e : Expr) : e.NoNeg ↔ ∀ x ∈ e.chainOperands, x.NoNeg := by
  fun_induction Expr.chainOperands e with
  | case1 l op r ih => simp [Expr.NoNeg, ih]
  | case2 e h => simp

theorem rewrite_noNeg {m : Fixities} {e e' : Expr} (h : m.rewrite e = .ok (.ok e')) :
    e'.NoNeg ↔ e.NoNeg := by
  obtain ⟨t, rfl, hg, _⟩ := rewrite_ok_grouping h
  rw [noNeg_toExpr, noNeg_chain e, hg.1]

theorem thread_noNeg {r es r' es'}
    (h : Thread (fun _ e _ e' => e'.NoNeg ↔ e.NoNeg) r es r' es') :
    Expr.NoNegList es' ↔ Expr.NoNegList es := by
  induction h with
  | nil => exact Iff.rfl
  | cons hp _ ih => simp only [Expr.NoNegList, hp, ih]

theorem visit_noNeg : ∀ e r r' e', visit r e = .ok (r', e') → (e'.NoNeg ↔ e.NoNeg) := by
  apply visit_induct (P := fun _ e _ e' => e'.NoNeg ↔ e.NoNeg)
  case bin =>
    intro r a op b a₁ op₁ b₁ r₁ a₂ r₂ b₂ hr h1 h2
    rw [← rewrite_noNeg hr]
    simp only [Expr.NoNeg, h1, h2]
  case tup => intro r es r₁ es' h; exact thread_noNeg h
  case list => intro r es r₁ es' h; exact thread_noNeg h
  all_goals intros; simp_all only [Expr.NoNeg]

theorem names_toExpr (t : OpTree) (n : Text) : n ∈ t.toExpr.names ↔
    (∃ x ∈ t.operands, n ∈ x.names) ∨ ∃ op ∈ t.operators, n = op.symbol := by
  induction t with
  | leaf e => simp [toExpr, operands, operators]
  | node l op r ihl ihr =>
    simp only [toExpr, Expr.names, List.mem_append, List.mem_cons, ihl, ihr, operands, operators]
    constructor
    · rintro ((⟨x, h1, h2⟩ | ⟨o, h1, h2⟩) | h | ⟨x, h1, h2⟩ | ⟨o, h1, h2⟩)
      · exact .inl ⟨x, .inl h1, h2⟩
      · exact .inr ⟨o, .inl h1, h2⟩
      · exact .inr ⟨op, .inr (.inl rfl), h⟩
      · exact .inl ⟨x, .inr h1, h2⟩
      · exact .inr ⟨o, .inr (.inr h1), h2⟩
    · rintro (⟨x, h1 | h1, h2⟩ | ⟨o, h1 | rfl | h1, h2⟩)
      · exact .inl (.inl ⟨x, h1, h2⟩)
      · exact .inr (.inr (.inl ⟨x, h1, h2⟩))
      · exact .inl (.inr ⟨o, h1, h2⟩)
      · exact .inr (.inl h2)
      · exact .inr (.inr (.inr ⟨o, h1, h2⟩))

theorem names_chain (e : Expr) (n : Text) : n ∈ e.names ↔
    (∃ x ∈ e.chainOperands, n ∈ x.names) ∨ ∃ op ∈ e.chainOperators, n = op.symbol := by
  fun_induction Expr.chainOperands e with
  | case1 l op r ih =>
    simp only [Expr.names, List.mem_append, List.mem_cons, ih, Expr.chainOperators]
    constructor
    · rintro (h | h | ⟨x, h1, h2⟩ | ⟨o, h1, h2⟩)
      · exact .inl ⟨l, .inl rfl, h⟩
      · exact .inr ⟨op, .inl rfl, h⟩
      · exact .inl ⟨x, .inr h1, h2⟩
      · exact .inr ⟨o, .inr h1, h2⟩
    · rintro (⟨x, rfl | h1, h2⟩ | ⟨o, rfl | h1, h2⟩)
      · exact .inl h2
      · exact .inr (.inr (.inl ⟨x, h1, h2⟩))
      · exact .inr (.inl h2)
      · exact .inr (.inr (.inr ⟨o, h1, h2⟩))
  | case2 e h =>
    have : e.chainOperators = [] := by
      cases e with
      | bin l op r => exact absurd rfl (h l op r)
      | _ => rfl
    simp [this]

theorem rewrite_names {m : Fixities} {e e' : Expr} (h : m.rewrite e = .ok (.ok e')) (n : Text) :
    n ∈ e'.names ↔ n ∈ e.names := by
  obtain ⟨t, rfl, hg, _⟩ := rewrite_ok_grouping h
  rw [names_toExpr, names_chain e, hg.1, hg.2]

theorem thread_names {n : Text} {r es r' es'}
    (h : Thread (fun _ e _ e' => n ∈ e'.names ↔ n ∈ e.names) r es r' es') :
    n ∈ Expr.namesList es' ↔ n ∈ Expr.namesList es := by
  induction h with
  | nil => exact Iff.rfl
  | cons hp _ ih => simp only [Expr.namesList, List.mem_append, hp, ih]

theorem visit_names (n : Text) : ∀ e r r' e', visit r e = .ok (r', e') →
    (n ∈ e'.names ↔ n ∈ e.names) := by
  apply visit_induct (P := fun _ e _ e' => n ∈ e'.names ↔ n ∈ e.names)
  case bin =>
    intro r a op b a₁ op₁ b₁ r₁ a₂ r₂ b₂ hr h1 h2
    rw [← rewrite_names hr]
    simp only [Expr.names, List.mem_append, List.mem_cons, h1, h2]
  case tup => intro r es r₁ es' h; exact thread_names h
  case list => intro r es r₁ es' h; exact thread_names h
  all_goals intros; simp_all only [Expr.names, List.mem_append]

/-- A relation between an expression and its resolution lifts to programs. -/
theorem resolveAst_exprs {P : Expr → Expr → Prop}
    (hP : ∀ e r r' e', visit r e = .ok (r', e') → P e e') {r r' : Resolver} {a a' : Ast}
    {errs : List AssocError} (h : resolveAst r a = .ok (r', a', errs)) :
    ∀ e' ∈ a'.exprs, ∃ e ∈ a.exprs, P e e' := by
  have key : ∀ {r es r' es'}, Thread (fun _ e _ e' => P e e') r es r' es' →
      ∀ e' ∈ es', ∃ e ∈ es, P e e' := by
    intro r es r' es' h
    induction h with
    | nil => simp
    | cons hp _ ih =>
      intro x hx
      rcases List.mem_cons.1 hx with rfl | hx
      · exact ⟨_, List.mem_cons_self, hp⟩
      · obtain ⟨y, h1, h2⟩ := ih x hx
        exact ⟨y, List.mem_cons_of_mem _ h1, h2⟩
  unfold resolveAst visitAst at h
  simp only [bind, Except.bind] at h
  split at h
  · cases h
  · rename_i x hx
    split at hx
    · cases hx
    · rename_i y hy
      cases hx
      have ht := walkList_thread (P := fun _ e _ e' => P e e')
        (fun e _ r r' e' h => hP e r r' e' h) _ _ _ hy
      have : a'.exprs = y.2 := by
        simp only at h
        split at h <;> · injection h with h; injection h with h1 h; injection h with h2 h3; rw [← h2]
      rw [this]
      exact key ht

end Resolver
end Pemdas
