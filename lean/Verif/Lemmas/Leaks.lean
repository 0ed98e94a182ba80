import Verif.Lemmas.ResolverMore
/-
Helper lemmas: what visiting an expression leaves behind in the table, duplicates in `let` included.
-/
namespace Pemdas
open OpTree

namespace Resolver

theorem getDefined_undo {m : Fixities} (hw : m.Wf) (op o : Infix) (old : Option Fixity) :
    (undo op old m).getDefined o = if op.symbol = o.symbol then old else m.getDefined o := by
  cases old with
  | none => exact Fixities.getDefined_remove hw op o
  | some v => exact Fixities.getDefined_insert m op o v

theorem getDefined_restore (fx : Fixity) (ops : List Infix) (op : Infix) :
    ∀ (m m₁ : Fixities), m₁.Wf → (restore (insertLocal fx ops m).1 m₁).getDefined op =
      match (ops.map Infix.symbol).count op.symbol with
      | 0 => m₁.getDefined op
      | 1 => m.getDefined op
      | _ => some fx := by
  induction ops with
  | nil => intro m m₁ _; rfl
  | cons o ops ih =>
    intro m m₁ hw
    simp only [insertLocal, restore_cons, Fixities.insert_old]
    rw [ih _ _ (wf_undo hw _ _), List.map_cons, List.count_cons]
    rw [getDefined_undo hw, Fixities.getDefined_insert]
    by_cases h : o.symbol = op.symbol
    · simp only [h, beq_self_eq_true, if_true]
      have he : m.getDefined o = m.getDefined op := by
        induction m with
        | nil => rfl
        | cons x m ih => simp only [Fixities.getDefined, h, ih]
      rw [he]
      cases (ops.map Infix.symbol).count op.symbol with
      | zero => rfl
      | succ n => cases n <;> rfl
    · simp only [beq_iff_eq, h, if_false, Nat.add_zero]

theorem letIn_toExpr (t : OpTree) (d : InfixDecl) :
    LetIn d t.toExpr ↔ ∃ x ∈ t.operands, LetIn d x := by
  induction t with
  | leaf e => simp [toExpr, operands]
  | node l op r ihl ihr =>
    simp only [toExpr, operands, List.mem_append]
    constructor
    · intro h
      cases h with
      | binL h => obtain ⟨x, hx, h⟩ := ihl.1 h; exact ⟨x, .inl hx, h⟩
      | binR h => obtain ⟨x, hx, h⟩ := ihr.1 h; exact ⟨x, .inr hx, h⟩
    · rintro ⟨x, hx | hx, h⟩
      · exact .binL (ihl.2 ⟨x, hx, h⟩)
      · exact .binR (ihr.2 ⟨x, hx, h⟩)

theorem letIn_chain (e : Expr) (d : InfixDecl) :
    LetIn d e ↔ ∃ x ∈ e.chainOperands, LetIn d x := by
  fun_induction Expr.chainOperands e with
  | case1 l op r ih =>
    simp only [List.mem_cons]
    constructor
    · intro h
      cases h with
      | binL h => exact ⟨l, .inl rfl, h⟩
      | binR h => obtain ⟨x, hx, h⟩ := ih.1 h; exact ⟨x, .inr hx, h⟩
    · rintro ⟨x, rfl | hx, h⟩
      · exact .binL h
      · exact .binR (ih.2 ⟨x, hx, h⟩)
  | case2 e h => simp

theorem rewrite_letIn {m : Fixities} {e e' : Expr} (h : m.rewrite e = .ok (.ok e')) (d : InfixDecl) :
    LetIn d e' ↔ LetIn d e := by
  obtain ⟨t, rfl, hg, _⟩ := rewrite_ok_grouping h
  rw [letIn_toExpr, letIn_chain e, hg.1]

/-- What visiting leaves in the table: the old fixity, or that of a `let` naming the operator twice. -/
def LeaksAt (op : Infix) (r : Resolver) (e : Expr) (r' : Resolver) (_ : Expr) : Prop :=
  r.fixities.Wf → r'.fixities.Wf ∧ (r'.fixities.getDefined op = r.fixities.getDefined op ∨
    ∃ d, LetIn d e ∧ 2 ≤ d.times op ∧ r'.fixities.getDefined op = some d.fixity)

theorem thread_leaks {op : Infix} {r es r' es'} (h : Thread (LeaksAt op) r es r' es') :
    r.fixities.Wf → r'.fixities.Wf ∧ (r'.fixities.getDefined op = r.fixities.getDefined op ∨
      ∃ d, (∃ e ∈ es, LetIn d e) ∧ 2 ≤ d.times op ∧ r'.fixities.getDefined op = some d.fixity) := by
  induction h with
  | nil => intro hw; exact ⟨hw, .inl rfl⟩
  | cons hp _ ih =>
    intro hw
    obtain ⟨w1, l1⟩ := hp hw
    obtain ⟨w2, l2⟩ := ih w1
    refine ⟨w2, ?_⟩
    rcases l2 with l2 | ⟨d, ⟨e, he, hd⟩, h⟩
    · rw [l2]
      rcases l1 with l1 | ⟨d, hd, h⟩
      · exact .inl l1
      · exact .inr ⟨d, ⟨_, by simp, hd⟩, h⟩
    · exact .inr ⟨d, ⟨e, by simp [he], hd⟩, h⟩

private theorem leak_map {op : Infix} {m m' : Fixities} {e e' : Expr} (f : ∀ d, LetIn d e → LetIn d e')
    (h : m'.getDefined op = m.getDefined op ∨
      ∃ d, LetIn d e ∧ 2 ≤ d.times op ∧ m'.getDefined op = some d.fixity) :
    m'.getDefined op = m.getDefined op ∨
      ∃ d, LetIn d e' ∧ 2 ≤ d.times op ∧ m'.getDefined op = some d.fixity :=
  h.imp id fun ⟨d, h1, h2⟩ => ⟨d, f d h1, h2⟩

private theorem leak_trans {op : Infix} {m m₁ m₂ : Fixities} {a b e : Expr}
    (ha : ∀ d, LetIn d a → LetIn d e) (hb : ∀ d, LetIn d b → LetIn d e)
    (h1 : m₁.getDefined op = m.getDefined op ∨
      ∃ d, LetIn d a ∧ 2 ≤ d.times op ∧ m₁.getDefined op = some d.fixity)
    (h2 : m₂.getDefined op = m₁.getDefined op ∨
      ∃ d, LetIn d b ∧ 2 ≤ d.times op ∧ m₂.getDefined op = some d.fixity) :
    m₂.getDefined op = m.getDefined op ∨
      ∃ d, LetIn d e ∧ 2 ≤ d.times op ∧ m₂.getDefined op = some d.fixity := by
  rcases h2 with h2 | ⟨d, hd, h⟩
  · rw [h2]; exact leak_map ha h1
  · exact .inr ⟨d, hb d hd, h⟩

theorem visit_leaks (op : Infix) : ∀ e r r' e', visit r e = .ok (r', e') → LeaksAt op r e r' e' := by
  apply visit_induct (P := LeaksAt op)
  case bin =>
    intro r a o b a₁ op₁ b₁ r₁ a₂ r₂ b₂ hr h1 h2 hw
    obtain ⟨w1, l1⟩ := h1 hw
    obtain ⟨w2, l2⟩ := h2 w1
    exact ⟨w2, leak_map (fun d => (rewrite_letIn hr d).1)
      (leak_trans (fun _ => .binL) (fun _ => .binR) l1 l2)⟩
  case bad => intro r a o b err _ hw; rw [storeError_fixities]; exact ⟨hw, .inl rfl⟩
  case app =>
    intro r f x r₁ f' r₂ x' h1 h2 hw
    obtain ⟨w1, l1⟩ := h1 hw
    obtain ⟨w2, l2⟩ := h2 w1
    exact ⟨w2, leak_trans (fun _ => .appL) (fun _ => .appR) l1 l2⟩
  case tup =>
    intro r es r₁ es' h hw
    obtain ⟨w, l⟩ := thread_leaks h hw
    exact ⟨w, l.imp id fun ⟨d, ⟨x, hx, hd⟩, h⟩ => ⟨d, .tup hx hd, h⟩⟩
  case list =>
    intro r es r₁ es' h hw
    obtain ⟨w, l⟩ := thread_leaks h hw
    exact ⟨w, l.imp id fun ⟨d, ⟨x, hx, hd⟩, h⟩ => ⟨d, .list hx hd, h⟩⟩
  case let_ =>
    intro r d b r₁ b' h hw
    obtain ⟨w1, l1⟩ := h (by rw [insertLocal_snd]; exact Fixities.wf_insertMany hw _ _)
    refine ⟨wf_restore w1 _, ?_⟩
    simp only [getDefined_restore _ _ _ _ _ w1]
    split
    · rename_i h0
      refine leak_map (m := r.fixities) (fun _ => LetIn.let_) ?_
      simp only [insertLocal_snd, Fixities.getDefined_insertMany] at l1
      rwa [if_neg (List.count_eq_zero.1 h0)] at l1
    · exact .inl rfl
    · rename_i h0 h1
      refine .inr ⟨d, .here, ?_, rfl⟩
      unfold InfixDecl.times
      generalize (d.infixes.map Infix.symbol).count op.symbol = n at *
      rcases n with _ | _ | n
      · exact absurd rfl h0
      · exact absurd rfl h1
      · omega
  case lam => intro r p b r₁ b' h hw; exact ⟨(h hw).1, leak_map (fun _ => .lam) (h hw).2⟩
  case grp => intro r b r₁ b' h hw; exact ⟨(h hw).1, leak_map (fun _ => .grp) (h hw).2⟩
  case neg => intro r b r₁ b' h hw; exact ⟨(h hw).1, leak_map (fun _ => .neg) (h hw).2⟩
  all_goals intros; exact fun hw => ⟨hw, .inl rfl⟩

end Resolver
end Pemdas
