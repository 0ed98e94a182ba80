import Verif.Lemmas.GroupingMore
import Verif.Spec.Resolve
/-
Helper lemmas: the fuel of the visitor suffices, and `visit` satisfies the equations of
`visit_expr_mut`.
-/
namespace Pemdas
open OpTree

/-! ### Sizes -/

theorem Expr.size_pos (e : Expr) : 0 < e.size := by cases e <;> simp [Expr.size]

theorem OpTree.size_toExpr (t : OpTree) :
    t.toExpr.size = (t.operands.map Expr.size).sum + t.operators.length := by
  induction t with
  | leaf e => simp [toExpr, operands, operators]
  | node l op r ihl ihr =>
    simp only [toExpr, Expr.size, ihl, ihr, operands, operators, List.map_append,
      List.sum_append, List.length_append, List.length_cons]
    omega

theorem Expr.size_chain (e : Expr) :
    e.size = (e.chainOperands.map Expr.size).sum + e.chainOperators.length := by
  fun_induction Expr.chainOperands e with
  | case1 l op r ih =>
    simp only [Expr.size, ih, List.map_cons, List.sum_cons, chainOperators, List.length_cons]
    omega
  | case2 e h => cases e <;> simp_all [chainOperators]

theorem size_of_isGrouping {e : Expr} {t : OpTree} (h : IsGrouping e t) :
    t.toExpr.size = e.size := by
  rw [OpTree.size_toExpr, Expr.size_chain e, h.1, h.2]

theorem rewrite_ok_grouping {m : Fixities} {e e' : Expr} (h : m.rewrite e = .ok (.ok e')) :
    ∃ t : OpTree, t.toExpr = e' ∧ IsGrouping e t ∧ t.WellGrouped m.get := by
  rw [rewrite_eq] at h
  cases hm : machine m.get [] (.leaf e.chainFirst) e.chainRest with
  | error err => rw [hm] at h; simp [Except.map] at h
  | ok t =>
    rw [hm] at h
    simp only [Except.map, Except.ok.injEq] at h
    refine ⟨t, h, ?_, machine_sound (st := []) trivial hm⟩
    rw [isGrouping_iff]
    exact machine_order hm

theorem rewrite_of_grouping {m : Fixities} {e : Expr} {t : OpTree} (hg : IsGrouping e t)
    (hw : t.WellGrouped m.get) : m.rewrite e = .ok (.ok t.toExpr) := by
  rw [isGrouping_iff] at hg
  rw [rewrite_eq, ← hg.1, ← hg.2, machine_complete m.get t hw]
  rfl

theorem rewrite_size {m : Fixities} {e e' : Expr} (h : m.rewrite e = .ok (.ok e')) :
    e'.size = e.size := by
  obtain ⟨t, rfl, hg, _⟩ := rewrite_ok_grouping h
  exact size_of_isGrouping hg

theorem rewrite_no_panic (m : Fixities) (e : Expr) (p : Panic) : m.rewrite e ≠ .error p := by
  rw [rewrite_eq]; simp

theorem rewrite_bin {m : Fixities} {l r e' : Expr} {op : Infix}
    (h : m.rewrite (.bin l op r) = .ok (.ok e')) : ∃ a o b, e' = .bin a o b := by
  obtain ⟨t, rfl, hg, _⟩ := rewrite_ok_grouping h
  cases t with
  | leaf e => have := hg.2; simp [operators, Expr.chainOperators] at this
  | node a o b => exact ⟨_, _, _, rfl⟩

namespace Resolver

/-! ### Fuel -/

theorem walkList_mono {v v' : Resolver → Expr → Visit}
    (hv : ∀ r e x, v r e = .ok x → v' r e = .ok x) (r : Resolver) (es : List Expr) (x)
    (h : walkList v r es = .ok x) : walkList v' r es = .ok x := by
  induction es generalizing r x with
  | nil => exact h
  | cons e es ih =>
    simp only [walkList, bind, Except.bind] at h ⊢
    cases h1 : v r e with
    | error s => rw [h1] at h; simp at h
    | ok y =>
      rw [h1] at h; rw [hv _ _ _ h1]
      simp only at h ⊢
      cases h2 : walkList v y.1 es with
      | error s => rw [h2] at h; simp at h
      | ok z => rw [h2] at h; rw [ih _ _ h2]; exact h

theorem bind_mono {v v' : Resolver → Expr → Visit}
    (hv : ∀ r e x, v r e = .ok x → v' r e = .ok x) (r : Resolver) (e : Expr)
    {β : Type} (k k' : Resolver × Expr → Except Stop β)
    (hk : ∀ y x, k y = .ok x → k' y = .ok x) (x : β)
    (h : Except.bind (v r e) k = .ok x) : Except.bind (v' r e) k' = .ok x := by
  cases h1 : v r e with
  | error s => rw [h1] at h; simp [Except.bind] at h
  | ok y =>
    rw [h1] at h; rw [hv _ _ _ h1]
    exact hk _ _ h

theorem walkExpr_mono {v v' : Resolver → Expr → Visit}
    (hv : ∀ r e x, v r e = .ok x → v' r e = .ok x) (r : Resolver) (e : Expr) (x)
    (h : walkExpr v r e = .ok x) : walkExpr v' r e = .ok x := by
  cases e with
  | lit l => exact h
  | var i => exact h
  | app f y =>
    refine bind_mono hv r f _ _ ?_ x h
    intro z x h
    exact bind_mono hv _ y _ _ (fun _ _ h => h) x h
  | bin a op b =>
    refine bind_mono hv r a _ _ ?_ x h
    intro z x h
    exact bind_mono hv _ b _ _ (fun _ _ h => h) x h
  | lam p b => exact bind_mono hv r b _ _ (fun _ _ h => h) x h
  | grp b => exact bind_mono hv r b _ _ (fun _ _ h => h) x h
  | neg b => exact bind_mono hv r b _ _ (fun _ _ h => h) x h
  | let_ d b => exact bind_mono hv r b _ _ (fun _ _ h => h) x h
  | tup es =>
    simp only [walkExpr, bind, Except.bind] at h ⊢
    cases h1 : walkList v r es with
    | error s => rw [h1] at h; simp at h
    | ok y => rw [h1] at h; rw [walkList_mono hv _ _ _ h1]; exact h
  | list es =>
    simp only [walkExpr, bind, Except.bind] at h ⊢
    cases h1 : walkList v r es with
    | error s => rw [h1] at h; simp at h
    | ok y => rw [h1] at h; rw [walkList_mono hv _ _ _ h1]; exact h

theorem visitN_mono_succ (n : Nat) : ∀ r e x, visitN n r e = .ok x → visitN (n + 1) r e = .ok x := by
  induction n with
  | zero => intro r e x h; simp [visitN] at h
  | succ n ih =>
    intro r e x h
    cases e with
    | bin a op b =>
      simp only [visitN] at h
      rw [visitN.eq_def]
      simp only
      cases hr : r.fixities.rewrite (.bin a op b) with
      | error p => rw [hr] at h; simp at h
      | ok y =>
        rw [hr] at h
        cases y with
        | error err => exact h
        | ok e' => exact walkExpr_mono ih _ _ _ h
    | let_ d b =>
      simp only [visitN] at h
      rw [visitN.eq_def]
      exact bind_mono ih _ b _ _ (fun _ _ h => h) x h
    | lit l => exact h
    | var i => exact h
    | app f y => exact walkExpr_mono ih r (.app f y) x h
    | lam p b => exact walkExpr_mono ih r (.lam p b) x h
    | grp b => exact walkExpr_mono ih r (.grp b) x h
    | neg b => exact walkExpr_mono ih r (.neg b) x h
    | tup es => exact walkExpr_mono ih r (.tup es) x h
    | list es => exact walkExpr_mono ih r (.list es) x h

theorem visitN_mono {n k : Nat} (hle : n ≤ k) {r e x} (h : visitN n r e = .ok x) :
    visitN k r e = .ok x := by
  induction hle with
  | refl => exact h
  | step _ ih => exact visitN_mono_succ _ _ _ _ ih

theorem walkList_total {v : Resolver → Expr → Visit} {es : List Expr}
    (hv : ∀ e ∈ es, ∀ r, ∃ x, v r e = .ok x) (r : Resolver) : ∃ x, walkList v r es = .ok x := by
  induction es generalizing r with
  | nil => exact ⟨_, rfl⟩
  | cons e es ih =>
    obtain ⟨y, hy⟩ := hv e (by simp) r
    obtain ⟨z, hz⟩ := ih (fun e he => hv e (by simp [he])) y.1
    simp only [walkList, bind, Except.bind, hy, hz]
    exact ⟨_, rfl⟩

theorem mem_sizeList {e : Expr} {es : List Expr} (h : e ∈ es) : e.size ≤ Expr.sizeList es := by
  induction es with
  | nil => simp at h
  | cons x es ih =>
    simp only [Expr.sizeList]
    rcases List.mem_cons.1 h with rfl | h
    · omega
    · have := ih h; omega

theorem walkExpr_total {v : Resolver → Expr → Visit} {n : Nat}
    (hv : ∀ e r, e.size ≤ n → ∃ x, v r e = .ok x) (r : Resolver) (e : Expr)
    (he : e.size ≤ n + 1) : ∃ x, walkExpr v r e = .ok x := by
  cases e with
  | lit l => exact ⟨_, rfl⟩
  | var i => exact ⟨_, rfl⟩
  | app f y =>
    simp only [Expr.size] at he
    have := f.size_pos; have := y.size_pos
    obtain ⟨z, hz⟩ := hv f r (by omega)
    obtain ⟨w, hw⟩ := hv y z.1 (by omega)
    simp only [walkExpr, bind, Except.bind, hz, hw]; exact ⟨_, rfl⟩
  | bin a op b =>
    simp only [Expr.size] at he
    have := a.size_pos; have := b.size_pos
    obtain ⟨z, hz⟩ := hv a r (by omega)
    obtain ⟨w, hw⟩ := hv b z.1 (by omega)
    simp only [walkExpr, bind, Except.bind, hz, hw]; exact ⟨_, rfl⟩
  | lam p b =>
    simp only [Expr.size] at he
    obtain ⟨z, hz⟩ := hv b r (by omega)
    simp only [walkExpr, bind, Except.bind, hz]; exact ⟨_, rfl⟩
  | grp b =>
    simp only [Expr.size] at he
    obtain ⟨z, hz⟩ := hv b r (by omega)
    simp only [walkExpr, bind, Except.bind, hz]; exact ⟨_, rfl⟩
  | neg b =>
    simp only [Expr.size] at he
    obtain ⟨z, hz⟩ := hv b r (by omega)
    simp only [walkExpr, bind, Except.bind, hz]; exact ⟨_, rfl⟩
  | let_ d b =>
    simp only [Expr.size] at he
    obtain ⟨z, hz⟩ := hv b r (by omega)
    simp only [walkExpr, bind, Except.bind, hz]; exact ⟨_, rfl⟩
  | tup es =>
    simp only [Expr.size] at he
    obtain ⟨z, hz⟩ := walkList_total (v := v) (es := es)
      (fun e h r => hv e r (by have := mem_sizeList h; omega)) r
    simp only [walkExpr, bind, Except.bind, hz]; exact ⟨_, rfl⟩
  | list es =>
    simp only [Expr.size] at he
    obtain ⟨z, hz⟩ := walkList_total (v := v) (es := es)
      (fun e h r => hv e r (by have := mem_sizeList h; omega)) r
    simp only [walkExpr, bind, Except.bind, hz]; exact ⟨_, rfl⟩

theorem visitN_total (n : Nat) : ∀ e r, e.size ≤ n → ∃ x, visitN n r e = .ok x := by
  induction n with
  | zero => intro e r h; have := e.size_pos; omega
  | succ n ih =>
    intro e r h
    cases e with
    | bin a op b =>
      simp only [visitN]
      cases hr : r.fixities.rewrite (.bin a op b) with
      | error p => exact absurd hr (rewrite_no_panic _ _ _)
      | ok y =>
        cases y with
        | error err => exact ⟨_, rfl⟩
        | ok e' => exact walkExpr_total ih _ _ (by rw [rewrite_size hr]; exact h)
    | let_ d b =>
      simp only [Expr.size] at h
      obtain ⟨z, hz⟩ := ih b { r with fixities := (insertLocal d.fixity d.infixes r.fixities).2 }
        (by omega)
      simp only [visitN, bind, Except.bind, hz]; exact ⟨_, rfl⟩
    | lit l => exact ⟨_, rfl⟩
    | var i => exact ⟨_, rfl⟩
    | app f y => exact walkExpr_total ih r (.app f y) h
    | lam p b => exact walkExpr_total ih r (.lam p b) h
    | grp b => exact walkExpr_total ih r (.grp b) h
    | neg b => exact walkExpr_total ih r (.neg b) h
    | tup es => exact walkExpr_total ih r (.tup es) h
    | list es => exact walkExpr_total ih r (.list es) h

theorem visit_total (r : Resolver) (e : Expr) : ∃ x, visit r e = .ok x :=
  visitN_total e.size e r (Nat.le_refl _)

theorem visitN_ok_visit {n : Nat} {r e x} (h : visitN n r e = .ok x) : visit r e = .ok x := by
  obtain ⟨y, hy⟩ := visit_total r e
  rcases Nat.le_total n e.size with hle | hle
  · exact visitN_mono hle h
  · have := visitN_mono hle hy
    rw [h] at this
    rw [hy, this]

theorem visitN_visit {n : Nat} {r e} (h : e.size ≤ n) : visitN n r e = visit r e := by
  obtain ⟨x, hx⟩ := visitN_total n e r h
  rw [hx, visitN_ok_visit hx]

/-- The recursion equation of `visit_expr_mut`. -/
theorem visit_eq (r : Resolver) (e : Expr) :
    visit r e = match e with
      | .bin .. =>
        match r.fixities.rewrite e with
        | .error p => .error (.panic p)
        | .ok (.ok e') => walkExpr visit r e'
        | .ok (.error err) => .ok (r.storeError err, e)
      | .let_ d body => do
        let (olds, m) := insertLocal d.fixity d.infixes r.fixities
        let (r, body) ← visit { r with fixities := m } body
        .ok ({ r with fixities := restore olds r.fixities }, .let_ d body)
      | e => walkExpr visit r e := by
  have hp := e.size_pos
  obtain ⟨n, hn⟩ : ∃ n, e.size = n + 1 := ⟨e.size - 1, by omega⟩
  obtain ⟨x, hx⟩ := visit_total r e
  have hv : ∀ r e x, visitN n r e = .ok x → visit r e = .ok x := fun _ _ _ h => visitN_ok_visit h
  rw [hx]
  unfold visit at hx
  rw [hn] at hx
  symm
  cases e with
  | bin a op b =>
    simp only [visitN] at hx
    simp only
    cases hr : r.fixities.rewrite (.bin a op b) with
    | error p => rw [hr] at hx; simp at hx
    | ok y =>
      rw [hr] at hx
      cases y with
      | error err => exact hx
      | ok e' => exact walkExpr_mono hv _ _ _ hx
  | let_ d b =>
    simp only [visitN] at hx
    exact bind_mono hv _ b _ _ (fun _ _ h => h) x hx
  | lit l => exact hx
  | var i => exact hx
  | app f y => exact walkExpr_mono hv r (.app f y) x hx
  | lam p b => exact walkExpr_mono hv r (.lam p b) x hx
  | grp b => exact walkExpr_mono hv r (.grp b) x hx
  | neg b => exact walkExpr_mono hv r (.neg b) x hx
  | tup es => exact walkExpr_mono hv r (.tup es) x hx
  | list es => exact walkExpr_mono hv r (.list es) x hx

end Resolver
end Pemdas
