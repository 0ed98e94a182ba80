import Verif.Lemmas.Grouping
import Verif.Lemmas.Table
/-
Further helper lemmas for the properties of infix rewriting.
-/
namespace Pemdas
open OpTree

/-- The right spine of a tree with everything else opaque. -/
def OpTree.spineOnly : OpTree → OpTree
  | leaf e => leaf e
  | node l op r => node (leaf l.toExpr) op r.spineOnly

theorem OpTree.spineOnly_toExpr (t : OpTree) : t.spineOnly.toExpr = t.toExpr := by
  induction t with
  | leaf e => rfl
  | node l op r _ ih => simp [spineOnly, toExpr, ih]

theorem OpTree.spineOnly_root (t : OpTree) : t.spineOnly.root = t.root := by cases t <;> rfl

theorem OpTree.spineOnly_wellGrouped {fx : Env} : ∀ {t : OpTree}, t.WellGrouped fx →
    t.spineOnly.WellGrouped fx
  | leaf _, _ => trivial
  | node l op r, hw => by
    refine ⟨trivial, spineOnly_wellGrouped hw.2.1, ?_, ?_⟩
    · intro o ho; simp [root] at ho
    · intro o ho; rw [spineOnly_root] at ho; exact hw.2.2.2 o ho

theorem OpTree.spineOnly_isGrouping (t : OpTree) (hl : t.last.chainRest = [])
    (hl' : t.last.chainFirst = t.last) : IsGrouping t.toExpr t.spineOnly := by
  rw [isGrouping_iff]
  induction t with
  | leaf e => exact ⟨hl'.symm, hl.symm⟩
  | node l op r _ ih =>
    have := ih hl hl'
    simp [spineOnly, first, rest, toExpr, Expr.chainFirst, Expr.chainRest, this.1, this.2]

theorem Expr.chain_last (e : Expr) : ∀ x, e.chainOperands.getLast? = some x →
    x.chainRest = [] ∧ x.chainFirst = x := by
  fun_induction Expr.chainOperands e with
  | case1 l op r ih =>
    intro x hx
    apply ih
    have hne : r.chainOperands ≠ [] := by rw [Expr.chainOperands_eq]; simp
    rwa [List.getLast?_cons_of_ne_nil hne] at hx
  | case2 e h =>
    intro x hx
    simp only [List.getLast?_singleton, Option.some.injEq] at hx
    subst hx
    cases e <;> simp_all [Expr.chainRest, Expr.chainFirst]

theorem OpTree.last_eq (t : OpTree) : t.operands.getLast? = some t.last := by
  induction t with
  | leaf e => rfl
  | node l op r _ ih => simp [operands, last, List.getLast?_append, ih]

theorem popWhile_congr {fx fx' : Env} {op : Infix} (st : List (OpTree × Infix)) (cur : OpTree)
    (hop : fx op = fx' op) (h : ∀ x ∈ st, fx x.2 = fx' x.2) :
    popWhile fx op cur st = popWhile fx' op cur st ∧
    ∀ c s, popWhile fx op cur st = .ok (c, s) → ∀ x ∈ s, x ∈ st := by
  induction st generalizing cur with
  | nil => simp [popWhile]
  | cons x st ih =>
    obtain ⟨l, p⟩ := x
    have hp : fx p = fx' p := h (l, p) (by simp)
    have ih' := ih (.node l p cur) (fun y hy => h y (by simp [hy]))
    simp only [popWhile, hp, hop]
    cases Rule.fromFixities (fx' p) (fx' op) with
    | shift => simp
    | reduce =>
      refine ⟨ih'.1, fun c s hs y hy => ?_⟩
      exact List.mem_cons_of_mem _ (ih'.2 c s hs y hy)
    | ambiguous a b => simp

theorem machine_congr {fx fx' : Env} (rest : List (Infix × Expr)) (st : List (OpTree × Infix))
    (cur : OpTree) (h : ∀ x ∈ st, fx x.2 = fx' x.2) (hr : ∀ x ∈ rest, fx x.1 = fx' x.1) :
    machine fx st cur rest = machine fx' st cur rest := by
  induction rest generalizing st cur with
  | nil => rfl
  | cons x rest ih =>
    obtain ⟨op, e⟩ := x
    have hop : fx op = fx' op := hr (op, e) (by simp)
    have hc := popWhile_congr (op := op) st cur hop h
    simp only [machine, ← hc.1]
    cases hp : popWhile fx op cur st with
    | error err => rfl
    | ok y =>
      obtain ⟨c, s⟩ := y
      refine ih _ _ ?_ (fun y hy => hr y (by simp [hy]))
      intro y hy
      simp only [List.mem_cons] at hy
      rcases hy with rfl | hy
      · exact hop
      · exact h y (hc.2 c s hp y hy)

theorem SameOrder.symm {fx fx' : Env} {ops : List Infix} (h : SameOrder fx fx' ops) :
    SameOrder fx' fx ops :=
  ⟨fun a ha b hb => (h.1 a ha b hb).symm, fun a ha => (h.2 a ha).symm⟩

theorem SameOrder.wellGrouped {fx fx' : Env} {ops : List Infix} (h : SameOrder fx fx' ops) :
    ∀ {t : OpTree}, (∀ q ∈ t.operators, q ∈ ops) → t.WellGrouped fx → t.WellGrouped fx'
  | leaf _, _, _ => trivial
  | node l op r, hs, hw => by
    have hl : ∀ q ∈ l.operators, q ∈ ops := fun q hq => hs q (by simp [operators, hq])
    have hr : ∀ q ∈ r.operators, q ∈ ops := fun q hq => hs q (by simp [operators, hq])
    have hop : op ∈ ops := hs op (by simp [operators])
    have hroot : ∀ {t : OpTree} {o}, t.root = some o → o ∈ t.operators := by
      intro t o ho
      cases t with
      | leaf e => simp [root] at ho
      | node a b c => simp only [root, Option.some.injEq] at ho; simp [operators, ho]
    refine ⟨h.wellGrouped hl hw.1, h.wellGrouped hr hw.2.1, ?_, ?_⟩
    · intro o ho
      have ho' := hl o (hroot ho)
      have h1 := h.1 op hop o ho'
      have h2 := h.1 o ho' op hop
      have h3 := h.2 o ho'
      have h4 := h.2 op hop
      rcases hw.2.2.1 o ho with h5 | ⟨h5, h6, h7⟩
      · left; exact h1.1 h5
      · right; rw [← h3, ← h4]; exact ⟨by omega, h6, h7⟩
    · intro o ho
      have ho' := hr o (hroot ho)
      have h1 := h.1 op hop o ho'
      have h2 := h.1 o ho' op hop
      have h3 := h.2 o ho'
      have h4 := h.2 op hop
      rcases hw.2.2.2 o ho with h5 | ⟨h5, h6, h7⟩
      · left; exact h1.1 h5
      · right; rw [← h3, ← h4]; exact ⟨by omega, h6, h7⟩

theorem getDefined_map (m : Fixities) (f : Fixity → Fixity) (op : Infix) :
    Fixities.getDefined (m.map fun x => (x.1, f x.2)) op = (m.getDefined op).map f := by
  induction m with
  | nil => rfl
  | cons x m ih =>
    obtain ⟨k, v⟩ := x
    simp only [List.map_cons, Fixities.getDefined, ih]
    split <;> rfl

end Pemdas
