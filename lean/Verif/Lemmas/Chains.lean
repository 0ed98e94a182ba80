import Verif.Lemmas.Visit
import Verif.Spec.Chains
/-
Helper lemmas for the properties of operator chains (C82–C86).
-/
namespace Pemdas
open OpTree

/-! ### Chains put together -/

theorem Expr.joinChain_operators (l : Expr) (op : Infix) (r : Expr) :
    (l.joinChain op r).chainOperators = l.chainOperators ++ op :: r.chainOperators := by
  fun_induction Expr.joinChain l op r with
  | case1 a o b op r ih => simp [chainOperators, ih]
  | case2 e op r h => cases e <;> simp_all [chainOperators]

theorem Expr.joinChain_operands (l : Expr) (op : Infix) (r : Expr) :
    (l.joinChain op r).chainOperands = l.chainOperands ++ r.chainOperands := by
  fun_induction Expr.joinChain l op r with
  | case1 a o b op r ih => simp [chainOperands, ih]
  | case2 e op r h => cases e <;> simp_all [chainOperands]

theorem Expr.chain_nonBin {e : Expr} (h : e.NonBin) :
    e.chainOperands = [e] ∧ e.chainOperators = [] := by
  cases e <;> simp_all [NonBin, rootOp, chainOperands, chainOperators]

theorem Expr.ofChain_chain (a : Expr) (rest : List (Infix × Expr))
    (h : ∀ x, (a :: rest.map (·.2)).getLast? = some x → x.NonBin) :
    (Expr.ofChain a rest).chainOperands = a :: rest.map (·.2) ∧
    (Expr.ofChain a rest).chainOperators = rest.map (·.1) := by
  induction rest generalizing a with
  | nil => exact chain_nonBin (h a rfl)
  | cons x rest ih =>
    obtain ⟨op, b⟩ := x
    have := ih b (fun x hx => h x (by simpa using hx))
    simp [ofChain, chainOperands, chainOperators, this]

/-! ### Mirror images -/

theorem Assoc.mirror_left {a : Assoc} : a.mirror = .left ↔ a = .right := by cases a <;> decide
theorem Assoc.mirror_right {a : Assoc} : a.mirror = .right ↔ a = .left := by cases a <;> decide

theorem leftOk_mirror (a b : Fixity) : LeftOk a.mirror b.mirror ↔ RightOk a b := by
  simp [LeftOk, RightOk, Fixity.mirror, Assoc.mirror_left]
theorem rightOk_mirror (a b : Fixity) : RightOk a.mirror b.mirror ↔ LeftOk a b := by
  simp [LeftOk, RightOk, Fixity.mirror, Assoc.mirror_right]

theorem OpTree.mirror_mirror (t : OpTree) : t.mirror.mirror = t := by
  induction t with
  | leaf e => rfl
  | node l op r ihl ihr => simp [mirror, ihl, ihr]

theorem OpTree.mirror_root (t : OpTree) : t.mirror.root = t.root := by cases t <;> rfl

theorem OpTree.mirror_operands (t : OpTree) : t.mirror.operands = t.operands.reverse := by
  induction t with
  | leaf e => rfl
  | node l op r ihl ihr => simp [mirror, operands, ihl, ihr]

theorem OpTree.mirror_operators (t : OpTree) : t.mirror.operators = t.operators.reverse := by
  induction t with
  | leaf e => rfl
  | node l op r ihl ihr => simp [mirror, operators, ihl, ihr]

theorem OpTree.root_mem {t : OpTree} {o : Infix} (ho : t.root = some o) : o ∈ t.operators := by
  cases t with
  | leaf e => simp [root] at ho
  | node a b c => simp only [root, Option.some.injEq] at ho; simp [operators, ho]

theorem OpTree.mirror_wellGrouped {fx fx' : Env} : ∀ {t : OpTree},
    (∀ o ∈ t.operators, fx' o = (fx o).mirror) → t.WellGrouped fx → t.mirror.WellGrouped fx'
  | leaf _, _, _ => trivial
  | node l op r, h, hw => by
    have hl : ∀ o ∈ l.operators, fx' o = (fx o).mirror := fun o ho => h o (by simp [operators, ho])
    have hr : ∀ o ∈ r.operators, fx' o = (fx o).mirror := fun o ho => h o (by simp [operators, ho])
    have hop := h op (by simp [operators])
    refine ⟨mirror_wellGrouped hr hw.2.1, mirror_wellGrouped hl hw.1, ?_, ?_⟩
    · intro o ho
      rw [mirror_root] at ho
      rw [hr o (root_mem ho), hop, leftOk_mirror]
      exact hw.2.2.2 o ho
    · intro o ho
      rw [mirror_root] at ho
      rw [hl o (root_mem ho), hop, rightOk_mirror]
      exact hw.2.2.1 o ho

/-! ### Shapes -/

/-- Stacks that differ in their operands only. -/
def SameStack (st st' : List (OpTree × Infix)) : Prop :=
  st.map (fun x => (x.1.shape, x.2)) = st'.map (fun x => (x.1.shape, x.2))

theorem unwind_shape : ∀ {st st' : List (OpTree × Infix)} {c c' : OpTree}, SameStack st st' →
    c.shape = c'.shape → (c.unwind st).shape = (c'.unwind st').shape
  | [], [], _, _, _, h => h
  | [], _ :: _, _, _, hs, _ => by simp [SameStack] at hs
  | _ :: _, [], _, _, hs, _ => by simp [SameStack] at hs
  | (l, p) :: st, (l', p') :: st', c, c', hs, h => by
    simp only [SameStack, List.map_cons, List.cons.injEq, Prod.mk.injEq] at hs
    exact unwind_shape (st := st) (st' := st') hs.2 (by simp [shape, hs.1.1, hs.1.2, h])

theorem popWhile_shape (fx : Env) (op : Infix) :
    ∀ {st st' : List (OpTree × Infix)} {c c' : OpTree}, SameStack st st' → c.shape = c'.shape →
    (∃ err, popWhile fx op c st = .error err ∧ popWhile fx op c' st' = .error err) ∨
    (∃ d d' s s', popWhile fx op c st = .ok (d, s) ∧ popWhile fx op c' st' = .ok (d', s') ∧
      SameStack s s' ∧ d.shape = d'.shape)
  | [], [], c, c', hs, h => .inr ⟨c, c', [], [], rfl, rfl, rfl, h⟩
  | [], _ :: _, _, _, hs, _ => by simp [SameStack] at hs
  | _ :: _, [], _, _, hs, _ => by simp [SameStack] at hs
  | (l, p) :: st, (l', p') :: st', c, c', hs, h => by
    have hs' := hs
    simp only [SameStack, List.map_cons, List.cons.injEq, Prod.mk.injEq] at hs
    obtain ⟨⟨hl, rfl⟩, ht⟩ := hs
    simp only [popWhile]
    cases Rule.fromFixities (fx p) (fx op) with
    | shift => exact .inr ⟨_, _, _, _, rfl, rfl, hs', h⟩
    | reduce => exact popWhile_shape fx op (st := st) (st' := st') ht (by simp [shape, hl, h])
    | ambiguous a b => exact .inl ⟨_, rfl, rfl⟩

theorem machine_shape (fx : Env) : ∀ {rest rest' : List (Infix × Expr)}
    {st st' : List (OpTree × Infix)} {c c' : OpTree}, SameStack st st' → c.shape = c'.shape →
    rest.map (·.1) = rest'.map (·.1) →
    (∃ err, machine fx st c rest = .error err ∧ machine fx st' c' rest' = .error err) ∨
    (∃ t t', machine fx st c rest = .ok t ∧ machine fx st' c' rest' = .ok t' ∧
      t.shape = t'.shape)
  | [], [], _, _, _, _, hs, h, _ => .inr ⟨_, _, rfl, rfl, unwind_shape hs h⟩
  | [], _ :: _, _, _, _, _, _, _, hr => by simp at hr
  | _ :: _, [], _, _, _, _, _, _, hr => by simp at hr
  | (op, e) :: rest, (op', e') :: rest', st, st', c, c', hs, h, hr => by
    simp only [List.map_cons, List.cons.injEq] at hr
    obtain ⟨rfl, hr⟩ := hr
    simp only [machine]
    rcases popWhile_shape fx op hs h with ⟨err, h1, h2⟩ | ⟨d, d', s, s', h1, h2, h3, h4⟩
    · rw [h1, h2]; exact .inl ⟨err, rfl, rfl⟩
    · rw [h1, h2]
      exact machine_shape fx (rest := rest) (rest' := rest')
        (by simp only [SameStack, List.map_cons, h4, List.cons.injEq, true_and]; exact h3) rfl hr

/-! ### Chains of one precedence -/

/-- The tree of `nestLeft`. -/
def leftTree (t : OpTree) (rest : List (Infix × Expr)) : OpTree :=
  rest.foldl (fun acc x => .node acc x.1 (.leaf x.2)) t

/-- The tree of a chain nested to the right. -/
def rightTree (a : Expr) : List (Infix × Expr) → OpTree
  | [] => .leaf a
  | (op, b) :: rest => .node (.leaf a) op (rightTree b rest)

theorem leftTree_spec (t : OpTree) (rest : List (Infix × Expr)) :
    (leftTree t rest).toExpr = Expr.nestLeft t.toExpr rest ∧
    (leftTree t rest).operands = t.operands ++ rest.map (·.2) ∧
    (leftTree t rest).operators = t.operators ++ rest.map (·.1) := by
  induction rest generalizing t with
  | nil => simp [leftTree, Expr.nestLeft]
  | cons x rest ih =>
    have := ih (.node t x.1 (.leaf x.2))
    simp only [leftTree, Expr.nestLeft, List.foldl_cons] at this ⊢
    refine ⟨this.1, ?_, ?_⟩
    · rw [this.2.1]; simp [operands]
    · rw [this.2.2]; simp [operators]

theorem leftTree_wellGrouped (fx : Env) (p : Nat) (t : OpTree) (rest : List (Infix × Expr))
    (ht : t.WellGrouped fx) (hr : ∀ o, t.root = some o → fx o = ⟨p, .left⟩)
    (h : ∀ x ∈ rest, fx x.1 = ⟨p, .left⟩) : (leftTree t rest).WellGrouped fx := by
  induction rest generalizing t with
  | nil => exact ht
  | cons x rest ih =>
    refine ih (.node t x.1 (.leaf x.2)) ⟨ht, trivial, ?_, ?_⟩ ?_ (fun y hy => h y (by simp [hy]))
    · intro o ho
      rw [hr o ho, h x (by simp)]
      exact .inr ⟨rfl, rfl, rfl⟩
    · intro o ho; simp [root] at ho
    · intro o ho
      simp only [root, Option.some.injEq] at ho
      rw [← ho]; exact h x (by simp)

theorem rightTree_spec (a : Expr) (rest : List (Infix × Expr)) :
    (rightTree a rest).toExpr = Expr.ofChain a rest ∧
    (rightTree a rest).operands = a :: rest.map (·.2) ∧
    (rightTree a rest).operators = rest.map (·.1) := by
  induction rest generalizing a with
  | nil => simp [rightTree, Expr.ofChain, toExpr, operands, operators]
  | cons x rest ih =>
    obtain ⟨op, b⟩ := x
    have := ih b
    simp [rightTree, Expr.ofChain, toExpr, operands, operators, this]

theorem rightTree_wellGrouped (fx : Env) (p : Nat) (a : Expr) (rest : List (Infix × Expr))
    (h : ∀ x ∈ rest, fx x.1 = ⟨p, .right⟩) : (rightTree a rest).WellGrouped fx := by
  induction rest generalizing a with
  | nil => trivial
  | cons x rest ih =>
    obtain ⟨op, b⟩ := x
    refine ⟨trivial, ih b (fun y hy => h y (by simp [hy])), ?_, ?_⟩
    · intro o ho; simp [root] at ho
    · intro o ho
      rw [h (op, b) (by simp)]
      have : fx o = ⟨p, .right⟩ := by
        have hm := root_mem ho
        rw [(rightTree_spec b rest).2.2] at hm
        obtain ⟨y, hy, rfl⟩ := List.mem_map.1 hm
        exact h y (by simp [hy])
      rw [this]
      exact .inr ⟨rfl, rfl, rfl⟩

end Pemdas
