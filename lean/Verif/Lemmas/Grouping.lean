import Verif.Model.Fixity
import Verif.Spec.Grouping
/-
Helper lemmas: the two-stack loop of `Fixities::rewrite` simulates a machine on pairs
`(left operand, operator)`, which produces exactly the well-grouped trees.
-/
namespace Pemdas

/-! ### The shift/reduce rule in terms of the specification -/

theorem rule_shift_iff (p c : Fixity) : Rule.fromFixities p c = .shift ↔ RightOk c p := by
  obtain ⟨pp, pa⟩ := p
  obtain ⟨cp, ca⟩ := c
  unfold Rule.fromFixities RightOk
  dsimp only
  by_cases h : cp > pp
  · simp [h]
  · by_cases h' : cp = pp
    · subst h'; cases ca <;> cases pa <;> simp
    · simp [h, h']

theorem rule_reduce_iff (p c : Fixity) : Rule.fromFixities p c = .reduce ↔ LeftOk p c := by
  obtain ⟨pp, pa⟩ := p
  obtain ⟨cp, ca⟩ := c
  unfold Rule.fromFixities LeftOk
  dsimp only
  by_cases h : cp > pp
  · have h1 : ¬ pp > cp := by omega
    have h2 : ¬ pp = cp := by omega
    simp [h, h1, h2]
  · by_cases h' : cp = pp
    · subst h'; cases ca <;> cases pa <;> simp
    · have h1 : pp > cp := by omega
      simp [h, h', h1]

theorem rule_ambiguous_iff (p c a b : Fixity) :
    Rule.fromFixities p c = .ambiguous a b ↔ Clash p c ∧ a = p ∧ b = c := by
  obtain ⟨pp, pa⟩ := p
  obtain ⟨cp, ca⟩ := c
  unfold Rule.fromFixities Clash
  dsimp only
  by_cases h : cp > pp
  · have h2 : ¬ pp = cp := by omega
    simp [h, h2]
  · by_cases h' : cp = pp
    · subst h'; cases ca <;> cases pa <;> simp [eq_comm]
    · have h2 : ¬ pp = cp := by omega
      simp [h, h', h2]

/-- Right-spine operators of a left child are themselves fine on the left. -/
theorem LeftOk.of_right {a b c : Fixity} (h1 : LeftOk a b) (h2 : RightOk c a) : LeftOk c b := by
  unfold LeftOk RightOk at *
  rcases h1 with h1 | ⟨h1, h1', _⟩ <;> rcases h2 with h2 | ⟨h2, h2', h2''⟩
  · left; omega
  · left; omega
  · left; omega
  · rw [h1'] at h2''; cases h2''

/-- Left-spine operators of a right child are themselves fine on the right. -/
theorem RightOk.of_left {a b c : Fixity} (h1 : RightOk a b) (h2 : LeftOk c a) : RightOk c b := by
  unfold LeftOk RightOk at *
  rcases h1 with h1 | ⟨h1, h1', _⟩ <;> rcases h2 with h2 | ⟨h2, h2', h2''⟩
  · left; omega
  · left; omega
  · left; omega
  · rw [h1'] at h2''; cases h2''

theorem LeftOk.prec_le {a b : Fixity} (h : LeftOk a b) : b.prec ≤ a.prec := by
  rcases h with h | ⟨h, _⟩ <;> omega

theorem RightOk.prec_le {a b : Fixity} (h : RightOk a b) : b.prec ≤ a.prec := by
  rcases h with h | ⟨h, _⟩ <;> omega

/-! ### First operand and the rest of a chain -/

namespace OpTree

/-- Leftmost operand. -/
def first : OpTree → Expr
  | leaf e => e
  | node l _ _ => l.first

/-- Everything after the leftmost operand. -/
def rest : OpTree → List (Infix × Expr)
  | leaf _ => []
  | node l op r => l.rest ++ (op, r.first) :: r.rest

/-- Rightmost operand. -/
def last : OpTree → Expr
  | leaf e => e
  | node _ _ r => r.last

/-- The pending `(left operand, operator)` pairs along the right spine, innermost first. -/
def spine : OpTree → List (OpTree × Infix)
  | leaf _ => []
  | node l op r => r.spine ++ [(l, op)]

/-- Operators along the left spine. -/
def leftOps : OpTree → List Infix
  | leaf _ => []
  | node l op _ => op :: l.leftOps

theorem operands_eq (t : OpTree) : t.operands = t.first :: t.rest.map (·.2) := by
  induction t with
  | leaf e => rfl
  | node l op r ihl ihr => simp [operands, first, rest, ihl, ihr]

theorem operators_eq (t : OpTree) : t.operators = t.rest.map (·.1) := by
  induction t with
  | leaf e => rfl
  | node l op r ihl ihr => simp [operators, rest, ihl, ihr]

/-- Rebuild a tree from pending pairs. -/
def unwind (cur : OpTree) : List (OpTree × Infix) → OpTree
  | [] => cur
  | (l, p) :: st => unwind (node l p cur) st

theorem unwind_append (cur : OpTree) (a b : List (OpTree × Infix)) :
    unwind cur (a ++ b) = unwind (unwind cur a) b := by
  induction a generalizing cur with
  | nil => rfl
  | cons x a ih => obtain ⟨l, p⟩ := x; exact ih _

theorem unwind_spine (t : OpTree) : unwind (leaf t.last) t.spine = t := by
  induction t with
  | leaf e => rfl
  | node l op r _ ihr => simp [last, spine, unwind_append, ihr, unwind]

end OpTree

/-- First operand of the chain of an expression and what follows it. -/
def Expr.chainFirst : Expr → Expr
  | .bin l _ _ => l
  | e => e

/-- See `chainFirst`. -/
def Expr.chainRest : Expr → List (Infix × Expr)
  | .bin _ op r => (op, r.chainFirst) :: r.chainRest
  | _ => []

theorem Expr.chainOperands_eq (e : Expr) :
    e.chainOperands = e.chainFirst :: e.chainRest.map (·.2) := by
  fun_induction Expr.chainOperands e with
  | case1 l op r ih => simp [chainFirst, chainRest, ih]
  | case2 e h => cases e <;> simp_all [chainFirst, chainRest]

theorem Expr.chainOperators_eq (e : Expr) : e.chainOperators = e.chainRest.map (·.1) := by
  fun_induction Expr.chainOperators e with
  | case1 l op r ih => simp [chainRest, ih]
  | case2 e h => cases e <;> simp_all [chainRest]

private theorem pairs_ext {α β : Type} : ∀ {a b : List (α × β)},
    a.map (·.1) = b.map (·.1) → a.map (·.2) = b.map (·.2) → a = b
  | [], [], _, _ => rfl
  | [], _ :: _, h, _ => by simp at h
  | _ :: _, [], h, _ => by simp at h
  | (x, y) :: a, (x', y') :: b, h, h' => by
    simp only [List.map_cons, List.cons.injEq] at h h'
    rw [pairs_ext h.2 h'.2, h.1, h'.1]

theorem isGrouping_iff (e : Expr) (t : OpTree) :
    IsGrouping e t ↔ t.first = e.chainFirst ∧ t.rest = e.chainRest := by
  unfold IsGrouping
  rw [t.operands_eq, t.operators_eq, e.chainOperands_eq, e.chainOperators_eq]
  constructor
  · rintro ⟨h1, h2⟩
    simp only [List.cons.injEq] at h1
    exact ⟨h1.1, pairs_ext h2 h1.2⟩
  · rintro ⟨h1, h2⟩
    rw [h1, h2]; exact ⟨rfl, rfl⟩

/-! ### The abstract machine -/

/-- Pop pairs while the new operator says "reduce". -/
def popWhile (fx : Env) (op : Infix) :
    OpTree → List (OpTree × Infix) → Except AssocError (OpTree × List (OpTree × Infix))
  | cur, [] => .ok (cur, [])
  | cur, (l, p) :: st =>
    match Rule.fromFixities (fx p) (fx op) with
    | .shift => .ok (cur, (l, p) :: st)
    | .reduce => popWhile fx op (.node l p cur) st
    | .ambiguous a b => .error ⟨(p, a), (op, b)⟩

/-- Run the machine on the rest of a chain. -/
def machine (fx : Env) :
    List (OpTree × Infix) → OpTree → List (Infix × Expr) → Except AssocError OpTree
  | st, cur, [] => .ok (cur.unwind st)
  | st, cur, (op, e) :: rest =>
    match popWhile fx op cur st with
    | .error err => .error err
    | .ok (cur', st') => machine fx ((cur', op) :: st') (.leaf e) rest

/-- Operand stack corresponding to pending pairs. -/
def stackExprs (st : List (OpTree × Infix)) : List Expr := st.map (·.1.toExpr)
/-- Operator stack corresponding to pending pairs. -/
def stackOps (st : List (OpTree × Infix)) : List Infix := st.map (·.2)

theorem place_eq (m : Fixities) (op : Infix) (cur : OpTree) (st : List (OpTree × Infix)) :
    m.place op (cur.toExpr :: stackExprs st) (stackOps st) =
      .ok ((popWhile m.get op cur st).map fun (c, s) =>
        (c.toExpr :: stackExprs s, op :: stackOps s)) := by
  induction st generalizing cur with
  | nil => rfl
  | cons x st ih =>
    obtain ⟨l, p⟩ := x
    simp only [stackExprs, stackOps, List.map_cons, Fixities.place, popWhile]
    cases h : Rule.fromFixities (m.get p) (m.get op) with
    | shift => rfl
    | reduce =>
      simp only [Fixities.reduceTop]
      exact ih (.node l p cur)
    | ambiguous a b => rfl

theorem finish_eq (cur : OpTree) (st : List (OpTree × Infix)) :
    Fixities.finish (stackExprs st) (stackOps st) cur.toExpr = .ok (cur.unwind st).toExpr := by
  induction st generalizing cur with
  | nil => rfl
  | cons x st ih =>
    obtain ⟨l, p⟩ := x
    simp only [stackExprs, stackOps, List.map_cons, Fixities.finish, OpTree.unwind]
    exact ih (.node l p cur)

theorem rewriteLoop_eq (m : Fixities) (e : Expr) (st : List (OpTree × Infix)) :
    m.rewriteLoop (stackExprs st) (stackOps st) e =
      .ok ((machine m.get st (.leaf e.chainFirst) e.chainRest).map OpTree.toExpr) := by
  have nonbin : ∀ e : Expr, (∀ l o r, e ≠ .bin l o r) →
      (match Fixities.finish (stackExprs st) (stackOps st) e with
        | .error p => (.error p : Except Panic (Except AssocError Expr))
        | .ok e => .ok (.ok e)) =
      .ok ((machine m.get st (.leaf e.chainFirst) e.chainRest).map OpTree.toExpr) := by
    intro e he
    have hf : e.chainFirst = e := by cases e <;> simp_all [Expr.chainFirst]
    have hr : e.chainRest = [] := by cases e <;> simp_all [Expr.chainRest]
    rw [hf, hr]
    have := finish_eq (.leaf e) st
    simp only [OpTree.toExpr] at this
    rw [this]
    rfl
  induction e using Expr.rec (motive_2 := fun _ => True) generalizing st with
  | bin l op r _ ihr =>
    simp only [Fixities.rewriteLoop, Expr.chainFirst, Expr.chainRest, machine]
    have hp := place_eq m op (.leaf l) st
    simp only [OpTree.toExpr] at hp
    rw [hp]
    cases popWhile m.get op (.leaf l) st with
    | error err => rfl
    | ok x =>
      obtain ⟨c, s⟩ := x
      simp only [Except.map]
      have := ihr ((c, op) :: s)
      simp only [stackExprs, stackOps, List.map_cons] at this
      exact this (fun e he => by
        have hf : e.chainFirst = e := by cases e <;> simp_all [Expr.chainFirst]
        have hr : e.chainRest = [] := by cases e <;> simp_all [Expr.chainRest]
        rw [hf, hr]
        have := finish_eq (.leaf e) ((c, op) :: s)
        simp only [stackExprs, stackOps, List.map_cons, OpTree.toExpr] at this
        rw [this]
        rfl)
  | nil => trivial
  | cons _ _ _ _ => trivial
  | _ => exact nonbin _ (by intros; simp)

theorem rewrite_eq (m : Fixities) (e : Expr) :
    m.rewrite e = .ok ((machine m.get [] (.leaf e.chainFirst) e.chainRest).map OpTree.toExpr) :=
  rewriteLoop_eq m e []

/-! ### Completeness: the machine finds every well-grouped tree -/

namespace OpTree

theorem leftOps_rightOk {fx : Env} {p : Fixity} : ∀ {t : OpTree}, t.WellGrouped fx →
    (∀ o, t.root = some o → RightOk (fx o) p) → ∀ o ∈ t.leftOps, RightOk (fx o) p
  | leaf _, _, _, o, ho => by simp [leftOps] at ho
  | node l op r, hw, hr, o, ho => by
    have hop : RightOk (fx op) p := hr op rfl
    simp only [leftOps, List.mem_cons] at ho
    rcases ho with rfl | ho
    · exact hop
    · exact leftOps_rightOk hw.1 (fun o' ho' => hop.of_left (hw.2.2.1 o' ho')) o ho

theorem spine_leftOk {fx : Env} {p : Fixity} : ∀ {t : OpTree}, t.WellGrouped fx →
    (∀ o, t.root = some o → LeftOk (fx o) p) → ∀ x ∈ t.spine, LeftOk (fx x.2) p
  | leaf _, _, _, o, ho => by simp [spine] at ho
  | node l op r, hw, hr, o, ho => by
    have hop : LeftOk (fx op) p := hr op rfl
    simp only [spine, List.mem_append, List.mem_singleton] at ho
    rcases ho with ho | rfl
    · exact spine_leftOk hw.2.1 (fun o' ho' => hop.of_right (hw.2.2.2 o' ho')) o ho
    · exact hop

end OpTree

theorem popWhile_spine (fx : Env) (op : Infix) (cur : OpTree) (sp st : List (OpTree × Infix))
    (h : ∀ x ∈ sp, LeftOk (fx x.2) (fx op)) :
    popWhile fx op cur (sp ++ st) = popWhile fx op (cur.unwind sp) st := by
  induction sp generalizing cur with
  | nil => rfl
  | cons x sp ih =>
    obtain ⟨l, p⟩ := x
    have hp := (rule_reduce_iff _ _).2 (h (l, p) (by simp))
    simp only [List.cons_append, popWhile, OpTree.unwind]
    simp only at hp
    rw [hp]
    exact ih _ (fun y hy => h y (by simp [hy]))

/-- The new operator stops right on top of `st`. -/
def Fits (fx : Env) (op : Infix) (st : List (OpTree × Infix)) : Prop :=
  ∀ x, st.head? = some x → RightOk (fx op) (fx x.2)

theorem popWhile_fits (fx : Env) (op : Infix) (cur : OpTree) (st : List (OpTree × Infix))
    (h : Fits fx op st) : popWhile fx op cur st = .ok (cur, st) := by
  cases st with
  | nil => rfl
  | cons x st =>
    obtain ⟨l, p⟩ := x
    have := (rule_shift_iff _ _).2 (h (l, p) rfl)
    simp only at this
    simp [popWhile, this]

theorem machine_tree (fx : Env) (t : OpTree) (hw : t.WellGrouped fx)
    (st : List (OpTree × Infix)) (more : List (Infix × Expr))
    (hst : ∀ o ∈ t.leftOps, Fits fx o st) :
    machine fx st (.leaf t.first) (t.rest ++ more) =
      machine fx (t.spine ++ st) (.leaf t.last) more := by
  induction t generalizing st more with
  | leaf e => rfl
  | node l op r ihl ihr =>
    simp only [OpTree.first, OpTree.rest, OpTree.last, OpTree.spine, List.append_assoc,
      List.cons_append]
    rw [ihl hw.1 st _ (fun o ho => hst o (by simp [OpTree.leftOps, ho]))]
    rw [machine]
    rw [popWhile_spine fx op _ _ _ (OpTree.spine_leftOk hw.1 hw.2.2.1), OpTree.unwind_spine]
    rw [popWhile_fits fx op l st (hst op (by simp [OpTree.leftOps]))]
    simp only
    rw [ihr hw.2.1 ((l, op) :: st) more]
    · simp
    · intro o ho x hx
      simp only [List.head?_cons, Option.some.injEq] at hx
      subst hx
      exact OpTree.leftOps_rightOk hw.2.1 hw.2.2.2 o ho

theorem machine_complete (fx : Env) (t : OpTree) (hw : t.WellGrouped fx) :
    machine fx [] (.leaf t.first) t.rest = .ok t := by
  have := machine_tree fx t hw [] [] (fun o _ x hx => by simp at hx)
  simp only [List.append_nil] at this
  rw [this, machine, OpTree.unwind_spine]

/-! ### Soundness: the machine only produces well-grouped trees -/

/-- Invariant of the pending pairs, `above` being the operator just above them (if any). -/
def StackOk (fx : Env) : List (OpTree × Infix) → Prop
  | [] => True
  | (l, p) :: st =>
    l.WellGrouped fx ∧ (∀ o, l.root = some o → LeftOk (fx o) (fx p)) ∧ Fits fx p st ∧
    StackOk fx st

/-- The current operand may stand to the right of the topmost pending operator. -/
def CurOk (fx : Env) (cur : OpTree) (st : List (OpTree × Infix)) : Prop :=
  cur.WellGrouped fx ∧ ∀ o, cur.root = some o → Fits fx o st

theorem node_ok {fx : Env} {l : OpTree} {p : Infix} {cur : OpTree} {st : List (OpTree × Infix)}
    (hst : StackOk fx ((l, p) :: st)) (hc : CurOk fx cur ((l, p) :: st)) :
    CurOk fx (.node l p cur) st ∧ StackOk fx st := by
  obtain ⟨h1, h2, h3, h4⟩ := hst
  refine ⟨⟨⟨h1, hc.1, h2, ?_⟩, ?_⟩, h4⟩
  · intro o ho; exact hc.2 o ho (l, p) rfl
  · intro o ho
    simp only [OpTree.root, Option.some.injEq] at ho
    subst ho; exact h3

theorem unwind_ok {fx : Env} {st : List (OpTree × Infix)} {cur : OpTree}
    (hst : StackOk fx st) (hc : CurOk fx cur st) : (cur.unwind st).WellGrouped fx := by
  induction st generalizing cur with
  | nil => exact hc.1
  | cons x st ih =>
    obtain ⟨l, p⟩ := x
    have := node_ok hst hc
    exact ih this.2 this.1

theorem popWhile_ok {fx : Env} {op : Infix} {st st' : List (OpTree × Infix)} {cur cur' : OpTree}
    (hst : StackOk fx st) (hc : CurOk fx cur st)
    (hl : ∀ o, cur.root = some o → LeftOk (fx o) (fx op))
    (h : popWhile fx op cur st = .ok (cur', st')) : StackOk fx ((cur', op) :: st') := by
  induction st generalizing cur with
  | nil =>
    simp only [popWhile, Except.ok.injEq, Prod.mk.injEq] at h
    obtain ⟨rfl, rfl⟩ := h
    exact ⟨hc.1, hl, by intro x hx; simp at hx, trivial⟩
  | cons x st ih =>
    obtain ⟨l, p⟩ := x
    simp only [popWhile] at h
    cases hr : Rule.fromFixities (fx p) (fx op) with
    | shift =>
      rw [hr] at h
      simp only [Except.ok.injEq, Prod.mk.injEq] at h
      obtain ⟨rfl, rfl⟩ := h
      refine ⟨hc.1, hl, ?_, hst⟩
      intro x hx
      simp only [List.head?_cons, Option.some.injEq] at hx
      subst hx
      exact (rule_shift_iff _ _).1 hr
    | reduce =>
      rw [hr] at h
      have := node_ok hst hc
      refine ih this.2 this.1 ?_ h
      intro o ho
      simp only [OpTree.root, Option.some.injEq] at ho
      subst ho
      exact (rule_reduce_iff _ _).1 hr
    | ambiguous a b => rw [hr] at h; simp at h

theorem machine_sound {fx : Env} {st : List (OpTree × Infix)} {e : Expr}
    {rest : List (Infix × Expr)} {t : OpTree} (hst : StackOk fx st)
    (h : machine fx st (.leaf e) rest = .ok t) : t.WellGrouped fx := by
  induction rest generalizing st e with
  | nil =>
    simp only [machine, Except.ok.injEq] at h
    subst h
    exact unwind_ok hst ⟨trivial, by intro o ho; simp [OpTree.root] at ho⟩
  | cons x rest ih =>
    obtain ⟨op, e'⟩ := x
    simp only [machine] at h
    cases hp : popWhile fx op (.leaf e) st with
    | error err => rw [hp] at h; simp at h
    | ok y =>
      obtain ⟨cur', st'⟩ := y
      rw [hp] at h
      have hcur : CurOk fx (.leaf e) st := ⟨trivial, by intro o ho; simp [OpTree.root] at ho⟩
      exact ih (popWhile_ok hst hcur (by intro o ho; simp [OpTree.root] at ho) hp) h

/-! ### The machine keeps operands and operators in order -/

/-- First operand of everything pending, followed by the current operand. -/
def pendingFirst : List (OpTree × Infix) → OpTree → Expr
  | [], cur => cur.first
  | (l, _) :: st, _ => pendingFirst st l

/-- Everything pending after the first operand, followed by the current operand. -/
def pendingRest : List (OpTree × Infix) → OpTree → List (Infix × Expr)
  | [], cur => cur.rest
  | (l, p) :: st, cur => pendingRest st l ++ (p, cur.first) :: cur.rest

theorem pendingFirst_node (st : List (OpTree × Infix)) (l : OpTree) (p : Infix) (cur : OpTree) :
    pendingFirst st (.node l p cur) = pendingFirst st l := by
  cases st with
  | nil => rfl
  | cons x st => obtain ⟨a, b⟩ := x; rfl

theorem pendingRest_node (st : List (OpTree × Infix)) (l : OpTree) (p : Infix) (cur : OpTree) :
    pendingRest st (.node l p cur) = pendingRest st l ++ (p, cur.first) :: cur.rest := by
  cases st with
  | nil => rfl
  | cons x st => obtain ⟨a, b⟩ := x; simp [pendingRest, OpTree.first, OpTree.rest]

theorem unwind_pending (st : List (OpTree × Infix)) (cur : OpTree) :
    (cur.unwind st).first = pendingFirst st cur ∧ (cur.unwind st).rest = pendingRest st cur := by
  induction st generalizing cur with
  | nil => exact ⟨rfl, rfl⟩
  | cons x st ih =>
    obtain ⟨l, p⟩ := x
    simp only [OpTree.unwind, pendingFirst, pendingRest]
    rw [(ih _).1, (ih _).2, pendingFirst_node, pendingRest_node]
    exact ⟨rfl, rfl⟩

theorem popWhile_pending {fx : Env} {op : Infix} {st st' : List (OpTree × Infix)}
    {cur cur' : OpTree} (h : popWhile fx op cur st = .ok (cur', st')) :
    pendingFirst st' cur' = pendingFirst st cur ∧ pendingRest st' cur' = pendingRest st cur := by
  induction st generalizing cur with
  | nil =>
    simp only [popWhile, Except.ok.injEq, Prod.mk.injEq] at h
    obtain ⟨rfl, rfl⟩ := h; exact ⟨rfl, rfl⟩
  | cons x st ih =>
    obtain ⟨l, p⟩ := x
    simp only [popWhile] at h
    cases hr : Rule.fromFixities (fx p) (fx op) with
    | shift =>
      rw [hr] at h
      simp only [Except.ok.injEq, Prod.mk.injEq] at h
      obtain ⟨rfl, rfl⟩ := h; exact ⟨rfl, rfl⟩
    | reduce =>
      rw [hr] at h
      have := ih h
      rw [this.1, this.2, pendingFirst_node, pendingRest_node]
      exact ⟨rfl, rfl⟩
    | ambiguous a b => rw [hr] at h; simp at h

theorem machine_order {fx : Env} {st : List (OpTree × Infix)} {cur : OpTree}
    {rest : List (Infix × Expr)} {t : OpTree} (h : machine fx st cur rest = .ok t) :
    t.first = pendingFirst st cur ∧ t.rest = pendingRest st cur ++ rest := by
  induction rest generalizing st cur with
  | nil =>
    simp only [machine, Except.ok.injEq] at h
    subst h
    simpa using unwind_pending st cur
  | cons x rest ih =>
    obtain ⟨op, e'⟩ := x
    simp only [machine] at h
    cases hp : popWhile fx op cur st with
    | error err => rw [hp] at h; simp at h
    | ok y =>
      obtain ⟨cur', st'⟩ := y
      rw [hp] at h
      have h1 := ih h
      have h2 := popWhile_pending hp
      simp only [pendingFirst, pendingRest, OpTree.first, OpTree.rest] at h1
      rw [h1.1, h1.2, h2.1, h2.2]
      simp

/-! ### Where the machine gives up -/

theorem OpTree.prec_ge {fx : Env} : ∀ {t : OpTree}, t.WellGrouped fx →
    ∀ {k : Nat}, (∀ o, t.root = some o → k ≤ (fx o).prec) → ∀ q ∈ t.operators, k ≤ (fx q).prec
  | leaf _, _, _, _, q, hq => by simp [operators] at hq
  | node l op r, hw, k, hk, q, hq => by
    have hop := hk op rfl
    simp only [operators, List.mem_append, List.mem_cons] at hq
    rcases hq with hq | rfl | hq
    · exact prec_ge hw.1 (fun o ho => le_trans' hop (hw.2.2.1 o ho).prec_le) q hq
    · exact hop
    · exact prec_ge hw.2.1 (fun o ho => le_trans' hop (hw.2.2.2 o ho).prec_le) q hq
where
  le_trans' {a b c : Nat} (h1 : a ≤ b) (h2 : b ≤ c) : a ≤ c := Nat.le_trans h1 h2

theorem popWhile_error {fx : Env} {op : Infix} {st : List (OpTree × Infix)} {cur : OpTree}
    {err : AssocError} (hst : StackOk fx st) (hc : CurOk fx cur st)
    (hl : ∀ o, cur.root = some o → LeftOk (fx o) (fx op))
    (h : popWhile fx op cur st = .error err) :
    ∃ p pre mid, err = ⟨(p, fx p), (op, fx op)⟩ ∧ Clash (fx p) (fx op) ∧
      (pendingRest st cur).map (·.1) = pre ++ p :: mid ∧
      ∀ q ∈ mid, (fx q).prec > (fx p).prec := by
  induction st generalizing cur with
  | nil => simp [popWhile] at h
  | cons x st ih =>
    obtain ⟨l, p⟩ := x
    simp only [popWhile] at h
    cases hr : Rule.fromFixities (fx p) (fx op) with
    | shift => rw [hr] at h; simp at h
    | reduce =>
      rw [hr] at h
      have hn := node_ok hst hc
      obtain ⟨p', pre, mid, h1, h2, h3, h4⟩ := ih hn.2 hn.1 (by
        intro o ho
        simp only [OpTree.root, Option.some.injEq] at ho
        subst ho
        exact (rule_reduce_iff _ _).1 hr) h
      refine ⟨p', pre, mid, h1, h2, ?_, h4⟩
      rw [← h3, pendingRest_node]; rfl
    | ambiguous a b =>
      rw [hr] at h
      obtain ⟨hcl, rfl, rfl⟩ := (rule_ambiguous_iff _ _ _ _).1 hr
      simp only [Except.error.injEq] at h
      subst h
      refine ⟨p, (pendingRest st l).map (·.1), cur.operators, rfl, hcl, ?_, ?_⟩
      · simp [pendingRest, cur.operators_eq]
      · intro q hq
        refine OpTree.prec_ge (k := (fx p).prec + 1) hc.1 ?_ q hq
        intro o ho
        have h1 := hc.2 o ho (l, p) rfl
        have h2 := hl o ho
        simp only at h1
        have h3 := hcl.1
        rcases h1 with h1 | ⟨h1, h1', _⟩
        · exact h1
        · rcases h2 with h2 | ⟨_, h2', _⟩
          · omega
          · rw [h1'] at h2'; cases h2'

theorem machine_error {fx : Env} {st : List (OpTree × Infix)} {e : Expr}
    {rest : List (Infix × Expr)} {err : AssocError} (hst : StackOk fx st)
    (h : machine fx st (.leaf e) rest = .error err) :
    ∃ p c, err = ⟨(p, fx p), (c, fx c)⟩ ∧
      ClashIn fx ((pendingRest st (.leaf e)).map (·.1) ++ rest.map (·.1)) p c := by
  induction rest generalizing st e with
  | nil => simp [machine] at h
  | cons x rest ih =>
    obtain ⟨op, e'⟩ := x
    simp only [machine] at h
    have hcur : CurOk fx (.leaf e) st := ⟨trivial, by intro o ho; simp [OpTree.root] at ho⟩
    cases hp : popWhile fx op (.leaf e) st with
    | error err' =>
      rw [hp] at h
      simp only [Except.error.injEq] at h
      subst h
      obtain ⟨p, pre, mid, h1, h2, h3, h4⟩ := popWhile_error hst hcur
        (by intro o ho; simp [OpTree.root] at ho) hp
      refine ⟨p, op, h1, pre, mid, rest.map (·.1), ?_, h2, h4⟩
      rw [h3]; simp
    | ok y =>
      obtain ⟨cur', st'⟩ := y
      rw [hp] at h
      obtain ⟨p, c, h1, h2⟩ := ih (popWhile_ok hst hcur
        (by intro o ho; simp [OpTree.root] at ho) hp) h
      refine ⟨p, c, h1, ?_⟩
      have h3 := (popWhile_pending hp).2
      simp only [pendingRest, OpTree.first, OpTree.rest] at h2
      rw [h3] at h2
      simpa using h2

/-! ### A clash makes every grouping ill-formed -/

theorem split_cons {α : Type} {a b L R : List α} {x y : α} (h : a ++ x :: b = L ++ y :: R) :
    (∃ b', L = a ++ x :: b' ∧ b = b' ++ y :: R) ∨ (a = L ∧ x = y ∧ b = R) ∨
    (∃ a', a = L ++ y :: a' ∧ R = a' ++ x :: b) := by
  induction a generalizing L with
  | nil =>
    cases L with
    | nil => simp only [List.nil_append, List.cons.injEq] at h; exact .inr (.inl ⟨rfl, h.1, h.2⟩)
    | cons z L =>
      simp only [List.nil_append, List.cons_append, List.cons.injEq] at h
      obtain ⟨rfl, h⟩ := h
      exact .inl ⟨L, rfl, h⟩
  | cons z a ih =>
    cases L with
    | nil =>
      simp only [List.nil_append, List.cons_append, List.cons.injEq] at h
      obtain ⟨rfl, h⟩ := h
      exact .inr (.inr ⟨a, rfl, h.symm⟩)
    | cons w L =>
      simp only [List.cons_append, List.cons.injEq] at h
      obtain ⟨rfl, h⟩ := h
      rcases ih h with ⟨b', h1, h2⟩ | ⟨h1, h2, h3⟩ | ⟨a', h1, h2⟩
      · exact .inl ⟨b', by rw [h1]; rfl, h2⟩
      · exact .inr (.inl ⟨by rw [h1], h2, h3⟩)
      · exact .inr (.inr ⟨a', by rw [h1]; rfl, h2⟩)

theorem OpTree.root_prec_le {fx : Env} {l r : OpTree} {op q : Infix}
    (hw : (OpTree.node l op r).WellGrouped fx) (hq : q ∈ (OpTree.node l op r).operators) :
    (fx op).prec ≤ (fx q).prec :=
  OpTree.prec_ge hw (by
    intro o ho
    simp only [OpTree.root, Option.some.injEq] at ho
    subst ho; exact Nat.le_refl _) q hq

theorem no_clash_of_wellGrouped {fx : Env} {p c : Infix} : ∀ {t : OpTree}, t.WellGrouped fx →
    ¬ ClashIn fx t.operators p c := by
  intro t
  induction t with
  | leaf e =>
    rintro _ ⟨pre, mid, post, h, _⟩
    simp [OpTree.operators] at h
  | node l op r ihl ihr =>
    rintro hw ⟨pre, mid, post, h, hcl, hmid⟩
    have hpc := hcl.1
    have hge := fun q hq => OpTree.root_prec_le (q := q) hw hq
    obtain ⟨hwl, hwr, hll, hrr⟩ := hw
    simp only [OpTree.operators] at h hge
    rcases split_cons h with ⟨b', h1, h2⟩ | ⟨h1, h2, h3⟩ | ⟨a', h1, h2⟩
    · exact ihr hwr ⟨b', mid, post, h2, hcl, hmid⟩
    · subst h2
      -- the clash starts at the root operator; look at the root of the right subtree
      cases r with
      | leaf e => simp [OpTree.operators] at h3
      | node rl q rr =>
        have hqc : (fx q).prec ≤ (fx c).prec :=
          OpTree.root_prec_le hwr (by rw [h3]; simp)
        rcases hrr q rfl with hq | ⟨hq, hqa, hpa⟩
        · omega
        · simp only [OpTree.operators] at h3
          rcases split_cons h3 with ⟨b', h4, h5⟩ | ⟨h4, h5, h6⟩ | ⟨a', h4, h5⟩
          · exact absurd (hmid q (by rw [h4]; simp)) (by omega)
          · subst h5
            exact hcl.2.2 ⟨hpa, hqa⟩
          · cases rl with
            | leaf e => simp [OpTree.operators] at h4
            | node x q' y =>
              have hc' : (fx q').prec ≤ (fx c).prec :=
                OpTree.root_prec_le hwr.1 (by rw [h4]; simp)
              rcases hwr.2.2.1 q' rfl with hq' | ⟨_, _, hqa'⟩
              · omega
              · rw [hqa] at hqa'; cases hqa'
    · rcases split_cons h2 with ⟨b', h3, h4⟩ | ⟨h3, h4, h5⟩ | ⟨a'', h3, h4⟩
      · exact ihl hwl ⟨pre, mid, b', by rw [h1, h3], hcl, hmid⟩
      · -- the clash ends at the root operator
        subst h4
        subst h3
        cases l with
        | leaf e => simp [OpTree.operators] at h1
        | node ll q lr =>
          have hqp : (fx q).prec ≤ (fx p).prec :=
            OpTree.root_prec_le hwl (by rw [h1]; simp)
          rcases hll q rfl with hq | ⟨hq, hqa, hca⟩
          · omega
          · simp only [OpTree.operators] at h1
            rcases split_cons h1 with ⟨b', h4, h5⟩ | ⟨h4, h5, h6⟩ | ⟨a', h4, h5⟩
            · cases lr with
              | leaf e => simp [OpTree.operators] at h5
              | node x q' y =>
                have hc' : (fx q').prec ≤ (fx p).prec :=
                  OpTree.root_prec_le hwl.2.1 (by rw [h5]; simp)
                rcases hwl.2.2.2 q' rfl with hq' | ⟨_, _, hqa'⟩
                · omega
                · rw [hqa] at hqa'; cases hqa'
            · subst h5
              exact hcl.2.1 ⟨hqa, hca⟩
            · exact absurd (hmid q (by rw [h5]; simp)) (by omega)
      · -- the root operator is strictly between the two
        have h5 := hmid op (by rw [h3]; simp)
        have h6 := hge p (by rw [h1]; simp)
        omega

end Pemdas
