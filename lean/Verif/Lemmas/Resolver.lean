import Verif.Lemmas.Visit
/-
Helper lemmas on the scoped resolver.
-/
namespace Pemdas
open OpTree

namespace Resolver

/-! ### An induction principle for `visit` -/

/-- `P` relates the elements of two lists while the resolver is threaded through. -/
inductive Thread (P : Resolver → Expr → Resolver → Expr → Prop) :
    Resolver → List Expr → Resolver → List Expr → Prop where
  | nil {r} : Thread P r [] r []
  | cons {r e r₁ e' es r₂ es'} : P r e r₁ e' → Thread P r₁ es r₂ es' →
    Thread P r (e :: es) r₂ (e' :: es')

theorem walkList_thread {P : Resolver → Expr → Resolver → Expr → Prop} {es : List Expr}
    (hP : ∀ e ∈ es, ∀ r r' e', visit r e = .ok (r', e') → P r e r' e') :
    ∀ r r' es', walkList visit r es = .ok (r', es') → Thread P r es r' es' := by
  induction es with
  | nil =>
    intro r r' es' h
    simp only [walkList, Except.ok.injEq, Prod.mk.injEq] at h
    obtain ⟨rfl, rfl⟩ := h
    exact .nil
  | cons e es ih =>
    intro r r' es' h
    simp only [walkList, bind, Except.bind] at h
    cases h1 : visit r e with
    | error s => rw [h1] at h; simp at h
    | ok y =>
      rw [h1] at h
      simp only at h
      cases h2 : walkList visit y.1 es with
      | error s => rw [h2] at h; simp at h
      | ok z =>
        rw [h2] at h
        simp only [Except.ok.injEq, Prod.mk.injEq] at h
        obtain ⟨rfl, rfl⟩ := h
        exact .cons (hP e (by simp) _ _ _ h1) (ih (fun e he => hP e (by simp [he])) _ _ _ h2)

/-- Induction over the recursive calls of a visit. -/
theorem visit_induct {P : Resolver → Expr → Resolver → Expr → Prop}
    (lit : ∀ r l, P r (.lit l) r (.lit l))
    (var : ∀ r i, P r (.var i) r (.var i))
    (app : ∀ r f x r₁ f' r₂ x', P r f r₁ f' → P r₁ x r₂ x' → P r (.app f x) r₂ (.app f' x'))
    (lam : ∀ r p b r₁ b', P r b r₁ b' → P r (.lam p b) r₁ (.lam p b'))
    (grp : ∀ r b r₁ b', P r b r₁ b' → P r (.grp b) r₁ (.grp b'))
    (neg : ∀ r b r₁ b', P r b r₁ b' → P r (.neg b) r₁ (.neg b'))
    (tup : ∀ r es r₁ es', Thread P r es r₁ es' → P r (.tup es) r₁ (.tup es'))
    (list : ∀ r es r₁ es', Thread P r es r₁ es' → P r (.list es) r₁ (.list es'))
    (let_ : ∀ (r : Resolver) (d : InfixDecl) b r₁ b',
      P { r with fixities := (insertLocal d.fixity d.infixes r.fixities).2 } b r₁ b' →
      P r (.let_ d b)
        { r₁ with fixities := restore (insertLocal d.fixity d.infixes r.fixities).1 r₁.fixities }
        (.let_ d b'))
    (bad : ∀ (r : Resolver) a op b err, r.fixities.rewrite (.bin a op b) = .ok (.error err) →
      P r (.bin a op b) (r.storeError err) (.bin a op b))
    (bin : ∀ (r : Resolver) a op b a₁ op₁ b₁ r₁ a₂ r₂ b₂,
      r.fixities.rewrite (.bin a op b) = .ok (.ok (.bin a₁ op₁ b₁)) →
      P r a₁ r₁ a₂ → P r₁ b₁ r₂ b₂ → P r (.bin a op b) r₂ (.bin a₂ op₁ b₂)) :
    ∀ e r r' e', visit r e = .ok (r', e') → P r e r' e' := by
  intro e
  induction hn : e.size using Nat.strongRecOn generalizing e with
  | ind n ih =>
    subst hn
    intro r r' e' h
    rw [visit_eq] at h
    cases e with
    | lit l =>
      simp only [walkExpr, Except.ok.injEq, Prod.mk.injEq] at h
      obtain ⟨rfl, rfl⟩ := h
      exact lit _ _
    | var l =>
      simp only [walkExpr, Except.ok.injEq, Prod.mk.injEq] at h
      obtain ⟨rfl, rfl⟩ := h
      exact var _ _
    | app f x =>
      simp only [walkExpr, bind, Except.bind] at h
      cases h1 : visit r f with
      | error s => rw [h1] at h; simp at h
      | ok y =>
        rw [h1] at h
        simp only at h
        cases h2 : visit y.1 x with
        | error s => rw [h2] at h; simp at h
        | ok z =>
          rw [h2] at h
          simp only [Except.ok.injEq, Prod.mk.injEq] at h
          obtain ⟨rfl, rfl⟩ := h
          have := x.size_pos
          exact app _ _ _ _ _ _ _
            (ih _ (by simp only [Expr.size]; omega) f rfl _ _ _ h1)
            (ih _ (by simp only [Expr.size]; omega) x rfl _ _ _ h2)
    | lam p b =>
      simp only [walkExpr, bind, Except.bind] at h
      cases h1 : visit r b with
      | error s => rw [h1] at h; simp at h
      | ok y =>
        rw [h1] at h
        simp only [Except.ok.injEq, Prod.mk.injEq] at h
        obtain ⟨rfl, rfl⟩ := h
        exact lam _ _ _ _ _ (ih _ (by simp only [Expr.size]; omega) b rfl _ _ _ h1)
    | grp b =>
      simp only [walkExpr, bind, Except.bind] at h
      cases h1 : visit r b with
      | error s => rw [h1] at h; simp at h
      | ok y =>
        rw [h1] at h
        simp only [Except.ok.injEq, Prod.mk.injEq] at h
        obtain ⟨rfl, rfl⟩ := h
        exact grp _ _ _ _ (ih _ (by simp only [Expr.size]; omega) b rfl _ _ _ h1)
    | neg b =>
      simp only [walkExpr, bind, Except.bind] at h
      cases h1 : visit r b with
      | error s => rw [h1] at h; simp at h
      | ok y =>
        rw [h1] at h
        simp only [Except.ok.injEq, Prod.mk.injEq] at h
        obtain ⟨rfl, rfl⟩ := h
        exact neg _ _ _ _ (ih _ (by simp only [Expr.size]; omega) b rfl _ _ _ h1)
    | tup es =>
      simp only [walkExpr, bind, Except.bind] at h
      cases h1 : walkList visit r es with
      | error s => rw [h1] at h; simp at h
      | ok y =>
        rw [h1] at h
        simp only [Except.ok.injEq, Prod.mk.injEq] at h
        obtain ⟨rfl, rfl⟩ := h
        exact tup _ _ _ _ (walkList_thread (fun e he => ih _
          (by have := mem_sizeList he; simp only [Expr.size]; omega) e rfl) _ _ _ h1)
    | list es =>
      simp only [walkExpr, bind, Except.bind] at h
      cases h1 : walkList visit r es with
      | error s => rw [h1] at h; simp at h
      | ok y =>
        rw [h1] at h
        simp only [Except.ok.injEq, Prod.mk.injEq] at h
        obtain ⟨rfl, rfl⟩ := h
        exact list _ _ _ _ (walkList_thread (fun e he => ih _
          (by have := mem_sizeList he; simp only [Expr.size]; omega) e rfl) _ _ _ h1)
    | let_ d b =>
      simp only [bind, Except.bind] at h
      cases h1 : visit { r with fixities := (insertLocal d.fixity d.infixes r.fixities).2 } b with
      | error s => rw [h1] at h; simp at h
      | ok y =>
        rw [h1] at h
        simp only [Except.ok.injEq, Prod.mk.injEq] at h
        obtain ⟨rfl, rfl⟩ := h
        exact let_ _ _ _ _ _ (ih _ (by simp only [Expr.size]; omega) b rfl _ _ _ h1)
    | bin a op b =>
      simp only at h
      cases hr : r.fixities.rewrite (.bin a op b) with
      | error p => exact absurd hr (rewrite_no_panic _ _ _)
      | ok y =>
        rw [hr] at h
        cases y with
        | error err =>
          simp only [Except.ok.injEq, Prod.mk.injEq] at h
          obtain ⟨rfl, rfl⟩ := h
          exact bad _ _ _ _ _ hr
        | ok e₁ =>
          obtain ⟨a₁, op₁, b₁, rfl⟩ := rewrite_bin hr
          have hs := rewrite_size hr
          simp only [walkExpr, bind, Except.bind] at h
          cases h1 : visit r a₁ with
          | error s => rw [h1] at h; simp at h
          | ok y =>
            rw [h1] at h
            simp only at h
            cases h2 : visit y.1 b₁ with
            | error s => rw [h2] at h; simp at h
            | ok z =>
              rw [h2] at h
              simp only [Except.ok.injEq, Prod.mk.injEq] at h
              obtain ⟨rfl, rfl⟩ := h
              have := b₁.size_pos
              have := a₁.size_pos
              simp only [Expr.size] at hs
              exact bin _ _ _ _ _ _ _ _ _ _ _ hr
                (ih _ (by simp only [Expr.size]; omega) a₁ rfl _ _ _ h1)
                (ih _ (by simp only [Expr.size]; omega) b₁ rfl _ _ _ h2)

theorem Thread.imp {P Q : Resolver → Expr → Resolver → Expr → Prop}
    (h : ∀ r e r' e', P r e r' e' → Q r e r' e') {r es r' es'} (ht : Thread P r es r' es') :
    Thread Q r es r' es' := by
  induction ht with
  | nil => exact .nil
  | cons hp _ ih => exact .cons (h _ _ _ _ hp) ih

/-! ### Local fixities -/

theorem insertLocal_snd (fx : Fixity) (ops : List Infix) (m : Fixities) :
    (insertLocal fx ops m).2 = m.insertMany fx ops := by
  induction ops generalizing m with
  | nil => rfl
  | cons op ops ih => simp only [insertLocal, Fixities.insertMany, ih]

theorem get_insertMany (m : Fixities) (d : InfixDecl) :
    (m.insertMany d.fixity d.infixes).get = Env.extend m.get d := by
  funext op
  unfold Fixities.get Env.extend
  rw [Fixities.getDefined_insertMany]
  split <;> rfl

theorem insertLocal_fst_congr {fx : Fixity} {ops : List Infix} {m m' : Fixities}
    (h : ∀ op ∈ ops, m.getDefined op = m'.getDefined op) :
    (insertLocal fx ops m).1 = (insertLocal fx ops m').1 := by
  induction ops generalizing m m' with
  | nil => rfl
  | cons op ops ih =>
    simp only [insertLocal, Fixities.insert_old, h op (by simp)]
    congr 1
    apply ih
    intro o ho
    rw [Fixities.getDefined_insert, Fixities.getDefined_insert, h o (by simp [ho])]

/-- Undo one insertion. -/
def undo (op : Infix) (old : Option Fixity) (m : Fixities) : Fixities :=
  match old with
  | some fx => (m.insert op fx).2
  | none => (m.remove op).2

theorem restore_cons (op : Infix) (old : Option Fixity) (rest) (m : Fixities) :
    restore ((op, old) :: rest) m = restore rest (undo op old m) := by
  cases old <;> rfl

theorem undo_insert (m : Fixities) (op : Infix) (fx : Fixity) :
    undo op (m.getDefined op) (m.insert op fx).2 = m := by
  induction m with
  | nil => simp [Fixities.getDefined, Fixities.insert, undo, Fixities.remove]
  | cons x m ih =>
    obtain ⟨k, v⟩ := x
    simp only [Fixities.getDefined, Fixities.insert]
    by_cases h : k.symbol = op.symbol
    · simp [h, undo, Fixities.insert]
    · simp only [h, if_false]
      cases hg : Fixities.getDefined m op with
      | none =>
        rw [hg] at ih
        simp only [undo] at ih
        simp [undo, Fixities.remove, h, ih]
      | some w =>
        rw [hg] at ih
        simp only [undo] at ih
        simp [undo, Fixities.insert, h, ih]

theorem insert_comm {m : Fixities} {op : Infix} (hm : op.symbol ∈ m.keys) (v : Fixity) {o : Infix}
    (w : Fixity) (hne : op.symbol ≠ o.symbol) :
    ((m.insert o w).2.insert op v).2 = ((m.insert op v).2.insert o w).2 := by
  induction m with
  | nil => simp [Fixities.keys] at hm
  | cons x m ih =>
    obtain ⟨k, u⟩ := x
    simp only [Fixities.keys_cons, List.mem_cons] at hm
    simp only [Fixities.insert]
    by_cases h : k.symbol = o.symbol
    · have h' : ¬ k.symbol = op.symbol := fun e => hne (e.symm.trans h)
      simp only [if_pos h, if_neg h', Fixities.insert]
    · by_cases h' : k.symbol = op.symbol
      · have h'' : ¬ op.symbol = o.symbol := hne
        simp [h', h'', Fixities.insert]
      · have := hm.resolve_left (fun e => h' e.symm)
        simp [h, h', Fixities.insert, ih this]

theorem remove_insert_comm (m : Fixities) (op : Infix) {o : Infix} (w : Fixity)
    (hne : op.symbol ≠ o.symbol) :
    ((m.insert o w).2.remove op).2 = ((m.remove op).2.insert o w).2 := by
  induction m with
  | nil =>
    simp [Fixities.insert, Fixities.remove, Ne.symm hne]
  | cons x m ih =>
    obtain ⟨k, u⟩ := x
    simp only [Fixities.insert, Fixities.remove]
    by_cases h : k.symbol = o.symbol
    · have h' : ¬ k.symbol = op.symbol := fun e => hne (e.symm.trans h)
      simp only [if_pos h, if_neg h', Fixities.insert, Fixities.remove]
    · by_cases h' : k.symbol = op.symbol
      · simp [h', hne, Fixities.remove]
      · simp [h, h', Fixities.insert, Fixities.remove, ih]

theorem undo_insertMany {m : Fixities} {op : Infix} {old : Option Fixity} {fx : Fixity}
    {ops : List Infix} (hold : ∀ v, old = some v → op.symbol ∈ m.keys)
    (hne : ∀ o ∈ ops, op.symbol ≠ o.symbol) :
    undo op old (m.insertMany fx ops) = (undo op old m).insertMany fx ops := by
  induction ops generalizing m with
  | nil => rfl
  | cons o ops ih =>
    have h1 := hne o (by simp)
    simp only [Fixities.insertMany]
    rw [ih]
    · congr 1
      cases old with
      | none => exact remove_insert_comm m op fx h1
      | some v => exact insert_comm (hold v rfl) v fx h1
    · intro v hv
      rw [Fixities.keys_insert]
      have := hold v hv
      split <;> simp [this]
    · intro o ho; exact hne o (by simp [ho])

theorem mem_keys_insert (m : Fixities) (op : Infix) (fx : Fixity) :
    op.symbol ∈ (m.insert op fx).2.keys := by
  rw [Fixities.keys_insert]
  split
  · assumption
  · simp

/-- Restoring after a `let` with distinct operators gives back the table. -/
theorem restore_insertLocal (fx : Fixity) {ops : List Infix} (hnd : (ops.map Infix.symbol).Nodup)
    (m : Fixities) : restore (insertLocal fx ops m).1 (m.insertMany fx ops) = m := by
  induction ops generalizing m with
  | nil => rfl
  | cons op ops ih =>
    simp only [List.map_cons, List.nodup_cons, List.mem_map, not_exists, not_and] at hnd
    have hne : ∀ o ∈ ops, op.symbol ≠ o.symbol := fun o ho e => hnd.1 o ho e.symm
    simp only [insertLocal, restore_cons, Fixities.insertMany, Fixities.insert_old]
    rw [undo_insertMany (fun v _ => mem_keys_insert m op fx) hne, undo_insert]
    rw [insertLocal_fst_congr (m' := m), ih hnd.2]
    intro o ho
    rw [Fixities.getDefined_insert, if_neg (hne o ho)]

/-! ### Lists of expressions -/

theorem groupedList_iff (fx : Env) (es : List Expr) :
    Expr.GroupedList fx es ↔ ∀ e ∈ es, e.Grouped fx := by
  induction es with
  | nil => simp [Expr.GroupedList]
  | cons e es ih => simp [Expr.GroupedList, ih]

theorem rightNestedList_iff (es : List Expr) :
    Expr.RightNestedList es ↔ ∀ e ∈ es, e.RightNested := by
  induction es with
  | nil => simp [Expr.RightNestedList]
  | cons e es ih => simp [Expr.RightNestedList, ih]

theorem letsDistinctList_iff (es : List Expr) :
    Expr.LetsDistinctList es ↔ ∀ e ∈ es, e.LetsDistinct := by
  induction es with
  | nil => simp [Expr.LetsDistinctList]
  | cons e es ih => simp [Expr.LetsDistinctList, ih]

theorem toksList_eq (es : List Expr) : Expr.toksList es = es.map Expr.toks := by
  induction es with
  | nil => simp [Expr.toksList]
  | cons e es ih => simp [Expr.toksList, ih]

/-! ### Trees and whole-expression predicates -/

/-- `toks` of a chain given by first operand and (operator, operand) pairs. -/
def chainToks (first : List Tok) (rest : List (Infix × List Tok)) : List Tok :=
  first ++ rest.flatMap fun x => .op x.1 :: x.2

theorem toks_toExpr (t : OpTree) :
    t.toExpr.toks = chainToks t.first.toks (t.rest.map fun x => (x.1, x.2.toks)) := by
  induction t with
  | leaf e => simp [toExpr, chainToks, first, rest]
  | node l op r ihl ihr =>
    simp only [toExpr, Expr.toks, ihl, ihr, chainToks, first, rest, List.map_append, List.map_cons,
      List.flatMap_append, List.flatMap_cons, List.append_assoc, List.cons_append]

theorem toks_chain (e : Expr) :
    e.toks = chainToks e.chainFirst.toks (e.chainRest.map fun x => (x.1, x.2.toks)) := by
  fun_induction Expr.chainRest e with
  | case1 l op r ih =>
    simp only [Expr.toks, ih, chainToks, Expr.chainFirst, List.map_cons, List.flatMap_cons,
      List.cons_append]
  | case2 e h => cases e <;> simp_all [chainToks, Expr.chainFirst]

theorem toks_of_isGrouping {e : Expr} {t : OpTree} (h : IsGrouping e t) :
    t.toExpr.toks = e.toks := by
  rw [isGrouping_iff] at h
  rw [toks_toExpr, toks_chain e, h.1, h.2]

theorem rewrite_toks {m : Fixities} {e e' : Expr} (h : m.rewrite e = .ok (.ok e')) :
    e'.toks = e.toks := by
  obtain ⟨t, rfl, hg, _⟩ := rewrite_ok_grouping h
  exact toks_of_isGrouping hg

theorem letsDistinct_toExpr (t : OpTree) :
    t.toExpr.LetsDistinct ↔ ∀ x ∈ t.operands, x.LetsDistinct := by
  induction t with
  | leaf e => simp [toExpr, operands]
  | node l op r ihl ihr =>
    simp only [toExpr, Expr.LetsDistinct, ihl, ihr, operands, List.mem_append]
    exact ⟨fun h x hx => hx.elim (h.1 x) (h.2 x), fun h => ⟨fun x hx => h x (.inl hx),
      fun x hx => h x (.inr hx)⟩⟩

theorem letsDistinct_chain (e : Expr) :
    e.LetsDistinct ↔ ∀ x ∈ e.chainOperands, x.LetsDistinct := by
  fun_induction Expr.chainOperands e with
  | case1 l op r ih => simp [Expr.LetsDistinct, ih]
  | case2 e h => simp

theorem rewrite_letsDistinct {m : Fixities} {e e' : Expr} (h : m.rewrite e = .ok (.ok e')) :
    e'.LetsDistinct ↔ e.LetsDistinct := by
  obtain ⟨t, rfl, hg, _⟩ := rewrite_ok_grouping h
  rw [letsDistinct_toExpr, letsDistinct_chain e, hg.1]

/-! ### What every visit does -/

theorem storeError_fixities (r : Resolver) (err : AssocError) :
    (r.storeError err).fixities = r.fixities := by
  unfold storeError; split <;> rfl

theorem thread_toks {r es r' es'}
    (h : Thread (fun _ e _ e' => e'.toks = e.toks) r es r' es') :
    Expr.toksList es' = Expr.toksList es := by
  induction h with
  | nil => rfl
  | cons hp _ ih => simp [Expr.toksList, hp, ih]

theorem visit_toks : ∀ e r r' e', visit r e = .ok (r', e') → e'.toks = e.toks := by
  apply visit_induct (P := fun _ e _ e' => e'.toks = e.toks)
  case bin =>
    intro r a op b a₁ op₁ b₁ r₁ a₂ r₂ b₂ hr h1 h2
    rw [← rewrite_toks hr]
    simp [Expr.toks, h1, h2]
  case tup => intro r es r₁ es' h; simp [Expr.toks, thread_toks h]
  case list => intro r es r₁ es' h; simp [Expr.toks, thread_toks h]
  all_goals intros; simp_all [Expr.toks]

theorem thread_fixities {r es r' es'}
    (h : Thread (fun r e r' _ => e.LetsDistinct → r'.fixities = r.fixities) r es r' es') :
    Expr.LetsDistinctList es → r'.fixities = r.fixities := by
  induction h with
  | nil => intro _; rfl
  | cons hp _ ih => intro hd; rw [ih hd.2, hp hd.1]

theorem visit_fixities : ∀ e r r' e', visit r e = .ok (r', e') → e.LetsDistinct →
    r'.fixities = r.fixities := by
  apply visit_induct (P := fun r e r' _ => e.LetsDistinct → r'.fixities = r.fixities)
  case bin =>
    intro r a op b a₁ op₁ b₁ r₁ a₂ r₂ b₂ hr h1 h2 hd
    have := (rewrite_letsDistinct hr).2 hd
    rw [h2 this.2, h1 this.1]
  case bad => intro r a op b err _ _; exact storeError_fixities _ _
  case tup => intro r es r₁ es' h hd; exact thread_fixities h hd
  case list => intro r es r₁ es' h hd; exact thread_fixities h hd
  case let_ =>
    intro r d b r₁ b' h hd
    simp only [h hd.2, insertLocal_snd]
    exact restore_insertLocal _ hd.1 _
  case app => intro r f x r₁ f' r₂ x' h1 h2 hd; rw [h2 hd.2, h1 hd.1]
  case lam => intro r p b r₁ b' h hd; exact h hd
  case grp => intro r b r₁ b' h hd; exact h hd
  case neg => intro r b r₁ b' h hd; exact h hd
  all_goals intros; rfl

end Resolver
end Pemdas
