import Verif.Spec.Declarable
import Verif.Lemmas.ResolverMore
namespace Pemdas
namespace OpTree

/-! ### an expression and its operands determine the grouping -/

theorem operands_length (t : OpTree) : t.operands.length = t.operators.length + 1 := by
  induction t with
  | leaf => rfl
  | node l op r hl hr => simp only [operands, operators, List.length_append, List.length_cons, hl, hr]; omega

theorem sizeList_append (xs ys : List Expr) :
    Expr.sizeList (xs ++ ys) = Expr.sizeList xs + Expr.sizeList ys := by
  induction xs with
  | nil => simp [Expr.sizeList]
  | cons x xs ih => simp only [List.cons_append, Expr.sizeList, ih]; omega

theorem toExpr_size (t : OpTree) : t.toExpr.size = Expr.sizeList t.operands + t.operators.length := by
  induction t with
  | leaf => simp [toExpr, operands, operators, Expr.sizeList]
  | node l op r hl hr =>
    simp only [toExpr, Expr.size, operands, operators, sizeList_append, List.length_append,
      List.length_cons, hl, hr]
    omega

theorem toExpr_injective : ∀ {t t' : OpTree}, t.operands = t'.operands → t.operators = t'.operators →
    t.toExpr = t'.toExpr → t = t' := by
  intro t
  induction t with
  | leaf e =>
    intro t' h1 h2 h3
    cases t' with
    | leaf e' => simpa [toExpr] using h3
    | node => simp [operators] at h2
  | node l op r hl hr =>
    intro t' h1 h2 h3
    cases t' with
    | leaf => simp [operators] at h2
    | node l' op' r' =>
      simp only [toExpr, Expr.bin.injEq] at h3
      obtain ⟨e1, rfl, e2⟩ := h3
      simp only [operands] at h1
      have s1 := toExpr_size l
      have s2 := toExpr_size l'
      rw [e1] at s1
      have n1 := operands_length l
      have n2 := operands_length l'
      have key : l.operands = l'.operands ∧ r.operands = r'.operands := by
        rcases List.append_eq_append_iff.1 h1 with ⟨a, ha, hb⟩ | ⟨a, ha, hb⟩
        · rw [ha, sizeList_append] at s2
          rw [ha, List.length_append] at n2
          have : a = [] := List.length_eq_zero_iff.1 (by omega)
          subst this
          simp_all
        · rw [ha, sizeList_append] at s1
          rw [ha, List.length_append] at n1
          have : a = [] := List.length_eq_zero_iff.1 (by omega)
          subst this
          simp_all
      have n3 : l.operators.length = l'.operators.length := by rw [key.1] at n1; omega
      simp only [operators] at h2
      have h4 := List.append_inj h2 n3
      simp only [List.cons.injEq, true_and] at h4
      rw [hl key.1 h4.1 e1, hr key.2 h4.2 e2]

/-! ### how many precedences are needed -/

theorem rungs_le {fx : Env} {n : Nat} : ∀ {t : OpTree}, t.WellGrouped fx →
    (∀ o ∈ t.operators, (fx o).prec < n) → ∀ o, t.root = some o →
    ((fx o).assoc = .left → t.rungs.1 + (fx o).prec ≤ n) ∧
    ((fx o).assoc = .right → t.rungs.2 + (fx o).prec ≤ n) ∧ t.levels + (fx o).prec ≤ n := by
  intro t
  induction t with
  | leaf => intro _ _ o h; cases h
  | node l op r hl hr =>
    rintro ⟨wl, wr, ol, or⟩ hn o ho
    cases ho
    have hn0 := hn op (by simp [operators])
    have hl := hl wl fun o h => hn o (by simp [operators, h])
    have hr := hr wr fun o h => hn o (by simp [operators, h])
    -- a strictly tighter operand
    have L : l.levels = 0 ∨ ∃ o, l.root = some o := by
      cases l with
      | leaf => exact .inl rfl
      | node => exact .inr ⟨_, rfl⟩
    have R : r.levels = 0 ∨ ∃ o, r.root = some o := by
      cases r with
      | leaf => exact .inl rfl
      | node => exact .inr ⟨_, rfl⟩
    have L1 : l.rungs.1 = 0 ∨ ∃ o, l.root = some o := by
      cases l with
      | leaf => exact .inl rfl
      | node => exact .inr ⟨_, rfl⟩
    have R1 : r.rungs.2 = 0 ∨ ∃ o, r.root = some o := by
      cases r with
      | leaf => exact .inl rfl
      | node => exact .inr ⟨_, rfl⟩
    have A : (fx op).assoc ≠ .right → r.levels + 1 + (fx op).prec ≤ n := by
      intro ha
      rcases R with h | ⟨o, h⟩
      · omega
      · have := (hr o h).2.2
        rcases or o h with h1 | ⟨_, _, h1⟩
        · omega
        · exact absurd h1 ha
    have B : (fx op).assoc ≠ .left → l.levels + 1 + (fx op).prec ≤ n := by
      intro ha
      rcases L with h | ⟨o, h⟩
      · omega
      · have := (hl o h).2.2
        rcases ol o h with h1 | ⟨_, _, h1⟩
        · omega
        · exact absurd h1 ha
    have C : min l.rungs.1 (l.levels + 1) + (fx op).prec ≤ n := by
      rcases L1 with h | ⟨o, h⟩
      · omega
      · rcases ol o h with h1 | ⟨h1, h2, _⟩
        · have := (hl o h).2.2; omega
        · have := (hl o h).1 h2; omega
    have D : min r.rungs.2 (r.levels + 1) + (fx op).prec ≤ n := by
      rcases R1 with h | ⟨o, h⟩
      · omega
      · rcases or o h with h1 | ⟨h1, h2, _⟩
        · have := (hr o h).2.2; omega
        · have := (hr o h).2.1 h2; omega
    have e1 : (node l op r).rungs.1 = max (min l.rungs.1 (l.levels + 1)) (r.levels + 1) := rfl
    have e2 : (node l op r).rungs.2 = max (l.levels + 1) (min r.rungs.2 (r.levels + 1)) := rfl
    have e3 : (node l op r).levels = min (node l op r).rungs.1 (node l op r).rungs.2 := rfl
    cases ha : (fx op).assoc with
    | left =>
      have := A (by rw [ha]; simp)
      refine ⟨fun _ => by omega, fun h => (by cases h), by omega⟩
    | right =>
      have := B (by rw [ha]; simp)
      refine ⟨fun h => (by cases h), fun _ => by omega, by omega⟩
    | neither =>
      have := A (by rw [ha]; simp)
      have := B (by rw [ha]; simp)
      refine ⟨fun h => (by cases h), fun h => (by cases h), by omega⟩

/-! ### and how many are enough -/

/-- Fixities for the operators of `t`, from precedence `p` on and below `q`, that group it. -/
structure Plan (t : OpTree) (p q : Nat) (a : Assoc) (ps : List (Infix × Fixity)) : Prop where
  keys : ps.map (·.1) = t.operators
  lo : ∀ x ∈ ps, p ≤ x.2.prec
  hi : ∀ x ∈ ps, x.2.prec < q
  grouped : ∀ fx : Env, (∀ x ∈ ps, fx x.1 = x.2) →
    t.WellGrouped fx ∧ ∀ o, t.root = some o → fx o = ⟨p, a⟩

theorem Plan.mono {t : OpTree} {p q q' : Nat} {a : Assoc} {ps : List (Infix × Fixity)}
    (h : Plan t p q a ps) (hq : q ≤ q') : Plan t p q' a ps :=
  ⟨h.keys, h.lo, fun x hx => Nat.lt_of_lt_of_le (h.hi x hx) hq, h.grouped⟩

theorem Plan.node {l r : OpTree} {op : Infix} {p pl pr q : Nat} {a al ar : Assoc}
    {xs ys : List (Infix × Fixity)} (hl : Plan l pl q al xs) (hr : Plan r pr q ar ys) (hq : p < q)
    (h1 : p < pl ∨ (p = pl ∧ al = .left ∧ a = .left)) (h2 : p < pr ∨ (p = pr ∧ ar = .right ∧ a = .right)) :
    Plan (node l op r) p q a (xs ++ (op, ⟨p, a⟩) :: ys) := by
  refine ⟨?_, ?_, ?_, fun fx hfx => ?_⟩
  · simp only [List.map_append, List.map_cons, hl.keys, hr.keys, operators]
  · intro x hx
    rcases List.mem_append.1 hx with hx | hx
    · have := hl.lo x hx; omega
    · rcases List.mem_cons.1 hx with rfl | hx
      · exact Nat.le_refl _
      · have := hr.lo x hx; omega
  · intro x hx
    rcases List.mem_append.1 hx with hx | hx
    · exact hl.hi x hx
    · rcases List.mem_cons.1 hx with rfl | hx
      · exact hq
      · exact hr.hi x hx
  · have g1 := hl.grouped fx fun x hx => hfx x (List.mem_append_left _ hx)
    have g2 := hr.grouped fx fun x hx => hfx x (List.mem_append_right _ (List.mem_cons_of_mem _ hx))
    have g0 : fx op = ⟨p, a⟩ := hfx (op, ⟨p, a⟩) (by simp)
    refine ⟨⟨g1.1, g2.1, fun o ho => ?_, fun o ho => ?_⟩, fun o ho => by cases ho; exact g0⟩
    · rw [g0, g1.2 o ho]
      rcases h1 with h | ⟨rfl, rfl, rfl⟩
      · exact .inl h
      · exact .inr ⟨rfl, rfl, rfl⟩
    · rw [g0, g2.2 o ho]
      rcases h2 with h | ⟨rfl, rfl, rfl⟩
      · exact .inl h
      · exact .inr ⟨rfl, rfl, rfl⟩

theorem plan_exists (t : OpTree) (p : Nat) :
    (∃ ps, Plan t p (p + t.rungs.1) .left ps) ∧ ∃ ps, Plan t p (p + t.rungs.2) .right ps := by
  induction t generalizing p with
  | leaf e =>
    have : ∀ a, Plan (leaf e) p (p + 0) a [] := fun a =>
      ⟨rfl, by simp, by simp, fun fx _ => ⟨trivial, fun o h => by cases h⟩⟩
    exact ⟨⟨[], this _⟩, ⟨[], this _⟩⟩
  | node l op r hl hr =>
    have e1 : (node l op r).rungs.1 = max (min l.rungs.1 (l.levels + 1)) (r.levels + 1) := rfl
    have e2 : (node l op r).rungs.2 = max (l.levels + 1) (min r.rungs.2 (r.levels + 1)) := rfl
    have best : ∀ {t : OpTree}, (∀ p, (∃ ps, Plan t p (p + t.rungs.1) .left ps) ∧
        ∃ ps, Plan t p (p + t.rungs.2) .right ps) →
        ∀ {q}, p + (t.levels + 1) ≤ q → ∃ a ps, Plan t (p + 1) q a ps := by
      intro t h q hq
      obtain ⟨⟨xs, h1⟩, ⟨ys, h2⟩⟩ := h (p + 1)
      have e3 : t.levels = min t.rungs.1 t.rungs.2 := rfl
      by_cases hle : t.rungs.1 ≤ t.rungs.2
      · exact ⟨_, xs, h1.mono (by omega)⟩
      · exact ⟨_, ys, h2.mono (by omega)⟩
    constructor
    · obtain ⟨ar, ys, hy⟩ := best hr (q := p + (node l op r).rungs.1) (by omega)
      by_cases hle : l.rungs.1 ≤ l.levels + 1
      · obtain ⟨xs, hx⟩ := (hl p).1
        exact ⟨_, (hx.mono (by omega)).node hy (by omega) (.inr ⟨rfl, rfl, rfl⟩) (.inl (by omega))⟩
      · obtain ⟨al, xs, hx⟩ := best hl (q := p + (node l op r).rungs.1) (by omega)
        exact ⟨_, hx.node hy (by omega) (.inl (by omega)) (.inl (by omega))⟩
    · obtain ⟨al, xs, hx⟩ := best hl (q := p + (node l op r).rungs.2) (by omega)
      by_cases hle : r.rungs.2 ≤ r.levels + 1
      · obtain ⟨ys, hy⟩ := (hr p).2
        exact ⟨_, hx.node (hy.mono (by omega)) (by omega) (.inl (by omega)) (.inr ⟨rfl, rfl, rfl⟩)⟩
      · obtain ⟨ar, ys, hy⟩ := best hr (q := p + (node l op r).rungs.2) (by omega)
        exact ⟨_, hx.node hy (by omega) (.inl (by omega)) (.inl (by omega))⟩

theorem plan_levels (t : OpTree) : ∃ a ps, Plan t 0 t.levels a ps := by
  obtain ⟨⟨xs, h1⟩, ⟨ys, h2⟩⟩ := plan_exists t 0
  have e3 : t.levels = min t.rungs.1 t.rungs.2 := rfl
  by_cases hle : t.rungs.1 ≤ t.rungs.2
  · exact ⟨_, xs, h1.mono (by omega)⟩
  · exact ⟨_, ys, h2.mono (by omega)⟩

/-- One declaration for each operator. -/
def decls (ps : List (Infix × Fixity)) : List InfixDecl := ps.map fun x => ⟨[x.1], x.2⟩

theorem get_decls (m : Fixities) {ps : List (Infix × Fixity)}
    (hd : (ps.map fun x => x.1.symbol).Pairwise (· ≠ ·)) :
    ∀ x ∈ ps, (Resolver.loadDecls m (decls ps)).get x.1 = x.2 := by
  intro x hx
  unfold Fixities.get
  rw [Resolver.getDefined_loadDecls]
  have key : (decls ps).reverse.find? (fun d => decide (x.1.symbol ∈ d.infixes.map Infix.symbol)) =
      some ⟨[x.1], x.2⟩ := by
    cases hf : (decls ps).reverse.find? (fun d => decide (x.1.symbol ∈ d.infixes.map Infix.symbol)) with
    | none =>
      rw [List.find?_eq_none] at hf
      exact absurd (hf ⟨[x.1], x.2⟩ (by
        rw [List.mem_reverse]; exact List.mem_map.2 ⟨x, hx, rfl⟩)) (by simp)
    | some d =>
      have h1 := List.find?_some hf
      have h2 := List.mem_reverse.1 (List.mem_of_find?_eq_some hf)
      obtain ⟨y, hy, rfl⟩ := List.mem_map.1 h2
      simp only [List.map_cons, List.map_nil, List.mem_singleton, decide_eq_true_eq] at h1
      congr 1
      clear hf h2
      induction ps with
      | nil => cases hx
      | cons z zs ih =>
        simp only [List.map_cons, List.pairwise_cons] at hd
        rcases List.mem_cons.1 hx with h2 | h2 <;> rcases List.mem_cons.1 hy with h3 | h3
        · rw [h2, h3]
        · rw [h2] at h1
          exact absurd h1 (hd.1 _ (List.mem_map.2 ⟨y, h3, rfl⟩))
        · rw [h3] at h1
          exact absurd h1.symm (hd.1 _ (List.mem_map.2 ⟨x, h2, rfl⟩))
        · exact ih hd.2 h2 h3
  rw [key]
  rfl

/-! ### bounds -/

theorem rungs_sum {t : OpTree} (h : t.operators ≠ []) : t.rungs.1 + t.rungs.2 ≤ t.operators.length + 1 := by
  induction t with
  | leaf => exact absurd rfl h
  | node l op r hl hr =>
    have e1 : (node l op r).rungs.1 = max (min l.rungs.1 (min l.rungs.1 l.rungs.2 + 1)) (min r.rungs.1 r.rungs.2 + 1) := rfl
    have e2 : (node l op r).rungs.2 = max (min l.rungs.1 l.rungs.2 + 1) (min r.rungs.2 (min r.rungs.1 r.rungs.2 + 1)) := rfl
    have e3 : (node l op r).operators.length = l.operators.length + r.operators.length + 1 := by
      simp [operators]; omega
    have zero : ∀ {t : OpTree}, t.operators = [] → t.rungs.1 = 0 ∧ t.rungs.2 = 0 := by
      intro t h
      cases t with
      | leaf => exact ⟨rfl, rfl⟩
      | node => simp [operators] at h
    have pos : ∀ {t : OpTree}, t.operators ≠ [] → 1 ≤ t.operators.length := fun h => List.length_pos_iff.2 h
    by_cases h1 : l.operators = [] <;> by_cases h2 : r.operators = []
    · have := zero h1; have := zero h2; omega
    · have := zero h1; have := hr h2; have := pos h2; omega
    · have := zero h2; have := hl h1; have := pos h1; omega
    · have := hl h1; have := hr h2; have := pos h1; have := pos h2; omega

theorem zigzag (k : Nat) : ∀ (es : List Expr) (ops : List Infix), ops.length = 2 * k + 1 →
    es.length = 2 * k + 2 → ∃ t : OpTree, t.operands = es ∧ t.operators = ops ∧ t.rungs = (k + 1, k + 1) := by
  induction k with
  | zero =>
    intro es ops h1 h2
    match es, ops, h1, h2 with
    | [a, b], [o], _, _ => exact ⟨node (leaf a) o (leaf b), rfl, rfl, rfl⟩
  | succ k ih =>
    intro es ops h1 h2
    obtain ⟨o, os, rfl⟩ : ∃ o os, ops = o :: os := by
      cases ops with
      | nil => simp at h1
      | cons o os => exact ⟨o, os, rfl⟩
    obtain ⟨e, fs, rfl⟩ : ∃ o os, es = o :: os := by
      cases es with
      | nil => simp at h2
      | cons o os => exact ⟨o, os, rfl⟩
    have n1 : os ≠ [] := by rintro rfl; simp at h1; 
    have n2 : fs ≠ [] := by rintro rfl; simp at h2; 
    simp only [List.length_cons] at h1 h2
    obtain ⟨t, t1, t2, t3⟩ := ih fs.dropLast os.dropLast (by rw [List.length_dropLast]; omega)
      (by rw [List.length_dropLast]; omega)
    refine ⟨node (leaf e) o (node t (os.getLast n1) (leaf (fs.getLast n2))), ?_, ?_, ?_⟩
    · simp only [operands, t1, List.dropLast_concat_getLast, List.singleton_append]
    · simp only [operators, t2, List.dropLast_concat_getLast, List.nil_append]
    · simp only [rungs, t3, Prod.mk.injEq]
      omega

end OpTree
end Pemdas
