import Verif.Lemmas.Resolver
/-
Helper lemmas: resolving a parser-shaped expression against the specification.
-/
namespace Pemdas
open OpTree

/-! ### Expressions as trees -/

/-- The infix tree at the root of an expression. -/
def Expr.tree : Expr → OpTree
  | .bin l op r => .node l.tree op r.tree
  | e => .leaf e

theorem Expr.tree_toExpr (e : Expr) : e.tree.toExpr = e := by
  fun_induction Expr.tree e with
  | case1 l op r ihl ihr => simp [toExpr, ihl, ihr]
  | case2 e h => rfl

theorem Expr.tree_nonBin {e : Expr} (h : e.NonBin) : e.tree = .leaf e := by
  cases e <;> simp_all [NonBin, rootOp, tree]

theorem Expr.tree_root (e : Expr) : e.tree.root = e.rootOp := by
  cases e <;> simp [tree, rootOp, root]

theorem Expr.tree_operands (e : Expr) : ∀ x ∈ e.tree.operands, x.NonBin := by
  fun_induction Expr.tree e with
  | case1 l op r ihl ihr =>
    intro x hx
    simp only [operands, List.mem_append] at hx
    exact hx.elim (ihl x) (ihr x)
  | case2 e h =>
    intro x hx
    simp only [operands, List.mem_singleton] at hx
    subst hx
    cases x <;> simp_all [NonBin, rootOp]

theorem OpTree.root_toExpr {t : OpTree} (h : ∀ x ∈ t.operands, x.NonBin) :
    t.toExpr.rootOp = t.root := by
  cases t with
  | leaf e => exact h e (by simp [operands])
  | node l op r => rfl

theorem grouped_toExpr {fx : Env} {t : OpTree} (hn : ∀ x ∈ t.operands, x.NonBin) :
    t.toExpr.Grouped fx ↔ t.WellGrouped fx ∧ ∀ x ∈ t.operands, x.Grouped fx := by
  induction t with
  | leaf e => simp [toExpr, WellGrouped, operands]
  | node l op r ihl ihr =>
    have hl : ∀ x ∈ l.operands, x.NonBin := fun x hx => hn x (by simp [operands, hx])
    have hr : ∀ x ∈ r.operands, x.NonBin := fun x hx => hn x (by simp [operands, hx])
    simp only [toExpr, Expr.Grouped, ihl hl, ihr hr, root_toExpr hl, root_toExpr hr, WellGrouped,
      operands, List.mem_append]
    constructor
    · rintro ⟨⟨a, b⟩, ⟨c, d⟩, e, f⟩
      exact ⟨⟨a, c, e, f⟩, fun x hx => hx.elim (b x) (d x)⟩
    · rintro ⟨⟨a, c, e, f⟩, h⟩
      exact ⟨⟨a, fun x hx => h x (.inl hx)⟩, ⟨c, fun x hx => h x (.inr hx)⟩, e, f⟩

theorem grouped_iff_tree (fx : Env) (e : Expr) :
    e.Grouped fx ↔ e.tree.WellGrouped fx ∧ ∀ x ∈ e.tree.operands, x.Grouped fx := by
  have := grouped_toExpr (fx := fx) e.tree_operands
  rwa [Expr.tree_toExpr] at this

theorem rightNested_chain {e : Expr} (h : e.RightNested) :
    (∀ x ∈ e.chainOperands, x.NonBin ∧ x.RightNested) := by
  fun_induction Expr.chainOperands e with
  | case1 l op r ih =>
    intro x hx
    rcases List.mem_cons.1 hx with rfl | hx
    · exact ⟨h.1, h.2.1⟩
    · exact ih h.2.2 x hx
  | case2 e h' =>
    intro x hx
    simp only [List.mem_singleton] at hx
    subst hx
    refine ⟨?_, h⟩
    cases x <;> simp_all [Expr.NonBin, Expr.rootOp]

theorem chain_size_lt {l : Expr} {op : Infix} {r : Expr} :
    ∀ x ∈ (Expr.bin l op r).chainOperands, x.size < (Expr.bin l op r).size := by
  have key : ∀ e : Expr, ∀ x ∈ e.chainOperands, x.size ≤ e.size := by
    intro e
    fun_induction Expr.chainOperands e with
    | case1 l op r ih =>
      intro x hx
      simp only [Expr.size]
      rcases List.mem_cons.1 hx with rfl | hx
      · omega
      · have := ih x hx; omega
    | case2 e h => intro x hx; simp only [List.mem_singleton] at hx; subst hx; exact Nat.le_refl _
  intro x hx
  simp only [Expr.chainOperands, List.mem_cons] at hx
  simp only [Expr.size]
  have := l.size_pos; have := r.size_pos
  rcases hx with rfl | hx
  · omega
  · have := key r x hx; omega

/-! ### Injectivity of `toks` up to grouping -/

theorem toks_nonBin {e : Expr} (h : e.NonBin) : ∃ k, e.toks = [k] := by
  cases e <;> simp_all [Expr.NonBin, Expr.rootOp, Expr.toks]

theorem chainToks_inj {a b : Tok} {xs ys : List (Infix × List Tok)}
    (hx : ∀ p ∈ xs, ∃ k, p.2 = [k]) (hy : ∀ p ∈ ys, ∃ k, p.2 = [k])
    (h : Resolver.chainToks [a] xs = Resolver.chainToks [b] ys) : a = b ∧ xs = ys := by
  simp only [Resolver.chainToks, List.cons_append, List.nil_append, List.cons.injEq] at h
  refine ⟨h.1, ?_⟩
  replace h := h.2
  induction xs generalizing ys with
  | nil =>
    cases ys with
    | nil => rfl
    | cons y ys => simp at h
  | cons x xs ih =>
    cases ys with
    | nil => simp at h
    | cons y ys =>
      obtain ⟨o, l⟩ := x
      obtain ⟨o', l'⟩ := y
      obtain ⟨k, hk⟩ := hx (o, l) (by simp)
      obtain ⟨k', hk'⟩ := hy (o', l') (by simp)
      simp only at hk hk'
      subst hk hk'
      simp only [List.flatMap_cons, List.cons_append, List.nil_append, List.cons.injEq,
        Tok.op.injEq] at h
      obtain ⟨rfl, rfl, h⟩ := h
      rw [ih (fun p hp => hx p (by simp [hp])) (fun p hp => hy p (by simp [hp])) h]

theorem OpTree.mem_first (t : OpTree) : t.first ∈ t.operands := by
  rw [operands_eq]; simp

theorem OpTree.mem_rest (t : OpTree) : ∀ p ∈ t.rest, p.2 ∈ t.operands := by
  intro p hp
  rw [operands_eq]
  exact List.mem_cons_of_mem _ (List.mem_map_of_mem hp)

theorem toks_tree_inj {t g : OpTree} (ht : ∀ x ∈ t.operands, x.NonBin)
    (hg : ∀ x ∈ g.operands, x.NonBin) (h : t.toExpr.toks = g.toExpr.toks) :
    t.first.toks = g.first.toks ∧
    t.rest.map (fun x => (x.1, x.2.toks)) = g.rest.map (fun x => (x.1, x.2.toks)) := by
  rw [Resolver.toks_toExpr, Resolver.toks_toExpr] at h
  obtain ⟨a, ha⟩ := toks_nonBin (ht _ t.mem_first)
  obtain ⟨b, hb⟩ := toks_nonBin (hg _ g.mem_first)
  rw [ha, hb] at h ⊢
  have := chainToks_inj ?_ ?_ h
  · exact ⟨by rw [this.1], this.2⟩
  · intro p hp
    obtain ⟨x, hx, rfl⟩ := List.mem_map.1 hp
    exact toks_nonBin (ht _ (t.mem_rest x hx))
  · intro p hp
    obtain ⟨x, hx, rfl⟩ := List.mem_map.1 hp
    exact toks_nonBin (hg _ (g.mem_rest x hx))

theorem toks_tree_operators {t g : OpTree} (ht : ∀ x ∈ t.operands, x.NonBin)
    (hg : ∀ x ∈ g.operands, x.NonBin) (h : t.toExpr.toks = g.toExpr.toks) :
    t.operators = g.operators ∧ t.operands.map Expr.toks = g.operands.map Expr.toks := by
  obtain ⟨h1, h2⟩ := toks_tree_inj ht hg h
  rw [operands_eq, operands_eq, operators_eq, operators_eq]
  have h3 := congrArg (List.map Prod.fst) h2
  have h4 := congrArg (List.map Prod.snd) h2
  simp only [List.map_map] at h3 h4
  refine ⟨h3, ?_⟩
  simp only [List.map_cons, h1, List.map_map]
  congr 1

theorem Expr.toks_ne_nil (e : Expr) : e.toks ≠ [] := by cases e <;> simp [Expr.toks]

theorem tree_size_le (e : Expr) : ∀ x ∈ e.tree.operands, x.size ≤ e.size := by
  fun_induction Expr.tree e with
  | case1 l op r ihl ihr =>
    intro x hx
    simp only [operands, List.mem_append] at hx
    simp only [Expr.size]
    rcases hx with hx | hx
    · have := ihl x hx; omega
    · have := ihr x hx; omega
  | case2 e h =>
    intro x hx
    simp only [operands, List.mem_singleton] at hx
    subst hx
    exact Nat.le_refl _

theorem tree_size_lt {e : Expr} (hb : ¬ e.NonBin) : ∀ x ∈ e.tree.operands, x.size < e.size := by
  cases e with
  | bin l op r =>
    intro x hx
    simp only [Expr.tree, operands, List.mem_append] at hx
    simp only [Expr.size]
    have := l.size_pos; have := r.size_pos
    rcases hx with hx | hx
    · have := tree_size_le l x hx; omega
    · have := tree_size_le r x hx; omega
  | _ => simp [Expr.NonBin, Expr.rootOp] at hb

/-- Trees with equal leaves and operators that are both well grouped coincide. -/
theorem wellGrouped_ext {fx : Env} {t g : OpTree} (ht : t.WellGrouped fx) (hg : g.WellGrouped fx)
    (h1 : t.first = g.first) (h2 : t.rest = g.rest) : t = g := by
  have a := machine_complete fx t ht
  have b := machine_complete fx g hg
  rw [h1, h2, b] at a
  simpa using a.symm

/-- At most one grouped expression has given `toks`. -/
theorem grouped_unique : ∀ (e e' : Expr) (fx : Env), e.toks = e'.toks → e.Grouped fx →
    e'.Grouped fx → e = e' := by
  intro e
  induction hn : e.size using Nat.strongRecOn generalizing e with
  | ind n ih =>
    subst hn
    intro e' fx ht h h'
    -- lists of smaller expressions
    have hlist : ∀ (es es' : List Expr), (∀ x ∈ es, x.size < e.size) →
        Expr.toksList es = Expr.toksList es' → Expr.GroupedList fx es →
        Expr.GroupedList fx es' → es = es' := by
      intro es
      induction es with
      | nil => intro es' _ h _ _; cases es' <;> simp_all [Expr.toksList]
      | cons x es ihl =>
        intro es' hs h g g'
        cases es' with
        | nil => simp [Expr.toksList] at h
        | cons y es' =>
          simp only [Expr.toksList, List.cons.injEq] at h
          rw [ih _ (hs x (by simp)) x rfl y fx h.1 g.1 g'.1,
            ihl es' (fun z hz => hs z (by simp [hz])) h.2 g.2 g'.2]
    by_cases hb : e.NonBin
    · obtain ⟨k, hk⟩ := toks_nonBin hb
      have hb' : e'.NonBin := by
        rw [hk] at ht
        cases e' <;> simp_all [Expr.NonBin, Expr.rootOp]
        rename_i l op r
        have := congrArg List.length ht
        have h1 := List.length_pos_iff.2 l.toks_ne_nil
        simp only [Expr.toks, List.length_append, List.length_cons, List.length_nil] at this
        omega
      cases e <;> cases e' <;> simp only [Expr.NonBin, Expr.rootOp, reduceCtorEq] at hb hb' <;>
        simp only [Expr.toks, List.cons.injEq, and_true, reduceCtorEq, Tok.lit.injEq,
          Tok.var.injEq, Tok.app.injEq, Tok.lam.injEq, Tok.grp.injEq, Tok.neg.injEq,
          Tok.tup.injEq, Tok.list.injEq, Tok.let_.injEq] at ht
      · rw [ht]
      · rw [ht]
      · rename_i f x f' x'
        have := f.size_pos; have := x.size_pos
        rw [ih _ (by simp only [Expr.size]; omega) f rfl f' fx ht.1 h.1 h'.1,
          ih _ (by simp only [Expr.size]; omega) x rfl x' fx ht.2 h.2 h'.2]
      · rename_i p b p' b'
        rw [ht.1, ih _ (by simp only [Expr.size]; omega) b rfl b' fx ht.2 h h']
      · rename_i b b'
        rw [ih _ (by simp only [Expr.size]; omega) b rfl b' fx ht h h']
      · rename_i b b'
        rw [ih _ (by simp only [Expr.size]; omega) b rfl b' fx ht h h']
      · rename_i es es'
        rw [hlist es es' (fun x hx => by
          have := Resolver.mem_sizeList hx; simp only [Expr.size]; omega) ht h h']
      · rename_i es es'
        rw [hlist es es' (fun x hx => by
          have := Resolver.mem_sizeList hx; simp only [Expr.size]; omega) ht h h']
      · rename_i d b d' b'
        obtain ⟨rfl, ht⟩ := ht
        rw [ih _ (by simp only [Expr.size]; omega) b rfl b' _ ht h h']
    · have ht' : e.tree.toExpr.toks = e'.tree.toExpr.toks := by
        rw [Expr.tree_toExpr, Expr.tree_toExpr, ht]
      obtain ⟨h1, h2⟩ := toks_tree_inj e.tree_operands e'.tree_operands ht'
      rw [grouped_iff_tree] at h h'
      have hsz := tree_size_lt hb
      have key : ∀ x ∈ e.tree.operands, ∀ y ∈ e'.tree.operands, x.toks = y.toks → x = y :=
        fun x hx y hy hxy => ih _ (hsz x hx) x rfl y fx hxy (h.2 x hx) (h'.2 y hy)
      have h3 := key _ e.tree.mem_first _ e'.tree.mem_first h1
      have h4 : e.tree.rest = e'.tree.rest := by
        have hm1 := e.tree.mem_rest
        have hm2 := e'.tree.mem_rest
        generalize e.tree.rest = xs at h2 hm1
        generalize e'.tree.rest = ys at h2 hm2
        induction xs generalizing ys with
        | nil => cases ys <;> simp_all
        | cons x xs ihx =>
          cases ys with
          | nil => simp at h2
          | cons y ys =>
            simp only [List.map_cons, List.cons.injEq, Prod.mk.injEq] at h2
            have := key _ (hm1 x (by simp)) _ (hm2 y (by simp)) h2.1.2
            rw [ihx (fun p hp => hm1 p (by simp [hp])) ys h2.2 (fun p hp => hm2 p (by simp [hp])),
              Prod.ext h2.1.1 this]
      have h5 := wellGrouped_ext h.1 h'.1 h3 h4
      have h6 := congrArg OpTree.toExpr h5
      rwa [Expr.tree_toExpr, Expr.tree_toExpr] at h6


/-! ### Visiting with a fixed table -/

namespace Resolver

/-- `store_error` on the list of errors. -/
def addErr (errs : List AssocError) (e : AssocError) : List AssocError :=
  if errs.any (·.same e) then errs else errs ++ [e]

/-- Store several errors. -/
def storeAll (errs es : List AssocError) : List AssocError := es.foldl addErr errs

theorem storeError_mk (m : Fixities) (errs : List AssocError) (e : AssocError) :
    storeError ⟨m, errs⟩ e = ⟨m, addErr errs e⟩ := by
  unfold storeError addErr; split <;> rfl

theorem storeAll_append (errs es es' : List AssocError) :
    storeAll errs (es ++ es') = storeAll (storeAll errs es) es' := by
  simp [storeAll, List.foldl_append]

/-- Visiting `e` with table `m` leaves the table alone, turns `e` into `e'` and stores the
errors `es` in order. -/
def Vis (m : Fixities) (e : Expr) (es : List AssocError) (e' : Expr) : Prop :=
  ∀ errs, visit ⟨m, errs⟩ e = .ok (⟨m, storeAll errs es⟩, e')

/-- The same for lists. -/
def VisList (m : Fixities) (xs : List Expr) (es : List AssocError) (xs' : List Expr) : Prop :=
  ∀ errs, walkList visit ⟨m, errs⟩ xs = .ok (⟨m, storeAll errs es⟩, xs')

theorem vis_lit (m : Fixities) (l : Literal) : Vis m (.lit l) [] (.lit l) := by
  intro errs; rw [visit_eq]; rfl

theorem vis_var (m : Fixities) (i : Ident) : Vis m (.var i) [] (.var i) := by
  intro errs; rw [visit_eq]; rfl

theorem vis_app {m : Fixities} {f x : Expr} {es₁ es₂ f' x'} (h1 : Vis m f es₁ f')
    (h2 : Vis m x es₂ x') : Vis m (.app f x) (es₁ ++ es₂) (.app f' x') := by
  intro errs
  rw [visit_eq]
  simp only [walkExpr, bind, Except.bind, h1 errs, h2 (storeAll errs es₁), storeAll_append]

theorem vis_lam {m : Fixities} {p : Pat} {b : Expr} {es b'} (h : Vis m b es b') :
    Vis m (.lam p b) es (.lam p b') := by
  intro errs; rw [visit_eq]; simp only [walkExpr, bind, Except.bind, h errs]

theorem vis_grp {m : Fixities} {b : Expr} {es b'} (h : Vis m b es b') :
    Vis m (.grp b) es (.grp b') := by
  intro errs; rw [visit_eq]; simp only [walkExpr, bind, Except.bind, h errs]

theorem vis_neg {m : Fixities} {b : Expr} {es b'} (h : Vis m b es b') :
    Vis m (.neg b) es (.neg b') := by
  intro errs; rw [visit_eq]; simp only [walkExpr, bind, Except.bind, h errs]

theorem vis_tup {m : Fixities} {xs : List Expr} {es xs'} (h : VisList m xs es xs') :
    Vis m (.tup xs) es (.tup xs') := by
  intro errs; rw [visit_eq]; simp only [walkExpr, bind, Except.bind, h errs]

theorem vis_list {m : Fixities} {xs : List Expr} {es xs'} (h : VisList m xs es xs') :
    Vis m (.list xs) es (.list xs') := by
  intro errs; rw [visit_eq]; simp only [walkExpr, bind, Except.bind, h errs]

theorem visList_nil (m : Fixities) : VisList m [] [] [] := fun _ => rfl

theorem visList_cons {m : Fixities} {x : Expr} {xs : List Expr} {es₁ es₂ x' xs'}
    (h1 : Vis m x es₁ x') (h2 : VisList m xs es₂ xs') :
    VisList m (x :: xs) (es₁ ++ es₂) (x' :: xs') := by
  intro errs
  simp only [walkList, bind, Except.bind, h1 errs, h2 (storeAll errs es₁), storeAll_append]

theorem vis_let {m : Fixities} {d : InfixDecl} {b : Expr} {es b'}
    (hd : (d.infixes.map Infix.symbol).Nodup) (h : Vis (m.insertMany d.fixity d.infixes) b es b') :
    Vis m (.let_ d b) es (.let_ d b') := by
  intro errs
  rw [visit_eq]
  simp only [bind, Except.bind, insertLocal_snd, h errs]
  rw [restore_insertLocal _ hd]

theorem vis_bad {m : Fixities} {l r : Expr} {op : Infix} {err : AssocError}
    (h : m.rewrite (.bin l op r) = .ok (.error err)) :
    Vis m (.bin l op r) [err] (.bin l op r) := by
  intro errs
  rw [visit_eq]
  simp only [h, storeError_mk]
  rfl

theorem vis_bin_of {m : Fixities} {l r a b : Expr} {op o : Infix} {es₁ es₂ a' b'}
    (h : m.rewrite (.bin l op r) = .ok (.ok (.bin a o b))) (h1 : Vis m a es₁ a')
    (h2 : Vis m b es₂ b') : Vis m (.bin l op r) (es₁ ++ es₂) (.bin a' o b') := by
  intro errs
  rw [visit_eq]
  simp only [h, walkExpr, bind, Except.bind, h1 errs, h2 (storeAll errs es₁), storeAll_append]

theorem rewrite_wellGrouped {m : Fixities} {t : OpTree} (hn : ∀ x ∈ t.operands, x.NonBin)
    (hw : t.WellGrouped m.get) : m.rewrite t.toExpr = .ok (.ok t.toExpr) := by
  have hl : t.last ∈ t.operands := by
    have := t.last_eq
    exact List.mem_of_getLast? this
  have hb := hn _ hl
  have h1 : t.last.chainRest = [] := by
    revert hb; cases t.last <;> simp [Expr.NonBin, Expr.rootOp, Expr.chainRest]
  have h2 : t.last.chainFirst = t.last := by
    revert hb; cases t.last <;> simp [Expr.NonBin, Expr.rootOp, Expr.chainFirst]
  have := rewrite_of_grouping (m := m) (t.spineOnly_isGrouping h1 h2) (spineOnly_wellGrouped hw)
  rwa [spineOnly_toExpr] at this

/-- The outcome of visiting a parser-shaped expression. -/
structure Good (m : Fixities) (e : Expr) (es : List AssocError) (e' : Expr) : Prop where
  vis : Vis m e es e'
  nonBin : e.NonBin → e'.NonBin
  grouped : es = [] → e'.Grouped m.get
  real : ∀ err ∈ es, Conflict m.get e err.prev err.curr
  needed : es ≠ [] → ∀ g : Expr, g.toks = e.toks → ¬ g.Grouped m.get

/-- The outcome of visiting a well-grouped tree. -/
theorem tree_good {m : Fixities} {t : OpTree} (hw : t.WellGrouped m.get)
    (hx : ∀ x ∈ t.operands, x.NonBin ∧ ∃ es x', Good m x es x') :
    ∃ (es : List AssocError) (t' : OpTree), Vis m t.toExpr es t'.toExpr ∧ t'.root = t.root ∧ t'.WellGrouped m.get ∧
      (∀ y ∈ t'.operands, y.NonBin) ∧ (es = [] → ∀ y ∈ t'.operands, y.Grouped m.get) ∧
      (∀ err ∈ es, ∃ x ∈ t.operands, Conflict m.get x err.prev err.curr) ∧
      (es ≠ [] → ∃ x ∈ t.operands, ∀ g : Expr, g.toks = x.toks → ¬ g.Grouped m.get) := by
  induction t with
  | leaf e =>
    obtain ⟨hn, es, e', hg⟩ := hx e (by simp [operands])
    refine ⟨es, .leaf e', hg.vis, rfl, trivial, ?_, ?_, ?_, ?_⟩
    · intro y hy; simp only [operands, List.mem_singleton] at hy; subst hy; exact hg.nonBin hn
    · intro h y hy; simp only [operands, List.mem_singleton] at hy; subst hy; exact hg.grouped h
    · intro err he; exact ⟨e, by simp [operands], hg.real err he⟩
    · intro h; exact ⟨e, by simp [operands], hg.needed h⟩
  | node l op r ihl ihr =>
    obtain ⟨es₁, l', v₁, ro₁, w₁, n₁, g₁, c₁, d₁⟩ :=
      ihl hw.1 (fun x h => hx x (by simp [operands, h]))
    obtain ⟨es₂, r', v₂, ro₂, w₂, n₂, g₂, c₂, d₂⟩ :=
      ihr hw.2.1 (fun x h => hx x (by simp [operands, h]))
    refine ⟨es₁ ++ es₂, .node l' op r', ?_, rfl, ?_, ?_, ?_, ?_, ?_⟩
    · exact vis_bin_of (rewrite_wellGrouped (t := .node l op r) (fun x h => (hx x h).1) hw) v₁ v₂
    · exact ⟨w₁, w₂, by rw [ro₁]; exact hw.2.2.1, by rw [ro₂]; exact hw.2.2.2⟩
    · intro y hy
      simp only [operands, List.mem_append] at hy
      exact hy.elim (n₁ y) (n₂ y)
    · intro h y hy
      simp only [List.append_eq_nil_iff] at h
      simp only [operands, List.mem_append] at hy
      exact hy.elim (g₁ h.1 y) (g₂ h.2 y)
    · intro err he
      rcases List.mem_append.1 he with he | he
      · obtain ⟨x, hx, hc⟩ := c₁ err he
        exact ⟨x, by simp [operands, hx], hc⟩
      · obtain ⟨x, hx, hc⟩ := c₂ err he
        exact ⟨x, by simp [operands, hx], hc⟩
    · intro h
      by_cases h1 : es₁ = []
      · obtain ⟨x, hx, hc⟩ := d₂ (by intro h2; simp [h1, h2] at h)
        exact ⟨x, by simp [operands, hx], hc⟩
      · obtain ⟨x, hx, hc⟩ := d₁ h1
        exact ⟨x, by simp [operands, hx], hc⟩

theorem SubAt_trans {fx e fx₁ e₁ fx₂ e₂} (h : SubAt fx e fx₁ e₁) (h' : SubAt fx₁ e₁ fx₂ e₂) :
    SubAt fx e fx₂ e₂ := by
  induction h with
  | here => exact h'
  | appL _ ih => exact .appL (ih h')
  | appR _ ih => exact .appR (ih h')
  | binL _ ih => exact .binL (ih h')
  | binR _ ih => exact .binR (ih h')
  | lam _ ih => exact .lam (ih h')
  | grp _ ih => exact .grp (ih h')
  | neg _ ih => exact .neg (ih h')
  | tup hm _ ih => exact .tup hm (ih h')
  | list hm _ ih => exact .list hm (ih h')
  | let_ _ ih => exact .let_ (ih h')

theorem Conflict_sub {fx e fx₁ e₁ p c} (h : SubAt fx e fx₁ e₁) (hc : Conflict fx₁ e₁ p c) :
    Conflict fx e p c := by
  obtain ⟨fx', e', hs, h1, h2, h3⟩ := hc
  exact ⟨fx', e', SubAt_trans h hs, h1, h2, h3⟩

theorem SubAt_operand (fx : Env) (e : Expr) : ∀ x ∈ e.chainOperands, SubAt fx e fx x := by
  fun_induction Expr.chainOperands e with
  | case1 l op r ih =>
    intro x hx
    rcases List.mem_cons.1 hx with rfl | hx
    · exact .binL .here
    · exact .binR (ih x hx)
  | case2 e h => intro x hx; simp only [List.mem_singleton] at hx; subst hx; exact .here

theorem chain_tree {e : Expr} (h : e.RightNested) :
    e.tree.operators = e.chainOperators ∧ e.tree.operands = e.chainOperands := by
  fun_induction Expr.chainOperands e with
  | case1 l op r ih =>
    have := ih h.2.2
    simp only [Expr.tree, Expr.tree_nonBin h.1, operators, operands, this.1, this.2,
      Expr.chainOperators, List.nil_append, List.singleton_append, and_self]
  | case2 e h' => cases e <;> simp_all [Expr.tree, operators, operands, Expr.chainOperators]

/-- The list part of `visit_good`. -/
theorem list_good {m : Fixities} {xs : List Expr} (hx : ∀ x ∈ xs, ∃ es x', Good m x es x') :
    ∃ es xs', VisList m xs es xs' ∧ (es = [] → Expr.GroupedList m.get xs') ∧
      (∀ err ∈ es, ∃ x ∈ xs, Conflict m.get x err.prev err.curr) ∧
      (es ≠ [] → ∀ gs, Expr.toksList gs = Expr.toksList xs → ¬ Expr.GroupedList m.get gs) := by
  induction xs with
  | nil => exact ⟨[], [], visList_nil m, by simp [Expr.GroupedList], by simp, by simp⟩
  | cons x xs ih =>
    obtain ⟨es₁, x', g⟩ := hx x (by simp)
    obtain ⟨es₂, xs', v, gr, re, ne⟩ := ih (fun x h => hx x (by simp [h]))
    refine ⟨es₁ ++ es₂, x' :: xs', visList_cons g.vis v, ?_, ?_, ?_⟩
    · intro h
      simp only [List.append_eq_nil_iff] at h
      exact ⟨g.grouped h.1, gr h.2⟩
    · intro err he
      rcases List.mem_append.1 he with he | he
      · exact ⟨x, by simp, g.real err he⟩
      · obtain ⟨y, hy, hc⟩ := re err he
        exact ⟨y, by simp [hy], hc⟩
    · intro h gs hgs hG
      cases gs with
      | nil => simp [Expr.toksList] at hgs
      | cons y ys =>
        simp only [Expr.toksList, List.cons.injEq] at hgs
        by_cases h1 : es₁ = []
        · exact ne (by intro h2; simp [h1, h2] at h) ys hgs.2 hG.2
        · exact g.needed h1 y hgs.1 hG.1

theorem nonBin_of_toks {e : Expr} {k : Tok} (h : e.toks = [k]) : e.NonBin := by
  cases e <;> simp_all [Expr.NonBin, Expr.rootOp]
  rename_i l op r
  have := congrArg List.length h
  have h1 := List.length_pos_iff.2 l.toks_ne_nil
  simp only [Expr.toks, List.length_append, List.length_cons, List.length_nil] at this
  omega

theorem visit_good : ∀ (e : Expr), e.LetsDistinct → e.RightNested → ∀ m : Fixities,
    ∃ es e', Good m e es e' := by
  intro e
  induction hn : e.size using Nat.strongRecOn generalizing e with
  | ind n ih =>
    subst hn
    intro hd hr m
    cases e with
    | lit l =>
      exact ⟨[], _, vis_lit m l, fun h => h, fun _ => trivial, by simp, by simp⟩
    | var i =>
      exact ⟨[], _, vis_var m i, fun h => h, fun _ => trivial, by simp, by simp⟩
    | app f x =>
      have := f.size_pos; have := x.size_pos
      obtain ⟨es₁, f', g₁⟩ := ih _ (by simp only [Expr.size]; omega) f rfl hd.1 hr.1 m
      obtain ⟨es₂, x', g₂⟩ := ih _ (by simp only [Expr.size]; omega) x rfl hd.2 hr.2 m
      refine ⟨es₁ ++ es₂, .app f' x', vis_app g₁.vis g₂.vis, fun _ => rfl, ?_, ?_, ?_⟩
      · intro h
        simp only [List.append_eq_nil_iff] at h
        exact ⟨g₁.grouped h.1, g₂.grouped h.2⟩
      · intro err he
        rcases List.mem_append.1 he with he | he
        · exact Conflict_sub (.appL .here) (g₁.real err he)
        · exact Conflict_sub (.appR .here) (g₂.real err he)
      · intro h g hg hG
        have hb := nonBin_of_toks hg
        cases g <;> simp only [Expr.NonBin, Expr.rootOp, reduceCtorEq] at hb <;>
          simp only [Expr.toks, List.cons.injEq, and_true, reduceCtorEq, Tok.app.injEq] at hg
        by_cases h1 : es₁ = []
        · exact g₂.needed (by intro h2; simp [h1, h2] at h) _ hg.2 hG.2
        · exact g₁.needed h1 _ hg.1 hG.1
    | lam p b =>
      obtain ⟨es, b', g⟩ := ih _ (by simp only [Expr.size]; omega) b rfl hd hr m
      refine ⟨es, .lam p b', vis_lam g.vis, fun _ => rfl, g.grouped, ?_, ?_⟩
      · intro err he; exact Conflict_sub (.lam .here) (g.real err he)
      · intro h y hy hG
        have hb := nonBin_of_toks hy
        cases y <;> simp only [Expr.NonBin, Expr.rootOp, reduceCtorEq] at hb <;>
          simp only [Expr.toks, List.cons.injEq, and_true, reduceCtorEq, Tok.lam.injEq] at hy
        exact g.needed h _ hy.2 hG
    | grp b =>
      obtain ⟨es, b', g⟩ := ih _ (by simp only [Expr.size]; omega) b rfl hd hr m
      refine ⟨es, .grp b', vis_grp g.vis, fun _ => rfl, g.grouped, ?_, ?_⟩
      · intro err he; exact Conflict_sub (.grp .here) (g.real err he)
      · intro h y hy hG
        have hb := nonBin_of_toks hy
        cases y <;> simp only [Expr.NonBin, Expr.rootOp, reduceCtorEq] at hb <;>
          simp only [Expr.toks, List.cons.injEq, and_true, reduceCtorEq, Tok.grp.injEq] at hy
        exact g.needed h _ hy hG
    | neg b =>
      obtain ⟨es, b', g⟩ := ih _ (by simp only [Expr.size]; omega) b rfl hd hr m
      refine ⟨es, .neg b', vis_neg g.vis, fun _ => rfl, g.grouped, ?_, ?_⟩
      · intro err he; exact Conflict_sub (.neg .here) (g.real err he)
      · intro h y hy hG
        have hb := nonBin_of_toks hy
        cases y <;> simp only [Expr.NonBin, Expr.rootOp, reduceCtorEq] at hb <;>
          simp only [Expr.toks, List.cons.injEq, and_true, reduceCtorEq, Tok.neg.injEq] at hy
        exact g.needed h _ hy hG
    | let_ d b =>
      obtain ⟨es, b', g⟩ := ih _ (by simp only [Expr.size]; omega) b rfl hd.2 hr
        (m.insertMany d.fixity d.infixes)
      have hget := get_insertMany m d
      refine ⟨es, .let_ d b', vis_let hd.1 g.vis, fun _ => rfl, ?_, ?_, ?_⟩
      · intro h; have := g.grouped h; rwa [hget] at this
      · intro err he
        have := g.real err he
        rw [hget] at this
        exact Conflict_sub (.let_ .here) this
      · intro h y hy hG
        have hb := nonBin_of_toks hy
        cases y <;> simp only [Expr.NonBin, Expr.rootOp, reduceCtorEq] at hb <;>
          simp only [Expr.toks, List.cons.injEq, and_true, reduceCtorEq, Tok.let_.injEq] at hy
        obtain ⟨rfl, hy⟩ := hy
        exact g.needed h _ hy (by rw [hget]; exact hG)
    | tup xs =>
      obtain ⟨es, xs', v, gr, re, ne⟩ := list_good (m := m) (xs := xs) (fun x hx =>
        ih _ (by have := mem_sizeList hx; simp only [Expr.size]; omega) x rfl
          ((letsDistinctList_iff xs).1 hd x hx) ((rightNestedList_iff xs).1 hr x hx) m)
      refine ⟨es, .tup xs', vis_tup v, fun _ => rfl, gr, ?_, ?_⟩
      · intro err he
        obtain ⟨x, hx, hc⟩ := re err he
        exact Conflict_sub (.tup hx .here) hc
      · intro h y hy hG
        have hb := nonBin_of_toks hy
        cases y <;> simp only [Expr.NonBin, Expr.rootOp, reduceCtorEq] at hb <;>
          simp only [Expr.toks, List.cons.injEq, and_true, reduceCtorEq, Tok.tup.injEq] at hy
        exact ne h _ hy hG
    | list xs =>
      obtain ⟨es, xs', v, gr, re, ne⟩ := list_good (m := m) (xs := xs) (fun x hx =>
        ih _ (by have := mem_sizeList hx; simp only [Expr.size]; omega) x rfl
          ((letsDistinctList_iff xs).1 hd x hx) ((rightNestedList_iff xs).1 hr x hx) m)
      refine ⟨es, .list xs', vis_list v, fun _ => rfl, gr, ?_, ?_⟩
      · intro err he
        obtain ⟨x, hx, hc⟩ := re err he
        exact Conflict_sub (.list hx .here) hc
      · intro h y hy hG
        have hb := nonBin_of_toks hy
        cases y <;> simp only [Expr.NonBin, Expr.rootOp, reduceCtorEq] at hb <;>
          simp only [Expr.toks, List.cons.injEq, and_true, reduceCtorEq, Tok.list.injEq] at hy
        exact ne h _ hy hG
    | bin l op r =>
      -- groupings of the chain, seen from a candidate result
      have hct := chain_tree hr
      have hcand : ∀ g : Expr, g.toks = (Expr.bin l op r).toks → g.Grouped m.get →
          g.tree.operators = (Expr.bin l op r).chainOperators ∧
          g.tree.operands.map Expr.toks = (Expr.bin l op r).chainOperands.map Expr.toks := by
        intro g hg _
        have := toks_tree_operators g.tree_operands (Expr.tree_operands (.bin l op r))
          (by rw [Expr.tree_toExpr, Expr.tree_toExpr, hg])
        rwa [hct.1, hct.2] at this
      cases hrw : m.rewrite (.bin l op r) with
      | error p => exact absurd hrw (rewrite_no_panic _ _ _)
      | ok y =>
        cases y with
        | error err =>
          obtain ⟨p, c, rfl, hc⟩ : ∃ p c, err = ⟨(p, m.get p), (c, m.get c)⟩ ∧
              ClashIn m.get (Expr.bin l op r).chainOperators p c := by
            rw [rewrite_eq] at hrw
            cases hm : machine m.get [] (.leaf (Expr.bin l op r).chainFirst)
                (Expr.bin l op r).chainRest with
            | ok t => rw [hm] at hrw; simp [Except.map] at hrw
            | error err' =>
              rw [hm] at hrw
              simp only [Except.map, Except.ok.injEq, Except.error.injEq] at hrw
              subst hrw
              have := machine_error (st := []) trivial hm
              rw [Expr.chainOperators_eq]
              simpa [pendingRest, rest] using this
          refine ⟨[_], _, vis_bad hrw, fun h => h, by simp, ?_, ?_⟩
          · intro e he
            simp only [List.mem_singleton] at he
            subst he
            exact ⟨m.get, _, .here, rfl, rfl, hc⟩
          · intro _ g hg hG
            have h1 := (hcand g hg hG).1
            rw [← h1] at hc
            exact no_clash_of_wellGrouped ((grouped_iff_tree _ g).1 hG).1 hc
        | ok e₁ =>
          obtain ⟨t, rfl, hgr, hw⟩ := rewrite_ok_grouping hrw
          have hx : ∀ x ∈ t.operands, x.NonBin ∧ ∃ es x', Good m x es x' := by
            intro x hx
            rw [hgr.1] at hx
            have := rightNested_chain hr x hx
            exact ⟨this.1, ih _ (chain_size_lt x hx) x rfl
              ((letsDistinct_chain _).1 hd x hx) this.2 m⟩
          obtain ⟨es, t', v, ro, w, n, g, c, dn⟩ := tree_good hw hx
          refine ⟨es, t'.toExpr, ?_, ?_, ?_, ?_, ?_⟩
          · cases t with
            | leaf e => have := hgr.2; simp [operators, Expr.chainOperators] at this
            | node a o b =>
              have hself := rewrite_wellGrouped (t := .node a o b) (fun x h => (hx x h).1) hw
              intro errs
              have := v errs
              rw [visit_eq] at this ⊢
              simp only [hrw]
              simp only [toExpr] at this hself ⊢
              rwa [hself] at this
          · intro h; simp [Expr.NonBin, Expr.rootOp] at h
          · intro h; exact (grouped_toExpr n).2 ⟨w, g h⟩
          · intro err he
            obtain ⟨x, hx, hc⟩ := c err he
            rw [hgr.1] at hx
            exact Conflict_sub (SubAt_operand _ _ x hx) hc
          · intro h y hy hG
            obtain ⟨x, hx, hc⟩ := dn h
            rw [hgr.1] at hx
            have h1 := (hcand y hy hG).2
            have : x.toks ∈ (Expr.bin l op r).chainOperands.map Expr.toks :=
              List.mem_map_of_mem hx
            rw [← h1] at this
            obtain ⟨z, hz, hzx⟩ := List.mem_map.1 this
            exact hc z hzx (((grouped_iff_tree _ y).1 hG).2 z hz)

end Resolver
end Pemdas
