import Verif.Spec.Clashes
import Verif.Lemmas.ResolverMain
import Verif.Lemmas.ResolverMore
import Verif.Props.Grouping
/-
Helper lemmas for the exact account of what the resolver reports: the two-stack loop stops at
the first clash, and the traversal follows the rules of `Resolves`.
-/
namespace Pemdas
open OpTree Resolver

/-! ### One chain -/

theorem FirstClash.clashIn {fx : Env} {ops : List Infix} {p c : Infix}
    (h : FirstClash fx ops p c) : ClashIn fx ops p c := by
  obtain ⟨pre, mid, post, h1, h2, h3, -⟩ := h
  exact ⟨pre, mid, post, h1, h2, h3⟩

theorem ClashIn.append {fx : Env} {ops more : List Infix} {p c : Infix}
    (h : ClashIn fx ops p c) : ClashIn fx (ops ++ more) p c := by
  obtain ⟨pre, mid, post, h1, h2, h3⟩ := h
  exact ⟨pre, mid, post ++ more, by simp [h1], h2, h3⟩

/-- There is at most one first clash. -/
theorem FirstClash.unique {fx : Env} {ops : List Infix} {p c p' c' : Infix}
    (h : FirstClash fx ops p c) (h' : FirstClash fx ops p' c') : p = p' ∧ c = c' := by
  obtain ⟨pre, mid, post, h1, h2, h3, h4⟩ := h
  obtain ⟨pre', mid', post', h1', h2', h3', h4'⟩ := h'
  have key : (pre ++ p :: mid) ++ c :: post = (pre' ++ p' :: mid') ++ c' :: post' := by
    simp only [List.append_assoc, List.cons_append]
    rw [← h1, ← h1']
  rcases split_cons key with ⟨b, hb, -⟩ | ⟨ha, hc, -⟩ | ⟨a, ha, -⟩
  · exact (h4' ⟨p, c, pre, mid, b, by simp [hb], h2, h3⟩).elim
  · subst hc
    rcases split_cons ha with ⟨b, rfl, rfl⟩ | ⟨-, rfl, -⟩ | ⟨a, rfl, rfl⟩
    · have := h3 p' (by simp)
      have e1 := h2.1; have e2 := h2'.1
      omega
    · exact ⟨rfl, rfl⟩
    · have := h3' p (by simp)
      have e1 := h2.1; have e2 := h2'.1
      omega
  · exact (h4 ⟨p', c', pre', mid', a, by simp [ha], h2', h3'⟩).elim

/-- Where the machine stops with an error. -/
theorem machine_stops {fx : Env} {st : List (OpTree × Infix)} {cur : OpTree}
    {rest : List (Infix × Expr)} {err : AssocError} (h : machine fx st cur rest = .error err) :
    ∃ xs x ys, rest = xs ++ x :: ys ∧ (∃ t, machine fx st cur xs = .ok t) ∧
      machine fx st cur (xs ++ [x]) = .error err := by
  induction rest generalizing st cur with
  | nil => simp [machine] at h
  | cons x rest ih =>
    obtain ⟨op, e⟩ := x
    rw [machine] at h
    cases hp : popWhile fx op cur st with
    | error err' =>
      rw [hp] at h
      simp only [Except.error.injEq] at h
      subst h
      refine ⟨[], (op, e), rest, rfl, ⟨_, rfl⟩, ?_⟩
      simp only [List.nil_append, machine, hp]
    | ok cs =>
      rw [hp] at h
      obtain ⟨cur', st'⟩ := cs
      obtain ⟨xs, x, ys, rfl, ⟨t, h1⟩, h2⟩ := ih h
      refine ⟨(op, e) :: xs, x, ys, rfl, ⟨t, ?_⟩, ?_⟩
      · rw [machine, hp]; exact h1
      · rw [List.cons_append, machine, hp]; exact h2

/-- The error of the machine is the one for the first clash. -/
theorem machine_first {fx : Env} {e : Expr} {rest : List (Infix × Expr)} {err : AssocError}
    (h : machine fx [] (.leaf e) rest = .error err) :
    ∃ p c, err = clashError fx p c ∧ FirstClash fx (rest.map (·.1)) p c := by
  obtain ⟨xs, x, ys, rfl, ⟨t, h1⟩, h2⟩ := machine_stops h
  obtain ⟨p, c, he, pre, mid, post, h3, h4, h5⟩ := machine_error (st := []) trivial h2
  have hno : ¬ ∃ p c, ClashIn fx (xs.map (·.1)) p c := by
    rintro ⟨p, c, hc⟩
    have hr := (machine_order h1).2
    have hw := machine_sound (st := []) trivial h1
    apply no_clash_of_wellGrouped hw (p := p) (c := c)
    rw [t.operators_eq, hr]
    simpa [pendingRest, rest] using hc
  have h3' : xs.map (·.1) ++ [x.1] = (pre ++ p :: mid) ++ c :: post := by
    simpa [pendingRest, rest] using h3
  refine ⟨p, c, he, pre, mid, ys.map (·.1), ?_, h4, h5, ?_⟩
  · rcases split_cons h3' with ⟨b, -, hb⟩ | ⟨ha, hc, hb⟩ | ⟨a, ha, -⟩
    · exact absurd hb (by simp)
    · simp only [List.map_append, List.map_cons, ha, hc, List.append_assoc, List.cons_append]
    · exact (hno ⟨p, c, pre, mid, a, by simp [ha], h4, h5⟩).elim
  · rcases split_cons h3' with ⟨b, -, hb⟩ | ⟨ha, -, -⟩ | ⟨a, ha, -⟩
    · exact absurd hb (by simp)
    · rw [← ha]; exact hno
    · exact (hno ⟨p, c, pre, mid, a, by simp [ha], h4, h5⟩).elim

theorem rewrite_first {m : Fixities} {e : Expr} {err : AssocError}
    (h : m.rewrite e = .ok (.error err)) :
    ∃ p c, err = clashError m.get p c ∧ FirstClash m.get e.chainOperators p c := by
  rw [rewrite_eq] at h
  cases hm : machine m.get [] (.leaf e.chainFirst) e.chainRest with
  | ok t => rw [hm] at h; simp [Except.map] at h
  | error err' =>
    rw [hm] at h
    simp only [Except.map, Except.ok.injEq, Except.error.injEq] at h
    subst h
    rw [Expr.chainOperators_eq]
    exact machine_first hm

/-! ### Keeping the first of errors that are alike -/

theorem same_eq (a b : AssocError) : a.same b = decide (a.Alike b) := by
  rw [Bool.eq_iff_iff, decide_eq_true_iff]
  unfold AssocError.same AssocError.Alike
  simp [and_assoc]

theorem AssocError.Alike.symm {a b : AssocError} (h : a.Alike b) : b.Alike a :=
  ⟨h.1.symm, h.2.1.symm, h.2.2.1.symm, h.2.2.2.symm⟩

theorem AssocError.Alike.trans {a b c : AssocError} (h : a.Alike b) (h' : b.Alike c) : a.Alike c :=
  ⟨h.1.trans h'.1, h.2.1.trans h'.2.1, h.2.2.1.trans h'.2.2.1, h.2.2.2.trans h'.2.2.2⟩

theorem storeAll_filter (es : List AssocError) : ∀ errs : List AssocError,
    storeAll errs es =
      errs ++ (firstOfEach es).filter fun e => !(errs.any fun e' => decide (e'.Alike e)) := by
  induction es with
  | nil => intro errs; simp [storeAll, firstOfEach]
  | cons e es ih =>
    intro errs
    have hs : storeAll errs (e :: es) = storeAll (addErr errs e) es := rfl
    rw [hs, ih, firstOfEach, List.filter_cons]
    have hany : errs.any (·.same e) = errs.any fun e' => decide (e'.Alike e) := by
      simp only [same_eq]
    unfold addErr
    rw [hany]
    by_cases h : (errs.any fun e' => decide (e'.Alike e)) = true
    · simp only [h, if_true, Bool.not_true, Bool.false_eq_true, if_false, List.filter_filter]
      congr 1
      apply List.filter_congr
      intro x _
      by_cases hx : e.Alike x
      · have : (errs.any fun e' => decide (e'.Alike x)) = true := by
          simp only [List.any_eq_true, decide_eq_true_eq] at h ⊢
          obtain ⟨y, hy, hye⟩ := h
          exact ⟨y, hy, hye.trans hx⟩
        simp [this]
      · simp [hx]
    · rw [if_neg h, if_pos (by simpa using h)]
      simp only [List.filter_filter, List.append_assoc, List.singleton_append]
      congr 2
      apply List.filter_congr
      intro x _
      simp [Bool.not_or, Bool.and_comm]

theorem storeAll_firstOfEach (es : List AssocError) : storeAll [] es = firstOfEach es := by
  rw [storeAll_filter]
  simp

theorem mem_firstOfEach (es : List AssocError) : ∀ e ∈ es, ∃ e' ∈ firstOfEach es, e'.Alike e := by
  induction es with
  | nil => simp
  | cons x es ih =>
    intro e he
    rcases List.mem_cons.1 he with rfl | he
    · exact ⟨e, by simp [firstOfEach], rfl, rfl, rfl, rfl⟩
    · obtain ⟨y, hy, hye⟩ := ih e he
      by_cases h : x.Alike y
      · exact ⟨x, by simp [firstOfEach], h.trans hye⟩
      · exact ⟨y, by simp [firstOfEach, hy, h], hye⟩

/-! ### Whole expressions -/

/-- What visiting a parser-shaped expression does, in terms of the rules. -/
structure Follows (m : Fixities) (e : Expr) (es : List AssocError) (e' : Expr) : Prop where
  vis : Vis m e es e'
  nonBin : e.NonBin → e'.NonBin
  rules : Resolves m.get e e' es

/-- The results for a list of expressions, gathered. -/
theorem list_follows {m : Fixities} {xs : List Expr}
    (hx : ∀ x ∈ xs, ∃ es x', Follows m x es x') :
    ∃ zs : List (Expr × Expr × List AssocError), zs.map (·.1) = xs ∧
      VisList m xs (zs.flatMap (·.2.2)) (zs.map (·.2.1)) ∧
      ∀ z ∈ zs, Resolves m.get z.1 z.2.1 z.2.2 := by
  induction xs with
  | nil => exact ⟨[], rfl, visList_nil m, by simp⟩
  | cons x xs ih =>
    obtain ⟨es, x', f⟩ := hx x (by simp)
    obtain ⟨zs, h1, h2, h3⟩ := ih fun y hy => hx y (by simp [hy])
    refine ⟨(x, x', es) :: zs, by simp [h1], visList_cons f.vis h2, ?_⟩
    exact fun z hz => (List.mem_cons.1 hz).elim (fun e => e ▸ f.rules) (h3 z)

/-- The outcome of visiting a well-grouped tree. -/
theorem tree_follows {m : Fixities} {t : OpTree} (hw : t.WellGrouped m.get)
    (hx : ∀ x ∈ t.operands, x.NonBin ∧ ∃ es x', Follows m x es x') :
    ∃ (zs : List (Expr × Expr × List AssocError)) (t' : OpTree),
      Vis m t.toExpr (zs.flatMap (·.2.2)) t'.toExpr ∧ t'.root = t.root ∧
      t'.WellGrouped m.get ∧ t'.operators = t.operators ∧ t.operands = zs.map (·.1) ∧
      t'.operands = zs.map (·.2.1) ∧ ∀ z ∈ zs, Resolves m.get z.1 z.2.1 z.2.2 := by
  induction t with
  | leaf e =>
    obtain ⟨-, es, e', f⟩ := hx e (by simp [operands])
    refine ⟨[(e, e', es)], .leaf e', by simpa [toExpr] using f.vis, rfl, trivial, rfl, rfl, rfl, ?_⟩
    intro z hz
    rw [List.mem_singleton.1 hz]
    exact f.rules
  | node l op r ihl ihr =>
    obtain ⟨z₁, l', v₁, ro₁, w₁, o₁, a₁, b₁, g₁⟩ :=
      ihl hw.1 (fun x h => hx x (by simp [operands, h]))
    obtain ⟨z₂, r', v₂, ro₂, w₂, o₂, a₂, b₂, g₂⟩ :=
      ihr hw.2.1 (fun x h => hx x (by simp [operands, h]))
    refine ⟨z₁ ++ z₂, .node l' op r', ?_, rfl, ?_, ?_, ?_, ?_, ?_⟩
    · rw [List.flatMap_append]
      exact vis_bin_of (rewrite_wellGrouped (t := .node l op r) (fun x h => (hx x h).1) hw) v₁ v₂
    · exact ⟨w₁, w₂, by rw [ro₁]; exact hw.2.2.1, by rw [ro₂]; exact hw.2.2.2⟩
    · simp [operators, o₁, o₂]
    · simp [operands, a₁, a₂]
    · simp [operands, b₁, b₂]
    · exact fun z hz => (List.mem_append.1 hz).elim (g₁ z) (g₂ z)

theorem visit_follows : ∀ (e : Expr), e.LetsDistinct → e.RightNested → ∀ m : Fixities,
    ∃ es e', Follows m e es e' := by
  intro e
  induction hn : e.size using Nat.strongRecOn generalizing e with
  | ind n ih =>
    subst hn
    intro hd hr m
    cases e with
    | lit l => exact ⟨[], _, vis_lit m l, fun h => h, .lit⟩
    | var i => exact ⟨[], _, vis_var m i, fun h => h, .var⟩
    | app f x =>
      have := f.size_pos; have := x.size_pos
      obtain ⟨es₁, f', g₁⟩ := ih _ (by simp only [Expr.size]; omega) f rfl hd.1 hr.1 m
      obtain ⟨es₂, x', g₂⟩ := ih _ (by simp only [Expr.size]; omega) x rfl hd.2 hr.2 m
      exact ⟨es₁ ++ es₂, .app f' x', vis_app g₁.vis g₂.vis, fun _ => rfl, .app g₁.rules g₂.rules⟩
    | lam p b =>
      obtain ⟨es, b', g⟩ := ih _ (by simp only [Expr.size]; omega) b rfl hd hr m
      exact ⟨es, .lam p b', vis_lam g.vis, fun _ => rfl, .lam g.rules⟩
    | grp b =>
      obtain ⟨es, b', g⟩ := ih _ (by simp only [Expr.size]; omega) b rfl hd hr m
      exact ⟨es, .grp b', vis_grp g.vis, fun _ => rfl, .grp g.rules⟩
    | neg b =>
      obtain ⟨es, b', g⟩ := ih _ (by simp only [Expr.size]; omega) b rfl hd hr m
      exact ⟨es, .neg b', vis_neg g.vis, fun _ => rfl, .neg g.rules⟩
    | let_ d b =>
      obtain ⟨es, b', g⟩ := ih _ (by simp only [Expr.size]; omega) b rfl hd.2 hr
        (m.insertMany d.fixity d.infixes)
      refine ⟨es, .let_ d b', vis_let hd.1 g.vis, fun _ => rfl, .let_ ?_⟩
      rw [← get_insertMany m d]
      exact g.rules
    | tup xs =>
      obtain ⟨zs, h1, h2, h3⟩ := list_follows (m := m) (xs := xs) (fun x hx =>
        ih _ (by have := mem_sizeList hx; simp only [Expr.size]; omega) x rfl
          ((letsDistinctList_iff xs).1 hd x hx) ((rightNestedList_iff xs).1 hr x hx) m)
      exact ⟨_, _, vis_tup h2, fun _ => rfl, .tup zs h1.symm h3⟩
    | list xs =>
      obtain ⟨zs, h1, h2, h3⟩ := list_follows (m := m) (xs := xs) (fun x hx =>
        ih _ (by have := mem_sizeList hx; simp only [Expr.size]; omega) x rfl
          ((letsDistinctList_iff xs).1 hd x hx) ((rightNestedList_iff xs).1 hr x hx) m)
      exact ⟨_, _, vis_list h2, fun _ => rfl, .list zs h1.symm h3⟩
    | bin l op r =>
      cases hrw : m.rewrite (.bin l op r) with
      | error p => exact absurd hrw (rewrite_no_panic _ _ _)
      | ok y =>
        cases y with
        | error err =>
          obtain ⟨p, c, rfl, hc⟩ := rewrite_first hrw
          exact ⟨[_], _, vis_bad hrw, fun h => h, .ambiguous hc⟩
        | ok e₁ =>
          obtain ⟨t, rfl, hgr, hw⟩ := rewrite_ok_grouping hrw
          have hx : ∀ x ∈ t.operands, x.NonBin ∧ ∃ es x', Follows m x es x' := by
            intro x hx
            rw [hgr.1] at hx
            have := rightNested_chain hr x hx
            exact ⟨this.1, ih _ (chain_size_lt x hx) x rfl
              ((letsDistinct_chain _).1 hd x hx) this.2 m⟩
          obtain ⟨zs, t', v, ro, w, o, a, b, g⟩ := tree_follows hw hx
          refine ⟨_, t'.toExpr, ?_, ?_, .grouped t' zs w (o.trans hgr.2) (hgr.1.symm.trans a) b g⟩
          · cases t with
            | leaf e => have := hgr.2; simp [operators, Expr.chainOperators] at this
            | node t₁ o₁ t₂ =>
              have hself := rewrite_wellGrouped (t := .node t₁ o₁ t₂) (fun x h => (hx x h).1) hw
              intro errs
              have := v errs
              rw [visit_eq] at this ⊢
              simp only [hrw]
              simp only [toExpr] at this hself ⊢
              rwa [hself] at this
          · intro h; simp [Expr.NonBin, Expr.rootOp] at h

/-! ### The rules determine the outcome -/

theorem triples_eq {fx : Env} : ∀ {zs zs' : List (Expr × Expr × List AssocError)},
    (∀ z ∈ zs, ∀ e es, Resolves fx z.1 e es → z.2.1 = e ∧ z.2.2 = es) →
    (∀ z ∈ zs', Resolves fx z.1 z.2.1 z.2.2) → zs.map (·.1) = zs'.map (·.1) → zs = zs'
  | [], [], _, _, _ => rfl
  | [], _ :: _, _, _, h => by simp at h
  | _ :: _, [], _, _, h => by simp at h
  | z :: zs, z' :: zs', h1, h2, h => by
    simp only [List.map_cons, List.cons.injEq] at h
    obtain ⟨a, b, c⟩ := z
    obtain ⟨a', b', c'⟩ := z'
    obtain ⟨rfl, h⟩ := h
    obtain ⟨rfl, rfl⟩ := h1 (a, b, c) (by simp) b' c' (h2 (a, b', c') (by simp))
    rw [triples_eq (fun z hz => h1 z (by simp [hz])) (fun z hz => h2 z (by simp [hz])) h]

theorem tree_unique {fx : Env} {t t' : OpTree} (h1 : t.operands = t'.operands)
    (h2 : t.operators = t'.operators) (w : t.WellGrouped fx) (w' : t'.WellGrouped fx) : t = t' := by
  rw [t.operands_eq, t'.operands_eq] at h1
  rw [t.operators_eq, t'.operators_eq] at h2
  simp only [List.cons.injEq] at h1
  have a := machine_complete fx t w
  have b := machine_complete fx t' w'
  have hr : t.rest = t'.rest := by
    have : ∀ {a b : List (Infix × Expr)}, a.map (·.1) = b.map (·.1) → a.map (·.2) = b.map (·.2) →
        a = b := by
      intro a
      induction a with
      | nil => intro b h _; cases b <;> simp_all
      | cons x a ih =>
        intro b h h'
        cases b with
        | nil => simp at h
        | cons y b =>
          simp only [List.map_cons, List.cons.injEq] at h h'
          rw [ih h.2 h'.2, Prod.ext h.1 h'.1]
    exact this h2 h1.2
  rw [h1.1, hr, b] at a
  simpa using a.symm

theorem Resolves.unique {fx : Env} {e e₁ e₂ : Expr} {es₁ es₂ : List AssocError}
    (h₁ : Resolves fx e e₁ es₁) (h₂ : Resolves fx e e₂ es₂) : e₁ = e₂ ∧ es₁ = es₂ := by
  induction h₁ generalizing e₂ es₂ with
  | lit => cases h₂; exact ⟨rfl, rfl⟩
  | var => cases h₂; exact ⟨rfl, rfl⟩
  | app _ _ ih ih' =>
    cases h₂ with
    | app a b =>
      obtain ⟨rfl, rfl⟩ := ih a
      obtain ⟨rfl, rfl⟩ := ih' b
      exact ⟨rfl, rfl⟩
  | lam _ ih => cases h₂ with | lam a => obtain ⟨rfl, rfl⟩ := ih a; exact ⟨rfl, rfl⟩
  | grp _ ih => cases h₂ with | grp a => obtain ⟨rfl, rfl⟩ := ih a; exact ⟨rfl, rfl⟩
  | neg _ ih => cases h₂ with | neg a => obtain ⟨rfl, rfl⟩ := ih a; exact ⟨rfl, rfl⟩
  | let_ _ ih => cases h₂ with | let_ a => obtain ⟨rfl, rfl⟩ := ih a; exact ⟨rfl, rfl⟩
  | tup zs he _ ih =>
    cases h₂ with
    | tup zs' he' h =>
      have := triples_eq (fun z hz e es => ih z hz) h (he.symm.trans he')
      subst this
      exact ⟨rfl, rfl⟩
  | list zs he _ ih =>
    cases h₂ with
    | list zs' he' h =>
      have := triples_eq (fun z hz e es => ih z hz) h (he.symm.trans he')
      subst this
      exact ⟨rfl, rfl⟩
  | ambiguous h =>
    cases h₂ with
    | ambiguous h' =>
      obtain ⟨rfl, rfl⟩ := h.unique h'
      exact ⟨rfl, rfl⟩
    | grouped t zs w o _ _ _ => exact (no_clash_of_wellGrouped w (o ▸ h.clashIn)).elim
  | grouped t zs w o a b _ ih =>
    cases h₂ with
    | ambiguous h => exact (no_clash_of_wellGrouped w (o ▸ h.clashIn)).elim
    | grouped t' zs' w' o' a' b' g' =>
      have := triples_eq (fun z hz e es => ih z hz) g' (a.symm.trans a')
      subst this
      obtain rfl := tree_unique (b.trans b'.symm) (o.trans o'.symm) w w'
      exact ⟨rfl, rfl⟩

/-- Errors of the outermost ambiguous chains are met. -/
theorem Resolves.reports {fx fx' : Env} {e e' : Expr} (ho : Outermost fx e fx' e') :
    ∀ {r es p c}, Resolves fx e r es → FirstClash fx' e'.chainOperators p c →
      clashError fx' p c ∈ es := by
  induction ho with
  | here =>
    intro r es p c h hc
    have hne : ∀ {fx : Env} {e : Expr}, e.chainOperators = [] →
        ¬ FirstClash fx e.chainOperators p c := by
      rintro fx e h ⟨pre, mid, post, h', -⟩
      rw [h] at h'
      simp at h'
    cases h with
    | ambiguous h => obtain ⟨rfl, rfl⟩ := hc.unique h; simp
    | grouped t zs w o _ _ _ => exact (no_clash_of_wellGrouped w (o ▸ hc.clashIn)).elim
    | _ => exact (hne rfl hc).elim
  | appL _ ih => intro r es p c h hc; cases h with | app a b => simp [ih a hc]
  | appR _ ih => intro r es p c h hc; cases h with | app a b => simp [ih b hc]
  | lam _ ih => intro r es p c h hc; cases h with | lam a => exact ih a hc
  | grp _ ih => intro r es p c h hc; cases h with | grp a => exact ih a hc
  | neg _ ih => intro r es p c h hc; cases h with | neg a => exact ih a hc
  | let_ _ ih => intro r es p c h hc; cases h with | let_ a => exact ih a hc
  | tup hm _ ih =>
    intro r es p c h hc
    cases h with
    | tup zs he h =>
      rw [he] at hm
      obtain ⟨z, hz, rfl⟩ := List.mem_map.1 hm
      exact List.mem_flatMap.2 ⟨z, hz, ih (h z hz) hc⟩
  | list hm _ ih =>
    intro r es p c h hc
    cases h with
    | list zs he h =>
      rw [he] at hm
      obtain ⟨z, hz, rfl⟩ := List.mem_map.1 hm
      exact List.mem_flatMap.2 ⟨z, hz, ih (h z hz) hc⟩
  | chain hn hm _ ih =>
    intro r es p c h hc
    cases h with
    | ambiguous h => exact (hn ⟨_, _, h.clashIn⟩).elim
    | grouped t zs w o a b g =>
      rw [a] at hm
      obtain ⟨z, hz, rfl⟩ := List.mem_map.1 hm
      exact List.mem_flatMap.2 ⟨z, hz, ih (g z hz) hc⟩

/-- Every error met is that of an outermost ambiguous chain. -/
theorem Resolves.origin {fx : Env} {e r : Expr} {es : List AssocError} (h : Resolves fx e r es) :
    ∀ err ∈ es, ∃ fx' e' p c, Outermost fx e fx' e' ∧ FirstClash fx' e'.chainOperators p c ∧
      err = clashError fx' p c := by
  induction h with
  | lit => simp
  | var => simp
  | app _ _ ih ih' =>
    intro err he
    rcases List.mem_append.1 he with he | he
    · obtain ⟨fx', e', p, c, h1, h2⟩ := ih err he; exact ⟨fx', e', p, c, .appL h1, h2⟩
    · obtain ⟨fx', e', p, c, h1, h2⟩ := ih' err he; exact ⟨fx', e', p, c, .appR h1, h2⟩
  | lam _ ih =>
    intro err he
    obtain ⟨fx', e', p, c, h1, h2⟩ := ih err he; exact ⟨fx', e', p, c, .lam h1, h2⟩
  | grp _ ih =>
    intro err he
    obtain ⟨fx', e', p, c, h1, h2⟩ := ih err he; exact ⟨fx', e', p, c, .grp h1, h2⟩
  | neg _ ih =>
    intro err he
    obtain ⟨fx', e', p, c, h1, h2⟩ := ih err he; exact ⟨fx', e', p, c, .neg h1, h2⟩
  | let_ _ ih =>
    intro err he
    obtain ⟨fx', e', p, c, h1, h2⟩ := ih err he; exact ⟨fx', e', p, c, .let_ h1, h2⟩
  | tup zs hx _ ih =>
    intro err he
    obtain ⟨z, hz, he⟩ := List.mem_flatMap.1 he
    obtain ⟨fx', e', p, c, h1, h2⟩ := ih z hz err he
    exact ⟨fx', e', p, c, .tup (hx ▸ List.mem_map_of_mem hz) h1, h2⟩
  | list zs hx _ ih =>
    intro err he
    obtain ⟨z, hz, he⟩ := List.mem_flatMap.1 he
    obtain ⟨fx', e', p, c, h1, h2⟩ := ih z hz err he
    exact ⟨fx', e', p, c, .list (hx ▸ List.mem_map_of_mem hz) h1, h2⟩
  | ambiguous h =>
    intro err he
    rw [List.mem_singleton.1 he]
    exact ⟨_, _, _, _, .here, h, rfl⟩
  | grouped t zs w o a b _ ih =>
    intro err he
    obtain ⟨z, hz, he⟩ := List.mem_flatMap.1 he
    obtain ⟨fx', e', p, c, h1, h2⟩ := ih z hz err he
    refine ⟨fx', e', p, c, .chain ?_ (a ▸ List.mem_map_of_mem hz) h1, h2⟩
    rintro ⟨p, c, hc⟩
    exact no_clash_of_wellGrouped w (o ▸ hc)

end Pemdas
