import Verif.Lemmas.ResolverMore
import Verif.Lemmas.Again
import Verif.Props.Ast
import Verif.Props.Grouping
/-
C05–C16 (resolver part): resolving whole expressions and inputs with scoped fixities.
-/
namespace Pemdas
open Resolver

/-! ### Concrete objects used to show that hypotheses are met -/

/-- `let infixr 2 + in (\x -> a * b + c) + d * a + b`, as the parser delivers it. -/
def exLet : Expr :=
  .let_ ⟨[opPlus], ⟨2, .right⟩⟩
    (.bin (.grp (.lam (.var t!"x") (.bin exA opMul (.bin exB opPlus exC)))) opPlus
      (.bin exD opMul (.bin exA opPlus exB)))

/-- `exLet` resolved under `exTable`. -/
def exLetResolved : Expr :=
  .let_ ⟨[opPlus], ⟨2, .right⟩⟩
    (.bin (.grp (.lam (.var t!"x") (.bin (.bin exA opMul exB) opPlus exC))) opPlus
      (.bin (.bin exD opMul exA) opPlus exB))

theorem exLet_ok : exLet.RightNested ∧ exLet.LetsDistinct := by
  simp [exLet, Expr.RightNested, Expr.LetsDistinct, Expr.NonBin, Expr.rootOp, exA, exB, exC, exD]

example : visit ⟨exTable, []⟩ exLet = .ok (⟨exTable, []⟩, exLetResolved) := by decide

/-- `[a == b == c, a == b == c, (a + b == c == d)]` -/
def exErr : Expr :=
  .list [.bin exA opEq (.bin exB opEq exC), .bin exA opEq (.bin exB opEq exC),
    .grp (.bin exA opPlus (.bin exB opEq (.bin exC opEq exD)))]

theorem exErr_ok : exErr.RightNested ∧ exErr.LetsDistinct := by
  simp [exErr, Expr.RightNested, Expr.RightNestedList, Expr.LetsDistinct, Expr.LetsDistinctList,
    Expr.NonBin, Expr.rootOp, exA, exB, exC, exD]

example : visit ⟨exTable, []⟩ exErr =
    .ok (⟨exTable, [⟨(opEq, ⟨4, .neither⟩), (opEq, ⟨4, .neither⟩)⟩]⟩, exErr) := by decide

/-- **C04** Resolving a whole expression never panics (and terminates). -/
theorem C04_visit_never_panics (r : Resolver) (e : Expr) : ∃ r' e', visit r e = .ok (r', e') := by
  obtain ⟨x, hx⟩ := visit_total r e
  exact ⟨x.1, x.2, hx⟩

/-- **C04** Resolving a whole input never panics (and terminates). -/
theorem C04_resolveAst_never_panics (r : Resolver) (a : Ast) : ∃ x, resolveAst r a = .ok x := by
  obtain ⟨x, hx⟩ := walkList_total (v := visit) (es := a.exprs)
    (fun e _ r => visit_total r e) { r with fixities := loadDecls r.fixities a.infxs }
  unfold resolveAst visitAst
  simp only [bind, Except.bind, hx]
  split <;> exact ⟨_, rfl⟩

/-- **C09** Resolution changes nothing but infix grouping, for every expression and table,
whether or not errors occur. -/
theorem C09_only_grouping_changes (r r' : Resolver) (e e' : Expr)
    (h : visit r e = .ok (r', e')) : e'.toks = e.toks :=
  visit_toks e r r' e' h

/-- **C09** If no error is reported, every infix group of the result respects the fixities in
scope. -/
theorem C09_result_grouped_partial (m m' : Fixities) (e e' : Expr) (hs : e.RightNested)
    (hl : e.LetsDistinct) (h : visit ⟨m, []⟩ e = .ok (⟨m', []⟩, e')) : e'.Grouped m.get := by
  obtain ⟨es, e₁, g⟩ := visit_good e hl hs m
  have := g.vis []
  rw [h] at this
  simp only [Except.ok.injEq, Prod.mk.injEq, Resolver.mk.injEq] at this
  obtain ⟨⟨_, h2⟩, rfl⟩ := this
  exact g.grouped ((storeAll_eq_nil es).1 h2.symm)

/-- **C10** No error is reported iff some regrouping of the expression respects the fixities
in scope. -/
theorem C10_error_iff_needed_partial (m m' : Fixities) (e e' : Expr) (errs : List AssocError)
    (hs : e.RightNested) (hl : e.LetsDistinct) (h : visit ⟨m, []⟩ e = .ok (⟨m', errs⟩, e')) :
    errs = [] ↔ ∃ g : Expr, g.toks = e.toks ∧ g.Grouped m.get := by
  obtain ⟨es, e₁, g⟩ := visit_good e hl hs m
  have := g.vis []
  rw [h] at this
  simp only [Except.ok.injEq, Prod.mk.injEq, Resolver.mk.injEq] at this
  obtain ⟨⟨_, rfl⟩, rfl⟩ := this
  rw [storeAll_eq_nil]
  constructor
  · intro he
    exact ⟨e', visit_toks e _ _ _ h, g.grouped he⟩
  · rintro ⟨x, hx, hg⟩
    exact Decidable.byContradiction fun hne => g.needed hne x hx hg

/-- **C10** That regrouping is unique (for arbitrary expressions) ... -/
theorem C10_regrouping_unique (fx : Env) (g g' : Expr) (h : g.toks = g'.toks)
    (hg : g.Grouped fx) (hg' : g'.Grouped fx) : g = g' :=
  grouped_unique g g' fx h hg hg'

/-- **C10** ... and it is what the resolver produces. -/
theorem C10_result_is_regrouping_partial (m : Fixities) (e g : Expr) (hs : e.RightNested)
    (hl : e.LetsDistinct) (ht : g.toks = e.toks) (hg : g.Grouped m.get) :
    visit ⟨m, []⟩ e = .ok (⟨m, []⟩, g) := by
  obtain ⟨es, e₁, gd⟩ := visit_good e hl hs m
  have hn : es = [] := Decidable.byContradiction fun hne => gd.needed hne g ht hg
  subst hn
  have := gd.vis []
  rw [this]
  have h1 := visit_toks e _ _ _ this
  rw [grouped_unique g e₁ m.get (by rw [ht, h1]) hg (gd.grouped rfl)]
  rfl

/-- **C05** Whole expressions, whatever their shape and their `let`s: visiting the result once more,
from the same state of the resolver, gives the same result, the same errors and the same table. -/
theorem C05_visit_idempotent (r r' : Resolver) (e e' : Expr) (h : visit r e = .ok (r', e')) :
    visit r e' = .ok (r', e') :=
  (visit_settles e r r' e' h).1

/-- **C05** The same for whole programs. -/
theorem C05_resolve_idempotent (r r' : Resolver) (a a' : Ast) (errs : List AssocError)
    (h : resolveAst r a = .ok (r', a', errs)) : resolveAst r a' = .ok (r', a', errs) := by
  unfold resolveAst visitAst at *
  simp only [bind, Except.bind] at *
  cases hw : walkList visit { r with fixities := loadDecls r.fixities a.infxs } a.exprs with
  | error s => rw [hw] at h; simp at h
  | ok y =>
    rw [hw] at h
    have ht := thread_settles (walkList_thread (fun e _ r r' e' h => visit_settles e r r' e' h) _ _ _ hw)
    simp only at h
    have ha : a' = { a with exprs := y.2 } := by
      split at h <;> simp only [Except.ok.injEq, Prod.mk.injEq] at h <;> exact h.2.1.symm
    subst ha
    simp only [ht]
    exact h

/-- A `let` that names an operator twice leaks, so that the chain `a + a + a` after it is grouped to
the right; once more, nothing changes. -/
example : ∃ r' e', visit ⟨[], []⟩ (.tup [.let_ ⟨[opPlus, opPlus], ⟨4, .right⟩⟩ exA,
      .bin exA opPlus (.bin exA opPlus exA)]) = .ok (r', e') ∧ r'.fixities ≠ [] ∧
    visit ⟨[], []⟩ e' = .ok (r', e') := by
  obtain ⟨⟨r', e'⟩, hv⟩ := visit_total ⟨[], []⟩ (.tup [.let_ ⟨[opPlus, opPlus], ⟨4, .right⟩⟩ exA,
      .bin exA opPlus (.bin exA opPlus exA)])
  refine ⟨r', e', hv, ?_, C05_visit_idempotent _ _ _ _ hv⟩
  have : ((visit ⟨[], []⟩ (.tup [.let_ ⟨[opPlus, opPlus], ⟨4, .right⟩⟩ exA,
      .bin exA opPlus (.bin exA opPlus exA)])).toOption.map (·.1.fixities)) =
    some [(opPlus, ⟨4, .right⟩)] := by decide
  rw [hv] at this
  simp only [Except.toOption, Option.map_some, Option.some.injEq] at this
  rw [this]; simp

/-- **C06** Whole expressions: only the fixities of the operators used matter. -/
theorem C06_visit_congr (m m' : Fixities) (hw : m.Wf) (hw' : m'.Wf) (errs : List AssocError)
    (e : Expr) (h : ∀ o o' : Infix, UsesOp o e → o'.symbol = o.symbol → m.get o' = m'.get o') :
    (visit ⟨m, errs⟩ e).map (fun x => (x.1.errors, x.2)) =
      (visit ⟨m', errs⟩ e).map (fun x => (x.1.errors, x.2)) := by
  obtain ⟨⟨r, e'⟩, hx⟩ := visit_total ⟨m, errs⟩ e
  obtain ⟨m₁, hv, -⟩ := visit_congr (fun s => ∃ o, UsesOp o e ∧ s = o.symbol) e _ _ _ hx m' hw hw'
    (fun op ⟨o, ho, hs⟩ => h o op ho hs) (fun o ho => ⟨o, ho, rfl⟩)
  rw [hx, hv]
  rfl

/-- **C08** Whole expressions: an undeclared operator behaves as if declared `infixl 9`. -/
theorem C08_visit_undeclared_default (m : Fixities) (hw : m.Wf) (op : Infix)
    (hu : m.getDefined op = none) (errs : List AssocError) (e : Expr) :
    (visit ⟨(m.insert op ⟨9, .left⟩).2, errs⟩ e).map (fun x => (x.1.errors, x.2)) =
      (visit ⟨m, errs⟩ e).map (fun x => (x.1.errors, x.2)) := by
  apply C06_visit_congr _ _ (Fixities.wf_insert hw op _) hw
  intro _ o _ _
  rw [Fixities.get_insert]
  split
  · rename_i hs
    rw [Fixities.getDefined_eq_none, hs, ← Fixities.getDefined_eq_none] at hu
    unfold Fixities.get
    rw [hu]; rfl
  · rfl

example : Fixities.Wf exTable := by unfold Fixities.Wf; decide

/-- **C11** After resolving, the table is exactly what it was, provided no `let` names an
operator twice; whether or not errors were found. -/
theorem C11_no_leak_partial (r r' : Resolver) (e e' : Expr) (hl : e.LetsDistinct)
    (h : visit r e = .ok (r', e')) : r'.fixities = r.fixities :=
  visit_fixities e r r' e' h hl

/-- **C11 fails in general**: `let infixl 4 +, + in a` leaves `infixl 4 +` behind. -/
theorem C11_duplicate_leaks :
    ∃ e e' : Expr, visit ⟨[], []⟩ e = .ok (⟨[(opPlus, ⟨4, .left⟩)], []⟩, e') :=
  ⟨.let_ ⟨[opPlus, opPlus], ⟨4, .left⟩⟩ exA, .let_ ⟨[opPlus, opPlus], ⟨4, .left⟩⟩ exA, by decide⟩

/-- **C12** Within the body of a `let` the declared operators have the declared fixity, all
others keep theirs: the body is resolved exactly as under any table with these fixities. -/
theorem C12_let_scope (m m' : Fixities) (hw : m.Wf) (hw' : m'.Wf) (errs : List AssocError)
    (d : InfixDecl) (b : Expr) (h : m'.get = Env.extend m.get d) :
    (visit ⟨m, errs⟩ (.let_ d b)).map (fun x => (x.1.errors, x.2)) =
      (visit ⟨m', errs⟩ b).map (fun x => (x.1.errors, .let_ d x.2)) := by
  obtain ⟨⟨r, b'⟩, hx⟩ := visit_total ⟨m', errs⟩ b
  obtain ⟨m₁, hv, -⟩ := visit_congr (fun _ => True) b _ _ _ hx (m.insertMany d.fixity d.infixes)
    hw' (Fixities.wf_insertMany hw _ _)
    (fun op _ => by rw [get_insertMany, h]) (fun _ _ => trivial)
  rw [hx, visit_eq]
  simp only [bind, Except.bind, insertLocal_snd, hv]
  rfl

/-- Wrap an expression in `let`s, outermost first. -/
def lets : List InfixDecl → Expr → Expr
  | [], b => b
  | d :: ds, b => .let_ d (lets ds b)

/-- The fixities in scope under nested `let`s (outermost first): the innermost one naming the
operator decides. -/
def innermost (fx : Env) (ds : List InfixDecl) : Env := fun op =>
  match ds.reverse.find? (fun d => decide (op.symbol ∈ d.infixes.map Infix.symbol)) with
  | some d => d.fixity
  | none => fx op

theorem innermost_cons (fx : Env) (d : InfixDecl) (ds : List InfixDecl) :
    innermost fx (d :: ds) = innermost (Env.extend fx d) ds := by
  funext op
  simp only [innermost, List.reverse_cons, List.find?_append]
  cases ds.reverse.find? (fun d => decide (op.symbol ∈ d.infixes.map Infix.symbol)) with
  | some d' => rfl
  | none =>
    simp only [Option.none_or, List.find?_singleton, Env.extend]
    by_cases h : op.symbol ∈ d.infixes.map Infix.symbol
    · simp [h]
    · simp [h]

/-- **C12** Nested `let`s: the innermost enclosing `let` that names the operator wins. -/
theorem C12_innermost_wins (m m' : Fixities) (hw : m.Wf) (hw' : m'.Wf) (errs : List AssocError)
    (ds : List InfixDecl) (b : Expr) (h : m'.get = innermost m.get ds) :
    (visit ⟨m, errs⟩ (lets ds b)).map (fun x => (x.1.errors, x.2)) =
      (visit ⟨m', errs⟩ b).map (fun x => (x.1.errors, lets ds x.2)) := by
  induction ds generalizing m with
  | nil =>
    have hh : m.get = m'.get := h.symm
    exact C06_visit_congr m m' hw hw' errs b (fun _ o _ _ => by rw [hh])
  | cons d ds ih =>
    rw [innermost_cons, ← get_insertMany] at h
    have h1 := ih (m.insertMany d.fixity d.infixes) (Fixities.wf_insertMany hw _ _) h
    have h2 := C12_let_scope m (m.insertMany d.fixity d.infixes) hw
      (Fixities.wf_insertMany hw _ _) errs d (lets ds b) (get_insertMany m d)
    simp only [lets]
    rw [h2]
    obtain ⟨x, hx⟩ := visit_total ⟨m.insertMany d.fixity d.infixes, errs⟩ (lets ds b)
    obtain ⟨y, hy⟩ := visit_total ⟨m', errs⟩ b
    rw [hx, hy] at h1 ⊢
    simp only [Except.map, Except.ok.injEq, Prod.mk.injEq] at h1 ⊢
    rw [h1.1, h1.2]
    exact ⟨rfl, rfl⟩

example : innermost exTable.get [⟨[opPlus, opMul], ⟨1, .right⟩⟩, ⟨[opPlus], ⟨3, .neither⟩⟩] opPlus
    = ⟨3, .neither⟩ := by decide

/-- **C13** All declarations of an input take effect before its expressions are resolved,
however they are interleaved. -/
theorem C13_interleaving_irrelevant (r : Resolver) (ds ds' : List Decl)
    (hi : ds.filterMap Decl.asInfix? = ds'.filterMap Decl.asInfix?)
    (he : ds.filterMap Decl.asExpr? = ds'.filterMap Decl.asExpr?) :
    (resolveAst r (Ast.ofDecls ds)).map (fun x => (x.1, x.2.1.exprs, x.2.2)) =
      (resolveAst r (Ast.ofDecls ds')).map (fun x => (x.1, x.2.1.exprs, x.2.2)) := by
  simp only [Ast.ofDecls_eq, resolveAst, visitAst, hi, he, bind, Except.bind]
  obtain ⟨x, hx⟩ := walkList_total (v := visit) (es := ds'.filterMap Decl.asExpr?)
    (fun e _ r => visit_total r e)
    { r with fixities := loadDecls r.fixities (ds'.filterMap Decl.asInfix?) }
  rw [hx]
  simp only
  split <;> rfl

example : [Decl.expr exChain, .infix_ ⟨[opPlus], ⟨6, .left⟩⟩].filterMap Decl.asInfix? =
    [Decl.infix_ ⟨[opPlus], ⟨6, .left⟩⟩, .expr exChain].filterMap Decl.asInfix? := rfl

/-- **C13** The last declaration of an operator wins. -/
theorem C13_last_declaration_wins (m : Fixities) (ds : List InfixDecl) :
    (loadDecls m ds).get = innermost m.get ds := by
  funext op
  unfold Fixities.get innermost
  rw [getDefined_loadDecls]
  cases ds.reverse.find? (fun d => decide (op.symbol ∈ d.infixes.map Infix.symbol)) <;> rfl

/-- **C13** Loading the declarations twice is the same as loading them once. -/
theorem C13_load_twice (m : Fixities) (hw : m.Wf) (ds : List InfixDecl) :
    loadDecls (loadDecls m ds) ds = loadDecls m ds :=
  loadDecls_twice hw ds

/-- **C13** Hence loading an input's fixities before resolving it changes nothing. -/
theorem C13_load_then_resolve (r : Resolver) (hw : r.fixities.Wf) (a : Ast) :
    resolveAst (loadFixities r a) a = resolveAst r a := by
  simp only [resolveAst, visitAst, loadFixities, C13_load_twice _ hw]

/-- What `resolve_ast` does, in one place: used for C14 and C16. -/
theorem resolveAst_spec (m : Fixities) (a : Ast) (hs : ∀ e ∈ a.exprs, e.RightNested)
    (hl : ∀ e ∈ a.exprs, e.LetsDistinct) :
    ∃ es a', resolveAst ⟨m, []⟩ a = .ok (⟨loadDecls m a.infxs, []⟩, a', storeAll [] es) ∧
      (∀ err ∈ es, ∃ e ∈ a.exprs, Conflict (loadDecls m a.infxs).get e err.prev err.curr) ∧
      (es = [] ↔ ∃ gs, Expr.toksList gs = Expr.toksList a.exprs ∧
        Expr.GroupedList (loadDecls m a.infxs).get gs) ∧
      (es = [] → Expr.GroupedList (loadDecls m a.infxs).get a'.exprs) ∧
      Expr.toksList a'.exprs = Expr.toksList a.exprs ∧
      a'.infxs = a.infxs ∧ a'.kinds = a.kinds := by
  obtain ⟨es, xs', v, gr, re, ne⟩ := list_good (m := loadDecls m a.infxs) (xs := a.exprs)
    (fun x hx => visit_good x (hl x hx) (hs x hx) _)
  have htoks : Expr.toksList xs' = Expr.toksList a.exprs := by
    have := walkList_thread (P := fun _ e _ e' => e'.toks = e.toks)
      (fun e _ r r' e' h => visit_toks e r r' e' h) _ _ _ (v [])
    exact thread_toks this
  refine ⟨es, { a with exprs := xs' }, ?_, re, ?_, gr, htoks, rfl, rfl⟩
  · simp only [resolveAst, visitAst, bind, Except.bind, v []]
    split
    · rename_i h
      rw [h]
    · rfl
  · constructor
    · intro h; exact ⟨xs', htoks, gr h⟩
    · rintro ⟨gs, h1, h2⟩
      exact Decidable.byContradiction fun hne => ne hne gs h1 h2

/-- **C14** (resolver part) After resolving an input, successfully or not, the table is the old
one plus the input's declarations, and no pending error survives. -/
theorem C14_resolver_state_partial (m : Fixities) (a a' : Ast) (r' : Resolver)
    (errs : List AssocError) (hl : ∀ e ∈ a.exprs, e.LetsDistinct)
    (h : resolveAst ⟨m, []⟩ a = .ok (r', a', errs)) :
    r' = ⟨loadDecls m a.infxs, []⟩ := by
  obtain ⟨x, hx⟩ := walkList_total (v := visit) (es := a.exprs)
    (fun e _ r => visit_total r e) ⟨loadDecls m a.infxs, []⟩
  have ht := walkList_thread (P := fun r e r' _ => e.LetsDistinct → r'.fixities = r.fixities)
      (fun e _ r r' e' h => visit_fixities e r r' e' h) _ _ _ hx
  have hf := thread_fixities ht ((letsDistinctList_iff _).2 hl)
  simp only [resolveAst, visitAst, bind, Except.bind, hx] at h
  split at h
  · rename_i he
    simp only [Except.ok.injEq, Prod.mk.injEq] at h
    rw [← h.1]
    obtain ⟨⟨f, er⟩, es⟩ := x
    simp only at he hf
    rw [he, hf]
  · simp only [Except.ok.injEq, Prod.mk.injEq, takeErrors] at h
    rw [← h.1, hf]

/-- **C16** Reported ambiguities are real conflicts under the fixities in scope, and the list has
no repetition. -/
theorem C16_errors_real_partial (m : Fixities) (a a' : Ast) (r' : Resolver)
    (errs : List AssocError) (hs : ∀ e ∈ a.exprs, e.RightNested)
    (hl : ∀ e ∈ a.exprs, e.LetsDistinct) (h : resolveAst ⟨m, []⟩ a = .ok (r', a', errs)) :
    NoRepeat errs ∧
    ∀ err ∈ errs, ∃ e ∈ a.exprs, Conflict (innermost m.get a.infxs) e err.prev err.curr := by
  obtain ⟨es, a₁, h1, h2, -⟩ := resolveAst_spec m a hs hl
  rw [h1] at h
  simp only [Except.ok.injEq, Prod.mk.injEq] at h
  obtain ⟨-, -, rfl⟩ := h
  refine ⟨noRepeat_storeAll es [] List.Pairwise.nil, ?_⟩
  intro err he
  rw [← C13_last_declaration_wins]
  exact h2 err ((mem_storeAll es [] err he).resolve_left (by simp))

/-- **C10** for inputs: an input is accepted iff all its expressions can be regrouped
respecting the fixities in scope. -/
theorem C10_input_accepted_iff_partial (m : Fixities) (a a' : Ast) (r' : Resolver)
    (errs : List AssocError) (hs : ∀ e ∈ a.exprs, e.RightNested)
    (hl : ∀ e ∈ a.exprs, e.LetsDistinct) (h : resolveAst ⟨m, []⟩ a = .ok (r', a', errs)) :
    errs = [] ↔ ∃ gs, Expr.toksList gs = Expr.toksList a.exprs ∧
      Expr.GroupedList (innermost m.get a.infxs) gs := by
  obtain ⟨es, a₁, h1, -, h2, -⟩ := resolveAst_spec m a hs hl
  rw [h1] at h
  simp only [Except.ok.injEq, Prod.mk.injEq] at h
  obtain ⟨-, -, rfl⟩ := h
  rw [storeAll_eq_nil, ← C13_last_declaration_wins, h2]

/-- **C16** Completeness: errors are reported iff some sub-expression contains a conflict under
the fixities in scope there. -/
theorem C16_reported_iff_conflict_partial (m m' : Fixities) (e e' : Expr) (errs : List AssocError)
    (hs : e.RightNested) (hl : e.LetsDistinct) (h : visit ⟨m, []⟩ e = .ok (⟨m', errs⟩, e')) :
    errs ≠ [] ↔ ∃ p c, Conflict m.get e p c := by
  obtain ⟨es, e₁, g⟩ := visit_good e hl hs m
  have := g.vis []
  rw [h] at this
  simp only [Except.ok.injEq, Prod.mk.injEq, Resolver.mk.injEq] at this
  obtain ⟨⟨_, rfl⟩, rfl⟩ := this
  rw [Ne, storeAll_eq_nil]
  constructor
  · intro hne
    cases es with
    | nil => exact absurd rfl hne
    | cons err es => exact ⟨_, _, g.real err (by simp)⟩
  · rintro ⟨p, c, hc⟩ he
    exact conflict_no_regroup e m.get p c hs hc e' (visit_toks e _ _ _ h) (g.grouped he)

/-! ### What a `let` naming an operator twice breaks -/

/-- `[let infixr 4 +, + in a, a + b + c]` -/
def exDup : Expr :=
  .list [.let_ ⟨[opPlus, opPlus], ⟨4, .right⟩⟩ exA, .bin exA opPlus (.bin exB opPlus exC)]

/-- **C09 fails in general**: after `let infixr 4 +, + in ..` a later `a + b + c` in the same
input is silently grouped to the right although `+` is `infixl 6`. -/
theorem C09_fails_after_duplicate_let :
    ∃ m' e', exDup.RightNested ∧ visit ⟨exTable, []⟩ exDup = .ok (⟨m', []⟩, e') ∧
      ¬ e'.Grouped exTable.get := by
  refine ⟨[(opPlus, ⟨4, .right⟩), (opMul, ⟨7, .left⟩), (opPow, ⟨8, .right⟩), (opEq, ⟨4, .neither⟩)],
    exDup, ?_, by decide, ?_⟩
  · simp [exDup, Expr.RightNested, Expr.RightNestedList, Expr.NonBin, Expr.rootOp, exA, exB, exC]
  · simp [exDup, Expr.Grouped, Expr.GroupedList, Expr.rootOp, exA, exB, exC, RightOk, exTable,
      Fixities.get, Fixities.getDefined, opPlus, Infix.symbol]

/-- `[let infix 4 +, + in a, a + b + c]` -/
def exDup' : Expr :=
  .list [.let_ ⟨[opPlus, opPlus], ⟨4, .neither⟩⟩ exA, .bin exA opPlus (.bin exB opPlus exC)]

/-- **C10 and C16 fail in general**: after `let infix 4 +, + in ..` a later `a + b + c` is
rejected as ambiguous although a regrouping respecting the fixities in scope exists and no
sub-expression contains a conflict. -/
theorem C10_C16_fail_after_duplicate_let :
    ∃ m' err, ∃ g : Expr, exDup'.RightNested ∧
      visit ⟨exTable, []⟩ exDup' = .ok (⟨m', [err]⟩, exDup') ∧
      (g.toks = exDup'.toks ∧ g.Grouped exTable.get) ∧
      ¬ Conflict exTable.get exDup' err.prev err.curr := by
  have hr : exDup'.RightNested := by
    simp [exDup', Expr.RightNested, Expr.RightNestedList, Expr.NonBin, Expr.rootOp, exA, exB, exC]
  have hg : (Expr.list [.let_ ⟨[opPlus, opPlus], ⟨4, .neither⟩⟩ exA,
      .bin (.bin exA opPlus exB) opPlus exC]).Grouped exTable.get := by
    simp [Expr.Grouped, Expr.GroupedList, Expr.rootOp, exA, exB, exC, LeftOk, exTable,
      Fixities.get, Fixities.getDefined, opPlus, Infix.symbol]
  refine ⟨[(opPlus, ⟨4, .neither⟩), (opMul, ⟨7, .left⟩), (opPow, ⟨8, .right⟩),
      (opEq, ⟨4, .neither⟩)],
    ⟨(opPlus, ⟨4, .neither⟩), (opPlus, ⟨4, .neither⟩)⟩,
    .list [.let_ ⟨[opPlus, opPlus], ⟨4, .neither⟩⟩ exA, .bin (.bin exA opPlus exB) opPlus exC],
    hr, by decide, ⟨rfl, hg⟩, fun hc => ?_⟩
  exact conflict_no_regroup _ _ _ _ hr hc (.list [.let_ ⟨[opPlus, opPlus], ⟨4, .neither⟩⟩ exA,
    .bin (.bin exA opPlus exB) opPlus exC]) rfl hg

/-- **C14 fails in general**: the input `let infixl 4 +, + in a` leaves a local fixity behind. -/
theorem C14_fails_after_duplicate_let :
    ∃ a a', a.infxs = [] ∧
      resolveAst ⟨[], []⟩ a = .ok (⟨[(opPlus, ⟨4, .left⟩)], []⟩, a', []) :=
  ⟨⟨[.expr], [], [.let_ ⟨[opPlus, opPlus], ⟨4, .left⟩⟩ exA]⟩,
   ⟨[.expr], [], [.let_ ⟨[opPlus, opPlus], ⟨4, .left⟩⟩ exA]⟩, rfl, by decide⟩

end Pemdas
