import Verif.Spec.OneSided
import Verif.Props.Backwards
/-
C196: what is never refused.
-/
namespace Pemdas
open Session Resolver

theorem OneSided.no_clash {side : Nat → Prop} {f g : Fixity} (hf : f.OneSided side) (hg : g.OneSided side) :
    ¬ Clash f g := by
  rintro ⟨h1, h2, h3⟩
  unfold Fixity.OneSided at hf hg
  rw [← h1] at hg
  grind

theorem lets_tree (t : OpTree) (d : InfixDecl) : d ∈ t.toExpr.lets ↔ ∃ x ∈ t.operands, d ∈ x.lets := by
  induction t with
  | leaf e => simp [OpTree.toExpr, OpTree.operands]
  | node l op r ihl ihr => simp [OpTree.toExpr, Expr.lets, ihl, ihr, OpTree.operands, or_and_right, exists_or]

theorem lets_operands (e : Expr) (d : InfixDecl) : d ∈ e.lets ↔ ∃ x ∈ e.chainOperands, d ∈ x.lets := by
  fun_induction Expr.chainOperands e with
  | case1 l op r ih => simp [Expr.lets, ih]
  | case2 e h => simp

section
variable {side : Nat → Prop} {S : Infix → Prop}

theorem extend_side {fx : Env} {d : InfixDecl} (h : ∀ o, S o → (fx o).OneSided side) (hd : d.fixity.OneSided side) :
    ∀ o, S o → ((fx.extend d) o).OneSided side := by
  intro o ho
  unfold Env.extend
  split
  · exact hd
  · exact h o ho

theorem afterLet_side {fx fx' : Env} {d : InfixDecl} (h : ∀ o, S o → (fx o).OneSided side)
    (h' : ∀ o, S o → (fx' o).OneSided side) (hd : d.fixity.OneSided side) :
    ∀ o, S o → ((fx.afterLet d fx') o).OneSided side := by
  intro o ho
  unfold Env.afterLet
  split
  · exact h' o ho
  · exact h o ho
  · exact hd

mutual
theorem Becomes.side : ∀ {fx : Env} {e g : Expr} {es : List AssocError} {fx' : Env}, Becomes fx e g es fx' →
    (∀ o, S o → (fx o).OneSided side) → (∀ o, UsesOp o e → S o) → (∀ d ∈ e.lets, d.fixity.OneSided side) →
    es = [] ∧ ∀ o, S o → (fx' o).OneSided side
  | _, _, _, _, _, .lit, h, _, _ | _, _, _, _, _, .var, h, _, _ => ⟨rfl, h⟩
  | _, _, _, _, _, .app h1 h2, h, hu, hd => by
    obtain ⟨rfl, a⟩ := Becomes.side h1 h (fun o k => hu o (.appL k)) fun d k => hd d (List.mem_append_left _ k)
    obtain ⟨rfl, b⟩ := Becomes.side h2 a (fun o k => hu o (.appR k)) fun d k => hd d (List.mem_append_right _ k)
    exact ⟨rfl, b⟩
  | _, _, _, _, _, .lam h1, h, hu, hd => Becomes.side h1 h (fun o k => hu o (.lam k)) hd
  | _, _, _, _, _, .grp h1, h, hu, hd => Becomes.side h1 h (fun o k => hu o (.grp k)) hd
  | _, _, _, _, _, .neg h1, h, hu, hd => Becomes.side h1 h (fun o k => hu o (.neg k)) hd
  | _, _, _, _, _, .tup h1, h, hu, hd =>
    BecomeAll.side h1 h (fun x hx o k => hu o (.tup hx k)) fun x hx d k => hd d (mem_letsList.2 ⟨x, hx, k⟩)
  | _, _, _, _, _, .list h1, h, hu, hd =>
    BecomeAll.side h1 h (fun x hx o k => hu o (.list hx k)) fun x hx d k => hd d (mem_letsList.2 ⟨x, hx, k⟩)
  | _, _, _, _, _, .let_ (d := d) h1, h, hu, hd => by
    have h0 := hd d List.mem_cons_self
    obtain ⟨rfl, a⟩ := Becomes.side h1 (extend_side h h0) (fun o k => hu o (.let_ k))
      fun d k => hd d (List.mem_cons_of_mem _ k)
    exact ⟨rfl, afterLet_side h a h0⟩
  | _, _, _, _, _, .ambiguous (p := p) (c := c) h1, h, hu, _ => by
    obtain ⟨pre, mid, post, e1, e2, -⟩ := h1
    refine absurd e2 (OneSided.no_clash (h p (hu p ?_)) (h c (hu c ?_)))
    · exact (usesOp_chain _ _).2 (.inl (by simp [e1]))
    · exact (usesOp_chain _ _).2 (.inl (by simp [e1]))
  | _, _, _, _, _, .grouped (s := s) (o := o) (t := t) _ h2 h3 h4 h5, h, hu, hd => by
    have hu' : ∀ q, UsesOp q (OpTree.node s o t).toExpr → S q := by
      intro q hq
      rw [usesOp_toExpr, h3, h2, ← usesOp_chain] at hq
      exact hu q hq
    have hd' : ∀ d ∈ (OpTree.node s o t).toExpr.lets, d.fixity.OneSided side := by
      intro d k
      rw [lets_tree, h3, ← lets_operands] at k
      exact hd d k
    obtain ⟨rfl, a⟩ := Becomes.side h4 h (fun o k => hu' o (.binL k)) fun d k => hd' d (List.mem_append_left _ k)
    obtain ⟨rfl, b⟩ := Becomes.side h5 a (fun o k => hu' o (.binR k)) fun d k => hd' d (List.mem_append_right _ k)
    exact ⟨rfl, b⟩
theorem BecomeAll.side : ∀ {fx : Env} {xs gs : List Expr} {es : List AssocError} {fx' : Env}, BecomeAll fx xs gs es fx' →
    (∀ o, S o → (fx o).OneSided side) → (∀ x ∈ xs, ∀ o, UsesOp o x → S o) →
    (∀ x ∈ xs, ∀ d ∈ x.lets, d.fixity.OneSided side) → es = [] ∧ ∀ o, S o → (fx' o).OneSided side
  | _, _, _, _, _, .nil, h, _, _ => ⟨rfl, h⟩
  | _, _, _, _, _, .cons h1 h2, h, hu, hd => by
    obtain ⟨rfl, a⟩ := Becomes.side h1 h (hu _ List.mem_cons_self) (hd _ List.mem_cons_self)
    obtain ⟨rfl, b⟩ := BecomeAll.side h2 a (fun x hx => hu x (List.mem_cons_of_mem _ hx))
      fun x hx => hd x (List.mem_cons_of_mem _ hx)
    exact ⟨rfl, b⟩
end
end

/-- The expression is accepted under the fixities. -/
def Fixities.Accepts (m : Fixities) (e : Expr) : Prop := ∃ m' g, visit ⟨m, []⟩ e = .ok (⟨m', []⟩, g)

/-- **C196** If to every precedence belongs one side, to which the operators of this precedence associate, those used
and those declared by `let`, then the expression is accepted. -/
theorem C196_accepted {m : Fixities} (hw : m.Wf) {side : Nat → Prop} {e : Expr}
    (hu : ∀ o, UsesOp o e → (m.get o).OneSided side) (hd : ∀ d ∈ e.lets, d.fixity.OneSided side) : m.Accepts e := by
  obtain ⟨x, es, fx, c1, m₁, -, -, c2⟩ := C152_expression hw e
  obtain ⟨rfl, -⟩ := Becomes.side (S := fun o => UsesOp o e) ((c1 x es fx).2 ⟨rfl, rfl, rfl⟩) hu (fun _ k => k) hd
  exact ⟨m₁, x, c2⟩

theorem pair_refused {m : Fixities} (hw : m.Wf) {p c : Infix} (h : Clash (m.get p) (m.get c)) :
    ¬ m.Accepts (.bin exA p (.bin exB c exC)) := by
  rintro ⟨m', g, h'⟩
  obtain ⟨x, es, fx, c1, m₁, -, -, c2⟩ := C152_expression hw (.bin exA p (.bin exB c exC))
  have := (c1 _ _ _).1 (.ambiguous (p := p) (c := c) ⟨[], [], [], rfl, h, by simp, by
    rintro ⟨p', c', pre, mid, post, e, -⟩
    have := congrArg List.length e
    simp at this
    omega⟩)
  rw [c2] at h'
  simp only [Except.ok.injEq, Prod.mk.injEq, Resolver.mk.injEq] at h'
  rw [firstOfEach_ne_nil] at h'
  rw [h'.1.2] at this
  exact absurd this.2.1 (by simp)

/-- **C196** This is exactly what is needed: for a table and some operators, all expressions in these operators without
`let`s are accepted if and only if to every precedence belongs one side. -/
theorem C196_exact {m : Fixities} (hw : m.Wf) (S : Infix → Prop) :
    (∃ side : Nat → Prop, ∀ o, S o → (m.get o).OneSided side) ↔
      ∀ e : Expr, (∀ o, UsesOp o e → S o) → e.lets = [] → m.Accepts e := by
  constructor
  · rintro ⟨side, h⟩ e hu hl
    exact C196_accepted hw (fun o k => h o (hu o k)) (by simp [hl])
  · intro h
    have key : ∀ p c, S p → S c → ¬ Clash (m.get p) (m.get c) := by
      intro p c hp hc hcl
      refine pair_refused hw hcl (h _ (fun o k => ?_) (by simp [Expr.lets, exA, exB, exC]))
      have := (usesOp_chain _ _).1 k
      simp only [Expr.chainOperators, Expr.chainOperands, exA, exB, exC, List.mem_cons, List.not_mem_nil, or_false] at this
      rcases this with (rfl | rfl) | ⟨x, rfl | rfl | rfl, hx⟩
      · exact hp
      · exact hc
      all_goals cases hx
    refine ⟨fun p => ∃ o, S o ∧ (m.get o).prec = p ∧ (m.get o).assoc = .left, fun o ho => ?_⟩
    cases ha : (m.get o).assoc with
    | left => exact .inl ⟨ha, o, ho, rfl, ha⟩
    | right =>
      refine .inr ⟨ha, ?_⟩
      rintro ⟨q, hq, h1, h2⟩
      exact key q o hq ho ⟨h1, by simp [ha], by simp [h2]⟩
    | neither => exact absurd ⟨rfl, by simp [ha], by simp [ha]⟩ (key o o ho ho)

section
variable [CharTables] [LawfulTables]

/-- **C196** for inputs with declarations, whatever has happened before: nothing is reported, and it stays so for the
inputs that follow in these operators. -/
theorem C196_input (w : World) {s : Session} {log : List Event} (hh : History s log) {line src : Text}
    (hc : Completes s line src) {ast : Ast} {l : Lexer} (hp : parse src = .ok ast l) {side : Nat → Prop}
    {S : Infix → Prop} (hs : ∀ o, S o → (s.resolver.fixities.get o).OneSided side)
    (hu : ∀ e ∈ ast.exprs, ∀ o, UsesOp o e → S o) (hd : ∀ d ∈ ast.allDecls, d.fixity.OneSided side) :
    ∃ s' out, step w s line = .ok (true, s', out) ∧ (∀ t, .err t ∉ out) ∧
      ∀ o, S o → (s'.resolver.fixities.get o).OneSided side := by
  obtain ⟨s', xs, es, fx, a1, a2, -, rfl⟩ := input_becomes w hh hc hp
  have h0 : ∀ (ds : List InfixDecl) (fx : Env), (∀ o, S o → (fx o).OneSided side) →
      (∀ d ∈ ds, d.fixity.OneSided side) → ∀ o, S o → ((innermost fx ds) o).OneSided side := by
    intro ds fx h1 h2 o ho
    unfold innermost
    split
    · next d k => exact h2 d (List.mem_reverse.1 (List.mem_of_find?_eq_some k))
    · exact h1 o ho
  obtain ⟨rfl, b⟩ := BecomeAll.side a1 (h0 _ _ hs fun d k => hd d (List.mem_append_left _ k)) hu
    fun x hx d k => hd d (List.mem_append_right _ (mem_letsList.2 ⟨x, hx, k⟩))
  refine ⟨s', _, a2, ?_, b⟩
  intro t ht
  unfold answer at ht
  split at ht <;> simp_all [firstOfEach]

end

theorem get_side {side : Nat → Prop} {m : Fixities} (h : ∀ x ∈ m, x.2.OneSided side)
    (hd : Fixity.dflt.OneSided side) (o : Infix) : (m.get o).OneSided side := by
  unfold Fixities.get
  induction m with
  | nil => exact hd
  | cons x m ih =>
    obtain ⟨k, v⟩ := x
    unfold Fixities.getDefined
    split
    · exact h _ List.mem_cons_self
    · exact ih fun y hy => h y (List.mem_cons_of_mem _ hy)

/-- **C196** for the tables the program brings along: without any fixities and with those of `:load --math` every
expression without `let`s is accepted; with those of `:load --prelude` it is not so. -/
theorem C196_loaded (e : Expr) (hl : e.lets = []) :
    Fixities.Accepts [] e ∧ Fixities.Accepts (loadArithmetic ⟨[], []⟩).2.fixities e ∧
      ¬ Fixities.Accepts (loadHsPrelude ⟨[], []⟩).2.fixities (.bin exA opEq (.bin exB opEq exC)) := by
  have hm : (loadArithmetic ⟨[], []⟩).2.fixities.Wf := by unfold Fixities.Wf; decide
  have hp : (loadHsPrelude ⟨[], []⟩).2.fixities.Wf := by unfold Fixities.Wf; decide
  refine ⟨C196_accepted (side := fun _ => True) (by unfold Fixities.Wf; decide) (fun o _ => get_side (by simp) (.inl ⟨rfl, trivial⟩) o)
      (by simp [hl]), C196_accepted (side := fun p => p ≠ 8) hm (fun o _ => get_side ?_ (.inl ⟨rfl, by decide⟩) o)
      (by simp [hl]), pair_refused hp ?_⟩
  · unfold Fixity.OneSided
    decide
  · unfold Clash
    decide

/-! ### concrete cases -/

/-- C196: `(let infixr 8 == in a == b == c) * d + a` under a table in which `==` does not associate. -/
example : ∃ (e : Expr) (side : Nat → Prop), e.lets ≠ [] ∧ (∀ d ∈ e.lets, d.fixity.OneSided side) ∧
    (exTable.get opPlus).OneSided side ∧ (exTable.get opMul).OneSided side ∧ exTable.Wf :=
  ⟨.bin (.grp (.let_ ⟨[opEq], ⟨8, .right⟩⟩ (.bin exA opEq (.bin exB opEq exC)))) opMul (.bin exD opPlus exA),
    fun p => p ≠ 8, by simp [Expr.lets], by simp [Expr.lets, Fixity.OneSided, exA, exB, exC, exD],
    by unfold Fixity.OneSided; decide, by unfold Fixity.OneSided; decide, by unfold Fixities.Wf; decide⟩

/-- C196: operators that are all right, or all left. -/
example : (∃ side : Nat → Prop, ∀ o, (o = opPlus ∨ o = opPow) → (exTable.get o).OneSided side) ∧
    ¬ ∃ side : Nat → Prop, ∀ o, o = opEq → (exTable.get o).OneSided side := by
  refine ⟨⟨fun p => p ≠ 8, ?_⟩, ?_⟩
  · rintro o (rfl | rfl) <;> (unfold Fixity.OneSided; decide)
  · rintro ⟨side, h⟩
    rcases h opEq rfl with ⟨h, -⟩ | ⟨h, -⟩ <;> exact absurd h (by decide)

section
attribute [local instance] asciiTables asciiTables_lawful

/-- C196: on the screen; with two sides at one precedence it is refused. -/
example : exShown [t!"infixl 6 -, +; infixr 7 ^", t!"a - b + c ^ d ^ e"] =
    some [t!"  (a - b) + (c ^ (d ^ e))\n"] ∧
    exShown [t!"infixl 6 -; infixr 6 +", t!"a - b + c"] ≠ some [t!"  (a - b) + c\n"] := by
  decide +kernel

end
end Pemdas
