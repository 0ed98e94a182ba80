import Verif.Lemmas.Chains
import Verif.Props.Grouping
/-
C82–C86: operator chains as a whole.
-/
namespace Pemdas
open OpTree

/-- **C82** Where the parentheses go depends on the operators of the chain only, whatever its
operands are; and so do the errors. -/
theorem C82_operands_irrelevant (m : Fixities) (e e' : Expr)
    (h : e.chainOperators = e'.chainOperators) :
    (∃ err, m.rewrite e = .ok (.error err) ∧ m.rewrite e' = .ok (.error err)) ∨
    (∃ t t' : OpTree, m.rewrite e = .ok (.ok t.toExpr) ∧ m.rewrite e' = .ok (.ok t'.toExpr) ∧
      IsGrouping e t ∧ IsGrouping e' t' ∧ t.shape = t'.shape) := by
  rw [Expr.chainOperators_eq, Expr.chainOperators_eq] at h
  simp only [rewrite_eq]
  rcases machine_shape m.get (st := []) (st' := []) (c := .leaf e.chainFirst)
      (c' := .leaf e'.chainFirst) rfl rfl h with ⟨err, h1, h2⟩ | ⟨t, t', h1, h2, h3⟩
  · rw [h1, h2]; exact .inl ⟨err, rfl, rfl⟩
  · rw [h1, h2]
    refine .inr ⟨t, t', rfl, rfl, ?_, ?_, h3⟩
    · rw [isGrouping_iff]; exact machine_order h1
    · rw [isGrouping_iff]; exact machine_order h2

/-- `1 * (2) ^ [] + c`. -/
def exChain' : Expr := .bin (.lit (.int 1)) opMul (.bin (.grp (.lit (.int 2))) opPow
  (.bin (.list []) opPlus exC))

example : exChain.chainOperators = exChain'.chainOperators ∧ exChain ≠ exChain' := by decide

/-- **C83** Reading the chain backwards with left- and right-associativity exchanged gives the
mirror image of the grouping. -/
theorem C83_mirror (m m' : Fixities) (e e' x : Expr)
    (hd : e'.chainOperands = e.chainOperands.reverse)
    (ho : e'.chainOperators = e.chainOperators.reverse)
    (hm : ∀ o ∈ e.chainOperators, m'.get o = (m.get o).mirror)
    (h : m.rewrite e = .ok (.ok x)) :
    ∃ t : OpTree, t.toExpr = x ∧ IsGrouping e t ∧ m'.rewrite e' = .ok (.ok t.mirror.toExpr) := by
  obtain ⟨t, rfl, hg, hw⟩ := C01_grouping_sound m e x h
  refine ⟨t, rfl, hg, C02_grouping_complete m' e' t.mirror ⟨?_, ?_⟩ (mirror_wellGrouped ?_ hw)⟩
  · rw [mirror_operands, hg.1, hd]
  · rw [mirror_operators, hg.2, ho]
  · rw [hg.2]; exact hm

/-- **C83** ... and the chain read backwards is ambiguous iff the chain is. -/
theorem C83_mirror_error (m m' : Fixities) (e e' : Expr)
    (hd : e'.chainOperands = e.chainOperands.reverse)
    (ho : e'.chainOperators = e.chainOperators.reverse)
    (hm : ∀ o ∈ e.chainOperators, m'.get o = (m.get o).mirror) :
    (∃ err, m.rewrite e = .ok (.error err)) ↔ ∃ err, m'.rewrite e' = .ok (.error err) := by
  rw [C03_error_iff_no_grouping, C03_error_iff_no_grouping]
  refine not_congr ⟨?_, ?_⟩
  · rintro ⟨t, hg, hw⟩
    exact ⟨t.mirror, ⟨by rw [mirror_operands, hg.1, hd], by rw [mirror_operators, hg.2, ho]⟩,
      mirror_wellGrouped (by rw [hg.2]; exact hm) hw⟩
  · rintro ⟨t, hg, hw⟩
    refine ⟨t.mirror, ⟨?_, ?_⟩, mirror_wellGrouped ?_ hw⟩
    · rw [mirror_operands, hg.1, hd, List.reverse_reverse]
    · rw [mirror_operators, hg.2, ho, List.reverse_reverse]
    · rw [hg.2, ho]
      intro o h
      rw [hm o (by simpa using h)]
      obtain ⟨p, a⟩ := m.get o
      cases a <;> rfl

/-- `d + c ^ b * a`: `exChain` read backwards. -/
def exChainBack : Expr := .bin exD opPlus (.bin exC opPow (.bin exB opMul exA))

example :
    let m' : Fixities := exTable.map fun x => (x.1, x.2.mirror)
    exChainBack.chainOperands = exChain.chainOperands.reverse ∧
    exChainBack.chainOperators = exChain.chainOperators.reverse ∧
    (∀ o ∈ exChain.chainOperators, m'.get o = (exTable.get o).mirror) ∧
    m'.rewrite exChainBack = .ok (.ok exTree.mirror.toExpr) := by decide

/-- **C84** An operator that may stand above all operators on both sides of it (for instance one
that binds looser than all of them) is the outermost one, and both sides are grouped as they would
be on their own. -/
theorem C84_loosest_splits (m : Fixities) (l r : Expr) (op : Infix)
    (hl : ∀ o ∈ l.chainOperators, LeftOk (m.get o) (m.get op))
    (hr : ∀ o ∈ r.chainOperators, RightOk (m.get o) (m.get op)) (x : Expr) :
    m.rewrite (l.joinChain op r) = .ok (.ok x) ↔
      ∃ l' r', m.rewrite l = .ok (.ok l') ∧ m.rewrite r = .ok (.ok r') ∧ x = .bin l' op r' := by
  have fwd : ∀ l' r', m.rewrite l = .ok (.ok l') → m.rewrite r = .ok (.ok r') →
      m.rewrite (l.joinChain op r) = .ok (.ok (.bin l' op r')) := by
    intro l' r' h1 h2
    obtain ⟨t₁, rfl, g1, w1⟩ := C01_grouping_sound m l l' h1
    obtain ⟨t₂, rfl, g2, w2⟩ := C01_grouping_sound m r r' h2
    refine C02_grouping_complete m _ (.node t₁ op t₂) ⟨?_, ?_⟩ ⟨w1, w2, ?_, ?_⟩
    · rw [Expr.joinChain_operands, ← g1.1, ← g2.1]; rfl
    · rw [Expr.joinChain_operators, ← g1.2, ← g2.2]; rfl
    · intro o ho; exact hl o (by rw [← g1.2]; exact root_mem ho)
    · intro o ho; exact hr o (by rw [← g2.2]; exact root_mem ho)
  have tot : ∀ e : Expr, (∃ y, m.rewrite e = .ok (.ok y)) ∨ ∃ err, m.rewrite e = .ok (.error err) := by
    intro e
    cases h : m.rewrite e with
    | error p => exact absurd h (C04_rewrite_never_panics m e p)
    | ok y => cases y with
      | ok y => exact .inl ⟨y, rfl⟩
      | error y => exact .inr ⟨y, rfl⟩
  constructor
  · intro h
    have ok : ¬ ∃ err, m.rewrite (l.joinChain op r) = .ok (.error err) := by
      rintro ⟨err, he⟩; rw [h] at he; simp at he
    rw [C03_error_iff_clash, Expr.joinChain_operators] at ok
    rcases tot l with ⟨l', h1⟩ | he
    · rcases tot r with ⟨r', h2⟩ | he
      · have := fwd l' r' h1 h2
        rw [h] at this
        exact ⟨l', r', h1, h2, by simpa using this⟩
      · obtain ⟨p, c, pre, mid, post, h1, h2⟩ := (C03_error_iff_clash m r).1 he
        exact absurd ⟨p, c, l.chainOperators ++ op :: pre, mid, post, by rw [h1]; simp, h2⟩ ok
    · obtain ⟨p, c, pre, mid, post, h1, h2⟩ := (C03_error_iff_clash m l).1 he
      exact absurd ⟨p, c, pre, mid, post ++ op :: r.chainOperators, by rw [h1]; simp, h2⟩ ok
  · rintro ⟨l', r', h1, h2, rfl⟩
    exact fwd l' r' h1 h2

/-- **C84** In particular an operator that binds strictly looser than all others splits the chain,
and the chain is ambiguous iff one of its sides is. -/
theorem C84_loosest_error (m : Fixities) (l r : Expr) (op : Infix)
    (h : ∀ o ∈ l.chainOperators ++ r.chainOperators, (m.get op).prec < (m.get o).prec) :
    (∃ err, m.rewrite (l.joinChain op r) = .ok (.error err)) ↔
      (∃ err, m.rewrite l = .ok (.error err)) ∨ ∃ err, m.rewrite r = .ok (.error err) := by
  have hs := C84_loosest_splits m l r op (fun o ho => .inl (h o (by simp [ho])))
    (fun o ho => .inl (h o (by simp [ho])))
  have tot : ∀ e : Expr, (∃ err, m.rewrite e = .ok (.error err)) ↔
      ¬ ∃ y, m.rewrite e = .ok (.ok y) := by
    intro e
    cases h : m.rewrite e with
    | error p => exact absurd h (C04_rewrite_never_panics m e p)
    | ok y => cases y <;> simp
  rw [tot, tot, tot]
  constructor
  · intro hn
    refine Classical.byContradiction fun hc => ?_
    rw [not_or, Classical.not_not, Classical.not_not] at hc
    obtain ⟨⟨l', h1⟩, r', h2⟩ := hc
    exact hn ⟨_, (hs _).2 ⟨l', r', h1, h2, rfl⟩⟩
  · rintro hn ⟨x, hx⟩
    obtain ⟨l', r', h1, h2, -⟩ := (hs x).1 hx
    rcases hn with hn | hn
    · exact hn ⟨l', h1⟩
    · exact hn ⟨r', h2⟩

example : (Expr.bin exA opMul (.bin exB opPow exC)).joinChain opPlus exD = exChain ∧
    ∀ o ∈ (Expr.bin exA opMul (.bin exB opPow exC)).chainOperators ++ exD.chainOperators,
      (exTable.get opPlus).prec < (exTable.get o).prec := by decide

/-- **C85** A chain of left-associative operators of one precedence nests to the left, however long
it is. -/
theorem C85_left_chain (m : Fixities) (p : Nat) (a : Expr) (rest : List (Infix × Expr))
    (hl : ∀ x, (a :: rest.map (·.2)).getLast? = some x → x.NonBin)
    (h : ∀ x ∈ rest, m.get x.1 = ⟨p, .left⟩) :
    m.rewrite (.ofChain a rest) = .ok (.ok (.nestLeft a rest)) := by
  have hc := Expr.ofChain_chain a rest hl
  have ht := leftTree_spec (.leaf a) rest
  have := C02_grouping_complete m (.ofChain a rest) (leftTree (.leaf a) rest)
    ⟨by rw [ht.2.1, hc.1]; rfl, by rw [ht.2.2, hc.2]; rfl⟩
    (leftTree_wellGrouped m.get p _ rest trivial (by intro o ho; simp [root] at ho) h)
  rw [this, ht.1]; rfl

/-- **C85** A chain of right-associative operators of one precedence nests to the right. -/
theorem C85_right_chain (m : Fixities) (p : Nat) (a : Expr) (rest : List (Infix × Expr))
    (hl : ∀ x, (a :: rest.map (·.2)).getLast? = some x → x.NonBin)
    (h : ∀ x ∈ rest, m.get x.1 = ⟨p, .right⟩) :
    m.rewrite (.ofChain a rest) = .ok (.ok (.ofChain a rest)) := by
  have hc := Expr.ofChain_chain a rest hl
  have ht := rightTree_spec a rest
  have := C02_grouping_complete m (.ofChain a rest) (rightTree a rest)
    ⟨by rw [ht.2.1, hc.1], by rw [ht.2.2, hc.2]⟩ (rightTree_wellGrouped m.get p _ rest h)
  rw [this, ht.1]

/-- **C85** A chain that uses a non-associative operator next to another operator of its precedence
is rejected, whatever else it contains. -/
theorem C85_neither_chain (m : Fixities) (e : Expr) (pre post : List Infix) (p c : Infix)
    (ho : e.chainOperators = pre ++ p :: c :: post) (hp : (m.get p).prec = (m.get c).prec)
    (hn : (m.get p).assoc = .neither ∨ (m.get c).assoc = .neither) :
    ∃ err, m.rewrite e = .ok (.error err) := by
  rw [C03_error_iff_clash]
  refine ⟨p, c, pre, [], post, ho, ⟨hp, ?_, ?_⟩, by simp⟩
  · rintro ⟨h1, h2⟩; rcases hn with h | h <;> simp_all
  · rintro ⟨h1, h2⟩; rcases hn with h | h <;> simp_all

example : exTable.rewrite (.ofChain exA [(opPlus, exB), (opPlus, exC), (opPlus, exD)]) =
    .ok (.ok (.bin (.bin (.bin exA opPlus exB) opPlus exC) opPlus exD)) := by decide
example : (∀ x, (exA :: [(opPow, exB), (opPow, exC)].map (·.2)).getLast? = some x → x.NonBin) ∧
    ∀ x ∈ [(opPow, exB), (opPow, exC)], exTable.get x.1 = ⟨8, .right⟩ := by
  refine ⟨?_, by decide⟩
  intro x hx
  simp only [List.map_cons, List.map_nil, List.getLast?_cons_cons, List.getLast?_singleton,
    Option.some.injEq] at hx
  subst hx; rfl
example : (Expr.bin exA opPlus (.bin exB opEq (.bin exC opEq exD))).chainOperators =
    [opPlus] ++ opEq :: opEq :: [] := rfl

/-! ### C86 -/

theorem rewrite_single (m : Fixities) (l r : Expr) (op : Infix) (hr : r.NonBin) :
    m.rewrite (.bin l op r) = .ok (.ok (.bin l op r)) := by
  have hc := Expr.chain_nonBin hr
  have := C02_grouping_complete m (.bin l op r) (.node (.leaf l) op (.leaf r))
    ⟨by simp [operands, Expr.chainOperands, hc.1], by simp [operators, Expr.chainOperators, hc.2]⟩
    ⟨trivial, trivial, by intro o ho; simp [root] at ho, by intro o ho; simp [root] at ho⟩
  exact this

namespace Resolver

mutual
/-- **C86** If every infix expression inside another one is in parentheses, then resolving changes
nothing and reports nothing, whatever the fixities are. -/
theorem C86_parentheses_override (r : Resolver) : ∀ e : Expr, e.Parenthesised →
    ∃ m, visit r e = .ok (⟨m, r.errors⟩, e)
  | .lit l, _ => ⟨r.fixities, by rw [visit_eq]; rfl⟩
  | .var i, _ => ⟨r.fixities, by rw [visit_eq]; rfl⟩
  | .app f x, h => by
    obtain ⟨m₁, h1⟩ := C86_parentheses_override r f h.1
    obtain ⟨m₂, h2⟩ := C86_parentheses_override ⟨m₁, r.errors⟩ x h.2
    exact ⟨m₂, by rw [visit_eq]; simp [walkExpr, bind, Except.bind, h1, h2]⟩
  | .bin l op x, h => by
    obtain ⟨m₁, h1⟩ := C86_parentheses_override r l h.2.2.1
    obtain ⟨m₂, h2⟩ := C86_parentheses_override ⟨m₁, r.errors⟩ x h.2.2.2
    refine ⟨m₂, ?_⟩
    rw [visit_eq]
    simp [rewrite_single _ l x op h.2.1, walkExpr, bind, Except.bind, h1, h2]
  | .lam p b, h => by
    obtain ⟨m₁, h1⟩ := C86_parentheses_override r b h
    exact ⟨m₁, by rw [visit_eq]; simp [walkExpr, bind, Except.bind, h1]⟩
  | .grp b, h => by
    obtain ⟨m₁, h1⟩ := C86_parentheses_override r b h
    exact ⟨m₁, by rw [visit_eq]; simp [walkExpr, bind, Except.bind, h1]⟩
  | .neg b, h => by
    obtain ⟨m₁, h1⟩ := C86_parentheses_override r b h
    exact ⟨m₁, by rw [visit_eq]; simp [walkExpr, bind, Except.bind, h1]⟩
  | .tup es, h => by
    obtain ⟨m₁, h1⟩ := C86_list r es h
    exact ⟨m₁, by rw [visit_eq]; simp [walkExpr, bind, Except.bind, h1]⟩
  | .list es, h => by
    obtain ⟨m₁, h1⟩ := C86_list r es h
    exact ⟨m₁, by rw [visit_eq]; simp [walkExpr, bind, Except.bind, h1]⟩
  | .let_ d b, h => by
    obtain ⟨m₁, h1⟩ := C86_parentheses_override
      { r with fixities := (insertLocal d.fixity d.infixes r.fixities).2 } b h
    exact ⟨_, by rw [visit_eq]; simp only [bind, Except.bind, h1]; rfl⟩
/-- **C86** for the elements of a list. -/
theorem C86_list (r : Resolver) : ∀ es : List Expr, Expr.ParenthesisedList es →
    ∃ m, walkList visit r es = .ok (⟨m, r.errors⟩, es)
  | [], _ => ⟨r.fixities, rfl⟩
  | e :: es, h => by
    obtain ⟨m₁, h1⟩ := C86_parentheses_override r e h.1
    obtain ⟨m₂, h2⟩ := C86_list ⟨m₁, r.errors⟩ es h.2
    exact ⟨m₂, by simp [walkList, bind, Except.bind, h1, h2]⟩
end

/-- `(a == b) == (c == d)`, which would be rejected without the parentheses. -/
def exParens : Expr := .bin (.grp (.bin exA opEq exB)) opEq (.grp (.bin exC opEq exD))

example : exParens.Parenthesised := by
  simp [exParens, Expr.Parenthesised, Expr.NonBin, Expr.rootOp, exA, exB, exC, exD]

end Resolver
end Pemdas
