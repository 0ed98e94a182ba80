import Verif.Spec.Relet
import Verif.Spec.Drawn
import Verif.Lemmas.Becomes
/-
Lemmas for C188.
-/
namespace Pemdas
open OpTree Resolver

/-! ### fixities -/

theorem extend_of (fx : Env) (d : InfixDecl) (op : Infix) :
    fx.extend d op = if op.symbol ∈ d.infixes.map Infix.symbol then d.fixity else fx op := rfl

theorem afterLet_of {fx fx' : Env} {d : InfixDecl} (h : (d.infixes.map Infix.symbol).Nodup) (op : Infix) :
    fx.afterLet d fx' op = if op.symbol ∈ d.infixes.map Infix.symbol then fx op else fx' op := by
  unfold Env.afterLet InfixDecl.times
  by_cases h1 : op.symbol ∈ d.infixes.map Infix.symbol
  · have : (d.infixes.map Infix.symbol).count op.symbol = 1 :=
      Nat.le_antisymm (List.nodup_iff_count.1 h _) (List.count_pos_iff.2 h1)
    rw [this, if_pos h1]
    rfl
  · rw [List.count_eq_zero.2 h1, if_neg h1]
    rfl

theorem extend_same {d d' : InfixDecl} (h : d.Same d') (fx : Env) : fx.extend d = fx.extend d' := by
  funext op
  rw [extend_of, extend_of, h.1]
  by_cases h1 : op.symbol ∈ d.infixes.map Infix.symbol
  · rw [if_pos h1, if_pos (h.2.1 _ h1)]
  · rw [if_neg h1, if_neg fun h2 => h1 (h.2.2 _ h2)]

theorem afterLet_same {d d' : InfixDecl} (h : d.Same d') (hd : (d.infixes.map Infix.symbol).Nodup)
    (hd' : (d'.infixes.map Infix.symbol).Nodup) (fx fx' : Env) : fx.afterLet d fx' = fx.afterLet d' fx' := by
  funext op
  rw [afterLet_of hd, afterLet_of hd']
  by_cases h1 : op.symbol ∈ d.infixes.map Infix.symbol
  · rw [if_pos h1, if_pos (h.2.1 _ h1)]
  · rw [if_neg h1, if_neg fun h2 => h1 (h.2.2 _ h2)]

theorem extend_swap {d d' : InfixDecl} (h : d.Disjoint d') (fx : Env) :
    (fx.extend d).extend d' = (fx.extend d').extend d := by
  funext op
  rw [extend_of, extend_of, extend_of, extend_of]
  by_cases h1 : op.symbol ∈ d.infixes.map Infix.symbol
  · simp [h1, h _ h1]
  · simp [h1]

theorem afterLet_swap {d d' : InfixDecl} (h : d.Disjoint d') (hd : (d.infixes.map Infix.symbol).Nodup)
    (hd' : (d'.infixes.map Infix.symbol).Nodup) (fx fx' : Env) :
    fx.afterLet d ((fx.extend d).afterLet d' fx') = fx.afterLet d' ((fx.extend d').afterLet d fx') := by
  funext op
  rw [afterLet_of hd, afterLet_of hd', afterLet_of hd', afterLet_of hd, extend_of, extend_of]
  by_cases h1 : op.symbol ∈ d.infixes.map Infix.symbol
  · simp [h1, h _ h1]
  · simp [h1]

theorem extend_within {d d' : InfixDecl} (h : d.Within d') (fx : Env) : (fx.extend d).extend d' = fx.extend d' := by
  funext op
  rw [extend_of, extend_of, extend_of]
  by_cases h1 : op.symbol ∈ d'.infixes.map Infix.symbol
  · simp [h1]
  · rw [if_neg h1, if_neg h1, if_neg fun h2 => h1 (h _ h2)]

theorem afterLet_within {d d' : InfixDecl} (h : d.Within d') (hd : (d.infixes.map Infix.symbol).Nodup)
    (hd' : (d'.infixes.map Infix.symbol).Nodup) (fx fx' : Env) :
    fx.afterLet d ((fx.extend d).afterLet d' fx') = fx.afterLet d' fx' := by
  funext op
  rw [afterLet_of hd, afterLet_of hd', afterLet_of hd', extend_of]
  by_cases h1 : op.symbol ∈ d'.infixes.map Infix.symbol
  · by_cases h2 : op.symbol ∈ d.infixes.map Infix.symbol
    · simp [h1, h2]
    · simp [h1, h2]
  · rw [if_neg fun h2 => h1 (h _ h2), if_neg h1, if_neg h1]

/-! ### chains -/

theorem AllRelet.append {xs xs' ys ys' : List Expr} (h : AllRelet xs xs') (h' : AllRelet ys ys') :
    AllRelet (xs ++ ys) (xs' ++ ys') := by
  induction xs generalizing xs' with
  | nil => cases h; exact h'
  | cons x xs ih => cases h with | cons a b => exact .cons a (ih b)

theorem AllRelet.split : ∀ {xs ys zs : List Expr}, AllRelet (xs ++ ys) zs →
    ∃ xs' ys', zs = xs' ++ ys' ∧ AllRelet xs xs' ∧ AllRelet ys ys'
  | [], _, zs, h => ⟨[], zs, rfl, .nil, h⟩
  | x :: xs, ys, _, h => by
    cases h with
    | @cons _ x' _ _ a b =>
      obtain ⟨xs', ys', rfl, h1, h2⟩ := AllRelet.split b
      exact ⟨x' :: xs', ys', rfl, .cons a h1, h2⟩

theorem Expr.Relet.chain {e e' : Expr} (h : e.Relet e') :
    e'.chainOperators = e.chainOperators ∧ AllRelet e.chainOperands e'.chainOperands := by
  fun_induction Expr.chainOperators e generalizing e' with
  | case1 l op r ih =>
    cases h with
    | bin hl hr =>
      simp only [Expr.chainOperators, Expr.chainOperands, ih hr]
      exact ⟨trivial, .cons hl (ih hr).2⟩
  | case2 e hb =>
    have h1 : e.chainOperands = [e] := by
      cases e with
      | bin l op r => exact absurd rfl (hb l op r)
      | _ => rfl
    have h2 : e'.chainOperands = [e'] ∧ e'.chainOperators = [] := by
      cases h with
      | bin hl hr => exact absurd rfl (hb _ _ _)
      | _ => exact ⟨rfl, rfl⟩
    rw [h1, h2.1, h2.2]
    exact ⟨rfl, .cons h .nil⟩

theorem OpTree.relet : ∀ (t : OpTree) {ys : List Expr}, AllRelet t.operands ys →
    ∃ t' : OpTree, t'.operands = ys ∧ t'.operators = t.operators ∧ t'.root = t.root ∧ t.toExpr.Relet t'.toExpr ∧
      ∀ fx, t.WellGrouped fx → t'.WellGrouped fx
  | .leaf e, ys, h => by
    cases h with
    | @cons _ y _ _ a b =>
      cases b
      exact ⟨.leaf y, rfl, rfl, rfl, a, fun _ _ => trivial⟩
  | .node l op r, ys, h => by
    obtain ⟨xs, zs, rfl, h1, h2⟩ := AllRelet.split (xs := l.operands) (ys := r.operands) h
    obtain ⟨l', a1, a2, a3, a4, a5⟩ := OpTree.relet l h1
    obtain ⟨r', b1, b2, b3, b4, b5⟩ := OpTree.relet r h2
    refine ⟨.node l' op r', by rw [operands, a1, b1], by rw [operators, operators, a2, b2], rfl, .bin a4 b4, ?_⟩
    intro fx w
    exact ⟨a5 fx w.1, b5 fx w.2.1, by rw [a3]; exact w.2.2.1, by rw [b3]; exact w.2.2.2⟩

/-! ### resolving -/

mutual
theorem Becomes.relet : ∀ {fx : Env} {e g : Expr} {es : List AssocError} {fx' : Env} {e' : Expr},
    Becomes fx e g es fx' → e.Relet e' → e.LetsDistinct → e'.LetsDistinct →
    ∃ g', Becomes fx e' g' es fx' ∧ g.Relet g'
  | _, _, _, _, _, _, .lit, h, _, _ => by cases h; exact ⟨_, .lit, .lit⟩
  | _, _, _, _, _, _, .var, h, _, _ => by cases h; exact ⟨_, .var, .var⟩
  | _, _, _, _, _, _, .app a b, h, d, d' => by
    cases h with
    | app h1 h2 =>
      obtain ⟨g, b1, r1⟩ := a.relet h1 d.1 d'.1
      obtain ⟨g', b2, r2⟩ := b.relet h2 d.2 d'.2
      exact ⟨_, .app b1 b2, .app r1 r2⟩
  | _, _, _, _, _, _, .lam a, h, d, d' => by
    cases h with
    | lam h1 => obtain ⟨g, b1, r1⟩ := a.relet h1 d d'; exact ⟨_, .lam b1, .lam r1⟩
  | _, _, _, _, _, _, .grp a, h, d, d' => by
    cases h with
    | grp h1 => obtain ⟨g, b1, r1⟩ := a.relet h1 d d'; exact ⟨_, .grp b1, .grp r1⟩
  | _, _, _, _, _, _, .neg a, h, d, d' => by
    cases h with
    | neg h1 => obtain ⟨g, b1, r1⟩ := a.relet h1 d d'; exact ⟨_, .neg b1, .neg r1⟩
  | _, _, _, _, _, _, .tup a, h, d, d' => by
    cases h with
    | tup h1 => obtain ⟨g, b1, r1⟩ := a.relet h1 d d'; exact ⟨_, .tup b1, .tup r1⟩
  | _, _, _, _, _, _, .list a, h, d, d' => by
    cases h with
    | list h1 => obtain ⟨g, b1, r1⟩ := a.relet h1 d d'; exact ⟨_, .list b1, .list r1⟩
  | fx, .let_ d₁ b, _, _, _, e', .let_ (fx' := fx') a, h, d, d' => by
    cases h with
    | same hs hr =>
      obtain ⟨g, b1, r1⟩ := a.relet hr d.2 d'.2
      rw [extend_same hs] at b1
      rw [afterLet_same hs d.1 d'.1]
      exact ⟨_, .let_ b1, .same hs r1⟩
    | swap hs hr =>
      cases a with
      | let_ a =>
        obtain ⟨g, b1, r1⟩ := a.relet hr d.2.2 d'.2.2
        rw [extend_swap hs] at b1
        rw [afterLet_swap hs d.1 d.2.1]
        exact ⟨_, .let_ (.let_ b1), .swap hs r1⟩
    | drop hs hr =>
      cases a with
      | let_ a =>
        obtain ⟨g, b1, r1⟩ := a.relet hr d.2.2 d'.2
        rw [extend_within hs] at b1
        rw [afterLet_within hs d.1 d.2.1]
        exact ⟨_, .let_ b1, .drop hs r1⟩
    | add hs hr =>
      obtain ⟨g, b1, r1⟩ := a.relet hr d.2 d'.2.2
      rw [← extend_within hs] at b1
      rw [← afterLet_within hs d'.1 d'.2.1]
      exact ⟨_, .let_ (.let_ b1), .add hs r1⟩
  | _, .bin l op r, _, _, _, _, .ambiguous c, h, _, _ => by
    have hc := h.chain.1
    cases h with
    | bin h1 h2 => exact ⟨_, .ambiguous (hc ▸ c), .bin h1 h2⟩
  | _, .bin l op r, _, _, _, _, .grouped (s := s) (o := o') (t := t) w o n a b, h, d, d' => by
    obtain ⟨c1, c2⟩ := h.chain
    cases h with
    | @bin _ l' _ _ r' h1 h2 =>
      rw [← n] at c2
      have hd : (OpTree.node s o' t).toExpr.LetsDistinct := by
        rw [letsDistinct_toExpr, n]
        exact (letsDistinct_chain _).1 d
      obtain ⟨xs, zs, e, k1, k2⟩ := AllRelet.split (xs := s.operands) (ys := t.operands) c2
      obtain ⟨s', a1, a2, a3, a4, a5⟩ := s.relet k1
      obtain ⟨t', b1, b2, b3, b4, b5⟩ := t.relet k2
      have hops : (OpTree.node s' o' t').operands = (Expr.bin l' op r').chainOperands := by
        rw [e, operands, a1, b1]
      have hd' : (OpTree.node s' o' t').toExpr.LetsDistinct := by
        rw [letsDistinct_toExpr, hops]
        exact (letsDistinct_chain _).1 d'
      obtain ⟨g, p1, q1⟩ := a.relet a4 hd.1 hd'.1
      obtain ⟨g', p2, q2⟩ := b.relet b4 hd.2 hd'.2
      refine ⟨_, .grouped (s := s') (t := t') ⟨a5 _ w.1, b5 _ w.2.1, by rw [a3]; exact w.2.2.1, by rw [b3]; exact w.2.2.2⟩
        ?_ hops p1 p2, .bin q1 q2⟩
      rw [c1, ← o, operators, operators, a2, b2]
theorem BecomeAll.relet : ∀ {fx : Env} {xs ys : List Expr} {es : List AssocError} {fx' : Env} {xs' : List Expr},
    BecomeAll fx xs ys es fx' → AllRelet xs xs' → Expr.LetsDistinctList xs → Expr.LetsDistinctList xs' →
    ∃ ys', BecomeAll fx xs' ys' es fx' ∧ AllRelet ys ys'
  | _, _, _, _, _, _, .nil, h, _, _ => by cases h; exact ⟨_, .nil, .nil⟩
  | _, _, _, _, _, _, .cons a b, h, d, d' => by
    cases h with
    | cons h1 h2 =>
      obtain ⟨g, b1, r1⟩ := a.relet h1 d.1 d'.1
      obtain ⟨g', b2, r2⟩ := b.relet h2 d.2 d'.2
      exact ⟨_, .cons b1 b2, .cons r1 r2⟩
end

/-! ### what is shown -/

mutual
theorem Expr.Relet.noNeg : ∀ {e e' : Expr}, e.Relet e' → (e'.NoNeg ↔ e.NoNeg)
  | _, _, .lit => Iff.rfl
  | _, _, .var => Iff.rfl
  | _, _, .app h h' => and_congr h.noNeg h'.noNeg
  | _, _, .bin h h' => and_congr h.noNeg h'.noNeg
  | _, _, .lam h => h.noNeg
  | _, _, .grp h => h.noNeg
  | _, _, .neg _ => Iff.rfl
  | _, _, .tup h => h.noNeg
  | _, _, .list h => h.noNeg
  | _, _, .same _ h => h.noNeg
  | _, _, .swap _ h => h.noNeg
  | _, _, .drop _ h => h.noNeg
  | _, _, .add _ h => h.noNeg
theorem AllRelet.noNeg : ∀ {xs xs' : List Expr}, AllRelet xs xs' → (Expr.NoNegList xs' ↔ Expr.NoNegList xs)
  | _, _, .nil => Iff.rfl
  | _, _, .cons h h' => and_congr h.noNeg h'.noNeg
end

theorem Expr.Relet.closed {e e' : Expr} (h : e.Relet e') : e'.closed = e.closed := by
  cases h <;> rfl

section
variable [CharTables]

mutual
theorem Expr.Relet.parts : ∀ {e e' : Expr}, e.Relet e' → ∀ d, e'.parts d = e.parts d
  | _, _, .lit, _ => rfl
  | _, _, .var, _ => rfl
  | _, _, .app h h', d => by simp [Expr.parts, h.parts, h'.parts]
  | _, _, .bin h h', d => by simp [Expr.parts, h.parts, h'.parts, h.closed, h'.closed]
  | _, _, .lam h, d => by simp [Expr.parts, h.parts]
  | _, _, .grp h, d => by simp [Expr.parts, h.parts]
  | _, _, .neg _, d => by simp [Expr.parts]
  | _, _, .tup h, d => by simp [Expr.parts, h.drawn]
  | _, _, .list h, d => by simp [Expr.parts, h.drawn]
  | _, _, .same _ h, d => by simp [Expr.parts, h.parts]
  | _, _, .swap _ h, d => by simp [Expr.parts, h.parts]
  | _, _, .drop _ h, d => by simp [Expr.parts, h.parts, lambda]
  | _, _, .add _ h, d => by simp [Expr.parts, h.parts, lambda]
theorem AllRelet.drawn : ∀ {xs xs' : List Expr}, AllRelet xs xs' → Expr.drawnList xs' = Expr.drawnList xs
  | _, _, .nil => rfl
  | _, _, .cons h h' => by simp [Expr.drawnList, h.parts, h'.drawn]
end

end
end Pemdas
