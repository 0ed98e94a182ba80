import Verif.Spec.Apart
import Verif.Spec.Drawn
import Verif.Lemmas.Becomes
/-
Lemmas for C186.
-/
namespace Pemdas
open OpTree Resolver

/-! ### declarations -/

theorem loadDecls_cat (m : Fixities) (a b : List InfixDecl) :
    loadDecls m (a ++ b) = loadDecls (loadDecls m a) b := by
  induction a generalizing m with
  | nil => rfl
  | cons d a ih => exact ih _

theorem loadDecls_singly (m : Fixities) (d : InfixDecl) : loadDecls m d.singly = loadDecls m [d] := by
  obtain ⟨ops, f⟩ := d
  induction ops generalizing m with
  | nil => rfl
  | cons o ops ih => exact ih _

theorem loadDecls_flat (m : Fixities) (ds : List InfixDecl) :
    loadDecls m (ds.flatMap InfixDecl.singly) = loadDecls m ds := by
  induction ds generalizing m with
  | nil => rfl
  | cons d ds ih => rw [List.flatMap_cons, loadDecls_cat, loadDecls_singly, ih]; rfl

/-! ### `let`s -/

theorem extend_cons (fx : Env) (f : Fixity) (o : Infix) (os : List Infix) :
    (fx.extend ⟨[o], f⟩).extend ⟨os, f⟩ = fx.extend ⟨o :: os, f⟩ := by
  funext op
  by_cases h1 : op.symbol ∈ os.map Infix.symbol <;> by_cases h2 : op.symbol = o.symbol <;>
    simp_all [Env.extend]

theorem afterLet_cons (fx fx' : Env) (f : Fixity) (o : Infix) (os : List Infix)
    (h : ((o :: os).map Infix.symbol).Nodup) :
    fx.afterLet ⟨[o], f⟩ ((fx.extend ⟨[o], f⟩).afterLet ⟨os, f⟩ fx') = fx.afterLet ⟨o :: os, f⟩ fx' := by
  funext op
  simp only [List.map_cons, List.nodup_cons] at h
  by_cases h2 : op.symbol = o.symbol
  · have h0 : (os.map Infix.symbol).count o.symbol = 0 := List.count_eq_zero.2 h.1
    simp [Env.afterLet, InfixDecl.times, h2, h0]
  · have h0 : o.symbol ≠ op.symbol := fun e => h2 e.symm
    by_cases h1 : op.symbol ∈ os.map Infix.symbol
    · have : (os.map Infix.symbol).count op.symbol = 1 :=
        Nat.le_antisymm (List.nodup_iff_count.1 h.2 _) (List.count_pos_iff.2 h1)
      simp [Env.afterLet, InfixDecl.times, h0, h2, this, Env.extend]
    · have : (os.map Infix.symbol).count op.symbol = 0 := List.count_eq_zero.2 h1
      simp [Env.afterLet, InfixDecl.times, h0, this]

theorem letEach_becomes (f : Fixity) : ∀ (os : List Infix) {fx fx' : Env} {b b' : Expr} {es : List AssocError},
    (os.map Infix.symbol).Nodup → Becomes (fx.extend ⟨os, f⟩) b b' es fx' →
    Becomes fx (letEach f os b) (letEach f os b') es (fx.afterLet ⟨os, f⟩ fx')
  | [], _, _, _, _, _, _, h => .let_ h
  | [_], _, _, _, _, _, _, h => .let_ h
  | o :: o' :: os, fx, fx', b, b', es, hn, h => by
    rw [← extend_cons] at h
    have := letEach_becomes f (o' :: os) (List.nodup_cons.1 hn).2 h
    rw [← afterLet_cons _ _ _ _ _ hn]
    exact .let_ this

theorem letEach_rootOp (f : Fixity) (os : List Infix) (b : Expr) : ∃ d b', letEach f os b = .let_ d b' := by
  match os with
  | [] => exact ⟨_, _, rfl⟩
  | [_] => exact ⟨_, _, rfl⟩
  | _ :: _ :: _ => exact ⟨_, _, rfl⟩

/-! ### chains -/

theorem chainOperators_apart (e : Expr) : e.apart.chainOperators = e.chainOperators := by
  fun_induction Expr.chainOperators e with
  | case1 l op r ih => simp [Expr.apart, Expr.chainOperators, ih]
  | case2 e h =>
    cases e with
    | bin l op r => exact absurd rfl (h l op r)
    | let_ d b =>
      obtain ⟨d', b', e⟩ := letEach_rootOp d.fixity d.infixes b.apart
      rw [Expr.apart, e]; rfl
    | _ => simp [Expr.apart, Expr.chainOperators]

theorem chainOperands_apart (e : Expr) : e.apart.chainOperands = e.chainOperands.map Expr.apart := by
  fun_induction Expr.chainOperands e with
  | case1 l op r ih => simp [Expr.apart, Expr.chainOperands, ih]
  | case2 e h =>
    cases e with
    | bin l op r => exact absurd rfl (h l op r)
    | let_ d b =>
      obtain ⟨d', b', e⟩ := letEach_rootOp d.fixity d.infixes b.apart
      simp only [Expr.apart, e, Expr.chainOperands, List.map_cons, List.map_nil]
    | _ => simp [Expr.apart, Expr.chainOperands]

/-- A tree with its operands taken apart. -/
def OpTree.apart : OpTree → OpTree
  | .leaf e => .leaf e.apart
  | .node l op r => .node l.apart op r.apart

theorem OpTree.apart_toExpr (t : OpTree) : t.apart.toExpr = t.toExpr.apart := by
  induction t with
  | leaf e => rfl
  | node l op r ihl ihr => simp [OpTree.apart, toExpr, Expr.apart, ihl, ihr]

theorem OpTree.apart_operands (t : OpTree) : t.apart.operands = t.operands.map Expr.apart := by
  induction t with
  | leaf e => rfl
  | node l op r ihl ihr => simp [OpTree.apart, operands, ihl, ihr]

theorem OpTree.apart_operators (t : OpTree) : t.apart.operators = t.operators := by
  induction t with
  | leaf e => rfl
  | node l op r ihl ihr => simp [OpTree.apart, operators, ihl, ihr]

theorem OpTree.apart_root (t : OpTree) : t.apart.root = t.root := by cases t <;> rfl

theorem OpTree.apart_wellGrouped {fx : Env} {t : OpTree} (h : t.WellGrouped fx) : t.apart.WellGrouped fx := by
  induction t with
  | leaf e => trivial
  | node l op r ihl ihr =>
    exact ⟨ihl h.1, ihr h.2.1, by rw [apart_root]; exact h.2.2.1, by rw [apart_root]; exact h.2.2.2⟩

/-! ### resolving -/

mutual
theorem Becomes.apart : ∀ {fx : Env} {e g : Expr} {es : List AssocError} {fx' : Env},
    Becomes fx e g es fx' → e.LetsDistinct → Becomes fx e.apart g.apart es fx'
  | _, _, _, _, _, .lit, _ => .lit
  | _, _, _, _, _, .var, _ => .var
  | _, _, _, _, _, .app a b, h => .app (a.apart h.1) (b.apart h.2)
  | _, _, _, _, _, .lam a, h => .lam (a.apart h)
  | _, _, _, _, _, .grp a, h => .grp (a.apart h)
  | _, _, _, _, _, .neg a, h => .neg (a.apart h)
  | _, _, _, _, _, .tup a, h => .tup (a.apart h)
  | _, _, _, _, _, .list a, h => .list (a.apart h)
  | _, _, _, _, _, .let_ a, h => letEach_becomes _ _ h.1 (a.apart h.2)
  | _, .bin l op r, _, _, _, .ambiguous c, h => by
    refine .ambiguous ?_
    have := chainOperators_apart (.bin l op r)
    rw [Expr.apart] at this
    rw [this]
    exact c
  | _, .bin l op r, _, _, _, .grouped (s := s) (o := o') (t := t) w o n a b, h => by
    have h1 := chainOperators_apart (.bin l op r)
    have h2 := chainOperands_apart (.bin l op r)
    rw [Expr.apart] at h1 h2
    have hd : (OpTree.node s o' t).toExpr.LetsDistinct := by
      rw [letsDistinct_toExpr, n]
      exact (letsDistinct_chain _).1 h
    have ha := a.apart hd.1
    have hb := b.apart hd.2
    rw [← apart_toExpr] at ha hb
    exact .grouped (s := s.apart) (t := t.apart) (OpTree.apart_wellGrouped (t := .node s o' t) w)
      ((apart_operators (.node s o' t)).trans (o.trans h1.symm))
      ((apart_operands (.node s o' t)).trans (by rw [n, h2])) ha hb
theorem BecomeAll.apart : ∀ {fx : Env} {xs ys : List Expr} {es : List AssocError} {fx' : Env},
    BecomeAll fx xs ys es fx' → Expr.LetsDistinctList xs → BecomeAll fx (Expr.apartList xs) (Expr.apartList ys) es fx'
  | _, _, _, _, _, .nil, _ => .nil
  | _, _, _, _, _, .cons a b, h => .cons (a.apart h.1) (b.apart h.2)
end

/-! ### what is shown -/

theorem letEach_noNeg (f : Fixity) (os : List Infix) (b : Expr) : (letEach f os b).NoNeg ↔ b.NoNeg := by
  fun_induction letEach f os b <;> simp_all [Expr.NoNeg]

mutual
theorem noNeg_apart : ∀ e : Expr, e.apart.NoNeg ↔ e.NoNeg
  | .lit _ => Iff.rfl
  | .var _ => Iff.rfl
  | .app f x => and_congr (noNeg_apart f) (noNeg_apart x)
  | .bin l _ r => and_congr (noNeg_apart l) (noNeg_apart r)
  | .lam _ b => noNeg_apart b
  | .grp b => noNeg_apart b
  | .neg _ => Iff.rfl
  | .tup es => noNegList_apart es
  | .list es => noNegList_apart es
  | .let_ _ b => (letEach_noNeg _ _ _).trans (noNeg_apart b)
theorem noNegList_apart : ∀ es : List Expr, Expr.NoNegList (Expr.apartList es) ↔ Expr.NoNegList es
  | [] => Iff.rfl
  | e :: es => and_congr (noNeg_apart e) (noNegList_apart es)
end

section
variable [CharTables]

theorem letEach_parts (f : Fixity) (os : List Infix) (b : Expr) (d : Nat) :
    (letEach f os b).parts d = ([], lambda d (b.parts d)) := by
  fun_induction letEach f os b with
  | case1 => simp [Expr.parts]
  | case2 => simp [Expr.parts]
  | case3 o os e h ih => simp [Expr.parts, ih, lambda]

omit [CharTables] in
theorem closed_apart (e : Expr) : e.apart.closed = e.closed := by
  cases e with
  | let_ d b =>
    obtain ⟨d', b', e⟩ := letEach_rootOp d.fixity d.infixes b.apart
    rw [Expr.apart, e]; rfl
  | _ => simp [Expr.apart, Expr.closed]

mutual
theorem parts_apart : ∀ (e : Expr) (d : Nat), e.apart.parts d = e.parts d
  | .lit _, _ => by simp [Expr.apart]
  | .var _, _ => by simp [Expr.apart]
  | .app f x, d => by simp [Expr.apart, Expr.parts, parts_apart f, parts_apart x]
  | .bin l _ r, d => by simp [Expr.apart, Expr.parts, parts_apart l, parts_apart r, closed_apart]
  | .lam _ b, d => by simp [Expr.apart, Expr.parts, parts_apart b]
  | .grp b, d => by simp [Expr.apart, Expr.parts, parts_apart b]
  | .neg b, d => by simp [Expr.apart, Expr.parts]
  | .tup es, d => by simp [Expr.apart, Expr.parts, drawnList_apart es]
  | .list es, d => by simp [Expr.apart, Expr.parts, drawnList_apart es]
  | .let_ _ b, d => by simp [Expr.apart, Expr.parts, letEach_parts, parts_apart b]
theorem drawnList_apart : ∀ es : List Expr, Expr.drawnList (Expr.apartList es) = Expr.drawnList es
  | [] => by simp [Expr.apartList]
  | e :: es => by simp [Expr.apartList, Expr.drawnList, parts_apart e, drawnList_apart es]
end

theorem drawn_apart (e : Expr) : e.apart.drawn = e.drawn := by
  rw [Expr.drawn, Expr.drawn, parts_apart]

end
end Pemdas
