import Verif.Spec.Rename
/-
Resolving commutes with renaming.
-/
namespace Pemdas.Renaming
open Fixities

variable {ρ : Renaming} (hρ : ρ.Faithful)
include hρ

theorem getDefined_ren (m : Fixities) (op : Infix) :
    getDefined (m.map ρ.entry) (ρ.op op) = getDefined m op := by
  induction m with
  | nil => rfl
  | cons x m ih =>
    simp only [List.map_cons, entry, getDefined]
    by_cases h : x.1.symbol = op.symbol
    · rw [if_pos h, if_pos ((hρ _ _).2 h)]
    · rw [if_neg h, if_neg (fun k => h ((hρ _ _).1 k))]; exact ih

theorem get_ren (m : Fixities) (op : Infix) : Fixities.get (m.map ρ.entry) (ρ.op op) = Fixities.get m op := by
  unfold Fixities.get; rw [getDefined_ren hρ]

theorem insert_ren (m : Fixities) (op : Infix) (fx : Fixity) :
    Fixities.insert (m.map ρ.entry) (ρ.op op) fx =
      ((Fixities.insert m op fx).1, (Fixities.insert m op fx).2.map ρ.entry) := by
  induction m with
  | nil => rfl
  | cons x m ih =>
    simp only [List.map_cons, entry, Fixities.insert]
    by_cases h : x.1.symbol = op.symbol
    · rw [if_pos h, if_pos ((hρ _ _).2 h)]; rfl
    · rw [if_neg h, if_neg (fun k => h ((hρ _ _).1 k))]
      have ih' : Fixities.insert (m.map fun x => (ρ.op x.1, x.2)) (ρ.op op) fx = _ := ih
      rw [show m.map ρ.entry = m.map fun x => (ρ.op x.1, x.2) from rfl, ih']
      rfl

theorem remove_ren (m : Fixities) (op : Infix) :
    Fixities.remove (m.map ρ.entry) (ρ.op op) =
      ((Fixities.remove m op).1, (Fixities.remove m op).2.map ρ.entry) := by
  induction m with
  | nil => rfl
  | cons x m ih =>
    simp only [List.map_cons, entry, Fixities.remove]
    by_cases h : x.1.symbol = op.symbol
    · rw [if_pos h, if_pos ((hρ _ _).2 h)]
    · rw [if_neg h, if_neg (fun k => h ((hρ _ _).1 k))]
      have ih' : Fixities.remove (m.map fun x => (ρ.op x.1, x.2)) (ρ.op op) = _ := ih
      rw [show m.map ρ.entry = m.map fun x => (ρ.op x.1, x.2) from rfl, ih']
      rfl

theorem insertMany_ren (fx : Fixity) (ops : List Infix) (m : Fixities) :
    insertMany (m.map ρ.entry) fx (ops.map ρ.op) = (insertMany m fx ops).map ρ.entry := by
  induction ops generalizing m with
  | nil => rfl
  | cons o ops ih => simp only [List.map_cons, insertMany, insert_ren hρ]; exact ih _

theorem loadDecls_ren (ds : List InfixDecl) (m : Fixities) :
    Resolver.loadDecls (m.map ρ.entry) (ds.map ρ.decl) = (Resolver.loadDecls m ds).map ρ.entry := by
  induction ds generalizing m with
  | nil => rfl
  | cons d ds ih =>
    simp only [List.map_cons, Resolver.loadDecls, decl, insertMany_ren hρ]; exact ih _

theorem insertLocal_ren (fx : Fixity) (ops : List Infix) (m : Fixities) :
    Resolver.insertLocal fx (ops.map ρ.op) (m.map ρ.entry) =
      ((Resolver.insertLocal fx ops m).1.map (fun x => (ρ.op x.1, x.2)),
        (Resolver.insertLocal fx ops m).2.map ρ.entry) := by
  induction ops generalizing m with
  | nil => rfl
  | cons o ops ih =>
    simp only [List.map_cons, Resolver.insertLocal, insert_ren hρ, ih]

theorem restore_ren (olds : List (Infix × Option Fixity)) (m : Fixities) :
    Resolver.restore (olds.map fun x => (ρ.op x.1, x.2)) (m.map ρ.entry) =
      (Resolver.restore olds m).map ρ.entry := by
  induction olds generalizing m with
  | nil => rfl
  | cons o olds ih =>
    obtain ⟨o, _ | fx⟩ := o
    · simp only [List.map_cons, Resolver.restore, remove_ren hρ]; exact ih _
    · simp only [List.map_cons, Resolver.restore, insert_ren hρ]; exact ih _

omit hρ in
theorem exprs_eq (es : List Expr) : ρ.exprs es = es.map ρ.expr := by
  induction es with
  | nil => rfl
  | cons e es ih => simp only [exprs, List.map_cons, ih]

omit hρ in
theorem reduceTop_ren (op : Infix) (st : List Expr) :
    reduceTop (ρ.op op) (st.map ρ.expr) = (reduceTop op st).map (·.map ρ.expr) := by
  match st with
  | [] => rfl
  | [_] => rfl
  | _ :: _ :: _ => rfl

theorem place_ren (m : Fixities) (op : Infix) (st : List Expr) (ops : List Infix) :
    place (m.map ρ.entry) (ρ.op op) (st.map ρ.expr) (ops.map ρ.op) =
      (place m op st ops).map fun
        | .error e => .error (ρ.error e)
        | .ok (a, b) => .ok (a.map ρ.expr, b.map ρ.op) := by
  induction ops generalizing st with
  | nil => rfl
  | cons o ops ih =>
    simp only [List.map_cons, place, get_ren hρ]
    cases Rule.fromFixities (m.get o) (m.get op) with
    | shift => rfl
    | ambiguous a b => rfl
    | reduce =>
      simp only [reduceTop_ren]
      cases reduceTop o st with
      | error p => rfl
      | ok st' => exact ih st'

omit hρ in
theorem finish_ren (st : List Expr) (ops : List Infix) (e : Expr) :
    finish (st.map ρ.expr) (ops.map ρ.op) (ρ.expr e) = (finish st ops e).map ρ.expr := by
  induction ops generalizing st e with
  | nil => cases st <;> rfl
  | cons o ops ih =>
    cases st with
    | nil => rfl
    | cons a st => exact ih st (.bin a o e)

/-- What becomes of the outcome of a chain. -/
def outcome (ρ : Renaming) : Except AssocError Expr → Except AssocError Expr
  | .error e => .error (ρ.error e)
  | .ok e => .ok (ρ.expr e)

omit hρ in
/-- The end of the chain. -/
theorem last_ren (st : List Expr) (ops : List Infix) (e : Expr)
    {x y : Except Panic (Except AssocError Expr)}
    (hx : x = match finish (st.map ρ.expr) (ops.map ρ.op) (ρ.expr e) with
      | .error p => .error p
      | .ok e => .ok (.ok e))
    (hy : y = match finish st ops e with
      | .error p => .error p
      | .ok e => .ok (.ok e)) : x = y.map (outcome ρ) := by
  rw [hx, hy, finish_ren]
  cases finish st ops e <;> rfl

theorem rewriteLoop_ren (m : Fixities) (st : List Expr) (ops : List Infix) (e : Expr) :
    rewriteLoop (m.map ρ.entry) (st.map ρ.expr) (ops.map ρ.op) (ρ.expr e) =
      (rewriteLoop m st ops e).map (outcome ρ) := by
  match e with
  | .bin l o r =>
    have hp := place_ren hρ m o (l :: st) ops
    simp only [List.map_cons] at hp
    simp only [expr, rewriteLoop, hp]
    cases place m o (l :: st) ops with
    | error p => rfl
    | ok x =>
      obtain e | ⟨a, b⟩ := x
      · rfl
      · exact rewriteLoop_ren m a b r
  | .lit _ | .var _ | .app .. | .lam .. | .grp _ | .neg _ | .tup _ | .list _ | .let_ .. =>
    exact last_ren st ops _ rfl rfl

theorem rewrite_ren (m : Fixities) (e : Expr) :
    Fixities.rewrite (m.map ρ.entry) (ρ.expr e) = (Fixities.rewrite m e).map (outcome ρ) :=
  rewriteLoop_ren hρ m [] [] e

theorem same_ren (a b : AssocError) : (ρ.error a).same (ρ.error b) = a.same b := by
  have h : ∀ x y : Infix, ((ρ.op x).symbol == (ρ.op y).symbol) = (x.symbol == y.symbol) := by
    intro x y
    rw [Bool.eq_iff_iff, beq_iff_eq, beq_iff_eq]
    exact hρ x y
  simp only [AssocError.same, error, entry, h]

theorem storeError_ren (r : Resolver) (e : AssocError) :
    (ρ.resolver r).storeError (ρ.error e) = ρ.resolver (r.storeError e) := by
  have h : (r.errors.map ρ.error).any (·.same (ρ.error e)) = r.errors.any (·.same e) := by
    rw [List.any_map]
    congr 1
    funext x
    exact same_ren hρ x e
  simp only [Resolver.storeError, resolver, h]
  split
  · rfl
  · simp

omit hρ in
mutual
theorem size_ren (ρ : Renaming) (e : Expr) : (ρ.expr e).size = e.size := by
  match e with
  | .lit _ | .var _ => rfl
  | .app a b => simp only [expr, Expr.size, size_ren ρ a, size_ren ρ b]
  | .bin a _ b => simp only [expr, Expr.size, size_ren ρ a, size_ren ρ b]
  | .lam _ b => simp only [expr, Expr.size, size_ren ρ b]
  | .grp b => simp only [expr, Expr.size, size_ren ρ b]
  | .neg b => simp only [expr, Expr.size, size_ren ρ b]
  | .tup es => simp only [expr, Expr.size, sizes_ren ρ es]
  | .list es => simp only [expr, Expr.size, sizes_ren ρ es]
  | .let_ _ b => simp only [expr, Expr.size, size_ren ρ b]
theorem sizes_ren (ρ : Renaming) (es : List Expr) :
    Expr.sizeList (ρ.exprs es) = Expr.sizeList es := by
  match es with
  | [] => rfl
  | e :: es => simp only [exprs, Expr.sizeList, size_ren ρ e, sizes_ren ρ es]
end

/-- What becomes of the outcome of a visit. -/
def visited (ρ : Renaming) (x : Resolver × Expr) : Resolver × Expr := (ρ.resolver x.1, ρ.expr x.2)

/-- A visitor that commutes with renaming. -/
def Natural (ρ : Renaming) (v : Resolver → Expr → Resolver.Visit) : Prop :=
  ∀ r e, v (ρ.resolver r) (ρ.expr e) = (v r e).map ρ.visited

omit hρ in
theorem walkList_ren {v : Resolver → Expr → Resolver.Visit} (hv : Natural ρ v) (es : List Expr)
    (r : Resolver) : Resolver.walkList v (ρ.resolver r) (ρ.exprs es) =
      (Resolver.walkList v r es).map fun x => (ρ.resolver x.1, ρ.exprs x.2) := by
  induction es generalizing r with
  | nil => rfl
  | cons e es ih =>
    simp only [exprs, Resolver.walkList, hv r e]
    cases v r e with
    | error s => rfl
    | ok x =>
      have := ih x.1
      simp only [Except.map, visited, bind, Except.bind]
      rw [this]
      cases Resolver.walkList v x.1 es <;> rfl

omit hρ in
theorem walkExpr_ren {v : Resolver → Expr → Resolver.Visit} (hv : Natural ρ v) (r : Resolver)
    (e : Expr) : Resolver.walkExpr v (ρ.resolver r) (ρ.expr e) =
      (Resolver.walkExpr v r e).map ρ.visited := by
  match e with
  | .lit _ | .var _ => rfl
  | .app a b | .bin a _ b =>
    simp only [expr, Resolver.walkExpr, hv r a]
    cases v r a with
    | error s => rfl
    | ok x =>
      simp only [Except.map, visited, bind, Except.bind]
      rw [hv x.1 b]
      cases v x.1 b <;> rfl
  | .lam _ b | .grp b | .neg b | .let_ _ b =>
    simp only [expr, Resolver.walkExpr, hv r b]
    cases v r b <;> rfl
  | .tup es | .list es =>
    simp only [expr, Resolver.walkExpr, walkList_ren hv es r]
    cases Resolver.walkList v r es <;> rfl

theorem visitN_ren (n : Nat) : Natural ρ (Resolver.visitN n) := by
  induction n with
  | zero => intro r e; rfl
  | succ n ih =>
    intro r e
    match e with
    | .bin a o b =>
      have hr := rewrite_ren hρ r.fixities (.bin a o b)
      simp only [expr] at hr
      simp only [expr, Resolver.visitN]
      rw [show (ρ.resolver r).fixities = r.fixities.map ρ.entry from rfl, hr]
      cases Fixities.rewrite r.fixities (.bin a o b) with
      | error p => rfl
      | ok x =>
        cases x with
        | error e =>
          simp only [Except.map, outcome, storeError_ren hρ]; rfl
        | ok e' => exact walkExpr_ren ih r e'
    | .let_ d b =>
      simp only [expr, Resolver.visitN, decl]
      rw [show (ρ.resolver r).fixities = r.fixities.map ρ.entry from rfl,
        insertLocal_ren hρ]
      have := ih { r with fixities := (Resolver.insertLocal d.fixity d.infixes r.fixities).2 } b
      simp only [resolver] at this ⊢
      rw [this]
      cases Resolver.visitN n
        { r with fixities := (Resolver.insertLocal d.fixity d.infixes r.fixities).2 } b with
      | error s => rfl
      | ok x =>
        simp only [Except.map, visited, bind, Except.bind, resolver, restore_ren hρ]
        rfl
    | .lit l => exact walkExpr_ren ih r (.lit l)
    | .var i => exact walkExpr_ren ih r (.var i)
    | .app f x => exact walkExpr_ren ih r (.app f x)
    | .lam p b => exact walkExpr_ren ih r (.lam p b)
    | .grp e => exact walkExpr_ren ih r (.grp e)
    | .neg e => exact walkExpr_ren ih r (.neg e)
    | .tup es => exact walkExpr_ren ih r (.tup es)
    | .list es => exact walkExpr_ren ih r (.list es)

theorem visit_ren : Natural ρ Resolver.visit := by
  intro r e
  unfold Resolver.visit
  rw [size_ren]
  exact visitN_ren hρ _ r e

end Pemdas.Renaming
