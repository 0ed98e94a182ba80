import Verif.Spec.Renumber
/-
Resolving commutes with a change of precedences that keeps their order.
-/
namespace Pemdas.Renum
open Fixities

variable {f : Nat → Nat} {U : Nat → Prop}

theorem Ordered.inj (h : Ordered f U) {a b : Nat} (ha : U a) (hb : U b) : f a = f b ↔ a = b := by
  have h1 := h.order a b ha hb
  have h2 := h.order b a hb ha
  omega

theorem getDefined_num (m : Fixities) (op : Infix) :
    getDefined (m.map (entry f)) op = (getDefined m op).map (Fixity.renum f) := by
  induction m with
  | nil => rfl
  | cons x m ih =>
    simp only [List.map_cons, entry, getDefined]
    by_cases h : x.1.symbol = op.symbol
    · rw [if_pos h, if_pos h]; rfl
    · rw [if_neg h, if_neg h]; exact ih

theorem get_num (h : Ordered f U) (m : Fixities) (op : Infix) :
    Fixities.get (m.map (entry f)) op = (Fixities.get m op).renum f := by
  unfold Fixities.get
  rw [getDefined_num]
  cases getDefined m op with
  | none => simp [Fixity.renum, Fixity.dflt, h.fixed]
  | some v => rfl

theorem get_in (h : Ordered f U) {m : Fixities} (hm : InTable U m) (op : Infix) :
    U (Fixities.get m op).prec := by
  unfold Fixities.get
  induction m with
  | nil => exact h.nine
  | cons x m ih =>
    simp only [getDefined]
    split
    · exact hm x (.head _)
    · exact ih (fun y hy => hm y (.tail _ hy))

theorem insert_num (m : Fixities) (op : Infix) (fx : Fixity) :
    Fixities.insert (m.map (entry f)) op (fx.renum f) =
      ((Fixities.insert m op fx).1.map (Fixity.renum f),
        (Fixities.insert m op fx).2.map (entry f)) := by
  induction m with
  | nil => rfl
  | cons x m ih =>
    simp only [List.map_cons, entry, Fixities.insert]
    by_cases h : x.1.symbol = op.symbol
    · rw [if_pos h, if_pos h]; rfl
    · rw [if_neg h, if_neg h]
      have ih' : Fixities.insert (m.map fun x => (x.1, x.2.renum f)) op (fx.renum f) = _ := ih
      rw [show m.map (entry f) = m.map fun x => (x.1, x.2.renum f) from rfl, ih']
      rfl

theorem insert_in {m : Fixities} (hm : InTable U m) (op : Infix) {fx : Fixity} (hf : U fx.prec) :
    (∀ v, (Fixities.insert m op fx).1 = some v → U v.prec) ∧
      InTable U (Fixities.insert m op fx).2 := by
  induction m with
  | nil =>
    refine ⟨nofun, fun x hx => ?_⟩
    simp only [Fixities.insert, List.mem_singleton] at hx
    subst hx; exact hf
  | cons x m ih =>
    have ih := ih (fun y hy => hm y (.tail _ hy))
    simp only [Fixities.insert]
    split
    · refine ⟨fun v hv => ?_, fun y hy => ?_⟩
      · cases hv; exact hm x (.head _)
      · rcases List.mem_cons.1 hy with rfl | hy
        · exact hf
        · exact hm y (.tail _ hy)
    · refine ⟨ih.1, fun y hy => ?_⟩
      rcases List.mem_cons.1 hy with rfl | hy
      · exact hm _ (.head _)
      · exact ih.2 y hy

theorem remove_num (m : Fixities) (op : Infix) :
    (Fixities.remove (m.map (entry f)) op).2 = (Fixities.remove m op).2.map (entry f) := by
  induction m with
  | nil => rfl
  | cons x m ih =>
    simp only [List.map_cons, entry, Fixities.remove]
    by_cases h : x.1.symbol = op.symbol
    · rw [if_pos h, if_pos h]
    · rw [if_neg h, if_neg h]
      have ih' : (Fixities.remove (m.map fun x => (x.1, x.2.renum f)) op).2 = _ := ih
      rw [show m.map (entry f) = m.map fun x => (x.1, x.2.renum f) from rfl, ih']
      rfl

theorem remove_in {m : Fixities} (hm : InTable U m) (op : Infix) :
    InTable U (Fixities.remove m op).2 := by
  induction m with
  | nil => exact hm
  | cons x m ih =>
    have ih := ih (fun y hy => hm y (.tail _ hy))
    simp only [Fixities.remove]
    split
    · exact fun y hy => hm y (.tail _ hy)
    · intro y hy
      rcases List.mem_cons.1 hy with rfl | hy
      · exact hm _ (.head _)
      · exact ih y hy

theorem insertMany_num (fx : Fixity) (ops : List Infix) (m : Fixities) :
    insertMany (m.map (entry f)) (fx.renum f) ops = (insertMany m fx ops).map (entry f) := by
  induction ops generalizing m with
  | nil => rfl
  | cons o ops ih => simp only [insertMany, insert_num]; exact ih _

theorem insertMany_in {fx : Fixity} (hf : U fx.prec) (ops : List Infix) {m : Fixities}
    (hm : InTable U m) : InTable U (insertMany m fx ops) := by
  induction ops generalizing m with
  | nil => exact hm
  | cons o ops ih => exact ih (insert_in hm o hf).2

theorem loadDecls_num (ds : List InfixDecl) (m : Fixities) :
    Resolver.loadDecls (m.map (entry f)) (ds.map (decl f)) =
      (Resolver.loadDecls m ds).map (entry f) := by
  induction ds generalizing m with
  | nil => rfl
  | cons d ds ih =>
    simp only [List.map_cons, Resolver.loadDecls, decl, insertMany_num]; exact ih _

theorem loadDecls_in {ds : List InfixDecl} (hd : ∀ d ∈ ds, U d.fixity.prec) {m : Fixities}
    (hm : InTable U m) : InTable U (Resolver.loadDecls m ds) := by
  induction ds generalizing m with
  | nil => exact hm
  | cons d ds ih =>
    exact ih (fun y hy => hd y (.tail _ hy)) (insertMany_in (hd d (.head _)) _ hm)

/-- Former fixities, to be restored, with other numbers. -/
def olds (f : Nat → Nat) (l : List (Infix × Option Fixity)) : List (Infix × Option Fixity) :=
  l.map fun x => (x.1, x.2.map (Fixity.renum f))

theorem insertLocal_num (fx : Fixity) (ops : List Infix) (m : Fixities) :
    Resolver.insertLocal (fx.renum f) ops (m.map (entry f)) =
      (olds f (Resolver.insertLocal fx ops m).1,
        (Resolver.insertLocal fx ops m).2.map (entry f)) := by
  induction ops generalizing m with
  | nil => rfl
  | cons o ops ih => simp only [Resolver.insertLocal, insert_num, ih]; rfl

theorem insertLocal_in {fx : Fixity} (hf : U fx.prec) (ops : List Infix) {m : Fixities}
    (hm : InTable U m) :
    (∀ x ∈ (Resolver.insertLocal fx ops m).1, ∀ v, x.2 = some v → U v.prec) ∧
      InTable U (Resolver.insertLocal fx ops m).2 := by
  induction ops generalizing m with
  | nil => exact ⟨nofun, hm⟩
  | cons o ops ih =>
    have h1 := insert_in hm o hf
    have h2 := ih h1.2
    refine ⟨fun x hx => ?_, h2.2⟩
    simp only [Resolver.insertLocal] at hx
    rcases List.mem_cons.1 hx with rfl | hx
    · exact h1.1
    · exact h2.1 x hx

theorem restore_num (l : List (Infix × Option Fixity)) (m : Fixities) :
    Resolver.restore (olds f l) (m.map (entry f)) = (Resolver.restore l m).map (entry f) := by
  induction l generalizing m with
  | nil => rfl
  | cons o l ih =>
    obtain ⟨o, _ | fx⟩ := o
    · simp only [olds, List.map_cons, Option.map, Resolver.restore, remove_num]; exact ih _
    · simp only [olds, List.map_cons, Option.map, Resolver.restore, insert_num]; exact ih _

theorem restore_in {l : List (Infix × Option Fixity)}
    (hl : ∀ x ∈ l, ∀ v, x.2 = some v → U v.prec) {m : Fixities} (hm : InTable U m) :
    InTable U (Resolver.restore l m) := by
  induction l generalizing m with
  | nil => exact hm
  | cons o l ih =>
    have hl' := fun x hx => hl x (.tail _ hx)
    obtain ⟨o, _ | fx⟩ := o
    · exact ih hl' (remove_in hm o)
    · exact ih hl' (insert_in hm o (hl _ (.head _) fx rfl)).2

/-! ### Chains -/

theorem reduceTop_num (op : Infix) (st : List Expr) :
    reduceTop op (st.map (expr f)) = (reduceTop op st).map (·.map (expr f)) := by
  match st with
  | [] => rfl
  | [_] => rfl
  | _ :: _ :: _ => rfl

theorem reduceTop_in {op : Infix} {st st' : List Expr} (hs : ∀ e ∈ st, InExpr U e)
    (h : reduceTop op st = .ok st') : ∀ e ∈ st', InExpr U e := by
  match st, h with
  | a :: b :: st, h =>
    simp only [reduceTop, Except.ok.injEq] at h
    subst h
    intro e he
    rcases List.mem_cons.1 he with rfl | he
    · exact ⟨hs _ (.tail _ (.head _)), hs _ (.head _)⟩
    · exact hs e (.tail _ (.tail _ he))

theorem rule_num (h : Ordered f U) {a b : Fixity} (ha : U a.prec) (hb : U b.prec) :
    Rule.fromFixities (a.renum f) (b.renum f) = match Rule.fromFixities a b with
      | .shift => .shift
      | .reduce => .reduce
      | .ambiguous a b => .ambiguous (a.renum f) (b.renum f) := by
  obtain ⟨p, s⟩ := a
  obtain ⟨q, t⟩ := b
  have h1 := h.order p q ha hb
  have h2 := h.inj hb ha
  simp only [Rule.fromFixities, Fixity.renum, gt_iff_lt]
  simp only at h1 h2
  simp only [h1, h2]
  by_cases c : p < q
  · simp only [if_pos c]
  · simp only [if_neg c]
    by_cases d : q = p
    · simp only [if_pos d]
      cases s <;> cases t <;> rfl
    · simp only [if_neg d]

theorem rule_in {a b c d : Fixity} (ha : U a.prec) (hb : U b.prec)
    (h : Rule.fromFixities a b = .ambiguous c d) : U c.prec ∧ U d.prec := by
  simp only [Rule.fromFixities] at h
  split at h
  · cases h
  · split at h
    · split at h <;> cases h
      exact ⟨ha, hb⟩
    · cases h

/-- What becomes of the outcome of placing an operator. -/
def placed (f : Nat → Nat) :
    Except AssocError (List Expr × List Infix) → Except AssocError (List Expr × List Infix)
  | .error e => .error (error f e)
  | .ok (a, b) => .ok (a.map (expr f), b)

theorem place_num (h : Ordered f U) {m : Fixities} (hm : InTable U m) (op : Infix)
    (st : List Expr) (ops : List Infix) :
    place (m.map (entry f)) op (st.map (expr f)) ops = (place m op st ops).map (placed f) := by
  induction ops generalizing st with
  | nil => rfl
  | cons o ops ih =>
    simp only [place, get_num h, rule_num h (get_in h hm o) (get_in h hm op)]
    cases Rule.fromFixities (m.get o) (m.get op) with
    | shift => rfl
    | ambiguous a b => rfl
    | reduce =>
      simp only [reduceTop_num]
      cases reduceTop o st with
      | error p => rfl
      | ok st' => exact ih st'

theorem place_in (h : Ordered f U) {m : Fixities} (hm : InTable U m) {op : Infix}
    {st : List Expr} (hs : ∀ e ∈ st, InExpr U e) {ops : List Infix} :
    (∀ e, place m op st ops = .ok (.error e) → U e.prev.2.prec ∧ U e.curr.2.prec) ∧
    (∀ a b, place m op st ops = .ok (.ok (a, b)) → ∀ e ∈ a, InExpr U e) := by
  induction ops generalizing st with
  | nil =>
    refine ⟨fun e he => (by cases he), fun a b hab => ?_⟩
    simp only [place, Except.ok.injEq, Prod.mk.injEq] at hab
    rw [← hab.1]; exact hs
  | cons o ops ih =>
    simp only [place]
    cases hr : Rule.fromFixities (m.get o) (m.get op) with
    | shift =>
      refine ⟨fun e he => (by cases he), fun a b hab => ?_⟩
      simp only [Except.ok.injEq, Prod.mk.injEq] at hab
      rw [← hab.1]; exact hs
    | ambiguous a b =>
      refine ⟨fun e he => ?_, fun a b hab => (by cases hab)⟩
      simp only [Except.ok.injEq, Except.error.injEq] at he
      subst he
      exact rule_in (get_in h hm o) (get_in h hm op) hr
    | reduce =>
      simp only
      cases hd : reduceTop o st with
      | error p => exact ⟨fun e he => (by cases he), fun a b hab => (by cases hab)⟩
      | ok st' => exact ih (reduceTop_in hs hd)

theorem finish_num (st : List Expr) (ops : List Infix) (e : Expr) :
    finish (st.map (expr f)) ops (expr f e) = (finish st ops e).map (expr f) := by
  induction ops generalizing st e with
  | nil => cases st <;> rfl
  | cons o ops ih =>
    cases st with
    | nil => rfl
    | cons a st => exact ih st (.bin a o e)

theorem finish_in {st : List Expr} (hs : ∀ e ∈ st, InExpr U e) {ops : List Infix} {e e' : Expr}
    (he : InExpr U e) (h : finish st ops e = .ok e') : InExpr U e' := by
  induction ops generalizing st e with
  | nil =>
    cases st <;> (simp only [finish, Except.ok.injEq] at h; subst h; exact he)
  | cons o ops ih =>
    cases st with
    | nil => cases h
    | cons a st =>
      exact ih (fun x hx => hs x (.tail _ hx)) (e := .bin a o e) ⟨hs a (.head _), he⟩ h

/-- What becomes of the outcome of a chain. -/
def outcome (f : Nat → Nat) : Except AssocError Expr → Except AssocError Expr
  | .error e => .error (error f e)
  | .ok e => .ok (expr f e)

theorem last_num (st : List Expr) (ops : List Infix) (e : Expr)
    {x y : Except Panic (Except AssocError Expr)}
    (hx : x = match finish (st.map (expr f)) ops (expr f e) with
      | .error p => .error p
      | .ok e => .ok (.ok e))
    (hy : y = match finish st ops e with
      | .error p => .error p
      | .ok e => .ok (.ok e)) : x = y.map (outcome f) := by
  rw [hx, hy, finish_num]
  cases finish st ops e <;> rfl

theorem last_in {st : List Expr} (hs : ∀ e ∈ st, InExpr U e) {ops : List Infix} {e : Expr}
    (he : InExpr U e) {y : Except Panic (Except AssocError Expr)}
    (hy : y = match finish st ops e with
      | .error p => .error p
      | .ok e => .ok (.ok e)) :
    (∀ x, y = .ok (.error x) → U x.prev.2.prec ∧ U x.curr.2.prec) ∧
    (∀ x, y = .ok (.ok x) → InExpr U x) := by
  cases hf : finish st ops e with
  | error p => rw [hf] at hy; subst hy; exact ⟨fun x hx => (by cases hx), fun x hx => (by cases hx)⟩
  | ok e' =>
    rw [hf] at hy; subst hy
    exact ⟨fun x hx => (by cases hx), fun x hx => (by cases hx; exact finish_in hs he hf)⟩

theorem rewriteLoop_num (h : Ordered f U) {m : Fixities} (hm : InTable U m) (st : List Expr)
    (ops : List Infix) (e : Expr) :
    rewriteLoop (m.map (entry f)) (st.map (expr f)) ops (expr f e) =
      (rewriteLoop m st ops e).map (outcome f) := by
  match e with
  | .bin l o r =>
    have hp := place_num h hm o (l :: st) ops
    simp only [List.map_cons] at hp
    simp only [expr, rewriteLoop, hp]
    cases place m o (l :: st) ops with
    | error p => rfl
    | ok x =>
      obtain e | ⟨a, b⟩ := x
      · rfl
      · exact rewriteLoop_num h hm a b r
  | .lit _ | .var _ | .app .. | .lam .. | .grp _ | .neg _ | .tup _ | .list _ | .let_ .. =>
    exact last_num st ops _ rfl rfl

theorem rewriteLoop_in (h : Ordered f U) {m : Fixities} (hm : InTable U m) {st : List Expr}
    (hs : ∀ e ∈ st, InExpr U e) {ops : List Infix} {e : Expr} (he : InExpr U e) :
    (∀ x, rewriteLoop m st ops e = .ok (.error x) → U x.prev.2.prec ∧ U x.curr.2.prec) ∧
    (∀ x, rewriteLoop m st ops e = .ok (.ok x) → InExpr U x) := by
  match e, he with
  | .bin l o r, he =>
    have hp := place_in h hm (op := o) (st := l :: st) (ops := ops) (fun x hx => by
      rcases List.mem_cons.1 hx with rfl | hx
      · exact he.1
      · exact hs x hx)
    simp only [rewriteLoop]
    cases hc : place m o (l :: st) ops with
    | error p => exact ⟨fun x hx => (by cases hx), fun x hx => (by cases hx)⟩
    | ok x =>
      obtain e | ⟨a, b⟩ := x
      · exact ⟨fun x hx => (by cases hx; exact hp.1 _ hc), fun x hx => (by cases hx)⟩
      · exact rewriteLoop_in h hm (hp.2 a b hc) he.2
  | .lit _, he | .var _, he | .app .., he | .lam .., he | .grp _, he | .neg _, he | .tup _, he
  | .list _, he | .let_ .., he => exact last_in hs he rfl

theorem rewrite_num (h : Ordered f U) {m : Fixities} (hm : InTable U m) (e : Expr) :
    Fixities.rewrite (m.map (entry f)) (expr f e) = (Fixities.rewrite m e).map (outcome f) :=
  rewriteLoop_num h hm [] [] e

/-! ### The visitor -/

theorem same_num (h : Ordered f U) {a b : AssocError} (ha : U a.prev.2.prec ∧ U a.curr.2.prec)
    (hb : U b.prev.2.prec ∧ U b.curr.2.prec) : (error f a).same (error f b) = a.same b := by
  have k : ∀ x y : Fixity, U x.prec → U y.prec → ((x.renum f) == (y.renum f)) = (x == y) := by
    intro x y hx hy
    rw [Bool.eq_iff_iff, beq_iff_eq, beq_iff_eq]
    obtain ⟨p, s⟩ := x
    obtain ⟨q, t⟩ := y
    simp only [Fixity.renum, Fixity.mk.injEq, h.inj hx hy]
  simp only [AssocError.same, error, entry, k _ _ ha.1 hb.1, k _ _ ha.2 hb.2]

theorem storeError_num (h : Ordered f U) {r : Resolver} (hr : InResolver U r) {e : AssocError}
    (he : U e.prev.2.prec ∧ U e.curr.2.prec) :
    (resolver f r).storeError (error f e) = resolver f (r.storeError e) ∧
      InResolver U (r.storeError e) := by
  have k : (r.errors.map (error f)).any (·.same (error f e)) = r.errors.any (·.same e) := by
    rw [List.any_map]
    have : ∀ l : List AssocError, (∀ x ∈ l, U x.prev.2.prec ∧ U x.curr.2.prec) →
        l.any ((·.same (error f e)) ∘ error f) = l.any (·.same e) := by
      intro l hl
      induction l with
      | nil => rfl
      | cons x l ih =>
        simp only [List.any_cons, Function.comp_apply, same_num h (hl x (.head _)) he]
        rw [ih (fun y hy => hl y (.tail _ hy))]
    exact this _ hr.2
  constructor
  · simp only [Resolver.storeError, resolver, k]
    split
    · rfl
    · simp
  · simp only [Resolver.storeError]
    split
    · exact hr
    · refine ⟨hr.1, fun x hx => ?_⟩
      rcases List.mem_append.1 hx with hx | hx
      · exact hr.2 x hx
      · rw [List.mem_singleton.1 hx]; exact he

mutual
theorem size_num (f : Nat → Nat) (e : Expr) : (expr f e).size = e.size := by
  match e with
  | .lit _ | .var _ => rfl
  | .app a b => simp only [expr, Expr.size, size_num f a, size_num f b]
  | .bin a _ b => simp only [expr, Expr.size, size_num f a, size_num f b]
  | .lam _ b => simp only [expr, Expr.size, size_num f b]
  | .grp b => simp only [expr, Expr.size, size_num f b]
  | .neg b => simp only [expr, Expr.size, size_num f b]
  | .tup es => simp only [expr, Expr.size, sizes_num f es]
  | .list es => simp only [expr, Expr.size, sizes_num f es]
  | .let_ _ b => simp only [expr, Expr.size, size_num f b]
theorem sizes_num (f : Nat → Nat) (es : List Expr) :
    Expr.sizeList (exprs f es) = Expr.sizeList es := by
  match es with
  | [] => rfl
  | e :: es => simp only [exprs, Expr.sizeList, size_num f e, sizes_num f es]
end

/-- What becomes of the outcome of a visit. -/
def visited (f : Nat → Nat) (x : Resolver × Expr) : Resolver × Expr :=
  (resolver f x.1, expr f x.2)

/-- A visitor that commutes with the change of numbers, and declares no others. -/
def Natural (f : Nat → Nat) (U : Nat → Prop) (v : Resolver → Expr → Resolver.Visit) : Prop :=
  ∀ r e, InResolver U r → InExpr U e → v (resolver f r) (expr f e) = (v r e).map (visited f) ∧
    ∀ x, v r e = .ok x → InResolver U x.1

theorem walkList_num {v : Resolver → Expr → Resolver.Visit} (hv : Natural f U v)
    (es : List Expr) (r : Resolver) (hr : InResolver U r) (he : InExprs U es) :
    Resolver.walkList v (resolver f r) (exprs f es) =
      (Resolver.walkList v r es).map (fun x => (resolver f x.1, exprs f x.2)) ∧
    ∀ x, Resolver.walkList v r es = .ok x → InResolver U x.1 := by
  induction es generalizing r with
  | nil => exact ⟨rfl, fun x hx => (by cases hx; exact hr)⟩
  | cons e es ih =>
    obtain ⟨h1, h2⟩ := hv r e hr he.1
    simp only [exprs, Resolver.walkList, h1]
    cases hx : v r e with
    | error s => exact ⟨rfl, fun x hx => (by cases hx)⟩
    | ok x =>
      have := ih x.1 (h2 x hx) he.2
      simp only [Except.map, visited, bind, Except.bind]
      rw [this.1]
      cases hy : Resolver.walkList v x.1 es with
      | error s => exact ⟨rfl, fun x hx => (by cases hx)⟩
      | ok y => exact ⟨rfl, fun z hz => (by cases hz; exact this.2 y hy)⟩

theorem walkExpr_num {v : Resolver → Expr → Resolver.Visit} (hv : Natural f U v) :
    Natural f U (Resolver.walkExpr v) := by
  intro r e hr he
  match e, he with
  | .lit _, _ | .var _, _ => exact ⟨rfl, fun x hx => (by cases hx; exact hr)⟩
  | .app a b, he | .bin a _ b, he =>
    obtain ⟨h1, h2⟩ := hv r a hr he.1
    simp only [expr, Resolver.walkExpr, h1]
    cases hx : v r a with
    | error s => exact ⟨rfl, fun x hx => (by cases hx)⟩
    | ok x =>
      obtain ⟨h3, h4⟩ := hv x.1 b (h2 x hx) he.2
      simp only [Except.map, visited, bind, Except.bind]
      rw [h3]
      cases hy : v x.1 b with
      | error s => exact ⟨rfl, fun x hx => (by cases hx)⟩
      | ok y => exact ⟨rfl, fun z hz => (by cases hz; exact h4 y hy)⟩
  | .lam _ b, he | .grp b, he | .neg b, he =>
    obtain ⟨h1, h2⟩ := hv r b hr he
    simp only [expr, Resolver.walkExpr, h1]
    cases hx : v r b with
    | error s => exact ⟨rfl, fun x hx => (by cases hx)⟩
    | ok y => exact ⟨rfl, fun z hz => (by cases hz; exact h2 y hx)⟩
  | .let_ _ b, he =>
    obtain ⟨h1, h2⟩ := hv r b hr he.2
    simp only [expr, Resolver.walkExpr, h1]
    cases hx : v r b with
    | error s => exact ⟨rfl, fun x hx => (by cases hx)⟩
    | ok y => exact ⟨rfl, fun z hz => (by cases hz; exact h2 y hx)⟩
  | .tup es, he | .list es, he =>
    obtain ⟨h1, h2⟩ := walkList_num hv es r hr he
    simp only [expr, Resolver.walkExpr, h1]
    cases hx : Resolver.walkList v r es with
    | error s => exact ⟨rfl, fun x hx => (by cases hx)⟩
    | ok y => exact ⟨rfl, fun z hz => (by cases hz; exact h2 y hx)⟩

theorem visitN_num (h : Ordered f U) (n : Nat) : Natural f U (Resolver.visitN n) := by
  induction n with
  | zero => intro r e _ _; exact ⟨rfl, fun x hx => (by cases hx)⟩
  | succ n ih =>
    intro r e hr he
    match e, he with
    | .bin a o b, he =>
      have h1 := rewrite_num h hr.1 (.bin a o b)
      have h2 := rewriteLoop_in h hr.1 (st := []) (ops := []) nofun he
      simp only [expr] at h1
      simp only [expr, Resolver.visitN]
      rw [show (resolver f r).fixities = r.fixities.map (entry f) from rfl, h1]
      cases hx : Fixities.rewrite r.fixities (.bin a o b) with
      | error p => exact ⟨rfl, fun x hx => (by cases hx)⟩
      | ok x =>
        cases x with
        | error e =>
          have h3 := storeError_num h hr (h2.1 e hx)
          simp only [Except.map, outcome, h3.1]
          exact ⟨rfl, fun z hz => (by cases hz; exact h3.2)⟩
        | ok e' => exact walkExpr_num ih r e' hr (h2.2 e' hx)
    | .let_ d b, he =>
      simp only [expr, Resolver.visitN, decl]
      rw [show (resolver f r).fixities = r.fixities.map (entry f) from rfl, insertLocal_num]
      have h1 := insertLocal_in he.1 d.infixes hr.1
      obtain ⟨h2, h3⟩ :=
        ih { r with fixities := (Resolver.insertLocal d.fixity d.infixes r.fixities).2 } b
          ⟨h1.2, hr.2⟩ he.2
      simp only [resolver] at h2 ⊢
      rw [h2]
      cases hx : Resolver.visitN n
        { r with fixities := (Resolver.insertLocal d.fixity d.infixes r.fixities).2 } b with
      | error s => exact ⟨rfl, fun x hx => (by cases hx)⟩
      | ok x =>
        simp only [Except.map, visited, bind, Except.bind, resolver, restore_num]
        refine ⟨rfl, fun z hz => ?_⟩
        cases hz
        exact ⟨restore_in h1.1 (h3 x hx).1, (h3 x hx).2⟩
    | .lit l, he => exact walkExpr_num ih r (.lit l) hr he
    | .var i, he => exact walkExpr_num ih r (.var i) hr he
    | .app g x, he => exact walkExpr_num ih r (.app g x) hr he
    | .lam p b, he => exact walkExpr_num ih r (.lam p b) hr he
    | .grp e, he => exact walkExpr_num ih r (.grp e) hr he
    | .neg e, he => exact walkExpr_num ih r (.neg e) hr he
    | .tup es, he => exact walkExpr_num ih r (.tup es) hr he
    | .list es, he => exact walkExpr_num ih r (.list es) hr he

theorem visit_num (h : Ordered f U) : Natural f U Resolver.visit := by
  intro r e hr he
  unfold Resolver.visit
  rw [size_num]
  exact visitN_num h _ r e hr he

end Pemdas.Renum
