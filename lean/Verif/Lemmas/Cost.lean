import Verif.Model.Cost
import Verif.Spec.Cost
/-
How much work resolving is: bounds.
-/
namespace Pemdas

/-! ### counting changes nothing -/

theorem Counted.bind_result {α β ε : Type} (x : Counted (Except ε α)) (f : α → Counted (Except ε β)) :
    (x.bind f).result = x.result >>= fun a => (f a).result := by
  unfold Counted.bind
  cases x.result <;> rfl

namespace Fixities

theorem placeC_result (m : Fixities) (infx : Infix) (os : List Expr) (is : List Infix) :
    (placeC m infx os is).result = place m infx os is := by
  induction is generalizing os with
  | nil => rfl
  | cons prev rest ih =>
    cases hr : Rule.fromFixities (m.get prev) (m.get infx) with
    | shift => simp only [placeC, place, hr]
    | reduce =>
      simp only [placeC, place, hr]
      cases reduceTop prev os with
      | error p => rfl
      | ok os => exact ih os
    | ambiguous pf cf => simp only [placeC, place, hr]

theorem rewriteLoopC_result (m : Fixities) : ∀ (e : Expr) (os : List Expr) (is : List Infix),
    (rewriteLoopC m os is e).result = rewriteLoop m os is e
  | .bin l op r, os, is => by
    unfold rewriteLoopC rewriteLoop
    simp only [placeC_result]
    cases place m op (l :: os) is with
    | error p => rfl
    | ok x =>
      cases x with
      | error e => rfl
      | ok x => exact rewriteLoopC_result m r _ _
  | .lit _, os, is | .var _, os, is | .app .., os, is | .lam .., os, is | .grp _, os, is | .neg _, os, is
  | .tup _, os, is | .list _, os, is | .let_ .., os, is => by
    unfold rewriteLoopC rewriteLoop
    cases finish os is _ <;> rfl

theorem rewriteC_result (m : Fixities) (e : Expr) : (rewriteC m e).result = rewrite m e :=
  rewriteLoopC_result m e [] []

end Fixities

namespace Resolver

theorem walkListC_result {v : Resolver → Expr → VisitC} {v' : Resolver → Expr → Visit}
    (h : ∀ r e, (v r e).result = v' r e) (r : Resolver) (es : List Expr) :
    (walkListC v r es).result = walkList v' r es := by
  induction es generalizing r with
  | nil => rfl
  | cons e es ih =>
    simp only [walkListC, walkList, Counted.bind_result, h, ih]
    rfl

theorem walkExprC_result {v : Resolver → Expr → VisitC} {v' : Resolver → Expr → Visit}
    (h : ∀ r e, (v r e).result = v' r e) (r : Resolver) (e : Expr) :
    (walkExprC v r e).result = walkExpr v' r e := by
  cases e <;> simp only [walkExprC, walkExpr, Counted.bind_result, h, walkListC_result h] <;> rfl

theorem visitNC_result (n : Nat) (r : Resolver) (e : Expr) : (visitNC n r e).result = visitN n r e := by
  induction n generalizing r e with
  | zero => rfl
  | succ n ih =>
    cases e with
    | bin a op b =>
      simp only [visitNC, visitN, Fixities.rewriteC_result]
      cases r.fixities.rewrite (.bin a op b) with
      | error p => rfl
      | ok x =>
        cases x with
        | error e => rfl
        | ok e => exact walkExprC_result ih r e
    | let_ d b =>
      simp only [visitNC, visitN, Counted.bind_result, ih]
      rfl
    | _ => simp only [visitNC, visitN]; exact walkExprC_result ih r _

theorem visitC_result (r : Resolver) (e : Expr) : (visitC r e).result = visit r e := visitNC_result _ r e

theorem visitAstC_result (r : Resolver) (a : Ast) : (visitAstC r a).result = visitAst r a := by
  simp only [visitAstC, visitAst, Counted.bind_result, walkListC_result visitC_result]
  rfl

end Resolver

/-! ### regrouping keeps what there is -/

namespace Fixities

/-- The sum of a measure over operands. -/
def total (g : Expr → Nat) : List Expr → Nat
  | [] => 0
  | e :: es => g e + total g es

theorem place_total {g : Expr → Nat} (hg : ∀ a op b, g (.bin a op b) = g a + g b + 1) {m : Fixities}
    {infx : Infix} {os os' : List Expr} {is is' : List Infix}
    (h : place m infx os is = .ok (.ok (os', is'))) :
    total g os' + is'.length = total g os + is.length + 1 := by
  induction is generalizing os with
  | nil => cases h; rfl
  | cons prev rest ih =>
    simp only [place] at h
    split at h
    · cases h; simp only [List.length_cons]; omega
    · cases os with
      | nil => cases h
      | cons b os =>
        cases os with
        | nil => cases h
        | cons a os =>
          have := ih h
          simp only [total, hg, List.length_cons] at this ⊢
          omega
    · cases h

theorem finish_total {g : Expr → Nat} (hg : ∀ a op b, g (.bin a op b) = g a + g b + 1)
    {os : List Expr} {is : List Infix} {e e' : Expr} (hl : os.length = is.length)
    (h : finish os is e = .ok e') : g e' = total g os + is.length + g e := by
  induction is generalizing os e with
  | nil =>
    cases os with
    | nil => cases h; simp [total]
    | cons => cases hl
  | cons op is ih =>
    cases os with
    | nil => cases hl
    | cons a os =>
      have := ih (Nat.succ.inj hl) h
      rw [this, hg]
      simp only [total, List.length_cons]
      omega

theorem place_length {m : Fixities}
    {infx : Infix} {os os' : List Expr} {is is' : List Infix} (hl : os.length = is.length + 1)
    (h : place m infx os is = .ok (.ok (os', is'))) : os'.length = is'.length := by
  induction is generalizing os with
  | nil => cases h; exact hl
  | cons prev rest ih =>
    simp only [place] at h
    split at h
    · cases h; exact hl
    · cases os with
      | nil => cases h
      | cons b os =>
        cases os with
        | nil => cases h
        | cons a os => exact ih (by simp only [List.length_cons] at hl ⊢; omega) h
    · cases h

theorem rewriteLoop_total {g : Expr → Nat} (hg : ∀ a op b, g (.bin a op b) = g a + g b + 1) (m : Fixities) :
    ∀ (e : Expr) (os : List Expr) (is : List Infix) (e' : Expr), os.length = is.length →
      rewriteLoop m os is e = .ok (.ok e') → g e' = total g os + is.length + g e
  | .bin l op r, os, is, e', hl, h => by
    unfold rewriteLoop at h
    cases hp : place m op (l :: os) is with
    | error p => rw [hp] at h; cases h
    | ok x =>
      cases x with
      | error e => rw [hp] at h; cases h
      | ok x =>
        obtain ⟨os', is'⟩ := x
        rw [hp] at h
        have h1 := place_total hg hp
        have h2 := place_length (by simpa using hl) hp
        have h3 := rewriteLoop_total hg m r os' is' e' h2 h
        rw [h3, hg]
        simp only [total] at h1
        omega
  | .lit _, os, is, e', hl, h | .var _, os, is, e', hl, h | .app .., os, is, e', hl, h
  | .lam .., os, is, e', hl, h | .grp _, os, is, e', hl, h | .neg _, os, is, e', hl, h
  | .tup _, os, is, e', hl, h | .list _, os, is, e', hl, h | .let_ .., os, is, e', hl, h => by
    unfold rewriteLoop at h
    cases hf : finish os is _ with
    | error p => rw [hf] at h; cases h
    | ok e =>
      rw [hf] at h
      cases h
      exact finish_total hg hl hf

theorem rewrite_total {g : Expr → Nat} (hg : ∀ a op b, g (.bin a op b) = g a + g b + 1) {m : Fixities}
    {e e' : Expr} (h : rewrite m e = .ok (.ok e')) : g e' = g e := by
  have := rewriteLoop_total hg m e [] [] e' rfl h
  simpa [total] using this

theorem place_pos {m : Fixities} {infx : Infix} {os : List Expr} {is : List Infix}
    {x : List Expr × List Infix} (h : place m infx os is = .ok (.ok x)) : 0 < x.2.length := by
  induction is generalizing os with
  | nil => cases h; exact Nat.zero_lt_one
  | cons prev rest ih =>
    simp only [place] at h
    split at h
    · cases h; exact Nat.zero_lt_succ _
    · cases hr : reduceTop prev os with
      | error p => rw [hr] at h; cases h
      | ok os => rw [hr] at h; exact ih h
    · cases h

theorem finish_bin {os : List Expr} {is : List Infix} {e e' : Expr} (h : finish os is e = .ok e')
    (hi : 0 < is.length ∨ ∃ a op b, e = .bin a op b) : ∃ a op b, e' = .bin a op b := by
  induction is generalizing os e with
  | nil =>
    have : finish os [] e = .ok e := by cases os <;> rfl
    rw [this] at h
    cases h
    exact hi.elim (fun h => (by cases h)) id
  | cons op is ih =>
    cases os with
    | nil => cases h
    | cons a os => exact ih h (.inr ⟨_, _, _, rfl⟩)

theorem rewriteLoop_bin (m : Fixities) : ∀ (e : Expr) (os : List Expr) (is : List Infix) (e' : Expr),
    0 < is.length → rewriteLoop m os is e = .ok (.ok e') → ∃ a op b, e' = .bin a op b
  | .bin l op r, os, is, e', hi, h => by
    unfold rewriteLoop at h
    cases hp : place m op (l :: os) is with
    | error p => rw [hp] at h; cases h
    | ok x =>
      cases x with
      | error e => rw [hp] at h; cases h
      | ok x =>
        rw [hp] at h
        exact rewriteLoop_bin m r _ _ e' (place_pos hp) h
  | .lit _, os, is, e', hi, h | .var _, os, is, e', hi, h | .app .., os, is, e', hi, h
  | .lam .., os, is, e', hi, h | .grp _, os, is, e', hi, h | .neg _, os, is, e', hi, h
  | .tup _, os, is, e', hi, h | .list _, os, is, e', hi, h | .let_ .., os, is, e', hi, h => by
    unfold rewriteLoop at h
    cases hf : finish os is _ with
    | error p => rw [hf] at h; cases h
    | ok e =>
      rw [hf] at h
      cases h
      exact finish_bin hf (.inl hi)

theorem rewrite_bin {m : Fixities} {l r : Expr} {op : Infix} {e' : Expr}
    (h : rewrite m (.bin l op r) = .ok (.ok e')) : ∃ a op' b, e' = .bin a op' b := by
  unfold rewrite rewriteLoop at h
  simp only [place] at h
  exact rewriteLoop_bin m r _ [op] e' Nat.zero_lt_one h

/-! ### comparisons in one chain -/

theorem placeC_compared (m : Fixities) (infx : Infix) (os : List Expr) (is : List Infix) :
    (placeC m infx os is).compared ≤ is.length ∧ (placeC m infx os is).copied = 0 ∧
    ∀ os' is', place m infx os is = .ok (.ok (os', is')) →
      (placeC m infx os is).compared + is'.length ≤ is.length + 2 ∧ 0 < is'.length ∧
      (is = [] → (placeC m infx os is).compared = 0 ∧ is'.length = 1) := by
  induction is generalizing os with
  | nil =>
    refine ⟨Nat.le_refl _, rfl, fun os' is' h => ?_⟩
    cases h
    simp [placeC]
  | cons prev rest ih =>
    cases hr : Rule.fromFixities (m.get prev) (m.get infx) with
    | shift =>
      simp only [placeC, place, hr, List.length_cons]
      refine ⟨by omega, trivial, fun os' is' h => ?_⟩
      cases h
      simp only [List.length_cons]
      exact ⟨by omega, by omega, fun h => by cases h⟩
    | reduce =>
      simp only [placeC, place, hr, List.length_cons]
      cases reduceTop prev os with
      | error p => exact ⟨by simp, rfl, fun os' is' h => (by cases h)⟩
      | ok os =>
        obtain ⟨h1, h2, h3⟩ := ih os
        simp only
        refine ⟨by omega, h2, fun os' is' h => ?_⟩
        obtain ⟨h4, h5, -⟩ := h3 os' is' h
        exact ⟨by omega, h5, fun h => by cases h⟩
    | ambiguous pf cf =>
      simp only [placeC, place, hr, List.length_cons]
      exact ⟨by omega, trivial, fun os' is' h => by cases h⟩

/-- How many operators are on the right spine. -/
def spine : Expr → Nat
  | .bin _ _ r => spine r + 1
  | _ => 0

theorem rewriteLoopC_compared (m : Fixities) : ∀ (e : Expr) (os : List Expr) (is : List Infix), 0 < is.length →
    (rewriteLoopC m os is e).compared + 1 ≤ 2 * spine e + is.length
  | .bin l op r, os, is, hi => by
    obtain ⟨h1, -, h3⟩ := placeC_compared m op (l :: os) is
    unfold rewriteLoopC spine
    simp only [placeC_result]
    cases hp : place m op (l :: os) is with
    | error p => simp only; omega
    | ok x =>
      cases x with
      | error e => simp only; omega
      | ok x =>
        obtain ⟨os', is'⟩ := x
        obtain ⟨h4, h5, -⟩ := h3 os' is' hp
        have := rewriteLoopC_compared m r os' is' h5
        simp only
        omega
  | .lit _, os, is, hi | .var _, os, is, hi | .app .., os, is, hi | .lam .., os, is, hi | .grp _, os, is, hi
  | .neg _, os, is, hi | .tup _, os, is, hi | .list _, os, is, hi | .let_ .., os, is, hi => by
    unfold rewriteLoopC
    cases finish os is _ <;> simp only <;> omega

theorem rewriteLoopC_copied (m : Fixities) : ∀ (e : Expr) (os : List Expr) (is : List Infix),
    (rewriteLoopC m os is e).copied = 0
  | .bin l op r, os, is => by
    have h1 := (placeC_compared m op (l :: os) is).2.1
    unfold rewriteLoopC
    simp only [placeC_result]
    cases hp : place m op (l :: os) is with
    | error p => exact h1
    | ok x =>
      cases x with
      | error e => exact h1
      | ok x =>
        have := rewriteLoopC_copied m r x.1 x.2
        simp only
        omega
  | .lit _, os, is | .var _, os, is | .app .., os, is | .lam .., os, is | .grp _, os, is | .neg _, os, is
  | .tup _, os, is | .list _, os, is | .let_ .., os, is => by
    unfold rewriteLoopC
    cases finish os is _ <;> rfl

theorem rewriteC_copied (m : Fixities) (e : Expr) : (rewriteC m e).copied = e.size := by
  simp [rewriteC, rewriteLoopC_copied]

theorem rewriteC_compared (m : Fixities) (l : Expr) (op : Infix) (r : Expr) :
    (rewriteC m (.bin l op r)).compared ≤ 2 * spine r := by
  obtain ⟨h1, -, h3⟩ := placeC_compared m op [l] []
  unfold rewriteC rewriteLoopC
  simp only [placeC_result]
  cases hp : place m op [l] [] with
  | error p => simp only [List.length_nil] at h1 ⊢; omega
  | ok x =>
    cases x with
    | error e => simp only [List.length_nil] at h1 ⊢; omega
    | ok x =>
      obtain ⟨os', is'⟩ := x
      obtain ⟨-, h5, h6⟩ := h3 os' is' hp
      have := h6 rfl
      have := rewriteLoopC_compared m r os' is' h5
      simp only
      omega

theorem spine_le : ∀ e : Expr, spine e ≤ e.operations
  | .bin l op r => by
    have := spine_le r
    simp only [spine, Expr.operations]
    omega
  | .lit _ | .var _ | .app .. | .lam .. | .grp _ | .neg _ | .tup _ | .list _ | .let_ .. => Nat.zero_le _

end Fixities

mutual
theorem Expr.nodes_eq : ∀ e : Expr, e.nodes = e.size
  | .lit _ | .var _ => rfl
  | .app f x => by simp only [Expr.nodes, Expr.size, f.nodes_eq, x.nodes_eq]
  | .bin l _ r => by simp only [Expr.nodes, Expr.size, l.nodes_eq, r.nodes_eq]
  | .lam _ e | .grp e | .neg e | .let_ _ e => by simp only [Expr.nodes, Expr.size, e.nodes_eq]
  | .tup es | .list es => by simp only [Expr.nodes, Expr.size, Expr.nodesList_eq es]
theorem Expr.nodesList_eq : ∀ es : List Expr, Expr.nodesList es = Expr.sizeList es
  | [] => rfl
  | e :: es => by simp only [Expr.nodesList, Expr.sizeList, e.nodes_eq, Expr.nodesList_eq es]
end

/-! ### the whole visit -/

/-- The work on something with `b` operators and `s` nodes. -/
structure Counted.Within {α : Type} (x : Counted α) (b s : Nat) : Prop where
  compared : x.compared + b ≤ b * b
  copied : x.copied ≤ b * s

theorem square_add (a b : Nat) : (a + b) * (a + b) = a * a + b * b + 2 * (a * b) := by
  rw [Nat.add_mul, Nat.mul_add, Nat.mul_add, Nat.mul_comm b a]; omega

theorem rect_add (a b s t : Nat) : (a + b) * (s + t) = a * s + b * t + (a * t + b * s) := by
  rw [Nat.add_mul, Nat.mul_add, Nat.mul_add]; omega

namespace Counted.Within

theorem two {α β ε : Type} {x : Counted (Except ε α)} {f : α → Counted (Except ε β)} {b s b' s' : Nat}
    (hx : x.Within b s) (hf : ∀ a, (f a).Within b' s') : (x.bind f).Within (b + b') (s + s') := by
  unfold Counted.bind
  have h1 := square_add b b'
  have h2 := rect_add b b' s s'
  have h3 := Nat.le_mul_self b'
  cases x.result with
  | ok a => exact ⟨by have := hx.1; have := (hf a).1; simp only; omega,
      by have := hx.2; have := (hf a).2; simp only; omega⟩
  | error e => exact ⟨by have := hx.1; simp only; omega, by have := hx.2; simp only; omega⟩

theorem one {α β ε : Type} {x : Counted (Except ε α)} {f : α → β} {b s : Nat} (hx : x.Within b s) :
    (x.bind fun a => (.pure (f a) : Counted (Except ε β))).Within b s := by
  unfold Counted.bind
  cases x.result with
  | ok a => exact ⟨hx.1, hx.2⟩
  | error e => exact ⟨hx.1, hx.2⟩

theorem mono {α : Type} {x : Counted α} {b s s' : Nat} (hx : x.Within b s) (h : s ≤ s') : x.Within b s' :=
  ⟨hx.1, Nat.le_trans hx.2 (Nat.mul_le_mul_left b h)⟩

theorem none {α ε : Type} (a : α) (s : Nat) : (.pure a : Counted (Except ε α)).Within 0 s :=
  ⟨Nat.le_refl _, Nat.zero_le _⟩

end Counted.Within

namespace Resolver
open Counted

theorem walkListC_within {v : Resolver → Expr → VisitC} (hv : ∀ r e, (v r e).Within e.operations e.nodes)
    (r : Resolver) (es : List Expr) : (walkListC v r es).Within (Expr.operationsList es) (Expr.nodesList es) := by
  induction es generalizing r with
  | nil => exact .none _ _
  | cons e es ih => exact (hv r e).two fun x => (ih x.1).one

theorem walkExprC_within {v : Resolver → Expr → VisitC} (hv : ∀ r e, (v r e).Within e.operations e.nodes)
    (r : Resolver) (e : Expr) (hb : ∀ a op b, e ≠ .bin a op b) :
    (walkExprC v r e).Within e.operations e.nodes := by
  cases e with
  | lit => exact .none _ _
  | var => exact .none _ _
  | app f x => exact ((hv r f).two fun y => (hv y.1 x).one).mono (Nat.le_succ _)
  | bin a op b => exact absurd rfl (hb a op b)
  | tup es => exact (walkListC_within hv r es).one.mono (Nat.le_succ _)
  | list es => exact (walkListC_within hv r es).one.mono (Nat.le_succ _)
  | _ => exact (hv r _).one.mono (Nat.le_succ _)

theorem visitNC_within (n : Nat) (r : Resolver) (e : Expr) : (visitNC n r e).Within e.operations e.nodes := by
  induction n generalizing r e with
  | zero => exact ⟨(by simpa [visitNC] using Nat.le_mul_self _), Nat.zero_le _⟩
  | succ n ih =>
    cases e with
    | bin a op b =>
      have hc := Fixities.rewriteC_compared r.fixities a op b
      have hs := Fixities.spine_le b
      have hk := Fixities.rewriteC_copied r.fixities (.bin a op b)
      rw [← Expr.nodes_eq] at hk
      have key : ∀ x y : Nat, x ≤ 2 * b.operations → y ≤ (Expr.bin a op b).nodes → ∀ {α : Type} (z : α),
          (Counted.mk x y z).Within (Expr.bin a op b).operations (Expr.bin a op b).nodes := by
        intro x y hx hy α z
        simp only [Expr.operations] at *
        have h1 := square_add (a.operations + b.operations) 1
        have h2 := Nat.le_mul_self (a.operations + b.operations)
        constructor
        · simp only; omega
        · have := Nat.add_mul (a.operations + b.operations) 1 (Expr.bin a op b).nodes
          simp only; omega
      simp only [visitNC, Fixities.rewriteC_result]
      cases hr : r.fixities.rewrite (.bin a op b) with
      | error p => exact key _ _ (by omega) (by omega) _
      | ok x =>
        cases x with
        | error e => exact key _ _ (by omega) (by omega) _
        | ok e' =>
          have h1 : e'.operations = _ := Fixities.rewrite_total (g := Expr.operations) (fun _ _ _ => rfl) hr
          have h2 : e'.nodes = _ := Fixities.rewrite_total (g := Expr.nodes) (fun _ _ _ => rfl) hr
          obtain ⟨a', op', b', rfl⟩ := Fixities.rewrite_bin hr
          obtain ⟨h3, h4⟩ := (ih r a').two fun y => (ih y.1 b').one (f := fun z => (z.1, Expr.bin y.2 op' z.2))
          simp only [Expr.operations, Expr.nodes] at h1 h2 hk h3 h4 hs ⊢
          have h5 := square_add (a'.operations + b'.operations) 1
          have h6 := rect_add (a'.operations + b'.operations) 1 (a'.nodes + b'.nodes) 1
          rw [← h1, ← h2]
          constructor
          · simp only [walkExprC]; omega
          · simp only [walkExprC]; omega
    | let_ d b =>
      exact ((ih _ b).one).mono (Nat.le_succ _)
    | lit _ => simp only [visitNC]; exact walkExprC_within ih r _ (by intros; simp)
    | var _ => simp only [visitNC]; exact walkExprC_within ih r _ (by intros; simp)
    | app _ _ => simp only [visitNC]; exact walkExprC_within ih r _ (by intros; simp)
    | lam _ _ => simp only [visitNC]; exact walkExprC_within ih r _ (by intros; simp)
    | grp _ => simp only [visitNC]; exact walkExprC_within ih r _ (by intros; simp)
    | neg _ => simp only [visitNC]; exact walkExprC_within ih r _ (by intros; simp)
    | tup _ => simp only [visitNC]; exact walkExprC_within ih r _ (by intros; simp)
    | list _ => simp only [visitNC]; exact walkExprC_within ih r _ (by intros; simp)

end Resolver
end Pemdas
