import Verif.Spec.Redundant
import Verif.Spec.Resolve
import Verif.Spec.Reprint
/-
Lemmas for C183.
-/
namespace Pemdas

theorem Expr.Enclose.rootOp {e e' : Expr} (h : e.Enclose e') : e'.rootOp = e.rootOp := by
  cases h <;> rfl

theorem Expr.Enclose.closed {e e' : Expr} (h : e.Enclose e') : e'.closed = e.closed := by
  cases h <;> rfl

theorem groupedList_append (fx : Env) (xs ys : List Expr) :
    Expr.GroupedList fx (xs ++ ys) ↔ Expr.GroupedList fx xs ∧ Expr.GroupedList fx ys := by
  induction xs with
  | nil => simp [Expr.GroupedList]
  | cons x xs ih => simp [Expr.GroupedList, ih, and_assoc]

theorem Expr.Enclose.grouped {e e' : Expr} (h : e.Enclose e') : ∀ fx : Env, e.Grouped fx → e'.Grouped fx := by
  induction h with
  | left _ => exact fun fx g => ⟨g.1, g.2.1, ⟨fun o ho => (nomatch ho), g.2.2.2⟩⟩
  | right _ => exact fun fx g => ⟨g.1, g.2.1, g.2.2.1, fun o ho => (nomatch ho)⟩
  | inLeft h ih => exact fun fx g => ⟨ih fx g.1, g.2.1, by rw [h.rootOp]; exact g.2.2.1, g.2.2.2⟩
  | inRight h ih => exact fun fx g => ⟨g.1, ih fx g.2.1, g.2.2.1, by rw [h.rootOp]; exact g.2.2.2⟩
  | fn _ ih => exact fun fx g => ⟨ih fx g.1, g.2⟩
  | arg _ ih => exact fun fx g => ⟨g.1, ih fx g.2⟩
  | lam _ ih => exact fun fx g => ih fx g
  | grp _ ih => exact fun fx g => ih fx g
  | let_ _ ih => exact fun fx g => ih _ g
  | tup _ ih =>
    intro fx g
    simp only [Expr.Grouped, groupedList_append, Expr.GroupedList] at g ⊢
    exact ⟨g.1, ih fx g.2.1, g.2.2⟩
  | list _ ih =>
    intro fx g
    simp only [Expr.Grouped, groupedList_append, Expr.GroupedList] at g ⊢
    exact ⟨g.1, ih fx g.2.1, g.2.2⟩

theorem Expr.Enclosed.grouped {e e' : Expr} (h : e.Enclosed e') (fx : Env) : e.Grouped fx → e'.Grouped fx := by
  induction h with
  | same => exact id
  | more _ h ih => exact fun g => h.grouped fx (ih g)

theorem AllEnclosed.grouped {xs xs' : List Expr} (h : AllEnclosed xs xs') (fx : Env)
    (g : Expr.GroupedList fx xs) : Expr.GroupedList fx xs' := by
  induction h with
  | nil => exact g
  | cons h _ ih => exact ⟨h.grouped fx g.1, ih g.2⟩

theorem skeletonList_append (xs ys : List Expr) :
    Expr.skeletonList (xs ++ ys) = Expr.skeletonList xs ++ Expr.skeletonList ys := by
  induction xs with
  | nil => simp [Expr.skeletonList]
  | cons x xs ih => simp [Expr.skeletonList, ih]

theorem Expr.Enclose.skeleton {e e' : Expr} (h : e.Enclose e') : e'.skeleton = e.skeleton := by
  induction h with
  | left _ => rfl
  | right _ => rfl
  | tup _ ih => simp [Expr.skeleton, skeletonList_append, Expr.skeletonList, ih]
  | list _ ih => simp [Expr.skeleton, skeletonList_append, Expr.skeletonList, ih]
  | _ => simp [Expr.skeleton, *]

theorem Expr.Enclosed.skeleton {e e' : Expr} (h : e.Enclosed e') : e'.skeleton = e.skeleton := by
  induction h with
  | same => rfl
  | more _ h ih => rw [h.skeleton, ih]

/-! ### an expression is given by its tokens and its grouping -/

mutual
/-- How many operators a piece contributes to the infix expression around it, when parentheses are forgotten. -/
def Tok.weight : Tok → Nat
  | .op _ => 1
  | .grp ts => Tok.weights ts
  | .let_ _ ts => Tok.weights ts
  | _ => 0
/-- The same for pieces in a row. -/
def Tok.weights : List Tok → Nat
  | [] => 0
  | t :: ts => t.weight + Tok.weights ts
end

theorem weights_append (xs ys : List Tok) : Tok.weights (xs ++ ys) = Tok.weights xs + Tok.weights ys := by
  induction xs with
  | nil => simp [Tok.weights]
  | cons x xs ih => simp [Tok.weights, ih]; omega

/-- The number of operators of an infix expression. -/
def Expr.width : Expr → Nat
  | .bin l _ r => l.width + (1 + r.width)
  | _ => 0

theorem weights_toks (e : Expr) : Tok.weights e.toks = e.skeleton.width := by
  match e with
  | .bin l op r =>
    simp only [Expr.toks, weights_append, Tok.weights, Tok.weight, Expr.skeleton, Expr.width, weights_toks l, weights_toks r]
  | .grp e => simp [Expr.toks, Tok.weights, Tok.weight, Expr.skeleton, weights_toks e]
  | .let_ d e => simp [Expr.toks, Tok.weights, Tok.weight, Expr.skeleton, weights_toks e]
  | .lit _ | .var _ | .app .. | .lam .. | .neg _ | .tup _ | .list _ =>
    simp [Expr.toks, Tok.weights, Tok.weight, Expr.skeleton, Expr.width]

theorem toks_split {a a' b b' : List Tok} {o o' : Infix} (h : a ++ .op o :: b = a' ++ .op o' :: b')
    (hw : Tok.weights a = Tok.weights a') : a = a' ∧ b = b' := by
  rcases List.append_eq_append_iff.1 h with ⟨c, h1, h2⟩ | ⟨c, h1, h2⟩ <;> cases c with
  | nil =>
    simp only [List.append_nil] at h1
    simp only [List.nil_append, List.cons.injEq] at h2
    exact ⟨by simp [h1], by simp [h2]⟩
  | cons t c =>
    exfalso
    simp only [List.cons_append, List.cons.injEq] at h2
    obtain ⟨rfl, -⟩ := h2
    rw [h1, weights_append] at hw
    simp only [Tok.weights, Tok.weight] at hw
    omega

theorem toks_ne_nil (e : Expr) : e.toks ≠ [] := by
  cases e <;> simp [Expr.toks]

theorem toks_bin_ne (l r : Expr) (op : Infix) (t : Tok) : (Expr.bin l op r).toks ≠ [t] := by
  intro h
  have := congrArg List.length h
  have h1 := List.length_pos_iff.2 (toks_ne_nil l)
  have h2 := List.length_pos_iff.2 (toks_ne_nil r)
  simp [Expr.toks] at this
  omega

mutual
theorem expr_of_toks : ∀ e e' : Expr, e.toks = e'.toks → e.skeleton = e'.skeleton → e = e'
  | .bin l op r, .bin l' op' r', h, hs => by
    simp only [Expr.skeleton, Expr.bin.injEq] at hs
    simp only [Expr.toks] at h
    obtain ⟨h1, h2⟩ := toks_split h (by rw [weights_toks, weights_toks, hs.1])
    rw [expr_of_toks l l' h1 hs.1, expr_of_toks r r' h2 hs.2.2, hs.2.1]
  | .bin l op r, .lit _, h, _ | .bin l op r, .var _, h, _ | .bin l op r, .app .., h, _ | .bin l op r, .lam .., h, _
  | .bin l op r, .grp _, h, _ | .bin l op r, .neg _, h, _ | .bin l op r, .tup _, h, _ | .bin l op r, .list _, h, _
  | .bin l op r, .let_ .., h, _ => absurd h (toks_bin_ne l r op _)
  | .lit a, e', h, hs => by
    cases e' <;> first | (exact absurd h.symm (toks_bin_ne _ _ _ _)) | (simp_all [Expr.toks])
  | .var a, e', h, hs => by
    cases e' <;> first | (exact absurd h.symm (toks_bin_ne _ _ _ _)) | (simp_all [Expr.toks])
  | .app f x, e', h, hs => by
    cases e' <;> first | (exact absurd h.symm (toks_bin_ne _ _ _ _)) | (simp [Expr.toks] at h; done) | skip
    simp only [Expr.toks, List.cons.injEq, Tok.app.injEq, and_true] at h
    simp only [Expr.skeleton, Expr.app.injEq] at hs
    rw [expr_of_toks f _ h.1 hs.1, expr_of_toks x _ h.2 hs.2]
  | .lam p b, e', h, hs => by
    cases e' <;> first | (exact absurd h.symm (toks_bin_ne _ _ _ _)) | (simp [Expr.toks] at h; done) | skip
    simp only [Expr.toks, List.cons.injEq, Tok.lam.injEq, and_true] at h
    simp only [Expr.skeleton, Expr.lam.injEq] at hs
    rw [expr_of_toks b _ h.2 hs.2, h.1]
  | .grp b, e', h, hs => by
    cases e' <;> first | (exact absurd h.symm (toks_bin_ne _ _ _ _)) | (simp [Expr.toks] at h; done) | skip
    simp only [Expr.toks, List.cons.injEq, Tok.grp.injEq, and_true] at h
    simp only [Expr.skeleton] at hs
    rw [expr_of_toks b _ h hs]
  | .neg b, e', h, hs => by
    cases e' <;> first | (exact absurd h.symm (toks_bin_ne _ _ _ _)) | (simp [Expr.toks] at h; done) | skip
    simp only [Expr.toks, List.cons.injEq, Tok.neg.injEq, and_true] at h
    simp only [Expr.skeleton, Expr.neg.injEq] at hs
    rw [expr_of_toks b _ h hs]
  | .let_ d b, e', h, hs => by
    cases e' <;> first | (exact absurd h.symm (toks_bin_ne _ _ _ _)) | (simp [Expr.toks] at h; done) | skip
    simp only [Expr.toks, List.cons.injEq, Tok.let_.injEq, and_true] at h
    simp only [Expr.skeleton] at hs
    rw [expr_of_toks b _ h.2 hs, h.1]
  | .tup xs, e', h, hs => by
    cases e' <;> first | (exact absurd h.symm (toks_bin_ne _ _ _ _)) | (simp [Expr.toks] at h; done) | skip
    simp only [Expr.toks, List.cons.injEq, Tok.tup.injEq, and_true] at h
    simp only [Expr.skeleton, Expr.tup.injEq] at hs
    rw [exprs_of_toks xs _ h hs]
  | .list xs, e', h, hs => by
    cases e' <;> first | (exact absurd h.symm (toks_bin_ne _ _ _ _)) | (simp [Expr.toks] at h; done) | skip
    simp only [Expr.toks, List.cons.injEq, Tok.list.injEq, and_true] at h
    simp only [Expr.skeleton, Expr.list.injEq] at hs
    rw [exprs_of_toks xs _ h hs]
theorem exprs_of_toks : ∀ xs ys : List Expr, Expr.toksList xs = Expr.toksList ys →
    Expr.skeletonList xs = Expr.skeletonList ys → xs = ys
  | [], [], _, _ => rfl
  | [], _ :: _, h, _ => by simp [Expr.toksList] at h
  | _ :: _, [], h, _ => by simp [Expr.toksList] at h
  | x :: xs, y :: ys, h, hs => by
    simp only [Expr.toksList, List.cons.injEq] at h
    simp only [Expr.skeletonList, List.cons.injEq] at hs
    rw [expr_of_toks x y h.1 hs.1, exprs_of_toks xs ys h.2 hs.2]
end

section
variable [CharTables]

theorem drawnList_append (xs ys : List Expr) :
    Expr.drawnList (xs ++ ys) = Expr.drawnList xs ++ Expr.drawnList ys := by
  induction xs with
  | nil => simp [Expr.drawnList]
  | cons x xs ih => simp [Expr.drawnList, ih]

/-- An operand as it is drawn. -/
def Expr.operand (d : Nat) (e : Expr) : Drawing := boxedIf (!e.closed) d (lambda d (e.parts d))

theorem parts_bin (d : Nat) (l r : Expr) (op : Infix) :
    (Expr.bin l op r).parts d = ([], l.operand (d + 1) ++ ink (t!" " ++ op.text ++ t!" ") ++ r.operand (d + 1)) := by
  rw [Expr.parts, Expr.operand, Expr.operand]

theorem operand_grp {e : Expr} (d : Nat) (h : e.closed = false) : (Expr.grp e).operand d = e.operand d := by
  rw [Expr.operand, Expr.operand, h, Expr.parts]
  rfl

theorem Expr.Enclose.parts {e e' : Expr} (h : e.Enclose e') : ∀ d, e'.parts d = e.parts d := by
  induction h with
  | left h => intro d; rw [parts_bin, parts_bin, operand_grp _ h]
  | right h => intro d; rw [parts_bin, parts_bin, operand_grp _ h]
  | inLeft h ih => intro d; simp [Expr.parts, h.closed, ih]
  | inRight h ih => intro d; simp [Expr.parts, h.closed, ih]
  | fn _ ih => intro d; simp [Expr.parts, ih]
  | arg _ ih => intro d; simp [Expr.parts, ih]
  | lam _ ih => intro d; simp [Expr.parts, ih]
  | grp _ ih => intro d; simp [Expr.parts, ih]
  | let_ _ ih => intro d; simp [Expr.parts, ih]
  | tup _ ih => intro d; simp [Expr.parts, drawnList_append, Expr.drawnList, ih]
  | list _ ih => intro d; simp [Expr.parts, drawnList_append, Expr.drawnList, ih]

theorem Expr.Enclosed.drawn {e e' : Expr} (h : e.Enclosed e') : e'.drawn = e.drawn := by
  induction h with
  | same => rfl
  | more _ h ih => rw [← ih, Expr.drawn, Expr.drawn, h.parts]

end
end Pemdas
