import Verif.Spec.IterMut
import Verif.Props.Ast
/-
Lemmas about `iter_mut` (C156).
-/
namespace Pemdas

/-- The iterator that has the declarations `mid` left, which follow `pre`. -/
def AstIterMut.over (pre mid : List Decl) : AstIterMut :=
  ⟨mid.map Decl.kind,
    List.range' (pre.filterMap Decl.asInfix?).length (mid.filterMap Decl.asInfix?).length,
    List.range' (pre.filterMap Decl.asExpr?).length (mid.filterMap Decl.asExpr?).length⟩

/-- The reference to the declaration `d` after `pre`. -/
def Decl.ref (pre : List Decl) : Decl → DeclMut
  | .infix_ _ => .infix_ (pre.filterMap Decl.asInfix?).length
  | .expr _ => .expr (pre.filterMap Decl.asExpr?).length

theorem iterMut_ofDecls (ds : List Decl) : (Ast.ofDecls ds).iterMut = .over [] ds := by
  rw [Ast.ofDecls_eq]
  simp [Ast.iterMut, AstIterMut.over, List.range_eq_range']

theorem over_next (pre : List Decl) (d : Decl) (mid : List Decl) :
    (AstIterMut.over pre (d :: mid)).next = (some (d.ref pre), .over (pre ++ [d]) mid) := by
  cases d <;>
    simp [AstIterMut.over, AstIterMut.next, popFront, Decl.kind, Decl.ref, Decl.asInfix?, Decl.asExpr?,
      List.filterMap_cons, List.range'_succ]

theorem over_next_nil (pre : List Decl) :
    (AstIterMut.over pre []).next = (none, .over pre []) := rfl

theorem over_nextBack (pre mid : List Decl) (d : Decl) :
    (AstIterMut.over pre (mid ++ [d])).nextBack = (some (d.ref (pre ++ mid)), .over pre mid) := by
  cases d <;>
    simp [AstIterMut.over, AstIterMut.nextBack, popBack, Decl.kind, Decl.ref, Decl.asInfix?, Decl.asExpr?,
      List.filterMap_cons, List.range'_concat]

theorem over_nextBack_nil (pre : List Decl) :
    (AstIterMut.over pre []).nextBack = (none, .over pre []) := rfl

theorem modify_append_length {α : Type} (a : List α) (x : α) (b : List α) (f : α → α) :
    (a ++ x :: b).modify a.length f = a ++ f x :: b := by
  induction a with
  | nil => rfl
  | cons y a ih => simp [ih]

theorem assign_ref (pre : List Decl) (d : Decl) (post : List Decl) (c : Change) :
    (Ast.ofDecls (pre ++ d :: post)).assign c.infix_ c.expr (d.ref pre) =
      Ast.ofDecls (pre ++ c.on d :: post) := by
  rw [Ast.ofDecls_eq, Ast.ofDecls_eq]
  cases d <;>
    simp [Ast.assign, Decl.ref, Decl.kind, Decl.asInfix?, Decl.asExpr?, Change.on, List.filterMap_cons,
      modify_append_length]

theorem deref_ref (pre : List Decl) (d : Decl) (post : List Decl) :
    (Ast.ofDecls (pre ++ d :: post)).deref (d.ref pre) = some d := by
  rw [Ast.ofDecls_eq]
  cases d <;> simp [Ast.deref, Decl.ref, Decl.asInfix?, Decl.asExpr?]

/-- The reference to the declaration at a position. -/
def refAt (ds : List Decl) (p : Nat) : DeclMut :=
  match ds[p]? with
  | some d => d.ref (ds.take p)
  | none => .expr 0

theorem refAt_append (pre : List Decl) (d : Decl) (post : List Decl) :
    refAt (pre ++ d :: post) pre.length = d.ref pre := by
  simp [refAt]

theorem count_infix (ds : List Decl) :
    (ds.filterMap Decl.asInfix?).length = (ds.map Decl.kind).count .infix_ := by
  induction ds with
  | nil => rfl
  | cons d ds ih => cases d <;> simp [List.filterMap_cons, Decl.asInfix?, Decl.kind, ih]

theorem count_expr (ds : List Decl) :
    (ds.filterMap Decl.asExpr?).length = (ds.map Decl.kind).count .expr := by
  induction ds with
  | nil => rfl
  | cons d ds ih => cases d <;> simp [List.filterMap_cons, Decl.asExpr?, Decl.kind, ih]

theorem ref_congr {pre pre' : List Decl} {d d' : Decl} (h : pre.map Decl.kind = pre'.map Decl.kind)
    (hd : d.kind = d'.kind) : d.ref pre = d'.ref pre' := by
  cases d <;> cases d' <;> simp [Decl.ref, Decl.kind, count_infix, count_expr, h] at hd ⊢

theorem refAt_congr {ds ds' : List Decl} (h : ds'.map Decl.kind = ds.map Decl.kind) (p : Nat) :
    refAt ds' p = refAt ds p := by
  have h1 : ds'[p]?.map Decl.kind = ds[p]?.map Decl.kind := by
    rw [← List.getElem?_map, ← List.getElem?_map, h]
  have h2 : (ds'.take p).map Decl.kind = (ds.take p).map Decl.kind := by
    rw [List.map_take, List.map_take, h]
  unfold refAt
  cases h3 : ds'[p]? <;> cases h4 : ds[p]? <;> rw [h3, h4] at h1 <;> simp at h1
  exact ref_congr h2 h1

theorem refAt_lt {ds : List Decl} {p q : Nat} (hpq : p < q) (hq : q < ds.length) :
    refAt ds p ≠ refAt ds q := by
  obtain ⟨a, d, b, rfl, rfl⟩ : ∃ a d b, ds = a ++ d :: b ∧ a.length = p :=
    ⟨ds.take p, ds[p], ds.drop (p + 1), by simp, by simp; omega⟩
  obtain ⟨a', d', b', rfl, h⟩ : ∃ a' d' b', b = a' ++ d' :: b' ∧ q = (a ++ d :: a').length := by
    have hlt : q - a.length - 1 < b.length := by simp at hq; omega
    exact ⟨b.take (q - a.length - 1), b[q - a.length - 1], b.drop (q - a.length - 1 + 1), by simp,
      by simp; omega⟩
  subst h
  rw [refAt_append]
  rw [show a ++ d :: (a' ++ d' :: b') = (a ++ d :: a') ++ d' :: b' by simp, refAt_append]
  cases d <;> cases d' <;> simp [Decl.ref, Decl.asInfix?, Decl.asExpr?, List.filterMap_cons]

theorem over_run (qs : List Bool) : ∀ pre mid post : List Decl,
    ((AstIterMut.over pre mid).run qs).1 =
      (dequeRun qs (List.range' pre.length mid.length)).1.map (·.map (refAt (pre ++ mid ++ post))) ∧
    ((AstIterMut.over pre mid).run qs).2.len = (dequeRun qs mid).2.length := by
  induction qs with
  | nil => intro pre mid post; simp [AstIterMut.run, dequeRun, AstIterMut.len, AstIterMut.over]
  | cons q qs ih =>
    intro pre mid post
    cases q with
    | true =>
      cases mid with
      | nil =>
        simp only [AstIterMut.run, over_next_nil]
        have := ih pre [] post
        simp [dequeRun] at this ⊢
        exact this
      | cons d mid =>
        simp only [AstIterMut.run, over_next]
        have := ih (pre ++ [d]) mid post
        have hr := refAt_append pre d (mid ++ post)
        simp [dequeRun, List.range'_succ] at this ⊢
        rw [hr]
        exact ⟨⟨rfl, this.1⟩, this.2⟩
    | false =>
      rcases List.eq_nil_or_concat mid with rfl | ⟨mid, d, rfl⟩
      · simp only [AstIterMut.run, over_nextBack_nil]
        have := ih pre [] post
        simp [dequeRun] at this ⊢
        exact this
      · simp only [List.concat_eq_append, AstIterMut.run, over_nextBack]
        have := ih pre mid (d :: post)
        have hr := refAt_append (pre ++ mid) d post
        simp [dequeRun, List.range'_concat] at this hr ⊢
        rw [hr]
        exact ⟨⟨rfl, this.1⟩, this.2⟩

end Pemdas
