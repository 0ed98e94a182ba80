import Verif.Model.Ast
/-
C25: iterating an `Ast`.
-/
namespace Pemdas

/-- The AST the parser builds from a sequence of declarations. -/
def Ast.ofDecls (ds : List Decl) : Ast := ds.foldl Ast.push Ast.empty

/-- Take from the front (`true`) or the back (`false`) of a list, repeatedly: what comes out
and what is left. -/
def dequeRun {α : Type} : List Bool → List α → List (Option α) × List α
  | [], ds => ([], ds)
  | true :: qs, ds => let (o, l) := dequeRun qs ds.tail; (ds.head? :: o, l)
  | false :: qs, ds => let (o, l) := dequeRun qs ds.dropLast; (ds.getLast? :: o, l)

/-- The same on an `Ast` iterator. -/
def AstIter.run : List Bool → AstIter → List (Option Decl) × AstIter
  | [], it => ([], it)
  | true :: qs, it => let (d, it) := it.next; let (o, l) := AstIter.run qs it; (d :: o, l)
  | false :: qs, it => let (d, it) := it.nextBack; let (o, l) := AstIter.run qs it; (d :: o, l)

/-- The infix declaration, if it is one. -/
def Decl.asInfix? : Decl → Option InfixDecl
  | .infix_ d => some d
  | .expr _ => none

/-- The expression, if it is one. -/
def Decl.asExpr? : Decl → Option Expr
  | .infix_ _ => none
  | .expr e => some e

/-- The iterator state standing for the remaining declarations `ds`. -/
def AstIter.Rep (it : AstIter) (ds : List Decl) : Prop :=
  it.kinds = ds.map Decl.kind ∧ it.infxs = ds.filterMap Decl.asInfix? ∧
  it.exprs = ds.filterMap Decl.asExpr?

theorem Ast.foldl_push (ds : List Decl) (a : Ast) :
    ds.foldl Ast.push a = ⟨a.kinds ++ ds.map Decl.kind, a.infxs ++ ds.filterMap Decl.asInfix?,
      a.exprs ++ ds.filterMap Decl.asExpr?⟩ := by
  induction ds generalizing a with
  | nil => simp
  | cons d ds ih =>
    rw [List.foldl_cons, ih]
    cases d <;> simp [Ast.push, Decl.kind, Decl.asInfix?, Decl.asExpr?, List.filterMap_cons]

theorem Ast.ofDecls_eq (ds : List Decl) :
    Ast.ofDecls ds = ⟨ds.map Decl.kind, ds.filterMap Decl.asInfix?, ds.filterMap Decl.asExpr?⟩ := by
  rw [Ast.ofDecls, Ast.foldl_push]
  simp [Ast.empty]

theorem AstIter.rep_next {it : AstIter} {ds : List Decl} (h : it.Rep ds) :
    it.next.1 = ds.head? ∧ it.next.2.Rep ds.tail := by
  obtain ⟨h1, h2, h3⟩ := h
  cases ds with
  | nil => simp_all [next, popFront, Rep]
  | cons d ds =>
    cases d <;> simp_all [next, popFront, Rep, Decl.kind, Decl.asInfix?, Decl.asExpr?, List.filterMap_cons]

theorem AstIter.rep_nextBack {it : AstIter} {ds : List Decl} (h : it.Rep ds) :
    it.nextBack.1 = ds.getLast? ∧ it.nextBack.2.Rep ds.dropLast := by
  obtain ⟨h1, h2, h3⟩ := h
  rcases List.eq_nil_or_concat ds with rfl | ⟨ds, d, rfl⟩
  · simp_all [nextBack, popBack, Rep]
  · cases d <;> simp_all [nextBack, popBack, Rep, Decl.kind, Decl.asInfix?, Decl.asExpr?]

/-- **C25** Any interleaving of `next` and `next_back` on an AST built by pushes behaves as on
the list of pushed declarations; `len` is the number remaining. -/
theorem C25_iter_is_deque (ds : List Decl) (qs : List Bool) :
    ((AstIter.new (Ast.ofDecls ds)).run qs).1 = (dequeRun qs ds).1 ∧
    ((AstIter.new (Ast.ofDecls ds)).run qs).2.len = (dequeRun qs ds).2.length := by
  have key : ∀ (it : AstIter) (ds : List Decl), it.Rep ds →
      (it.run qs).1 = (dequeRun qs ds).1 ∧ (it.run qs).2.len = (dequeRun qs ds).2.length := by
    induction qs with
    | nil => intro it ds h; exact ⟨rfl, by simp [AstIter.run, dequeRun, AstIter.len, h.1]⟩
    | cons q qs ih =>
      intro it ds h
      cases q with
      | true =>
        have hn := AstIter.rep_next h
        have := ih _ _ hn.2
        simp [AstIter.run, dequeRun, hn.1, this]
      | false =>
        have hn := AstIter.rep_nextBack h
        have := ih _ _ hn.2
        simp [AstIter.run, dequeRun, hn.1, this]
  apply key
  rw [Ast.ofDecls_eq]
  exact ⟨rfl, rfl, rfl⟩

theorem dequeRun_all {α : Type} (ds : List α) :
    dequeRun (List.replicate ds.length true) ds = (ds.map some, []) := by
  induction ds with
  | nil => rfl
  | cons d ds ih => simp [List.replicate_succ, dequeRun, ih]

/-- **C25** Forward iteration reproduces the declarations in push order. -/
theorem C25_iter_in_order (ds : List Decl) :
    ((AstIter.new (Ast.ofDecls ds)).run (List.replicate ds.length true)).1 = ds.map some := by
  rw [(C25_iter_is_deque ds _).1, dequeRun_all]

example : ((AstIter.new (Ast.ofDecls
    [.infix_ ⟨[.standard t!"+"], ⟨6, .left⟩⟩, .expr (.var (.lower t!"a")),
     .expr (.var (.lower t!"b"))])).run [false, true, true, true]).1 =
    [some (.expr (.var (.lower t!"b"))), some (.infix_ ⟨[.standard t!"+"], ⟨6, .left⟩⟩),
     some (.expr (.var (.lower t!"a"))), none] := by decide

end Pemdas
