import Verif.Spec.Echo
import Verif.Lemmas.Reprint
import Verif.Lemmas.ReprintSource
/-
Helper lemmas: formulas, what is typed and what is shown for them.
-/
namespace Pemdas
open Resolver OpTree Printer

/-! ### resolution keeps formulas -/

theorem formula_toExpr (t : OpTree) : t.toExpr.Formula ↔ ∀ x ∈ t.operands, x.Formula := by
  induction t with
  | leaf e => simp [toExpr, operands]
  | node l op r ihl ihr =>
    simp only [toExpr, Expr.Formula, ihl, ihr, operands, List.mem_append]
    exact ⟨fun h x hx => hx.elim (h.1 x) (h.2 x), fun h => ⟨fun x hx => h x (.inl hx),
      fun x hx => h x (.inr hx)⟩⟩

theorem formula_chain (e : Expr) : e.Formula ↔ ∀ x ∈ e.chainOperands, x.Formula := by
  fun_induction Expr.chainOperands e with
  | case1 l op r ih => simp [Expr.Formula, ih]
  | case2 e h => simp

theorem rewrite_formula {m : Fixities} {e e' : Expr} (h : m.rewrite e = .ok (.ok e')) :
    e'.Formula ↔ e.Formula := by
  obtain ⟨t, rfl, hg, _⟩ := rewrite_ok_grouping h
  rw [formula_toExpr, formula_chain e, hg.1]

theorem thread_formula {r es r' es'}
    (h : Thread (fun _ e _ e' => e'.Formula ↔ e.Formula) r es r' es') :
    Expr.FormulaList es' ↔ Expr.FormulaList es := by
  induction h with
  | nil => exact Iff.rfl
  | cons hp _ ih => simp only [Expr.FormulaList, hp, ih]

theorem visit_formula : ∀ e r r' e', visit r e = .ok (r', e') → (e'.Formula ↔ e.Formula) := by
  apply visit_induct (P := fun _ e _ e' => e'.Formula ↔ e.Formula)
  case bin =>
    intro r a op b a₁ op₁ b₁ r₁ a₂ r₂ b₂ hr h1 h2
    rw [← rewrite_formula hr]
    simp only [Expr.Formula, h1, h2]
  case tup => intro r es r₁ es' h; exact thread_formula h
  case list => intro r es r₁ es' h; exact thread_formula h
  all_goals intros; simp_all [Expr.Formula]

mutual
theorem Expr.Formula.facts : ∀ {e : Expr}, e.Formula → e.LetsDistinct ∧ e.NoNeg
  | .lit _, _ => ⟨trivial, trivial⟩
  | .var _, _ => ⟨trivial, trivial⟩
  | .app _ _, h => ⟨⟨h.1.facts.1, h.2.facts.1⟩, h.1.facts.2, h.2.facts.2⟩
  | .bin _ _ _, h => ⟨⟨h.1.facts.1, h.2.facts.1⟩, h.1.facts.2, h.2.facts.2⟩
  | .grp b, h => Expr.Formula.facts (e := b) h
  | .tup es, h => Expr.FormulaList.facts es h
  | .list es, h => Expr.FormulaList.facts es h
theorem Expr.FormulaList.facts : ∀ (es : List Expr), Expr.FormulaList es →
    Expr.LetsDistinctList es ∧ Expr.NoNegList es
  | [], _ => ⟨trivial, trivial⟩
  | _ :: es, h => ⟨⟨h.1.facts.1, (Expr.FormulaList.facts es h.2).1⟩, h.1.facts.2,
      (Expr.FormulaList.facts es h.2).2⟩
end

section
variable [CharTables]

omit [CharTables] in
theorem plain_parIf {e : Expr} (h : e.Formula) (d : Nat) (ps : List Piece) :
    plain (parIf (!noParen e) d ps) = inOwnParens e (plain ps) := by
  cases e <;> first | exact h.elim | simp [noParen, parIf, inOwnParens, plain_inParens]

theorem printedList_cons {e : Expr} {es : List Expr} : Expr.printedList (e :: es) =
    e.printed ++ (es.flatMap fun x => t!", " ++ x.printed) := by
  induction es generalizing e with
  | nil => simp [Expr.printedList]
  | cons x es ih => rw [Expr.printedList, ih] <;> simp

mutual
theorem plain_ppGo : ∀ (e : Expr) (d : Nat), e.Formula → plain (ppGo d none e) = e.printed
  | .lit l, d, _ => by simp [ppGo, ppEnter, plain, Piece.plain, Expr.printed]
  | .var i, d, _ => by
    cases i <;> simp [ppGo, ppEnter, plain, Piece.plain, Expr.printed, Ident.isInfix, Ident.text]
  | .app f x, d, h => by
    simp only [ppGo, ppEnter, Option.getD_none, List.nil_append, plain_append, Expr.printed,
      plain_ppGo f d h.1, plain_ppGo x d h.2]
    simp [plain, Piece.plain]
  | .bin l op r, d, h => by
    simp only [ppGo, ppEnter, Option.getD_none, List.nil_append, plain_append, Expr.printed,
      plain_parIf h.1, plain_parIf h.2, plain_ppGo l (d + 1) h.1, plain_ppGo r (d + 1) h.2]
    simp [plain, Piece.plain]
  | .grp e, d, h => by
    have ih : plain (ppGo d none e) = e.printed := plain_ppGo e d h
    simp [ppGo, ppEnter, plain_inParens, Expr.printed, ih]
  | .tup es, d, h => by
    simp only [ppGo, ppEnter, List.nil_append, plain_append, Expr.printed, plain_ppList es h]
    simp [plain, Piece.plain]
  | .list es, d, h => by
    simp only [ppGo, ppEnter, List.nil_append, plain_append, Expr.printed, plain_ppList es h]
    simp [plain, Piece.plain]
theorem plain_ppList : ∀ (es : List Expr), Expr.FormulaList es →
    plain (ppList true es) = Expr.printedList es
  | [], _ => rfl
  | e :: es, h => by
    rw [printedList_cons]
    simp only [ppList, if_true, List.nil_append, plain_append, plain_ppGo e 0 h.1, plain_ppMore es h.2]
theorem plain_ppMore : ∀ (es : List Expr), Expr.FormulaList es →
    plain (ppList false es) = es.flatMap fun x => t!", " ++ x.printed
  | [], _ => rfl
  | e :: es, h => by
    simp only [ppList, Bool.false_eq_true, if_false, plain_append, plain_ppGo e 0 h.1,
      plain_ppMore es h.2, List.flatMap_cons]
    simp [plain, Piece.plain]
end

/-! ### what is typed -/

theorem Expr.Typable.formula : ∀ {e : Expr}, e.Typable → e.Formula
  | .lit _, _ => trivial
  | .var _, _ => trivial
  | .app _ _, h => ⟨h.2.2.1.formula, h.2.2.2.formula⟩
  | .bin _ _ _, h => ⟨h.2.2.1.formula, h.2.2.2.formula⟩
  | .grp b, h => Expr.Typable.formula (e := b) h

theorem Expr.Typable.rereads : ∀ {e : Expr}, e.Typable → e.Rereads
  | .lit _, h => h
  | .var _, ⟨_, h, hp⟩ => by subst h; exact hp
  | .app f _, h => ⟨h.1, by
      have hf := h.2.2.1.formula
      cases f <;> first | exact hf.elim | rfl, h.2.1, h.2.2.1.rereads, h.2.2.2.rereads⟩
  | .bin _ _ _, h => ⟨h.1, h.2.2.1.rereads, h.2.2.2.rereads⟩
  | .grp b, h => Expr.Typable.rereads (e := b) h

variable [LawfulTables]

theorem Expr.Typable.reads : ∀ {e : Expr}, e.Typable → ∃ ts, ReadsAs e.typed ts ∧
    Line .chain e ts ∧ (e.NonBin → Line .operand e ts) ∧ (e.isArg = true → Line .arg e ts)
  | .lit l, h => ⟨[.lit l], .lit h, .last (.head (.lit l)), fun _ => .head (.lit l), fun _ => .lit l⟩
  | .var _, ⟨s, h, hp⟩ => by
    subst h
    exact ⟨[.lower s], .name hp.1, .last (.head (.lower s)), fun _ => .head (.lower s),
      fun _ => .lower s⟩
  | .app f x, h => by
    obtain ⟨ts, f1, _, f2, _⟩ := h.2.2.1.reads
    obtain ⟨us, x1, _, _, x2⟩ := h.2.2.2.reads
    have hl := Line.app (f2 h.1) (x2 h.2.1)
    refine ⟨ts ++ us, ?_, .last hl, fun _ => hl, by simp [Expr.isArg]⟩
    have := f1.append x1.space (.cons (by decide))
    simpa [Expr.typed] using this
  | .bin l op r, h => by
    obtain ⟨ts, l1, _, l2, _⟩ := h.2.2.1.reads
    obtain ⟨us, r1, r2, _, _⟩ := h.2.2.2.reads
    obtain ⟨t, o1, o2⟩ := ReadsAs.infix_ h.1
    refine ⟨ts ++ t :: us, ?_, .bin (l2 h.2.1) o1 r2, by simp [Expr.NonBin, Expr.rootOp],
      by simp [Expr.isArg]⟩
    have := l1.append (o2.append r1.space (.cons (by decide))).space (.cons (by decide))
    simpa [Expr.typed] using this
  | .grp b, h => by
    obtain ⟨ts, b1, b2, _⟩ := Expr.Typable.reads (e := b) h
    have hl := Line.grp b2
    refine ⟨_, ?_, .last (.head hl), fun _ => .head hl, fun _ => hl⟩
    have := b1.paren
    simpa [Expr.typed] using this

end
end Pemdas
