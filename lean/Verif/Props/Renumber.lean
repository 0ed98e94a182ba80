import Verif.Lemmas.Renumber
/-
C180: only the order of the precedences that a program declares matters.
-/
namespace Pemdas
open Resolver

/-- **C180.** Whatever numbers a program declares, at top level and in front of expressions,
replacing them, and those of the table, by others in the same order changes nothing but those
numbers: not the grouping of any chain at any depth, not which errors are reported, which
operators they name nor their order, and not which operators the table that results holds.  The
number 9, which operators that are not declared have, stays. -/
theorem C180_programs {f : Nat → Nat} {U : Nat → Prop} (h : Renum.Ordered f U) {r : Resolver}
    (hr : Renum.InResolver U r) {a : Ast} (ha : Renum.InAst U a) :
    resolveAst (Renum.resolver f r) (Renum.ast f a) =
      (resolveAst r a).map fun x =>
        (Renum.resolver f x.1, Renum.ast f x.2.1, x.2.2.map (Renum.error f)) := by
  have hv := (Renum.walkList_num (Renum.visit_num h) a.exprs
    { r with fixities := loadDecls r.fixities a.infxs }
    ⟨Renum.loadDecls_in ha.1 hr.1, hr.2⟩ ha.2).1
  have h1 : visitAst (Renum.resolver f r) (Renum.ast f a) =
      (visitAst r a).map fun x => (Renum.resolver f x.1, Renum.ast f x.2) := by
    simp only [visitAst, Renum.ast]
    rw [show (Renum.resolver f r).fixities = r.fixities.map (Renum.entry f) from rfl,
      Renum.loadDecls_num]
    simp only [Renum.resolver] at hv ⊢
    rw [hv]
    cases walkList visit { r with fixities := loadDecls r.fixities a.infxs } a.exprs <;> rfl
  unfold resolveAst
  rw [h1]
  cases visitAst r a with
  | error s => rfl
  | ok x =>
    obtain ⟨⟨m, es⟩, a'⟩ := x
    simp only [Except.map, bind, Except.bind, Renum.resolver, List.map_eq_nil_iff]
    split
    · rfl
    · simp only [takeErrors]; rfl

/-- **C180.** No other numbers get into the table, so that the same holds of the programs that
follow. -/
theorem C180_next {f : Nat → Nat} {U : Nat → Prop} (h : Renum.Ordered f U) {r r' : Resolver}
    (hr : Renum.InResolver U r) {a a' : Ast} (ha : Renum.InAst U a) {es : List AssocError}
    (hx : resolveAst r a = .ok (r', a', es)) : Renum.InResolver U r' := by
  have hv := (Renum.walkList_num (Renum.visit_num h) a.exprs
    { r with fixities := loadDecls r.fixities a.infxs }
    ⟨Renum.loadDecls_in ha.1 hr.1, hr.2⟩ ha.2).2
  unfold resolveAst visitAst at hx
  cases hw : walkList visit { r with fixities := loadDecls r.fixities a.infxs } a.exprs with
  | error s => simp [hw, bind, Except.bind] at hx
  | ok x =>
    have h2 := hv x hw
    simp only [hw, bind, Except.bind] at hx
    split at hx
    · cases hx; exact h2
    · simp only [takeErrors] at hx
      cases hx; exact ⟨h2.1, nofun⟩

/-- Precedences 5, 6 and 7 moved down to 1, 2 and 3; 9 stays. -/
def exRenumbering (n : Nat) : Nat := if n = 9 then 9 else n - 4

theorem exRenumbering_ordered : Renum.Ordered exRenumbering fun n => n = 5 ∨ n = 6 ∨ n = 7 ∨ n = 9 := by
  refine ⟨?_, by simp, rfl⟩
  rintro a b (rfl | rfl | rfl | rfl) (rfl | rfl | rfl | rfl) <;> decide

/-- A program with declarations, an undeclared operator, a local declaration and a clash. -/
def exRenumbered : Ast :=
  ⟨[.infix_, .infix_, .expr, .expr],
    [⟨[.standard t!"+"], ⟨6, .left⟩⟩, ⟨[.standard t!"*"], ⟨7, .left⟩⟩],
    [.bin (.lit (.int 1)) (.standard t!"+") (.bin (.lit (.int 2)) (.standard t!"*")
        (.bin (.lit (.int 3)) (.standard t!"#") (.lit (.int 4)))),
     .let_ ⟨[.standard t!"#"], ⟨6, .right⟩⟩ (.bin (.lit (.int 1)) (.standard t!"+")
        (.bin (.lit (.int 2)) (.standard t!"#") (.lit (.int 3))))]⟩

example : Renum.InAst (fun n => n = 5 ∨ n = 6 ∨ n = 7 ∨ n = 9) exRenumbered := by
  simp [Renum.InAst, Renum.InExprs, Renum.InExpr, exRenumbered]

example :
    (resolveAst Resolver.new exRenumbered).map (fun x => x.2.2) =
      .ok [⟨(.standard t!"+", ⟨6, .left⟩), (.standard t!"#", ⟨6, .right⟩)⟩] ∧
    (resolveAst Resolver.new (Renum.ast exRenumbering exRenumbered)).map (fun x => x.2.2) =
      .ok [⟨(.standard t!"+", ⟨2, .left⟩), (.standard t!"#", ⟨2, .right⟩)⟩] ∧
    (resolveAst Resolver.new (Renum.ast exRenumbering exRenumbered)).map (fun x => x.1.fixities) =
      .ok [(.standard t!"+", ⟨2, .left⟩), (.standard t!"*", ⟨3, .left⟩)] := by
  decide +kernel

/-- Numbers in the same order are not enough if 9 does not stay: with an
operator that is not declared, `infixl 8 *` and `infixl 9 *` differ though no other number is
declared. -/
theorem C180_nine_needed : ∃ (f : Nat → Nat) (m : Fixities) (e e' : Expr),
    (∀ a b, f a < f b ↔ a < b) ∧ Renum.expr f e = e ∧
    m.rewrite e = .ok (.ok e') ∧ Fixities.rewrite (m.map (Renum.entry f)) e ≠ .ok (.ok e') :=
  ⟨fun n => n + 1, [(.standard t!"*", ⟨8, .left⟩)],
    .bin (.lit (.int 1)) (.standard t!"*") (.bin (.lit (.int 2)) (.standard t!"+")
      (.lit (.int 3))),
    .bin (.lit (.int 1)) (.standard t!"*") (.bin (.lit (.int 2)) (.standard t!"+")
      (.lit (.int 3))),
    fun a b => Nat.add_lt_add_iff_right, rfl, by decide +kernel, by decide +kernel⟩

end Pemdas
