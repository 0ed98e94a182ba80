import Verif.Lemmas.Rename
/-
C134: names do not matter to resolving.
-/
namespace Pemdas
open Resolver

/-- **C134.** Renaming the operators of a program and of the table, consistently, and changing
literals, variables and patterns at will renames the result and changes nothing else: not the
grouping, not which errors are reported nor their order, not the table that results. -/
theorem C134_programs {ρ : Renaming} (hρ : ρ.Faithful) (r : Resolver) (a : Ast) :
    resolveAst (ρ.resolver r) (ρ.ast a) =
      (resolveAst r a).map fun x => (ρ.resolver x.1, ρ.ast x.2.1, x.2.2.map ρ.error) := by
  have hv := Renaming.walkList_ren (Renaming.visit_ren hρ) a.exprs
    { r with fixities := loadDecls r.fixities a.infxs }
  have h1 : visitAst (ρ.resolver r) (ρ.ast a) =
      (visitAst r a).map fun x => (ρ.resolver x.1, ρ.ast x.2) := by
    simp only [visitAst, Renaming.ast]
    rw [show (ρ.resolver r).fixities = r.fixities.map ρ.entry from rfl,
      Renaming.loadDecls_ren hρ]
    simp only [Renaming.resolver] at hv ⊢
    rw [hv]
    cases walkList visit { r with fixities := loadDecls r.fixities a.infxs } a.exprs <;> rfl
  unfold resolveAst
  rw [h1]
  cases visitAst r a with
  | error s => rfl
  | ok x =>
    obtain ⟨⟨m, es⟩, a'⟩ := x
    simp only [Except.map, bind, Except.bind, Renaming.resolver, List.map_eq_nil_iff]
    split
    · rfl
    · simp only [takeErrors]; rfl

/-- **C134.** The same for one chain of operators. -/
theorem C134_chains {ρ : Renaming} (hρ : ρ.Faithful) (m : Fixities) (e : Expr) :
    (∀ e', m.rewrite e = .ok (.ok e') →
      Fixities.rewrite (m.map ρ.entry) (ρ.expr e) = .ok (.ok (ρ.expr e'))) ∧
    (∀ err, m.rewrite e = .ok (.error err) →
      Fixities.rewrite (m.map ρ.entry) (ρ.expr e) = .ok (.error (ρ.error err))) := by
  constructor <;> intro x h <;> rw [Renaming.rewrite_ren hρ, h] <;> rfl

/-- Reading operators backwards, everything else collapsed: a faithful renaming. -/
def exRenaming : Renaming where
  op o := .promoted o.symbol.reverse
  lit _ := .int 0
  var _ := .lower t!"x"
  pat _ := .wild

theorem exRenaming_faithful : exRenaming.Faithful := by
  intro a b
  simp [exRenaming, Infix.symbol]

/-- A program with a chain, a clash and a local fixity. -/
example :
    let a : Ast := ⟨[.infix_, .expr, .expr], [⟨[.standard t!"+-"], ⟨6, .left⟩⟩],
      [.bin (.var (.lower t!"a")) (.standard t!"*") (.bin (.lit (.int 1)) (.standard t!"+-")
          (.lit (.int 2))),
       .let_ ⟨[.standard t!"+-"], ⟨9, .right⟩⟩ (.bin (.lit (.int 1)) (.standard t!"*")
          (.bin (.lit (.int 2)) (.standard t!"+-") (.lit (.int 3))))]⟩
    (resolveAst Resolver.new a).map (fun x => x.2.2.length) = .ok 1 ∧
    (resolveAst Resolver.new (exRenaming.ast a)).map (fun x => x.2.2.length) = .ok 1 ∧
    (resolveAst Resolver.new (exRenaming.ast a)).map (fun x => x.1.fixities) =
      .ok [(.promoted t!"-+", ⟨6, .left⟩)] := by
  decide +kernel

/-- Without the hypothesis it is false: making two operators one changes the grouping. -/
theorem C134_faithful_needed : ∃ (ρ : Renaming) (m : Fixities) (e e' : Expr),
    m.rewrite e = .ok (.ok e') ∧
      Fixities.rewrite (m.map ρ.entry) (ρ.expr e) ≠ .ok (.ok (ρ.expr e')) :=
  ⟨⟨fun _ => .standard t!"+", id, id, id⟩, [(.standard t!"*", ⟨7, .left⟩)],
    .bin (.lit (.int 1)) (.standard t!"*") (.bin (.lit (.int 2)) (.standard t!"+") (.lit (.int 3))),
    .bin (.lit (.int 1)) (.standard t!"*") (.bin (.lit (.int 2)) (.standard t!"+") (.lit (.int 3))),
    by decide +kernel, by decide +kernel⟩

end Pemdas
