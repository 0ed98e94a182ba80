import Verif.Lemmas.Replace
import Verif.Props.Resolver
import Verif.Props.Echo
/-
C184: replacing names by operands.
-/
namespace Pemdas
open Resolver

/-- **C184** (part that holds) If the names in an expression that is resolved without an error are replaced by
operands that fit in where they are put, then the result is the result before with the names replaced by the operands as
they are grouped. Missing: `let`s that name an operator twice. -/
theorem C184_replaced_partial (m m' : Fixities) (e x : Expr) (hs : e.RightNested) (hl : e.LetsDistinct)
    (h : visit ⟨m, []⟩ e = .ok (⟨m', []⟩, x)) (σ τ : Ident → Expr) (hn : ∀ i, (σ i).NonBin ∧ (τ i).NonBin)
    (hsσ : ∀ i, (σ i).RightNested) (hlσ : ∀ i, (σ i).LetsDistinct) (ht : ∀ i, (τ i).toks = (σ i).toks)
    (hg : ∀ i fx, SubAt m.get e fx (.var i) → (τ i).Grouped fx) :
    visit ⟨m, []⟩ (e.replaced σ) = .ok (⟨m', []⟩, x.replaced τ) := by
  have h1 := C09_result_grouped_partial m m' e x hs hl h
  have h0 := C09_only_grouping_changes _ _ _ _ h
  have h2 := C10_result_is_regrouping_partial m e x hs hl h0 h1
  rw [h] at h2
  simp only [Except.ok.injEq, Prod.mk.injEq, Resolver.mk.injEq, and_true] at h2
  rw [h2]
  refine C10_result_is_regrouping_partial m (e.replaced σ) (x.replaced τ)
    (rightNested_replaced (fun i => (hn i).1) hsσ e hs) (letsDistinct_replaced hlσ e hl) ?_
    (grouped_replaced (fun i => (hn i).2) x m.get h1 fun i fx k => hg i fx ((visit_placed e _ _ _ h m.get fx i).1 k))
  rw [toks_replaced, toks_replaced, h0]
  congr 1
  funext i
  exact ht i

/-- **C184** (part that holds) The same where no operator that a `let` of the expression names is used in an operand:
the operands are resolved as on their own. Missing: `let`s that name an operator twice. -/
theorem C184_separately_partial (m m' : Fixities) (e x : Expr) (hs : e.RightNested) (hl : e.LetsDistinct)
    (h : visit ⟨m, []⟩ e = .ok (⟨m', []⟩, x)) (σ τ : Ident → Expr) (hn : ∀ i, (σ i).NonBin)
    (hsσ : ∀ i, (σ i).RightNested) (hlσ : ∀ i, (σ i).LetsDistinct)
    (hv : ∀ i, ∃ m'', visit ⟨m, []⟩ (σ i) = .ok (⟨m'', []⟩, τ i))
    (hu : ∀ i d o, LetIn d e → UsesOp o (σ i) → o.symbol ∉ d.infixes.map Infix.symbol) :
    visit ⟨m, []⟩ (e.replaced σ) = .ok (⟨m', []⟩, x.replaced τ) := by
  have htoks : ∀ i, (τ i).toks = (σ i).toks := fun i => by
    obtain ⟨m'', hv⟩ := hv i
    exact C09_only_grouping_changes _ _ _ _ hv
  refine C184_replaced_partial m m' e x hs hl h σ τ (fun i => ⟨hn i, (toks_nonBin (hn i)).elim fun k hk => nonBin_of_toks ((htoks i).trans hk)⟩) hsσ hlσ htoks ?_
  intro i fx k
  obtain ⟨m'', hv⟩ := hv i
  have hg := C09_result_grouped_partial m m'' (σ i) (τ i) (hsσ i) (hlσ i) hv
  refine grouped_agree (τ i) m.get fx (fun o ho => ?_) hg
  exact (subAt_agree k fun d hd => hu i d o hd (visit_usesOp o _ _ _ _ hv ho)).symm

/-- **C184** (part that holds) An expression in which names are replaced is accepted exactly if the expression is and
each operand is, with the fixities in scope where it is put. Missing: `let`s that name an operator twice. -/
theorem C184_accepted_partial (m m' m'' : Fixities) (e x y : Expr) (es es' : List AssocError) (hs : e.RightNested)
    (hl : e.LetsDistinct) (σ : Ident → Expr) (hn : ∀ i, (σ i).NonBin) (hsσ : ∀ i, (σ i).RightNested)
    (hlσ : ∀ i, (σ i).LetsDistinct) (h : visit ⟨m, []⟩ e = .ok (⟨m', es⟩, x))
    (h' : visit ⟨m, []⟩ (e.replaced σ) = .ok (⟨m'', es'⟩, y)) :
    es' = [] ↔ es = [] ∧ ∀ i fx p c, SubAt m.get e fx (.var i) → ¬ Conflict fx (σ i) p c := by
  have h1 := C16_reported_iff_conflict_partial m m' e x es hs hl h
  have h2 := C16_reported_iff_conflict_partial m m'' (e.replaced σ) y es' (rightNested_replaced hn hsσ e hs)
    (letsDistinct_replaced hlσ e hl) h'
  simp only [conflict_replaced hn] at h2
  constructor
  · intro he
    refine ⟨Decidable.byContradiction fun hne => ?_, fun i fx p c hi hc => ?_⟩
    · obtain ⟨p, c, hpc⟩ := h1.1 hne
      exact h2.2 ⟨p, c, .inl hpc⟩ he
    · exact h2.2 ⟨p, c, .inr ⟨i, fx, hi, hc⟩⟩ he
  · rintro ⟨he, hf⟩
    refine Decidable.byContradiction fun hne => ?_
    obtain ⟨p, c, hpc | ⟨i, fx, hi, hc⟩⟩ := h2.1 hne
    · exact h1.2 ⟨p, c, hpc⟩ he
    · exact hf i fx p c hi hc

/-! ### concrete cases -/

/-- `x` stands for an expression in parentheses, other names for themselves. -/
def exOperand (e : Expr) : Ident → Expr := fun i => if i = .lower t!"x" then .grp e else .var i

/-- C184: `a * x + d` and `(b * c * d)`: the hypotheses of `C184_separately_partial` are met. -/
example : ∃ (e x : Expr) (σ τ : Ident → Expr), e.RightNested ∧ e.LetsDistinct ∧
    visit ⟨exTable, []⟩ e = .ok (⟨exTable, []⟩, x) ∧ (∀ i, (σ i).NonBin) ∧ (∀ i, (σ i).RightNested) ∧
    (∀ i, (σ i).LetsDistinct) ∧ (∀ i, ∃ m'', visit ⟨exTable, []⟩ (σ i) = .ok (⟨m'', []⟩, τ i)) ∧
    (∀ i d o, LetIn d e → UsesOp o (σ i) → o.symbol ∉ d.infixes.map Infix.symbol) ∧
    e.replaced σ = .bin exA opMul (.bin (.grp (.bin exB opMul (.bin exC opMul exD))) opPlus exD) ∧
    x.replaced τ = .bin (.bin exA opMul (.grp (.bin (.bin exB opMul exC) opMul exD))) opPlus exD := by
  refine ⟨.bin exA opMul (.bin (.var (.lower t!"x")) opPlus exD), .bin (.bin exA opMul (.var (.lower t!"x"))) opPlus exD,
    exOperand (.bin exB opMul (.bin exC opMul exD)), exOperand (.bin (.bin exB opMul exC) opMul exD), ?_, ?_, by decide,
    ?_, ?_, ?_, ?_, ?_, rfl, rfl⟩
  · simp [Expr.RightNested, Expr.NonBin, Expr.rootOp, exA, exD]
  · simp [Expr.LetsDistinct, exA, exD]
  · intro i
    unfold exOperand
    split <;> simp [Expr.NonBin, Expr.rootOp]
  · intro i
    unfold exOperand
    split <;> simp [Expr.RightNested, Expr.NonBin, Expr.rootOp, exB, exC, exD]
  · intro i
    unfold exOperand
    split <;> simp [Expr.LetsDistinct, exB, exC, exD]
  · intro i
    refine ⟨exTable, ?_⟩
    unfold exOperand
    split
    · decide
    · rfl
  · intro i d o hd
    rcases hd with _ | _ | _ | hd | hd
    · cases hd
    · rcases hd with _ | _ | _ | hd | hd <;> cases hd

section
attribute [local instance] asciiTables asciiTables_lawful

/-- C184: with texts. -/
example : exShown [t!"infixl 6 +", t!"infixl 7 *", t!"a * x + d"] = some [t!"  (a * x) + d\n"] ∧
    exShown [t!"infixl 6 +", t!"infixl 7 *", t!"(b * c * d)"] = some [t!"  ((b * c) * d)\n"] ∧
    exShown [t!"infixl 6 +", t!"infixl 7 *", t!"a * (b * c * d) + d"] = some [t!"  (a * ((b * c) * d)) + d\n"] := by
  decide +kernel

/-- C184: an operand that uses an operator for which a `let` around it declares another fixity is grouped differently
there. -/
theorem C184_fixities_of_place :
    exShown [t!"infixl 6 +", t!"infixl 7 *", t!"let infixl 8 + in x"] = some [t!"  x\n"] ∧
    exShown [t!"infixl 6 +", t!"infixl 7 *", t!"(a + b * c)"] = some [t!"  (a + (b * c))\n"] ∧
    exShown [t!"infixl 6 +", t!"infixl 7 *", t!"let infixl 8 + in (a + b * c)"] = some [t!"  ((a + b) * c)\n"] := by
  decide +kernel

/-- C184 is false: an operand is not grouped as the fixities in scope demand if a `let` before it names an operator
twice. -/
theorem C184_let_wrong :
    exShown [t!"infixl 6 +", t!"infixl 7 *", t!"[let infixl 0 *, * in a, x]"] = some [t!"  [a, x]\n"] ∧
    exShown [t!"infixl 6 +", t!"infixl 7 *", t!"(b * c + d)"] = some [t!"  ((b * c) + d)\n"] ∧
    exShown [t!"infixl 6 +", t!"infixl 7 *", t!"[let infixl 0 *, * in a, (b * c + d)]"] =
      some [t!"  [a, (b * (c + d))]\n"] := by
  decide +kernel

end
end Pemdas
