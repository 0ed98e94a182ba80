import Verif.Lemmas.GroupingMore
/-
C01–C08: the infix rewriting of `Fixities::rewrite`.
-/
namespace Pemdas
open OpTree

/-! ### Concrete objects used to show that hypotheses are met -/

/-- `a` -/
def exA : Expr := .var (.lower t!"a")
/-- `b` -/
def exB : Expr := .var (.lower t!"b")
/-- `c` -/
def exC : Expr := .var (.lower t!"c")
/-- `d` -/
def exD : Expr := .var (.lower t!"d")
/-- `+` -/
def opPlus : Infix := .standard t!"+"
/-- `*` -/
def opMul : Infix := .standard t!"*"
/-- `^` -/
def opPow : Infix := .standard t!"^"
/-- `==` -/
def opEq : Infix := .standard t!"=="
/-- `infixl 6 +; infixl 7 *; infixr 8 ^; infix 4 ==` -/
def exTable : Fixities :=
  [(opPlus, ⟨6, .left⟩), (opMul, ⟨7, .left⟩), (opPow, ⟨8, .right⟩), (opEq, ⟨4, .neither⟩)]
/-- `a * b ^ c + d` as the parser delivers it. -/
def exChain : Expr := .bin exA opMul (.bin exB opPow (.bin exC opPlus exD))
/-- `(a * (b ^ c)) + d`. -/
def exTree : OpTree :=
  .node (.node (.leaf exA) opMul (.node (.leaf exB) opPow (.leaf exC))) opPlus (.leaf exD)
/-- `a == b * c == d` as the parser delivers it. -/
def exBad : Expr := .bin exA opEq (.bin exB opMul (.bin exC opEq exD))

/-- **C01** Grouping soundness. -/
theorem C01_grouping_sound (m : Fixities) (e e' : Expr) (h : m.rewrite e = .ok (.ok e')) :
    ∃ t : OpTree, t.toExpr = e' ∧ IsGrouping e t ∧ t.WellGrouped m.get := by
  rw [rewrite_eq] at h
  cases hm : machine m.get [] (.leaf e.chainFirst) e.chainRest with
  | error err => rw [hm] at h; simp [Except.map] at h
  | ok t =>
    rw [hm] at h
    simp only [Except.map, Except.ok.injEq] at h
    refine ⟨t, h, ?_, machine_sound (st := []) trivial hm⟩
    rw [isGrouping_iff]
    exact machine_order hm

example : exTable.rewrite exChain = .ok (.ok exTree.toExpr) := by decide

/-- **C02** Grouping completeness: any grouping respecting the fixities is what `rewrite`
returns. -/
theorem C02_grouping_complete (m : Fixities) (e : Expr) (t : OpTree) (hg : IsGrouping e t)
    (hw : t.WellGrouped m.get) : m.rewrite e = .ok (.ok t.toExpr) := by
  rw [isGrouping_iff] at hg
  rw [rewrite_eq, ← hg.1, ← hg.2, machine_complete m.get t hw]
  rfl

/-- **C02** Uniqueness: at most one grouping of a chain respects the fixities. -/
theorem C02_grouping_unique (fx : Env) (e : Expr) (t₁ t₂ : OpTree) (h₁ : IsGrouping e t₁)
    (h₂ : IsGrouping e t₂) (w₁ : t₁.WellGrouped fx) (w₂ : t₂.WellGrouped fx) : t₁ = t₂ := by
  rw [isGrouping_iff] at h₁ h₂
  have a := machine_complete fx t₁ w₁
  have b := machine_complete fx t₂ w₂
  rw [h₁.1, h₁.2] at a
  rw [h₂.1, h₂.2, a] at b
  simpa using b

example : IsGrouping exChain exTree ∧ exTree.WellGrouped exTable.get := by
  refine ⟨⟨rfl, rfl⟩, ?_⟩
  simp [exTree, WellGrouped, root, LeftOk, RightOk, exTable, Fixities.get, Fixities.getDefined,
    Infix.symbol, opPlus, opMul, opPow, opEq]

/-- **C03** `rewrite` reports an error iff no grouping respects the fixities. -/
theorem C03_error_iff_no_grouping (m : Fixities) (e : Expr) :
    (∃ err, m.rewrite e = .ok (.error err)) ↔
      ¬ ∃ t : OpTree, IsGrouping e t ∧ t.WellGrouped m.get := by
  constructor
  · rintro ⟨err, h⟩ ⟨t, hg, hw⟩
    rw [C02_grouping_complete m e t hg hw] at h
    simp at h
  · intro h
    rw [rewrite_eq]
    cases hm : machine m.get [] (.leaf e.chainFirst) e.chainRest with
    | error err => exact ⟨err, rfl⟩
    | ok t =>
      exact absurd ⟨t, (isGrouping_iff e t).2 (machine_order hm), machine_sound (st := []) trivial hm⟩ h

/-- **C03** The error names two clashing operators of the chain, in source order, with their
table fixities, separated only by tighter operators. -/
theorem C03_error_names_clash (m : Fixities) (e : Expr) (err : AssocError)
    (h : m.rewrite e = .ok (.error err)) :
    ∃ p c, err = ⟨(p, m.get p), (c, m.get c)⟩ ∧ ClashIn m.get e.chainOperators p c := by
  rw [rewrite_eq] at h
  cases hm : machine m.get [] (.leaf e.chainFirst) e.chainRest with
  | ok t => rw [hm] at h; simp [Except.map] at h
  | error err' =>
    rw [hm] at h
    simp only [Except.map, Except.ok.injEq, Except.error.injEq] at h
    subst h
    have := machine_error (st := []) trivial hm
    rw [Expr.chainOperators_eq]
    simpa [pendingRest, rest] using this

/-- **C03** Consequently there is an error iff the chain contains such a pair. -/
theorem C03_error_iff_clash (m : Fixities) (e : Expr) :
    (∃ err, m.rewrite e = .ok (.error err)) ↔ ∃ p c, ClashIn m.get e.chainOperators p c := by
  constructor
  · rintro ⟨err, h⟩
    obtain ⟨p, c, _, hc⟩ := C03_error_names_clash m e err h
    exact ⟨p, c, hc⟩
  · rintro ⟨p, c, hc⟩
    rw [C03_error_iff_no_grouping]
    rintro ⟨t, hg, hw⟩
    rw [← hg.2] at hc
    exact no_clash_of_wellGrouped hw hc

example : exTable.rewrite exBad = .ok (.error ⟨(opEq, ⟨4, .neither⟩), (opEq, ⟨4, .neither⟩)⟩) := by
  decide

/-- **C04** `rewrite` never trips its assertions. -/
theorem C04_rewrite_never_panics (m : Fixities) (e : Expr) (p : Panic) : m.rewrite e ≠ .error p := by
  rw [rewrite_eq]; simp

/-- **C05** Resolving a resolved chain changes nothing. -/
theorem C05_rewrite_idempotent (m : Fixities) (e e' : Expr) (h : m.rewrite e = .ok (.ok e')) :
    m.rewrite e' = .ok (.ok e') := by
  obtain ⟨t, rfl, hg, hw⟩ := C01_grouping_sound m e e' h
  have hl := Expr.chain_last e t.last (by rw [← hg.1]; exact t.last_eq)
  have := C02_grouping_complete m t.toExpr t.spineOnly (t.spineOnly_isGrouping hl.1 hl.2)
    (spineOnly_wellGrouped hw)
  rwa [spineOnly_toExpr] at this

/-- **C06** Only the fixities of the operators in the chain matter. -/
theorem C06_rewrite_congr (m m' : Fixities) (e : Expr)
    (h : ∀ op ∈ e.chainOperators, m.get op = m'.get op) : m.rewrite e = m'.rewrite e := by
  rw [rewrite_eq, rewrite_eq, machine_congr (fx' := m'.get)]
  · simp
  · intro x hx
    apply h
    rw [Expr.chainOperators_eq]
    exact List.mem_map_of_mem hx

example : ∀ op ∈ exChain.chainOperators,
    exTable.get op = Fixities.get ((.standard t!"$", ⟨0, .right⟩) :: exTable.reverse) op := by
  decide

/-- **C07** Tables that order the operators of the chain alike produce the same grouping
(and fail alike). -/
theorem C07_relative_order (m m' : Fixities) (e e' : Expr)
    (h : SameOrder m.get m'.get e.chainOperators) :
    m.rewrite e = .ok (.ok e') ↔ m'.rewrite e = .ok (.ok e') := by
  constructor
  · intro hr
    obtain ⟨t, rfl, hg, hw⟩ := C01_grouping_sound m e e' hr
    exact C02_grouping_complete m' e t hg (h.wellGrouped (by rw [hg.2]; exact fun _ hq => hq) hw)
  · intro hr
    obtain ⟨t, rfl, hg, hw⟩ := C01_grouping_sound m' e e' hr
    exact C02_grouping_complete m e t hg
      (h.symm.wellGrouped (by rw [hg.2]; exact fun _ hq => hq) hw)

/-- **C07** In particular a strictly monotone renumbering of all precedences of a table that
declares the operators used never changes the grouping. -/
theorem C07_renumber (m : Fixities) (f : Nat → Nat) (hf : ∀ a b, a < b → f a < f b)
    (e e' : Expr) (hd : ∀ op ∈ e.chainOperators, m.has op = true) :
    m.rewrite e = .ok (.ok e') ↔
      Fixities.rewrite (m.map fun x => (x.1, ⟨f x.2.prec, x.2.assoc⟩)) e = .ok (.ok e') := by
  apply C07_relative_order
  have key : ∀ op ∈ e.chainOperators,
      Fixities.get (m.map fun x => (x.1, ⟨f x.2.prec, x.2.assoc⟩)) op =
        ⟨f (m.get op).prec, (m.get op).assoc⟩ := by
    intro op hop
    have := hd op hop
    unfold Fixities.has at this
    unfold Fixities.get
    rw [getDefined_map m (fun v => ⟨f v.prec, v.assoc⟩)]
    obtain ⟨v, hv⟩ := Option.isSome_iff_exists.1 this
    rw [hv]; rfl
  have mono : ∀ a b, a < b ↔ f a < f b := by
    intro a b
    refine ⟨hf a b, fun h => ?_⟩
    rcases Nat.lt_trichotomy a b with h' | h' | h'
    · exact h'
    · subst h'; omega
    · have := hf b a h'; omega
  refine ⟨fun a ha b hb => ?_, fun a ha => ?_⟩
  · rw [key a ha, key b hb]; exact mono _ _
  · rw [key a ha]

example : ∀ op ∈ exChain.chainOperators, exTable.has op = true := by decide

/-- **C08** An undeclared operator behaves as if declared `infixl 9`. -/
theorem C08_undeclared_default (m : Fixities) (op : Infix) (e : Expr)
    (h : m.getDefined op = none) : (m.insert op ⟨9, .left⟩).2.rewrite e = m.rewrite e := by
  apply C06_rewrite_congr
  intro o _
  rw [Fixities.get_insert]
  split
  · rename_i hs
    rw [Fixities.getDefined_eq_none, hs, ← Fixities.getDefined_eq_none] at h
    unfold Fixities.get
    rw [h]; rfl
  · rfl

example : exTable.getDefined (.standard t!"<>") = none := by decide

end Pemdas
