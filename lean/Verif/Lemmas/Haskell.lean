import Verif.Spec.Haskell
import Verif.Lemmas.Grouping
/-
Lemmas for C165: what the algorithm of the Haskell report returns is grouped well, and if it returns
nothing then two operators clash.
-/
namespace Pemdas
namespace Haskell
open OpTree

/-- Operators and operands as tokens. -/
def spell (rest : List (Infix × Expr)) : List Token := rest.flatMap fun x => [.op x.1, .exp x.2]

theorem illegal_iff {o : Infix} {fx : Env} {f : Infix} :
    illegal (some (fx f)) (fx o) = true ↔ Clash (fx f) (fx o) := by
  unfold illegal Clash
  cases ha : (fx f).assoc <;> cases hb : (fx o).assoc <;> simp [ha]

/-- `parse1` without the bound on the length. -/
def run (fx : Env) (op1 : Op1) (e1 : OpTree) (ts : List Token) : Option (OpTree × List Token) :=
  (parse1 fx op1 e1 ts).map fun x => (x.1, x.2.1)

theorem run_nil (fx : Env) (op1 : Op1) (e1 : OpTree) : run fx op1 e1 [] = some (e1, []) := by
  simp [run, parse1]

theorem run_cons (fx : Env) (op1 : Op1) (e1 : OpTree) (op2 : Infix) (x : Expr) (rest : List Token) :
    run fx op1 e1 (.op op2 :: .exp x :: rest) =
      if illegal op1 (fx op2) then none
      else if toTheLeft op1 (fx op2) then some (e1, .op op2 :: .exp x :: rest)
      else match run fx (some (fx op2)) (.leaf x) rest with
        | some (r, rest') => run fx op1 (.node e1 op2 r) rest'
        | none => none := by
  unfold run
  rw [parse1]
  split
  · rfl
  · split
    · rfl
    · cases h : parse1 fx (some (fx op2)) (.leaf x) rest with
      | none => rfl
      | some y =>
        obtain ⟨r, rest'⟩ := y
        simp only [Option.map_some]
        cases parse1 fx op1 (.node e1 op2 r) rest'.1 with
        | none => rfl
        | some z => rfl

theorem clashIn_append {fx : Env} {ops : List Infix} {p c : Infix} (h : ClashIn fx ops p c)
    (before : List Infix) : ClashIn fx (before ++ ops) p c := by
  obtain ⟨pre, mid, post, rfl, h1, h2⟩ := h
  exact ⟨before ++ pre, mid, post, by simp, h1, h2⟩

/-- The first operator of what follows. -/
def Next (rest : List (Infix × Expr)) (o : Infix) : Prop := ∃ x l, rest = (o, x) :: l

theorem run_spec (fx : Env) (n : Nat) : ∀ (rest : List (Infix × Expr)), rest.length ≤ n →
    ∀ (o1 : Option Infix) (e1 : OpTree) (mid : List Infix),
    e1.WellGrouped fx →
    (∀ o, e1.root = some o → ∀ f, o1 = some f → RightOk (fx o) (fx f)) →
    (∀ o, e1.root = some o → ∀ op, Next rest op → LeftOk (fx o) (fx op)) →
    (∀ f, o1 = some f → (∀ q ∈ mid, (fx q).prec > (fx f).prec) ∨
      ∀ op, Next rest op → (fx op).prec < (fx f).prec) →
    match run fx (o1.map fx) e1 (spell rest) with
    | some (t, r) => ∃ taken left, rest = taken ++ left ∧ r = spell left ∧
        t.operands = e1.operands ++ taken.map (·.2) ∧
        t.operators = e1.operators ++ taken.map (·.1) ∧
        (∀ q ∈ taken, ∀ f, o1 = some f → (fx q.1).prec ≥ (fx f).prec) ∧
        (∀ op, Next left op → ∃ f, o1 = some f ∧ LeftOk (fx f) (fx op)) ∧
        t.WellGrouped fx ∧ (∀ o, t.root = some o → ∀ f, o1 = some f → RightOk (fx o) (fx f))
    | none => ∃ p c, ClashIn fx (o1.toList ++ mid ++ rest.map (·.1)) p c := by
  induction n with
  | zero =>
    intro rest hn o1 e1 mid hw hr hl hm
    have : rest = [] := List.length_eq_zero_iff.1 (by omega)
    subst this
    rw [show spell [] = [] from rfl, run_nil]
    exact ⟨[], [], rfl, rfl, by simp, by simp, by simp, (by rintro op ⟨_, _, h⟩; cases h), hw, hr⟩
  | succ n ih =>
    intro rest hn o1 e1 mid hw hr hl hm
    cases rest with
    | nil =>
      rw [show spell [] = [] from rfl, run_nil]
      exact ⟨[], [], rfl, rfl, by simp, by simp, by simp, (by rintro op ⟨_, _, h⟩; cases h), hw, hr⟩
    | cons y rest =>
      obtain ⟨op2, x⟩ := y
      have hnext : ∀ op, Next ((op2, x) :: rest) op → op = op2 := by
        rintro op ⟨x', l, h⟩
        simp only [List.cons.injEq, Prod.mk.injEq] at h
        exact h.1.1.symm
      have hsp : spell ((op2, x) :: rest) = .op op2 :: .exp x :: spell rest := rfl
      rw [hsp, run_cons]
      by_cases hi : illegal (o1.map fx) (fx op2) = true
      · -- case (1)
        simp only [hi, if_true]
        cases o1 with
        | none => simp [illegal] at hi
        | some f =>
          have hc := illegal_iff.1 (by simpa using hi)
          refine ⟨f, op2, [], mid, rest.map (·.1), by simp, hc, ?_⟩
          rcases hm f rfl with h | h
          · exact h
          · have := h op2 ⟨x, rest, rfl⟩
            have := hc.1
            omega
      · simp only [hi, if_false, Bool.false_eq_true]
        have hnc : ∀ f, o1 = some f → ¬ Clash (fx f) (fx op2) := by
          rintro f rfl hc
          exact hi (illegal_iff.2 hc)
        by_cases ht : toTheLeft (o1.map fx) (fx op2) = true
        · -- case (2)
          simp only [ht, if_true]
          refine ⟨[], (op2, x) :: rest, rfl, rfl, by simp, by simp, by simp, ?_, hw, hr⟩
          intro op hop
          rw [hnext op hop]
          cases o1 with
          | none => simp [toTheLeft] at ht
          | some f =>
            refine ⟨f, rfl, ?_⟩
            have hnc := hnc f rfl
            simp only [Option.map_some, toTheLeft, Bool.or_eq_true, decide_eq_true_eq,
              Bool.and_eq_true, beq_iff_eq] at ht
            rcases ht with h | ⟨h1, h2⟩
            · exact .inl h
            · refine .inr ⟨h1, h2, ?_⟩
              unfold Clash at hnc
              cases ha : (fx op2).assoc with
              | left => rfl
              | _ => exact absurd ⟨h1, by simp [ha], by simp [ha, h2]⟩ hnc
        · -- case (3)
          simp only [ht, if_false, Bool.false_eq_true]
          have hge : ∀ f, o1 = some f → RightOk (fx op2) (fx f) := by
            rintro f rfl
            have hnc := hnc f rfl
            simp only [Option.map_some, toTheLeft, Bool.or_eq_true, decide_eq_true_eq,
              Bool.and_eq_true, beq_iff_eq, not_or, not_and] at ht
            by_cases h : (fx f).prec = (fx op2).prec
            · refine .inr ⟨h.symm, ?_⟩
              have h2 := ht.2 h
              unfold Clash at hnc
              cases ha : (fx op2).assoc <;> cases hb : (fx f).assoc <;> simp_all
            · left
              have := ht.1
              omega
          have hin := ih rest (by simp only [List.length_cons] at hn; omega) (some op2) (.leaf x) []
            trivial (by simp [root]) (by simp [root]) (by intro f _; left; simp)
          simp only [Option.map_some] at hin
          cases h1 : run fx (some (fx op2)) (.leaf x) (spell rest) with
          | none =>
            simp only [h1] at hin ⊢
            obtain ⟨p, c, hc⟩ := hin
            refine ⟨p, c, ?_⟩
            have := clashIn_append hc (o1.toList ++ mid)
            simpa using this
          | some res =>
            obtain ⟨r, rest'⟩ := res
            simp only [h1] at hin ⊢
            obtain ⟨taken, left, rfl, hrl, ho, hops, hq, hle, hrw, hrr⟩ := hin
            have hout := ih left (by simp only [List.length_cons, List.length_append] at hn; omega) o1
              (.node e1 op2 r) (mid ++ op2 :: taken.map (·.1))
              ⟨hw, hrw, fun o h => hl o h op2 ⟨x, _, rfl⟩, fun o h => hrr o h op2 rfl⟩
              (by
                intro o h f hf
                simp only [root, Option.some.injEq] at h
                subst h
                exact hge f hf)
              (by
                intro o h op hop
                simp only [root, Option.some.injEq] at h
                subst h
                obtain ⟨f, hf, h⟩ := hle op hop
                simp only [Option.some.injEq] at hf
                subst hf
                exact h)
              (by
                intro f hf
                rcases hge f hf with h | ⟨h, h', h''⟩
                · left
                  intro q hqm
                  simp only [List.mem_append, List.mem_cons, List.mem_map] at hqm
                  rcases hqm with hqm | rfl | ⟨y, hy, rfl⟩
                  · rcases hm f hf with hm | hm
                    · exact hm q hqm
                    · have := hm op2 ⟨x, _, rfl⟩
                      omega
                  · exact h
                  · have := hq y hy op2 rfl
                    omega
                · right
                  intro op hop
                  obtain ⟨f', hf', hlo⟩ := hle op hop
                  simp only [Option.some.injEq] at hf'
                  subst hf'
                  rcases hlo with hlo | ⟨_, hlo, _⟩
                  · omega
                  · rw [h'] at hlo; cases hlo)
            subst hrl
            cases h2 : run fx (o1.map fx) (.node e1 op2 r) (spell left) with
            | none =>
              simp only [h2] at hout ⊢
              obtain ⟨p, c, hc⟩ := hout
              exact ⟨p, c, by simpa using hc⟩
            | some res =>
              obtain ⟨t, rest''⟩ := res
              simp only [h2] at hout ⊢
              obtain ⟨taken', left', rfl, hrl', ho', hops', hq', hle', hw', hr'⟩ := hout
              refine ⟨(op2, x) :: (taken ++ taken'), left', by simp, hrl', ?_, ?_, ?_, hle', hw', hr'⟩
              · rw [ho']; simp [operands, ho]
              · rw [hops']; simp [operators, hops]
              · intro q hqm f hf
                simp only [List.mem_cons, List.mem_append] at hqm
                have hop2 : (fx op2).prec ≥ (fx f).prec := by
                  rcases hge f hf with h | ⟨h, _⟩ <;> omega
                rcases hqm with rfl | hqm | hqm
                · exact hop2
                · have := hq q hqm op2 rfl
                  omega
                · exact hq' q hqm f hf

theorem tokens_eq (e : Expr) : tokens e = .exp e.chainFirst :: spell e.chainRest := by
  induction e using Expr.chainOperators.induct with
  | case1 l op r ih => simp [tokens, Expr.chainFirst, Expr.chainRest, ih, spell]
  | case2 e h => cases e <;> simp_all [tokens, Expr.chainFirst, Expr.chainRest, spell]

/-- What the report's algorithm makes of a chain. -/
theorem resolve_spec (fx : Env) (e : Expr) :
    match resolve fx (tokens e) with
    | some t => IsGrouping e t ∧ t.WellGrouped fx
    | none => ∃ p c, ClashIn fx e.chainOperators p c := by
  have h := run_spec fx e.chainRest.length e.chainRest (Nat.le_refl _) none (.leaf e.chainFirst) []
    trivial (by simp [root]) (by simp [root]) (by intro f h; cases h)
  rw [tokens_eq, resolve]
  have he : (parse1 fx none (.leaf e.chainFirst) (spell e.chainRest)).map (·.1) =
      (run fx none (.leaf e.chainFirst) (spell e.chainRest)).map (·.1) := by
    simp [run, Function.comp_def]
  rw [he]
  simp only [Option.map_none] at h
  cases hp : run fx none (.leaf e.chainFirst) (spell e.chainRest) with
  | none =>
    simp only [hp, Option.map_none] at h ⊢
    obtain ⟨p, c, h⟩ := h
    exact ⟨p, c, by rw [Expr.chainOperators_eq]; simpa using h⟩
  | some res =>
    obtain ⟨t, r⟩ := res
    simp only [hp, Option.map_some] at h ⊢
    obtain ⟨taken, left, h1, -, h2, h3, -, h4, h5, -⟩ := h
    have : left = [] := by
      cases left with
      | nil => rfl
      | cons y l =>
        obtain ⟨f, hf, -⟩ := h4 y.1 ⟨y.2, l, rfl⟩
        cases hf
    subst this
    rw [List.append_nil] at h1
    subst h1
    refine ⟨⟨?_, ?_⟩, h5⟩
    · rw [h2, Expr.chainOperands_eq]; rfl
    · rw [h3, Expr.chainOperators_eq]; rfl

end Haskell
end Pemdas
