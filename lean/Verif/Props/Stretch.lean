import Verif.Spec.Stretch
import Verif.Props.Backwards
/-
C195: parts of chains.
-/
namespace Pemdas
open Session Resolver

theorem toks_ne_nil (e : Expr) : e.toks ≠ [] := by
  cases e <;> simp [Expr.toks]

theorem rootOp_toks {e : Expr} {o : Infix} (h : e.rootOp = some o) : .op o ∈ e.toks := by
  cases e with
  | bin l op r => cases h; simp [Expr.toks]
  | _ => cases h

/-- An expression is no chain, or what it is put together from. -/
theorem toks_cases (e : Expr) : (∃ l o r, e = .bin l o r) ∨ (∃ t, e.toks = [t] ∧ ∀ o, t ≠ .op o) := by
  cases e <;> simp [Expr.toks]

theorem toks_head : ∀ e : Expr, ∃ t ts, e.toks = t :: ts ∧ ∀ o, t ≠ .op o
  | .bin l o r => by
    obtain ⟨t, ts, h, hno⟩ := toks_head l
    exact ⟨t, ts ++ .op o :: r.toks, by simp [Expr.toks, h], hno⟩
  | .lit _ | .var _ | .app _ _ | .lam _ _ | .grp _ | .neg _ | .tup _ | .list _ | .let_ _ _ => by simp [Expr.toks]

theorem split_toks : ∀ (e : Expr) (a b : List Tok) (o : Infix), e.toks = a ++ .op o :: b →
    ∃ x y : Expr, x.toks = a ∧ y.toks = b := by
  intro e
  induction hn : e.size using Nat.strongRecOn generalizing e with
  | _ n ih =>
    subst hn
    intro a b o h
    rcases toks_cases e with ⟨l, o', r, rfl⟩ | ⟨t, ht, hno⟩
    · simp only [Expr.toks] at h
      rcases List.append_eq_append_iff.1 h with ⟨u, h1, h2⟩ | ⟨u, h1, h2⟩
      · rcases u with _ | ⟨_, u⟩
        · simp only [List.append_nil, List.nil_append, List.cons.injEq] at h1 h2
          exact ⟨l, r, h1.symm, h2.2⟩
        · simp only [List.cons_append, List.cons.injEq] at h2
          obtain ⟨rfl, h2⟩ := h2
          obtain ⟨x, y, hx, hy⟩ := ih r.size (by simp only [Expr.size]; omega) r rfl _ _ _ h2
          exact ⟨.bin l o' x, y, by simp [Expr.toks, hx, h1], hy⟩
      · rcases u with _ | ⟨_, u⟩
        · simp only [List.append_nil, List.nil_append, List.cons.injEq] at h1 h2
          exact ⟨l, r, h1, h2.2.symm⟩
        · simp only [List.cons_append, List.cons.injEq] at h2
          obtain ⟨rfl, h2⟩ := h2
          obtain ⟨x, y, hx, hy⟩ := ih l.size (by simp only [Expr.size]; omega) l rfl _ _ _ h1
          exact ⟨x, .bin y o' r, hx, by simp [Expr.toks, hy, h2]⟩
    · rw [ht] at h
      rcases a with _ | ⟨_, a⟩
      · simp only [List.nil_append, List.cons.injEq] at h
        exact absurd h.1 (hno o)
      · simp at h

theorem left_all {fx : Env} {f : Fixity} : ∀ g : Expr, g.Grouped fx → (∀ o, g.rootOp = some o → LeftOk (fx o) f) →
    ∀ o, .op o ∈ g.toks → LeftOk (fx o) f := by
  intro g
  induction hn : g.size using Nat.strongRecOn generalizing g with
  | _ n ih =>
    subst hn
    intro hg hr o ho
    rcases toks_cases g with ⟨l, o', r, rfl⟩ | ⟨t, ht, hno⟩
    · have h0 := hr o' rfl
      simp only [Expr.toks, List.mem_append, List.mem_cons, Tok.op.injEq] at ho
      rcases ho with ho | rfl | ho
      · refine ih l.size (by simp only [Expr.size]; omega) l rfl hg.1 (fun c hc => ?_) o ho
        have := hg.2.2.1 c hc
        simp only [LeftOk] at *
        grind
      · exact h0
      · refine ih r.size (by simp only [Expr.size]; omega) r rfl hg.2.1 (fun c hc => ?_) o ho
        have := hg.2.2.2 c hc
        simp only [LeftOk, RightOk] at *
        grind
    · rw [ht, List.mem_singleton] at ho
      exact absurd ho.symm (hno o)

theorem right_all {fx : Env} {f : Fixity} : ∀ g : Expr, g.Grouped fx → (∀ o, g.rootOp = some o → RightOk (fx o) f) →
    ∀ o, .op o ∈ g.toks → RightOk (fx o) f := by
  intro g
  induction hn : g.size using Nat.strongRecOn generalizing g with
  | _ n ih =>
    subst hn
    intro hg hr o ho
    rcases toks_cases g with ⟨l, o', r, rfl⟩ | ⟨t, ht, hno⟩
    · have h0 := hr o' rfl
      simp only [Expr.toks, List.mem_append, List.mem_cons, Tok.op.injEq] at ho
      rcases ho with ho | rfl | ho
      · refine ih l.size (by simp only [Expr.size]; omega) l rfl hg.1 (fun c hc => ?_) o ho
        have := hg.2.2.1 c hc
        simp only [LeftOk, RightOk] at *
        grind
      · exact h0
      · refine ih r.size (by simp only [Expr.size]; omega) r rfl hg.2.1 (fun c hc => ?_) o ho
        have := hg.2.2.2 c hc
        simp only [RightOk] at *
        grind
    · rw [ht, List.mem_singleton] at ho
      exact absurd ho.symm (hno o)

theorem stretch_grouped {fx : Env} : ∀ (g x : Expr) (a b : List Tok), g.Grouped fx → g.toks = a ++ x.toks ++ b →
    ∃ g' : Expr, g'.toks = x.toks ∧ g'.Grouped fx := by
  intro g
  induction hn : g.size using Nat.strongRecOn generalizing g with
  | _ n ih =>
    subst hn
    intro x a b hg h
    rcases toks_cases g with ⟨l, o, r, rfl⟩ | ⟨t, ht, hno⟩
    · have il := ih l.size (by simp only [Expr.size]; omega) l rfl
      have ir := ih r.size (by simp only [Expr.size]; omega) r rfl
      simp only [Expr.toks, List.append_assoc] at h
      rcases List.append_eq_append_iff.1 h with ⟨u, h1, h2⟩ | ⟨u, h1, h2⟩
      · rcases u with _ | ⟨_, u⟩
        · -- the part would begin with an operator
          simp only [List.nil_append] at h2
          obtain ⟨t, ts, ht, hno⟩ := toks_head x
          rw [ht] at h2
          simp only [List.cons_append, List.cons.injEq] at h2
          exact absurd h2.1.symm (hno o)
        · simp only [List.cons_append, List.cons.injEq] at h2
          exact ir x u b hg.2.1 (by rw [h2.2, List.append_assoc])
      · rcases List.append_eq_append_iff.1 h2 with ⟨v, h3, h4⟩ | ⟨v, h3, h4⟩
        · exact il x a v hg.1 (by rw [h1, h3, List.append_assoc])
        · rcases v with _ | ⟨_, v⟩
          · exact il x a [] hg.1 (by simp_all)
          · simp only [List.cons_append, List.cons.injEq] at h4
            obtain ⟨rfl, h4⟩ := h4
            obtain ⟨y, z, hy, hz⟩ := split_toks x u v o h3
            obtain ⟨y', hy', gy⟩ := il y a [] hg.1 (by rw [h1, hy, List.append_nil])
            obtain ⟨z', hz', gz⟩ := ir z [] b hg.2.1 (by rw [h4, hz, List.nil_append])
            refine ⟨.bin y' o z', by simp [Expr.toks, hy', hz', hy, hz, h3], gy, gz, fun c hc => ?_, fun c hc => ?_⟩
            · refine left_all l hg.1 hg.2.2.1 c ?_
              rw [h1, ← hy, ← hy']
              exact List.mem_append_right _ (rootOp_toks hc)
            · refine right_all r hg.2.1 hg.2.2.2 c ?_
              rw [h4, ← hz, ← hz']
              exact List.mem_append_left _ (rootOp_toks hc)
    · refine ⟨g, ?_, hg⟩
      have hx := toks_ne_nil x
      rw [ht] at h ⊢
      rcases a with _ | ⟨_, a⟩
      · rcases hx' : x.toks with _ | ⟨_, _⟩
        · exact absurd hx' hx
        · rw [hx'] at h
          simp at h
          simp [h]
      · simp at h
        exact absurd h.2.2.1 hx

/-- **C195** If an expression is accepted, so is every part of its chain. Missing: expressions with a `let` that names an
operator twice, for which it is false (`C195_let_wrong`). -/
theorem C195_accepted_partial {m m₁ m₂ : Fixities} {e x g g' : Expr} {es : List AssocError} (hn : e.RightNested)
    (hn' : x.RightNested) (hl : e.LetsDistinct) (hl' : x.LetsDistinct) (hx : StretchOf x e)
    (h : visit ⟨m, []⟩ e = .ok (⟨m₁, []⟩, g)) (h' : visit ⟨m, []⟩ x = .ok (⟨m₂, es⟩, g')) : es = [] := by
  obtain ⟨y, hy, gy⟩ := (C10_error_iff_needed_partial m m₁ e g [] hn hl h).1 rfl
  obtain ⟨a, b, hab⟩ := hx
  exact (C10_error_iff_needed_partial m m₂ x g' es hn' hl' h').2
    (stretch_grouped y x a b gy (hy.trans hab))

section
variable [CharTables] [LawfulTables]

/-- **C195** on the screen, whatever has happened before: where a result is shown for an expression, one is shown for
every part of its chain. -/
theorem C195_answer_partial {s : Session} {log : List Event} (hs : History s log) {e x : Expr} {t : Text}
    {out : List Effect} (h : s.ShowsFor e t) (h' : s.Answers x out) (hl : e.LetsDistinct) (hl' : x.LetsDistinct)
    (hx : StretchOf x e) : ∃ t', out = [.out (t!"  " ++ t' ++ t!"\n")] := by
  have hn : e.RightNested := by
    obtain ⟨_, _, src, _, _, _, _, hp, _⟩ := h
    exact C40_right_nested hp e (by simp)
  have hn' : x.RightNested := by
    obtain ⟨_, _, src, _, _, _, _, hp, _⟩ := h'
    exact C40_right_nested hp x (by simp)
  obtain ⟨k, g, es, fx, a1, a2⟩ := answers_becomes hs h
  obtain ⟨rfl, -⟩ := answer_shown a2.symm
  obtain ⟨k', g', es', fx', b1, rfl⟩ := answers_becomes hs h'
  obtain ⟨_, _, _, c1, m₁, -, -, c2⟩ := C152_expression (history_after hs).1 e
  obtain ⟨rfl, rfl, rfl⟩ := (c1 _ _ _).1 a1
  obtain ⟨_, _, _, d1, m₂, -, -, d2⟩ := C152_expression (history_after hs).1 x
  obtain ⟨rfl, rfl, rfl⟩ := (d1 _ _ _).1 b1
  have key := C195_accepted_partial hn hn' hl hl' hx c2 d2
  rw [firstOfEach_ne_nil] at key
  subst key
  exact ⟨_, rfl⟩

end

/-- `(b == c == d)`, where `==` does not associate. -/
def exUnclear : Expr := .grp (.bin exB opEq (.bin exC opEq exD))

/-- `(let infixl 9 ==, == in a) * (b == c == d)`. -/
def exCleared : Expr := .bin (.grp (.let_ ⟨[opEq, opEq], ⟨9, .left⟩⟩ exA)) opMul exUnclear

/-- **C195 fails** after a `let` that names an operator twice, for its fixity reaches what stands to the right of it: the
expression is accepted, its right operand is not. -/
theorem C195_let_wrong : exCleared.RightNested ∧ exUnclear.RightNested ∧ exUnclear.LetsDistinct ∧
    StretchOf exUnclear exCleared ∧
    ∃ m₁ g err, visit ⟨exTable, []⟩ exCleared = .ok (⟨m₁, []⟩, g) ∧
      visit ⟨exTable, []⟩ exUnclear = .ok (⟨exTable, [err]⟩, exUnclear) :=
  ⟨by simp [exCleared, exUnclear, Expr.RightNested, Expr.NonBin, Expr.rootOp, exA, exB, exC, exD],
    by simp [exUnclear, Expr.RightNested, Expr.NonBin, Expr.rootOp, exB, exC, exD],
    by simp [exUnclear, Expr.LetsDistinct, exB, exC, exD],
    ⟨[.grp [.let_ ⟨[opEq, opEq], ⟨9, .left⟩⟩ exA.toks], .op opMul], [], by simp [exCleared, Expr.toks]⟩,
    [(opPlus, ⟨6, .left⟩), (opMul, ⟨7, .left⟩), (opPow, ⟨8, .right⟩), (opEq, ⟨9, .left⟩)],
    .bin (.grp (.let_ ⟨[opEq, opEq], ⟨9, .left⟩⟩ exA)) opMul (.grp (.bin (.bin exB opEq exC) opEq exD)),
    ⟨(opEq, ⟨4, .neither⟩), (opEq, ⟨4, .neither⟩)⟩, by decide +kernel, by decide +kernel⟩

/-! ### concrete cases -/

/-- C195: `c + d` is a part of `a * b ^ c + d`, although it is not a part of the result. -/
example : StretchOf (.bin exC opPlus exD) exChain ∧ exChain.RightNested ∧ exChain.LetsDistinct ∧
    (Expr.bin exC opPlus exD).RightNested ∧ (Expr.bin exC opPlus exD).LetsDistinct ∧
    visit ⟨exTable, []⟩ exChain =
      .ok (⟨exTable, []⟩, .bin (.bin exA opMul (.bin exB opPow exC)) opPlus exD) :=
  ⟨⟨exA.toks ++ .op opMul :: exB.toks ++ [.op opPow], [], by simp [exChain, Expr.toks]⟩,
    by simp [exChain, Expr.RightNested, Expr.NonBin, Expr.rootOp, exA, exB, exC, exD],
    by simp [exChain, Expr.LetsDistinct, exA, exB, exC, exD],
    by simp [Expr.RightNested, Expr.NonBin, Expr.rootOp, exC, exD],
    by simp [Expr.LetsDistinct, exC, exD], by decide +kernel⟩

section
attribute [local instance] asciiTables asciiTables_lawful

/-- C195: on the screen. -/
example : exShown [t!"infixl 6 -; infixr 7 ^", t!"a - b ^ c ^ d - e", t!"b ^ c ^ d", t!"d - e"] =
    some [t!"  (a - (b ^ (c ^ d))) - e\n", t!"  b ^ (c ^ d)\n", t!"  d - e\n"] := by
  decide +kernel

end
end Pemdas
