import Verif.Spec.Swap
import Verif.Lemmas.ParseLine
import Verif.Props.Ast
/-
Swapping names and literals, and moving tokens without changing the order of their columns: lemmas.
-/
namespace Pemdas

variable {ρ : Swap}

theorem sepBy_more {sep : Token} {a : List Token} {l : List (List Token)} (h : l ≠ []) :
    sepBy sep (a :: l) = a ++ sep :: sepBy sep l := by
  cases l with
  | nil => exact absurd rfl h
  | cons => rfl

namespace Swap

/-- Pairs of tokens that correspond. -/
def Toks (ρ : Swap) (zs : List (Token × Token)) : Prop := ∀ z ∈ zs, ρ.tok z.1 z.2

theorem Toks.left {a b : List (Token × Token)} (h : ρ.Toks (a ++ b)) : ρ.Toks a :=
  fun z hz => h z (List.mem_append_left _ hz)

theorem Toks.right {a b : List (Token × Token)} (h : ρ.Toks (a ++ b)) : ρ.Toks b :=
  fun z hz => h z (List.mem_append_right _ hz)

theorem Toks.cons {z : Token × Token} {a : List (Token × Token)} (h : ρ.Toks (z :: a)) :
    ρ.tok z.1 z.2 ∧ ρ.Toks a := ⟨h z (by simp), fun z hz => h z (by simp [hz])⟩

theorem tok_refl {P : Swap} {t t' : Token} (h : P.tok t t') : t.joins = t'.joins ∧
    t.startsArg = t'.startsArg ∧ (t = .dash ↔ t' = .dash) ∧ (t = .at_ ↔ t' = .at_) ∧
    ((∃ s, t = .upper s) ↔ ∃ s, t' = .upper s) := by
  cases h <;> simp [Token.joins, Token.startsArg]

/-- Parts separated by commas. -/
theorem sepBy_swap {α : Type} {Q : α → List Token → Prop} {R : α → α → Prop} :
    ∀ (ps : List (α × List Token)) (zs : List (Token × Token)),
      (∀ x ∈ ps, ∀ zs : List (Token × Token), zs.map (·.1) = x.2 → ρ.Toks zs →
        ∃ a, Q a (zs.map (·.2)) ∧ R x.1 a) →
      zs.map (·.1) = sepBy .comma (ps.map (·.2)) → ρ.Toks zs →
      ∃ qs : List ((α × α) × List Token), qs.map (·.1.1) = ps.map (·.1) ∧
        zs.map (·.2) = sepBy .comma (qs.map (·.2)) ∧ ∀ q ∈ qs, Q q.1.2 q.2 ∧ R q.1.1 q.1.2
  | [], zs, _, h, _ => ⟨[], rfl, by simp [sepBy] at h; simp [h, sepBy], by simp⟩
  | [x], zs, hx, h, hz => by
    obtain ⟨a, h1, h2⟩ := hx x (by simp) zs (by simpa [sepBy] using h) hz
    exact ⟨[((x.1, a), zs.map (·.2))], rfl, rfl, by simpa using ⟨h1, h2⟩⟩
  | x :: y :: ps, zs, hx, h, hz => by
    rw [List.map_cons, sepBy_more (by simp)] at h
    obtain ⟨z₁, z₂, rfl, h1, h2⟩ := List.map_eq_append_iff.1 h
    obtain ⟨z, z₃, rfl, h3, h4⟩ := List.map_eq_cons_iff.1 h2
    obtain ⟨a, h5, h6⟩ := hx x (by simp) z₁ h1 hz.left
    obtain ⟨h7, h8⟩ := hz.right.cons
    obtain ⟨qs, h9, h10, h11⟩ := sepBy_swap (y :: ps) z₃ (fun w hw => hx w (by simp [hw])) h4 h8
    obtain ⟨t, t'⟩ := z
    cases h3
    cases h7
    refine ⟨((x.1, a), z₁.map (·.2)) :: qs, by simp [h9], ?_, ?_⟩
    · rw [List.map_cons, sepBy_more, List.map_append, List.map_cons, h10]
      intro hq
      have := congrArg List.length h9
      simp [List.map_eq_nil_iff.1 hq] at this
    · intro q hq
      rcases List.mem_cons.1 hq with rfl | hq
      · exact ⟨h5, h6⟩
      · exact h11 q hq

/-- Parts one after the other. -/
theorem flatten_swap {α : Type} {Q : α → List Token → Prop} {R : α → α → Prop} :
    ∀ (ps : List (α × List Token)) (zs : List (Token × Token)),
      (∀ x ∈ ps, ∀ zs : List (Token × Token), zs.map (·.1) = x.2 → ρ.Toks zs →
        ∃ a, Q a (zs.map (·.2)) ∧ R x.1 a) →
      zs.map (·.1) = (ps.map (·.2)).flatten → ρ.Toks zs →
      ∃ qs : List ((α × α) × List Token), qs.map (·.1.1) = ps.map (·.1) ∧
        zs.map (·.2) = (qs.map (·.2)).flatten ∧ ∀ q ∈ qs, Q q.1.2 q.2 ∧ R q.1.1 q.1.2
  | [], zs, _, h, _ => ⟨[], rfl, by simp at h; simp [h], by simp⟩
  | x :: ps, zs, hx, h, hz => by
    rw [List.map_cons, List.flatten_cons] at h
    obtain ⟨z₁, z₂, rfl, h1, h2⟩ := List.map_eq_append_iff.1 h
    obtain ⟨a, h5, h6⟩ := hx x (by simp) z₁ h1 hz.left
    obtain ⟨qs, h9, h10, h11⟩ := flatten_swap ps z₂ (fun w hw => hx w (by simp [hw])) h2 hz.right
    refine ⟨((x.1, a), z₁.map (·.2)) :: qs, by simp [h9], by simp [h10], ?_⟩
    intro q hq
    rcases List.mem_cons.1 hq with rfl | hq
    · exact ⟨h5, h6⟩
    · exact h11 q hq

theorem opTok (hρ : ρ.Sound) {o : Infix} {t t' : Token} (h : OpTok o t) (ht : ρ.tok t t') :
    ∃ o', OpTok o' t' ∧ ρ.op o o' := by
  cases h <;> cases ht
  · exact ⟨_, .dash, .standard hρ.dash⟩
  · exact ⟨_, .at_, .standard hρ.at_⟩
  · exact ⟨_, .standard _, .standard (by assumption)⟩
  · rename_i h _; exact absurd rfl (h _ _)
  · exact ⟨_, .promoted _, .promoted (by assumption)⟩
  · rename_i h _; exact absurd rfl (h _ _)

theorem declToks (hρ : ρ.Sound) {d : InfixDecl} {ts : List Token} (h : DeclToks d ts) :
    ∀ zs : List (Token × Token), zs.map (·.1) = ts → ρ.Toks zs →
      ∃ d', DeclToks d' (zs.map (·.2)) ∧ ρ.decl d d' := by
  have ops : ∀ (os : List (Infix × Token)) (zs : List (Token × Token)), os ≠ [] →
      (∀ x ∈ os, OpTok x.1 x.2) → zs.map (·.1) = sepBy .comma (os.map fun x => [x.2]) → ρ.Toks zs →
      ∃ os' : List (Infix × Token), os' ≠ [] ∧ (∀ x ∈ os', OpTok x.1 x.2) ∧
        zs.map (·.2) = sepBy .comma (os'.map fun x => [x.2]) ∧
        OneByOne ρ.op (os.map (·.1)) (os'.map (·.1)) := by
    intro os zs hne ho hz hs
    obtain ⟨qs, h1, h2, h3⟩ := sepBy_swap (Q := fun o ts => ∃ t, ts = [t] ∧ OpTok o t) (R := ρ.op)
      (os.map fun x => (x.1, [x.2])) zs (by
        intro x hx zs hz hs
        obtain ⟨y, hy, rfl⟩ := List.mem_map.1 hx
        obtain ⟨z, z', rfl, hz1, hz2⟩ := List.map_eq_cons_iff.1 hz
        cases List.map_eq_nil_iff.1 hz2
        obtain ⟨o', ho1, ho2⟩ := opTok hρ (ho y hy) (hz1 ▸ (hs z (by simp)))
        exact ⟨o', ⟨z.2, rfl, ho1⟩, ho2⟩) (by rw [hz, List.map_map]; rfl) hs
    have h4 : ∃ os' : List (Infix × Token), os'.map (·.1) = qs.map (·.1.2) ∧
        (os'.map fun x => [x.2]) = qs.map (·.2) ∧ ∀ x ∈ os', OpTok x.1 x.2 := by
      clear h1 h2
      induction qs with
      | nil => exact ⟨[], rfl, rfl, by simp⟩
      | cons q qs ih =>
        obtain ⟨os', e1, e2, e3⟩ := ih fun q hq => h3 q (by simp [hq])
        obtain ⟨t, ht, hq⟩ := (h3 q (by simp)).1
        refine ⟨(q.1.2, t) :: os', by simp [e1], by simp [e2, ht], ?_⟩
        intro x hx
        rcases List.mem_cons.1 hx with rfl | hx
        · exact hq
        · exact e3 x hx
    obtain ⟨os', e1, e2, e3⟩ := h4
    refine ⟨os', ?_, e3, by rw [h2, e2], qs.map (·.1), ?_, ?_, ?_⟩
    · rintro rfl
      have h5 := congrArg List.length h1
      have h6 := congrArg List.length e1
      simp at h5 h6
      exact hne (List.eq_nil_of_length_eq_zero (by omega))
    · rw [List.map_map] at h1 ⊢; exact h1
    · rw [List.map_map]; exact e1.symm
    · intro p hp
      obtain ⟨q, hq, rfl⟩ := List.mem_map.1 hp
      exact (h3 q hq).2
  intro zs hz hs
  cases h with
  | @withPrec a p os hp hne ho =>
    obtain ⟨⟨t, t'⟩, z₁, rfl, h1, h2⟩ := List.map_eq_cons_iff.1 hz
    obtain ⟨⟨u, u'⟩, z₂, rfl, h3, h4⟩ := List.map_eq_cons_iff.1 h2
    obtain ⟨hs1, hs⟩ := hs.cons
    obtain ⟨hs2, hs⟩ := hs.cons
    obtain ⟨os', h5, h6, h7, h8⟩ := ops os z₂ hne ho h4 hs
    cases h1
    cases h3
    have h9 : t' = a.kwTok := by cases a <;> cases hs1 <;> rfl
    cases hs2 with
    | lit hl =>
      have := (hρ.int _ _ hl p).1 rfl
      subst this
      subst h9
      exact ⟨⟨os'.map (·.1), ⟨p, a⟩⟩, by simpa [h7] using DeclToks.withPrec hp h5 h6, rfl, h8⟩
    | same _ _ _ h => exact absurd rfl (h _)
  | @noPrec a os hne ho =>
    obtain ⟨⟨t, t'⟩, z₁, rfl, h1, h2⟩ := List.map_eq_cons_iff.1 hz
    obtain ⟨hs1, hs⟩ := hs.cons
    obtain ⟨os', h5, h6, h7, h8⟩ := ops os z₁ hne ho h2 hs
    cases h1
    have h9 : t' = a.kwTok := by cases a <;> cases hs1 <;> rfl
    subst h9
    exact ⟨⟨os'.map (·.1), ⟨9, a⟩⟩, by simpa [h7] using DeclToks.noPrec h5 h6, rfl, h8⟩

private theorem flip {α : Type} (qs : List ((α × α) × List Token)) :
    (qs.map fun q => (q.1.2, q.2)).map (·.1) = qs.map (·.1.2) ∧
    (qs.map fun q => (q.1.2, q.2)).map (·.2) = qs.map (·.2) ∧
    (qs.map (·.1)).map (·.1) = qs.map (·.1.1) ∧ (qs.map (·.1)).map (·.2) = qs.map (·.1.2) := by
  simp

theorem patToks {cat : PatCat} {p : Pat} {ts : List Token} (h : PatToks cat p ts) :
    ∀ zs : List (Token × Token), zs.map (·.1) = ts → ρ.Toks zs →
      ∃ p', PatToks cat p' (zs.map (·.2)) ∧ ρ.pat p p' := by
  induction h with
  | wild =>
    intro zs hz hs₀
    obtain ⟨⟨t, t'⟩, z₁, rfl, h1, h2⟩ := List.map_eq_cons_iff.1 hz
    cases List.map_eq_nil_iff.1 h2
    cases h1
    cases hs₀.cons.1
    exact ⟨_, .wild, .wild⟩
  | con0 s =>
    intro zs hz hs₀
    obtain ⟨⟨t, t'⟩, z₁, rfl, h1, h2⟩ := List.map_eq_cons_iff.1 hz
    cases List.map_eq_nil_iff.1 h2
    cases h1
    cases hs₀.cons.1 with
    | upper h => exact ⟨_, .con0 _, .con (ps := []) h (by simp)⟩
    | same h => exact absurd rfl (h _)
  | var s =>
    intro zs hz hs₀
    obtain ⟨⟨t, t'⟩, z₁, rfl, h1, h2⟩ := List.map_eq_cons_iff.1 hz
    cases List.map_eq_nil_iff.1 h2
    cases h1
    cases hs₀.cons.1 with
    | lower h => exact ⟨_, .var _, .var h⟩
    | same _ h => exact absurd rfl (h _)
  | as_ s _ ih =>
    intro zs hz hs₀
    obtain ⟨⟨t, t'⟩, z₁, rfl, h1, h2⟩ := List.map_eq_cons_iff.1 hz
    obtain ⟨⟨u, u'⟩, z₂, rfl, h3, h4⟩ := List.map_eq_cons_iff.1 h2
    cases h1
    cases h3
    obtain ⟨hs1, hs'⟩ := hs₀.cons
    obtain ⟨hs2, hs⟩ := hs'.cons
    obtain ⟨p', h5, h6⟩ := ih z₂ h4 hs
    cases hs2
    cases hs1 with
    | lower h => exact ⟨_, .as_ _ h5, .as_ h h6⟩
    | same _ h => exact absurd rfl (h _)
  | firstOp s b =>
    intro zs hz hs₀
    obtain ⟨⟨t, t'⟩, z₁, rfl, h1, h2⟩ := List.map_eq_cons_iff.1 hz
    cases List.map_eq_nil_iff.1 h2
    cases h1
    cases hs₀.cons.1 with
    | affix _ h => exact ⟨_, .firstOp _ _, .var h⟩
    | same _ _ h => exact absurd rfl (h _ _)
  | firstNeg _ ih =>
    intro zs hz hs₀
    obtain ⟨⟨t, t'⟩, z₁, rfl, h1, h2⟩ := List.map_eq_cons_iff.1 hz
    cases h1
    obtain ⟨hs1, hs⟩ := hs₀.cons
    obtain ⟨p', h5, h6⟩ := ih z₁ h2 hs
    cases hs1
    exact ⟨_, .firstNeg h5, .neg h6⟩
  | firstCon _ ih =>
    intro zs hz hs₀
    obtain ⟨p', h5, h6⟩ := ih zs hz hs₀
    exact ⟨_, .firstCon h5, h6⟩
  | first _ ih =>
    intro zs hz hs₀
    obtain ⟨p', h5, h6⟩ := ih zs hz hs₀
    exact ⟨_, .first h5, h6⟩
  | paren _ ih =>
    intro zs hz hs₀
    obtain ⟨⟨t, t'⟩, z₁, rfl, h1, h2⟩ := List.map_eq_cons_iff.1 hz
    obtain ⟨z₂, z₃, rfl, h3, h4⟩ := List.map_eq_append_iff.1 h2
    obtain ⟨⟨u, u'⟩, z₄, rfl, h5, h6⟩ := List.map_eq_cons_iff.1 h4
    cases List.map_eq_nil_iff.1 h6
    cases h1
    cases h5
    obtain ⟨hs1, hs⟩ := hs₀.cons
    obtain ⟨p', h7, h8⟩ := ih z₂ h3 hs.left
    cases hs1
    cases hs.right.cons.1
    exact ⟨p', by simpa using PatToks.paren h7, h8⟩
  | @tup p ts ps _ hne hps ih ihs =>
    intro zs hz hs₀
    rw [sepBy_more (by simpa using hne)] at hz
    obtain ⟨⟨t, t'⟩, z₁, rfl, h1, h2⟩ := List.map_eq_cons_iff.1 hz
    obtain ⟨z₂, z₃, rfl, h3, h4⟩ := List.map_eq_append_iff.1 h2
    obtain ⟨⟨u, u'⟩, z₄, rfl, h5, h6⟩ := List.map_eq_cons_iff.1 h4
    cases List.map_eq_nil_iff.1 h6
    obtain ⟨z₅, z₆, rfl, h7, h8⟩ := List.map_eq_append_iff.1 h3
    obtain ⟨⟨v, v'⟩, z₇, rfl, h9, h10⟩ := List.map_eq_cons_iff.1 h8
    cases h1
    cases h5
    cases h9
    obtain ⟨hs1, hs⟩ := hs₀.cons
    obtain ⟨p', h11, h12⟩ := ih z₅ h7 hs.left.left
    obtain ⟨hs3, hs4⟩ := hs.left.right.cons
    obtain ⟨qs, e1, e2, e3⟩ := sepBy_swap (Q := PatToks .inner) (R := ρ.pat) ps z₇ ihs h10 hs4
    obtain ⟨f1, f2, f3, f4⟩ := flip qs
    have hq : qs ≠ [] := by
      rintro rfl
      have h5 := congrArg List.length e1
      simp at h5
      exact hne (List.eq_nil_of_length_eq_zero (by omega))
    cases hs1
    cases hs3
    cases hs.right.cons.1
    refine ⟨.tup (p' :: qs.map (·.1.2)), ?_, ?_⟩
    rotate_left
    · have := pat.tup (ps := (p, p') :: qs.map (·.1)) (ρ := ρ) (by
        intro x hx
        rcases List.mem_cons.1 hx with rfl | hx
        · exact h12
        · obtain ⟨q, hq, rfl⟩ := List.mem_map.1 hx; exact (e3 q hq).2)
      rw [List.map_cons, f3, e1, List.map_cons, f4] at this
      exact this
    · have := PatToks.tup h11 (ps := qs.map fun q => (q.1.2, q.2)) (by simpa using hq) (by
        intro x hx
        obtain ⟨q, hq, rfl⟩ := List.mem_map.1 hx; exact (e3 q hq).1)
      rw [f1, f2, sepBy_more (by simpa using hq), ← e2] at this
      simpa using this
  | arrNil =>
    intro zs hz hs₀
    obtain ⟨⟨t, t'⟩, z₁, rfl, h1, h2⟩ := List.map_eq_cons_iff.1 hz
    obtain ⟨⟨u, u'⟩, z₂, rfl, h3, h4⟩ := List.map_eq_cons_iff.1 h2
    obtain ⟨⟨v, v'⟩, z₃, rfl, h5, h6⟩ := List.map_eq_cons_iff.1 h4
    cases List.map_eq_nil_iff.1 h6
    cases h1
    cases h3
    cases h5
    obtain ⟨hs1, hs'⟩ := hs₀.cons
    obtain ⟨hs2, hs⟩ := hs'.cons
    cases hs1
    cases hs2
    cases hs.cons.1
    exact ⟨_, .arrNil, .arr (ps := []) (by simp)⟩
  | @arr ps hne hps ihs =>
    intro zs hz hs₀
    obtain ⟨⟨t, t'⟩, z₁, rfl, h1, h2⟩ := List.map_eq_cons_iff.1 hz
    obtain ⟨z₂, z₃, rfl, h3, h4⟩ := List.map_eq_append_iff.1 h2
    obtain ⟨⟨u, u'⟩, z₄, rfl, h5, h6⟩ := List.map_eq_cons_iff.1 h4
    cases List.map_eq_nil_iff.1 h6
    cases h1
    cases h5
    obtain ⟨hs1, hs⟩ := hs₀.cons
    obtain ⟨qs, e1, e2, e3⟩ := sepBy_swap (Q := PatToks .inner) (R := ρ.pat) ps z₂ ihs h3 hs.left
    obtain ⟨f1, f2, f3, f4⟩ := flip qs
    have hq : qs ≠ [] := by
      rintro rfl
      have h5 := congrArg List.length e1
      simp at h5
      exact hne (List.eq_nil_of_length_eq_zero (by omega))
    cases hs1
    cases hs.right.cons.1
    refine ⟨.arr (qs.map (·.1.2)), ?_, ?_⟩
    rotate_left
    · have := pat.arr (ps := qs.map (·.1)) (ρ := ρ) (by
        intro x hx
        obtain ⟨q, hq, rfl⟩ := List.mem_map.1 hx; exact (e3 q hq).2)
      rw [f3, e1, f4] at this
      exact this
    · have := PatToks.arr (ps := qs.map fun q => (q.1.2, q.2)) (by simpa using hq) (by
        intro x hx
        obtain ⟨q, hq, rfl⟩ := List.mem_map.1 hx; exact (e3 q hq).1)
      rw [f1, f2, ← e2] at this
      simpa using this
  | @con s ps hps ihs =>
    intro zs hz hs₀
    obtain ⟨⟨t, t'⟩, z₁, rfl, h1, h2⟩ := List.map_eq_cons_iff.1 hz
    cases h1
    obtain ⟨hs1, hs⟩ := hs₀.cons
    obtain ⟨qs, e1, e2, e3⟩ := flatten_swap (Q := PatToks .pattern) (R := ρ.pat) ps z₁ ihs h2 hs
    obtain ⟨f1, f2, f3, f4⟩ := flip qs
    cases hs1 with
    | same h => exact absurd rfl (h _)
    | @upper _ s' hn =>
      refine ⟨.con s' (qs.map (·.1.2)), ?_, ?_⟩
      rotate_left
      · have := pat.con (ps := qs.map (·.1)) hn (by
          intro x hx
          obtain ⟨q, hq, rfl⟩ := List.mem_map.1 hx; exact (e3 q hq).2)
        rw [f3, e1, f4] at this
        exact this
      · have := PatToks.con s' (ps := qs.map fun q => (q.1.2, q.2)) (by
          intro x hx
          obtain ⟨q, hq, rfl⟩ := List.mem_map.1 hx; exact (e3 q hq).1)
        rw [f1, f2, ← e2] at this
        exact this
  | @conTup p ts ps _ hne hps ih ihs =>
    intro zs hz hs₀
    rw [sepBy_more (by simpa using hne)] at hz
    obtain ⟨z₅, z₆, rfl, h7, h8⟩ := List.map_eq_append_iff.1 hz
    obtain ⟨⟨v, v'⟩, z₇, rfl, h9, h10⟩ := List.map_eq_cons_iff.1 h8
    cases h9
    obtain ⟨p', h11, h12⟩ := ih z₅ h7 hs₀.left
    obtain ⟨hs3, hs4⟩ := hs₀.right.cons
    obtain ⟨qs, e1, e2, e3⟩ := sepBy_swap (Q := PatToks .pattern) (R := ρ.pat) ps z₇ ihs h10 hs4
    obtain ⟨f1, f2, f3, f4⟩ := flip qs
    have hq : qs ≠ [] := by
      rintro rfl
      have h5 := congrArg List.length e1
      simp at h5
      exact hne (List.eq_nil_of_length_eq_zero (by omega))
    cases hs3
    refine ⟨.tup (p' :: qs.map (·.1.2)), ?_, ?_⟩
    rotate_left
    · have := pat.tup (ps := (p, p') :: qs.map (·.1)) (ρ := ρ) (by
        intro x hx
        rcases List.mem_cons.1 hx with rfl | hx
        · exact h12
        · obtain ⟨q, hq, rfl⟩ := List.mem_map.1 hx; exact (e3 q hq).2)
      rw [List.map_cons, f3, e1, List.map_cons, f4] at this
      exact this
    · have := PatToks.conTup h11 (ps := qs.map fun q => (q.1.2, q.2)) (by simpa using hq) (by
        intro x hx
        obtain ⟨q, hq, rfl⟩ := List.mem_map.1 hx; exact (e3 q hq).1)
      rw [f1, f2, sepBy_more (by simpa using hq), ← e2] at this
      simpa using this
  | inner _ ih =>
    intro zs hz hs₀
    obtain ⟨p', h5, h6⟩ := ih zs hz hs₀
    exact ⟨_, .inner h5, h6⟩
  | innerCon _ ih =>
    intro zs hz hs₀
    obtain ⟨p', h5, h6⟩ := ih zs hz hs₀
    exact ⟨_, .innerCon h5, h6⟩
  | lit l =>
    intro zs hz hs₀
    obtain ⟨⟨t, t'⟩, z₁, rfl, h1, h2⟩ := List.map_eq_cons_iff.1 hz
    cases List.map_eq_nil_iff.1 h2
    cases h1
    cases hs₀.cons.1 with
    | lit h => exact ⟨_, .lit _, .lit h⟩
    | same _ _ _ h => exact absurd rfl (h _)
  | minus _ ih =>
    intro zs hz hs₀
    obtain ⟨⟨t, t'⟩, z₁, rfl, h1, h2⟩ := List.map_eq_cons_iff.1 hz
    cases h1
    obtain ⟨hs1, hs⟩ := hs₀.cons
    obtain ⟨p', h5, h6⟩ := ih z₁ h2 hs
    cases hs1
    exact ⟨_, .minus h5, h6⟩

end Swap
end Pemdas
