import Verif.Spec.Between
import Verif.Lemmas.GroupingMore
/-
Helper lemmas: which operators are above which in well-grouped chains.
-/
namespace Pemdas
namespace OpTree

theorem _root_.Pemdas.LeftOk.both {a b : Fixity} (h1 : LeftOk a b) (h2 : RightOk b a) : False := by
  rcases h1 with h1 | ⟨h1, h3, h4⟩
  · rcases h2 with h2 | ⟨h2, -⟩ <;> omega
  · rcases h2 with h2 | ⟨-, h5, -⟩
    · omega
    · rw [h4] at h5; cases h5

theorem _root_.Pemdas.LeftOk.chain {a b c : Fixity} (h1 : LeftOk a b) (h2 : LeftOk b c) : LeftOk a c := by
  rcases h1 with h1 | ⟨h1, h3, h4⟩ <;> rcases h2 with h2 | ⟨h2, h5, h6⟩
  · exact .inl (by omega)
  · exact .inl (by omega)
  · exact .inl (by omega)
  · exact .inr ⟨h1.trans h2, h3, h6⟩

theorem _root_.Pemdas.RightOk.chain {a b c : Fixity} (h1 : RightOk a b) (h2 : RightOk b c) : RightOk a c := by
  rcases h1 with h1 | ⟨h1, h3, h4⟩ <;> rcases h2 with h2 | ⟨h2, h5, h6⟩
  · exact .inl (by omega)
  · exact .inl (by omega)
  · exact .inl (by omega)
  · exact .inr ⟨h1.trans h2, h3, h6⟩

theorem all_leftOk {fx : Env} {p : Fixity} : ∀ {t : OpTree}, t.WellGrouped fx →
    (∀ o, t.root = some o → LeftOk (fx o) p) → ∀ o ∈ t.operators, LeftOk (fx o) p
  | leaf _, _, _, o, ho => by cases ho
  | node l op r, hw, hr, o, ho => by
    obtain ⟨hl, hr', h1, h2⟩ := hw
    have h0 := hr op rfl
    simp only [operators, List.mem_append, List.mem_cons] at ho
    rcases ho with ho | rfl | ho
    · exact all_leftOk hl (fun o ho => (h1 o ho).chain h0) o ho
    · exact h0
    · exact all_leftOk hr' (fun o ho => h0.of_right (h2 o ho)) o ho

theorem all_rightOk {fx : Env} {p : Fixity} : ∀ {t : OpTree}, t.WellGrouped fx →
    (∀ o, t.root = some o → RightOk (fx o) p) → ∀ o ∈ t.operators, RightOk (fx o) p
  | leaf _, _, _, o, ho => by cases ho
  | node l op r, hw, hr, o, ho => by
    obtain ⟨hl, hr', h1, h2⟩ := hw
    have h0 := hr op rfl
    simp only [operators, List.mem_append, List.mem_cons] at ho
    rcases ho with ho | rfl | ho
    · exact all_rightOk hl (fun o ho => h0.of_left (h1 o ho)) o ho
    · exact h0
    · exact all_rightOk hr' (fun o ho => (h2 o ho).chain h0) o ho

theorem Over.bounds : ∀ {t : OpTree} {i j : Nat}, t.Over i j →
    i < t.operators.length ∧ j < t.operators.length ∧ i ≠ j
  | leaf _, _, _, h => h.elim
  | node l op r, i, j, h => by
    simp only [operators, List.length_append, List.length_cons]
    rcases h with ⟨h1, h2, h3⟩ | ⟨h1, h2, h3⟩ | ⟨h1, h2, h3⟩
    · omega
    · have := h3.bounds; omega
    · have := h3.bounds; omega

/-- Which operators are above which in a grouping that respects the fixities. -/
theorem over_iff {fx : Env} : ∀ {t : OpTree}, t.WellGrouped fx → ∀ i j,
    t.Over i j ↔ Outlasts fx t.operators i j
  | leaf _, _, i, j => by
    constructor
    · exact fun h => h.elim
    · rintro ⟨-, h, -⟩; simp [operators] at h
  | node l op r, hw, i, j => by
    obtain ⟨hl, hr, h1, h2⟩ := hw
    have hL := all_leftOk hl h1
    have hR := all_rightOk hr h2
    have ihl := over_iff hl
    have ihr := over_iff hr
    have a1 : ∀ k, k < l.operators.length → (l.operators ++ op :: r.operators)[k]? = l.operators[k]? :=
      fun k hk => List.getElem?_append_left hk
    have a2 : (l.operators ++ op :: r.operators)[l.operators.length]? = some op := by simp
    have a3 : ∀ k, l.operators.length < k →
        (l.operators ++ op :: r.operators)[k]? = r.operators[k - (l.operators.length + 1)]? := by
      intro k hk
      rw [List.getElem?_append_right (by omega),
        show k - l.operators.length = (k - (l.operators.length + 1)) + 1 by omega, List.getElem?_cons_succ]
    simp only [Over, operators]
    constructor
    · rintro (⟨rfl, hj, hne⟩ | ⟨hi, hj, ho⟩ | ⟨hi, hj, ho⟩)
      · refine ⟨Ne.symm hne, by simp; omega, op, a2, fun k b hk => ⟨fun h => ?_, fun h => ?_⟩⟩
        · rw [a3 k h.1] at hk
          exact hR b (List.mem_of_getElem? hk)
        · rw [a1 k h.2] at hk
          exact hL b (List.mem_of_getElem? hk)
      · obtain ⟨hne, -, a, ha, h⟩ := (ihl i j).1 ho
        refine ⟨hne, by simp; omega, a, by rw [a1 i hi]; exact ha, fun k b hk => ⟨fun h' => ?_, fun h' => ?_⟩⟩
        · rw [a1 k (by omega)] at hk
          exact (h k b hk).1 h'
        · rw [a1 k (by omega)] at hk
          exact (h k b hk).2 h'
      · obtain ⟨hne, hj', a, ha, h⟩ := (ihr _ _).1 ho
        refine ⟨by omega, by simp; omega, a, by rw [a3 i hi]; exact ha, fun k b hk => ⟨fun h' => ?_, fun h' => ?_⟩⟩
        · rw [a3 k (by omega)] at hk
          exact (h _ b hk).1 (by omega)
        · rw [a3 k (by omega)] at hk
          exact (h _ b hk).2 (by omega)
    · rintro ⟨hne, hj, a, ha, h⟩
      simp only [List.length_append, List.length_cons] at hj
      rcases Nat.lt_trichotomy i l.operators.length with hi | hi | hi
      · rw [a1 i hi] at ha
        by_cases hj' : j < l.operators.length
        · refine .inr (.inl ⟨hi, hj', (ihl i j).2 ⟨hne, hj', a, ha, fun k b hk => ?_⟩⟩)
          refine h k b ?_
          rw [a1 k (List.getElem?_eq_some_iff.1 hk).1]; exact hk
        · exact ((hL a (List.mem_of_getElem? ha)).both ((h _ op a2).1 (by omega))).elim
      · exact .inl ⟨hi, by omega, by omega⟩
      · rw [a3 i hi] at ha
        by_cases hj' : l.operators.length < j
        · refine .inr (.inr ⟨hi, hj', (ihr _ _).2 ⟨by omega, by omega, a, ha, fun k b hk => ?_⟩⟩)
          have := h (k + (l.operators.length + 1)) b (by
            rw [a3 _ (by omega)]; simpa using hk)
          exact ⟨fun h' => this.1 (by omega), fun h' => this.2 (by omega)⟩
        · exact (((h _ op a2).2 (by omega)).both (hR a (List.mem_of_getElem? ha))).elim

/-- Which operators are above which says all about a grouping. -/
theorem over_ext : ∀ {t t' : OpTree}, t.operands = t'.operands → t.operators = t'.operators →
    (∀ i j, t.Over i j ↔ t'.Over i j) → t = t' := by
  intro t
  induction t with
  | leaf e =>
    intro t' h1 h2 _
    cases t' with
    | leaf e' => simp only [operands, List.cons.injEq, and_true] at h1; rw [h1]
    | node l op r => simp [operators] at h2
  | node l op r ihl ihr =>
    intro t' h1 h2 h3
    cases t' with
    | leaf e' => simp [operators] at h2
    | node l' op' r' =>
      have hlen : ∀ t : OpTree, t.operands.length = t.operators.length + 1 := by
        intro t
        induction t with
        | leaf e => rfl
        | node l op r i1 i2 => simp [operands, operators, i1, i2]; omega
      simp only [operands, operators] at h1 h2
      have hN := congrArg List.length h2
      simp only [List.length_append, List.length_cons] at hN
      have hn : l.operators.length = l'.operators.length := by
        refine Decidable.byContradiction fun hne => ?_
        have a : (node l op r).Over l.operators.length l'.operators.length :=
          .inl ⟨rfl, by omega, fun h => hne h.symm⟩
        rcases (h3 _ _).1 a with h | h | h
        · exact hne h.1
        · omega
        · omega
      obtain ⟨h4, h5⟩ := List.append_inj h2 hn
      obtain ⟨h6, h7⟩ := List.append_inj h1 (by rw [hlen, hlen, hn])
      simp only [List.cons.injEq] at h5
      obtain ⟨rfl, h5⟩ := h5
      have e1 : l = l' := by
        refine ihl h6 h4 fun i j => ?_
        have b1 := @Over.bounds l i j
        have b2 := @Over.bounds l' i j
        have := h3 i j
        simp only [Over] at this
        constructor
        · intro h
          have := b1 h
          rcases (h3 i j).1 (.inr (.inl ⟨by omega, by omega, h⟩)) with h | h | h
          · omega
          · exact h.2.2
          · omega
        · intro h
          have := b2 h
          rcases (h3 i j).2 (.inr (.inl ⟨by omega, by omega, h⟩)) with h | h | h
          · omega
          · exact h.2.2
          · omega
      have e2 : r = r' := by
        refine ihr h7 h5 fun i j => ?_
        have s : ∀ n i, n + 1 + i - (n + 1) = i := fun n i => by omega
        constructor
        · intro h
          rcases (h3 (l.operators.length + 1 + i) (l.operators.length + 1 + j)).1
              (.inr (.inr ⟨by omega, by omega, by rw [s, s]; exact h⟩)) with h | h | h
          · omega
          · omega
          · have := h.2.2
            rwa [← hn, s, s] at this
        · intro h
          rcases (h3 (l.operators.length + 1 + i) (l.operators.length + 1 + j)).2
              (.inr (.inr ⟨by omega, by omega, by rw [hn, s, s]; exact h⟩)) with h | h | h
          · omega
          · omega
          · have := h.2.2
            rwa [s, s] at this
      rw [e1, e2]

/-- Where precedences alone decide, associativities do not matter. -/
theorem WellGrouped.spread {fx fx' : Env} : ∀ {t : OpTree}, t.WellGrouped fx → Spread fx t.operators →
    (∀ o ∈ t.operators, (fx' o).prec = (fx o).prec) → t.WellGrouped fx'
  | leaf _, _, _, _ => trivial
  | node l op r, hw, hs, hp => by
    obtain ⟨hl, hr, h1, h2⟩ := hw
    simp only [operators] at hs hp
    have sub : ∀ {xs ys zs : List Infix}, Spread fx (xs ++ ys ++ zs) → Spread fx ys := by
      intro xs ys zs h pre a mid b post he
      exact h (xs ++ pre) a mid b (post ++ zs) (by rw [he]; simp)
    refine ⟨hl.spread (sub (xs := []) (by simpa using hs)) (fun o ho => hp o (by simp [ho])),
      hr.spread (sub (xs := l.operators ++ [op]) (zs := []) (by simpa using hs)) (fun o ho => hp o (by simp [ho])),
      fun o ho => ?_, fun o ho => ?_⟩
    · cases l with
      | leaf e => cases ho
      | node l₁ o' l₂ =>
        cases ho
        rcases h1 o rfl with h | ⟨h, -⟩
        · refine .inl ?_
          rw [hp op (by simp), hp o (by simp [operators])]
          exact h
        · obtain ⟨-, hl2, -, h4⟩ := hl
          obtain ⟨c, hc, hlt⟩ := hs l₁.operators o l₂.operators op r.operators (by simp [operators]) h
          have := all_rightOk hl2 h4 c hc
          rcases this with h5 | ⟨h5, -⟩ <;> omega
    · cases r with
      | leaf e => cases ho
      | node r₁ o' r₂ =>
        cases ho
        rcases h2 o rfl with h | ⟨h, -⟩
        · refine .inl ?_
          rw [hp op (by simp), hp o (by simp [operators])]
          exact h
        · obtain ⟨hr1, -, h3, -⟩ := hr
          obtain ⟨c, hc, hlt⟩ := hs l.operators op r₁.operators o r₂.operators (by simp [operators]) h.symm
          have := all_leftOk hr1 h3 c hc
          rcases this with h5 | ⟨h5, -⟩ <;> omega

theorem Swap.wellGrouped {fx : Env} {s u t t' : OpTree} (h : Swap s u t t') (hw : t.WellGrouped fx) :
    s.WellGrouped fx ∧ (∀ y, u = leaf y → t'.WellGrouped fx ∧ ∀ o, t'.root = some o → t.root = some o) := by
  induction h with
  | here => exact ⟨hw, fun y hy => by subst hy; exact ⟨trivial, fun o ho => by cases ho⟩⟩
  | left h ih =>
    obtain ⟨h1, h2, h3, h4⟩ := hw
    refine ⟨(ih h1).1, fun y hy => ⟨⟨((ih h1).2 y hy).1, h2, fun o ho => h3 o (((ih h1).2 y hy).2 o ho), h4⟩,
      fun o ho => ho⟩⟩
  | right h ih =>
    obtain ⟨h1, h2, h3, h4⟩ := hw
    refine ⟨(ih h2).1, fun y hy => ⟨⟨h1, ((ih h2).2 y hy).1, h3, fun o ho => h4 o (((ih h2).2 y hy).2 o ho)⟩,
      fun o ho => ho⟩⟩

end OpTree
end Pemdas
