import Verif.Lemmas.LexReach
import Verif.Spec.Lex
/-
Positions kept by the lexer.
-/
namespace Pemdas

/-! ### `locOf` and `unCR` -/

theorem locOf_snoc_nl (s : Text) :
    locOf (s ++ ['\n']) = ⟨(locOf s).line + 1, 1, (locOf s).pos + '\n'.utf8Size⟩ := by
  simp [locOf, List.count_append]; omega

theorem locOf_snoc (s : Text) {c : Char} (h : c ≠ '\n') :
    locOf (s ++ [c]) = ⟨(locOf s).line, (locOf s).col + 1, (locOf s).pos + c.utf8Size⟩ := by
  simp [locOf, List.count_append, h]; omega

theorem unCR_append (a b : Text) (h : ¬ (a.getLast? = some '\n' ∧ b.head? = some '\r')) :
    unCR (a ++ b) = unCR a ++ unCR b := by
  induction a using unCR.induct with
  | case1 cs ih =>
    have : ¬ (cs.getLast? = some '\n' ∧ b.head? = some '\r') := by
      intro ⟨h1, h2⟩
      apply h
      refine ⟨?_, h2⟩
      cases cs with
      | nil => simp at h1
      | cons d ds => simpa using h1
    simp [unCR, ih this]
  | case2 c cs hne ih =>
    cases cs with
    | nil =>
      cases b with
      | nil => simp [unCR]
      | cons d ds =>
        have : ¬ (c = '\n' ∧ d = '\r') := by simpa using h
        show unCR (c :: d :: ds) = unCR [c] ++ unCR (d :: ds)
        rw [unCR.eq_2 c (d :: ds) (by intro cs h1 h2; cases h2; exact this ⟨h1, rfl⟩),
          unCR.eq_2 c [] (by intro cs _ h2; cases h2)]
        simp [unCR]
    | cons d ds =>
      have hih := ih (by simpa using h)
      have hcd : ∀ es : Text, c = '\n' → d :: es = '\r' :: es → False := by
        intro es h1 h2
        injection h2 with h2 _
        exact hne ds h1 (by rw [h2])
      show unCR (c :: (d :: (ds ++ b))) = unCR (c :: d :: ds) ++ unCR b
      rw [unCR.eq_2 c (d :: (ds ++ b)) (by intro es h1 h2; injection h2 with h2 _; exact hcd es h1 (by rw [h2])),
        unCR.eq_2 c (d :: ds) (by intro es h1 h2; injection h2 with h2 _; exact hcd es h1 (by rw [h2]))]
      rw [List.cons_append]
      congr 1
  | case3 => simp [unCR]

theorem unCR_of_noLFCR {s : Text} (h : NoLFCR s) : unCR s = s := by
  induction s using unCR.induct with
  | case1 cs ih => exact absurd ⟨[], cs, rfl⟩ h
  | case2 c cs hne ih =>
    rw [unCR.eq_2 c cs hne, ih (fun hi => h (hi.trans (List.suffix_cons _ _).isInfix))]
  | case3 => rfl

theorem utf8Len_unCR_le (s : Text) : utf8Len (unCR s) ≤ utf8Len s := by
  induction s using unCR.induct with
  | case1 cs ih => simp [unCR]; omega
  | case2 c cs hne ih => rw [unCR.eq_2 c cs hne]; simp; omega
  | case3 => simp [unCR]

theorem NoLFCR.infix {s t : Text} (h : NoLFCR t) (hi : s <:+: t) : NoLFCR s :=
  fun h' => h (h'.trans hi)

theorem Loc.Before.refl (a : Loc) : a.Before a := ⟨Nat.le_refl _, .inr ⟨rfl, Nat.le_refl _⟩⟩

theorem Loc.Before.trans {a b c : Loc} (h : a.Before b) (h' : b.Before c) : a.Before c := by
  unfold Loc.Before at *; omega

namespace Lexer

/-- What the lexer has consumed so far is `pre`, and its counters are those of `pre` without
dropped carriage returns. -/
structure At (l : Lexer) (pre : Text) : Prop where
  src : l.src = pre ++ l.chars
  loc : l.currLoc = locOf (unCR pre)
  edge : ¬ (pre.getLast? = some '\n' ∧ l.chars.head? = some '\r')

theorem advance_eq_nil {l : Lexer} (h : l.chars = []) : l.advance = l := by
  unfold advance bumpChar; rw [h]

theorem At.advance {l : Lexer} {pre : Text} (h : l.At pre) :
    ∃ used, l.chars = used ++ l.advance.chars ∧ l.advance.At (pre ++ used) := by
  cases hch : l.chars with
  | nil => rw [advance_eq_nil hch]; exact ⟨[], by simp [hch], by simpa using h⟩
  | cons c cs =>
    obtain ⟨hs, hl, he⟩ := h
    have hedge : ¬ (pre.getLast? = some '\n' ∧ [c].head? = some '\r') := by
      rw [hch] at he; simpa using he
    by_cases hc : c = '\n'
    · subst hc
      cases cs with
      | nil =>
        have ha : l.advance = { l with chars := [], pos := l.pos + '\n'.utf8Size, col := 1, line := l.line + 1 } := by
          unfold Lexer.advance bumpChar; rw [hch]; simp [dropCR]
        rw [ha]
        refine ⟨['\n'], by simp, ?_, ?_, by simp⟩
        · simp [hs, hch]
        · rw [unCR_append _ _ hedge]
          show _ = locOf (unCR pre ++ ['\n'])
          rw [locOf_snoc_nl, ← hl]; rfl
      | cons d ds =>
        by_cases hd : d = '\r'
        · subst hd
          have ha : l.advance = { l with chars := ds, pos := l.pos + '\n'.utf8Size, col := 1, line := l.line + 1 } := by
            unfold Lexer.advance bumpChar; rw [hch]; simp [dropCR]
          rw [ha]
          refine ⟨['\n', '\r'], by simp, ?_, ?_, by simp⟩
          · simp [hs, hch]
          · rw [unCR_append _ _ (by simp)]
            show _ = locOf (unCR pre ++ ['\n'])
            rw [locOf_snoc_nl, ← hl]; rfl
        · have hdrop : dropCR (d :: ds) = d :: ds := by
            unfold dropCR; split
            · rename_i h; injection h with h _; exact absurd h hd
            · rfl
          have ha : l.advance = { l with chars := d :: ds, pos := l.pos + '\n'.utf8Size, col := 1, line := l.line + 1 } := by
            unfold Lexer.advance bumpChar; rw [hch]; simp [hdrop]
          rw [ha]
          refine ⟨['\n'], by simp, ?_, ?_, by simp [hd]⟩
          · simp [hs, hch]
          · rw [unCR_append _ _ hedge]
            show _ = locOf (unCR pre ++ ['\n'])
            rw [locOf_snoc_nl, ← hl]; rfl
    · have ha : l.advance = { l with chars := cs, pos := l.pos + c.utf8Size, col := l.col + 1 } := by
        unfold Lexer.advance bumpChar; rw [hch]; simp [hc]
      rw [ha]
      refine ⟨[c], by simp, ?_, ?_, by simp [hc]⟩
      · simp [hs, hch]
      · rw [unCR_append _ _ hedge]
        have : unCR [c] = [c] := by rw [unCR.eq_2 c [] (by intro _ _ h; cases h)]; rfl
        rw [this, locOf_snoc _ hc, ← hl]; rfl

theorem At.mark {l : Lexer} {pre : Text} (h : l.At pre) :
    At { l with prevLoc := l.currLoc } pre := ⟨h.src, h.loc, h.edge⟩

theorem At.reach {l l' : Lexer} {pre : Text} (h : l.At pre) (hr : Reach true l l') :
    ∃ used, l.chars = used ++ l'.chars ∧ l'.At (pre ++ used) := by
  induction hr with
  | refl => exact ⟨[], by simp, by simpa using h⟩
  | adv _ ih =>
    obtain ⟨u, hu, hat⟩ := ih
    obtain ⟨v, hv, hat'⟩ := hat.advance
    exact ⟨u ++ v, by rw [hu, hv]; simp, by simpa using hat'⟩
  | mark _ _ ih =>
    obtain ⟨u, hu, hat⟩ := ih
    exact ⟨u, hu, hat.mark⟩

theorem currLoc_advance_before (l : Lexer) : l.currLoc.Before l.advance.currLoc := by
  unfold advance bumpChar
  split
  · exact .refl _
  · rename_i c cs h
    have := utf8Size_pos c
    split
    · exact ⟨by simp [currLoc], .inl (by simp [currLoc])⟩
    · exact ⟨by simp [currLoc], .inr ⟨rfl, by simp [currLoc]⟩⟩

theorem Reach.before {l l' : Lexer} (h : Reach true l l') : l.currLoc.Before l'.currLoc := by
  induction h with
  | refl => exact .refl _
  | adv _ ih => exact ih.trans (currLoc_advance_before _)
  | mark _ _ ih => exact ih

/-- The remembered location stays between the location of the start and the current one. -/
theorem Reach.prev_before {l l' : Lexer} (h : Reach true l l') (hp : l.prevLoc.Before l.currLoc) :
    l'.prevLoc.Before l'.currLoc := by
  induction h with
  | refl => exact hp
  | adv _ ih => rw [advance_prevLoc]; exact ih.trans (currLoc_advance_before _)
  | mark _ _ ih => exact .refl _

theorem Reach.prev_le {l l' : Lexer} (h : Reach true l l') (hp : l.prevLoc.Before l.currLoc) :
    l.prevLoc.Before l'.prevLoc := by
  induction h with
  | refl => exact .refl _
  | adv _ ih => rw [advance_prevLoc]; exact ih
  | mark _ hr ih => exact hp.trans hr.before

end Lexer
end Pemdas
