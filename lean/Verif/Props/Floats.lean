import Verif.Model.Token
import Verif.Spec.RustFloat
/-
C94: fractional literals and their text.
-/
namespace Pemdas

private theorem decText_digits (n : Nat) : ∀ c ∈ decText n, c.isDigit = true :=
  fun _ hc => Nat.isDigit_of_mem_toDigits (by decide) (by decide) hc

private theorem decText_ne (n : Nat) : decText n ≠ [] := by simp [decText, Nat.toDigits_ne_nil]

/-- **C94** (the part that holds) Without an exponent, the text of a fractional literal denotes the
number its fields say: the integer part followed by the digits of the fraction. Missing: a non-zero
exponent, see `C94_negative_exponent_wrong` and `C94_positive_exponent_wrong`. -/
theorem C94_value_partial (f : FloatRep) (h : f.exp = 0) :
    FloatText f.text false
      (match f.frac with
        | none => f.int
        | some n => Nat.ofDigitChars 10 (decText f.int ++ decText n) 0)
      (match f.frac with
        | none => 0
        | some n => -((decText n).length : Int)) := by
  apply FloatText.pos
  apply UnsignedFloatText.plain
  unfold FloatRep.text
  cases hf : f.frac with
  | none =>
    have := DecimalText.int (decText f.int) (decText_digits _) (decText_ne _)
    rw [show Nat.ofDigitChars 10 (decText f.int) 0 = f.int from Nat.ofDigitChars_ten_toDigits] at this
    simpa [h] using this
  | some n =>
    have := DecimalText.point (decText f.int) (decText n) (decText_digits _) (decText_digits _)
      (by simp [decText_ne])
    simpa [h] using this

private theorem no_minus {s : Text} {m : Nat} {e : Int} (h : DecimalText s m e) : '-' ∉ s := by
  intro hm
  cases h with
  | int _ hd _ => exact absurd (hd _ hm) (by decide)
  | point ip fp hi hf _ =>
    rcases List.mem_append.1 hm with hm | hm
    · exact absurd (hi _ hm) (by decide)
    · rcases List.mem_cons.1 hm with hm | hm
      · exact absurd hm (by decide)
      · exact absurd (hf _ hm) (by decide)

private theorem no_mark (f : FloatRep) (c : Char) (h : c = 'e' ∨ c = 'E' ∨ c = '+') :
    c ∉ f.text := by
  have hdig : ∀ n, c ∉ decText n := fun n hc => by
    have := decText_digits n c hc
    rcases h with rfl | rfl | rfl <;> exact absurd this (by decide)
  intro hc
  have hdot : c ≠ '.' := by rintro rfl; simp at h
  have hdash : c ≠ '-' := by rintro rfl; simp at h
  unfold FloatRep.text at hc
  rcases List.mem_append.1 hc with hc | hc
  · rcases List.mem_append.1 hc with hc | hc
    · exact hdig _ hc
    · split at hc
      · rcases List.mem_cons.1 hc with hc | hc
        · exact hdot hc
        · exact hdig _ hc
      · cases hc
  · split at hc
    · unfold intText at hc
      split at hc
      · exact hdig _ hc
      · rcases List.mem_cons.1 hc with hc | hc
        · exact hdash hc
        · exact hdig _ hc
    · cases hc

private theorem head_digit (f : FloatRep) : ∃ c s, f.text = c :: s ∧ c.isDigit = true := by
  unfold FloatRep.text
  cases h : decText f.int with
  | nil => exact absurd h (decText_ne _)
  | cons c s =>
    exact ⟨c, _, by simp only [List.cons_append]; rfl,
      decText_digits f.int c (by rw [h]; simp)⟩

/-- **C94 fails**: with a negative exponent `to_f64` panics, because the text has no `e` before the
exponent and is not a number at all. -/
theorem C94_negative_exponent_wrong (f : FloatRep) (h : f.exp < 0) :
    ¬ ∃ neg m e, FloatText f.text neg m e := by
  have hminus : '-' ∈ f.text := by
    unfold FloatRep.text
    have hne : f.exp ≠ 0 := by omega
    rw [if_pos hne]
    apply List.mem_append_right
    cases he : f.exp with
    | ofNat n => rw [he] at h; exact absurd h (by simp)
    | negSucc n => simp [intText]
  obtain ⟨c0, s0, hc0, hd0⟩ := head_digit f
  rintro ⟨neg, m, e, hf⟩
  have key : ∀ {s m e}, UnsignedFloatText s m e → s ≠ f.text := by
    rintro s m e hu rfl
    generalize hs : f.text = s at hu
    cases hu with
    | plain hd => exact no_minus hd (hs ▸ hminus)
    | exp _ mark hmark ds _ _ sign _ =>
      have : mark ∈ f.text := by rw [hs]; simp
      exact no_mark f mark (by rcases hmark with h | h <;> simp [h]) this
  generalize hs : f.text = s at hf
  cases hf with
  | pos hu => exact key hu hs.symm
  | plus _ => exact no_mark f '+' (by simp) (by rw [hs]; simp)
  | minus _ =>
    rw [hc0] at hs
    cases hs
    exact absurd hd0 (by decide)

/-- **C94 fails**: a positive exponent is glued to the digits, so different numbers get the same
text: `1·10²` is written, and read by `to_f64`, as `12`. -/
theorem C94_positive_exponent_wrong :
    FloatRep.text ⟨1, none, 2⟩ = t!"12" ∧ FloatRep.text ⟨12, none, 0⟩ = t!"12" ∧
    FloatText (FloatRep.text ⟨1, none, 2⟩) false 12 0 := by
  refine ⟨by decide, by decide, ?_⟩
  have := C94_value_partial ⟨12, none, 0⟩ rfl
  exact this

private def fracText : Option Nat → Text
  | some n => '.' :: decText n
  | none => []

/-- **C94** Without exponents the text determines the literal. -/
theorem C94_text_injective_partial (f g : FloatRep) (hf : f.exp = 0) (hg : g.exp = 0) :
    f.text = g.text ↔ f = g := by
  constructor
  · intro h
    have dec_inj : ∀ a b, decText a = decText b → a = b := fun a b h => by
      have := congrArg (Nat.ofDigitChars 10 · 0) h
      simpa [decText] using this
    have tw : ∀ (n : Nat) (r : Text), (r = [] ∨ ∃ r', r = '.' :: r') →
        (decText n ++ r).takeWhile (·.isDigit) = decText n ∧
        (decText n ++ r).dropWhile (·.isDigit) = r := by
      intro n r hr
      rw [List.takeWhile_append_of_pos (decText_digits n),
        List.dropWhile_append_of_pos (decText_digits n)]
      rcases hr with rfl | ⟨r', rfl⟩
      · simp
      · rw [List.takeWhile_cons_of_neg (by decide), List.dropWhile_cons_of_neg (by decide)]
        simp
    have shape : ∀ f : FloatRep, f.exp = 0 → f.text = decText f.int ++ fracText f.frac := by
      intro f hf
      unfold FloatRep.text fracText
      rw [if_neg (by simp [hf]), List.append_nil]
      cases f.frac <;> rfl
    have hr : ∀ f : FloatRep, fracText f.frac = [] ∨ ∃ r', fracText f.frac = '.' :: r' := by
      intro f
      cases f.frac with
      | none => exact .inl rfl
      | some n => exact .inr ⟨_, rfl⟩
    rw [shape f hf, shape g hg] at h
    have h3 := (tw f.int _ (hr f)).1
    have h4 := (tw f.int _ (hr f)).2
    rw [h, (tw g.int _ (hr g)).1] at h3
    rw [h, (tw g.int _ (hr g)).2] at h4
    obtain ⟨i, fr, ex⟩ := f
    obtain ⟨i', fr', ex'⟩ := g
    simp only at hf hg h3 h4
    have := dec_inj _ _ h3.symm
    subst this hf hg
    cases fr with
    | none => cases fr' with
      | none => rfl
      | some n => cases h4
    | some n => cases fr' with
      | none => cases h4
      | some m =>
        simp only [fracText, List.cons.injEq, true_and] at h4
        rw [dec_inj _ _ h4.symm]
  · rintro rfl; rfl

example : FloatRep.text ⟨1, some 5, 0⟩ = t!"1.5" ∧ (FloatRep.mk 1 (some 5) 0).exp = 0 := by decide
example : FloatRep.text ⟨1, some 5, -3⟩ = t!"1.5-3" ∧ (FloatRep.mk 1 (some 5) (-3)).exp < 0 := by
  decide

end Pemdas
