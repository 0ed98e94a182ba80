import Verif.Model.Grapheme
import Verif.Lemmas.Text
/-
C65–C67: text helpers.
-/
namespace Pemdas

/-- `p` is the first whitespace-separated word of `s` (specification). -/
def FirstWord (p s : Text) : Prop :=
  p ≠ [] ∧ (∀ c ∈ p, isWhitespace c = false) ∧
  ∃ pre rest, s = pre ++ p ++ rest ∧ (∀ c ∈ pre, isWhitespace c = true) ∧
    ∀ c, rest.head? = some c → isWhitespace c = true

private theorem splitWsGo_word (w : Text) (hw : ∀ c ∈ w, isWhitespace c = false) (s cur : Text) :
    splitWsGo (w ++ s) cur = splitWsGo s (cur ++ w) := by
  induction w generalizing cur with
  | nil => simp
  | cons c w ih =>
    have hc := hw c (by simp)
    simp only [List.cons_append, splitWsGo, hc, Bool.false_eq_true, if_false]
    rw [ih (fun d hd => hw d (by simp [hd]))]
    simp

private theorem splitWsGo_ws (w : Text) (hw : ∀ c ∈ w, isWhitespace c = true) (s : Text) :
    splitWsGo (w ++ s) [] = splitWsGo s [] := by
  induction w with
  | nil => rfl
  | cons c w ih =>
    have hc := hw c (by simp)
    simp only [List.cons_append, splitWsGo, hc, if_true]
    exact ih (fun d hd => hw d (by simp [hd]))

/-- The first word computed by `split_whitespace` is the first word. -/
theorem head_splitWhitespace (p s : Text) :
    (splitWhitespace s).head? = some p ↔ FirstWord p s := by
  constructor
  · intro h
    have key : ∀ (s cur : Text), (∀ c ∈ cur, isWhitespace c = false) →
        (splitWsGo s cur).head? = some p →
        (cur = [] ∧ FirstWord p s) ∨
        (cur ≠ [] ∧ ∃ w rest, p = cur ++ w ∧ s = w ++ rest ∧ (∀ c ∈ w, isWhitespace c = false) ∧
          ∀ c, rest.head? = some c → isWhitespace c = true) := by
      intro s
      induction s with
      | nil =>
        intro cur hcur hh
        by_cases hc : cur = []
        · subst hc; simp [splitWsGo] at hh
        · simp only [splitWsGo, hc, if_false, List.head?_cons, Option.some.injEq] at hh
          exact .inr ⟨hc, [], [], by simp [hh], rfl, by simp, by simp⟩
      | cons c s ih =>
        intro cur hcur hh
        by_cases hws : isWhitespace c = true
        · by_cases hc : cur = []
          · subst hc
            simp only [splitWsGo, hws, if_true] at hh
            rcases ih [] (by simp) hh with ⟨_, h1, h2, pre, rest, h3, h4, h5⟩ | ⟨h, _⟩
            · exact .inl ⟨rfl, h1, h2, c :: pre, rest, by simp [h3], by
                intro d hd
                rcases List.mem_cons.1 hd with rfl | hd
                · exact hws
                · exact h4 d hd, h5⟩
            · exact absurd rfl h
          · simp only [splitWsGo, hws, if_true, hc, if_false, List.head?_cons,
              Option.some.injEq] at hh
            exact .inr ⟨hc, [], c :: s, by simp [hh], rfl, by simp, by
              intro d hd; simp at hd; subst hd; exact hws⟩
        · have hws : isWhitespace c = false := by simpa using hws
          simp only [splitWsGo, hws, Bool.false_eq_true, if_false] at hh
          rcases ih (cur ++ [c]) (by
            intro d hd
            rcases List.mem_append.1 hd with hd | hd
            · exact hcur d hd
            · simp at hd; subst hd; exact hws) hh with ⟨h, _⟩ | ⟨_, w, rest, h1, h2, h3, h4⟩
          · simp at h
          · by_cases hc : cur = []
            · subst hc
              left
              refine ⟨rfl, by simp [h1], ?_, [], rest, by simp [h1, h2], by simp, h4⟩
              intro d hd
              rw [h1] at hd
              simp only [List.nil_append, List.cons_append, List.mem_cons] at hd
              rcases hd with rfl | hd
              · exact hws
              · exact h3 d hd
            · right
              refine ⟨hc, c :: w, rest, by simp [h1], by simp [h2], ?_, h4⟩
              intro d hd
              rcases List.mem_cons.1 hd with rfl | hd
              · exact hws
              · exact h3 d hd
    rcases key s [] (by simp) h with ⟨_, h⟩ | ⟨h, _⟩
    · exact h
    · exact absurd rfl h
  · rintro ⟨hp, hpw, pre, rest, rfl, hpre, hrest⟩
    unfold splitWhitespace
    rw [List.append_assoc, splitWsGo_ws pre hpre, splitWsGo_word p hpw, List.nil_append]
    cases rest with
    | nil => simp [splitWsGo, hp]
    | cons c rest =>
      have := hrest c rfl
      simp [splitWsGo, this, hp]

/-- **C65** `is_prefix(p, s)` holds iff `p` is the first whitespace-separated word of `s`. -/
theorem C65_is_prefix (p s : Text) : isPrefix p s = true ↔ FirstWord p s := by
  rw [← head_splitWhitespace]
  unfold isPrefix
  cases (splitWhitespace s).head? with
  | none => simp
  | some t => simp

example : FirstWord t!"foo" t!" foo bar" :=
  ⟨by decide, by decide, t!" ", t!" bar", by decide, by decide, by decide⟩

/-! ### C66 -/

theorem dropWhile_all {f : Char → Bool} {s : Text} (h : ∀ c ∈ s, f c = true) :
    s.dropWhile f = [] := by
  induction s with
  | nil => rfl
  | cons c s ih =>
    simp [h c (by simp), ih (fun d hd => h d (by simp [hd]))]

private theorem trim_all_ws {s : Text} (h : ∀ c ∈ s, isWhitespace c = true) : trim s = [] := by
  simp [trim, trimStart, trimEnd, dropWhile_all h]

private theorem utf8Len_dropWhile (f : Char → Bool) (s : Text) :
    utf8Len (s.dropWhile f) ≤ utf8Len s := by
  induction s with
  | nil => simp
  | cons c s ih =>
    simp only [List.dropWhile_cons]
    split
    · simp; omega
    · exact Nat.le_refl _

private theorem utf8Len_reverse (s : Text) : utf8Len s.reverse = utf8Len s := by
  induction s with
  | nil => rfl
  | cons c s ih => simp [ih]; omega

/-- trimming `p ++ rest` where `p` is a word leaves `p` and the part of `rest` before its final
whitespace -/
theorem trim_word (p rest : Text) (hp : p ≠ []) (hpw : ∀ c ∈ p, isWhitespace c = false) :
    trim (p ++ rest) = p ++ trimEnd rest := by
  have h1 : trimStart (p ++ rest) = p ++ rest := by
    cases p with
    | nil => exact absurd rfl hp
    | cons c p =>
      simp [trimStart, hpw c (by simp)]
  unfold trim
  rw [h1]
  unfold trimEnd
  rw [List.reverse_append, List.dropWhile_append]
  split
  · rename_i h
    have h : rest.reverse.dropWhile isWhitespace = [] := by simpa using h
    rw [h]
    have : p.reverse.dropWhile isWhitespace = p.reverse := by
      have hr : p.reverse ≠ [] := by simpa using hp
      cases hx : p.reverse with
      | nil => exact absurd hx hr
      | cons c q =>
        have : c ∈ p := by rw [← List.mem_reverse, hx]; simp
        simp [hpw c this]
    rw [this]; simp
  · simp

/-- **C66** (for text without leading whitespace) `strip_prefix` returns the trimmed remainder
after a matching first word and otherwise the original text; it does not panic.
Missing: text with leading whitespace, for which the code is wrong (`C66_leading_whitespace`). -/
theorem C66_strip_prefix_partial (p s : Text) :
    (∀ rest, s = p ++ rest → FirstWord p s → stripPrefix p s = .ok (trim rest)) ∧
    (¬ FirstWord p s → stripPrefix p s = .ok s) := by
  constructor
  · rintro rest rfl hf
    have hh := (head_splitWhitespace p (p ++ rest)).2 hf
    obtain ⟨hp, hpw, -⟩ := hf
    unfold stripPrefix
    rw [hh]
    simp only [if_true]
    rw [trim_word p rest hp hpw, utf8Len_append]
    split
    · rename_i h
      have := byteSlice_eq_some (s := p ++ rest) (r := rest) (a := utf8Len p)
        (b := utf8Len (p ++ rest))
      rw [this.2 ⟨p, [], by simp, rfl, by simp⟩]
    · rename_i h
      have : utf8Len (trimEnd rest) = 0 := by omega
      have he := (utf8Len_eq_zero _).1 this
      have hall : ∀ c ∈ rest, isWhitespace c = true := by
        have : rest.reverse.dropWhile isWhitespace = [] := by
          simpa [trimEnd] using he
        intro c hc
        have hc : c ∈ rest.reverse := by simpa using hc
        generalize rest.reverse = r at *
        induction r with
        | nil => simp at hc
        | cons d r ih =>
          simp only [List.dropWhile_cons] at this
          split at this
          · rcases List.mem_cons.1 hc with rfl | hc
            · assumption
            · exact ih this hc
          · cases this
      rw [trim_all_ws hall]
  · intro hf
    unfold stripPrefix
    cases hh : (splitWhitespace s).head? with
    | none => rfl
    | some q =>
      have : q ≠ p := by
        intro e; subst e; exact hf ((head_splitWhitespace q s).1 hh)
      simp [this]

/-- **C66** exactly, whatever whitespace comes first: if nothing but whitespace surrounds the word,
nothing is left; otherwise as many bytes as the word has are cut off at the very beginning of the
text, and that panics if it would cut a character. -/
theorem C66_exactly {p s : Text} (h : FirstWord p s) :
    (trim s = p → stripPrefix p s = .ok []) ∧
    (trim s ≠ p → ∀ a b, s = a ++ b → utf8Len a = utf8Len p → stripPrefix p s = .ok (trim b)) ∧
    (trim s ≠ p → (¬ ∃ a b, s = a ++ b ∧ utf8Len a = utf8Len p) →
      stripPrefix p s = .error .badSlice) := by
  have hh := (head_splitWhitespace p s).2 h
  obtain ⟨hp, hpw, pre, rest, hs, hpre, -⟩ := h
  have ht : trim s = p ++ trimEnd rest := by
    have : trim s = trim (p ++ rest) := by
      unfold trim trimStart
      rw [hs, List.append_assoc, List.dropWhile_append, dropWhile_all hpre]
      simp
    rw [this, trim_word p rest hp hpw]
  have hlt : utf8Len p < utf8Len (trim s) ↔ trim s ≠ p := by
    rw [ht, utf8Len_append]
    constructor
    · intro h1 h2
      have : trimEnd rest = [] := by simpa using h2
      rw [this] at h1
      simp at h1
    · intro h1
      have : utf8Len (trimEnd rest) ≠ 0 := by
        rw [ne_eq, utf8Len_eq_zero]
        intro h2
        exact h1 (by rw [h2]; simp)
      omega
  unfold stripPrefix
  rw [hh]
  simp only [if_true]
  refine ⟨?_, ?_, ?_⟩
  · intro h1
    rw [if_neg (by rw [hlt]; simpa using h1)]
  · intro h1 a b hab hl
    rw [if_pos (hlt.2 h1), byteSlice_eq_some.2 ⟨a, [], by simpa using hab, hl, by rw [hab]; simp⟩]
  · intro h1 h2
    rw [if_pos (hlt.2 h1)]
    cases hb : byteSlice s (utf8Len p) (utf8Len s) with
    | none => rfl
    | some r =>
      obtain ⟨x, y, h3, h4, -⟩ := byteSlice_eq_some.1 hb
      exact absurd ⟨x, r ++ y, by rw [h3]; simp, h4⟩ h2

example : FirstWord t!"ab" t!"  ab cd" ∧ trim t!"  ab cd" ≠ t!"ab" ∧
    t!"  ab cd" = t!"  " ++ t!"ab cd" ∧ utf8Len t!"  " = utf8Len t!"ab" := by
  refine ⟨⟨by decide, by decide, t!"  ", t!" cd", by decide, by decide, by decide⟩, ?_⟩
  decide

/-- **C66 fails** with leading whitespace: the word is not removed, and the code may even panic by
slicing inside a character (here U+3000 IDEOGRAPHIC SPACE). -/
theorem C66_leading_whitespace :
    stripPrefix t!"ab" t!"  ab cd" = .ok t!"ab cd" ∧
    stripPrefix t!"a" ['　', 'a', ' ', 'b'] = .error .badSlice := by decide

example : isPrefix t!"load" t!"load --math" = true ∧
    stripPrefix t!"load" t!"load --math" = .ok t!"--math" := by decide

/-! ### C67 -/

private theorem numlenLoop_spec (base : Nat) (hb : 2 ≤ base) :
    ∀ (fuel n k : Nat), n ≤ fuel →
      ∃ d, numlenLoop base fuel n k = k + d ∧ n < base ^ d ∧ (0 < n → base ^ (d - 1) ≤ n ∧ 0 < d) := by
  intro fuel
  induction fuel with
  | zero =>
    intro n k h
    exact ⟨0, rfl, by simp; omega, by omega⟩
  | succ fuel ih =>
    intro n k h
    simp only [numlenLoop]
    split
    · rename_i hn
      have hlt : n / base < n := Nat.div_lt_self hn (by omega)
      obtain ⟨d, h1, h2, h3⟩ := ih (n / base) (k + 1) (by omega)
      have hbpos : 0 < base := by omega
      refine ⟨d + 1, by rw [h1]; omega, ?_, ?_⟩
      · rw [Nat.pow_succ]
        exact (Nat.div_lt_iff_lt_mul hbpos).1 h2
      · intro _
        refine ⟨?_, by omega⟩
        by_cases hq : 0 < n / base
        · obtain ⟨h4, h5⟩ := h3 hq
          have := (Nat.le_div_iff_mul_le hbpos).1 h4
          rw [← Nat.pow_succ] at this
          rw [show d + 1 - 1 = d - 1 + 1 by omega]
          exact this
        · have h0 : n / base = 0 := Nat.eq_zero_of_not_pos hq
          have : d = 0 := by
            rw [h0] at h1
            have hz : ∀ f k, numlenLoop base f 0 k = k := by
              intro f k; cases f <;> simp [numlenLoop]
            rw [hz] at h1; omega
          subst this
          simp; omega
    · rename_i hn
      exact ⟨0, rfl, by simp; omega, by omega⟩

/-- **C67** `numlen_base::<B>(n)` is the number of base-`B` digits of `n`: the `k ≥ 1` with
`B^(k-1) ≤ n < B^k`, and 1 for zero. -/
theorem C67_numlen (base n : Nat) (hb : 2 ≤ base) :
    1 ≤ numlenBase base n ∧ n < base ^ numlenBase base n ∧
    (0 < n → base ^ (numlenBase base n - 1) ≤ n) ∧ (n = 0 → numlenBase base n = 1) := by
  unfold numlenBase
  split
  · rename_i h; subst h; simp; omega
  · rename_i h
    obtain ⟨d, h1, h2, h3⟩ := numlenLoop_spec base hb n n 0 (Nat.le_refl n)
    rw [h1]
    have := h3 (by omega)
    simp only [Nat.zero_add]
    exact ⟨this.2, h2, fun _ => this.1, fun e => absurd e h⟩

/-- **C67** `numlen` is the length of the decimal rendering. -/
theorem C67_numlen_decimal (n : Nat) : numlen n = (decText n).length := by
  obtain ⟨h1, h2, h3, h4⟩ := C67_numlen 10 n (by decide)
  have hp : 0 < (decText n).length := Nat.length_toDigits_pos
  have hiff : ∀ k, 0 < k → ((decText n).length ≤ k ↔ n < 10 ^ k) :=
    fun k hk => Nat.length_toDigits_le_iff (by decide) hk
  have hle := (hiff (numlen n) h1).2 h2
  by_cases hn : n = 0
  · subst hn; decide
  · have h3 := h3 (by omega)
    by_cases hk : numlenBase 10 n = 1
    · show numlenBase 10 n = _
      have : (decText n).length ≤ numlenBase 10 n := hle
      omega
    · have := (hiff (numlenBase 10 n - 1) (by omega))
      have hge : ¬ (decText n).length ≤ numlenBase 10 n - 1 := by rw [this]; omega
      show numlenBase 10 n = _
      have : (decText n).length ≤ numlenBase 10 n := hle
      omega

example : numlenBase 16 255 = 2 ∧ numlenBase 2 8 = 4 := by decide

end Pemdas
