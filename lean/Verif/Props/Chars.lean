import Verif.Model.Grapheme
import Verif.Model.Lexer
/-
C133: the classes of characters, listed.
-/
namespace Pemdas

/-- The blanks: the characters with the Unicode property `White_Space`. -/
def blanks : Text :=
  ['\t', '\n', '\x0b', '\x0c', '\r', ' ', '\u0085', ' ', ' ', ' ', ' ',
   ' ', ' ', ' ', ' ', ' ', ' ', ' ', ' ', ' ',
   ' ', ' ', ' ', ' ', '　']

theorem mem_of_toNat {c : Char} {l : Text} (h : c.toNat ∈ l.map Char.toNat) : c ∈ l := by
  obtain ⟨d, hd, e⟩ := List.mem_map.1 h
  exact (Char.toNat_inj.1 e) ▸ hd

/-- **C133.** A character is a blank exactly when it is one of the 25 listed. -/
theorem C133_blanks (c : Char) : isWhitespace c = true ↔ c ∈ blanks := by
  constructor
  · intro h
    apply mem_of_toNat
    have e : blanks.map Char.toNat = [9, 10, 11, 12, 13, 32, 133, 160, 5760, 8192, 8193, 8194,
      8195, 8196, 8197, 8198, 8199, 8200, 8201, 8202, 8232, 8233, 8239, 8287, 12288] := by decide
    rw [e]
    simp only [isWhitespace, Bool.or_eq_true, Bool.and_eq_true, decide_eq_true_eq,
      beq_iff_eq] at h
    simp only [List.mem_cons, List.not_mem_nil, or_false]
    omega
  · intro h
    have : ∀ d ∈ blanks, isWhitespace d = true := by decide
    exact this c h

example : blanks.length = 25 ∧ blanks.Nodup := by decide

/-- **C133.** The decimal digits are `0` to `9`, whatever digits other scripts have. -/
theorem C133_digits (c : Char) : isDigit10 c = true ↔ c ∈ t!"0123456789" := by
  constructor
  · intro h
    apply mem_of_toNat
    have e : t!"0123456789".map Char.toNat = [48, 49, 50, 51, 52, 53, 54, 55, 56, 57] := by decide
    rw [e]
    simp only [isDigit10, toNat_le_iff, Bool.and_eq_true, decide_eq_true_eq] at h
    have h1 : '0'.toNat = 48 := rfl
    have h2 : '9'.toNat = 57 := rfl
    simp only [List.mem_cons, List.not_mem_nil, or_false]
    omega
  · intro h
    have : ∀ d ∈ t!"0123456789", isDigit10 d = true := by decide
    exact this c h

/-- **C133.** The digits of `\u{…}` escapes, of either case. -/
theorem C133_hex_digits (c : Char) :
    isHexDigit c = true ↔ c ∈ t!"0123456789abcdefABCDEF" := by
  constructor
  · intro h
    apply mem_of_toNat
    have e : t!"0123456789abcdefABCDEF".map Char.toNat = [48, 49, 50, 51, 52, 53, 54, 55, 56, 57,
      97, 98, 99, 100, 101, 102, 65, 66, 67, 68, 69, 70] := by decide
    rw [e]
    simp only [isHexDigit, toNat_le_iff, Bool.and_eq_true, Bool.or_eq_true,
      decide_eq_true_eq] at h
    have h1 : '0'.toNat = 48 := rfl
    have h2 : '9'.toNat = 57 := rfl
    have h3 : 'a'.toNat = 97 := rfl
    have h4 : 'f'.toNat = 102 := rfl
    have h5 : 'A'.toNat = 65 := rfl
    have h6 : 'F'.toNat = 70 := rfl
    simp only [List.mem_cons, List.not_mem_nil, or_false]
    omega
  · intro h
    have : ∀ d ∈ t!"0123456789abcdefABCDEF", isHexDigit d = true := by decide
    exact this c h

theorem contains_of_perm {l m : Text} (h : l ⊆ m ∧ m ⊆ l) (c : Char) :
    l.contains c = true ↔ c ∈ m := by
  rw [List.contains_iff_mem]
  exact ⟨fun x => h.1 x, fun x => h.2 x⟩

theorem subset_of_all {l m : Text} (h : ∀ c ∈ l, c ∈ m) : l ⊆ m := fun c hc => h c hc

/-- **C133.** The characters operators are made of. -/
theorem C133_operators (c : Char) : isInfixChar c = true ↔ c ∈ t!"!#$%&*+-./:<=>?@\\^|~" :=
  contains_of_perm ⟨subset_of_all (by decide), subset_of_all (by decide)⟩ c

/-- **C133.** What may trail a name, an operator: subscripts and superscripts. -/
theorem C133_trailing (c : Char) :
    isTrailing c = true ↔ c ∈ t!"₀₁₂₃₄₅₆₇₈₉₊₋₍₎⁰¹²³⁴⁵⁶⁷⁸⁹⁺⁻⁽⁾" := by
  have h := contains_of_perm (l := subscriptChars ++ superscriptChars)
    (m := t!"₀₁₂₃₄₅₆₇₈₉₊₋₍₎⁰¹²³⁴⁵⁶⁷⁸⁹⁺⁻⁽⁾")
    ⟨subset_of_all (by decide), subset_of_all (by decide)⟩ c
  rw [← h]
  simp only [isTrailing, isSubscript, isSuperscript, Bool.or_eq_true, List.contains_iff_mem,
    List.mem_append]

/-- **C133.** What may follow a backslash, and what it then stands for. -/
theorem C133_escapes (c : Char) : (isEscapable c = true ↔ c ∈ t!"tnrbf\"'\\") ∧
    (∀ d, (c, d) ∈ t!"tnrbf\"'\\".zip t!"\t\n\r\x08\x0c\"'\\" → getEscaped c = d) ∧
    (c ∉ t!"tnrbf\"'\\" → getEscaped c = c) := by
  refine ⟨contains_of_perm ⟨subset_of_all (by decide), subset_of_all (by decide)⟩ c, ?_, ?_⟩
  · intro d h
    have : ∀ p ∈ t!"tnrbf\"'\\".zip t!"\t\n\r\x08\x0c\"'\\", getEscaped p.1 = p.2 := by decide
    exact this _ h
  · intro h
    simp only [List.mem_cons, List.not_mem_nil, or_false, not_or] at h
    simp only [getEscaped]
    simp [h]

/-- The characters that are a token, or open one, all by themselves. -/
def punctuationChars : Text := t!";'\"`()[]{},"

section
variable [CharTables] [LawfulTables]

/-- **C133.** What a name may begin with, and what it may go on with. -/
theorem C133_names (c : Char) :
    (isIdentStart c = true ↔ c = '_' ∨ isUppercase c = true ∨ isLowercase c = true) ∧
    (isIdentChar c = true ↔ c = '_' ∨ c = '\'' ∨ isAlphanumeric c = true) ∧
    (isIdentStart c = true → isIdentChar c = true) := by
  refine ⟨by simp [isIdentStart, hasCase], by simp [isIdentChar, or_comm, or_left_comm],
    ?_⟩
  simp only [isIdentStart, isIdentChar, hasCase, Bool.or_eq_true, beq_iff_eq]
  rintro (h | h | h)
  · exact .inl (.inr h)
  · exact .inl (.inl (LawfulTables.alphabetic_alnum _ (LawfulTables.upper_alphabetic _ h)))
  · exact .inl (.inl (LawfulTables.alphabetic_alnum _ (LawfulTables.lower_alphabetic _ h)))

/-- **C133** The wider class `is_ident_start_ext` has all letters and the underscore, and with them
everything a name may begin with; all of it may occur in names. -/
theorem C133_names_ext (c : Char) :
    (isIdentStartExt c = true ↔ c = '_' ∨ isAlphabetic c = true) ∧
    (isIdentStart c = true → isIdentStartExt c = true) ∧
    (isIdentStartExt c = true → isIdentChar c = true) := by
  refine ⟨by simp [isIdentStartExt], ?_, ?_⟩
  · simp only [isIdentStart, isIdentStartExt, hasCase, Bool.or_eq_true, beq_iff_eq]
    rintro (h | h | h)
    · exact .inl h
    · exact .inr (LawfulTables.upper_alphabetic _ h)
    · exact .inr (LawfulTables.lower_alphabetic _ h)
  · simp only [isIdentStartExt, isIdentChar, Bool.or_eq_true, beq_iff_eq]
    rintro (h | h)
    · exact .inl (.inr h)
    · exact .inl (.inl (LawfulTables.alphabetic_alnum _ h))

theorem start_ascii {c : Char} (h : isIdentStart c = true) (hc : c.toNat < 128) :
    c = '_' ∨ asciiLower c = true ∨ asciiUpper c = true := by
  simp only [isIdentStart, hasCase, Bool.or_eq_true, beq_iff_eq] at h
  rcases h with h | h | h
  · exact .inl h
  · exact .inr (.inr (LawfulTables.ascii_upper c hc ▸ h))
  · exact .inr (.inl (LawfulTables.ascii_lower c hc ▸ h))

theorem not_start {l : Text} (h : ∀ c ∈ l, c.toNat < 128 ∧ c ≠ '_' ∧ asciiLower c = false ∧
    asciiUpper c = false) {c : Char} (hc : c ∈ l) : isIdentStart c ≠ true := by
  intro hs
  obtain ⟨h1, h2, h3, h4⟩ := h c hc
  rcases start_ascii hs h1 with h | h | h
  · exact h2 h
  · rw [h3] at h; cases h
  · rw [h4] at h; cases h

/-- **C133.** What a token may begin with tells what kind of token it is: no character is in two
of these classes (so the order in which the lexer asks does not matter). -/
theorem C133_disjoint :
    [(fun c => isWhitespace c = true), (fun c => isDigit10 c = true),
      (fun c => isInfixChar c = true), (fun c => c ∈ punctuationChars),
      (fun c => isIdentStart c = true)].Pairwise fun p q => ∀ c : Char, p c → ¬ q c := by
  have wd : ∀ c ∈ blanks, isDigit10 c = false := by decide
  have wo : ∀ c ∈ blanks, isInfixChar c = false := by decide
  have wp : ∀ c ∈ blanks, c ∉ punctuationChars := by decide
  have dp : ∀ c ∈ t!"0123456789", isInfixChar c = false ∧ c ∉ punctuationChars := by decide
  have op : ∀ c ∈ t!"!#$%&*+-./:<=>?@\\^|~", c ∉ punctuationChars := by decide
  refine .cons ?_ (.cons ?_ (.cons ?_ (.cons ?_ (.cons ?_ .nil)))) <;> intro q hq <;>
    simp only [List.mem_cons, List.not_mem_nil, or_false] at hq
  · rcases hq with rfl | rfl | rfl | rfl <;> intro c hc hs
    · rw [wd c ((C133_blanks c).1 hc)] at hs; cases hs
    · rw [wo c ((C133_blanks c).1 hc)] at hs; cases hs
    · exact wp c ((C133_blanks c).1 hc) hs
    · have h1 := LawfulTables.ws_not_alnum c hc
      have h2 := (C133_names c).2.2 hs
      have h3 : c ≠ '_' ∧ c ≠ '\'' := by
        constructor <;> (rintro rfl; revert hc; decide)
      simp [isIdentChar, h1, h3.1, h3.2] at h2
  · rcases hq with rfl | rfl | rfl <;> intro c hc hs
    · rw [(dp c ((C133_digits c).1 hc)).1] at hs; cases hs
    · exact (dp c ((C133_digits c).1 hc)).2 hs
    · exact not_start (by decide) ((C133_digits c).1 hc) hs
  · rcases hq with rfl | rfl <;> intro c hc hs
    · exact op c ((C133_operators c).1 hc) hs
    · exact not_start (by decide) ((C133_operators c).1 hc) hs
  · subst hq
    intro c hc hs
    exact not_start (l := punctuationChars) (by decide) hc hs

/-- Every class has members, and a subscript is in none of them. -/
example : isWhitespace '\t' = true ∧ isDigit10 '7' = true ∧ isInfixChar '+' = true ∧
    ';' ∈ punctuationChars ∧ isIdentStart '_' = true ∧ isTrailing '₁' = true ∧
    isWhitespace '₁' = false ∧ isDigit10 '₁' = false ∧ isInfixChar '₁' = false ∧
    '₁' ∉ punctuationChars := by
  refine ⟨by decide, by decide, by decide, by decide, ?_, by decide, by decide, by decide,
    by decide, by decide⟩
  exact (C133_names '_').1.2 (.inl rfl)
end

end Pemdas
