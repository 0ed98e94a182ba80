import Verif.Model.Match
import Verif.Props.Text
/-
C141 matchers, C144 texts from bytes.
-/
namespace Pemdas

/-! ### C141 -/

/-- **C141** A character as a matcher of strings, and a string as a matcher of characters, match
exactly the string with that single character. -/
theorem C141_char (c : Char) (t : Text) :
    (Match.char c t = true ↔ t = [c]) ∧ (Match.strChar t c = true ↔ t = [c]) := by
  have h : Match.char c t = true ↔ t = [c] := by
    unfold Match.char
    cases t with
    | nil => simp
    | cons d t =>
      cases t with
      | nil => simp; intro h; rw [h]
      | cons e t => simp
  exact ⟨h, h⟩

/-- **C141** An optional character matches exactly the character in it; values match what they
equal; functions match what they accept; a slice matches what some element of it matches. -/
theorem C141_others {α : Type} [BEq α] [LawfulBEq α] (o : Option Char) (c : Char) (a x : α)
    (f : α → Bool) (ms : List (α → Bool)) :
    (Match.optChar o c = true ↔ o = some c) ∧
    (Match.eq a x = true ↔ x = a) ∧
    (Match.fn f x = f x) ∧
    (Match.slice ms x = true ↔ ∃ m ∈ ms, m x = true) := by
  refine ⟨?_, ?_, rfl, ?_⟩
  · cases o <;> simp [Match.optChar]
  · simp only [Match.eq, beq_iff_eq]; exact eq_comm
  · induction ms with
    | nil => simp [Match.slice]
    | cons m ms ih =>
      simp only [Match.slice, List.mem_cons, exists_eq_or_imp]
      cases hm : m x <;> simp [ih]

/-- **C141** For every matcher, `is_prefix` holds iff there is a first word and it matches. -/
theorem C141_is_prefix (pre : Text → Bool) (s : Text) :
    Match.isPrefix pre s = true ↔ ∃ w, FirstWord w s ∧ pre w = true := by
  unfold Match.isPrefix
  cases h : (splitWhitespace s).head? with
  | none =>
    simp only [Bool.false_eq_true, false_iff]
    rintro ⟨w, hw, -⟩
    rw [(head_splitWhitespace w s).2 hw] at h
    cases h
  | some t =>
    constructor
    · exact fun hp => ⟨t, (head_splitWhitespace t s).1 h, hp⟩
    · rintro ⟨w, hw, hp⟩
      rw [(head_splitWhitespace w s).2 hw] at h
      cases h
      exact hp

/-- For strings, these are the functions of `Model/Grapheme.lean`. -/
theorem Match.of_string (p s : Text) :
    Match.isPrefix (Match.eq p) s = Pemdas.isPrefix p s ∧
    Match.stripPrefix (Match.eq p) s = Pemdas.stripPrefix p s := by
  unfold Match.isPrefix Match.stripPrefix Pemdas.isPrefix Pemdas.stripPrefix Match.eq
  cases (splitWhitespace s).head? with
  | none => exact ⟨rfl, rfl⟩
  | some t =>
    refine ⟨BEq.comm, ?_⟩
    simp only [beq_iff_eq]
    by_cases h : p = t
    · simp only [h, if_true]; rfl
    · simp [h, Ne.symm h]

/-- `strip_prefix` depends on the matcher only by whether it matches the first word. -/
theorem Match.stripPrefix_eq (pre : Text → Bool) (s : Text) :
    (∀ w, FirstWord w s → pre w = true → Match.stripPrefix pre s = Pemdas.stripPrefix w s) ∧
    ((∀ w, FirstWord w s → pre w = false) → Match.stripPrefix pre s = .ok s) := by
  refine ⟨?_, ?_⟩
  · intro w hw hp
    have h := (head_splitWhitespace w s).2 hw
    unfold Match.stripPrefix Pemdas.stripPrefix
    simp only [h, hp, if_true]
    rfl
  · intro hp
    unfold Match.stripPrefix
    cases h : (splitWhitespace s).head? with
    | none => rfl
    | some t => simp only [hp t ((head_splitWhitespace t s).1 h), Bool.false_eq_true, if_false]

/-- **C141** (for text without leading whitespace) For every matcher, `strip_prefix` returns the
trimmed remainder after a first word that matches and otherwise the original text; it does not
panic. Missing: text with leading whitespace, for which the code is wrong
(`C66_leading_whitespace`); what it does there is `C141_strip_prefix_exact`. -/
theorem C141_strip_prefix_partial (pre : Text → Bool) (s : Text) :
    (∀ w rest, s = w ++ rest → FirstWord w s → pre w = true →
      Match.stripPrefix pre s = .ok (trim rest)) ∧
    ((∀ w, FirstWord w s → pre w = false) → Match.stripPrefix pre s = .ok s) := by
  refine ⟨fun w rest hs hw hp => ?_, (Match.stripPrefix_eq pre s).2⟩
  rw [(Match.stripPrefix_eq pre s).1 w hw hp]
  exact (C66_strip_prefix_partial w s).1 rest hs hw

private theorem trim_lead {lead s : Text} (hl : ∀ c ∈ lead, isWhitespace c = true) :
    trim (lead ++ s) = trim s := by
  unfold trim trimStart
  rw [List.dropWhile_append, dropWhile_all hl]
  rfl

/-- **C141** What `strip_prefix` does with a first word that matches, for all texts: nothing is left
of a text with a single word; of other texts, the first bytes are removed, as many as the word has
(wherever the word is), and the rest is trimmed; this panics iff they do not end between two
characters. -/
theorem C141_strip_prefix_exact (pre : Text → Bool) (w lead rest : Text)
    (hl : ∀ c ∈ lead, isWhitespace c = true) (hw : FirstWord w (lead ++ w ++ rest)) (hp : pre w = true) :
    ((∀ c ∈ rest, isWhitespace c = true) →
      Match.stripPrefix pre (lead ++ w ++ rest) = .ok []) ∧
    ((∃ c ∈ rest, isWhitespace c = false) →
      (∀ a b, lead ++ w ++ rest = a ++ b → utf8Len a = utf8Len w →
        Match.stripPrefix pre (lead ++ w ++ rest) = .ok (trim b)) ∧
      ((¬ ∃ a b, lead ++ w ++ rest = a ++ b ∧ utf8Len a = utf8Len w) →
        Match.stripPrefix pre (lead ++ w ++ rest) = .error .badSlice)) := by
  rw [(Match.stripPrefix_eq pre _).1 w hw hp]
  have hh := (head_splitWhitespace w _).2 hw
  have ht : utf8Len (trim (lead ++ w ++ rest)) = utf8Len w + utf8Len (trimEnd rest) := by
    rw [List.append_assoc, trim_lead hl, trim_word w rest hw.1 hw.2.1, utf8Len_append]
  unfold Pemdas.stripPrefix
  simp only [hh, if_true, ht]
  refine ⟨fun h => ?_, fun ⟨c, hc, hcw⟩ => ?_⟩
  · have : trimEnd rest = [] := by
      unfold trimEnd
      rw [dropWhile_all (by simpa using h)]; rfl
    simp [this]
  · have hne : trimEnd rest ≠ [] := by
      intro h
      have h : rest.reverse.dropWhile isWhitespace = [] := by simpa [trimEnd] using h
      have hc : c ∈ rest.reverse := by simpa using hc
      generalize rest.reverse = r at *
      induction r with
      | nil => cases hc
      | cons d r ih =>
        simp only [List.dropWhile_cons] at h
        split at h
        · rcases List.mem_cons.1 hc with rfl | hc
          · simp_all
          · exact ih h hc
        · cases h
    have hpos : 0 < utf8Len (trimEnd rest) :=
      Nat.pos_of_ne_zero fun h => hne ((utf8Len_eq_zero _).1 h)
    rw [if_pos (by omega)]
    refine ⟨fun a b hab hal => ?_, fun hno => ?_⟩
    · rw [hab, (byteSlice_eq_some (s := a ++ b) (r := b)).2 ⟨a, [], by simp, hal, by simp [hal]⟩]
    · cases hb : byteSlice (lead ++ w ++ rest) (utf8Len w) (utf8Len (lead ++ w ++ rest)) with
      | none => rfl
      | some r =>
        obtain ⟨x, y, h1, h2, -⟩ := byteSlice_eq_some.1 hb
        exact absurd ⟨x, r ++ y, by rw [h1, List.append_assoc], h2⟩ hno

example : Match.stripPrefix (Match.char 'x') t!"x  y z " = .ok t!"y z" ∧
    Match.stripPrefix (Match.slice [Match.eq t!"a", Match.char 'b']) t!"b c" = .ok t!"c" ∧
    Match.stripPrefix (Match.char 'x') t!"xy z" = .ok t!"xy z" ∧
    Match.isPrefix (Match.char 'λ') t!" λ" = true := by decide

example : FirstWord t!"a" (t!" " ++ t!"a" ++ t!" b") ∧ (∃ c ∈ t!" b", isWhitespace c = false) ∧
    Match.stripPrefix (Match.char 'a') (t!" " ++ t!"a" ++ t!" b") = .ok t!"a b" :=
  ⟨⟨by decide, by decide, t!" ", t!" b", by decide, by decide, by decide⟩, ⟨'b', by decide⟩, by decide⟩

/-! ### C144 -/

/-- **C144** `bytestring` gives the text whose UTF-8 encoding the bytes are, if there is one; it
gives none iff the bytes are not the encoding of any text. -/
theorem C144_bytestring (bytes : List UInt8) (t : Text) :
    (Match.bytestring bytes = some t ↔ t.flatMap String.utf8EncodeChar = bytes) ∧
    (Match.bytestring bytes = none ↔ ¬ ∃ t : Text, t.flatMap String.utf8EncodeChar = bytes) := by
  have hinj : ∀ t : Text, t.flatMap String.utf8EncodeChar = (String.ofList t).toByteArray.data.toList := by
    intro t; simp [List.utf8Encode]
  have hsome : ∀ t : Text, Match.bytestring bytes = some t ↔ t.flatMap String.utf8EncodeChar = bytes := by
    intro t
    unfold Match.bytestring String.fromUTF8?
    rw [hinj]
    by_cases hv : ByteArray.IsValidUTF8 ⟨bytes.toArray⟩
    · simp only [dif_pos hv, Option.some.injEq]
      constructor
      · rintro rfl
        rw [String.ofList_toList]
        rfl
      · intro h
        have : String.fromUTF8 ⟨bytes.toArray⟩ hv = String.ofList t := by
          rw [← String.toByteArray_inj]
          apply ByteArray.ext
          apply Array.ext'
          rw [h]; rfl
        rw [this, String.toList_ofList]
    · simp only [dif_neg hv, reduceCtorEq, false_iff]
      intro h
      apply hv
      have h2 := (String.ofList t).isValidUTF8
      have : (String.ofList t).toByteArray = ⟨bytes.toArray⟩ := by
        apply ByteArray.ext
        apply Array.ext'
        rw [h]
      rwa [this] at h2
  refine ⟨hsome t, ?_⟩
  cases hb : Match.bytestring bytes with
  | none =>
    simp only [true_iff]
    rintro ⟨t, ht⟩
    rw [(hsome t).2 ht] at hb
    cases hb
  | some t => simp only [reduceCtorEq, false_iff, Classical.not_not]; exact ⟨t, (hsome t).1 hb⟩

example : Symbol.utf8Bytes t!"aλ" = [0x61, 0xce, 0xbb] := by decide

end Pemdas
