import Verif.Spec.LexGrammar
import Verif.Props.Quoted
/-
C130: how tokens are named in messages.
-/
namespace Pemdas

section
variable [CharTables]

/-- **C130** In messages a token is named by its spelling: exactly as it is written in the source,
except that promoted names are shown with an apostrophe also if they are written in backticks, and
literals in a form of their own (see `C130_literals`). -/
theorem C130_spelling {t : Token} {w rest : Text} (h : TokenAt t w rest) :
    t.text = .ok w ∨ (∃ s, w = '`' :: (s ++ t!"`") ∧ t.text = .ok ('\'' :: s)) ∨ ∃ l, t = .lit l := by
  cases h with
  | punct h =>
    simp only [punctuation, List.mem_cons, Prod.mk.injEq, List.not_mem_nil, or_false] at h
    rcases h with h | h | h | h | h | h | h | h <;> obtain ⟨rfl, rfl⟩ := h <;> exact .inl rfl
  | keyword h =>
    simp only [keywordTokens, List.mem_cons, Prod.mk.injEq, List.not_mem_nil, or_false] at h
    rcases h with h | h | h | h | h | h <;> obtain ⟨rfl, rfl⟩ := h <;> exact .inl rfl
  | lower => exact .inl rfl
  | reserved h =>
    simp only [reservedTokens, List.mem_cons, Prod.mk.injEq, List.not_mem_nil, or_false] at h
    rcases h with h | h | h | h <;> obtain ⟨rfl, rfl⟩ := h <;> exact .inl rfl
  | op => exact .inl rfl
  | backticks => exact .inr (.inl ⟨_, rfl, rfl⟩)
  | apostrophe => exact .inl rfl
  | blank => exact .inl rfl
  | _ => exact .inr (.inr ⟨_, rfl⟩)

/-- **C130** Literals are named in a form that tells them apart: integers in decimal, strings and
characters quoted. The end of the input is shown as the character NUL, and an error by its
message. -/
theorem C130_literals :
    (∀ n, (Token.lit (.int n)).text = .ok (toString n).toList) ∧
    (∀ s, ∃ b, (Token.lit (.str s)).text = .ok ('"' :: (b ++ t!"\"")) ∧ Quoted '"' b s) ∧
    (∀ c, ∃ b, (Token.lit (.char c)).text = .ok ('\'' :: (b ++ t!"'")) ∧ Quoted '\'' b [c]) ∧
    Token.eof.text = .ok t!"\x00" ∧ ∀ e, (Token.error e).text = e.text := by
  refine ⟨fun n => ?_, fun s => ?_, fun c => ?_, rfl, fun _ => rfl⟩
  · simp [Token.text, Literal.text, decText, toString]
  · obtain ⟨b, h1, h2⟩ := C135_string s
    exact ⟨b, by rw [← h1]; rfl, h2⟩
  · obtain ⟨b, h1, h2⟩ := C135_char c
    exact ⟨b, by rw [← h1]; rfl, h2⟩

/-- Some tokens meet the hypothesis. -/
example : TokenAt .semi t!";" t!"x" ∧ TokenAt .arrow t!"->" [] ∧
    TokenAt .let_ t!"let" [] :=
  ⟨.punct (by decide), .reserved (by decide) (by simp [Maximal]),
    .keyword (by decide) (by simp [Maximal])⟩

end

attribute [local instance] asciiTables in
/-- How a string and a promoted name are shown. -/
example : (Token.lit (.str t!"a\"b")).text = .ok t!"\"a\\\"b\"" ∧
    (Token.affix t!"div" true).text = .ok t!"'div" := by decide

end Pemdas
