import Verif.Lemmas.LexTok
/-
Which panics the lexer can raise, and where the empty-character error comes from.
-/
namespace Pemdas
namespace Lexer
variable [CharTables]

/-- The panics of the lexer. -/
def LexPanic (p : Panic) : Prop := p = .badSlice ∨ p = .identAssert ∨ p = .hexExpect

omit [CharTables] in
theorem slice_error {l : Lexer} {a b : Nat} {p : Panic} (h : l.slice a b = .error p) :
    LexPanic p := by
  unfold slice byteSlice! at h
  split at h
  · cases h
  · cases h; exact .inl rfl

omit [CharTables] in
theorem number_error {l : Lexer} {p : Panic} (h : l.number = .error p) : LexPanic p := by
  unfold number at h
  simp only [bind, Except.bind] at h
  repeat' split at h
  all_goals first
    | (cases h; done)
    | (rename_i hs; cases h; exact slice_error hs)

omit [CharTables] in
theorem operator_error {l : Lexer} {p : Panic} (h : l.operator = .error p) : LexPanic p := by
  unfold operator at h
  simp only [bind, Except.bind] at h
  repeat' split at h
  all_goals first
    | (cases h; done)
    | (rename_i hs; cases h; exact slice_error hs)

theorem ident_error {l : Lexer} {c : Char} {p : Panic} (h : l.ident c = .error p) :
    LexPanic p := by
  unfold ident identifier at h
  simp only [bind, Except.bind] at h
  repeat' split at h
  all_goals first
    | (cases h; done)
    | (cases h; exact .inr (.inl rfl))
    | (rename_i hs; cases h; exact slice_error hs)
    | (rename_i hs; repeat' split at hs
       all_goals first
         | (cases hs; done)
         | (cases hs; cases h; exact .inr (.inl rfl)))

theorem backtick_error {l : Lexer} {p : Panic} (h : l.backtick = .error p) : LexPanic p := by
  unfold backtick promotedOperator at h
  simp only [bind, Except.bind] at h
  repeat' split at h
  all_goals first
    | (cases h; done)
    | (rename_i hs; cases h; exact slice_error hs)

omit [CharTables] in
theorem unicodeEscape_error {l : Lexer} {loc : Loc} {p : Panic} (h : l.unicodeEscape loc = .error p) :
    LexPanic p := by
  unfold unicodeEscape at h
  simp only [bind, Except.bind] at h
  repeat' split at h
  all_goals first
    | (cases h; done)
    | (rename_i hs; cases h; exact slice_error hs)
    | (cases h; exact .inr (.inr rfl))

theorem charLit_error {l : Lexer} {p : Panic} (h : l.charLit = .error p) : LexPanic p := by
  unfold charLit charEscape at h
  simp only [bind, Except.bind] at h
  repeat' split at h
  all_goals first
    | (cases h; done)
    | (rename_i hs; cases h; exact slice_error hs)
    | exact unicodeEscape_error h

theorem dispatch_error_kind {l : Lexer} {c : Char} {p : Panic} (hd : l.dispatch c = .error p) :
    LexPanic p := by
  unfold dispatch at hd
  by_cases hc : c = ';'
  · rw [if_pos hc] at hd; cases hd
  rw [if_neg hc] at hd; clear hc
  by_cases hc : c = '\''
  · rw [if_pos hc] at hd; exact charLit_error (toOp_error.1 hd)
  rw [if_neg hc] at hd; clear hc
  by_cases hc : c = '"'
  · rw [if_pos hc] at hd; cases hd
  rw [if_neg hc] at hd; clear hc
  by_cases hc : isDigit10 c = true
  · rw [if_pos hc] at hd; exact number_error (toOp_error.1 hd)
  rw [if_neg hc] at hd; clear hc
  by_cases hc : c = '`'
  · rw [if_pos hc] at hd; exact backtick_error (toOp_error.1 hd)
  rw [if_neg hc] at hd; clear hc
  by_cases hc : isIdentStart c = true
  · rw [if_pos hc] at hd; exact ident_error (toOp_error.1 hd)
  rw [if_neg hc] at hd; clear hc
  by_cases hc : c = '('
  · rw [if_pos hc] at hd; cases hd
  rw [if_neg hc] at hd; clear hc
  by_cases hc : c = ')'
  · rw [if_pos hc] at hd; cases hd
  rw [if_neg hc] at hd; clear hc
  by_cases hc : c = '['
  · rw [if_pos hc] at hd; cases hd
  rw [if_neg hc] at hd; clear hc
  by_cases hc : c = ']'
  · rw [if_pos hc] at hd; cases hd
  rw [if_neg hc] at hd; clear hc
  by_cases hc : c = '{'
  · rw [if_pos hc] at hd; cases hd
  rw [if_neg hc] at hd; clear hc
  by_cases hc : c = '}'
  · rw [if_pos hc] at hd; cases hd
  rw [if_neg hc] at hd; clear hc
  by_cases hc : c = ','
  · rw [if_pos hc] at hd; cases hd
  rw [if_neg hc] at hd; clear hc
  by_cases hc : isInfixChar c = true
  · rw [if_pos hc] at hd; exact operator_error hd
  rw [if_neg hc] at hd; clear hc
  cases hd

theorem lexN_error_kind {n : Nat} {l : Lexer} {p : Panic} (h : lexN n l = .error p) :
    LexPanic p := by
  induction n generalizing l with
  | zero => cases h
  | succ n ih =>
    unfold lexN at h
    split at h
    · cases h
    · split at h
      · rename_i hd
        cases h
        exact dispatch_error_kind hd
      · cases h
      · exact ih h

/-! ### the empty-character error -/

/-- The token is the error for an empty character literal. -/
def _root_.Pemdas.Token.isEmptyChar : Token → Bool
  | .error (.emptyChar _ _) => true
  | _ => false

omit [CharTables] in
theorem number_not_empty {l l' : Lexer} {t : Token} (h : l.number = .ok (t, l')) :
    t.isEmptyChar = false := by
  unfold number at h
  simp only [bind, Except.bind] at h
  repeat' split at h
  all_goals first
    | (cases h; done)
    | (cases h; rfl)

omit [CharTables] in
theorem operator_not_empty {l l' : Lexer} {t : Token} (h : l.operator = .ok (.tok t l')) :
    t.isEmptyChar = false := by
  unfold operator at h
  simp only [bind, Except.bind] at h
  repeat' split at h
  all_goals first
    | (cases h; done)
    | (cases h; rfl)
    | (rename_i hb
       cases h
       unfold blockComment at hb
       split at hb
       · cases hb; rfl
       · cases hb)

theorem ident_not_empty {l l' : Lexer} {c : Char} {t : Token} (h : l.ident c = .ok (t, l')) :
    t.isEmptyChar = false := by
  unfold ident identifier at h
  simp only [bind, Except.bind] at h
  repeat' split at h
  all_goals first
    | (cases h; done)
    | (cases h; rfl)
    | (rename_i hs; repeat' split at hs
       all_goals first
         | (cases hs; done)
         | (cases hs; cases h; rfl))

theorem backtick_not_empty {l l' : Lexer} {t : Token} (h : l.backtick = .ok (t, l')) :
    t.isEmptyChar = false := by
  unfold backtick promotedOperator at h
  simp only [bind, Except.bind] at h
  repeat' split at h
  all_goals first
    | (cases h; done)
    | (cases h; rfl)

omit [CharTables] in
theorem string_not_empty (l : Lexer) : l.string.1.isEmptyChar = false := by
  unfold string
  simp only
  split <;> rfl

omit [CharTables] in
theorem unicodeEscape_not_empty {l l' : Lexer} {loc : Loc} {t : Token}
    (h : l.unicodeEscape loc = .ok (t, l')) : t.isEmptyChar = false := by
  unfold unicodeEscape at h
  simp only [bind, Except.bind] at h
  repeat' split at h
  all_goals first
    | (cases h; done)
    | (cases h; rfl)

theorem charLit_empty {l l' : Lexer} {cs : Text} {t : Token} (hc : l.chars = '\'' :: cs)
    (h : l.charLit = .ok (t, l')) (ht : t.isEmptyChar = true) : cs.head? = some '\'' := by
  have ha := advance_chars_of hc (by decide)
  unfold charLit charEscape at h
  simp only [bind, Except.bind] at h
  split at h
  · rename_i h1
    unfold currentChar at h1
    rw [ha] at h1
    cases cs with
    | nil => cases h1
    | cons d cs => simpa using h1
  · exfalso
    repeat' split at h
    all_goals first
      | (cases h; done)
      | (cases h; cases ht; done)
      | (rw [unicodeEscape_not_empty h] at ht; cases ht)

theorem lex_empty [LawfulTables] {l l' : Lexer} {t : Token} (h : l.lex = .ok (t, l')) (ht : t.isEmptyChar = true) :
    t!"''" <:+: l.chars := by
  obtain ⟨m, hr, _, h1⟩ := lexN_land h (Nat.lt_succ_self _)
  rcases h1 with ⟨_, rfl, _⟩ | ⟨c, cs, hch, _, hd⟩
  · cases ht
  · have key : c = '\'' ∧ cs.head? = some '\'' := by
      have no : ∀ {q : Prop}, t.isEmptyChar = false → q := by
        intro q h2; rw [ht] at h2; cases h2
      cases dispatch_pass hd with
      | punct hc =>
        simp only [List.mem_cons, Prod.mk.injEq, List.mem_nil_iff, or_false] at hc
        apply no
        rcases hc with h|h|h|h|h|h|h|h <;> rw [h.2] <;> rfl
      | char hc hx => subst hc; exact ⟨rfl, charLit_empty hch hx ht⟩
      | string hc => exact no (string_not_empty m)
      | number hc hx => exact no (number_not_empty hx)
      | backtick hc hx => exact no (backtick_not_empty hx)
      | ident hc hx => exact no (ident_not_empty hx)
      | op hc hx => exact no (operator_not_empty hx)
      | unknown => exact no rfl
    obtain ⟨rfl, h2⟩ := key
    cases cs with
    | nil => cases h2
    | cons d cs =>
      have : d = '\'' := by simpa using h2
      subst this
      have h3 : t!"''" <:+: m.chars := ⟨[], cs, by rw [hch]; rfl⟩
      exact h3.trans hr.suffix.isInfix

end Lexer
end Pemdas
