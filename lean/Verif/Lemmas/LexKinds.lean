import Verif.Spec.LexKinds
import Verif.Props.LexerTokens
/-
Helper lemmas: which tokens the lexer yields.
-/
namespace Pemdas
namespace TLex

theorem munch_cons {p : Char → Bool} {c : Char} {cs : Text} (h : p c = true) :
    munch p (c :: cs) = (c :: (munch p cs).1, (munch p cs).2) := by
  simp [munch, h]

section
variable [CharTables]

theorem operator_lexed {src : Text} {c : Char} {cs r : Text} {t : Token} (hc : isInfixChar c = true)
    (h : operator (c :: cs) = .tok t r) : t.LexedFrom src := by
  unfold operator at h
  rw [munch_cons hc] at h
  have hs := munch_shape isInfixChar cs
  simp only at h
  repeat' split at h
  all_goals first
    | (cases h; trivial)
    | (cases h; done)
    | skip
  · cases h
    exact ⟨'~', [], rfl, by decide, ⟨[], [], rfl, rfl, rfl⟩, by decide⟩
  · cases h
    refine ⟨_, _, rfl, hc, hs, ?_⟩
    simp only [reservedOps, List.mem_cons, List.not_mem_nil, or_false]
    simp_all

theorem charEscape_lexed (src : Text) {s : Text} {t : Token} {r : Text} (h : charEscape s = (t, r)) :
    t.LexedFrom src := by
  have hu : ∀ {s t r}, unicode s = (t, r) → t.LexedFrom src := by
    intro s t r h
    unfold unicode at h
    simp only at h
    repeat' split at h
    all_goals (injection h with h1 h2; subst h1)
    all_goals first
      | trivial
      | exact List.all_eq_true.2 fun c hc => List.all_eq_true.1 (Lexer.all_takeWhile _ _) c hc
  unfold charEscape at h
  repeat' split at h
  all_goals first
    | exact hu h
    | (injection h with h1 h2; subst h1; trivial)

theorem charLit_lexed {c : Char} {cs r : Text} {t : Token} (hc : c = '\'')
    (h : charLit (c :: cs) = (t, r)) : t.LexedFrom (c :: cs) := by
  unfold charLit at h
  simp only at h
  split at h
  · injection h with h1 h2; subst h1; trivial
  split at h
  · exact charEscape_lexed _ h
  split at h
  · injection h with h1 h2; subst h1; trivial
  rename_i hnul
  split at h
  · injection h with h1 h2; subst h1; trivial
  obtain ⟨d, ds, rfl⟩ : ∃ d ds, cs = d :: ds := by
    cases cs with
    | nil => simp at hnul
    | cons d ds => exact ⟨d, ds, rfl⟩
  split at h
  · rename_i hw
    simp only [List.headD_cons, List.tail_cons] at h hw
    injection h with h1 h2
    subst h1
    right
    cases ds with
    | nil => simp at hw
    | cons w ws =>
      refine ⟨d, w, rfl, by simpa using hw, [], ws, ?_⟩
      simp [hc]
  split at h
  · rename_i hid
    simp only [List.headD_cons, List.tail_cons] at h hid
    injection h with h1 h2
    subst h1
    exact .inl ⟨_, _, rfl, hid, munch_shape _ _⟩
  · injection h with h1 h2; subst h1; trivial

theorem string_lexed (src : Text) {s r : Text} {t : Token} (h : string s = (t, r)) :
    t.LexedFrom src := by
  unfold string at h
  split at h <;> (injection h with h1 h2; subst h1; trivial)

theorem number_lexed (src : Text) {c : Char} {cs r : Text} {t : Token} (hc : isDigit10 c = true)
    (h : number (c :: cs) = (t, r)) : t.LexedFrom src := by
  unfold number at h
  injection h with h1 h2
  have hall := Lexer.all_takeWhile isDigit10 (c :: cs)
  have hne : (c :: cs).takeWhile isDigit10 ≠ [] := by simp [hc]
  rw [parseUsize_eq hall hne] at h1
  by_cases hv : decValue ((c :: cs).takeWhile isDigit10) < Lexer.usizeBound
  · rw [if_pos hv] at h1
    subst h1
    exact hv
  · rw [if_neg hv] at h1
    subst h1
    trivial

theorem backtick_lexed (src : Text) {c : Char} {cs r : Text} {t : Token}
    (h : backtick (c :: cs) = (t, r)) : t.LexedFrom src := by
  unfold backtick at h
  simp only at h
  split at h
  · rename_i hid
    obtain ⟨d, ds, rfl⟩ : ∃ d ds, cs = d :: ds := by
      cases cs with
      | nil => simp at hid
      | cons d ds => exact ⟨d, ds, rfl⟩
    split at h
    · injection h with h1 h2
      subst h1
      exact .inl ⟨d, _, rfl, by simpa using hid, munch_shape _ _⟩
    · injection h with h1 h2; subst h1; trivial
  · injection h with h1 h2; subst h1; trivial

variable [LawfulTables]

theorem lower_identChar {c : Char} (h : isLowercase c = true) : isIdentChar c = true := by
  simp [isIdentChar, LawfulTables.alphabetic_alnum c (LawfulTables.lower_alphabetic c h)]

theorem ident_lexed (src : Text) {c : Char} {cs r : Text} {t : Token}
    (h : ident c (c :: cs) = .ok (.tok t r)) : t.LexedFrom src := by
  unfold ident at h
  split at h
  · rename_i t' hw
    injection h with h
    injection h with h1 h2
    subst h1 h2
    unfold word Lexer.identifier at hw
    repeat' split at hw
    all_goals first
      | (cases hw; trivial)
      | (cases hw; done)
      | skip
    · rename_i hl hu
      rw [LawfulTables.lower_not_upper c hl] at hu
      cases hu
    · rename_i hk1 hk2 hk3 hk4 hk5 hk6 hl hu
      cases hw
      rw [munch_cons (lower_identChar hl)] at hk1 hk2 hk3 hk4 hk5 hk6 ⊢
      refine ⟨_, _, rfl, hl, munch_shape _ _, ?_⟩
      simp only [keywords, List.mem_cons, List.not_mem_nil, or_false]
      simp_all
  · cases h

theorem dispatch_lexed {c : Char} {cs r : Text} {t : Token}
    (h : dispatch (c :: cs) c = .ok (.tok t r)) : t.LexedFrom (c :: cs) := by
  unfold dispatch at h
  by_cases hc : c = ';'
  · rw [if_pos hc] at h; cases h; trivial
  rw [if_neg hc] at h; clear hc
  by_cases hc : c = '\''
  · rw [if_pos hc] at h
    exact charLit_lexed hc (of_ok h)
  rw [if_neg hc] at h; clear hc
  by_cases hc : c = '"'
  · rw [if_pos hc] at h
    exact string_lexed _ (of_ok h)
  rw [if_neg hc] at h; clear hc
  by_cases hc : isDigit10 c = true
  · rw [if_pos hc] at h
    exact number_lexed _ hc (of_ok h)
  rw [if_neg hc] at h; clear hc
  by_cases hc : c = '`'
  · rw [if_pos hc] at h
    exact backtick_lexed _ (of_ok h)
  rw [if_neg hc] at h; clear hc
  by_cases hc : isIdentStart c = true
  · rw [if_pos hc] at h
    exact ident_lexed _ h
  rw [if_neg hc] at h; clear hc
  by_cases hc : c = '('
  · rw [if_pos hc] at h; cases h; trivial
  rw [if_neg hc] at h; clear hc
  by_cases hc : c = ')'
  · rw [if_pos hc] at h; cases h; trivial
  rw [if_neg hc] at h; clear hc
  by_cases hc : c = '['
  · rw [if_pos hc] at h; cases h; trivial
  rw [if_neg hc] at h; clear hc
  by_cases hc : c = ']'
  · rw [if_pos hc] at h; cases h; trivial
  rw [if_neg hc] at h; clear hc
  by_cases hc : c = '{'
  · rw [if_pos hc] at h; cases h; trivial
  rw [if_neg hc] at h; clear hc
  by_cases hc : c = '}'
  · rw [if_pos hc] at h; cases h; trivial
  rw [if_neg hc] at h; clear hc
  by_cases hc : c = ','
  · rw [if_pos hc] at h; cases h; trivial
  rw [if_neg hc] at h; clear hc
  by_cases hc : isInfixChar c = true
  · rw [if_pos hc] at h
    exact operator_lexed hc (by simpa using h)
  rw [if_neg hc] at h; clear hc
  injection h with h
  injection h with h1 h2
  subst h1
  trivial

end
end TLex

section
variable [CharTables]

theorem Token.LexedFrom.mono {s src : Text} {t : Token} (h : t.LexedFrom s) (hs : s <:+: src) :
    t.LexedFrom src := by
  unfold Token.LexedFrom at *
  split at h <;> try exact h
  rcases h with h | ⟨c, w, h1, h2, h3⟩
  · exact .inl h
  · exact .inr ⟨c, w, h1, h2, h3.trans hs⟩

theorem Token.lexedFrom_noLoc {src : Text} {t : Token} : t.noLoc.LexedFrom src ↔ t.LexedFrom src := by
  cases t with
  | error e =>
    cases e with
    | invalidUnicode _ k => cases k <;> exact Iff.rfl
    | _ => exact Iff.rfl
  | _ => exact Iff.rfl

variable [LawfulTables]

/-- Every token that `next` yields for a source without "\n\r" can be written in it. -/
theorem Lexer.next_lexed {src : Text} (hc : NoLFCR src) {l l' : Lexer} (hl : Point src l) {t : Token}
    {sp : LocSpan} (h : l.next = .ok (some (t, sp), l')) : t.LexedFrom src := by
  obtain ⟨hlex, hne, rfl⟩ := next_some h
  obtain ⟨m, hr, hm, h1⟩ := lexN_land hlex (Nat.lt_succ_self _)
  rcases h1 with ⟨_, rfl, _⟩ | ⟨c, cs, hch, hws, hd⟩
  · exact absurd rfl hne
  have hsync : m.Sync := (hl.sync hc).reach hr
  have hproj := sync_dispatch hsync c
  rw [hd] at hproj
  simp only [Except.map, projR] at hproj
  rw [hch] at hproj
  have := TLex.dispatch_lexed hproj.symm
  rw [Token.lexedFrom_noLoc, ← hch] at this
  refine this.mono (hr.suffix.isInfix.trans ?_)
  obtain ⟨⟨pre, hp, _⟩, _⟩ := C28_positions hl
  exact ⟨pre, [], by simp [hp]⟩

theorem Lexer.items_lexed {src : Text} (hc : NoLFCR src) {n : Nat} {l : Lexer} (hl : Point src l)
    {xs : List (Token × LocSpan)} (h : items n l = .ok xs) : ∀ x ∈ xs, x.1.LexedFrom src := by
  induction n generalizing l xs with
  | zero => cases h; simp
  | succ n ih =>
    unfold items at h
    split at h
    · cases h
    · cases h; simp
    · rename_i x l' hn
      split at h
      · cases h
      · rename_i ys hy
        cases h
        intro z hz
        rcases List.mem_cons.1 hz with rfl | hz
        · exact next_lexed hc hl hn
        · exact ih (hl.next hn) hy z hz

end
end Pemdas
