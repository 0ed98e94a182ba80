import Verif.Lemmas.LexFacts
/-
Block comments, string and character literals of the text-only lexer.
-/
namespace Pemdas
namespace TLex

/-! ### block comments -/

theorem block_tilde {cs : Text} {d : Nat} (h : cs.head? ≠ some '{') :
    block ('~' :: cs) (d + 1) = block cs (d + 1) := by rw [block, if_neg h]

theorem block_open {cs : Text} {d : Nat} :
    block ('~' :: '{' :: cs) (d + 1) = block cs (d + 2) := by
  rw [block, if_pos (by rfl), block.eq_5 _ _ _ (by decide) (by simp)]

theorem block_close {cs : Text} {d : Nat} : block ('}' :: '~' :: cs) (d + 1) = block cs d := by
  rw [block]

theorem block_other {c : Char} {cs : Text} {d : Nat} (h1 : c = '~' → cs.head? ≠ some '{')
    (h2 : c = '}' → cs.head? ≠ some '~') : block (c :: cs) (d + 1) = block cs (d + 1) := by
  by_cases hc : c = '~'
  · subst hc; exact block_tilde (h1 rfl)
  · exact block.eq_5 _ _ _ hc (fun cs' hc' he => h2 hc' (by rw [he]; rfl))

theorem prefix2_iff {a b c : Char} {s : Text} : [a, b] <+: c :: s ↔ c = a ∧ s.head? = some b := by
  constructor
  · rintro ⟨t, ht⟩
    simp only [List.cons_append, List.nil_append] at ht
    injection ht with h1 h2
    exact ⟨h1.symm, by rw [← h2]; rfl⟩
  · rintro ⟨rfl, h⟩
    cases s with
    | nil => simp at h
    | cons d s => simp at h; subst h; exact ⟨s, rfl⟩

theorem block_body {b s : Text} (hb : CommentBody b) (hs : s.head? = some '}') (d : Nat) :
    block (b ++ s) (d + 1) = block s (d + 1) := by
  induction hb generalizing s d with
  | nil => rfl
  | @char c b h1 h2 _ ih =>
    rw [prefix2_iff] at h1 h2
    rw [List.cons_append, block_other, ih hs]
    · intro hc
      cases b with
      | nil => rw [List.nil_append, hs]; simp
      | cons e es => intro hh; exact h1 ⟨hc, by simpa using hh⟩
    · intro hc
      cases b with
      | nil => rw [List.nil_append, hs]; simp
      | cons e es => intro hh; exact h2 ⟨hc, by simpa using hh⟩
  | @nest a b _ _ iha ihb =>
    have e : t!"~{" ++ a ++ t!"}~" ++ b ++ s = '~' :: '{' :: (a ++ ('}' :: '~' :: (b ++ s))) := by simp
    rw [e, block_open, iha (by rfl), block_close, ihb hs]

theorem block_some {s r : Text} {d : Nat} (h : block s (d + 1) = some r) :
    ∃ b s', CommentBody b ∧ s = b ++ t!"}~" ++ s' ∧ block s' d = some r := by
  induction hn : s.length using Nat.strongRecOn generalizing s d with
  | ind n ih =>
    subst hn
    cases s with
    | nil => simp [block] at h
    | cons c cs =>
      by_cases h1 : c = '~' ∧ cs.head? = some '{'
      · obtain ⟨rfl, h1⟩ := h1
        obtain ⟨ds, rfl⟩ : ∃ ds, cs = '{' :: ds := by
          cases cs with
          | nil => simp at h1
          | cons e es => simp at h1; exact ⟨es, by rw [h1]⟩
        rw [block_open] at h
        obtain ⟨a, s1, ha, rfl, hs1⟩ := ih ds.length (by simp; omega) h rfl
        obtain ⟨b, s2, hb, rfl, hs2⟩ := ih s1.length (by simp; omega) hs1 rfl
        exact ⟨_, s2, .nest ha hb, by simp, hs2⟩
      · by_cases h2 : c = '}' ∧ cs.head? = some '~'
        · obtain ⟨rfl, h2⟩ := h2
          obtain ⟨ds, rfl⟩ : ∃ ds, cs = '~' :: ds := by
            cases cs with
            | nil => simp at h2
            | cons e es => simp at h2; exact ⟨es, by rw [h2]⟩
          rw [block_close] at h
          exact ⟨[], ds, .nil, by simp, h⟩
        · rw [block_other (fun hc hh => h1 ⟨hc, hh⟩) (fun hc hh => h2 ⟨hc, hh⟩)] at h
          obtain ⟨b, s', hb, rfl, hs'⟩ := ih cs.length (by simp) h rfl
          refine ⟨c :: b, s', .char ?_ ?_ hb, by simp, hs'⟩
          · rw [prefix2_iff]
            rintro ⟨hc, hh⟩
            apply h1
            refine ⟨hc, ?_⟩
            cases b with
            | nil => simp at hh
            | cons e es => simpa using hh
          · rw [prefix2_iff]
            rintro ⟨hc, hh⟩
            apply h2
            refine ⟨hc, ?_⟩
            cases b with
            | nil => simp at hh
            | cons e es => simpa using hh

theorem munch_tilde (s : Text) : munch isInfixChar ('~' :: '{' :: s) = (t!"~", '{' :: s) :=
  munch_head (a := t!"~") (by decide) (by
    intro c hc
    have : c = '{' := by simpa using hc.symm
    subst this; decide)

section
variable [CharTables] [LawfulTables]

theorem lex_comment {b rest : Text} (hb : CommentBody b) :
    lex (t!"~{" ++ b ++ t!"}~" ++ rest) = lex rest.tail := by
  have e : t!"~{" ++ b ++ t!"}~" ++ rest = '~' :: '{' :: (b ++ ('}' :: '~' :: rest)) := by simp
  rw [e, lex_cons (by decide), dispatch_infix _ (by decide)]
  unfold operator
  rw [munch_tilde]
  have : block (b ++ ('}' :: '~' :: rest)) 1 = some rest := by
    rw [block_body hb (by rfl) 0, block_close, block]
  simp [this]

theorem lex_unterminated {s : Text} (h : ¬ ∃ b r, CommentBody b ∧ s = b ++ t!"}~" ++ r) :
    lex (t!"~{" ++ s) = .ok (.error (.unterminatedComment .default .default), []) := by
  have e : t!"~{" ++ s = '~' :: '{' :: s := rfl
  rw [e, lex_cons (by decide), dispatch_infix _ (by decide)]
  unfold operator
  rw [munch_tilde]
  have : block s 1 = none := by
    cases hb : block s 1 with
    | none => rfl
    | some r =>
      obtain ⟨b, s', h1, h2, _⟩ := block_some hb
      exact absurd ⟨b, s', h1, h2⟩ h
  simp [this]
  rfl

end

/-! ### strings -/

theorem str_escape {s : Text} {n : Nat} {buf rest : Text}
    (hn : (escapeText s).length < n) :
    str n (escapeText s ++ '"' :: rest) false buf = (true, buf ++ s, rest) := by
  induction s generalizing n buf with
  | nil =>
    cases n with
    | zero => omega
    | succ n => simp [escapeText, str]
  | cons c s ih =>
    have e : escapeText (c :: s) = escapeChar c ++ escapeText s := by simp [escapeText]
    rw [e] at hn ⊢
    have one : ∀ d : Char, isEscapable d = true → getEscaped d = c → escapeChar c = ['\\', d] →
        str n (escapeChar c ++ escapeText s ++ '"' :: rest) false buf = (true, buf ++ c :: s, rest) := by
      intro d hd hg he
      rw [he] at hn ⊢
      obtain ⟨m, rfl⟩ : ∃ m, n = m + 2 := ⟨n - 2, by simp at hn; omega⟩
      have := ih (n := m) (buf := buf ++ [c]) (by simp at hn; omega)
      simp only [List.cons_append, List.nil_append]
      rw [str, if_neg (by decide), if_neg (by decide), if_pos rfl, str, if_pos rfl, if_pos hd, hg, this]
      simp
    by_cases h1 : c = '\t'
    · subst h1; exact one 't' (by decide) (by decide) (by decide)
    by_cases h2 : c = '\n'
    · subst h2; exact one 'n' (by decide) (by decide) (by decide)
    by_cases h3 : c = '\r'
    · subst h3; exact one 'r' (by decide) (by decide) (by decide)
    by_cases h4 : c = '"'
    · subst h4; exact one '"' (by decide) (by decide) (by decide)
    by_cases h5 : c = '\\'
    · subst h5; exact one '\\' (by decide) (by decide) (by decide)
    by_cases h6 : c = '\x08'
    · subst h6; exact one 'b' (by decide) (by decide) (by decide)
    by_cases h7 : c = '\x0C'
    · subst h7; exact one 'f' (by decide) (by decide) (by decide)
    have hc : escapeChar c = [c] := by simp [escapeChar, h1, h2, h3, h4, h5, h6, h7]
    rw [hc] at hn ⊢
    obtain ⟨m, rfl⟩ : ∃ m, n = m + 1 := ⟨n - 1, by simp at hn; omega⟩
    have := ih (n := m) (buf := buf ++ [c]) (by simp at hn; omega)
    simp only [List.cons_append, List.nil_append]
    rw [str, if_neg (by decide), if_neg h4, if_neg h5, this]
    simp

theorem string_escape (s rest : Text) :
    string ('"' :: (escapeText s ++ '"' :: rest)) = (.lit (.str s), rest) := by
  unfold string
  simp only [List.tail_cons]
  rw [str_escape (by simp; omega)]
  simp

/-! ### characters -/

section
variable [CharTables]

theorem charLit_plain {c : Char} {rest : Text} (h1 : c ≠ '\'') (h2 : c ≠ '\\') (h3 : c ≠ '\x00') :
    charLit ('\'' :: c :: '\'' :: rest) = (.lit (.char c), rest) := by
  unfold charLit
  simp [h1, h2, h3]

theorem charLit_escape {c : Char} {rest : Text} (h : isEscapable c = true) :
    charLit ('\'' :: '\\' :: c :: '\'' :: rest) = (.lit (.char (getEscaped c)), rest) := by
  have hu : ¬ (c = 'u' ∨ c = 'U') := by
    rintro (rfl | rfl) <;> revert h <;> decide
  unfold charLit charEscape
  simp [h, hu]

theorem charLit_unicode {plus ds rest : Text} (hp : plus = [] ∨ plus = t!"+")
    (hd : ds.all isHexDigit = true) (hne : ds ≠ []) (hl : ds.length ≤ 6) {u : Char}
    (hu : u = 'u' ∨ u = 'U') :
    charLit ('\'' :: '\\' :: u :: (plus ++ ds ++ '\'' :: rest)) =
      (match Lexer.charFromU32 (Lexer.hexNum ds) with
       | some c => .lit (.char c)
       | none => err (.invalidUnicode .default (.notInCharRange ds (Lexer.hexNum ds))), rest.tail) := by
  obtain ⟨e, es, rfl⟩ : ∃ e es, ds = e :: es := by
    cases ds with
    | nil => exact absurd rfl hne
    | cons e es => exact ⟨e, es, rfl⟩
  have he : isHexDigit e = true := by simp at hd; exact hd.1
  have he' : e ≠ '+' := by rintro rfl; revert he; decide
  obtain ⟨h1, h2⟩ := takeWhile_append_stop (r := '\'' :: rest) hd (by simp; decide)
  have key : unicode (u :: (plus ++ (e :: es ++ '\'' :: rest))) =
      (match Lexer.charFromU32 (Lexer.hexNum (e :: es)) with
       | some c => .lit (.char c)
       | none => err (.invalidUnicode .default (.notInCharRange (e :: es) (Lexer.hexNum (e :: es)))),
        rest.tail) := by
    simp only [List.cons_append] at h1 h2
    rcases hp with rfl | rfl
    · simp only [unicode, List.tail_cons, List.nil_append, List.cons_append, List.head?_cons,
        Option.some.injEq, if_neg he', List.headD_cons, he, if_true, h1, h2, if_pos hl]
      cases Lexer.charFromU32 (Lexer.hexNum (e :: es)) <;> rfl
    · simp only [unicode, List.tail_cons, List.nil_append, List.cons_append, List.head?_cons,
        List.headD_cons, he, if_true, h1, h2, if_pos hl]
      cases Lexer.charFromU32 (Lexer.hexNum (e :: es)) <;> rfl
  unfold charLit charEscape
  simp only [List.tail_cons, List.headD_cons, List.append_assoc]
  rw [if_neg (by decide), if_pos trivial, if_pos hu]
  exact key

end
end TLex
end Pemdas
