import Verif.Lemmas.LexLits
import Verif.Props.LexerPos
/-
From the text-only lexer back to the lexer's interface, and facts that hold for all sources.
-/
namespace Pemdas
namespace TLex
variable [CharTables]

/-- The tokens of a text. -/
def tokens : Nat → Text → Except Panic (List Token)
  | 0, _ => .ok []
  | n + 1, s =>
    match lex s with
    | .error p => .error p
    | .ok (.eof, _) => .ok []
    | .ok (t, r) =>
      match tokens n r with
      | .error p => .error p
      | .ok ts => .ok (t :: ts)

theorem tokens_congr {s s' : Text} (h : lex s = lex s') (n : Nat) : tokens n s = tokens n s' := by
  cases n with
  | zero => rfl
  | succ n => unfold tokens; rw [h]

theorem lex_dropWhile (s : Text) : lex (s.dropWhile isWhitespace) = lex s := by
  induction s with
  | nil => rfl
  | cons c s ih =>
    rw [List.dropWhile_cons]
    split
    · rename_i hc; rw [lex_space hc, ih]
    · rfl

omit [CharTables] in
theorem munch_eq {p : Char → Bool} {x r : Text} (hx : Shape p x)
    (hr : ∀ c ∈ r.head?, p c = false ∧ isTrailing c = false) : munch p (x ++ r) = (x, r) := by
  obtain ⟨b, t, rfl, hb, ht⟩ := hx
  have key : ∀ t : Text, t.all isTrailing = true → munch p (t ++ r) = (t, r) := by
    intro t ht
    induction t with
    | nil => exact munch_head (a := []) rfl hr
    | cons c t ih =>
      simp only [List.all_cons, Bool.and_eq_true] at ht
      have ih := ih ht.2
      by_cases hc : p c = true
      · unfold munch at ih ⊢
        simp only [List.cons_append, List.takeWhile_cons, hc, if_true, List.dropWhile_cons]
        simp only [Prod.mk.injEq] at ih ⊢
        exact ⟨by rw [ih.1], ih.2⟩
      · have h1 : (c :: (t ++ r)).takeWhile p = [] := by simp [hc]
        have h2 : (c :: (t ++ r)).dropWhile p = c :: (t ++ r) := by simp [hc]
        obtain ⟨h3, h4⟩ := takeWhile_append_stop (p := isTrailing) (a := c :: t) (r := r)
          (by simp [ht.1]; simpa using ht.2) (fun c hc => (hr c hc).2)
        unfold munch
        rw [List.cons_append, h1, h2]
        rw [List.cons_append] at h3 h4
        rw [h3, h4]; rfl
  have ht := key t ht
  rw [List.append_assoc]
  unfold munch at ht ⊢
  simp only [Prod.mk.injEq] at ht ⊢
  have h5 : (b ++ (t ++ r)).takeWhile p = b ++ (t ++ r).takeWhile p :=
    List.takeWhile_append_of_pos (by simpa using hb)
  have h6 : (b ++ (t ++ r)).dropWhile p = (t ++ r).dropWhile p :=
    List.dropWhile_append_of_pos (by simpa using hb)
  rw [h5, h6, List.append_assoc]
  exact ⟨by rw [ht.1], ht.2⟩

end TLex

namespace Lexer

/-! ### advancing over anything but a newline -/

theorem advance_chars_of {l : Lexer} {c : Char} {cs : Text} (h : l.chars = c :: cs) (hc : c ≠ '\n') :
    l.advance.chars = cs := by
  unfold advance bumpChar
  rw [h]; simp [hc]

theorem bumpChar_of {l : Lexer} {c : Char} {cs : Text} (h : l.chars = c :: cs) :
    l.bumpChar = (some c, l.advance) := by
  unfold advance bumpChar; rw [h]; simp only; split <;> rfl

theorem eatWhileN_chars {p : Char → Bool} (hp : p '\n' = false) {n : Nat} {l : Lexer}
    (hn : l.chars.length ≤ n) : (eatWhileN p n l).chars = l.chars.dropWhile p := by
  induction n generalizing l with
  | zero =>
    have : l.chars = [] := List.length_eq_zero_iff.1 (by omega)
    simp [Lexer.eatWhileN, this]
  | succ n ih =>
    unfold Lexer.eatWhileN
    split
    · rename_i h'; simp [h']
    · rename_i c cs h'
      split
      · rename_i hc
        have hne : c ≠ '\n' := by rintro rfl; rw [hp] at hc; cases hc
        rw [ih (by rw [advance_chars_of h' hne]; rw [h'] at hn; simpa using hn),
          advance_chars_of h' hne, h']
        simp [hc]
      · rename_i hc; rw [h']; simp [hc]

theorem eatWithTrailing_chars {p : Char → Bool} (hp : p '\n' = false) (l : Lexer) :
    (l.eatWithTrailing p).chars = (TLex.munch p l.chars).2 := by
  unfold eatWithTrailing TLex.munch eatWhile
  rw [eatWhileN_chars (by decide) (Nat.le_refl _), eatWhileN_chars hp (Nat.le_refl _)]

/-! ### which pass yields words and operators -/

section
variable [CharTables]

/-- Neither a word nor an operator. -/
abbrev Token.other (t : Token) : Prop := t.isWord = false ∧ t.isOperator = false

theorem charLit_other {l l' : Lexer} {t : Token} (h : l.charLit = .ok (t, l')) : Token.other t := by
  have hu : ∀ {l loc}, unicodeEscape l loc = .ok (t, l') → Token.other t := by
    intro l loc h
    unfold unicodeEscape at h
    simp only [bind, Except.bind] at h
    repeat' split at h
    all_goals first
      | (injection h with h; injection h with h1 h2; subst h1; exact ⟨rfl, rfl⟩)
      | cases h
  have he : ∀ {l loc}, charEscape l loc = .ok (t, l') → Token.other t := by
    intro l loc h
    unfold charEscape at h
    simp only at h
    repeat' split at h
    all_goals first
      | exact hu h
      | (injection h with h; injection h with h1 h2; subst h1; exact ⟨rfl, rfl⟩)
      | cases h
  unfold charLit at h
  simp only [bind, Except.bind] at h
  repeat' split at h
  all_goals first
    | exact he h
    | (injection h with h; injection h with h1 h2; subst h1; exact ⟨rfl, rfl⟩)
    | cases h

omit [CharTables] in
theorem string_other (l : Lexer) : Token.other l.string.1 := by
  have : l.string.1.isWord = false ∧ l.string.1.isOperator = false := by
    unfold string
    simp only
    split <;> exact ⟨rfl, rfl⟩
  exact this

omit [CharTables] in
theorem number_other {l l' : Lexer} {t : Token} (h : l.number = .ok (t, l')) : Token.other t := by
  unfold number at h
  simp only [bind, Except.bind] at h
  repeat' split at h
  all_goals first
    | (injection h with h; injection h with h1 h2; subst h1; exact ⟨rfl, rfl⟩)
    | cases h

theorem backtick_other {l l' : Lexer} {t : Token} (h : l.backtick = .ok (t, l')) : Token.other t := by
  unfold backtick promotedOperator at h
  simp only [bind, Except.bind] at h
  repeat' split at h
  all_goals first
    | (injection h with h; injection h with h1 h2; subst h1; exact ⟨rfl, rfl⟩)
    | cases h

theorem ident_not_operator {l l' : Lexer} {c : Char} {t : Token} (h : l.ident c = .ok (t, l')) :
    t.isOperator = false := by
  unfold ident identifier at h
  simp only [bind, Except.bind] at h
  repeat' split at h
  all_goals first
    | (injection h with h; injection h with h1 h2; subst h1; rfl)
    | (injection h with h; injection h with h1 h2; subst h1; skip)
    | cases h
  all_goals
    rename_i h'
    split at h'
    · injection h' with h'; rw [← h']; split <;> rfl
    · cases h'

omit [CharTables] in
theorem operator_not_word {l l' : Lexer} {t : Token} (h : l.operator = .ok (.tok t l')) :
    t.isWord = false ∧ (t.isOperator = true → l' = l.eatWithTrailing isInfixChar) := by
  unfold operator at h
  simp only [bind, Except.bind] at h
  repeat' split at h
  all_goals first
    | (injection h with h; injection h with h1 h2; subst h1; exact ⟨rfl, fun _ => h2.symm⟩)
    | (injection h with h; injection h with h1 h2; subst h1; exact ⟨rfl, fun hh => by cases hh⟩)
    | cases h

theorem dispatch_word {l l' : Lexer} {c : Char} {t : Token} (h : l.dispatch c = .ok (.tok t l'))
    (ht : t.isWord = true) : isIdentStart c = true ∧ l' = l.eatWithTrailing isIdentChar := by
  have no : ∀ {t : Token}, t.isWord = true → Token.other t → False := by
    intro t h1 h2; rw [h2.1] at h1; cases h1
  cases dispatch_pass h with
  | punct hc =>
    simp only [List.mem_cons, Prod.mk.injEq, List.not_mem_nil, or_false] at hc
    rcases hc with ⟨_, rfl⟩ | ⟨_, rfl⟩ | ⟨_, rfl⟩ | ⟨_, rfl⟩ | ⟨_, rfl⟩ | ⟨_, rfl⟩ | ⟨_, rfl⟩ | ⟨_, rfl⟩ <;>
      cases ht
  | char _ h => exact (no ht (charLit_other h)).elim
  | string => exact (no ht (string_other l)).elim
  | number _ h => exact (no ht (number_other h)).elim
  | backtick _ h => exact (no ht (backtick_other h)).elim
  | ident hc h => exact ⟨hc, reach_ident h⟩
  | op _ h => rw [(operator_not_word h).1] at ht; cases ht
  | unknown => cases ht

theorem dispatch_operator {l l' : Lexer} {c : Char} {t : Token} (h : l.dispatch c = .ok (.tok t l'))
    (ht : t.isOperator = true) : isInfixChar c = true ∧ l' = l.eatWithTrailing isInfixChar := by
  have no : ∀ {t : Token}, t.isOperator = true → Token.other t → False := by
    intro t h1 h2; rw [h2.2] at h1; cases h1
  cases dispatch_pass h with
  | punct hc =>
    simp only [List.mem_cons, Prod.mk.injEq, List.not_mem_nil, or_false] at hc
    rcases hc with ⟨_, rfl⟩ | ⟨_, rfl⟩ | ⟨_, rfl⟩ | ⟨_, rfl⟩ | ⟨_, rfl⟩ | ⟨_, rfl⟩ | ⟨_, rfl⟩ | ⟨_, rfl⟩ <;>
      cases ht
  | char _ h => exact (no ht (charLit_other h)).elim
  | string => exact (no ht (string_other l)).elim
  | number _ h => exact (no ht (number_other h)).elim
  | backtick _ h => exact (no ht (backtick_other h)).elim
  | ident hc h => rw [ident_not_operator h] at ht; cases ht
  | op hc h => exact ⟨hc, (operator_not_word h).2 ht⟩
  | unknown => cases ht

/-! ### the interface in terms of the text-only lexer -/

omit [CharTables] in
theorem proj_ok {r : Res} {t : Token} {s : Text} (h : proj r = .ok (t, s)) :
    ∃ t' l', r = .ok (t', l') ∧ t'.noLoc = t ∧ l'.chars = s := by
  cases r with
  | error p => cases h
  | ok x =>
    injection h with h
    injection h with h1 h2
    exact ⟨x.1, x.2, rfl, h1, h2⟩

omit [CharTables] in
theorem noLoc_eof {t : Token} : t.noLoc = .eof ↔ t = .eof := by
  cases t <;> simp [Token.noLoc]

theorem Sync.next {l : Lexer} (h : l.Sync) {t : Token} {r : Text}
    (hx : TLex.lex l.chars = .ok (t, r)) (hne : t ≠ .eof) :
    ∃ t' sp l', l.next = .ok (some (t', sp), l') ∧ t'.noLoc = t ∧ l'.chars = r := by
  obtain ⟨t', l', h1, h2, h3⟩ := proj_ok ((sync_lex h).trans hx)
  refine ⟨t', ⟨l'.prevLoc, l'.currLoc⟩, l', ?_, h2, h3⟩
  unfold Lexer.next
  rw [h1]
  simp only
  rw [if_neg (fun he => hne (by rw [← h2, noLoc_eof, he]))]

theorem Sync.next_none {l : Lexer} (h : l.Sync) {r : Text}
    (hx : TLex.lex l.chars = .ok (.eof, r)) : ∃ l', l.next = .ok (none, l') ∧ l'.chars = r := by
  obtain ⟨t', l', h1, h2, h3⟩ := proj_ok ((sync_lex h).trans hx)
  refine ⟨l', ?_, h3⟩
  unfold Lexer.next
  rw [h1]
  simp only
  rw [if_pos (noLoc_eof.1 h2)]

theorem Sync.next_error {l : Lexer} (h : l.Sync) {p : Panic} :
    l.next = .error p ↔ TLex.lex l.chars = .error p := by
  have hl := sync_lex h
  unfold Lexer.next
  cases hx : l.lex with
  | error q => rw [hx] at hl; rw [← hl]; simp [proj, Except.map]
  | ok x =>
    obtain ⟨t, l'⟩ := x
    rw [hx] at hl; rw [← hl]
    simp only [proj, Except.map]
    split <;> simp

theorem Sync.items {n : Nat} {l : Lexer} (h : l.Sync) :
    noLocs (items n l) = TLex.tokens n l.chars := by
  induction n generalizing l with
  | zero => rfl
  | succ n ih =>
    unfold Lexer.items TLex.tokens
    cases hx : TLex.lex l.chars with
    | error p => rw [h.next_error.2 hx]; rfl
    | ok x =>
      obtain ⟨t, r⟩ := x
      by_cases ht : t = .eof
      · subst ht
        obtain ⟨l', h1, _⟩ := h.next_none hx
        rw [h1]; rfl
      · obtain ⟨t', sp, l', h1, h2, h3⟩ := h.next hx ht
        have hs : l'.Sync := h.reach (next_reach h1)
        have ih := ih hs
        rw [h1]
        simp only
        rw [← h3]
        cases t with
        | eof => exact absurd rfl ht
        | _ =>
          rw [← ih]
          cases Lexer.items n l' with
          | error p => rfl
          | ok xs => simp only [noLocs, Except.map, List.map_cons, h2]

end
end Lexer
end Pemdas
