import Verif.Spec.Reprint
import Verif.Lemmas.PrintBalance
import Verif.Lemmas.LexTok
import Verif.Lemmas.LexCols
/-
Helper lemmas: how the lexer reads the pieces that the printer writes.
-/
namespace Pemdas
namespace TLex
variable [CharTables]

/-- The tokens of a text. -/
inductive Has : Text → List Token → Prop
  | nil {s r} : lex s = .ok (.eof, r) → Has s []
  | cons {s t r ts} : lex s = .ok (t, r) → (t ≠ .eof ∧ ∀ e, t ≠ .error e) → Has r ts → Has s (t :: ts)

theorem Has.space {c : Char} {s : Text} {ts : List Token} (hc : isWhitespace c = true) (h : Has s ts) :
    Has (c :: s) ts := by
  cases h with
  | nil h => exact .nil (by rw [lex_space hc]; exact h)
  | cons h hne ht => exact .cons (by rw [lex_space hc]; exact h) hne ht

theorem Has.tokens {s : Text} {ts : List Token} (h : Has s ts) :
    ∀ n, ts.length ≤ n → TLex.tokens (n + 1) s = .ok ts := by
  induction h with
  | nil h => intro n _; unfold TLex.tokens; rw [h]
  | @cons s t r ts h hne _ ih =>
    intro n hn
    obtain ⟨k, rfl⟩ : ∃ k, n = k + 1 := ⟨n - 1, by simp at hn; omega⟩
    unfold TLex.tokens
    rw [h]
    simp only [List.length_cons, Nat.succ_le_succ_iff] at hn
    cases t with
    | eof => exact absurd rfl hne.1
    | _ => simp only [ih k (by omega)]

theorem Has.noError {s : Text} {ts : List Token} (h : Has s ts) : ∀ e, .error e ∉ ts := by
  induction h with
  | nil h => simp
  | cons h hne _ ih => exact fun e hm => (List.mem_cons.1 hm).elim (fun h => hne.2 e h.symm) (ih e)

theorem Has.dropWhile {s : Text} {ts : List Token} (h : Has s ts) :
    Has (s.dropWhile isWhitespace) ts := by
  cases h with
  | nil h => exact .nil (by rw [lex_dropWhile]; exact h)
  | cons h hne ht => exact .cons (by rw [lex_dropWhile]; exact h) hne ht

/-- Characters that end every token the printer writes. -/
def Brk (s : Text) : Prop := ∀ c ∈ s.head?, c ∈ t!" )],"

omit [CharTables] in
theorem Brk.nil : Brk [] := by simp [Brk]

omit [CharTables] in
theorem Brk.cons {c : Char} {s : Text} (h : c ∈ t!" )],") : Brk (c :: s) := by
  intro d hd
  have : d = c := by simpa using hd.symm
  rw [this]; exact h

section
variable [LawfulTables]

theorem Brk.ident {s : Text} (h : Brk s) : ∀ c ∈ s.head?, isIdentChar c = false ∧ isTrailing c = false := by
  intro c hc
  have := h c hc
  refine ⟨?_, by clear hc; revert this; revert c; decide⟩
  rw [ascii_identChar (by clear hc; revert this; revert c; decide)]
  clear hc; revert this; revert c; decide

omit [CharTables] [LawfulTables] in
theorem Brk.infix_ {s : Text} (h : Brk s) :
    ∀ c ∈ s.head?, isInfixChar c = false ∧ isTrailing c = false ∧ c ≠ '{' ∧ isDigit10 c = false := by
  intro c hc
  have := h c hc
  clear hc; revert this; revert c; decide

/-! ### single tokens -/

theorem lex_punct {c : Char} {t : Token} (s : Text)
    (h : (c, t) ∈ [('(', Token.parenL), (')', .parenR), ('[', .brackL), (']', .brackR), (',', .comma)]) :
    lex (c :: s) = .ok (t, s) := by
  have hid : isIdentStart c = false := by
    rw [ascii_identStart (by revert h; simp; rintro (⟨rfl, _⟩ | ⟨rfl, _⟩ | ⟨rfl, _⟩ | ⟨rfl, _⟩ | ⟨rfl, _⟩) <;> decide)]
    revert h; simp; rintro (⟨rfl, _⟩ | ⟨rfl, _⟩ | ⟨rfl, _⟩ | ⟨rfl, _⟩ | ⟨rfl, _⟩) <;> decide
  have hws : isWhitespace c = false := by
    clear hid
    revert h; simp; rintro (⟨rfl, _⟩ | ⟨rfl, _⟩ | ⟨rfl, _⟩ | ⟨rfl, _⟩ | ⟨rfl, _⟩) <;> decide
  rw [lex_cons hws]
  unfold dispatch
  rw [hid]
  revert h; simp only [List.mem_cons, Prod.mk.injEq, List.not_mem_nil, or_false]
  rintro (⟨rfl, rfl⟩ | ⟨rfl, rfl⟩ | ⟨rfl, rfl⟩ | ⟨rfl, rfl⟩ | ⟨rfl, rfl⟩) <;> rfl

theorem identStart_ne {c : Char} (h : isIdentStart c = true) {d : Char} (hd : d.toNat < 128)
    (hn : (d == '_' || (asciiUpper d || asciiLower d)) = false) : c ≠ d := by
  rintro rfl
  rw [ascii_identStart hd, hn] at h
  cases h

theorem identStart_not_digit {c : Char} (h : isIdentStart c = true) : isDigit10 c = false := by
  by_cases hd : isDigit10 c = true
  · have hnat : 48 ≤ c.toNat ∧ c.toNat ≤ 57 := by simpa [isDigit10, toNat_le_iff] using hd
    rw [ascii_identStart (by omega)] at h
    simp only [asciiUpper, asciiLower, toNat_le_iff, Char.reduceToNat, Bool.or_eq_true,
      Bool.and_eq_true, decide_eq_true_eq, beq_iff_eq] at h
    rcases h with rfl | h | h
    · revert hd; decide
    · omega
    · omega
  · simpa using hd

theorem identStart_not_ws {c : Char} (h : isIdentStart c = true) : isWhitespace c = false := by
  by_cases hws : isWhitespace c = true
  · exfalso
    unfold isIdentStart hasCase at h
    simp only [Bool.or_eq_true, beq_iff_eq] at h
    have := LawfulTables.ws_not_alnum c hws
    rcases h with rfl | h | h
    · revert hws; decide
    · rw [LawfulTables.alphabetic_alnum c (LawfulTables.upper_alphabetic c h)] at this; cases this
    · rw [LawfulTables.alphabetic_alnum c (LawfulTables.lower_alphabetic c h)] at this; cases this
  · simpa using hws

theorem dispatch_ident {c : Char} (s : Text) (h : isIdentStart c = true) : dispatch s c = ident c s := by
  unfold dispatch
  rw [if_neg (identStart_ne h (by decide) (by decide)), if_neg (identStart_ne h (by decide) (by decide)),
    if_neg (identStart_ne h (by decide) (by decide)), if_neg (by rw [identStart_not_digit h]; decide),
    if_neg (identStart_ne h (by decide) (by decide)), if_pos h]

theorem lex_name {s rest : Text} (h : LowerName s)
    (hr : ∀ c ∈ rest.head?, isIdentChar c = false ∧ isTrailing c = false) :
    lex (s ++ rest) = .ok (.lower s, rest) := by
  obtain ⟨c, y, rfl, hl, ⟨b, t, rfl, hb, ht⟩, hk⟩ := h
  have hid : isIdentStart c = true := by unfold isIdentStart hasCase; rw [hl]; simp
  have hm := munch_eq (p := isIdentChar) (x := c :: (b ++ t)) (r := rest)
    ⟨c :: b, t, rfl, by simp [lower_identChar hl]; simpa using hb, ht⟩ hr
  rw [List.cons_append, lex_cons (identStart_not_ws hid), dispatch_ident _ hid]
  unfold ident
  rw [← List.cons_append, hm]
  simp only [keywords, List.mem_cons, List.not_mem_nil, or_false, not_or] at hk
  unfold word
  simp only [hk, if_false]
  unfold Lexer.identifier
  rw [if_pos hl, LawfulTables.lower_not_upper c hl]
  rfl

theorem lex_underscore {rest : Text}
    (hr : ∀ c ∈ rest.head?, isIdentChar c = false ∧ isTrailing c = false) :
    lex ('_' :: rest) = .ok (.underscore, rest) := by
  have hu : isIdentChar '_' = true := by rw [TLex.ascii_identChar (by decide)]; decide
  have hid : isIdentStart '_' = true := by rw [TLex.ascii_identStart (by decide)]; decide
  have hm := munch_eq (p := isIdentChar) (x := t!"_") (r := rest) ⟨t!"_", [], rfl, by simp [hu], rfl⟩ hr
  rw [lex_cons (identStart_not_ws hid), dispatch_ident _ hid]
  unfold ident
  have e : '_' :: rest = t!"_" ++ rest := rfl
  rw [e, hm]
  rfl

theorem lex_munch {c : Char} {y rest : Text} (hc : isInfixChar c = true) (hy : Shape isInfixChar y)
    (hr : ∀ d ∈ rest.head?, isInfixChar d = false ∧ isTrailing d = false) {t : Token}
    (ht : ∀ s, munch isInfixChar s = (c :: y, rest) → operator s = .tok t rest) :
    lex (c :: (y ++ rest)) = .ok (t, rest) := by
  obtain ⟨b, u, rfl, hb, hu⟩ := hy
  have hm := munch_eq (p := isInfixChar) (x := c :: (b ++ u)) (r := rest)
    ⟨c :: b, u, rfl, by simp [hc]; simpa using hb, hu⟩ hr
  rw [lex_cons (infix_not_ws hc), dispatch_infix _ hc, ← List.cons_append, ht _ hm]

theorem lex_op {s rest : Text} (h : OpName s)
    (hr : ∀ d ∈ rest.head?, isInfixChar d = false ∧ isTrailing d = false ∧ d ≠ '{') :
    lex (s ++ rest) = .ok (.affix s false, rest) := by
  obtain ⟨c, y, rfl, hc, hy, hk⟩ := h
  rw [List.cons_append]
  refine lex_munch hc hy (fun d hd => ⟨(hr d hd).1, (hr d hd).2.1⟩) ?_
  intro s hs
  simp only [reservedOps, List.mem_cons, List.not_mem_nil, or_false, not_or] at hk
  have hb : rest.head? ≠ some '{' := fun he => (hr '{' (by rw [he]; rfl)).2.2 rfl
  unfold operator
  simp only [hs, hk, hb, if_false, or_false]
  split
  · rename_i h1; rw [h1]
  · rfl

theorem lex_reserved {c : Char} {y rest : Text} {t : Token}
    (h : (c :: y, t) ∈ [(t!"\\", Token.lambda), (t!"-", .dash), (t!"->", .arrow), (t!"@", .at_)])
    (hr : ∀ d ∈ rest.head?, isInfixChar d = false ∧ isTrailing d = false) :
    lex (c :: (y ++ rest)) = .ok (t, rest) := by
  have hh : isInfixChar c = true ∧ y.all isInfixChar = true := by
    revert h; simp; rintro (⟨⟨rfl, rfl⟩, _⟩ | ⟨⟨rfl, rfl⟩, _⟩ | ⟨⟨rfl, rfl⟩, _⟩ | ⟨⟨rfl, rfl⟩, _⟩) <;> decide
  refine lex_munch hh.1 ⟨y, [], by simp, hh.2, rfl⟩ hr ?_
  intro s hs
  unfold operator
  simp only [hs]
  revert h; simp only [List.mem_cons, Prod.mk.injEq, List.not_mem_nil, or_false]
  rintro (⟨h, rfl⟩ | ⟨h, rfl⟩ | ⟨h, rfl⟩ | ⟨h, rfl⟩) <;> rw [h] <;> rfl

/-! ### literals -/

omit [LawfulTables] in
theorem lex_quote (s : Text) : lex ('\'' :: s) = .ok (charLit ('\'' :: s)) := by
  rw [lex_cons (by decide)]
  unfold dispatch
  rw [if_neg (by decide), if_pos rfl]
  rfl

omit [LawfulTables] in
theorem lex_dquote (s : Text) : lex ('"' :: s) = .ok (string ('"' :: s)) := by
  rw [lex_cons (by decide)]
  unfold dispatch
  rw [if_neg (by decide), if_neg (by decide), if_pos rfl]
  rfl

omit [CharTables] [LawfulTables] in
theorem decText_digits (n : Nat) : (decText n).all isDigit10 = true ∧ decText n ≠ [] ∧
    decValue (decText n) = n := by
  refine ⟨?_, ?_, ?_⟩
  · rw [List.all_eq_true]
    intro c hc
    have := decText_mem hc
    simp only [Char.isDigit, Bool.and_eq_true, decide_eq_true_eq] at this
    simp only [isDigit10, Bool.and_eq_true, decide_eq_true_eq]
    exact this
  · exact Nat.toDigits_ne_nil
  · have digit : ∀ d, d < 10 → (Nat.digitChar d).toNat - '0'.toNat = d := by decide
    unfold decText
    induction n using Nat.strongRecOn with
    | ind n ih =>
      rw [Nat.toDigits_eq_if (by decide)]
      split
      · rename_i hn
        simp only [decValue, List.foldl_cons, List.foldl_nil, Nat.zero_mul, Nat.zero_add]
        exact digit n hn
      · have := ih (n / 10) (by omega)
        unfold decValue at this ⊢
        rw [List.foldl_append, this]
        simp only [List.foldl_cons, List.foldl_nil]
        rw [digit _ (Nat.mod_lt _ (by decide))]
        omega

omit [LawfulTables] in
theorem lex_int {n : Nat} {rest : Text} (hn : n < 2 ^ 64) (hr : ∀ c ∈ rest.head?, isDigit10 c = false) :
    lex (decText n ++ rest) = .ok (.lit (.int n), rest) := by
  obtain ⟨hd, hne, hv⟩ := decText_digits n
  generalize decText n = ds at *
  obtain ⟨h1, h2⟩ := takeWhile_append_stop hd hr
  obtain ⟨d, es, rfl⟩ : ∃ d es, ds = d :: es := by
    cases ds with
    | nil => exact absurd rfl hne
    | cons d es => exact ⟨d, es, rfl⟩
  have hdig : isDigit10 d = true := by simp at hd; exact hd.1
  have hnat : 48 ≤ d.toNat ∧ d.toNat ≤ 57 := by
    simpa [isDigit10, toNat_le_iff] using hdig
  have hnws : isWhitespace d = false := by
    unfold isWhitespace
    simp only [Bool.or_eq_false_iff, Bool.and_eq_false_iff, decide_eq_false_iff_not, beq_eq_false_iff_ne]
    omega
  have hdis : dispatch (d :: (es ++ rest)) d = .ok (.of (number (d :: (es ++ rest)))) := by
    unfold dispatch
    have e1 : d ≠ ';' := by rintro rfl; revert hdig; decide
    have e2 : d ≠ '\'' := by rintro rfl; revert hdig; decide
    have e3 : d ≠ '"' := by rintro rfl; revert hdig; decide
    rw [if_neg e1, if_neg e2, if_neg e3, if_pos hdig]
  rw [List.cons_append, lex_cons hnws, hdis]
  simp only [R.of, number]
  rw [List.cons_append] at h1 h2
  rw [h1, h2, parseUsize_eq hd hne, hv, if_pos (show n < Lexer.usizeBound from hn)]

theorem plain_ne_nul {c : Char} (h : PlainChar c) : c ≠ '\x00' := by
  rintro rfl
  rcases h with h | ⟨h, _⟩
  · revert h; decide
  · rw [LawfulTables.ascii_printable _ (by decide)] at h
    revert h; decide

theorem plain_ascii {c : Char} (h : PlainChar c) (hc : c ∉ t!"\t\n\r\"'\\") :
    isPrintable c = true ∧ isGraphemeExtended c = false ∧ c ≠ '\x08' ∧ c ≠ '\x0C' ∧ c ≠ '\n' := by
  rcases h with h | ⟨h1, h2⟩
  · exact absurd h hc
  · refine ⟨h1, h2, ?_, ?_, ?_⟩ <;> rintro rfl <;>
    · rw [LawfulTables.ascii_printable _ (by decide)] at h1
      revert h1; decide

theorem escape_str {s : Text} (h : ∀ c ∈ s, PlainChar c) :
    s.flatMap (escapeDebug false true) = escapeText s := by
  unfold escapeText
  induction s with
  | nil => rfl
  | cons c s ih =>
    rw [List.flatMap_cons, List.flatMap_cons, ih fun d hd => h d (by simp [hd])]
    congr 1
    have hp := h c (by simp)
    have hn := plain_ne_nul hp
    by_cases hc : c ∈ t!"\t\n\r\"'\\"
    · simp only [List.mem_cons, List.not_mem_nil, or_false] at hc
      rcases hc with rfl | rfl | rfl | rfl | rfl | rfl
      · rfl
      · rfl
      · rfl
      · rfl
      · have h1 : isGraphemeExtended '\'' = false := LawfulTables.ascii_not_extended _ (by decide)
        have h2 : isPrintable '\'' = true := by
          rw [LawfulTables.ascii_printable _ (by decide)]; decide
        simp [escapeDebug, escapeChar, h1, h2]
      · rfl
    · obtain ⟨h1, h2, h3, h4, _⟩ := plain_ascii hp hc
      simp only [List.mem_cons, List.not_mem_nil, or_false, not_or] at hc
      simp [escapeDebug, escapeChar, hc, hn, h1, h2, h3, h4]

theorem escape_char {c : Char} (h : PlainChar c) :
    (escapeDebug true false c = [c] ∧ c ≠ '\'' ∧ c ≠ '\\' ∧ c ≠ '\x00' ∧ c ≠ '\n') ∨
    ∃ d, escapeDebug true false c = ['\\', d] ∧ isEscapable d = true ∧ getEscaped d = c ∧ d ≠ '\n' := by
  have hn := plain_ne_nul h
  by_cases hc : c ∈ t!"\t\n\r\"'\\"
  · simp only [List.mem_cons, List.not_mem_nil, or_false] at hc
    rcases hc with rfl | rfl | rfl | rfl | rfl | rfl
    · exact .inr ⟨'t', rfl, by decide⟩
    · exact .inr ⟨'n', rfl, by decide⟩
    · exact .inr ⟨'r', rfl, by decide⟩
    · left
      have h1 : isGraphemeExtended '"' = false := LawfulTables.ascii_not_extended _ (by decide)
      have h2 : isPrintable '"' = true := by
        rw [LawfulTables.ascii_printable _ (by decide)]; decide
      exact ⟨by simp [escapeDebug, h1, h2], by decide, by decide, by decide, by decide⟩
    · exact .inr ⟨'\'', rfl, by decide⟩
    · exact .inr ⟨'\\', rfl, by decide⟩
  · obtain ⟨h1, h2, h3, h4, h5⟩ := plain_ascii h hc
    simp only [List.mem_cons, List.not_mem_nil, or_false, not_or] at hc
    left
    exact ⟨by simp [escapeDebug, hc, hn, h1, h2], hc.2.2.2.2.1, hc.2.2.2.2.2, hn, h5⟩

theorem lex_lit {l : Literal} {rest : Text} (h : l.Rereads) (hr : Brk rest) :
    lex (l.text ++ rest) = .ok (.lit l, rest) := by
  cases l with
  | int n => exact lex_int h fun c hc => (hr.infix_ c hc).2.2.2
  | frac f => cases h
  | str s =>
    show lex (debugStr s ++ rest) = _
    unfold debugStr
    rw [escape_str h, List.cons_append, lex_dquote, List.append_assoc]
    exact congrArg _ (string_escape s rest)
  | char c =>
    show lex (debugChar c ++ rest) = _
    unfold debugChar
    rw [List.cons_append, lex_quote, List.append_assoc]
    rcases escape_char h with ⟨h1, h2, h3, h4, _⟩ | ⟨d, h1, h2, h3, _⟩
    · rw [h1]; exact congrArg _ (charLit_plain h2 h3 h4)
    · rw [h1]; rw [← h3]; exact congrArg _ (charLit_escape h2)

theorem shape_not_ws {d : Char} {y : Text} (hy : Shape isIdentChar (d :: y)) :
    isWhitespace d = false := by
  obtain ⟨b, t, he, hb, ht⟩ := hy
  cases b with
  | nil =>
    have hdt : isTrailing d = true := by
      cases t with
      | nil => cases he
      | cons e es =>
        rw [List.nil_append] at he
        injection he with h4 h5
        rw [h4]; simp at ht; exact ht.1
    have hmem : d ∈ subscriptChars ++ superscriptChars := by
      simpa [isTrailing, isSubscript, isSuperscript] using hdt
    revert hmem; clear he hdt; revert d; decide
  | cons e es =>
    injection he with h4 h5
    have hdi : isIdentChar d = true := by rw [h4]; simp at hb; exact hb.1
    by_cases hws : isWhitespace d = true
    · have := LawfulTables.ws_not_alnum d hws
      simp only [isIdentChar, this, Bool.false_or, Bool.or_eq_true, beq_iff_eq] at hdi
      rcases hdi with rfl | rfl
      · revert hws; decide
      · revert hws; decide
    · simpa using hws

theorem lex_promoted {s rest : Text} (h : (Infix.promoted s).Rereads) (hr : Brk rest) :
    lex ('\'' :: (s ++ rest)) = .ok (.affix s true, rest) := by
  rw [lex_quote]
  rcases h with ⟨c, d, y, rfl, hid, hd, hy⟩ | ⟨c, w, rfl, hw, _, _, _, hc⟩
  · have h1 := identStart_ne hid (d := '\'') (by decide) (by decide)
    have h2 := identStart_ne hid (d := '\\') (by decide) (by decide)
    have h3 := identStart_ne hid (d := '\x00') (by decide) (by decide)
    have hm := munch_eq (r := rest) hy hr.ident
    rw [List.cons_append] at hm
    unfold charLit
    simp only [List.cons_append, List.tail_cons, List.headD_cons, if_neg h1, if_neg h2, if_neg h3,
      List.head?_cons, Option.some.injEq, if_neg hd, Option.any_some, shape_not_ws hy, hid, if_true, hm]
    simp
  · simp only [List.mem_cons, List.not_mem_nil, or_false, not_or] at hc
    obtain ⟨h1, h2, h3⟩ := hc
    have hq : w ≠ '\'' := by rintro rfl; revert hw; decide
    unfold charLit
    simp [h1, h2, h3, hq, hw]

end
end TLex
end Pemdas
