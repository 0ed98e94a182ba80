import Verif.Spec.LexGrammar
import Verif.Lemmas.ReprintLex
import Verif.Lemmas.LexKinds
/-
Helper lemmas: the lexer reads exactly what the lexical grammar derives.
-/
namespace Pemdas
namespace TLex
variable [CharTables]

/-! ### characters and escapes -/

omit [CharTables] in
theorem escapes_iff {c d : Char} : (c, d) ∈ escapes ↔ isEscapable c = true ∧ getEscaped c = d := by
  constructor
  · intro h
    simp only [escapes, List.mem_cons, Prod.mk.injEq, List.not_mem_nil, or_false] at h
    rcases h with ⟨rfl, rfl⟩ | ⟨rfl, rfl⟩ | ⟨rfl, rfl⟩ | ⟨rfl, rfl⟩ | ⟨rfl, rfl⟩ | ⟨rfl, rfl⟩ |
      ⟨rfl, rfl⟩ | ⟨rfl, rfl⟩ <;> decide
  · rintro ⟨h, rfl⟩
    simp only [isEscapable, List.contains_iff_mem, List.mem_cons, List.not_mem_nil, or_false] at h
    rcases h with rfl | rfl | rfl | rfl | rfl | rfl | rfl | rfl <;> decide

omit [CharTables] in
theorem not_escapes_iff {c : Char} : c ∉ escapes.map (·.1) ↔ isEscapable c = false := by
  have : escapes.map (·.1) = ['t', 'n', 'r', '"', '\'', '\\', 'b', 'f'] := by decide
  rw [this]
  simp [isEscapable]

omit [CharTables] in
theorem hexDigit_eq {c : Char} (h : isHexDigit c = true) : Lexer.hexVal c = hexDigit c := by
  simp only [isHexDigit, toNat_le_iff, Bool.or_eq_true, Bool.and_eq_true, decide_eq_true_eq,
    Char.reduceToNat] at h
  unfold Lexer.hexVal hexDigit toDigit
  simp only [toNat_le_iff, Char.reduceToNat]
  rcases h with (h | h) | h
  · rw [if_pos h, if_pos h.2]
    simp only [Option.bind_some]
    rw [if_pos (by omega)]; rfl
  · rw [if_neg (by omega), if_pos (by omega), if_neg (by omega), if_neg (by omega)]
    simp only [Option.bind_some]
    rw [if_pos (by omega)]
    show c.toNat - 97 + 10 = _
    omega
  · rw [if_neg (by omega), if_neg (by omega), if_pos (by omega), if_neg (by omega), if_pos (by omega)]
    simp only [Option.bind_some]
    rw [if_pos (by omega)]
    show c.toNat - 65 + 10 = _
    omega

omit [CharTables] in
theorem hexValue_eq {s : Text} (h : s.all isHexDigit = true) : Lexer.hexNum s = hexValue s := by
  unfold Lexer.hexNum hexValue
  generalize 0 = a
  induction s generalizing a with
  | nil => rfl
  | cons c s ih =>
    simp only [List.all_cons, Bool.and_eq_true] at h
    simp only [List.foldl_cons, hexDigit_eq h.1]
    exact ih h.2 _

omit [CharTables] in
theorem charFromU32_iff {n : Nat} {c : Char} : Lexer.charFromU32 n = some c ↔ c.toNat = n := by
  unfold Lexer.charFromU32
  constructor
  · intro h
    split at h
    · rename_i hv
      injection h with h; subst h
      rfl
    · cases h
  · rintro rfl
    have hv : c.toNat.isValidChar := c.valid
    rw [dif_pos hv]
    have := Char.ofNat_toNat c
    rw [Char.ofNat, dif_pos hv] at this
    rw [this]

/-! ### strings -/

omit [CharTables] in
theorem dropWhile_ws_append {g w : Text} (hg : g.all isWhitespace = true)
    (hw : ∀ c ∈ w.head?, isWhitespace c = false) : (g ++ w).dropWhile isWhitespace = w :=
  (takeWhile_append_stop hg hw).2

omit [CharTables] in
theorem str_body {w s : Text} (h : StrBody w s) : ∀ {n : Nat} {buf rest : Text}, w.length < n →
    str n (w ++ '"' :: rest) false buf = (true, buf ++ s, rest) := by
  induction h with
  | nil =>
    intro n buf rest hn
    obtain ⟨m, rfl⟩ : ∃ m, n = m + 1 := ⟨n - 1, by simp at hn; omega⟩
    simp [str]
  | @char c w s h1 h2 _ ih =>
    intro n buf rest hn
    obtain ⟨m, rfl⟩ : ∃ m, n = m + 1 := ⟨n - 1, by simp at hn; omega⟩
    rw [List.cons_append, str, if_neg (by decide), if_neg h1, if_neg h2,
      ih (by simp at hn; omega)]
    simp
  | @escape c d w s h1 _ ih =>
    intro n buf rest hn
    obtain ⟨m, rfl⟩ : ∃ m, n = m + 2 := ⟨n - 2, by simp at hn; omega⟩
    obtain ⟨h2, h3⟩ := escapes_iff.1 h1
    rw [List.cons_append, List.cons_append, str, if_neg (by decide), if_neg (by decide), if_pos rfl,
      str, if_pos rfl, if_pos h2, h3, ih (by simp at hn; omega)]
    simp
  | @hidden g w s h1 h2 _ ih =>
    intro n buf rest hn
    obtain ⟨m, rfl⟩ : ∃ m, n = m + 2 := ⟨n - 2, by simp at hn; omega⟩
    rw [List.cons_append, List.cons_append, str, if_neg (by decide), if_neg (by decide), if_pos rfl,
      str, if_pos rfl, if_neg (by decide), if_pos rfl, List.append_assoc,
      dropWhile_ws_append h1 (by
        intro c hc
        cases w with
        | nil =>
          have : c = '"' := by simpa using hc.symm
          subst this; decide
        | cons d w => exact h2 c (by simpa using hc)), ih (by simp at hn; omega)]
  | @other c w s h1 h2 _ ih =>
    intro n buf rest hn
    obtain ⟨m, rfl⟩ : ∃ m, n = m + 2 := ⟨n - 2, by simp at hn; omega⟩
    rw [not_escapes_iff] at h1
    rw [List.cons_append, List.cons_append, str, if_neg (by decide), if_neg (by decide), if_pos rfl,
      str, if_pos rfl, if_neg (by simp [h1]), if_neg h2, ih (by simp at hn; omega)]
    simp

omit [CharTables] in
theorem str_sound {n : Nat} : ∀ {s buf b r : Text}, str n s false buf = (true, b, r) →
    ∃ w v, s = w ++ '"' :: r ∧ b = buf ++ v ∧ StrBody w v := by
  induction n using Nat.strongRecOn with
  | ind n ih =>
    intro s buf b r h
    obtain ⟨m, rfl⟩ : ∃ m, n = m + 1 := by
      cases n with
      | zero => simp [str] at h
      | succ m => exact ⟨m, rfl⟩
    cases s with
    | nil => simp [str] at h
    | cons c cs =>
      rw [str, if_neg (by decide)] at h
      split at h
      · rename_i hc
        simp only [Prod.mk.injEq, true_and] at h
        exact ⟨[], [], by rw [hc, h.2]; rfl, by simp [h.1], .nil⟩
      · rename_i hq
        split at h
        · rename_i hb
          subst hb
          obtain ⟨k, rfl⟩ : ∃ k, m = k + 1 := by
            cases m with
            | zero => simp [str] at h
            | succ k => exact ⟨k, rfl⟩
          cases cs with
          | nil => simp [str] at h
          | cons d ds =>
            rw [str, if_pos rfl] at h
            split at h
            · rename_i he
              obtain ⟨w, v, rfl, rfl, hv⟩ := ih k (by omega) h
              exact ⟨'\\' :: d :: w, getEscaped d :: v, rfl, by simp,
                .escape (escapes_iff.2 ⟨he, rfl⟩) hv⟩
            · rename_i he
              split at h
              · rename_i hd
                subst hd
                obtain ⟨w, v, hw, rfl, hv⟩ := ih k (by omega) h
                refine ⟨'\\' :: '\n' :: (ds.takeWhile isWhitespace ++ w), v, ?_, rfl, .hidden ?_ ?_ hv⟩
                · simp only [List.cons_append, List.append_assoc]
                  rw [← hw, List.takeWhile_append_dropWhile]
                · exact Lexer.all_takeWhile _ _
                · intro e he'
                  cases w with
                  | nil => simp at he'
                  | cons a w =>
                    have : e = a := by simpa using he'.symm
                    subst this
                    exact head_dropWhile hw
              · rename_i hd
                obtain ⟨w, v, rfl, rfl, hv⟩ := ih k (by omega) h
                exact ⟨'\\' :: d :: w, d :: v, rfl, by simp,
                  .other (not_escapes_iff.2 (by simpa using he)) hd hv⟩
        · rename_i hb
          obtain ⟨w, v, rfl, rfl, hv⟩ := ih m (by omega) h
          exact ⟨c :: w, c :: v, rfl, by simp, .char hq hb hv⟩

/-! ### longest runs -/

omit [CharTables] in
theorem Shape.prefix {p : Char → Bool} {x y : Text} (h : Shape p (x ++ y)) : Shape p x := by
  obtain ⟨b, t, he, hb, ht⟩ := h
  rcases List.append_eq_append_iff.1 he with ⟨a, h1, h2⟩ | ⟨a, h1, h2⟩
  · subst h1
    exact ⟨x, [], by simp, by simp only [List.all_append, Bool.and_eq_true] at hb; exact hb.1, rfl⟩
  · subst h1 h2
    exact ⟨b, a, rfl, hb, by simp only [List.all_append, Bool.and_eq_true] at ht; exact ht.1⟩

omit [CharTables] in
theorem Shape.cons {p : Char → Bool} {c : Char} {x : Text} (hc : p c = true) :
    Shape p (c :: x) ↔ Shape p x := by
  constructor
  · rintro ⟨b, t, he, hb, ht⟩
    cases b with
    | nil =>
      rw [List.nil_append] at he
      subst he
      exact ⟨[], x, rfl, rfl, by simp at ht ⊢; exact ht.2⟩
    | cons d b =>
      injection he with h1 h2
      exact ⟨b, t, h2, by simp at hb ⊢; exact hb.2, ht⟩
  · rintro ⟨b, t, rfl, hb, ht⟩
    exact ⟨c :: b, t, rfl, by simp [hc]; simpa using hb, ht⟩

omit [CharTables] in
theorem Maximal.of_head {p : Char → Bool} {x rest : Text} 
    (h : ∀ c ∈ rest.head?, p c = false ∧ isTrailing c = false) : Maximal p x rest := by
  rintro c hc ⟨b, t, he, hb, ht⟩
  have hm : c ∈ b ++ t := by rw [← he]; simp
  rcases List.mem_append.1 hm with hm | hm
  · have := (h c hc).1; rw [List.all_eq_true.1 hb c hm] at this; cases this
  · have := (h c hc).2; rw [List.all_eq_true.1 ht c hm] at this; cases this

omit [CharTables] in
theorem munch_max {p : Char → Bool} {x r : Text} (hx : Shape p x) (hr : Maximal p x r) :
    munch p (x ++ r) = (x, r) := by
  have h1 := Lexer.munch_append p (x ++ r)
  have h2 := munch_shape p (x ++ r)
  have h3 := fun ext rest => munch_maximal (p := p) (s := x ++ r) (ext := ext) (rest := rest)
  generalize hg : munch p (x ++ r) = z at h1 h2 h3
  obtain ⟨m, n⟩ := z
  simp only at h1 h2 h3
  rcases List.append_eq_append_iff.1 h1 with ⟨a, ha, hb⟩ | ⟨a, ha, hb⟩
  · cases a with
    | nil => simp at ha hb; rw [ha, hb]
    | cons d a =>
      refine absurd ?_ (hr d (by rw [hb]; rfl))
      rw [ha] at h2
      exact Shape.prefix (y := a) (by simpa using h2)
  · cases a with
    | nil => simp at ha hb; rw [ha, hb]
    | cons d a =>
      exact absurd (by rw [← ha]; exact hx) (h3 (d :: a) r hb (by simp))

omit [CharTables] in
theorem maximal_munch (p : Char → Bool) (s : Text) : Maximal p (munch p s).1 (munch p s).2 := by
  intro c hc
  cases h : (munch p s).2 with
  | nil => rw [h] at hc; simp at hc
  | cons d r =>
    rw [h] at hc
    have : d = c := by simpa using hc
    subst this
    exact munch_maximal (ext := [d]) (rest := r) h (by simp)

/-! ### completeness -/

section
variable [LawfulTables]

theorem lex_name_max {s rest : Text} (h : LowerName s) (hr : Maximal isIdentChar s rest) :
    lex (s ++ rest) = .ok (.lower s, rest) := by
  obtain ⟨c, y, rfl, hl, hy, hk⟩ := h
  have hid : isIdentStart c = true := by unfold isIdentStart hasCase; rw [hl]; simp
  have hm := munch_max ((Shape.cons (lower_identChar hl)).2 hy) hr
  rw [List.cons_append, lex_cons (identStart_not_ws hid), dispatch_ident _ hid]
  unfold ident
  rw [← List.cons_append, hm]
  simp only [keywords, List.mem_cons, List.not_mem_nil, or_false, not_or] at hk
  unfold word
  simp only [hk, if_false]
  unfold Lexer.identifier
  rw [if_pos hl, LawfulTables.lower_not_upper c hl]
  rfl

theorem lex_munch_max {c : Char} {y rest : Text} (hc : isInfixChar c = true) (hy : Shape isInfixChar y)
    (hr : Maximal isInfixChar (c :: y) rest) {t : Token}
    (ht : ∀ s, munch isInfixChar s = (c :: y, rest) → operator s = .tok t rest) :
    lex (c :: (y ++ rest)) = .ok (t, rest) := by
  have hm := munch_max ((Shape.cons hc).2 hy) hr
  rw [lex_cons (infix_not_ws hc), dispatch_infix _ hc, ← List.cons_append, ht _ hm]

theorem lex_punctuation {c : Char} {t : Token} (s : Text) (h : (t, c) ∈ punctuation) :
    lex (c :: s) = .ok (t, s) := by
  have key : ∀ x ∈ punctuation, x.2.toNat < 128 ∧
      (x.2 == '_' || (asciiUpper x.2 || asciiLower x.2)) = false ∧ isWhitespace x.2 = false := by
    decide
  obtain ⟨h1, h2, h3⟩ := key _ h
  have hid : isIdentStart c = false := by rw [ascii_identStart h1, h2]
  rw [lex_cons h3]
  unfold dispatch
  rw [hid]
  revert h; simp only [punctuation, List.mem_cons, Prod.mk.injEq, List.not_mem_nil, or_false]
  rintro (⟨rfl, rfl⟩ | ⟨rfl, rfl⟩ | ⟨rfl, rfl⟩ | ⟨rfl, rfl⟩ | ⟨rfl, rfl⟩ | ⟨rfl, rfl⟩ | ⟨rfl, rfl⟩ |
    ⟨rfl, rfl⟩) <;> rfl

theorem lex_keyword {t : Token} {w rest : Text} (h : (t, w) ∈ keywordTokens)
    (hr : Maximal isIdentChar w rest) :
    lex (w ++ rest) = .ok (t, rest) := by
  have key : ∀ x ∈ keywordTokens, (∀ c ∈ x.2, c.toNat < 128 ∧
      (asciiLower c || asciiUpper c || isDigit10 c || c == '_' || c == '\'') = true) ∧
      (∀ c ∈ x.2.head?, (c == '_' || (asciiUpper c || asciiLower c)) = true) ∧ x.2 ≠ [] := by decide
  obtain ⟨h1, h2, h3⟩ := key _ h
  simp only at h1 h2 h3
  obtain ⟨c, y, rfl⟩ : ∃ c y, w = c :: y := by
    cases w with
    | nil => exact absurd rfl h3
    | cons c y => exact ⟨c, y, rfl⟩
  have hid : isIdentStart c = true := by
    rw [ascii_identStart (h1 c (by simp)).1]; exact h2 c (by simp)
  have hall : (c :: y).all isIdentChar = true := by
    rw [List.all_eq_true]
    intro d hd
    rw [ascii_identChar (h1 d hd).1]; exact (h1 d hd).2
  have hm := munch_max (p := isIdentChar) (x := c :: y) (r := rest) ⟨c :: y, [], by simp, hall, rfl⟩ hr
  rw [List.cons_append, lex_cons (identStart_not_ws hid), dispatch_ident _ hid]
  unfold ident
  rw [← List.cons_append, hm]
  revert h
  simp only [keywordTokens, List.mem_cons, Prod.mk.injEq, List.not_mem_nil, or_false]
  rintro (⟨rfl, h⟩ | ⟨rfl, h⟩ | ⟨rfl, h⟩ | ⟨rfl, h⟩ | ⟨rfl, h⟩ | ⟨rfl, h⟩) <;> rw [h] <;> rfl

omit [LawfulTables] in
theorem lex_digits {ds rest : Text} (hne : ds ≠ []) (hd : ds.all isDigit10 = true)
    (hv : decValue ds < 2 ^ 64) (hr : ∀ c ∈ rest.head?, isDigit10 c = false) :
    lex (ds ++ rest) = .ok (.lit (.int (decValue ds)), rest) := by
  obtain ⟨h1, h2⟩ := takeWhile_append_stop hd hr
  have hp := parseUsize_eq hd hne
  rw [if_pos (show decValue ds < Lexer.usizeBound from hv)] at hp
  obtain ⟨d, es, rfl⟩ : ∃ d es, ds = d :: es := by
    cases ds with
    | nil => exact absurd rfl hne
    | cons d es => exact ⟨d, es, rfl⟩
  have hdig : isDigit10 d = true := by simp at hd; exact hd.1
  have hnat : 48 ≤ d.toNat ∧ d.toNat ≤ 57 := by
    simpa [isDigit10, toNat_le_iff] using hdig
  have hnws : isWhitespace d = false := by
    unfold isWhitespace
    simp only [Bool.or_eq_false_iff, Bool.and_eq_false_iff, decide_eq_false_iff_not, beq_eq_false_iff_ne]
    omega
  have hdis : dispatch (d :: (es ++ rest)) d = .ok (.of (number (d :: (es ++ rest)))) := by
    unfold dispatch
    have e1 : d ≠ ';' := by rintro rfl; revert hdig; decide
    have e2 : d ≠ '\'' := by rintro rfl; revert hdig; decide
    have e3 : d ≠ '"' := by rintro rfl; revert hdig; decide
    rw [if_neg e1, if_neg e2, if_neg e3, if_pos hdig]
  rw [List.cons_append, lex_cons hnws, hdis]
  simp only [R.of, number]
  rw [List.cons_append] at h1 h2
  rw [h1, h2, hp]

theorem lex_backticks {s rest : Text} (h : PromotedName s) :
    lex ('`' :: (s ++ t!"`" ++ rest)) = .ok (.affix s true, rest) := by
  obtain ⟨c, y, rfl, hid, hy⟩ := h
  have hb : isIdentStart '`' = false := by rw [ascii_identStart (by decide)]; decide
  have hm := munch_eq (r := '`' :: rest) hy (by
    intro d hd
    have : d = '`' := by simpa using hd.symm
    subst this
    rw [ascii_identChar (by decide)]; decide)
  rw [lex_cons (by decide)]
  unfold dispatch
  rw [if_neg (by decide), if_neg (by decide), if_neg (by decide), if_neg (by decide), if_pos rfl]
  simp only [R.of, backtick, List.tail_cons, List.cons_append, List.append_assoc, List.nil_append,
    List.head?_cons, Option.any_some, hid, if_true, hm, List.take_succ_cons, List.take_zero]

theorem lex_apostrophe {s rest : Text} (h : PromotedName s) (hr : Maximal isIdentChar s rest)
    (hs : ∀ c ∈ (s.tail ++ rest).head?, c ≠ '\'' ∧ isWhitespace c = false) :
    lex ('\'' :: (s ++ rest)) = .ok (.affix s true, rest) := by
  obtain ⟨c, y, rfl, hid, hy⟩ := h
  have h1 := identStart_ne hid (d := '\'') (by decide) (by decide)
  have h2 := identStart_ne hid (d := '\\') (by decide) (by decide)
  have h3 := identStart_ne hid (d := '\x00') (by decide) (by decide)
  have hci : isIdentChar c = true := Lexer.isIdentStart_identChar hid
  have hm := munch_max (r := rest) hy fun d hd hs => hr d hd ((Shape.cons hci).2 hs)
  simp only [List.tail_cons] at hs
  have h4 : (y ++ rest).head? ≠ some '\'' := fun he => (hs '\'' (by rw [he]; rfl)).1 rfl
  have h5 : (y ++ rest).head?.any isWhitespace = false := by
    cases he : (y ++ rest).head? with
    | none => rfl
    | some d => rw [he] at hs; exact (hs d rfl).2
  rw [lex_quote]
  unfold charLit
  simp only [List.cons_append, List.tail_cons, List.headD_cons, if_neg h1, if_neg h2, if_neg h3,
    if_neg h4, h5, hid, if_true, hm]
  simp

theorem TokenAt.lex {t : Token} {w rest : Text} (h : TokenAt t w rest) :
    lex (w ++ rest) = .ok (t, rest) ∧ t ≠ .eof ∧ ∀ e, t ≠ .error e := by
  cases h with
  | punct h =>
    refine ⟨lex_punctuation _ h, ?_⟩
    revert h
    simp only [punctuation, List.mem_cons, Prod.mk.injEq, List.not_mem_nil, or_false]
    rintro (⟨rfl, _⟩ | ⟨rfl, _⟩ | ⟨rfl, _⟩ | ⟨rfl, _⟩ | ⟨rfl, _⟩ | ⟨rfl, _⟩ | ⟨rfl, _⟩ | ⟨rfl, _⟩) <;> simp
  | keyword h hr =>
    refine ⟨lex_keyword h hr, ?_⟩
    revert h
    simp only [keywordTokens, List.mem_cons, Prod.mk.injEq, List.not_mem_nil, or_false]
    rintro (⟨rfl, _⟩ | ⟨rfl, _⟩ | ⟨rfl, _⟩ | ⟨rfl, _⟩ | ⟨rfl, _⟩ | ⟨rfl, _⟩) <;> simp
  | lower h hr => exact ⟨lex_name_max h hr, by simp⟩
  | reserved h hr =>
    have hw : w ≠ [] := by
      have : ∀ x ∈ reservedTokens, x.2 ≠ [] := by decide
      exact this _ h
    obtain ⟨c, y, rfl⟩ : ∃ c y, w = c :: y := by
      cases w with
      | nil => exact absurd rfl hw
      | cons c y => exact ⟨c, y, rfl⟩
    have h' : (c :: y, t) ∈ [(t!"\\", Token.lambda), (t!"-", .dash), (t!"->", .arrow), (t!"@", .at_)] := by
      revert h
      simp only [reservedTokens, List.mem_cons, Prod.mk.injEq, List.not_mem_nil, or_false]
      rintro (⟨rfl, h⟩ | ⟨rfl, h⟩ | ⟨rfl, h⟩ | ⟨rfl, h⟩) <;> simp_all
    refine ⟨?_, ?_⟩
    · have hh : isInfixChar c = true ∧ y.all isInfixChar = true := by
        clear hr h
        revert h'; simp
        rintro (⟨⟨rfl, rfl⟩, _⟩ | ⟨⟨rfl, rfl⟩, _⟩ | ⟨⟨rfl, rfl⟩, _⟩ | ⟨⟨rfl, rfl⟩, _⟩) <;> decide
      refine lex_munch_max hh.1 ⟨y, [], by simp, hh.2, rfl⟩ hr ?_
      intro s hs
      unfold operator
      simp only [hs]
      revert h'; simp only [List.mem_cons, Prod.mk.injEq, List.not_mem_nil, or_false]
      rintro (⟨h', rfl⟩ | ⟨h', rfl⟩ | ⟨h', rfl⟩ | ⟨h', rfl⟩) <;> rw [h'] <;> rfl
    revert h
    simp only [reservedTokens, List.mem_cons, Prod.mk.injEq, List.not_mem_nil, or_false]
    rintro (⟨rfl, _⟩ | ⟨rfl, _⟩ | ⟨rfl, _⟩ | ⟨rfl, _⟩) <;> simp
  | op h hr ht =>
    refine ⟨?_, by simp⟩
    obtain ⟨c, y, rfl, hc, hy, hk⟩ := h
    rw [List.cons_append]
    refine lex_munch_max hc hy hr ?_
    intro s hs
    simp only [reservedOps, List.mem_cons, List.not_mem_nil, or_false, not_or] at hk
    unfold operator
    simp only [hs, hk, if_false, or_false]
    split
    · rename_i h1
      rw [if_neg (ht h1), h1]
    · rfl
  | backticks h => 
    refine ⟨?_, by simp⟩
    rw [List.cons_append]; exact lex_backticks h
  | apostrophe h hr hs => exact ⟨lex_apostrophe h hr hs, by simp⟩
  | @blank c v _ hc hv =>
    refine ⟨?_, by simp⟩
    simp only [List.mem_cons, List.not_mem_nil, or_false, not_or] at hc
    obtain ⟨h1, h2, h3⟩ := hc
    have hq : v ≠ '\'' := by rintro rfl; revert hv; decide
    simp only [List.cons_append, List.nil_append]
    rw [lex_quote]
    unfold charLit
    simp [h1, h2, h3, hq, hv]
  | int hne hd hv hr => exact ⟨lex_digits hne hd hv hr, by simp⟩
  | char hc =>
    refine ⟨?_, by simp⟩
    simp only [List.mem_cons, List.not_mem_nil, or_false, not_or] at hc
    simp only [List.cons_append, List.nil_append]
    rw [lex_quote, charLit_plain hc.1 hc.2.1 hc.2.2]
  | charEscape hc =>
    refine ⟨?_, by simp⟩
    obtain ⟨h1, rfl⟩ := escapes_iff.1 hc
    simp only [List.cons_append, List.nil_append]
    rw [lex_quote, charLit_escape h1]
  | @charCode u c plus ds x _ hu hp hne hd hl hv hx =>
    refine ⟨?_, by simp⟩
    have e : '\'' :: '\\' :: u :: (plus ++ ds ++ '\'' :: x) ++ rest =
        '\'' :: '\\' :: u :: (plus ++ ds ++ '\'' :: (x ++ rest)) := by simp
    rw [e, lex_quote, charLit_unicode (by simpa using hp) hd hne hl (by simpa using hu),
      hexValue_eq hd, charFromU32_iff.2 hv]
    have : (x ++ rest).tail = rest := by
      rcases hx with hx | ⟨rfl, rfl⟩
      · match x, hx with
        | [a], _ => rfl
      · rfl
    rw [this]
  | str hb =>
    refine ⟨?_, by simp⟩
    rw [List.cons_append, lex_dquote, List.append_assoc]
    simp only [string, List.tail_cons, List.cons_append, List.nil_append]
    rw [str_body hb (by simp; omega)]
    simp

/-! ### soundness -/

omit [LawfulTables] in
theorem number_sound {c : Char} {cs r : Text} {t : Token} (hc : isDigit10 c = true)
    (h : number (c :: cs) = (t, r)) (hne : ∀ e, t ≠ .error e) :
    ∃ w, c :: cs = w ++ r ∧ TokenAt t w r := by
  unfold number at h
  injection h with h1 h2
  have hall := Lexer.all_takeWhile isDigit10 (c :: cs)
  have hn : (c :: cs).takeWhile isDigit10 ≠ [] := by simp [hc]
  rw [parseUsize_eq hall hn] at h1
  by_cases hv : decValue ((c :: cs).takeWhile isDigit10) < Lexer.usizeBound
  · rw [if_pos hv] at h1
    subst h1 h2
    refine ⟨_, List.takeWhile_append_dropWhile.symm, .int hn hall hv ?_⟩
    intro d hd
    cases hr : (c :: cs).dropWhile isDigit10 with
    | nil => rw [hr] at hd; simp at hd
    | cons e es =>
      rw [hr] at hd
      have : e = d := by simpa using hd
      subst this
      exact head_dropWhile hr
  · rw [if_neg hv] at h1
    exact absurd h1.symm (hne _)

omit [LawfulTables] in
theorem string_sound {cs r : Text} {t : Token} (h : string ('"' :: cs) = (t, r))
    (hne : ∀ e, t ≠ .error e) : ∃ w, '"' :: cs = w ++ r ∧ TokenAt t w r := by
  unfold string at h
  split at h
  · rename_i buf r' hs
    injection h with h1 h2
    subst h1 h2
    obtain ⟨w, v, hw, hv, hb⟩ := str_sound hs
    rw [List.nil_append] at hv
    subst hv
    simp only [List.tail_cons] at hw
    exact ⟨_, by rw [hw]; simp, .str hb⟩
  · injection h with h1 h2; exact absurd h1.symm (hne _)

omit [LawfulTables] in
theorem backtick_sound {cs r : Text} {t : Token} (h : backtick ('`' :: cs) = (t, r))
    (hne : ∀ e, t ≠ .error e) : ∃ w, '`' :: cs = w ++ r ∧ TokenAt t w r := by
  unfold backtick at h
  simp only at h
  split at h
  · rename_i hid
    simp only [List.tail_cons] at hid
    obtain ⟨d, ds, rfl⟩ : ∃ d ds, cs = d :: ds := by
      cases cs with
      | nil => simp at hid
      | cons d ds => exact ⟨d, ds, rfl⟩
    split at h
    · rename_i hq
      simp only [List.tail_cons] at h hq
      injection h with h1 h2
      subst h1 h2
      have hm := Lexer.munch_append isIdentChar ds
      obtain ⟨ms, hms⟩ : ∃ ms, (munch isIdentChar ds).2 = '`' :: ms := by
        cases hh : (munch isIdentChar ds).2 with
        | nil => rw [hh] at hq; simp at hq
        | cons a b => rw [hh] at hq; simp at hq; exact ⟨b, by rw [hq]⟩
      rw [hms] at hm ⊢
      refine ⟨_, ?_, .backticks ⟨d, _, rfl, by simpa using hid, munch_shape isIdentChar ds⟩⟩
      simp only [List.cons_append, List.nil_append, List.append_assoc, List.tail_cons]
      rw [← hm]; rfl
    · injection h with h1 h2; exact absurd h1.symm (hne _)
  · injection h with h1 h2; exact absurd h1.symm (hne _)

omit [CharTables] [LawfulTables] in
theorem lost_tail (s : Text) : ∃ x, s = x ++ s.tail ∧ Lost x s.tail := by
  cases s with
  | nil => exact ⟨[], rfl, .inr ⟨rfl, rfl⟩⟩
  | cons c s => exact ⟨[c], rfl, .inl rfl⟩

omit [CharTables] [LawfulTables] in
theorem head_some {s : Text} {c : Char} (h : s.head? = some c) : s = c :: s.tail := by
  cases s with
  | nil => simp at h
  | cons d s => simp at h; rw [h]; rfl

omit [LawfulTables] in
theorem unicode_sound {u : Char} {s r : Text} {t : Token} (hu : u = 'u' ∨ u = 'U')
    (h : unicode (u :: s) = (t, r)) (hne : ∀ e, t ≠ .error e) :
    ∃ w, '\'' :: '\\' :: u :: s = w ++ r ∧ TokenAt t w r := by
  unfold unicode at h
  simp only at h
  obtain ⟨plus, s', hs, hp, hs'⟩ : ∃ plus s', s = plus ++ s' ∧ plus ∈ [[], t!"+"] ∧
      (if (u :: s).tail.head? = some '+' then (u :: s).tail.tail else (u :: s).tail) = s' := by
    by_cases hh : s.head? = some '+'
    · exact ⟨t!"+", s.tail, head_some hh, by simp, if_pos hh⟩
    · exact ⟨[], s, rfl, by simp, if_neg hh⟩
  rw [hs'] at h
  split at h
  · rename_i hx
    split at h
    · rename_i hq
      have hall := Lexer.all_takeWhile isHexDigit s'
      have hn : s'.takeWhile isHexDigit ≠ [] := by
        cases s' with
        | nil => simp at hq
        | cons a b => simp at hx; simp [hx]
      split at h
      · rename_i hl
        injection h with h1 h2
        cases hc : Lexer.charFromU32 (Lexer.hexNum (s'.takeWhile isHexDigit)) with
        | none => rw [hc] at h1; exact absurd h1.symm (hne _)
        | some c =>
          rw [hc] at h1
          subst h1 h2
          obtain ⟨x, hx1, hx2⟩ := lost_tail (s'.dropWhile isHexDigit).tail
          refine ⟨_, ?_, .charCode (by simpa using hu) hp hn hall hl ?_ hx2⟩
          · simp only [List.cons_append, List.append_assoc]
            rw [← hx1, ← head_some hq, List.takeWhile_append_dropWhile, ← hs]
          · rw [charFromU32_iff.1 hc, hexValue_eq hall]
      · injection h with h1 h2; exact absurd h1.symm (hne _)
    · injection h with h1 h2; exact absurd h1.symm (hne _)
  · injection h with h1 h2; exact absurd h1.symm (hne _)

omit [LawfulTables] in
theorem charEscape_sound {s r : Text} {t : Token} (h : charEscape s = (t, r))
    (hne : ∀ e, t ≠ .error e) : ∃ w, '\'' :: '\\' :: s = w ++ r ∧ TokenAt t w r := by
  unfold charEscape at h
  split at h
  · rename_i c cs
    split at h
    · rename_i hu; exact unicode_sound hu h hne
    · split at h
      · rename_i he
        split at h
        · rename_i hq
          simp only [List.tail_cons] at h hq
          injection h with h1 h2
          subst h1 h2
          refine ⟨_, ?_, .charEscape (escapes_iff.2 ⟨he, rfl⟩)⟩
          simp only [List.cons_append, List.nil_append]
          rw [← head_some hq]
        · injection h with h1 h2; exact absurd h1.symm (hne _)
      · injection h with h1 h2; exact absurd h1.symm (hne _)
  · injection h with h1 h2; exact absurd h1.symm (hne _)

theorem charLit_sound {cs r : Text} {t : Token} (h : charLit ('\'' :: cs) = (t, r))
    (hne : ∀ e, t ≠ .error e) : ∃ w, '\'' :: cs = w ++ r ∧ TokenAt t w r := by
  unfold charLit at h
  simp only at h
  split at h
  · injection h with h1 h2; exact absurd h1.symm (hne _)
  rename_i h1
  split at h
  · rename_i h2
    simp only [List.tail_cons] at h2 h
    have : cs = '\\' :: cs.tail := by
      cases cs with
      | nil => revert h2; simp
      | cons d ds => simp at h2; rw [h2]; rfl
    rw [this]
    exact charEscape_sound h hne
  rename_i h2
  split at h
  · injection h with h1 h2; exact absurd h1.symm (hne _)
  rename_i h3
  simp only [List.tail_cons] at h1 h2 h3
  obtain ⟨d, ds, rfl⟩ : ∃ d ds, cs = d :: ds := by
    cases cs with
    | nil => simp at h3
    | cons d ds => exact ⟨d, ds, rfl⟩
  simp only [List.headD_cons] at h1 h2 h3
  have hd : d ∉ t!"'\\\x00" := by simp [h1, h2, h3]
  split at h
  · rename_i hq
    simp only [List.tail_cons, List.headD_cons] at h hq
    injection h with h1 h2
    subst h1 h2
    exact ⟨_, by simp only [List.cons_append, List.nil_append]; rw [← head_some hq], .char hd⟩
  rename_i hq
  split at h
  · rename_i hw
    simp only [List.tail_cons, List.headD_cons] at h hw
    injection h with h1 h2
    subst h1 h2
    cases ds with
    | nil => simp at hw
    | cons w ws => exact ⟨_, rfl, .blank hd (by simpa using hw)⟩
  rename_i hw
  split at h
  · rename_i hid
    simp only [List.tail_cons, List.headD_cons] at h hid hq hw
    injection h with h1 h2
    subst h1 h2
    have hm := Lexer.munch_append isIdentChar ds
    refine ⟨'\'' :: d :: (munch isIdentChar ds).1, ?_, .apostrophe ⟨d, _, rfl, hid, munch_shape _ _⟩ ?_ ?_⟩
    · simp only [List.cons_append]; rw [← hm]
    · intro c hc hs
      exact maximal_munch isIdentChar ds c hc ((Shape.cons (Lexer.isIdentStart_identChar hid)).1 hs)
    · rw [List.tail_cons, ← hm]
      intro c hc
      constructor
      · rintro rfl; exact hq hc
      · cases hds : ds.head? with
        | none => rw [hds] at hc; cases hc
        | some e =>
          rw [hds] at hc hw
          have : e = c := by simpa using hc
          subst this
          simpa using hw
  · injection h with h1 h2; exact absurd h1.symm (hne _)

theorem ident_sound {c : Char} {cs r : Text} {t : Token}
    (h : ident c (c :: cs) = .ok (.tok t r)) : ∃ w, c :: cs = w ++ r ∧ TokenAt t w r := by
  unfold ident at h
  split at h
  · rename_i t' hw
    injection h with h
    injection h with h1 h2
    subst h1 h2
    refine ⟨_, Lexer.munch_append isIdentChar _, ?_⟩
    have hmax := maximal_munch isIdentChar (c :: cs)
    have key : ∀ w, (munch isIdentChar (c :: cs)).1 = w → (t', w) ∈ keywordTokens →
        TokenAt t' (munch isIdentChar (c :: cs)).1 (munch isIdentChar (c :: cs)).2 := by
      intro w hw hk
      exact .keyword (by rw [hw]; exact hk) hmax
    unfold word Lexer.identifier at hw
    repeat' split at hw
    all_goals first
      | (rename_i hk; cases hw; exact key _ hk (by decide))
      | (cases hw; done)
      | skip
    · rename_i hl hu
      rw [LawfulTables.lower_not_upper c hl] at hu
      cases hu
    · rename_i hk1 hk2 hk3 hk4 hk5 hk6 hl hu
      cases hw
      refine .lower ?_ hmax
      have hs := munch_shape isIdentChar (c :: cs)
      have hx : ∃ y, (munch isIdentChar (c :: cs)).1 = c :: y := by
        rw [munch_cons (lower_identChar hl)]; exact ⟨_, rfl⟩
      obtain ⟨y, hy⟩ := hx
      rw [hy] at hs hk1 hk2 hk3 hk4 hk5 hk6 ⊢
      refine ⟨c, y, rfl, hl, (Shape.cons (lower_identChar hl)).1 hs, ?_⟩
      simp only [keywords, List.mem_cons, List.not_mem_nil, or_false, not_or]
      exact ⟨hk1, hk2, hk3, hk4, hk5, hk6⟩
  · cases h

omit [LawfulTables] in
theorem operator_sound {c : Char} {cs r : Text} {t : Token} (hc : isInfixChar c = true)
    (h : operator (c :: cs) = .tok t r) (hne : ∀ e, t ≠ .error e) :
    ∃ w, c :: cs = w ++ r ∧ TokenAt t w r := by
  have happ := Lexer.munch_append isInfixChar (c :: cs)
  have hmax := maximal_munch isInfixChar (c :: cs)
  have hs := munch_shape isInfixChar (c :: cs)
  have hx : ∃ y, (munch isInfixChar (c :: cs)).1 = c :: y := by
    rw [munch_cons hc]; exact ⟨_, rfl⟩
  obtain ⟨y, hy⟩ := hx
  have hna : ∀ (d : Char) (z : Text), isInfixChar d = false → (munch isInfixChar (c :: cs)).1 ≠ d :: z := by
    intro d z hd he
    rw [hy] at he
    injection he with h1 h2
    rw [h1, hd] at hc; cases hc
  have key : ∀ w, (munch isInfixChar (c :: cs)).1 = w → (t, w) ∈ reservedTokens →
      TokenAt t (munch isInfixChar (c :: cs)).1 (munch isInfixChar (c :: cs)).2 := by
    intro w hw hk
    exact .reserved (by rw [hw]; exact hk) hmax
  have name : (munch isInfixChar (c :: cs)).1 ∉ reservedOps → OpName (munch isInfixChar (c :: cs)).1 := by
    rw [hy] at hs ⊢
    exact fun hk => ⟨c, y, rfl, hc, (Shape.cons hc).1 hs, hk⟩
  have n1 := hna 'λ' [] (by decide)
  have n2 := hna '→' [] (by decide)
  have n3 := hna '⟶' [] (by decide)
  have n4 := hna '↦' [] (by decide)
  have n5 := hna '⟼' [] (by decide)
  unfold operator at h
  simp only [n1, n2, n3, n4, n5, or_false] at h
  split at h
  · rename_i ht
    split at h
    · split at h
      · cases h; exact absurd rfl (hne _)
      · cases h
    · rename_i hb
      cases h
      refine ⟨_, happ, ?_⟩
      have := TokenAt.op (name (by rw [ht]; decide)) hmax (fun _ => hb)
      rw [ht] at this ⊢
      exact this
  split at h
  · cases h
  rename_i k1 k2
  split at h
  · rename_i hk; cases h; exact ⟨_, happ, key _ hk (by decide)⟩
  rename_i k3
  split at h
  · rename_i hk; cases h; exact ⟨_, happ, key _ hk (by decide)⟩
  rename_i k4
  split at h
  · rename_i hk; cases h; exact ⟨_, happ, key _ hk (by decide)⟩
  rename_i k5
  split at h
  · rename_i hk; cases h; exact ⟨_, happ, key _ hk (by decide)⟩
  rename_i k6
  cases h
  refine ⟨_, happ, .op (name ?_) hmax fun ht => absurd ht k1⟩
  simp only [reservedOps, List.mem_cons, List.not_mem_nil, or_false, not_or]
  exact ⟨k2, k3, n1, k4, k5, n2, n3, n4, n5, k6⟩

theorem dispatch_sound {c : Char} {cs r : Text} {t : Token}
    (h : dispatch (c :: cs) c = .ok (.tok t r)) (hne : ∀ e, t ≠ .error e) :
    ∃ w, c :: cs = w ++ r ∧ TokenAt t w r := by
  unfold dispatch at h
  by_cases hc : c = ';'
  · rw [if_pos hc] at h; cases h; subst hc; exact ⟨_, rfl, .punct (by decide)⟩
  rw [if_neg hc] at h; clear hc
  by_cases hc : c = '\''
  · rw [if_pos hc] at h; subst hc
    exact charLit_sound (of_ok h) hne
  rw [if_neg hc] at h; clear hc
  by_cases hc : c = '"'
  · rw [if_pos hc] at h; subst hc
    exact string_sound (of_ok h) hne
  rw [if_neg hc] at h; clear hc
  by_cases hc : isDigit10 c = true
  · rw [if_pos hc] at h
    exact number_sound hc (of_ok h) hne
  rw [if_neg hc] at h; clear hc
  by_cases hc : c = '`'
  · rw [if_pos hc] at h; subst hc
    exact backtick_sound (of_ok h) hne
  rw [if_neg hc] at h; clear hc
  by_cases hc : isIdentStart c = true
  · rw [if_pos hc] at h
    exact ident_sound h
  rw [if_neg hc] at h; clear hc
  by_cases hc : c = '('
  · rw [if_pos hc] at h; cases h; subst hc; exact ⟨_, rfl, .punct (by decide)⟩
  rw [if_neg hc] at h; clear hc
  by_cases hc : c = ')'
  · rw [if_pos hc] at h; cases h; subst hc; exact ⟨_, rfl, .punct (by decide)⟩
  rw [if_neg hc] at h; clear hc
  by_cases hc : c = '['
  · rw [if_pos hc] at h; cases h; subst hc; exact ⟨_, rfl, .punct (by decide)⟩
  rw [if_neg hc] at h; clear hc
  by_cases hc : c = ']'
  · rw [if_pos hc] at h; cases h; subst hc; exact ⟨_, rfl, .punct (by decide)⟩
  rw [if_neg hc] at h; clear hc
  by_cases hc : c = '{'
  · rw [if_pos hc] at h; cases h; subst hc; exact ⟨_, rfl, .punct (by decide)⟩
  rw [if_neg hc] at h; clear hc
  by_cases hc : c = '}'
  · rw [if_pos hc] at h; cases h; subst hc; exact ⟨_, rfl, .punct (by decide)⟩
  rw [if_neg hc] at h; clear hc
  by_cases hc : c = ','
  · rw [if_pos hc] at h; cases h; subst hc; exact ⟨_, rfl, .punct (by decide)⟩
  rw [if_neg hc] at h; clear hc
  by_cases hc : isInfixChar c = true
  · rw [if_pos hc] at h
    exact operator_sound hc (by simpa using h) hne
  rw [if_neg hc] at h; clear hc
  injection h with h
  injection h with h1 h2
  exact absurd h1.symm (hne _)

omit [CharTables] [LawfulTables] in
theorem operator_skips {c : Char} {cs r : Text}
    (h : operator (c :: cs) = .skipped r) :
    (∃ b, c :: cs = t!"~~" ++ b ++ r ∧ '\n' ∉ b ∧ Maximal isInfixChar t!"~~" (b ++ r) ∧
      ∀ d ∈ r.head?, d = '\n') ∨
    ∃ b x, c :: cs = t!"~{" ++ b ++ t!"}~" ++ x ++ r ∧ CommentBody b ∧ Lost x r := by
  have happ := Lexer.munch_append isInfixChar (c :: cs)
  have hmax := maximal_munch isInfixChar (c :: cs)
  unfold operator at h
  simp only at h
  split at h
  · rename_i ht
    split at h
    · rename_i hb
      split at h
      · cases h
      · rename_i r' hr
        injection h with h
        subst h
        obtain ⟨b, s', h1, h2, h3⟩ := block_some hr
        simp only [block, Option.some.injEq] at h3
        subst h3
        obtain ⟨x, hx1, hx2⟩ := lost_tail s'
        refine .inr ⟨b, x, ?_, h1, hx2⟩
        rw [happ, ht, head_some hb, h2]
        simp only [List.append_assoc, List.cons_append, List.nil_append]
        rw [← hx1]
    · cases h
  · split at h
    · rename_i ht
      injection h with h
      left
      refine ⟨(munch isInfixChar (c :: cs)).2.takeWhile (· != '\n'), ?_, ?_, ?_, ?_⟩
      · rw [← h, List.append_assoc, List.takeWhile_append_dropWhile, ← ht, ← happ]
      · intro hm
        have := List.all_eq_true.1 (Lexer.all_takeWhile (· != '\n') (munch isInfixChar (c :: cs)).2) _ hm
        simp at this
      · rw [← h, List.takeWhile_append_dropWhile, ← ht]; exact hmax
      · intro d hd
        rw [← h] at hd
        cases hr : (munch isInfixChar (c :: cs)).2.dropWhile (· != '\n') with
        | nil => rw [hr] at hd; simp at hd
        | cons e es =>
          rw [hr] at hd
          have : e = d := by simpa using hd
          subst this
          simpa using head_dropWhile hr
    · repeat' split at h
      all_goals cases h

/-- What precedes the next token. -/
theorem lexN_sound {n : Nat} : ∀ {s r : Text} {t : Token}, lexN n s = .ok (t, r) → s.length < n →
    (∀ e, t ≠ .error e) → ∀ ts, (t = .eof → ts = []) →
    (t ≠ .eof → ∃ us, ts = t :: us ∧ Tokenizes r us) → Tokenizes s ts := by
  induction n with
  | zero => intro s r t _ h; omega
  | succ n ih =>
    intro s r t h hl hne ts h0 h1
    have ws : ∀ s : Text, Tokenizes (s.dropWhile isWhitespace) ts → Tokenizes s ts := by
      intro s
      induction s with
      | nil => exact id
      | cons c s ih =>
        rw [List.dropWhile_cons]
        split
        · rename_i hc; exact fun hh => .space hc (ih hh)
        · exact id
    apply ws
    unfold lexN at h
    have hlen := (List.dropWhile_suffix (l := s) isWhitespace).length_le
    cases hd : s.dropWhile isWhitespace with
    | nil =>
      rw [hd] at h
      injection h with h
      injection h with h2 h3
      rw [h0 h2.symm]; exact .nil
    | cons c cs =>
      rw [hd] at h hlen
      simp only at h
      cases hx : dispatch (c :: cs) c with
      | error p => rw [hx] at h; cases h
      | ok z =>
        rw [hx] at h
        cases z with
        | tok t' r' =>
          injection h with h
          injection h with h2 h3
          subst h2 h3
          obtain ⟨w, hw, ht⟩ := dispatch_sound hx hne
          obtain ⟨us, rfl, hu⟩ := h1 (TokenAt.lex ht).2.1
          rw [hw]; exact .token ht hu
        | skipped r' =>
          simp only at h
          obtain ⟨hi, ho⟩ := dispatch_skipped hx
          have hlt := operator_skipped hi ho
          have hrec := ih h (by omega) hne ts h0 h1
          rcases operator_skips ho with ⟨b, e1, e2, e3, e4⟩ | ⟨b, x, e1, e2, e3⟩
          · rw [e1]; exact .line e2 e3 e4 hrec
          · rw [e1]; exact .block e2 e3 hrec

omit [LawfulTables] in
theorem Has.congr {s s' : Text} {ts : List Token} (he : lex s = lex s') (h : Has s' ts) : Has s ts := by
  cases h with
  | nil h => exact .nil (he.trans h)
  | cons h hne ht => exact .cons (he.trans h) hne ht

theorem lex_line_max {b s : Text} (hb : '\n' ∉ b) (hm : Maximal isInfixChar t!"~~" (b ++ s))
    (hs : ∀ c ∈ s.head?, c = '\n') : lex (t!"~~" ++ b ++ s) = lex s := by
  have e : t!"~~" ++ b ++ s = '~' :: '~' :: (b ++ s) := by simp
  have hm := munch_max (p := isInfixChar) (x := t!"~~") ⟨t!"~~", [], rfl, by decide, rfl⟩ hm
  rw [e, lex_cons (by decide), dispatch_infix _ (by decide)]
  unfold operator
  have e2 : '~' :: '~' :: (b ++ s) = t!"~~" ++ (b ++ s) := rfl
  rw [e2, hm]
  have hd : (b ++ s).dropWhile (· != '\n') = s := by
    refine (takeWhile_append_stop (p := (· != '\n')) ?_ ?_).2
    · simp only [List.all_eq_true, bne_iff_ne, ne_eq]
      rintro x hx rfl
      exact hb hx
    · intro c hc
      rw [hs c hc]; rfl
  simp [hd]

/-- The lexer reads exactly what the grammar derives. -/
theorem has_iff {s : Text} {ts : List Token} : Has s ts ↔ Tokenizes s ts := by
  constructor
  · intro h
    induction h with
    | nil h => exact lexN_sound h (Nat.lt_succ_self _) (by simp) _ (fun _ => rfl) (fun h => absurd rfl h)
    | @cons s t r ts h hne _ ih =>
      exact lexN_sound h (Nat.lt_succ_self _) hne.2 _ (fun h => absurd h hne.1) (fun _ => ⟨ts, rfl, ih⟩)
  · intro h
    induction h with
    | nil => exact .nil lex_nil
    | space hc _ ih => exact ih.space hc
    | line h1 h2 h3 _ ih => exact ih.congr (lex_line_max h1 h2 h3)
    | @block b x s ts hb hx _ ih =>
      refine ih.congr ?_
      rw [List.append_assoc, lex_comment hb]
      congr 1
      rcases hx with hx | ⟨rfl, rfl⟩
      · match x, hx with
        | [a], _ => rfl
      · rfl
    | token ht _ ih => exact .cons (TokenAt.lex ht).1 (TokenAt.lex ht).2 ih

end
end TLex
end Pemdas
