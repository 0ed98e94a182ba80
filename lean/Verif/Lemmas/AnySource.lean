import Verif.Spec.AnySource
import Verif.Lemmas.AnyLex
import Verif.Lemmas.Placed
/-
Helper lemmas: the lexer reads exactly what the lexical grammar for all sources derives.
-/
namespace Pemdas
namespace GLex
open TLex (munch block str)
variable {src : Text}

theorem tx_iff {pre s x r y : Text} (h : unCR src = pre ++ s) (hs : s = x ++ r) :
    tx src s r = some y ↔ Found src pre x y := by
  subst hs
  have h1 : off src (x ++ r) = utf8Len pre := by
    unfold off; rw [h]; simp only [utf8Len_append]; omega
  have h2 : off src r = utf8Len pre + utf8Len x := by
    unfold off; rw [h]; simp only [utf8Len_append]; omega
  unfold tx
  rw [h1, h2, byteSlice_eq_some]
  constructor
  · rintro ⟨a, b, e, e1, e2⟩; exact ⟨a, b, e, e1, by omega⟩
  · rintro ⟨a, b, e, e1, e2⟩; exact ⟨a, b, e, e1, by omega⟩

theorem parseUsize_iff {y : Text} {n : Nat} : Lexer.parseUsize y = .ok n ↔
    ∃ ds, Signed isDigit10 y ds ∧ decValue ds < 2 ^ 64 ∧ n = decValue ds := by
  have loop : ∀ (s : Text) (acc n : Nat), acc < Lexer.usizeBound → Lexer.parseUsizeLoop s acc = .ok n →
      s.all isDigit10 = true := by
    intro s
    induction s with
    | nil => intros; rfl
    | cons c s ih =>
      intro acc n ha h
      unfold Lexer.parseUsizeLoop at h
      split at h
      · rename_i hc
        simp only at h
        split at h
        · rename_i hv; simp only [List.all_cons, hc, ih _ _ hv h, Bool.and_self]
        · cases h
      · cases h
  have pos : ∀ (s : Text) (n : Nat), s ≠ [] → Lexer.parseUsizeLoop s 0 = .ok n →
      s.all isDigit10 = true ∧ decValue s < 2 ^ 64 ∧ n = decValue s := by
    intro s n hne h
    have ha := loop s 0 n TLex.usizeBound_pos h
    have hp := TLex.parseUsize_eq ha hne
    have : Lexer.parseUsize s = Lexer.parseUsizeLoop s 0 := by
      cases s with
      | nil => exact absurd rfl hne
      | cons c s =>
        have : c ≠ '+' := TLex.isDigit10_ne_plus (by simp at ha; exact ha.1)
        unfold Lexer.parseUsize
        split
        · rename_i he; cases he
        · rename_i he; injection he with he; exact absurd he this
        · rename_i he; injection he with he; exact absurd he this
        · rfl
    rw [this, h] at hp
    by_cases hv : decValue s < Lexer.usizeBound
    · rw [if_pos hv] at hp
      injection hp with hp
      exact ⟨ha, hv, hp⟩
    · rw [if_neg hv] at hp; cases hp
  constructor
  · intro h
    unfold Lexer.parseUsize at h
    split at h
    · cases h
    · cases h
    · rename_i cs hne
      have hn : cs ≠ [] := by rintro rfl; exact hne rfl
      obtain ⟨h1, h2, h3⟩ := pos cs n hn h
      exact ⟨cs, ⟨.inr rfl, hn, h1⟩, h2, h3⟩
    · rename_i cs h0 h1 h2
      have hn : y ≠ [] := h0
      obtain ⟨h1, h2, h3⟩ := pos y n hn h
      exact ⟨y, ⟨.inl rfl, hn, h1⟩, h2, h3⟩
  · rintro ⟨ds, ⟨hy, hne, ha⟩, hv, rfl⟩
    have hp := TLex.parseUsize_eq ha hne
    rw [if_pos (show decValue ds < Lexer.usizeBound from hv)] at hp
    rcases hy with rfl | rfl
    · exact hp
    · rw [← hp]
      cases ds with
      | nil => exact absurd rfl hne
      | cons c s =>
        have : c ≠ '+' := TLex.isDigit10_ne_plus (by simp at ha; exact ha.1)
        unfold Lexer.parseUsize
        simp [this]

theorem fromHexStr_iff {y : Text} {n : Nat} : Lexer.fromHexStr y = some n ↔
    ∃ ds, Signed isHexDigit y ds ∧ n = hexValue ds := by
  unfold Lexer.fromHexStr Signed
  constructor
  · intro h
    split at h
    · rename_i cs
      simp only at h
      split at h
      · rename_i hc; injection h with h
        exact ⟨cs, ⟨.inr rfl, hc.1, hc.2⟩, by rw [← h, TLex.hexValue_eq hc.2]⟩
      · cases h
    · rename_i hne
      simp only at h
      split at h
      · rename_i hc; injection h with h
        exact ⟨y, ⟨.inl rfl, hc.1, hc.2⟩, by rw [← h, TLex.hexValue_eq hc.2]⟩
      · cases h
  · rintro ⟨ds, ⟨hy, hne, ha⟩, rfl⟩
    rw [← TLex.hexValue_eq ha]
    rcases hy with rfl | rfl
    · exact Lexer.fromHexStr_hex ha hne
    · simp only
      rw [if_pos ⟨hne, ha⟩]

variable [CharTables] [LawfulTables]

theorem word_iff {c : Char} {y : Text} {t : Token} : TLex.word c y = .ok t ↔
    ((t, y) ∈ keywordTokens ∨ y ∉ keywords ∧ isLowercase c = true ∧ t = .lower y) := by
  constructor
  · intro h
    unfold TLex.word Lexer.identifier at h
    split at h
    · rename_i hk; cases h; rw [hk]; left; decide
    split at h
    · rename_i hk; cases h; rw [hk]; left; decide
    split at h
    · rename_i hk; cases h; rw [hk]; left; decide
    split at h
    · rename_i hk; cases h; rw [hk]; left; decide
    split at h
    · rename_i hk; cases h; rw [hk]; left; decide
    split at h
    · rename_i hk; cases h; rw [hk]; left; decide
    rename_i k1 k2 k3 k4 k5 k6
    split at h
    · rename_i hl
      rw [LawfulTables.lower_not_upper c hl] at h
      cases h
      right
      refine ⟨?_, hl, rfl⟩
      simp only [keywords, List.mem_cons, List.not_mem_nil, or_false, not_or]
      exact ⟨k1, k2, k3, k4, k5, k6⟩
    · cases h
  · rintro (h | ⟨hk, hl, rfl⟩)
    · revert h
      simp only [keywordTokens, List.mem_cons, Prod.mk.injEq, List.not_mem_nil, or_false]
      rintro (⟨rfl, h⟩ | ⟨rfl, h⟩ | ⟨rfl, h⟩ | ⟨rfl, h⟩ | ⟨rfl, h⟩ | ⟨rfl, h⟩) <;> rw [h] <;> rfl
    · simp only [keywords, List.mem_cons, List.not_mem_nil, or_false, not_or] at hk
      unfold TLex.word Lexer.identifier
      simp only [hk, if_false]
      rw [if_pos hl, LawfulTables.lower_not_upper c hl]
      rfl

omit [CharTables] [LawfulTables] in
/-- What an operator is read as. -/
theorem operator_tok_iff {s r : Text} {t : Token} : operator src s = some (.tok t r) ↔
    r = (munch isInfixChar s).2 ∧ ∃ y, tx src s r = some y ∧ ((t, y) ∈ reservedSpellings ∨
      y ∉ reservedOps ∧ (y = t!"~" → r.head? ≠ some '{') ∧ t = .affix y false) := by
  unfold operator
  rw [Option.bind_eq_some_iff]
  constructor
  · rintro ⟨y, hy, h⟩
    split at h
    · rename_i hk
      split at h
      · rw [Option.map_eq_some_iff] at h; obtain ⟨_, _, h⟩ := h; cases h
      · rename_i hh
        cases h
        exact ⟨rfl, y, hy, .inr ⟨by rw [hk]; decide, fun _ => hh, by rw [hk]⟩⟩
    rename_i k1
    split at h
    · cases h
    rename_i k2
    split at h
    · rename_i hk; cases h; refine ⟨rfl, y, hy, .inl ?_⟩; rcases hk with rfl | rfl <;> decide
    rename_i k3
    split at h
    · rename_i hk; cases h; refine ⟨rfl, y, hy, .inl ?_⟩; rw [hk]; decide
    rename_i k4
    split at h
    · rename_i hk; cases h; refine ⟨rfl, y, hy, .inl ?_⟩
      rcases hk with rfl | rfl | rfl | rfl | rfl <;> decide
    rename_i k5
    split at h
    · rename_i hk; cases h; refine ⟨rfl, y, hy, .inl ?_⟩; rw [hk]; decide
    rename_i k6
    cases h
    refine ⟨rfl, y, hy, .inr ⟨?_, fun h => absurd h k1, rfl⟩⟩
    simp only [reservedOps, List.mem_cons, List.not_mem_nil, or_false, not_or]
    simp only [not_or] at k3 k5
    exact ⟨k2, k3.1, k3.2, k4, k5.1, k5.2.1, k5.2.2.1, k5.2.2.2.1, k5.2.2.2.2, k6⟩
  · rintro ⟨rfl, y, hy, h⟩
    refine ⟨y, hy, ?_⟩
    rcases h with h | ⟨hk, hb, rfl⟩
    · revert h
      simp only [reservedSpellings, List.mem_cons, Prod.mk.injEq, List.not_mem_nil, or_false]
      rintro (⟨rfl, h⟩ | ⟨rfl, h⟩ | ⟨rfl, h⟩ | ⟨rfl, h⟩ | ⟨rfl, h⟩ | ⟨rfl, h⟩ | ⟨rfl, h⟩ | ⟨rfl, h⟩ |
        ⟨rfl, h⟩) <;> rw [h] <;> rfl
    · simp only [reservedOps, List.mem_cons, List.not_mem_nil, or_false, not_or] at hk
      simp only [hk, if_false, or_false]
      split
      · rename_i h1
        rw [if_neg (hb h1), h1]
      · rfl

omit [CharTables] [LawfulTables] in
theorem operator_skipped_iff {s r : Text} : operator src s = some (.skipped r) ↔
    ∃ y, tx src s (munch isInfixChar s).2 = some y ∧
      ((y = t!"~" ∧ (munch isInfixChar s).2.head? = some '{' ∧
        ∃ r', block (munch isInfixChar s).2.tail 1 = some r' ∧ r = r'.tail) ∨
      (y = t!"~~" ∧ r = (munch isInfixChar s).2.dropWhile (· != '\n'))) := by
  unfold operator
  rw [Option.bind_eq_some_iff]
  constructor
  · rintro ⟨y, hy, h⟩
    refine ⟨y, hy, ?_⟩
    split at h
    · rename_i hk
      split at h
      · rename_i hh
        rw [Option.map_eq_some_iff] at h
        obtain ⟨r', h1, h⟩ := h
        cases h
        exact .inl ⟨hk, hh, r', h1, rfl⟩
      · cases h
    split at h
    · rename_i hk; cases h; exact .inr ⟨hk, rfl⟩
    · repeat' split at h
      all_goals cases h
  · rintro ⟨y, hy, h⟩
    refine ⟨y, hy, ?_⟩
    rcases h with ⟨rfl, hh, r', h1, rfl⟩ | ⟨rfl, rfl⟩
    · rw [if_pos rfl, if_pos hh, h1]; rfl
    · rfl

omit [CharTables] [LawfulTables] in
theorem munch_cons_eq {p : Char → Bool} {c : Char} (hc : p c = true) (cs : Text) :
    ∃ x, (munch p (c :: cs)).1 = c :: x ∧ Shape p x ∧ c :: cs = c :: x ++ (munch p (c :: cs)).2 ∧
      Maximal p (c :: x) (munch p (c :: cs)).2 := by
  have hx : ∃ y, (munch p (c :: cs)).1 = c :: y := by
    rw [TLex.munch_cons hc]; exact ⟨_, rfl⟩
  obtain ⟨x, hx⟩ := hx
  have hs := TLex.munch_shape p (c :: cs)
  have hm := TLex.maximal_munch p (c :: cs)
  have ha := Lexer.munch_append p (c :: cs)
  rw [hx] at hs hm
  refine ⟨x, hx, (TLex.Shape.cons hc).1 hs, ?_, hm⟩
  rw [hx] at ha
  exact ha

/-! ### what is read -/

omit [LawfulTables] in
theorem lex_tok {c : Char} {s r : Text} {t : Token} (hw : isWhitespace c = false)
    (h : dispatch src (c :: s) c = some (.tok t r)) : lex src (c :: s) = some (t, r) := by
  rw [lex_cons hw, h]

theorem dispatch_infix {c : Char} (s : Text) (h : isInfixChar c = true) :
    dispatch src s c = operator src s := by
  have hm : c ∈ infixChars := by simpa [isInfixChar] using h
  have h1 : c.toNat < 128 ∧ (c == '_' || (asciiUpper c || asciiLower c)) = false ∧
      isDigit10 c = false ∧ c ≠ ';' ∧ c ≠ '\'' ∧ c ≠ '"' ∧ c ≠ '`' ∧ c ≠ '(' ∧ c ≠ ')' ∧ c ≠ '[' ∧
      c ≠ ']' ∧ c ≠ '{' ∧ c ≠ '}' ∧ c ≠ ',' := by
    revert hm; clear h; revert c; decide
  obtain ⟨ha, hid, hdg, h1, h2, h3, h4, h5, h6, h7, h8, h9, h10, h11⟩ := h1
  rw [← TLex.ascii_identStart ha] at hid
  simp [dispatch, hid, hdg, h1, h2, h3, h4, h5, h6, h7, h8, h9, h10, h11, h]

theorem dispatch_ident {c : Char} (s : Text) (h : isIdentStart c = true) :
    dispatch src s c = (ident src c s).map .of := by
  have ne : ∀ d : Char, d.toNat < 128 → (d == '_' || (asciiUpper d || asciiLower d)) = false → c ≠ d :=
    fun d h1 h2 => TLex.identStart_ne h h1 h2
  unfold dispatch
  rw [if_neg (ne _ (by decide) (by decide)), if_neg (ne _ (by decide) (by decide)),
    if_neg (ne _ (by decide) (by decide)), if_neg (by rw [TLex.identStart_not_digit h]; decide),
    if_neg (ne _ (by decide) (by decide)), if_pos h]

omit [LawfulTables] in
theorem digit_dispatch {d : Char} (s : Text) (h : isDigit10 d = true) :
    dispatch src s d = (number src s).map .of ∧ isWhitespace d = false := by
  have hnat : 48 ≤ d.toNat ∧ d.toNat ≤ 57 := by simpa [isDigit10, toNat_le_iff] using h
  constructor
  · unfold dispatch
    have e1 : d ≠ ';' := by rintro rfl; revert h; decide
    have e2 : d ≠ '\'' := by rintro rfl; revert h; decide
    have e3 : d ≠ '"' := by rintro rfl; revert h; decide
    rw [if_neg e1, if_neg e2, if_neg e3, if_pos h]
  · unfold isWhitespace
    simp only [Bool.or_eq_false_iff, Bool.and_eq_false_iff, decide_eq_false_iff_not, beq_eq_false_iff_ne]
    omega

omit [LawfulTables] in
theorem lex_of {c : Char} {s r : Text} {t : Token} {x : Option (Token × Text)}
    (hw : isWhitespace c = false) (hd : dispatch src (c :: s) c = x.map .of)
    (h : x = some (t, r)) : lex src (c :: s) = some (t, r) := by
  apply lex_tok hw
  rw [hd, h]; rfl

omit [LawfulTables] in
theorem lex_quote {s r : Text} {t : Token} (h : charLit src ('\'' :: s) = some (t, r)) :
    lex src ('\'' :: s) = some (t, r) := by
  refine lex_of (by decide) ?_ h
  unfold dispatch
  rw [if_neg (by decide), if_pos rfl]

omit [CharTables] [LawfulTables] in
theorem lex_run {c : Char} {x r : Text} (hc : isInfixChar c = true) (hx : Shape isInfixChar x)
    (hm : Maximal isInfixChar (c :: x) r) : munch isInfixChar (c :: (x ++ r)) = (c :: x, r) :=
  TLex.munch_max ((TLex.Shape.cons hc).2 hx) hm

theorem punct_lex {c : Char} {t : Token} (s : Text) (h : (t, c) ∈ punctuation) :
    lex src (c :: s) = some (t, s) := by
  have key : ∀ x ∈ punctuation, x.2.toNat < 128 ∧
      (x.2 == '_' || (asciiUpper x.2 || asciiLower x.2)) = false ∧ isWhitespace x.2 = false := by
    decide
  obtain ⟨h1, h2, h3⟩ := key _ h
  have hid : isIdentStart c = false := by rw [TLex.ascii_identStart h1, h2]
  apply lex_tok h3
  unfold dispatch
  rw [hid]
  revert h; simp only [punctuation, List.mem_cons, Prod.mk.injEq, List.not_mem_nil, or_false]
  rintro (⟨rfl, rfl⟩ | ⟨rfl, rfl⟩ | ⟨rfl, rfl⟩ | ⟨rfl, rfl⟩ | ⟨rfl, rfl⟩ | ⟨rfl, rfl⟩ | ⟨rfl, rfl⟩ |
    ⟨rfl, rfl⟩) <;> rfl

theorem TokenIn.lex {pre : Text} {t : Token} {w rest : Text} (hp : unCR src = pre ++ (w ++ rest))
    (h : TokenIn src pre t w rest) :
    lex src (w ++ rest) = some (t, rest) ∧ t ≠ .eof ∧ ∀ e, t ≠ .error e := by
  cases h with
  | punct h =>
    refine ⟨punct_lex _ h, ?_⟩
    revert h
    simp only [punctuation, List.mem_cons, Prod.mk.injEq, List.not_mem_nil, or_false]
    rintro (⟨rfl, _⟩ | ⟨rfl, _⟩ | ⟨rfl, _⟩ | ⟨rfl, _⟩ | ⟨rfl, _⟩ | ⟨rfl, _⟩ | ⟨rfl, _⟩ | ⟨rfl, _⟩) <;> simp
  | @word _ c x y _ hc hx hm hf hy =>
    have hmu := TLex.munch_max ((TLex.Shape.cons (Lexer.isIdentStart_identChar hc)).2 hx) hm
    refine ⟨?_, ?_⟩
    · rw [List.cons_append]
      refine lex_of (TLex.identStart_not_ws hc) (dispatch_ident _ hc) ?_
      unfold ident
      rw [← List.cons_append, hmu, (tx_iff hp rfl).2 hf]
      simp only [Option.bind, word_iff.2 hy]
    · rcases hy with hy | ⟨_, _, rfl⟩
      · revert hy
        simp only [keywordTokens, List.mem_cons, Prod.mk.injEq, List.not_mem_nil, or_false]
        rintro (⟨rfl, _⟩ | ⟨rfl, _⟩ | ⟨rfl, _⟩ | ⟨rfl, _⟩ | ⟨rfl, _⟩ | ⟨rfl, _⟩) <;> simp
      · simp
  | @op _ c x y _ hc hx hm hf hy =>
    have hmu := lex_run hc hx hm
    refine ⟨lex_tok (TLex.infix_not_ws hc) ?_, ?_⟩
    · rw [dispatch_infix _ hc]
      exact operator_tok_iff.2 ⟨by simp [hmu], y, (tx_iff hp rfl).2 hf, hy⟩
    · rcases hy with hy | ⟨_, _, rfl⟩
      · revert hy
        simp only [reservedSpellings, List.mem_cons, Prod.mk.injEq, List.not_mem_nil, or_false]
        rintro (⟨rfl, _⟩ | ⟨rfl, _⟩ | ⟨rfl, _⟩ | ⟨rfl, _⟩ | ⟨rfl, _⟩ | ⟨rfl, _⟩ | ⟨rfl, _⟩ | ⟨rfl, _⟩ |
          ⟨rfl, _⟩) <;> simp
      · simp
  | @backticks x y _ hx hf =>
    refine ⟨?_, by simp⟩
    obtain ⟨c, z, rfl, hid, hz⟩ := hx
    have hm := TLex.munch_eq (r := '`' :: rest) hz (by
      intro d hd
      have : d = '`' := by simpa using hd.symm
      subst this
      rw [TLex.ascii_identChar (by decide)]; decide)
    have hd : dispatch src ('`' :: (c :: z ++ t!"`" ++ rest)) '`' =
        (backtick src ('`' :: (c :: z ++ t!"`" ++ rest))).map .of := by
      unfold dispatch
      rw [if_neg (by decide), if_neg (by decide), if_neg (by decide), if_neg (by decide), if_pos rfl]
    refine lex_of (by decide) hd ?_
    have htx := (tx_iff (src := src) (pre := pre ++ t!"`") (s := c :: (z ++ ('`' :: rest))) (x := c :: z)
      (r := '`' :: rest) (y := y) (by rw [hp]; simp) (by simp)).2 hf
    unfold backtick
    simp only [List.tail_cons, List.cons_append, List.append_assoc, List.nil_append,
      List.head?_cons, Option.any_some, hid, if_true, hm, htx, Option.bind]
  | @apostrophe x y _ hx hm hs hf =>
    refine ⟨?_, by simp⟩
    obtain ⟨c, z, rfl, hid, hz⟩ := hx
    have ne : ∀ d : Char, d.toNat < 128 → (d == '_' || (asciiUpper d || asciiLower d)) = false → c ≠ d :=
      fun d h1 h2 => TLex.identStart_ne hid h1 h2
    have h1 := ne '\'' (by decide) (by decide)
    have h2 := ne '\\' (by decide) (by decide)
    have h3 := ne '\x00' (by decide) (by decide)
    have hci : isIdentChar c = true := Lexer.isIdentStart_identChar hid
    have hmu := TLex.munch_max (r := rest) hz fun d hd hs => hm d hd ((TLex.Shape.cons hci).2 hs)
    simp only [List.tail_cons] at hs
    have h4 : (z ++ rest).head? ≠ some '\'' := fun he => (hs '\'' (by rw [he]; rfl)).1 rfl
    have h5 : (z ++ rest).head?.any isWhitespace = false := by
      cases he : (z ++ rest).head? with
      | none => rfl
      | some d => rw [he] at hs; exact (hs d rfl).2
    have htx := (tx_iff (src := src) (pre := pre ++ t!"'") (s := c :: (z ++ rest)) (x := c :: z)
      (r := rest) (y := y) (by rw [hp]; simp) (by simp)).2 hf
    rw [List.cons_append, List.cons_append]
    apply lex_quote
    unfold charLit
    simp only [List.tail_cons, List.headD_cons, if_neg h1, if_neg h2, if_neg h3,
      if_neg h4, h5, hid, if_true, hmu, htx, Option.map]
    rfl
  | @blank c v y _ hc hv hf =>
    refine ⟨?_, by simp⟩
    simp only [List.mem_cons, List.not_mem_nil, or_false, not_or] at hc
    obtain ⟨h1, h2, h3⟩ := hc
    have hq : v ≠ '\'' := by rintro rfl; revert hv; decide
    have htx := (tx_iff (src := src) (pre := pre ++ t!"'") (s := c :: v :: rest) (x := [c, v])
      (r := rest) (y := y) (by rw [hp]; simp) (by simp)).2 hf
    simp only [List.cons_append, List.nil_append]
    apply lex_quote
    unfold charLit
    simp [h1, h2, h3, hq, hv, htx]
  | @int _ y ds _ hne hd hr hf hy hv =>
    refine ⟨?_, by simp⟩
    obtain ⟨h1, h2⟩ := TLex.takeWhile_append_stop hd hr
    obtain ⟨d, es, rfl⟩ : ∃ d es, w = d :: es := by
      cases w with
      | nil => exact absurd rfl hne
      | cons d es => exact ⟨d, es, rfl⟩
    have hdig : isDigit10 d = true := by simp at hd; exact hd.1
    obtain ⟨hdis, hnws⟩ := digit_dispatch (src := src) (d :: (es ++ rest)) hdig
    refine lex_of hnws hdis ?_
    unfold number
    rw [← List.cons_append, h2, (tx_iff hp rfl).2 hf]
    simp only [Option.bind, parseUsize_iff.2 ⟨ds, hy, hv, rfl⟩]
  | char hc =>
    refine ⟨?_, by simp⟩
    simp only [List.mem_cons, List.not_mem_nil, or_false, not_or] at hc
    simp only [List.cons_append, List.nil_append]
    apply lex_quote
    unfold charLit
    simp [hc]
  | @charEscape c _ _ hc =>
    refine ⟨?_, by simp⟩
    obtain ⟨h1, rfl⟩ := TLex.escapes_iff.1 hc
    have hu : ¬ (c = 'u' ∨ c = 'U') := by
      rintro (rfl | rfl) <;> revert h1 <;> decide
    simp only [List.cons_append, List.nil_append]
    apply lex_quote
    unfold charLit charEscape
    simp [h1, hu]
  | @charCode u c plus x y ds l _ hu hpl hne hd hl hf hy hv hx =>
    refine ⟨?_, by simp⟩
    obtain ⟨e, es, rfl⟩ : ∃ e es, x = e :: es := by
      cases x with
      | nil => exact absurd rfl hne
      | cons e es => exact ⟨e, es, rfl⟩
    have he : isHexDigit e = true := by simp at hd; exact hd.1
    have he' : e ≠ '+' := by rintro rfl; revert he; decide
    obtain ⟨h1, h2⟩ := TLex.takeWhile_append_stop (r := '\'' :: (l ++ rest)) hd (by simp; decide)
    have ht : (l ++ rest).tail = rest := by
      rcases hx with hx | ⟨rfl, rfl⟩
      · match l, hx with
        | [a], _ => rfl
      · rfl
    have htx := (tx_iff (src := src) (pre := pre ++ ('\'' :: '\\' :: u :: plus))
      (s := e :: es ++ '\'' :: (l ++ rest)) (x := e :: es) (r := '\'' :: (l ++ rest)) (y := y)
      (by rw [hp]; simp) rfl).2 hf
    have hplus : (if (plus ++ (e :: es ++ '\'' :: (l ++ rest))).head? = some '+' then
        (plus ++ (e :: es ++ '\'' :: (l ++ rest))).tail else plus ++ (e :: es ++ '\'' :: (l ++ rest))) =
        e :: es ++ '\'' :: (l ++ rest) := by
      simp only [List.mem_cons, List.not_mem_nil, or_false] at hpl
      rcases hpl with rfl | rfl
      · simp [he']
      · simp
    have key : unicode src (u :: (plus ++ (e :: es ++ '\'' :: (l ++ rest)))) =
        some (.lit (.char c), rest) := by
      unfold unicode
      simp only
      rw [show (if (u :: (plus ++ (e :: es ++ '\'' :: (l ++ rest)))).tail.head? = some '+' then
        (u :: (plus ++ (e :: es ++ '\'' :: (l ++ rest)))).tail.tail else
          (u :: (plus ++ (e :: es ++ '\'' :: (l ++ rest)))).tail) = _ from hplus]
      simp only [h1, h2, htx, List.head?_cons, if_true, hl, Option.bind,
        fromHexStr_iff.2 ⟨ds, hy, rfl⟩, TLex.charFromU32_iff.2 hv, Option.map, List.tail_cons, ht]
      simp [he]
    have e : '\'' :: '\\' :: u :: (plus ++ (e :: es) ++ '\'' :: l) ++ rest =
        '\'' :: '\\' :: u :: (plus ++ (e :: es ++ '\'' :: (l ++ rest))) := by simp
    rw [e]
    apply lex_quote
    have hu' : u = 'u' ∨ u = 'U' := by simpa using hu
    unfold charLit charEscape
    simp only [List.tail_cons, List.headD_cons, hu', if_true, key]
    rfl
  | str hb =>
    refine ⟨?_, by simp⟩
    rw [List.cons_append]
    have hd : ∀ s, dispatch src ('"' :: s) '"' = (string ('"' :: s)).map .of := by
      intro s
      unfold dispatch
      rw [if_neg (by decide), if_neg (by decide), if_pos rfl]
    refine lex_of (by decide) (hd _) ?_
    rw [List.append_assoc]
    unfold string
    simp only [List.tail_cons, List.cons_append, List.nil_append]
    rw [TLex.str_body hb (by simp; omega)]
    simp

/-! ### soundness -/

omit [LawfulTables] in
theorem number_sound {pre : Text} {c : Char} {cs r : Text} {t : Token} (hp : unCR src = pre ++ c :: cs)
    (hc : isDigit10 c = true) (h : number src (c :: cs) = some (t, r)) :
    ∃ w, c :: cs = w ++ r ∧ TokenIn src pre t w r := by
  unfold number at h
  rw [Option.bind_eq_some_iff] at h
  obtain ⟨y, hy, h⟩ := h
  split at h
  · rename_i n hn
    obtain ⟨ds, h1, h2, rfl⟩ := parseUsize_iff.1 hn
    simp only [Option.some.injEq, Prod.mk.injEq] at h
    obtain ⟨rfl, rfl⟩ := h
    have hall := Lexer.all_takeWhile isDigit10 (c :: cs)
    have hn : (c :: cs).takeWhile isDigit10 ≠ [] := by simp [hc]
    have happ : c :: cs = (c :: cs).takeWhile isDigit10 ++ (c :: cs).dropWhile isDigit10 :=
      List.takeWhile_append_dropWhile.symm
    refine ⟨_, happ, .int hn hall ?_ ((tx_iff hp happ).1 hy) h1 h2⟩
    intro d hd
    cases hr : (c :: cs).dropWhile isDigit10 with
    | nil => rw [hr] at hd; simp at hd
    | cons e es =>
      rw [hr] at hd
      have : e = d := by simpa using hd
      subst this
      exact TLex.head_dropWhile hr
  · cases h

omit [LawfulTables] in
theorem string_sound {pre cs r : Text} {t : Token} (h : string ('"' :: cs) = some (t, r)) :
    ∃ w, '"' :: cs = w ++ r ∧ TokenIn src pre t w r := by
  unfold string at h
  split at h
  · rename_i buf r' hs
    simp only [Option.some.injEq, Prod.mk.injEq] at h
    obtain ⟨rfl, rfl⟩ := h
    obtain ⟨w, v, hw, hv, hb⟩ := TLex.str_sound hs
    rw [List.nil_append] at hv
    subst hv
    simp only [List.tail_cons] at hw
    exact ⟨_, by rw [hw]; simp, .str hb⟩
  · cases h

omit [LawfulTables] in
theorem backtick_sound {pre cs r : Text} {t : Token} (hp : unCR src = pre ++ '`' :: cs)
    (h : backtick src ('`' :: cs) = some (t, r)) : ∃ w, '`' :: cs = w ++ r ∧ TokenIn src pre t w r := by
  unfold backtick at h
  simp only at h
  split at h
  · rename_i hid
    simp only [List.tail_cons] at hid
    obtain ⟨d, ds, rfl⟩ : ∃ d ds, cs = d :: ds := by
      cases cs with
      | nil => simp at hid
      | cons d ds => exact ⟨d, ds, rfl⟩
    rw [Option.bind_eq_some_iff] at h
    obtain ⟨y, hy, h⟩ := h
    split at h
    · rename_i hq
      simp only [List.tail_cons] at h hq hy
      simp only [Option.some.injEq, Prod.mk.injEq] at h
      obtain ⟨rfl, rfl⟩ := h
      have hm := Lexer.munch_append isIdentChar ds
      have hms := TLex.head_some hq
      have hf := (tx_iff (src := src) (pre := pre ++ t!"`") (s := d :: ds)
        (x := d :: (munch isIdentChar ds).1) (r := (munch isIdentChar ds).2) (y := y) (by rw [hp]; simp)
        (by rw [List.cons_append, ← hm])).1 hy
      refine ⟨_, ?_, .backticks ⟨d, _, rfl, by simpa using hid, TLex.munch_shape isIdentChar ds⟩ hf⟩
      simp only [List.cons_append, List.nil_append, List.append_assoc]
      rw [← hms, ← hm]
    · cases h
  · cases h

omit [LawfulTables] in
theorem unicode_sound {pre : Text} {u : Char} {s r : Text} {t : Token} (hu : u = 'u' ∨ u = 'U')
    (hpre : unCR src = pre ++ '\'' :: '\\' :: u :: s) (h : unicode src (u :: s) = some (t, r)) :
    ∃ w, '\'' :: '\\' :: u :: s = w ++ r ∧ TokenIn src pre t w r := by
  unfold unicode at h
  simp only at h
  obtain ⟨plus, s', hs, hp, hs'⟩ : ∃ plus s', s = plus ++ s' ∧ plus ∈ [[], t!"+"] ∧
      (if (u :: s).tail.head? = some '+' then (u :: s).tail.tail else (u :: s).tail) = s' := by
    by_cases hh : s.head? = some '+'
    · exact ⟨t!"+", s.tail, TLex.head_some hh, by simp, if_pos hh⟩
    · exact ⟨[], s, rfl, by simp, if_neg hh⟩
  rw [hs'] at h
  split at h
  · rename_i hx
    split at h
    · rename_i hq
      have hall := Lexer.all_takeWhile isHexDigit s'
      have hn : s'.takeWhile isHexDigit ≠ [] := by
        cases s' with
        | nil => simp at hq
        | cons a b => simp at hx; simp [hx]
      split at h
      · rename_i hl
        rw [Option.bind_eq_some_iff] at h
        obtain ⟨y, hy, h⟩ := h
        rw [Option.bind_eq_some_iff] at h
        obtain ⟨n, hn', h⟩ := h
        rw [Option.map_eq_some_iff] at h
        obtain ⟨c, hc, h⟩ := h
        simp only [Prod.mk.injEq] at h
        obtain ⟨rfl, rfl⟩ := h
        obtain ⟨ds, hds, rfl⟩ := fromHexStr_iff.1 hn'
        obtain ⟨x, hx1, hx2⟩ := TLex.lost_tail (s'.dropWhile isHexDigit).tail
        have hf := (tx_iff (src := src) (pre := pre ++ ('\'' :: '\\' :: u :: plus)) (s := s')
          (x := s'.takeWhile isHexDigit) (r := s'.dropWhile isHexDigit) (y := y)
          (by rw [hpre, hs]; simp) List.takeWhile_append_dropWhile.symm).1 hy
        refine ⟨_, ?_, .charCode (by simpa using hu) hp hn hall hl hf hds (TLex.charFromU32_iff.1 hc) hx2⟩
        simp only [List.cons_append, List.append_assoc]
        rw [← hx1, ← TLex.head_some hq, List.takeWhile_append_dropWhile, ← hs]
      · cases h
    · cases h
  · cases h

omit [LawfulTables] in
theorem charEscape_sound {pre s r : Text} {t : Token} (hpre : unCR src = pre ++ '\'' :: '\\' :: s)
    (h : charEscape src s = some (t, r)) : ∃ w, '\'' :: '\\' :: s = w ++ r ∧ TokenIn src pre t w r := by
  unfold charEscape at h
  split at h
  · rename_i c cs
    split at h
    · rename_i hu; exact unicode_sound hu hpre h
    · split at h
      · rename_i he
        split at h
        · rename_i hq
          simp only [List.tail_cons, Option.some.injEq, Prod.mk.injEq] at h hq
          obtain ⟨rfl, rfl⟩ := h
          refine ⟨_, ?_, .charEscape (TLex.escapes_iff.2 ⟨he, rfl⟩)⟩
          simp only [List.cons_append, List.nil_append]
          rw [← TLex.head_some hq]
        · cases h
      · cases h
  · cases h

theorem charLit_sound {pre cs r : Text} {t : Token} (hp : unCR src = pre ++ '\'' :: cs)
    (h : charLit src ('\'' :: cs) = some (t, r)) : ∃ w, '\'' :: cs = w ++ r ∧ TokenIn src pre t w r := by
  unfold charLit at h
  simp only at h
  split at h
  · cases h
  rename_i h1
  split at h
  · rename_i h2
    simp only [List.tail_cons] at h2 h
    have : cs = '\\' :: cs.tail := by
      cases cs with
      | nil => revert h2; simp
      | cons d ds => simp at h2; rw [h2]; rfl
    rw [this] at hp ⊢
    exact charEscape_sound hp h
  rename_i h2
  split at h
  · cases h
  rename_i h3
  simp only [List.tail_cons] at h1 h2 h3
  obtain ⟨d, ds, rfl⟩ : ∃ d ds, cs = d :: ds := by
    cases cs with
    | nil => simp at h3
    | cons d ds => exact ⟨d, ds, rfl⟩
  simp only [List.headD_cons] at h1 h2 h3
  have hd : d ∉ t!"'\\\x00" := by simp [h1, h2, h3]
  split at h
  · rename_i hq
    simp only [List.tail_cons, List.headD_cons, Option.some.injEq, Prod.mk.injEq] at h hq
    obtain ⟨rfl, rfl⟩ := h
    exact ⟨_, by simp only [List.cons_append, List.nil_append]; rw [← TLex.head_some hq], .char hd⟩
  rename_i hq
  split at h
  · rename_i hw
    simp only [List.tail_cons] at hw h
    rw [Option.map_eq_some_iff] at h
    obtain ⟨y, hy, h⟩ := h
    simp only [Prod.mk.injEq] at h
    obtain ⟨rfl, rfl⟩ := h
    cases ds with
    | nil => simp at hw
    | cons w ws =>
      exact ⟨_, rfl, .blank hd (by simpa using hw)
        ((tx_iff (src := src) (pre := pre ++ t!"'") (x := [d, w]) (by rw [hp]; simp) rfl).1 hy)⟩
  rename_i hw
  split at h
  · rename_i hid
    simp only [List.tail_cons, List.headD_cons] at hw h hq hid
    rw [Option.map_eq_some_iff] at h
    obtain ⟨y, hy, h⟩ := h
    simp only [Prod.mk.injEq] at h
    obtain ⟨rfl, rfl⟩ := h
    have hm := Lexer.munch_append isIdentChar ds
    have hf := (tx_iff (src := src) (pre := pre ++ t!"'") (s := d :: ds)
      (x := d :: (munch isIdentChar ds).1) (r := (munch isIdentChar ds).2) (y := y) (by rw [hp]; simp)
      (by rw [List.cons_append, ← hm])).1 hy
    refine ⟨'\'' :: d :: (munch isIdentChar ds).1, ?_,
      .apostrophe ⟨d, _, rfl, hid, TLex.munch_shape _ _⟩ ?_ ?_ hf⟩
    · simp only [List.cons_append]; rw [← hm]
    · intro c hc hs
      exact TLex.maximal_munch isIdentChar ds c hc
        ((TLex.Shape.cons (Lexer.isIdentStart_identChar hid)).1 hs)
    · rw [List.tail_cons, ← hm]
      intro c hc
      constructor
      · rintro rfl; exact hq hc
      · cases hds : ds.head? with
        | none => rw [hds] at hc; cases hc
        | some e =>
          rw [hds] at hc hw
          have : e = c := by simpa using hc
          subst this
          simpa using hw
  · cases h

theorem ident_sound {pre : Text} {c : Char} {cs r : Text} {t : Token} (hp : unCR src = pre ++ c :: cs)
    (hc : isIdentStart c = true) (h : ident src c (c :: cs) = some (t, r)) :
    ∃ w, c :: cs = w ++ r ∧ TokenIn src pre t w r := by
  unfold ident at h
  rw [Option.bind_eq_some_iff] at h
  obtain ⟨y, hy, h⟩ := h
  split at h
  · rename_i t' hw
    simp only [Option.some.injEq, Prod.mk.injEq] at h
    obtain ⟨rfl, rfl⟩ := h
    obtain ⟨x, _, hs, ha, hm⟩ := munch_cons_eq (Lexer.isIdentStart_identChar hc) cs
    exact ⟨_, ha, .word hc hs hm ((tx_iff hp ha).1 hy) (word_iff.1 hw)⟩
  · cases h

theorem dispatch_sound {pre : Text} {c : Char} {cs r : Text} {t : Token}
    (hp : unCR src = pre ++ c :: cs) (h : dispatch src (c :: cs) c = some (.tok t r)) :
    ∃ w, c :: cs = w ++ r ∧ TokenIn src pre t w r := by
  have of : ∀ {x : Option (Token × Text)}, x.map R.of = some (.tok t r) → x = some (t, r) := by
    intro x hx
    cases x with
    | none => cases hx
    | some x => cases hx; rfl
  unfold dispatch at h
  by_cases hc : c = ';'
  · rw [if_pos hc] at h; cases h; subst hc; exact ⟨_, rfl, .punct (by decide)⟩
  rw [if_neg hc] at h; clear hc
  by_cases hc : c = '\''
  · rw [if_pos hc] at h; subst hc; exact charLit_sound hp (of h)
  rw [if_neg hc] at h; clear hc
  by_cases hc : c = '"'
  · rw [if_pos hc] at h; subst hc; exact string_sound (of h)
  rw [if_neg hc] at h; clear hc
  by_cases hc : isDigit10 c = true
  · rw [if_pos hc] at h; exact number_sound hp hc (of h)
  rw [if_neg hc] at h; clear hc
  by_cases hc : c = '`'
  · rw [if_pos hc] at h; subst hc; exact backtick_sound hp (of h)
  rw [if_neg hc] at h; clear hc
  by_cases hc : isIdentStart c = true
  · rw [if_pos hc] at h; exact ident_sound hp hc (of h)
  rw [if_neg hc] at h; clear hc
  by_cases hc : c = '('
  · rw [if_pos hc] at h; cases h; subst hc; exact ⟨_, rfl, .punct (by decide)⟩
  rw [if_neg hc] at h; clear hc
  by_cases hc : c = ')'
  · rw [if_pos hc] at h; cases h; subst hc; exact ⟨_, rfl, .punct (by decide)⟩
  rw [if_neg hc] at h; clear hc
  by_cases hc : c = '['
  · rw [if_pos hc] at h; cases h; subst hc; exact ⟨_, rfl, .punct (by decide)⟩
  rw [if_neg hc] at h; clear hc
  by_cases hc : c = ']'
  · rw [if_pos hc] at h; cases h; subst hc; exact ⟨_, rfl, .punct (by decide)⟩
  rw [if_neg hc] at h; clear hc
  by_cases hc : c = '{'
  · rw [if_pos hc] at h; cases h; subst hc; exact ⟨_, rfl, .punct (by decide)⟩
  rw [if_neg hc] at h; clear hc
  by_cases hc : c = '}'
  · rw [if_pos hc] at h; cases h; subst hc; exact ⟨_, rfl, .punct (by decide)⟩
  rw [if_neg hc] at h; clear hc
  by_cases hc : c = ','
  · rw [if_pos hc] at h; cases h; subst hc; exact ⟨_, rfl, .punct (by decide)⟩
  rw [if_neg hc] at h; clear hc
  by_cases hc : isInfixChar c = true
  · rw [if_pos hc] at h
    obtain ⟨rfl, y, hy, hz⟩ := operator_tok_iff.1 h
    obtain ⟨x, _, hs, ha, hm⟩ := munch_cons_eq hc cs
    exact ⟨_, ha, .op hc hs hm ((tx_iff hp ha).1 hy) hz⟩
  rw [if_neg hc] at h; clear hc
  cases h

omit [CharTables] [LawfulTables] in
theorem operator_skips {pre : Text} {c : Char} {cs r : Text} (hp : unCR src = pre ++ c :: cs)
    (hc : isInfixChar c = true) (h : operator src (c :: cs) = some (.skipped r)) :
    (∃ x b, c :: cs = c :: x ++ b ++ r ∧ Shape isInfixChar x ∧ Maximal isInfixChar (c :: x) (b ++ r) ∧
      Found src pre (c :: x) t!"~~" ∧ '\n' ∉ b ∧ ∀ d ∈ r.head?, d = '\n') ∨
    ∃ x b l, c :: cs = c :: x ++ t!"{" ++ b ++ t!"}~" ++ l ++ r ∧ Shape isInfixChar x ∧
      Found src pre (c :: x) t!"~" ∧ CommentBody b ∧ Lost l r := by
  obtain ⟨x, _, hs, ha, hm⟩ := munch_cons_eq hc cs
  obtain ⟨y, hy, h⟩ := operator_skipped_iff.1 h
  rw [tx_iff hp ha] at hy
  rcases h with ⟨rfl, hh, r', h1, rfl⟩ | ⟨rfl, rfl⟩
  · obtain ⟨b, s', hb, h2, h3⟩ := TLex.block_some h1
    simp only [block, Option.some.injEq] at h3
    subst h3
    obtain ⟨l, hl1, hl2⟩ := TLex.lost_tail s'
    refine .inr ⟨x, b, l, ?_, hs, hy, hb, hl2⟩
    rw [ha, TLex.head_some hh, h2]
    simp only [List.append_assoc, List.cons_append, List.nil_append]
    rw [← hl1]
  · refine .inl ⟨x, (munch isInfixChar (c :: cs)).2.takeWhile (· != '\n'), ?_, hs, ?_, hy, ?_, ?_⟩
    · rw [List.append_assoc, List.takeWhile_append_dropWhile, ← ha]
    · rw [List.takeWhile_append_dropWhile]; exact hm
    · intro hm
      have := List.all_eq_true.1 (Lexer.all_takeWhile (· != '\n') (munch isInfixChar (c :: cs)).2) _ hm
      simp at this
    · intro d hd
      cases hr : (munch isInfixChar (c :: cs)).2.dropWhile (· != '\n') with
      | nil => rw [hr] at hd; simp at hd
      | cons e es =>
        rw [hr] at hd
        have : e = d := by simpa using hd
        subst this
        simpa using TLex.head_dropWhile hr

/-- What precedes the next token. -/
theorem lexN_sound {n : Nat} : ∀ {pre s r : Text} {t : Token}, unCR src = pre ++ s →
    lexN src n s = some (t, r) → s.length < n → ∀ cs, (t = .eof → cs = []) →
    (t ≠ .eof → ∃ pre' us, unCR src = pre' ++ r ∧ cs = (t, colAfter pre') :: us ∧ Reading src pre' r us) →
    Reading src pre s cs := by
  induction n with
  | zero => intro pre s r t _ _ h; omega
  | succ n ih =>
    intro pre s r t hp h hl cs h0 h1
    have ws : ∀ (s pre : Text), (∀ pre', pre' ++ s.dropWhile isWhitespace = pre ++ s →
        Reading src pre' (s.dropWhile isWhitespace) cs) → Reading src pre s cs := by
      intro s
      induction s with
      | nil => exact fun pre h => h pre rfl
      | cons c s ih =>
        intro pre
        rw [List.dropWhile_cons]
        split
        · rename_i hc
          exact fun hh => .space hc (ih _ fun pre' he => hh pre' (by rw [he]; simp))
        · exact fun hh => hh pre rfl
    apply ws
    intro pre hpre
    rw [← hpre] at hp
    unfold lexN at h
    have hlen := (List.dropWhile_suffix (l := s) isWhitespace).length_le
    cases hd : s.dropWhile isWhitespace with
    | nil =>
      rw [hd] at h
      simp only [Option.some.injEq, Prod.mk.injEq] at h
      rw [h0 h.1.symm]; exact .nil
    | cons c cs' =>
      rw [hd] at h hlen hp
      simp only at h
      cases hx : dispatch src (c :: cs') c with
      | none => rw [hx] at h; cases h
      | some z =>
        rw [hx] at h
        cases z with
        | tok t' r' =>
          simp only [Option.some.injEq, Prod.mk.injEq] at h
          obtain ⟨rfl, rfl⟩ := h
          obtain ⟨w, hw, ht⟩ := dispatch_sound hp hx
          obtain ⟨pre', us, hp', rfl, hu⟩ := h1 (TokenIn.lex (hw ▸ hp) ht).2.1
          have : pre' = pre ++ w := by
            rw [hp, hw, ← List.append_assoc] at hp'
            exact (List.append_cancel_right hp').symm
          subst this
          rw [hw]; exact .token ht hu
        | skipped r' =>
          simp only at h
          obtain ⟨hi, ho⟩ := dispatch_skipped hx
          have hlt := operator_skipped hi ho
          rcases operator_skips hp hi ho with ⟨x, b, e1, e2, e3, e4, e5, e6⟩ | ⟨x, b, l, e1, e2, e3, e4, e5⟩
          · have hrec := ih (pre := pre ++ (c :: x ++ b)) (by rw [hp, e1]; simp) h (by omega) cs h0 h1
            rw [e1]; exact .line hi e2 e3 e4 e5 e6 hrec
          · have hrec := ih (pre := pre ++ (c :: x ++ t!"{" ++ b ++ t!"}~" ++ l))
              (by rw [hp, e1]; simp) h (by omega) cs h0 h1
            rw [e1]; exact .block hi e2 e3 e4 e5 hrec

theorem line_lex {pre x b s : Text} {c : Char} (hp : unCR src = pre ++ (c :: x ++ b ++ s))
    (hc : isInfixChar c = true) (hx : Shape isInfixChar x) (hm : Maximal isInfixChar (c :: x) (b ++ s))
    (hf : Found src pre (c :: x) t!"~~") (hb : '\n' ∉ b) (hs : ∀ d ∈ s.head?, d = '\n') :
    lex src (c :: x ++ b ++ s) = lex src s := by
  have hmu := lex_run hc hx hm
  have e : c :: x ++ b ++ s = c :: (x ++ (b ++ s)) := by simp
  rw [e] at hp ⊢
  have hd : (b ++ s).dropWhile (· != '\n') = s := by
    refine (TLex.takeWhile_append_stop (p := (· != '\n')) ?_ ?_).2
    · simp only [List.all_eq_true, bne_iff_ne, ne_eq]
      rintro x hx rfl
      exact hb hx
    · intro c hc
      rw [hs c hc]; rfl
  have ho : operator src (c :: (x ++ (b ++ s))) = some (.skipped s) :=
    operator_skipped_iff.2 ⟨_, (tx_iff hp (by rw [hmu]; rfl)).2 hf, .inr ⟨rfl, by rw [hmu, hd]⟩⟩
  rw [lex_cons (TLex.infix_not_ws hc), dispatch_infix _ hc, ho]

theorem block_lex {pre x b l s : Text} {c : Char}
    (hp : unCR src = pre ++ (c :: x ++ t!"{" ++ b ++ t!"}~" ++ l ++ s))
    (hc : isInfixChar c = true) (hx : Shape isInfixChar x) (hf : Found src pre (c :: x) t!"~")
    (hb : CommentBody b) (hl : Lost l s) :
    lex src (c :: x ++ t!"{" ++ b ++ t!"}~" ++ l ++ s) = lex src s := by
  have e : c :: x ++ t!"{" ++ b ++ t!"}~" ++ l ++ s =
      c :: (x ++ '{' :: (b ++ '}' :: '~' :: (l ++ s))) := by simp
  rw [e] at hp ⊢
  have hmu := lex_run (r := '{' :: (b ++ '}' :: '~' :: (l ++ s))) hc hx
    (TLex.Maximal.of_head (by simp; decide))
  have ht : (l ++ s).tail = s := by
    rcases hl with hl | ⟨rfl, rfl⟩
    · match l, hl with
      | [a], _ => rfl
    · rfl
  have hbl : block (b ++ '}' :: '~' :: (l ++ s)) 1 = some (l ++ s) := by
    rw [TLex.block_body hb (by rfl) 0, TLex.block_close, block]
  have ho : operator src (c :: (x ++ '{' :: (b ++ '}' :: '~' :: (l ++ s)))) = some (.skipped s) :=
    operator_skipped_iff.2 ⟨_, (tx_iff hp (by rw [hmu]; rfl)).2 hf,
      .inl ⟨rfl, by rw [hmu]; rfl, l ++ s, by rw [hmu]; exact hbl, ht.symm⟩⟩
  rw [lex_cons (TLex.infix_not_ws hc), dispatch_infix _ hc, ho]

/-- The tokens of the rest `s` of a text, with columns. -/
inductive Has (src : Text) : Text → List CTok → Prop
  | nil {s r} : lex src s = some (.eof, r) → Has src s []
  | cons {s t r cs pre} : lex src s = some (t, r) → t ≠ .eof → (∀ e, t ≠ .error e) →
      unCR src = pre ++ r → Has src r cs → Has src s ((t, colAfter pre) :: cs)

omit [LawfulTables] in
theorem Has.congr {s s' : Text} {cs : List CTok} (he : lex src s = lex src s') (h : Has src s' cs) :
    Has src s cs := by
  cases h with
  | nil h => exact .nil (he.trans h)
  | cons h h1 h2 hp ht => exact .cons (he.trans h) h1 h2 hp ht

theorem Has.reading {s : Text} {cs : List CTok} (h : Has src s cs) :
    ∀ pre, unCR src = pre ++ s → Reading src pre s cs := by
  induction h with
  | nil h =>
    intro pre hp
    exact lexN_sound hp h (Nat.lt_succ_self _) _ (fun _ => rfl) (fun h => absurd rfl h)
  | @cons s t r cs pre' h h1 _ hp' _ ih =>
    intro pre hp
    exact lexN_sound hp h (Nat.lt_succ_self _) _ (fun h => absurd h h1)
      (fun _ => ⟨pre', cs, hp', rfl, ih _ hp'⟩)

theorem _root_.Pemdas.Reading.has {pre s : Text} {cs : List CTok} (h : Reading src pre s cs) :
    unCR src = pre ++ s → Has src s cs := by
  induction h with
  | nil => exact fun _ => .nil (lex_nil src)
  | space hc _ ih => exact fun hp => (ih (by rw [hp]; simp)).congr (lex_space hc)
  | line h1 h2 h3 h4 h5 h6 _ ih =>
    exact fun hp => (ih (by rw [hp]; simp)).congr (line_lex hp h1 h2 h3 h4 h5 h6)
  | block h1 h2 h3 h4 h5 _ ih =>
    exact fun hp => (ih (by rw [hp]; simp)).congr (block_lex hp h1 h2 h3 h4 h5)
  | token ht _ ih =>
    intro hp
    obtain ⟨h1, h2, h3⟩ := TokenIn.lex hp ht
    exact .cons h1 h2 h3 (by rw [hp]; simp) (ih (by rw [hp]; simp))

end GLex

open Lexer
section
variable [CharTables] {src : Text}

omit [CharTables] in
theorem gproj_some {r : Res} {t : Token} {s : Text} (h : gproj r = some (t, s)) :
    ∃ l, r = .ok (t, l) ∧ l.view = s ∧ ∀ e, t ≠ .error e := by
  cases r with
  | error p => cases h
  | ok x =>
    obtain ⟨u, l⟩ := x
    cases u with
    | error e => cases h
    | _ => cases h; exact ⟨l, rfl, rfl, by intro e he; cases he⟩

omit [CharTables] in
theorem gproj_ok {t : Token} {l : Lexer} (h : ∀ e, t ≠ .error e) : gproj (.ok (t, l)) = some (t, l.view) := by
  cases t with
  | error e => exact absurd rfl (h e)
  | _ => rfl

omit [CharTables] in
/-- The column of a lexer is the one after what it has seen. -/
theorem Lexer.On.col {l : Lexer} (h : l.On src) : ∃ pre, unCR src = pre ++ l.view ∧ l.currLoc.col = colAfter pre := by
  obtain ⟨hs, pre, hp⟩ := h
  exact ⟨unCR pre, by rw [← hs]; exact unCR_split hp, by rw [hp.loc, locOf_col]⟩

theorem items_of_has {s : Text} {cs : List CTok} (h : GLex.Has src s cs) :
    ∀ l : Lexer, l.On src → l.view = s →
      ∃ xs, items (cs.length + 1) l = .ok xs ∧ xs.length = cs.length ∧
        cs = xs.map fun x => (x.1, x.2.hi.col) := by
  induction h with
  | nil h =>
    intro l hl hc
    obtain ⟨l', h1, _⟩ := gproj_some ((any_lex hl).trans (hc ▸ h))
    have : l.next = .ok (none, l') := by unfold Lexer.next; rw [h1]; rfl
    exact ⟨[], by simp [items, this], rfl, rfl⟩
  | @cons s t r cs pre h hne _ hp _ ih =>
    intro l hl hc
    obtain ⟨l', h1, h2, _⟩ := gproj_some ((any_lex hl).trans (hc ▸ h))
    have hl' := hl.reach (reach_lex h1)
    have hn : l.next = .ok (some (t, ⟨l'.prevLoc, l'.currLoc⟩), l') := by
      unfold Lexer.next; rw [h1]; simp only; rw [if_neg hne]
    obtain ⟨xs, h4, h5, h6⟩ := ih l' hl' h2
    obtain ⟨pre', h7, h8⟩ := hl'.col
    have : pre' = pre := by
      rw [h2, hp] at h7
      exact (List.append_cancel_right h7).symm
    refine ⟨(t, ⟨l'.prevLoc, l'.currLoc⟩) :: xs, ?_, by simp [h5], ?_⟩
    · simp only [List.length_cons]
      unfold items
      rw [hn]
      simp only
      rw [h4]
    · rw [List.map_cons, ← h6, h8, this]

theorem has_of_items {n : Nat} : ∀ {l : Lexer} {xs : List (Token × LocSpan)}, l.On src →
    items n l = .ok xs → xs.length < n → (∀ e, .error e ∉ xs.map (·.1)) →
    GLex.Has src l.view (xs.map fun x => (x.1, x.2.hi.col)) := by
  induction n with
  | zero => intro l xs _ _ h; omega
  | succ n ih =>
    intro l xs hl h hlt he
    unfold items at h
    cases hx : l.next with
    | error p => rw [hx] at h; cases h
    | ok z =>
      obtain ⟨o, l'⟩ := z
      rw [hx] at h
      cases o with
      | none =>
        simp only [Except.ok.injEq] at h
        subst h
        unfold Lexer.next at hx
        cases hy : l.lex with
        | error p => rw [hy] at hx; cases hx
        | ok w =>
          obtain ⟨t, m⟩ := w
          rw [hy] at hx
          simp only at hx
          split at hx
          · rename_i ht
            subst ht
            have := any_lex hl
            rw [hy] at this
            exact .nil this.symm
          · cases hx
      | some y =>
        obtain ⟨t, sp⟩ := y
        simp only at h
        cases hi : items n l' with
        | error p => rw [hi] at h; cases h
        | ok ys =>
          rw [hi] at h
          simp only [Except.ok.injEq] at h
          subst h
          obtain ⟨hy, hne, hsp⟩ := next_some hx
          have ht : ∀ e, t ≠ .error e := fun e h => he e (by simp [h])
          have hl' := hl.reach (reach_lex hy)
          obtain ⟨pre, h7, h8⟩ := hl'.col
          have hg := any_lex hl
          rw [hy, gproj_ok ht] at hg
          have hrec := ih hl' hi (by simpa using hlt) fun e hm => he e (by
            rw [List.map_cons]; exact List.mem_cons_of_mem _ hm)
          rw [List.map_cons]
          have : (t, sp.hi.col) = (t, colAfter pre) := by rw [hsp, ← h8]
          simp only [this]
          exact .cons hg.symm hne ht h7 hrec

end
section
variable [CharTables] [LawfulTables]

theorem lexes_iff_reading (src : Text) (cs : List CTok) :
    (Lexes src cs ∧ ∀ e, .error e ∉ cs.map (·.1)) ↔ Reading src [] (unCR src) cs := by
  constructor
  · rintro ⟨⟨xs, n, h1, h2, rfl⟩, h3⟩
    have h3' : ∀ e, .error e ∉ xs.map (·.1) := by
      intro e he; apply h3 e; simpa using he
    have := has_of_items (on_new src) h2 h1 h3'
    rw [view_new] at this
    exact (this.congr (GLex.lex_dropWhile src _).symm).reading [] rfl
  · intro h
    have hh := h.has rfl
    obtain ⟨xs, h1, h2, h3⟩ := items_of_has (hh.congr (GLex.lex_dropWhile src _)) _ (on_new src) (view_new src)
    refine ⟨⟨xs, _, by omega, h1, h3⟩, ?_⟩
    intro e he
    clear h h1 h2 h3
    generalize unCR src = s at hh
    induction hh with
    | nil => cases he
    | cons _ _ h2 _ _ ih =>
      rcases List.mem_cons.1 he with he | he
      · exact h2 e he.symm
      · exact ih he

end
end Pemdas
