import Verif.Lemmas.Bulk
import Verif.Lemmas.HarmlessParse
import Verif.Props.Words
/-
Helper lemmas: how long the texts of tokens and of positions are.
-/
namespace Pemdas
open Lexer

/-! ### positions -/

/-- A position in a text of `n` bytes. -/
def Loc.Near (n : Nat) (l : Loc) : Prop := l.line ≤ 1 + n ∧ l.col ≤ 1 + n ∧ l.pos ≤ n

theorem dec_room {n k : Nat} (hk : 0 < k) (h : n < 10 ^ k) : utf8Len (decText n) ≤ k := by
  rw [digits_ascii (TLex.decText_digits _).1]
  exact (Nat.length_toDigits_le_iff (by decide) hk).2 h

theorem dec_slow (n : Nat) : utf8Len (decText n) ≤ 1 + n / 10 := by
  have key : ∀ k, n < 10 * (k + 1) → n < 10 ^ (k + 1) := by
    intro k h
    refine Nat.lt_of_lt_of_le h ?_
    clear h
    induction k with
    | zero => decide
    | succ k ih => rw [Nat.pow_succ]; omega
  rw [Nat.add_comm]
  exact dec_room (Nat.succ_pos _) (key _ (by omega))

theorem Loc.Near.text {n : Nat} {l : Loc} (h : l.Near n) : utf8Len l.text ≤ n + 8 := by
  obtain ⟨h1, h2, h3⟩ := h
  have a := dec_slow l.pos
  have b := dec_slow l.line
  have c := dec_slow l.col
  have e1 : utf8Len t!"[" = 1 := rfl
  have e2 : utf8Len t!"]:" = 2 := rfl
  have e3 : utf8Len t!":" = 1 := rfl
  simp only [Loc.text, utf8Len_append, e1, e2, e3]
  omega

/-- A lexer somewhere in a source. -/
structure Lexer.Within (t : Text) (l : Lexer) : Prop where
  src : l.src = t
  at_ : ∃ pre, l.At pre
  prev : l.prevLoc.Near (utf8Len t)

theorem length_bytes (t : Text) : t.length ≤ utf8Len t := by
  induction t with
  | nil => simp
  | cons c t ih =>
    have := c.utf8Size_pos
    simp only [List.length_cons, utf8Len_cons]
    omega

theorem near_of {src p q : Text} (h : src = p ++ q) : (locOf (unCR p)).Near (utf8Len src) := by
  obtain ⟨a, b, c⟩ := Lexer.locOf_bounds h
  have := List.count_le_length (a := '\n') (l := src)
  have := length_bytes src
  exact ⟨by omega, by omega, c⟩

theorem Lexer.Within.curr {src : Text} {l : Lexer} (h : l.Within src) : l.currLoc.Near (utf8Len src) := by
  obtain ⟨pre, hat⟩ := h.at_
  rw [hat.loc]
  exact near_of (q := l.chars) (by rw [← h.src, hat.src])

theorem Lexer.Within.reach {src : Text} {l l' : Lexer} (h : l.Within src) (hr : Reach true l l') : l'.Within src := by
  induction hr with
  | refl => exact h
  | @adv m _ ih =>
    obtain ⟨pre, hat⟩ := ih.at_
    obtain ⟨v, -, hat'⟩ := hat.advance
    exact ⟨by rw [advance_src]; exact ih.src, ⟨_, hat'⟩, by rw [advance_prevLoc]; exact ih.prev⟩
  | mark _ hr ih =>
    obtain ⟨pre, hat⟩ := ih.at_
    exact ⟨ih.src, ⟨pre, hat.mark⟩, ih.curr⟩

theorem Lexer.Point.within [CharTables] {src : Text} {l : Lexer} (h : Point src l) : l.Within src := by
  obtain ⟨h1, h2, -, p, q, h3, h4⟩ := h.inv
  exact ⟨h1, h2, by rw [h4]; exact near_of h3⟩

theorem Lexer.slice_bytes {l : Lexer} {a b : Nat} {s : Text} (h : l.slice a b = .ok s) :
    utf8Len s ≤ utf8Len l.src ∧ utf8Len s = b - a := by
  obtain ⟨x, y, he, h1, h2⟩ := byteSlice_eq_some.1 (slice_ok_iff.1 h)
  refine ⟨?_, by omega⟩
  rw [he]; simp only [utf8Len_append]; omega

theorem hexNum_room (s : Text) : Lexer.hexNum s < 16 ^ s.length := by
  have hv : ∀ c, Lexer.hexVal c ≤ 15 := by
    intro c
    unfold Lexer.hexVal
    cases h : toDigit 16 c with
    | none => simp
    | some d =>
      unfold toDigit at h
      simp only [Option.bind_eq_some_iff] at h
      obtain ⟨d', -, h⟩ := h
      split at h
      · cases h; simp only [Option.getD_some]; omega
      · cases h
  have key : ∀ (s : Text) (a : Nat), s.foldl (fun a c => a * 16 + Lexer.hexVal c) a < (a + 1) * 16 ^ s.length := by
    intro s
    induction s with
    | nil => intro a; simp
    | cons c s ih =>
      intro a
      refine Nat.lt_of_lt_of_le (ih _) ?_
      rw [List.length_cons, Nat.pow_succ, Nat.mul_comm (16 ^ s.length), ← Nat.mul_assoc]
      have := hv c
      exact Nat.mul_le_mul_right _ (by dsimp only; omega)
  simpa [Lexer.hexNum] using key s 0

theorem fromHexStr_room {s : Text} {n : Nat} (h : Lexer.fromHexStr s = some n) : n < 16 ^ s.length := by
  unfold Lexer.fromHexStr at h
  simp only [Option.ite_none_right_eq_some, Option.some.injEq] at h
  rw [← h.2]
  refine Nat.lt_of_lt_of_le (hexNum_room _) (Nat.pow_le_pow_right (by decide) ?_)
  split <;> simp

/-! ### tokens -/
section
variable [CharTables]

/-- The text of a token is short, compared with a number of bytes. -/
def Token.Brief (n : Nat) (t : Token) : Prop := ∀ s, t.text = .ok s → utf8Len s ≤ 6 * n + 100

theorem brief_fixed {n : Nat} {t : Token} {s : Text} (h : t.text = .ok s) (hs : utf8Len s ≤ 100) : t.Brief n := by
  intro s' h'
  rw [h] at h'
  cases h'
  omega

theorem brief_char (n : Nat) (c : Char) : (Token.lit (.char c)).Brief n := by
  intro s h
  cases h
  have := debugChar_short c
  show utf8Len (debugChar c) ≤ _
  omega

theorem brief_str {n : Nat} {t : Text} (h : utf8Len t ≤ n) : (Token.lit (.str t)).Brief n := by
  intro s h'
  cases h'
  have := debugStr_length t
  show utf8Len (debugStr t) ≤ _
  omega

theorem brief_int (n : Nat) {k : Nat} (h : k < 2 ^ 64) : (Token.lit (.int k)).Brief n := by
  intro s h'
  cases h'
  have := dec_room (n := k) (k := 20) (by decide) (Nat.lt_trans h (by decide))
  show utf8Len (decText k) ≤ _
  omega

theorem brief_affix {n : Nat} {t : Text} (b : Bool) (h : utf8Len t ≤ n) : (Token.affix t b).Brief n := by
  intro s h'
  cases h'
  have : Char.utf8Size '\'' = 1 := rfl
  cases b <;> simp only [Bool.false_eq_true, if_true, if_false, utf8Len_cons] <;> omega

theorem brief_word {n : Nat} {t : Text} (h : utf8Len t ≤ n) : (Token.lower t).Brief n ∧ (Token.upper t).Brief n :=
  ⟨fun s h' => by cases h'; omega, fun s h' => by cases h'; omega⟩

theorem brief_invalidInt {n : Nat} {l : Loc} (h : l.Near n) (e : IntError) :
    (Token.error (.invalidInt l e)).Brief n := by
  intro s h'
  cases h'
  have := h.text
  have e1 : utf8Len t!"at " = 3 := rfl
  have e2 : utf8Len e.text.1 + utf8Len e.text.2 ≤ 75 := by cases e <;> decide
  simp only [utf8Len_append, e1]
  omega

theorem brief_promoted {n : Nat} {l : Loc} (h : l.Near n) {t : Text} (ht : utf8Len t ≤ n) :
    (Token.error (.invalidPromotedInfix l t)).Brief n := by
  intro s h'
  cases h'
  have := h.text
  have e1 : utf8Len t!"invalid identifier `" = 20 := rfl
  have e2 : utf8Len t!"` in operator promotion at " = 27 := rfl
  simp only [utf8Len_append, e1, e2]
  omega

theorem brief_unterminated {n : Nat} {l : Loc} (h : l.Near n) (l' : Loc) :
    (Token.error (.unterminatedChar l l')).Brief n ∧ (Token.error (.unterminatedString l)).Brief n ∧
      (Token.error (.unterminatedComment l l')).Brief n := by
  have := h.text
  refine ⟨fun s h' => ?_, fun s h' => ?_, fun s h' => ?_⟩ <;> cases h'
  · have e1 : utf8Len t!"unterminated character literal starting at " = 43 := rfl
    simp only [utf8Len_append, e1]
    omega
  · have e1 : utf8Len t!"unterminated string literal starting at " = 40 := rfl
    simp only [utf8Len_append, e1]
    omega
  · have e1 : utf8Len t!"block comment starting at " = 26 := rfl
    have e2 : utf8Len t!":" = 1 := rfl
    have e3 : utf8Len t!" was not terminated" = 19 := rfl
    have a := dec_slow l.line
    have b := dec_slow l.col
    obtain ⟨h1, h2, -⟩ := h
    simp only [utf8Len_append, e1, e2, e3]
    omega

theorem brief_escape (n : Nat) (c : Char) (l l' : Loc) : (Token.error (.invalidEscape c l l')).Brief n := by
  intro s h'
  cases h'
  have := c.utf8Size_le_four
  have e1 : utf8Len t!"the sequence `\\" = 15 := rfl
  have e2 : utf8Len t!"` is not a valid character escape" = 33 := rfl
  simp only [utf8Len_append, utf8Len_cons, utf8Len_nil, e1, e2]
  omega

theorem brief_empty (n : Nat) (l l' : Loc) : (Token.error (.emptyChar l l')).Brief n := by
  intro s h'
  cases h'

theorem brief_unicode {n : Nat} {l : Loc} (h : l.Near n) : (Token.error (.invalidUnicode l .empty)).Brief n ∧
    (∀ c, (Token.error (.invalidUnicode l (.badConnector c))).Brief n) ∧
    (∀ t, utf8Len t ≤ n → (Token.error (.invalidUnicode l (.tooLong t))).Brief n) ∧
    ∀ t k, utf8Len t ≤ n → k < 16 ^ 6 → (Token.error (.invalidUnicode l (.notInCharRange t k))).Brief n := by
  have := h.text
  refine ⟨fun s h' => ?_, fun c s h' => ?_, fun t ht s h' => ?_, fun t k ht hk s h' => ?_⟩ <;> cases h'
  · have e1 : utf8Len t!"expected codepoint for unicode escape at " = 41 := rfl
    simp only [utf8Len_append, e1]
    omega
  · have := c.utf8Size_le_four
    have e1 : utf8Len t!"invalid character `" = 19 := rfl
    have e2 : utf8Len t!"` found following unicode escape `\\u`; expected `+` or hexadecimal after" = 72 := rfl
    simp only [utf8Len_append, utf8Len_cons, utf8Len_nil, e1, e2]
    omega
  · have e1 : utf8Len t!"unicode escape `" = 16 := rfl
    have e2 : utf8Len t!"` is more than the maximum length of 6 hex digits" = 49 := rfl
    simp only [utf8Len_append, e1, e2]
    omega
  · have := dec_room (n := k) (k := 8) (by decide) (Nat.lt_trans hk (by decide))
    have e1 : utf8Len t!"the integer `" = 13 := rfl
    have e2 : utf8Len t!"` (" = 3 := rfl
    have e3 : utf8Len t!") is out of the range for valid character values" = 48 := rfl
    simp only [utf8Len_append, e1, e2, e3]
    omega

namespace Lexer
variable {src : Text}

omit [CharTables] in
theorem slice_within {l : Lexer} (h : l.src = src) {a b : Nat} {s : Text} (hs : l.slice a b = .ok s) :
    utf8Len s ≤ utf8Len src := by
  rw [← h]; exact (slice_bytes hs).1

theorem number_brief {l l' : Lexer} {t : Token} (hl : l.Within src) (h : l.number = .ok (t, l')) :
    t.Brief (utf8Len src) := by
  unfold number at h
  simp only [bind, Except.bind] at h
  split at h
  · cases h
  · split at h
    · rename_i hn
      cases h
      obtain ⟨ds, -, h2, rfl⟩ := GLex.parseUsize_iff.1 hn
      exact brief_int _ h2
    · cases h
      exact brief_invalidInt hl.prev _

omit [CharTables] in
theorem stringLoop_room (n : Nat) (l : Lexer) (esc : Bool) (buf : Text) :
    utf8Len (stringLoop n l esc buf).2.1 ≤ utf8Len buf + utf8Len l.chars := by
  have suff : ∀ {a b : Text}, a <:+ b → utf8Len a ≤ utf8Len b := by
    rintro a b ⟨x, rfl⟩; simp
  induction n generalizing l esc buf with
  | zero => simp [stringLoop]
  | succ n ih =>
    unfold stringLoop
    cases hc : l.chars with
    | nil => simp [bumpChar, hc]
    | cons c cs =>
      have hb : ∃ l', l.bumpChar = (some c, l') ∧ utf8Len l'.chars ≤ utf8Len cs := by
        unfold bumpChar
        rw [hc]
        simp only
        split
        · refine ⟨_, rfl, ?_⟩
          show utf8Len (dropCR cs) ≤ _
          unfold dropCR
          split <;> simp
        · exact ⟨_, rfl, Nat.le_refl _⟩
      obtain ⟨l', h1, h2⟩ := hb
      rw [h1]
      simp only [utf8Len_cons]
      have hpos := c.utf8Size_pos
      have hg : isEscapable c = true → (getEscaped c).utf8Size = c.utf8Size := by
        intro h
        simp only [isEscapable, List.contains_eq_mem, List.mem_cons, List.not_mem_nil, or_false,
          decide_eq_true_eq] at h
        rcases h with rfl|rfl|rfl|rfl|rfl|rfl|rfl|rfl <;> rfl
      repeat' split
      · rename_i h
        have := ih l' false (buf ++ [getEscaped c])
        have := hg h
        simp only [utf8Len_append, utf8Len_cons, utf8Len_nil] at *
        omega
      · have := ih l'.eatWhitespace false buf
        have := suff (reach_eatWhitespace l').suffix
        omega
      · have := ih l' false (buf ++ [c])
        simp only [utf8Len_append, utf8Len_cons, utf8Len_nil] at this
        omega
      · simp only; omega
      · have := ih l' true buf
        omega
      · have := ih l' false (buf ++ [c])
        simp only [utf8Len_append, utf8Len_cons, utf8Len_nil] at this
        omega

theorem string_brief {l : Lexer} (hl : l.Within src) : l.string.1.Brief (utf8Len src) := by
  have h1 := stringLoop_room (l.advance.chars.length + 1) l.advance false []
  have h2 : utf8Len l.advance.chars ≤ utf8Len src := by
    have := hl.reach (.one l)
    obtain ⟨pre, hat⟩ := this.at_
    rw [← this.src, hat.src]; simp
  unfold string
  simp only
  split
  · rename_i h
    rw [h] at h1
    simp only [utf8Len_nil] at h1
    exact brief_str (by omega)
  · exact (brief_unterminated hl.prev l.prevLoc).2.1

theorem operator_brief {l l' : Lexer} {t : Token} (hl : l.Within src) (h : l.operator = .ok (.tok t l')) :
    t.Brief (utf8Len src) := by
  have hm := hl.reach (reach_eatWithTrailing l isInfixChar)
  unfold operator at h
  simp only [bind, Except.bind] at h
  split at h
  · cases h
  rename_i s hs
  have hb := slice_within hm.src hs
  repeat' split at h
  all_goals cases h
  all_goals first
    | exact brief_affix _ hb
    | exact brief_fixed rfl (by decide)
    | skip
  · rename_i hb
    unfold blockComment at hb
    simp only at hb
    split at hb
    · injection hb with hb; injection hb with hb; subst hb
      exact (brief_unterminated (hm.reach (.one _)).prev _).2.2
    · injection hb with hb; cases hb

theorem unicodeEscape_brief {l l' : Lexer} {loc : Loc} {t : Token} (hl : l.Within src)
    (hloc : loc.Near (utf8Len src)) (h : l.unicodeEscape loc = .ok (t, l')) : t.Brief (utf8Len src) := by
  have hplus : (if l.advance.onChar '+' then l.advance.advance else l.advance).Within src := by
    split
    · exact (hl.reach (.one l)).reach (.one _)
    · exact hl.reach (.one l)
  unfold unicodeEscape at h
  simp only [bind, Except.bind] at h
  revert h hplus
  generalize (if l.advance.onChar '+' then l.advance.advance else l.advance) = m
  intro h hm
  obtain ⟨u1, u2, u3, u4⟩ := brief_unicode hm.curr
  have he := (hm.reach (reach_eatWhile m isHexDigit)).reach (.one _)
  repeat' split at h
  all_goals cases h
  all_goals first
    | exact u1
    | exact u2 _
    | exact brief_char _ _
    | exact (brief_unterminated hloc _).1
    | exact u3 _ (slice_within he.src (by assumption))
    | skip
  rename_i hab _ s hs _ _ hx _ _
  have hk := slice_bytes hs
  refine u4 _ _ (slice_within (he.reach (.one _)).src hs) ?_
  have h3 := length_bytes s
  exact Nat.lt_of_lt_of_le (fromHexStr_room hx) (Nat.pow_le_pow_right (by decide) (by omega))

theorem charEscape_brief {l l' : Lexer} {loc : Loc} {t : Token} (hl : l.Within src)
    (hloc : loc.Near (utf8Len src)) (h : l.charEscape loc = .ok (t, l')) : t.Brief (utf8Len src) := by
  unfold charEscape at h
  simp only at h
  repeat' split at h
  all_goals first | exact unicodeEscape_brief hl hloc h | cases h
  all_goals first
    | exact brief_char _ _
    | exact (brief_unterminated hloc _).1
    | exact brief_escape _ _ _ _

theorem charLit_brief {l l' : Lexer} {t : Token} (hl : l.Within src) (h : l.charLit = .ok (t, l')) :
    t.Brief (utf8Len src) := by
  unfold charLit at h
  simp only [bind, Except.bind] at h
  have h1 := hl.reach (.one l)
  have h2 := h1.reach (.one _)
  have h3 := h2.reach (.one _)
  have h4 := h2.reach (reach_eatWithTrailing _ isIdentChar)
  repeat' split at h
  all_goals first | exact charEscape_brief h2 hl.prev h | cases h
  all_goals first
    | exact brief_empty _ _ _
    | exact brief_char _ _
    | exact (brief_unterminated hl.prev (Lexer.prevLoc _)).1
    | exact brief_affix _ (slice_within h3.src (by assumption))
    | exact brief_affix _ (slice_within h4.src (by assumption))
    | skip

theorem backtick_brief {l l' : Lexer} {t : Token} (hl : l.Within src) (h : l.backtick = .ok (t, l')) :
    t.Brief (utf8Len src) := by
  have h1 := hl.reach (.one l)
  have h2 := h1.reach (.one _)
  have h3 := h2.reach (reach_eatWithTrailing _ isIdentChar)
  have h4 := h1.reach (reach_eatWhile _ (· != '`'))
  have h5 := h4.reach (.one _)
  unfold backtick promotedOperator at h
  simp only [bind, Except.bind] at h
  repeat' split at h
  all_goals cases h
  all_goals first
    | exact brief_affix _ (slice_within h3.src (by assumption))
    | exact brief_promoted h1.curr (slice_within h3.src (by assumption))
    | skip
  all_goals
    refine brief_promoted h1.curr (slice_within (src := src) ?_ (by assumption))
    split <;> first | exact h5.src | exact h4.src

theorem ident_brief {l l' : Lexer} {c : Char} {t : Token} (hl : l.Within src) (h : l.ident c = .ok (t, l')) :
    t.Brief (utf8Len src) := by
  have h1 := hl.reach (reach_eatWithTrailing _ isIdentChar)
  unfold ident identifier at h
  simp only [bind, Except.bind] at h
  repeat' split at h
  all_goals first
    | (cases h; exact brief_fixed rfl (by decide))
    | (cases h; done)
    | skip
  cases h
  rename_i h2
  split at h2
  · injection h2 with h2
    rw [← h2]
    have hw := brief_word (slice_within h1.src (by assumption))
    split
    · exact hw.2
    · exact hw.1
  · cases h2

/-- The text of a token that is read in a source. -/
theorem lex_brief [LawfulTables] {l l' : Lexer} {t : Token} (hl : l.Within src) (h : l.lex = .ok (t, l')) :
    t.Brief (utf8Len src) := by
  obtain ⟨m, hr, -, h1⟩ := lexN_land h (Nat.lt_succ_self _)
  have hm := hl.reach hr
  rcases h1 with ⟨-, rfl, -⟩ | ⟨c, cs, -, -, hd⟩
  · exact brief_fixed rfl (by decide)
  · cases dispatch_pass hd with
    | punct hc =>
      simp only [List.mem_cons, Prod.mk.injEq, List.mem_nil_iff, or_false] at hc
      rcases hc with h|h|h|h|h|h|h|h <;> rw [h.2] <;> exact brief_fixed rfl (by decide)
    | char _ hx => exact charLit_brief hm hx
    | string => exact string_brief hm
    | number _ hx => exact number_brief hm hx
    | backtick _ hx => exact backtick_brief hm hx
    | ident _ hx => exact ident_brief hm hx
    | op _ hx => exact operator_brief hm hx
    | unknown => exact brief_fixed rfl (by decide)

end Lexer

/-- The message about a source that cannot be parsed. -/
theorem message_room [LawfulTables] {src : Text} {e : ParseError} {l : Lexer} (h : parse src = .err e l) {m : Text}
    (hm : e.text = .ok m) : utf8Len m ≤ 7 * utf8Len src + 150 := by
  have hp : ErrAt (Lexer.new src) e l := by
    have := parse_run src; rw [h] at this; exact this
  obtain ⟨ts, k, t, h1, -, h3⟩ := id hp
  have hk := ((h1.point .new).within).curr.text
  obtain ⟨t₀, loc₀, h4, h5⟩ := hp.token
  have hb : t₀.Brief (utf8Len src) := by
    rcases h5 with rfl | ⟨l, m, sp, hl, hn⟩
    · exact brief_fixed rfl (by decide)
    · exact lex_brief hl.within (Lexer.next_some hn).1
  have e1 : utf8Len t!"unexpected token `" = 18 := rfl
  have e2 : utf8Len t!"` found at " = 11 := rfl
  have e3 : utf8Len t!"expected `" = 10 := rfl
  have e4 : utf8Len t!"`, but found `" = 14 := rfl
  have e5 : utf8Len t!"` at " = 5 := rfl
  rcases h3 with rfl | ⟨t', -, hw, rfl⟩
  · rcases h4 with h4 | ⟨_, _, h4⟩
    · cases h4
      simp only [ParseError.text, bind, Except.bind] at hm
      split at hm
      · cases hm
      · rename_i hf
        cases hm
        have := hb _ hf
        simp only [utf8Len_append, e1, e2]
        omega
    · cases h4
  · rcases h4 with h4 | ⟨_, _, h4⟩
    · cases h4
    · cases h4
      simp only [ParseError.text, bind, Except.bind] at hm
      have h2 : ∃ s, t'.text = .ok s ∧ utf8Len s ≤ 2 := by
        simp only [wanted, List.mem_cons, List.not_mem_nil, or_false] at hw
        rcases hw with rfl | rfl | rfl | rfl <;> exact ⟨_, rfl, by decide⟩
      obtain ⟨s, hs, h2⟩ := h2
      rw [hs] at hm
      simp only at hm
      split at hm
      · cases hm
      · rename_i hf
        cases hm
        have := hb _ hf
        simp only [utf8Len_append, e3, e4, e5]
        omega

end
end Pemdas
