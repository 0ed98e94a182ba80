import Verif.Model.Lexer
import Verif.Lemmas.Text
/-
Lexer states reachable from one another: everything the lexer does is a sequence of
`bump_char`s and of "remember the current location" steps.
-/
namespace Pemdas
namespace Lexer

/-- `l'` arises from `l` by consuming characters and, if `b` is true, remembering locations. -/
inductive Reach (b : Bool) : Lexer → Lexer → Prop
  | refl (l) : Reach b l l
  | adv {l m} : Reach b l m → Reach b l m.advance
  | mark {l m} (hb : b = true) : Reach b l m → Reach b l { m with prevLoc := m.currLoc }

variable {b : Bool}

theorem Reach.trans {l m n : Lexer} (h : Reach b l m) (h' : Reach b m n) : Reach b l n := by
  induction h' with
  | refl => exact h
  | adv _ ih => exact ih.adv
  | mark hb _ ih => exact ih.mark hb

theorem Reach.one (l : Lexer) : Reach b l l.advance := (Reach.refl l).adv

theorem reach_eatWhileN (p : Char → Bool) (n : Nat) (l : Lexer) : Reach b l (eatWhileN p n l) := by
  induction n generalizing l with
  | zero => exact .refl l
  | succ n ih =>
    unfold eatWhileN
    split
    · exact .refl l
    · split
      · exact (Reach.one l).trans (ih _)
      · exact .refl l

theorem reach_eatWhile (l : Lexer) (p : Char → Bool) : Reach b l (l.eatWhile p) :=
  reach_eatWhileN p _ l

theorem reach_eatWhitespace (l : Lexer) : Reach true l l.eatWhitespace :=
  (reach_eatWhile l _).mark rfl

theorem reach_eatWithTrailing (l : Lexer) (p : Char → Bool) : Reach b l (l.eatWithTrailing p) :=
  (reach_eatWhile l p).trans (reach_eatWhile _ _)

/-- A first step is taken if the first character satisfies the predicate. -/
theorem reach_advance_eatWhile {l : Lexer} {p : Char → Bool} {c : Char} {cs : Text}
    (h : l.chars = c :: cs) (hp : p c = true) : Reach b l.advance (l.eatWhile p) := by
  unfold eatWhile
  rw [h, List.length_cons, eatWhileN, h]
  simp only [hp, if_true]
  exact reach_eatWhileN _ _ _

theorem reach_advance_eatWithTrailing {l : Lexer} {p : Char → Bool} {c : Char} {cs : Text}
    (h : l.chars = c :: cs) (hp : p c = true) : Reach b l.advance (l.eatWithTrailing p) :=
  (reach_advance_eatWhile h hp).trans (reach_eatWhile _ _)

theorem reach_blockLoop (n : Nat) (l : Lexer) (d : Nat) (e : Loc) :
    Reach b l (blockLoop n l d e).2.2 := by
  induction n generalizing l d e with
  | zero => exact .refl l
  | succ n ih =>
    unfold blockLoop
    split
    · exact .refl l
    · split
      · exact .refl l
      · split
        · simp only
          split
          · exact (Reach.one l).trans (ih _ _ _)
          · exact (Reach.one l).trans (ih _ _ _)
        · split
          · simp only
            split
            · exact ((Reach.one l).adv).trans (ih _ _ _)
            · exact (Reach.one l).trans (ih _ _ _)
          · exact (Reach.one l).trans (ih _ _ _)

theorem reach_blockComment (l : Lexer) : Reach b l l.blockComment.2 := by
  unfold blockComment
  have := reach_blockLoop (b := b) (l.chars.length + 1) l 1 l.prevLoc
  revert this
  split <;> intro this
  · rename_i h; rw [h] at this; exact this
  · rename_i h; rw [h] at this; exact this.adv

theorem reach_lineComment (l : Lexer) : Reach b l l.lineComment := reach_eatWhile l _

theorem reach_stringLoop (n : Nat) (l : Lexer) (esc : Bool) (buf : Text) :
    Reach true l (stringLoop n l esc buf).2.2 := by
  induction n generalizing l esc buf with
  | zero => exact .refl l
  | succ n ih =>
    unfold stringLoop
    have hadv : l.bumpChar.2 = l.advance := rfl
    split
    · rename_i l' h; rw [h] at hadv; simp only at hadv; rw [hadv]; exact Reach.one l
    · rename_i c l' h
      rw [h] at hadv; simp only at hadv; subst hadv
      repeat' split
      all_goals
        first
        | exact (Reach.one l).trans (ih _ _ _)
        | exact ((Reach.one l).trans (reach_eatWhitespace _)).trans (ih _ _ _)
        | exact Reach.one l

theorem reach_string_advance (l : Lexer) : Reach true l.advance l.string.2 := by
  unfold string
  have := reach_stringLoop (l.advance.chars.length + 1) l.advance false []
  revert this
  simp only
  split <;> intro this <;> rename_i h <;> rw [h] at this <;> exact this

/-- The lexer inside the result of an operator. -/
def OpRes.lexer : OpRes → Lexer
  | .tok _ l => l
  | .skipped l => l

@[simp] theorem slice_ok_iff {l : Lexer} {a b : Nat} {s : Text} :
    l.slice a b = .ok s ↔ byteSlice l.src a b = some s := by
  unfold slice byteSlice!
  split <;> simp_all

theorem reach_operator {l : Lexer} {r : OpRes} (h : l.operator = .ok r) :
    Reach b (l.eatWithTrailing isInfixChar) r.lexer := by
  unfold operator at h
  simp only [bind, Except.bind] at h
  split at h
  · cases h
  · repeat' split at h
    all_goals cases h
    all_goals try exact .refl _
    · rename_i h; have := reach_blockComment (b := b) (l.eatWithTrailing isInfixChar).advance
      rw [h] at this; exact (Reach.one _).trans this
    · rename_i h; have := reach_blockComment (b := b) (l.eatWithTrailing isInfixChar).advance
      rw [h] at this; exact (Reach.one _).trans this
    · exact reach_lineComment _

theorem reach_number {l l' : Lexer} {t : Token} (h : l.number = .ok (t, l')) :
    l' = l.eatWhile isDigit10 := by
  unfold number at h
  simp only [bind, Except.bind] at h
  split at h
  · cases h
  · split at h <;> cases h <;> rfl

theorem reach_unicodeEscape {l l' : Lexer} {loc : Loc} {t : Token}
    (h : l.unicodeEscape loc = .ok (t, l')) : Reach b l l' := by
  have hplus : Reach b l (if l.advance.onChar '+' then l.advance.advance else l.advance) := by
    split
    · exact (Reach.one l).adv
    · exact Reach.one l
  unfold unicodeEscape at h
  simp only [bind, Except.bind] at h
  revert h hplus
  generalize (if l.advance.onChar '+' then l.advance.advance else l.advance) = m
  intro h hm
  repeat' split at h
  all_goals first | cases h | skip
  all_goals first
    | exact hm.trans (reach_eatWhile _ _)
    | exact (hm.trans (reach_eatWhile _ _)).adv
    | exact (hm.trans (reach_eatWhile _ _)).adv.adv
    | exact hm.trans ((reach_eatWhile _ _).trans (reach_eatWhile _ _))

theorem reach_charEscape {l l' : Lexer} {loc : Loc} {t : Token}
    (h : l.charEscape loc = .ok (t, l')) : Reach b l l' := by
  unfold charEscape at h
  simp only at h
  repeat' split at h
  all_goals first | exact reach_unicodeEscape h | cases h
  · exact (Reach.one l).adv
  · exact ((Reach.one l).trans (reach_eatWhile _ _)).adv
  · exact (reach_eatWhile _ _).adv
  · exact .refl _

theorem toOp_ok {r : Res} {t : Token} {l : Lexer} : r.toOp = .ok (.tok t l) ↔ r = .ok (t, l) := by
  unfold Res.toOp
  cases r with
  | error p => simp [Except.map]
  | ok x => cases x; simp [Except.map]

@[simp] theorem toOp_not_skipped {r : Res} {l : Lexer} : r.toOp ≠ .ok (.skipped l) := by
  unfold Res.toOp
  cases r <;> simp [Except.map]

theorem toOp_error {r : Res} {p : Panic} : r.toOp = .error p ↔ r = .error p := by
  unfold Res.toOp
  cases r <;> simp [Except.map]

section
variable [CharTables]

theorem reach_promoted {l l' : Lexer} {t : Token} (h : l.promotedOperator = .ok (t, l')) :
    Reach b l l' := by
  unfold promotedOperator at h
  simp only [bind, Except.bind] at h
  split at h
  · cases h
  · split at h <;> cases h
    · exact ((Reach.one l).trans (reach_eatWithTrailing _ _)).adv
    · exact (Reach.one l).trans (reach_eatWithTrailing _ _)

theorem reach_backtick {l l' : Lexer} {t : Token} (h : l.backtick = .ok (t, l')) :
    Reach b l.advance l' := by
  unfold backtick at h
  simp only [bind, Except.bind] at h
  split at h
  · exact reach_promoted h
  · split at h
    · cases h
    · cases h
      split
      · exact (reach_eatWhile _ _).adv
      · exact reach_eatWhile _ _

theorem reach_ident {l l' : Lexer} {c : Char} {t : Token} (h : l.ident c = .ok (t, l')) :
    l' = l.eatWithTrailing isIdentChar := by
  unfold ident at h
  simp only [bind, Except.bind] at h
  split at h
  · cases h
  · repeat' split at h
    all_goals first | (cases h; rfl) | cases h

theorem reach_charLit {l l' : Lexer} {t : Token} (h : l.charLit = .ok (t, l')) :
    Reach b l.advance l' := by
  unfold charLit at h
  simp only [bind, Except.bind] at h
  repeat' split at h
  all_goals first | exact (Reach.one _).trans (reach_charEscape h) | cases h
  · exact Reach.one _
  · exact .refl _
  · exact (Reach.one _).adv
  · exact (Reach.one _).adv
  · exact (Reach.one _).trans (reach_eatWithTrailing _ _)
  · exact (Reach.one _).trans (reach_eatWhile _ _)

/-- The ways in which one pass of `lex` can produce something. -/
inductive Pass (l : Lexer) (c : Char) : OpRes → Prop
  | punct {t : Token} (hc : (c, t) ∈ [(';', Token.semi), ('(', .parenL), (')', .parenR),
      ('[', .brackL), (']', .brackR), ('{', .curlyL), ('}', .curlyR), (',', .comma)]) :
      Pass l c (.tok t l.advance)
  | char {t l'} (hc : c = '\'') (h : l.charLit = .ok (t, l')) : Pass l c (.tok t l')
  | string (hc : c = '"') : Pass l c (.tok l.string.1 l.string.2)
  | number {t l'} (hc : isDigit10 c = true) (h : l.number = .ok (t, l')) : Pass l c (.tok t l')
  | backtick {t l'} (hc : c = '`') (h : l.backtick = .ok (t, l')) : Pass l c (.tok t l')
  | ident {t l'} (hc : isIdentStart c = true) (h : l.ident c = .ok (t, l')) : Pass l c (.tok t l')
  | op {r} (hc : isInfixChar c = true) (h : l.operator = .ok r) : Pass l c r
  | unknown (h1 : c ≠ '\'') (h2 : c ≠ '"') (h3 : isDigit10 c = false) (h4 : c ≠ '`')
      (h5 : isIdentStart c = false) (h6 : c ∉ [';', '(', ')', '[', ']', '{', '}', ','])
      (h7 : isInfixChar c = false) : Pass l c (.tok (.error .unknown) l)

theorem dispatch_pass {l : Lexer} {c : Char} {r : OpRes} (h : l.dispatch c = .ok r) :
    Pass l c r := by
  have tok : ∀ {r : OpRes} {x : Res}, x.toOp = .ok r → ∃ t l', r = .tok t l' ∧ x = .ok (t, l') := by
    intro r x hx
    cases r with
    | tok t l' => exact ⟨t, l', rfl, toOp_ok.1 hx⟩
    | skipped l' => exact absurd hx toOp_not_skipped
  unfold dispatch at h
  by_cases h0 : c = ';'
  · rw [if_pos h0] at h; cases h; subst h0; exact .punct (by simp)
  rw [if_neg h0] at h
  by_cases h1 : c = '\''
  · rw [if_pos h1] at h; obtain ⟨t, l', rfl, hx⟩ := tok h; exact .char h1 hx
  rw [if_neg h1] at h
  by_cases h2 : c = '"'
  · rw [if_pos h2] at h; cases h; exact .string h2
  rw [if_neg h2] at h
  by_cases h3 : isDigit10 c = true
  · rw [if_pos h3] at h; obtain ⟨t, l', rfl, hx⟩ := tok h; exact .number h3 hx
  rw [if_neg h3] at h
  by_cases h4 : c = '`'
  · rw [if_pos h4] at h; obtain ⟨t, l', rfl, hx⟩ := tok h; exact .backtick h4 hx
  rw [if_neg h4] at h
  by_cases h5 : isIdentStart c = true
  · rw [if_pos h5] at h; obtain ⟨t, l', rfl, hx⟩ := tok h; exact .ident h5 hx
  rw [if_neg h5] at h
  by_cases h6 : c = '('
  · rw [if_pos h6] at h; cases h; subst h6; exact .punct (by simp)
  rw [if_neg h6] at h
  by_cases h7 : c = ')'
  · rw [if_pos h7] at h; cases h; subst h7; exact .punct (by simp)
  rw [if_neg h7] at h
  by_cases h8 : c = '['
  · rw [if_pos h8] at h; cases h; subst h8; exact .punct (by simp)
  rw [if_neg h8] at h
  by_cases h9 : c = ']'
  · rw [if_pos h9] at h; cases h; subst h9; exact .punct (by simp)
  rw [if_neg h9] at h
  by_cases h10 : c = '{'
  · rw [if_pos h10] at h; cases h; subst h10; exact .punct (by simp)
  rw [if_neg h10] at h
  by_cases h11 : c = '}'
  · rw [if_pos h11] at h; cases h; subst h11; exact .punct (by simp)
  rw [if_neg h11] at h
  by_cases h12 : c = ','
  · rw [if_pos h12] at h; cases h; subst h12; exact .punct (by simp)
  rw [if_neg h12] at h
  by_cases h13 : isInfixChar c = true
  · rw [if_pos h13] at h; exact .op h13 h
  rw [if_neg h13] at h
  cases h
  exact .unknown h1 h2 (by simpa using h3) h4 (by simpa using h5)
    (by simp [h0, h6, h7, h8, h9, h10, h11, h12]) (by simpa using h13)

theorem reach_dispatch' {l : Lexer} {c : Char} {r : OpRes} (h : l.dispatch c = .ok r)
    (hb : c = '"' → b = true) : Reach b l r.lexer := by
  cases dispatch_pass h with
  | punct => exact Reach.one _
  | char _ hx => exact (Reach.one _).trans (reach_charLit hx)
  | string hc => rw [hb hc]; exact (Reach.one _).trans (reach_string_advance l)
  | number _ hx => rw [reach_number hx]; exact reach_eatWhile _ _
  | backtick _ hx => exact (Reach.one _).trans (reach_backtick hx)
  | ident _ hx => rw [reach_ident hx]; exact reach_eatWithTrailing _ _
  | op _ hx => exact (reach_eatWithTrailing _ _).trans (reach_operator hx)
  | unknown => exact .refl _

theorem reach_dispatch {l : Lexer} {c : Char} {r : OpRes} (h : l.dispatch c = .ok r) :
    Reach true l r.lexer := reach_dispatch' h fun _ => rfl

theorem reach_lexN {n : Nat} {l l' : Lexer} {t : Token} (h : lexN n l = .ok (t, l')) :
    Reach true l l' := by
  induction n generalizing l with
  | zero => cases h; exact .refl _
  | succ n ih =>
    unfold lexN at h
    have hw := reach_eatWhitespace l
    split at h
    · cases h; exact hw
    · split at h
      · cases h
      · rename_i hd; cases h; exact hw.trans (reach_dispatch hd)
      · rename_i hd; exact (hw.trans (reach_dispatch hd)).trans (ih h)

theorem reach_lex {l l' : Lexer} {t : Token} (h : l.lex = .ok (t, l')) : Reach true l l' :=
  reach_lexN h

end

/-! ### invariants -/

theorem dropCR_suffix (s : Text) : dropCR s <:+ s := by
  unfold dropCR
  split
  · exact List.suffix_cons _ _
  · exact List.suffix_refl _

theorem advance_chars_suffix (l : Lexer) : l.advance.chars <:+ l.chars := by
  unfold advance bumpChar
  split
  · exact List.suffix_refl _
  · rename_i c cs h
    rw [h]
    split
    · exact (dropCR_suffix cs).trans (List.suffix_cons _ _)
    · exact List.suffix_cons _ _

theorem advance_length_lt {l : Lexer} {c : Char} {cs : Text} (h : l.chars = c :: cs) :
    l.advance.chars.length < l.chars.length := by
  unfold advance bumpChar
  rw [h]
  simp only
  split
  · have := (dropCR_suffix cs).length_le
    simp only [List.length_cons]; omega
  · simp

@[simp] theorem advance_src (l : Lexer) : l.advance.src = l.src := by
  unfold advance bumpChar; split <;> (try split) <;> rfl

@[simp] theorem advance_curr (l : Lexer) : l.advance.curr = l.curr := by
  unfold advance bumpChar; split <;> (try split) <;> rfl

@[simp] theorem advance_prevLoc (l : Lexer) : l.advance.prevLoc = l.prevLoc := by
  unfold advance bumpChar; split <;> (try split) <;> rfl

theorem Reach.suffix {l l' : Lexer} (h : Reach b l l') : l'.chars <:+ l.chars := by
  induction h with
  | refl => exact List.suffix_refl _
  | adv _ ih => exact (advance_chars_suffix _).trans ih
  | mark _ _ ih => exact ih

theorem Reach.length_le {l l' : Lexer} (h : Reach b l l') : l'.chars.length ≤ l.chars.length :=
  h.suffix.length_le

theorem Reach.src {l l' : Lexer} (h : Reach b l l') : l'.src = l.src := by
  induction h with
  | refl => rfl
  | adv _ ih => simp [ih]
  | mark _ _ ih => exact ih

theorem Reach.curr {l l' : Lexer} (h : Reach b l l') : l'.curr = l.curr := by
  induction h with
  | refl => rfl
  | adv _ ih => simp [ih]
  | mark _ _ ih => exact ih

theorem eatWhileN_stops (p : Char → Bool) : ∀ (n : Nat) (l : Lexer), l.chars.length ≤ n →
    ∀ c cs, (eatWhileN p n l).chars = c :: cs → p c = false
  | 0, l, hn, c, cs, h => by
    have : l.chars = [] := List.length_eq_zero_iff.1 (by omega)
    simp [eatWhileN, this] at h
  | n + 1, l, hn, c, cs, h => by
    unfold eatWhileN at h
    split at h
    · rename_i h'; rw [h'] at h; cases h
    · rename_i d ds h'
      split at h
      · exact eatWhileN_stops p n _ (by have := advance_length_lt h'; omega) c cs h
      · rename_i hp; rw [h'] at h; cases h; simpa using hp

/-- `eat_while` stops at the end or at a character failing the predicate. -/
theorem eatWhile_stops {l : Lexer} {p : Char → Bool} {c : Char} {cs : Text}
    (h : (l.eatWhile p).chars = c :: cs) : p c = false :=
  eatWhileN_stops p _ l (Nat.le_refl _) c cs h

theorem eatWhitespace_stops {l : Lexer} {c : Char} {cs : Text}
    (h : l.eatWhitespace.chars = c :: cs) : isWhitespace c = false :=
  eatWhile_stops (l := l) h

theorem Reach.prevLoc {l l' : Lexer} (h : Reach false l l') : l'.prevLoc = l.prevLoc := by
  induction h with
  | refl => rfl
  | adv _ ih => rw [advance_prevLoc, ih]
  | mark hb _ _ => cases hb

/-! ### no pass yields the end-of-input token -/

theorem number_ne_eof {l l' : Lexer} : l.number ≠ .ok (.eof, l') := by
  intro h
  unfold number at h
  simp only [bind, Except.bind] at h
  repeat' split at h
  all_goals cases h

theorem operator_ne_eof {l l' : Lexer} : l.operator ≠ .ok (.tok .eof l') := by
  intro h
  unfold operator at h
  simp only [bind, Except.bind] at h
  repeat' split at h
  all_goals cases h

theorem string_ne_eof {l : Lexer} : l.string.1 ≠ .eof := by
  intro h
  unfold string at h
  simp only at h
  repeat' split at h
  all_goals cases h

theorem unicodeEscape_ne_eof {l l' : Lexer} {loc : Loc} : l.unicodeEscape loc ≠ .ok (.eof, l') := by
  intro h
  unfold unicodeEscape at h
  simp only [bind, Except.bind] at h
  repeat' split at h
  all_goals cases h

theorem charEscape_ne_eof {l l' : Lexer} {loc : Loc} : l.charEscape loc ≠ .ok (.eof, l') := by
  intro h
  unfold charEscape at h
  simp only at h
  repeat' split at h
  all_goals first | exact unicodeEscape_ne_eof h | cases h

section
variable [CharTables]

theorem charLit_ne_eof {l l' : Lexer} : l.charLit ≠ .ok (.eof, l') := by
  intro h
  unfold charLit at h
  simp only [bind, Except.bind] at h
  repeat' split at h
  all_goals first | exact charEscape_ne_eof h | cases h

theorem backtick_ne_eof {l l' : Lexer} : l.backtick ≠ .ok (.eof, l') := by
  intro h
  unfold backtick promotedOperator at h
  simp only [bind, Except.bind] at h
  repeat' split at h
  all_goals cases h

theorem ident_ne_eof {l l' : Lexer} {c : Char} : l.ident c ≠ .ok (.eof, l') := by
  intro h
  unfold ident identifier at h
  simp only [bind, Except.bind] at h
  repeat' split at h
  all_goals try cases h
  rename_i h2
  split at h2
  · injection h2 with h2
    split at h2 <;> cases h2
  · cases h2

theorem dispatch_ne_eof {l l' : Lexer} {c : Char} : l.dispatch c ≠ .ok (.tok .eof l') := by
  intro h
  have hp := dispatch_pass h
  generalize hr : OpRes.tok .eof l' = r at hp
  cases hp with
  | punct hc => cases hr; simp at hc
  | char _ hx => cases hr; exact charLit_ne_eof hx
  | string => injection hr with h1 h2; exact string_ne_eof h1.symm
  | number _ hx => cases hr; exact number_ne_eof hx
  | backtick _ hx => cases hr; exact backtick_ne_eof hx
  | ident _ hx => cases hr; exact ident_ne_eof hx
  | op _ hx => cases hr; exact operator_ne_eof hx
  | unknown => cases hr

end

section
variable [CharTables] [LawfulTables]

theorem isIdentStart_identChar {c : Char} (h : isIdentStart c = true) : isIdentChar c = true := by
  simp only [isIdentStart, hasCase, Bool.or_eq_true, beq_iff_eq] at h
  simp only [isIdentChar, Bool.or_eq_true, beq_iff_eq]
  rcases h with h | h | h
  · exact .inl (.inr h)
  · exact .inl (.inl (LawfulTables.alphabetic_alnum c (LawfulTables.upper_alphabetic c h)))
  · exact .inl (.inl (LawfulTables.alphabetic_alnum c (LawfulTables.lower_alphabetic c h)))

/-- One pass consumes a character, or reports an unknown one. -/
theorem dispatch_progress {l : Lexer} {c : Char} {cs : Text} {r : OpRes} (hch : l.chars = c :: cs)
    (h : l.dispatch c = .ok r) :
    r.lexer.chars.length < l.chars.length ∨ (r = .tok (.error .unknown) l ∧
      isDigit10 c = false ∧ isIdentStart c = false ∧ isInfixChar c = false ∧
      c ∉ t!";'\"`()[]{},") := by
  have hlt := advance_length_lt hch
  have key : Reach true l.advance r.lexer → r.lexer.chars.length < l.chars.length :=
    fun hr => Nat.lt_of_le_of_lt hr.length_le hlt
  cases dispatch_pass h with
  | punct => exact .inl (key (.refl _))
  | char _ hx => exact .inl (key (reach_charLit hx))
  | string => exact .inl (key (reach_string_advance l))
  | number hc hx => refine .inl (key ?_); rw [reach_number hx]; exact reach_advance_eatWhile hch hc
  | backtick _ hx => exact .inl (key (reach_backtick hx))
  | ident hc hx =>
    refine .inl (key ?_); rw [reach_ident hx]
    exact reach_advance_eatWithTrailing hch (isIdentStart_identChar hc)
  | op hc hx => exact .inl (key ((reach_advance_eatWithTrailing hch hc).trans (reach_operator hx)))
  | unknown h1 h2 h3 h4 h5 h6 h7 => exact .inr ⟨rfl, h3, h5, h7, by simp_all⟩

/-- Where `lex` ends up: at a state `m` that starts with a token (or at the end). -/
theorem lexN_land {n : Nat} {l l' : Lexer} {t : Token} (h : lexN n l = .ok (t, l'))
    (hn : l.chars.length < n) :
    ∃ m, Reach true l m ∧ m.prevLoc = m.currLoc ∧
      ((m.chars = [] ∧ t = .eof ∧ l' = m) ∨
       (∃ c cs, m.chars = c :: cs ∧ isWhitespace c = false ∧ m.dispatch c = .ok (.tok t l'))) := by
  induction n generalizing l with
  | zero => omega
  | succ n ih =>
    unfold lexN at h
    have hw := reach_eatWhitespace l
    split at h
    · rename_i hch; cases h; exact ⟨_, hw, rfl, .inl ⟨hch, rfl, rfl⟩⟩
    · rename_i c cs hch
      split at h
      · cases h
      · rename_i hd; cases h; exact ⟨_, hw, rfl, .inr ⟨c, cs, hch, eatWhitespace_stops hch, hd⟩⟩
      · rename_i l1 hd
        have hlt : l1.chars.length < l.eatWhitespace.chars.length := by
          rcases dispatch_progress hch hd with h1 | h1
          · exact h1
          · cases h1.1
        obtain ⟨m, hr, hrest⟩ := ih h (by have := hw.length_le; omega)
        exact ⟨m, (hw.trans (reach_dispatch hd)).trans hr, hrest⟩

/-- Enough fuel is enough. -/
theorem lexN_fuel {n k : Nat} {l : Lexer} (hn : l.chars.length < n) (hk : l.chars.length < k) :
    lexN n l = lexN k l := by
  induction n generalizing l k with
  | zero => omega
  | succ n ih =>
    cases k with
    | zero => omega
    | succ k =>
      unfold lexN
      cases hch : l.eatWhitespace.chars with
      | nil => rfl
      | cons c cs =>
        simp only
        cases hd : l.eatWhitespace.dispatch c with
        | error p => rfl
        | ok r =>
          cases r with
          | tok t m => rfl
          | skipped m =>
            have hlt : m.chars.length < l.eatWhitespace.chars.length := by
              rcases dispatch_progress hch hd with h1 | h1
              · exact h1
              · cases h1.1
            have := (reach_eatWhitespace l).length_le
            exact ih (by omega) (by omega)

end

end Lexer
end Pemdas
