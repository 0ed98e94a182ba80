import Verif.Lemmas.LexText
/-
Facts about the text-only lexer.
-/
namespace Pemdas
namespace TLex

/-! ### runs -/

theorem munch_shape (p : Char → Bool) (s : Text) : Shape p (munch p s).1 :=
  ⟨_, _, rfl, Lexer.all_takeWhile p s, Lexer.all_takeWhile isTrailing _⟩

theorem head_dropWhile {p : Char → Bool} {s : Text} {c : Char} {cs : Text}
    (h : s.dropWhile p = c :: cs) : p c = false := by
  induction s with
  | nil => simp at h
  | cons d ds ih =>
    rw [List.dropWhile_cons] at h
    split at h
    · exact ih h
    · rename_i hp; cases h; simpa using hp

/-- No extension of the munched text has the same shape. -/
theorem munch_maximal {p : Char → Bool} {s ext rest : Text} (h : (munch p s).2 = ext ++ rest)
    (hne : ext ≠ []) : ¬ Shape p ((munch p s).1 ++ ext) := by
  rintro ⟨b, t, he, hb, ht⟩
  obtain ⟨d, ds, rfl⟩ : ∃ d ds, ext = d :: ds := by
    cases ext with
    | nil => exact absurd rfl hne
    | cons d ds => exact ⟨d, ds, rfl⟩
  unfold munch at h he
  simp only at h he
  have hd : isTrailing d = false := head_dropWhile (cs := ds ++ rest) h
  -- `d` is not trailing, so it lies in `b`
  have hmem : ∃ k, b = (s.takeWhile p ++ (s.dropWhile p).takeWhile isTrailing) ++ d :: k := by
    rcases List.append_eq_append_iff.1 he with ⟨u, hu1, hu2⟩ | ⟨u, hu1, hu2⟩
    · cases u with
      | nil =>
        simp only [List.append_nil, List.nil_append] at hu1 hu2
        rw [← hu2] at ht
        simp [hd] at ht
      | cons v vs =>
        rw [List.cons_append] at hu2
        injection hu2 with h1 h2
        exact ⟨vs, by rw [hu1, h1]⟩
    · rw [hu2] at ht
      simp [hd] at ht
  obtain ⟨k, hk⟩ := hmem
  rw [hk] at hb
  simp only [List.all_append, List.all_cons, Bool.and_eq_true] at hb
  obtain ⟨⟨_, h2⟩, h3, _⟩ := hb
  cases hdw : s.dropWhile p with
  | nil => rw [hdw] at h; simp at h
  | cons e es =>
    have hpe := head_dropWhile hdw
    rw [hdw] at h h2
    rw [List.dropWhile_cons] at h
    split at h
    · rename_i hte
      rw [List.takeWhile_cons, if_pos hte] at h2
      simp [hpe] at h2
    · cases h; rw [hpe] at h3; cases h3

theorem takeWhile_append_stop {p : Char → Bool} {a r : Text} (ha : a.all p = true)
    (hr : ∀ c ∈ r.head?, p c = false) : (a ++ r).takeWhile p = a ∧ (a ++ r).dropWhile p = r := by
  induction a with
  | nil =>
    cases r with
    | nil => simp
    | cons c cs => have := hr c (by simp); simp [this]
  | cons c a ih =>
    simp only [List.all_cons, Bool.and_eq_true] at ha
    simp [ha.1, ih ha.2]

/-! ### numbers -/

/-- Value of a digit string read after a number `a`. -/
def decFrom (a : Nat) (s : Text) : Nat := s.foldl (fun a c => a * 10 + (c.toNat - 48)) a

theorem decFrom_cons (a : Nat) (c : Char) (s : Text) :
    decFrom a (c :: s) = decFrom (a * 10 + (c.toNat - 48)) s := by
  simp only [decFrom, List.foldl_cons]

theorem le_decFrom (s : Text) (a : Nat) : a ≤ decFrom a s := by
  induction s generalizing a with
  | nil => exact Nat.le_refl _
  | cons d s ih =>
    rw [decFrom_cons]
    exact Nat.le_trans (by omega) (ih _)

theorem usizeBound_pos : 0 < Lexer.usizeBound := by decide

attribute [local irreducible] Lexer.usizeBound

theorem parseUsizeLoop_eq {s : Text} (h : s.all isDigit10 = true) (acc : Nat)
    (hacc : acc < Lexer.usizeBound) :
    Lexer.parseUsizeLoop s acc =
      if decFrom acc s < Lexer.usizeBound then .ok (decFrom acc s) else .error .posOverflow := by
  induction s generalizing acc with
  | nil => simp [Lexer.parseUsizeLoop, decFrom, hacc]
  | cons c s ih =>
    simp only [List.all_cons, Bool.and_eq_true] at h
    rw [decFrom_cons, Lexer.parseUsizeLoop, if_pos h.1]
    simp only
    by_cases hv : acc * 10 + (c.toNat - 48) < Lexer.usizeBound
    · rw [if_pos hv]; exact ih h.2 _ hv
    · rw [if_neg hv]
      have := le_decFrom s (acc * 10 + (c.toNat - 48))
      rw [if_neg (show ¬ decFrom (acc * 10 + (c.toNat - 48)) s < Lexer.usizeBound by omega)]

theorem isDigit10_ne_plus {c : Char} (h : isDigit10 c = true) : c ≠ '+' := by
  rintro rfl; simp [isDigit10] at h

theorem parseUsize_eq {s : Text} (h : s.all isDigit10 = true) (hne : s ≠ []) :
    Lexer.parseUsize s =
      if decValue s < Lexer.usizeBound then .ok (decValue s) else .error .posOverflow := by
  cases s with
  | nil => exact absurd rfl hne
  | cons c s =>
    have hc : c ≠ '+' := by
      simp only [List.all_cons, Bool.and_eq_true] at h
      exact isDigit10_ne_plus h.1
    unfold Lexer.parseUsize
    split
    · rename_i h'; cases h'
    · rename_i h'; cases h'; exact absurd rfl hc
    · rename_i h'; cases h'; exact absurd rfl hc
    · exact parseUsizeLoop_eq h 0 usizeBound_pos

/-! ### what one pass yields is spelled by what it consumes -/

theorem operator_tok {s r : Text} {t : Token} (h : operator s = .tok t r) :
    (∃ e, t = .error e) ∨
    (Spells t (munch isInfixChar s).1 ∧ t.isOperator = true ∧ r = (munch isInfixChar s).2) := by
  unfold operator at h
  simp only at h
  repeat' split at h
  all_goals first
    | (cases h; exact .inl ⟨_, rfl⟩)
    | (cases h; right; refine ⟨by assumption, rfl, rfl⟩)
    | (cases h; right; refine ⟨rfl, rfl, rfl⟩)
    | cases h

section
variable [CharTables]

theorem word_spells {c : Char} {s : Text} {t : Token} (h : word c s = .ok t) :
    Spells t s ∧ t.isWord = true := by
  unfold word Lexer.identifier at h
  repeat' split at h
  all_goals first
    | (cases h; exact ⟨rfl, rfl⟩)
    | (cases h; exact ⟨by assumption, rfl⟩)
    | cases h

omit [CharTables] in
theorem of_ok {x : Token × Text} {t : Token} {r : Text}
    (h : (.ok (R.of x) : Except Panic R) = .ok (.tok t r)) : x = (t, r) := by
  injection h with h
  injection h with h1 h2
  rw [← h1, ← h2]

/-- What a token says about the text it was read from. -/
def Reads (s : Text) (t : Token) (x r : Text) : Prop :=
  Spells t x ∧
  (t.isWord = true → x = (munch isIdentChar s).1 ∧ r = (munch isIdentChar s).2) ∧
  (t.isOperator = true → x = (munch isInfixChar s).1 ∧ r = (munch isInfixChar s).2)

theorem reads_error (s : Text) (e : LexError) (x r : Text) : Reads s (.error e) x r :=
  ⟨trivial, by simp [Token.isWord], by simp [Token.isOperator]⟩

theorem reads_char (s : Text) (c : Char) (x r : Text) : Reads s (.lit (.char c)) x r :=
  ⟨trivial, by simp [Token.isWord], by simp [Token.isOperator]⟩

theorem charEscape_reads (s s' x : Text) {t : Token} {r : Text} (h : charEscape s = (t, r)) :
    Reads s' t x r := by
  have hu : ∀ {s t r}, unicode s = (t, r) → Reads s' t x r := by
    intro s t r h
    unfold unicode at h
    simp only at h
    repeat' split at h
    all_goals (injection h with h1 h2; subst h1)
    all_goals first | exact reads_error _ _ _ _ | exact reads_char _ _ _ _
  unfold charEscape at h
  repeat' split at h
  all_goals first
    | exact hu h
    | (injection h with h1 h2; subst h1; first | exact reads_error _ _ _ _ | exact reads_char _ _ _ _)

theorem charLit_spells {c : Char} {cs x r : Text} {t : Token} (hc : c = '\'')
    (h : charLit (c :: cs) = (t, r)) (hx : c :: cs = x ++ r) : Reads (c :: cs) t x r := by
  unfold charLit at h
  simp only at h
  split at h
  · injection h with h1 h2; subst h1; exact reads_error _ _ _ _
  split at h
  · exact charEscape_reads _ _ _ h
  split at h
  · injection h with h1 h2; subst h1; exact reads_error _ _ _ _
  rename_i hnul
  split at h
  · injection h with h1 h2; subst h1; exact reads_char _ _ _ _
  obtain ⟨d, ds, rfl⟩ : ∃ d ds, cs = d :: ds := by
    cases cs with
    | nil => simp at hnul
    | cons d ds => exact ⟨d, ds, rfl⟩
  have done : ∀ {sym : Text}, c :: d :: ds = (c :: sym) ++ r → t = .affix sym true →
      Reads (c :: d :: ds) t x r := by
    intro sym h1 h2
    subst h2
    have : x = c :: sym := List.append_cancel_right (hx.symm.trans h1)
    exact ⟨.inl (by rw [this, hc]), by simp [Token.isWord], by simp [Token.isOperator]⟩
  split at h
  · simp only [List.headD_cons, List.tail_cons] at h
    injection h with h1 h2
    refine done ?_ h1.symm
    rw [← h2]; cases ds <;> simp
  split at h
  · simp only [List.headD_cons, List.tail_cons] at h
    injection h with h1 h2
    refine done ?_ h1.symm
    rw [← h2]
    have := Lexer.munch_append isIdentChar ds
    simp only [List.cons_append]
    rw [← this]
  · injection h with h1 h2; subst h1; exact reads_error _ _ _ _

theorem string_spells {s x r : Text} {t : Token} (h : string s = (t, r)) : Reads s t x r := by
  unfold string at h
  split at h <;> (injection h with h1 h2; subst h1)
  · exact ⟨trivial, by simp [Token.isWord], by simp [Token.isOperator]⟩
  · exact reads_error _ _ _ _

theorem number_spells {c : Char} {cs x r : Text} {t : Token} (hc : isDigit10 c = true)
    (h : number (c :: cs) = (t, r)) (hx : c :: cs = x ++ r) : Reads (c :: cs) t x r := by
  unfold number at h
  injection h with h1 h2
  have hall := Lexer.all_takeWhile isDigit10 (c :: cs)
  have hne : (c :: cs).takeWhile isDigit10 ≠ [] := by simp [hc]
  rw [parseUsize_eq hall hne] at h1
  have hxe : x = (c :: cs).takeWhile isDigit10 := by
    apply List.append_cancel_right (bs := r)
    rw [← hx, ← h2]; simp only [List.takeWhile_append_dropWhile]
  by_cases hv : decValue ((c :: cs).takeWhile isDigit10) < Lexer.usizeBound
  · rw [if_pos hv] at h1
    subst h1
    refine ⟨?_, by simp [Token.isWord], by simp [Token.isOperator]⟩
    subst hxe
    exact ⟨hne, hall, rfl⟩
  · rw [if_neg hv] at h1
    subst h1
    exact reads_error _ _ _ _

theorem backtick_spells {c : Char} {cs x r : Text} {t : Token} (hc : c = '`')
    (h : backtick (c :: cs) = (t, r)) (hx : c :: cs = x ++ r) : Reads (c :: cs) t x r := by
  unfold backtick at h
  simp only at h
  split at h
  · rename_i hid
    obtain ⟨d, ds, rfl⟩ : ∃ d ds, cs = d :: ds := by
      cases cs with
      | nil => simp at hid
      | cons d ds => exact ⟨d, ds, rfl⟩
    split at h
    · rename_i hq
      simp only [List.tail_cons] at h hq
      injection h with h1 h2
      subst h1
      refine ⟨.inr ?_, by simp [Token.isWord], by simp [Token.isOperator]⟩
      apply List.append_cancel_right (bs := r)
      rw [← hx, ← h2, hc]
      have hm := Lexer.munch_append isIdentChar ds
      obtain ⟨ms, hms⟩ : ∃ ms, (munch isIdentChar ds).2 = '`' :: ms := by
        cases hh : (munch isIdentChar ds).2 with
        | nil => rw [hh] at hq; simp at hq
        | cons a b => rw [hh] at hq; simp at hq; exact ⟨b, by rw [hq]⟩
      rw [hms] at hm ⊢
      simp only [List.take_succ_cons, List.take_zero, List.cons_append, List.nil_append,
        List.append_assoc, List.tail_cons]
      rw [← hm]
    · injection h with h1 h2; subst h1; exact reads_error _ _ _ _
  · injection h with h1 h2; subst h1; exact reads_error _ _ _ _

theorem ident_spells {c : Char} {s x r : Text} {t : Token}
    (h : ident c s = .ok (.tok t r)) (hx : s = x ++ r) : Reads s t x r := by
  unfold ident at h
  split at h
  · rename_i t' hw
    injection h with h
    injection h with h1 h2
    subst h1 h2
    have hxe : x = (munch isIdentChar s).1 :=
      List.append_cancel_right (hx.symm.trans (Lexer.munch_append isIdentChar s))
    obtain ⟨h3, h4⟩ := word_spells hw
    refine ⟨by rw [hxe]; exact h3, fun _ => ⟨hxe, rfl⟩, ?_⟩
    intro h5
    revert h4 h5
    cases t' <;> simp [Token.isWord, Token.isOperator]
  · cases h

omit [CharTables] in
theorem spells_operator_not_word {t : Token} (h : t.isOperator = true) : t.isWord = false := by
  cases t <;> simp_all [Token.isWord, Token.isOperator]

theorem operator_spells {s x r : Text} {t : Token}
    (h : operator s = .tok t r) (hx : s = x ++ r) : Reads s t x r := by
  rcases operator_tok h with ⟨e, rfl⟩ | ⟨h1, h2, h3⟩
  · exact reads_error _ _ _ _
  · subst h3
    have hxe : x = (munch isInfixChar s).1 :=
      List.append_cancel_right (hx.symm.trans (Lexer.munch_append isInfixChar s))
    refine ⟨by rw [hxe]; exact h1, ?_, fun _ => ⟨hxe, rfl⟩⟩
    intro h5
    rw [spells_operator_not_word h2] at h5
    cases h5

theorem dispatch_reads {c : Char} {cs x r : Text} {t : Token}
    (h : dispatch (c :: cs) c = .ok (.tok t r)) (hx : c :: cs = x ++ r) : Reads (c :: cs) t x r := by
  have cancel : ∀ (d : Char) (ds : Text), d :: ds = x ++ ds → x = [d] := by
    intro d ds h
    exact List.append_cancel_right (bs := ds) (by rw [← h]; rfl)
  unfold dispatch at h
  by_cases hc : c = ';'
  · rw [if_pos hc] at h; cases h; subst hc
    exact ⟨by simpa [Spells] using cancel _ _ hx, by simp [Token.isWord], by simp [Token.isOperator]⟩
  rw [if_neg hc] at h; clear hc
  by_cases hc : c = '\''
  · rw [if_pos hc] at h
    exact charLit_spells hc (of_ok h) hx
  rw [if_neg hc] at h; clear hc
  by_cases hc : c = '"'
  · rw [if_pos hc] at h
    exact string_spells (of_ok h)
  rw [if_neg hc] at h; clear hc
  by_cases hc : isDigit10 c = true
  · rw [if_pos hc] at h
    exact number_spells hc (of_ok h) hx
  rw [if_neg hc] at h; clear hc
  by_cases hc : c = '`'
  · rw [if_pos hc] at h
    exact backtick_spells hc (of_ok h) hx
  rw [if_neg hc] at h; clear hc
  by_cases hc : isIdentStart c = true
  · rw [if_pos hc] at h
    exact ident_spells h hx
  rw [if_neg hc] at h; clear hc
  by_cases hc : c = '('
  · rw [if_pos hc] at h; cases h; subst hc
    exact ⟨by simpa [Spells] using cancel _ _ hx, by simp [Token.isWord], by simp [Token.isOperator]⟩
  rw [if_neg hc] at h; clear hc
  by_cases hc : c = ')'
  · rw [if_pos hc] at h; cases h; subst hc
    exact ⟨by simpa [Spells] using cancel _ _ hx, by simp [Token.isWord], by simp [Token.isOperator]⟩
  rw [if_neg hc] at h; clear hc
  by_cases hc : c = '['
  · rw [if_pos hc] at h; cases h; subst hc
    exact ⟨by simpa [Spells] using cancel _ _ hx, by simp [Token.isWord], by simp [Token.isOperator]⟩
  rw [if_neg hc] at h; clear hc
  by_cases hc : c = ']'
  · rw [if_pos hc] at h; cases h; subst hc
    exact ⟨by simpa [Spells] using cancel _ _ hx, by simp [Token.isWord], by simp [Token.isOperator]⟩
  rw [if_neg hc] at h; clear hc
  by_cases hc : c = '{'
  · rw [if_pos hc] at h; cases h; subst hc
    exact ⟨by simpa [Spells] using cancel _ _ hx, by simp [Token.isWord], by simp [Token.isOperator]⟩
  rw [if_neg hc] at h; clear hc
  by_cases hc : c = '}'
  · rw [if_pos hc] at h; cases h; subst hc
    exact ⟨by simpa [Spells] using cancel _ _ hx, by simp [Token.isWord], by simp [Token.isOperator]⟩
  rw [if_neg hc] at h; clear hc
  by_cases hc : c = ','
  · rw [if_pos hc] at h; cases h; subst hc
    exact ⟨by simpa [Spells] using cancel _ _ hx, by simp [Token.isWord], by simp [Token.isOperator]⟩
  rw [if_neg hc] at h; clear hc
  by_cases hc : isInfixChar c = true
  · rw [if_pos hc] at h
    exact operator_spells (by simpa using h) hx
  rw [if_neg hc] at h; clear hc
  injection h with h
  injection h with h1 h2
  subst h1
  exact reads_error _ _ _ _

end

/-! ### fuel -/

theorem munch_length {p : Char → Bool} {c : Char} {cs : Text} (h : p c = true) :
    (munch p (c :: cs)).2.length ≤ cs.length := by
  unfold munch
  simp only [List.dropWhile_cons, h, if_true]
  exact Nat.le_trans (List.dropWhile_suffix _).length_le (List.dropWhile_suffix _).length_le

theorem block_length {s : Text} {d : Nat} {r : Text} (h : block s d = some r) :
    r.length ≤ s.length := by
  induction s, d using block.induct with
  | case1 s => simp [block] at h; rw [h]; exact Nat.le_refl _
  | case2 d => simp [block] at h
  | case3 cs d hc ih =>
    rw [block, if_pos hc] at h; have := ih h; simp only [List.length_cons]; omega
  | case4 cs d hc ih =>
    rw [block, if_neg hc] at h; have := ih h; simp only [List.length_cons]; omega
  | case5 cs d ih => rw [block] at h; have := ih h; simp only [List.length_cons]; omega
  | case6 c cs d h1 h2 ih =>
    rw [block.eq_5 _ _ _ h1 h2] at h; have := ih h; simp only [List.length_cons]; omega

theorem operator_skipped {c : Char} {cs r : Text} (hc : isInfixChar c = true)
    (h : operator (c :: cs) = .skipped r) : r.length < (c :: cs).length := by
  have hm := munch_length (cs := cs) hc
  unfold operator at h
  simp only at h
  split at h
  · split at h
    · split at h
      · cases h
      · rename_i r' hr
        injection h with h
        have := block_length hr
        rw [← h]
        simp only [List.length_tail, List.length_cons] at *
        omega
    · cases h
  · split at h
    · injection h with h
      rw [← h]
      have := (List.dropWhile_suffix (l := (munch isInfixChar (c :: cs)).2) (· != '\n')).length_le
      simp only [List.length_cons]
      omega
    · repeat' split at h
      all_goals cases h

section
variable [CharTables]

theorem dispatch_skipped {c : Char} {s r : Text} (h : dispatch s c = .ok (.skipped r)) :
    isInfixChar c = true ∧ operator s = .skipped r := by
  have noof : ∀ x : Token × Text, (.ok (R.of x) : Except Panic R) ≠ .ok (.skipped r) := by
    intro x h; injection h with h; cases h
  unfold dispatch at h
  by_cases hc : c = ';'
  · rw [if_pos hc] at h; cases h
  rw [if_neg hc] at h; clear hc
  by_cases hc : c = '\''
  · rw [if_pos hc] at h; exact absurd h (noof _)
  rw [if_neg hc] at h; clear hc
  by_cases hc : c = '"'
  · rw [if_pos hc] at h; exact absurd h (noof _)
  rw [if_neg hc] at h; clear hc
  by_cases hc : isDigit10 c = true
  · rw [if_pos hc] at h; exact absurd h (noof _)
  rw [if_neg hc] at h; clear hc
  by_cases hc : c = '`'
  · rw [if_pos hc] at h; exact absurd h (noof _)
  rw [if_neg hc] at h; clear hc
  by_cases hc : isIdentStart c = true
  · rw [if_pos hc] at h
    unfold ident at h
    split at h <;> cases h
  rw [if_neg hc] at h; clear hc
  by_cases hc : c = '('
  · rw [if_pos hc] at h; cases h
  rw [if_neg hc] at h; clear hc
  by_cases hc : c = ')'
  · rw [if_pos hc] at h; cases h
  rw [if_neg hc] at h; clear hc
  by_cases hc : c = '['
  · rw [if_pos hc] at h; cases h
  rw [if_neg hc] at h; clear hc
  by_cases hc : c = ']'
  · rw [if_pos hc] at h; cases h
  rw [if_neg hc] at h; clear hc
  by_cases hc : c = '{'
  · rw [if_pos hc] at h; cases h
  rw [if_neg hc] at h; clear hc
  by_cases hc : c = '}'
  · rw [if_pos hc] at h; cases h
  rw [if_neg hc] at h; clear hc
  by_cases hc : c = ','
  · rw [if_pos hc] at h; cases h
  rw [if_neg hc] at h; clear hc
  by_cases hc : isInfixChar c = true
  · rw [if_pos hc] at h; exact ⟨hc, by injection h⟩
  rw [if_neg hc] at h; cases h

theorem lexN_fuel {n k : Nat} {s : Text} (hn : s.length < n) (hk : s.length < k) :
    lexN n s = lexN k s := by
  induction n generalizing s k with
  | zero => omega
  | succ n ih =>
    cases k with
    | zero => omega
    | succ k =>
      unfold lexN
      cases hch : s.dropWhile isWhitespace with
      | nil => rfl
      | cons c cs =>
        simp only
        cases hd : dispatch (c :: cs) c with
        | error p => rfl
        | ok r =>
          cases r with
          | tok t m => rfl
          | skipped m =>
            obtain ⟨h1, h2⟩ := dispatch_skipped hd
            have h3 := operator_skipped h1 h2
            have h4 := (List.dropWhile_suffix (l := s) isWhitespace).length_le
            rw [hch] at h4
            exact ih (by omega) (by omega)

theorem lex_eq {n : Nat} {s : Text} (h : s.length < n) : lexN n s = lex s :=
  lexN_fuel h (Nat.lt_succ_self _)

/-- `lex` on a text that starts with a token or comment. -/
theorem lex_cons {c : Char} {cs : Text} (h : isWhitespace c = false) :
    lex (c :: cs) =
      match dispatch (c :: cs) c with
      | .error p => .error p
      | .ok (.tok t r) => .ok (t, r)
      | .ok (.skipped r) => lex r := by
  have hdw : (c :: cs).dropWhile isWhitespace = c :: cs := by simp [h]
  unfold lex
  rw [lexN, hdw]
  simp only
  cases hd : dispatch (c :: cs) c with
  | error p => rfl
  | ok r =>
    cases r with
    | tok t m => rfl
    | skipped m =>
      obtain ⟨h1, h2⟩ := dispatch_skipped hd
      exact lexN_fuel (operator_skipped h1 h2) (Nat.lt_succ_self _)

theorem lex_space {c : Char} {cs : Text} (h : isWhitespace c = true) : lex (c :: cs) = lex cs := by
  rw [← lex_eq (n := cs.length + 2) (s := cs) (by omega)]
  unfold lex lexN
  simp only [List.dropWhile_cons, h, if_true, List.length_cons]

theorem lex_nil : lex [] = .ok (.eof, []) := rfl

section
variable [LawfulTables]

theorem ascii_identStart {c : Char} (h : c.toNat < 128) :
    isIdentStart c = (c == '_' || (asciiUpper c || asciiLower c)) := by
  simp only [isIdentStart, hasCase, LawfulTables.ascii_lower c h, LawfulTables.ascii_upper c h]

theorem ascii_identChar {c : Char} (h : c.toNat < 128) :
    isIdentChar c = (asciiLower c || asciiUpper c || isDigit10 c || c == '_' || c == '\'') := by
  simp only [isIdentChar, LawfulTables.ascii_alnum c h]

theorem dispatch_infix {c : Char} (s : Text) (h : isInfixChar c = true) :
    dispatch s c = .ok (operator s) := by
  have hm : c ∈ infixChars := by simpa [isInfixChar] using h
  have h1 : c.toNat < 128 ∧ (c == '_' || (asciiUpper c || asciiLower c)) = false ∧
      isDigit10 c = false ∧ c ≠ ';' ∧ c ≠ '\'' ∧ c ≠ '"' ∧ c ≠ '`' ∧ c ≠ '(' ∧ c ≠ ')' ∧ c ≠ '[' ∧
      c ≠ ']' ∧ c ≠ '{' ∧ c ≠ '}' ∧ c ≠ ',' := by
    revert hm; clear h; revert c; decide
  obtain ⟨ha, hid, hdg, h1, h2, h3, h4, h5, h6, h7, h8, h9, h10, h11⟩ := h1
  rw [← ascii_identStart ha] at hid
  simp [dispatch, hid, hdg, h1, h2, h3, h4, h5, h6, h7, h8, h9, h10, h11, h]

omit [CharTables] [LawfulTables] in
theorem infix_not_ws {c : Char} (h : isInfixChar c = true) : isWhitespace c = false := by
  have hm : c ∈ infixChars := by simpa [isInfixChar] using h
  revert hm; clear h; revert c; decide

/-! ### gaps -/

omit [CharTables] [LawfulTables] in
theorem munch_head {p : Char → Bool} {a r : Text} (ha : a.all p = true)
    (hr : ∀ c ∈ r.head?, p c = false ∧ isTrailing c = false) : munch p (a ++ r) = (a, r) := by
  obtain ⟨h1, h2⟩ := takeWhile_append_stop ha (fun c hc => (hr c hc).1)
  obtain ⟨h3, h4⟩ := takeWhile_append_stop (p := isTrailing) (a := []) (r := r) rfl
    (fun c hc => (hr c hc).2)
  simp only [List.nil_append] at h3 h4
  unfold munch
  rw [h1, h2, h3, h4]
  simp

theorem lex_line {b rest : Text} (hb : '\n' ∉ b)
    (hh : ∀ c ∈ b.head?, isInfixChar c = false ∧ isTrailing c = false) :
    lex (t!"~~" ++ b ++ t!"\n" ++ rest) = lex rest := by
  have e : t!"~~" ++ b ++ t!"\n" ++ rest = '~' :: '~' :: (b ++ '\n' :: rest) := by simp
  rw [e, lex_cons (by decide), dispatch_infix _ (by decide)]
  have hop : operator ('~' :: '~' :: (b ++ '\n' :: rest)) = .skipped ('\n' :: rest) := by
    have hm : munch isInfixChar ('~' :: '~' :: (b ++ '\n' :: rest)) =
        (t!"~~", b ++ '\n' :: rest) := by
      apply munch_head (a := t!"~~") (by decide)
      intro c hc
      cases b with
      | nil =>
        have : c = '\n' := by simpa using hc.symm
        subst this; decide
      | cons d ds => exact hh c (by simpa using hc)
    unfold operator
    rw [hm]
    have hd : (b ++ '\n' :: rest).dropWhile (· != '\n') = '\n' :: rest := by
      refine (takeWhile_append_stop (p := (· != '\n')) ?_ (by simp)).2
      simp only [List.all_eq_true, bne_iff_ne, ne_eq]
      rintro x hx rfl
      exact hb hx
    simp [hd]
  rw [hop]
  simp only
  exact lex_space (by decide)

theorem lex_gap {g s : Text} (h : Gap g) : lex (g ++ s) = lex s := by
  induction h with
  | nil => rfl
  | space hc _ ih => rw [List.cons_append, lex_space hc, ih]
  | line hb hh _ ih => rw [List.append_assoc, lex_line hb hh, ih]

end
end

end TLex
end Pemdas
