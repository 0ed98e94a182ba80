import Verif.Lemmas.LexTok
import Verif.Spec.BadWord
/-
C29 token text, C30 maximal munch, C31 integers, C32 gaps, C33 block comments, C34 strings,
C35 characters, C36 panics, C71 promoted operators.
-/
namespace Pemdas
namespace Lexer

/-! ### C29 -/

section
variable [CharTables] [LawfulTables]

/-- The token that `next` yields, in a source without "\n\r": its text and where it stops. -/
theorem next_reads {src : Text} (hc : NoLFCR src) {l l' : Lexer} (hl : Point src l) {t : Token}
    {sp : LocSpan} (h : l.next = .ok (some (t, sp), l')) :
    ∃ m : Lexer, ∃ x : Text, Reach true l m ∧ m.prevLoc = m.currLoc ∧ m.chars = x ++ l'.chars ∧
      m.Sync ∧ TLex.Reads m.chars t.noLoc x l'.chars ∧
      ((∀ s, t ≠ .lit (.str s)) → (∀ e, t ≠ .error e) →
        byteSlice src sp.lo.pos sp.hi.pos = some x ∧ ∃ c y, x = c :: y ∧ isWhitespace c = false) := by
  obtain ⟨hlex, hne, rfl⟩ := next_some h
  obtain ⟨m, hr, hm, h1⟩ := lexN_land hlex (Nat.lt_succ_self _)
  rcases h1 with ⟨_, rfl, _⟩ | ⟨c, cs, hch, hws, hd⟩
  · exact absurd rfl hne
  have hsync : m.Sync := (hl.sync hc).reach hr
  have hr2 : Reach true m l' := reach_dispatch hd
  obtain ⟨x, hx⟩ := hr2.suffix
  have hproj := sync_dispatch hsync c
  rw [hd] at hproj
  simp only [Except.map, projR] at hproj
  rw [hch] at hproj
  have hreads := TLex.dispatch_reads hproj.symm (by rw [← hch, hx])
  refine ⟨m, x, hr, hm, hx.symm, hsync, by rw [hch]; exact hreads, ?_⟩
  intro hstr herr
  have hquote : c ≠ '"' := by
    intro hcq
    cases dispatch_pass hd with
    | string =>
      have : (∃ s, l.string.1 = .lit (.str s)) ∨ ∃ e, l.string.1 = .error e := by
        unfold string; simp only; split
        · exact .inl ⟨_, rfl⟩
        · exact .inr ⟨_, rfl⟩
      have : (∃ s, m.string.1 = .lit (.str s)) ∨ ∃ e, m.string.1 = .error e := by
        unfold string; simp only; split
        · exact .inl ⟨_, rfl⟩
        · exact .inr ⟨_, rfl⟩
      rcases this with ⟨s, hs⟩ | ⟨e, he⟩
      · exact hstr _ hs
      · exact herr _ he
    | punct hc' => subst hcq; simp at hc'
    | char hc' => rw [hcq] at hc'; exact absurd hc' (by decide)
    | number hc' => rw [hcq] at hc'; exact absurd hc' (by decide)
    | backtick hc' => rw [hcq] at hc'; exact absurd hc' (by decide)
    | ident hc' => rw [hcq, TLex.ascii_identStart (by decide)] at hc'; exact absurd hc' (by decide)
    | op hc' => rw [hcq] at hc'; exact absurd hc' (by decide)
    | unknown h1 h2 => exact h2 hcq
  have hr3 : Reach false m l' := reach_dispatch' hd (fun hcq => absurd hcq hquote)
  have hprev : l'.prevLoc = m.currLoc := by rw [hr3.prevLoc, hm]
  have hsl := hsync.slice hr2 hx.symm m rfl
  rw [slice_ok_iff] at hsl
  have hsrc : m.src = src := by rw [hr.src, hl.inv.1]
  rw [hsrc] at hsl
  simp only
  rw [hprev]
  refine ⟨hsl, ?_⟩
  cases x with
  | nil =>
    exfalso
    rcases dispatch_progress hch hd with hlt | ⟨he, _⟩
    · rw [← hx] at hlt; simp [OpRes.lexer] at hlt
    · cases he; exact herr _ rfl
  | cons d y =>
    rw [hch] at hx
    injection hx with h1 h2
    exact ⟨d, y, rfl, by rw [h1]; exact hws⟩

/-- C29 for sources without "\n\r": every token but string literals and errors is spelled by the
source text its span covers, which lies inside the source. (Missing: sources with "\n\r".) -/
theorem C29_token_text_partial {src : Text} (hc : NoLFCR src) {l l' : Lexer} (hl : Point src l)
    {t : Token} {sp : LocSpan} (h : l.next = .ok (some (t, sp), l'))
    (hstr : ∀ s, t ≠ .lit (.str s)) (herr : ∀ e, t ≠ .error e) :
    ∃ x, byteSlice src sp.lo.pos sp.hi.pos = some x ∧ Spells t x := by
  obtain ⟨m, x, _, _, _, _, hr, hs⟩ := next_reads hc hl h
  refine ⟨x, (hs hstr herr).1, ?_⟩
  have : t.noLoc = t := by
    cases t <;> first | rfl | exact absurd rfl (herr _)
  rw [← this]
  exact hr.1

example : NoLFCR t!"é + 12" := by unfold NoLFCR; decide
example : (@next asciiTables (new t!"ab + 12")).toOption.map (·.1) =
    some (some (.lower t!"ab", ⟨⟨1, 1, 0⟩, ⟨1, 3, 2⟩⟩)) := by decide

end

/-- C29 is false in general: after "\n\r" an identifier has the wrong text, and slicing may fall
inside a character or yield text that is not even a number, which makes the lexer panic. -/
theorem C29_token_text_wrong :
    (∃ l', @next asciiTables (new t!"\n\rab") = .ok (some (.lower t!"\ra", ⟨⟨2, 1, 1⟩, ⟨2, 3, 3⟩⟩), l')) ∧
    @next asciiTables (new t!"\n\r`é") = .error .badSlice ∧
    @next asciiTables (new t!"\n\r'\\u41'") = .error .hexExpect := by
  refine ⟨⟨_, by rfl⟩, by decide, by decide⟩

/-! ### C30 -/

section
variable [CharTables] [LawfulTables]

/-- C30, for all sources: an identifier, keyword or operator token consumes a non-empty run of
characters of its kind (then sub- and superscripts), and no longer run starts there. -/
theorem C30_maximal_munch {l l' : Lexer} {t : Token} {sp : LocSpan}
    (h : l.next = .ok (some (t, sp), l')) (p : Char → Bool)
    (hp : (t.isWord = true ∧ p = isIdentChar) ∨ (t.isOperator = true ∧ p = isInfixChar)) :
    ∃ s x, s <:+ l.chars ∧ s = x ++ l'.chars ∧ x ≠ [] ∧ Shape p x ∧
      ∀ ext rest, l'.chars = ext ++ rest → ext ≠ [] → ¬ Shape p (x ++ ext) := by
  obtain ⟨hlex, hne, rfl⟩ := next_some h
  obtain ⟨m, hr, hm, h1⟩ := lexN_land hlex (Nat.lt_succ_self _)
  rcases h1 with ⟨_, rfl, _⟩ | ⟨c, cs, hch, hws, hd⟩
  · exact absurd rfl hne
  have key : ∀ p : Char → Bool, p '\n' = false → p c = true → l' = m.eatWithTrailing p →
      ∃ s x, s <:+ l.chars ∧ s = x ++ l'.chars ∧ x ≠ [] ∧ Shape p x ∧
      ∀ ext rest, l'.chars = ext ++ rest → ext ≠ [] → ¬ Shape p (x ++ ext) := by
    intro p hpn hpc hl'
    have hchars := eatWithTrailing_chars hpn m
    rw [hl', hchars]
    refine ⟨m.chars, (TLex.munch p m.chars).1, hr.suffix, munch_append p _, ?_,
      TLex.munch_shape p _, fun ext rest he hne => TLex.munch_maximal he hne⟩
    rw [hch]
    unfold TLex.munch
    simp [hpc]
  rcases hp with ⟨ht, rfl⟩ | ⟨ht, rfl⟩
  · obtain ⟨h1, h2⟩ := dispatch_word hd ht
    exact key _ (by rw [TLex.ascii_identChar (by decide)]; decide) (isIdentStart_identChar h1) h2
  · obtain ⟨h1, h2⟩ := dispatch_operator hd ht
    exact key _ (by decide) h1 h2

/-- C30 with the token's own text, for sources without "\n\r". (Missing: sources with "\n\r", where
the text of the token is not that of the run, see `C29_token_text_wrong`.) -/
theorem C30_token_maximal_partial {src : Text} (hc : NoLFCR src) {l l' : Lexer} (hl : Point src l)
    {t : Token} {sp : LocSpan} (h : l.next = .ok (some (t, sp), l')) (p : Char → Bool)
    (hp : (t.isWord = true ∧ p = isIdentChar) ∨ (t.isOperator = true ∧ p = isInfixChar)) :
    ∃ x, byteSlice src sp.lo.pos sp.hi.pos = some x ∧ Spells t x ∧ Shape p x ∧
      ∀ ext rest, l'.chars = ext ++ rest → ext ≠ [] → ¬ Shape p (x ++ ext) := by
  obtain ⟨m, x, _, _, _, _, ⟨hr1, hr2, hr3⟩, hs⟩ := next_reads hc hl h
  have hnl : t.noLoc = t := by
    rcases hp with ⟨h1, _⟩ | ⟨h1, _⟩ <;> revert h1 <;> cases t <;> simp [Token.isWord, Token.isOperator, Token.noLoc]
  have hsl : byteSlice src sp.lo.pos sp.hi.pos = some x := by
    refine (hs ?_ ?_).1
    · rintro s rfl; simp [Token.isWord, Token.isOperator] at hp
    · rintro e rfl; simp [Token.isWord, Token.isOperator] at hp
  rw [hnl] at hr1 hr2 hr3
  refine ⟨x, hsl, hr1, ?_⟩
  rcases hp with ⟨ht, rfl⟩ | ⟨ht, rfl⟩
  · obtain ⟨h1, h2⟩ := hr2 ht
    rw [h1, h2]
    exact ⟨TLex.munch_shape _ _, fun ext rest he hne => TLex.munch_maximal he hne⟩
  · obtain ⟨h1, h2⟩ := hr3 ht
    rw [h1, h2]
    exact ⟨TLex.munch_shape _ _, fun ext rest he hne => TLex.munch_maximal he hne⟩

example : (@next asciiTables (new t!"a+*b")).toOption.map (·.1.map (·.1)) = some (some (.lower t!"a")) := by
  decide

end

/-! ### C31 -/

section
variable [CharTables] [LawfulTables]

omit [LawfulTables] in
/-- C31 for sources without "\n\r": at any place, a run of decimal digits is read as the integer
it denotes or reported as too large. (Missing: sources with "\n\r".) -/
theorem C31_integers_partial {src : Text} (hc : NoLFCR src) {l : Lexer} (hl : Point src l)
    {ds rest : Text} (h : l.chars = ds ++ rest) (hne : ds ≠ []) (hd : ds.all isDigit10 = true)
    (hr : ∀ c ∈ rest.head?, isDigit10 c = false) :
    ∃ t sp l', l.next = .ok (some (t, sp), l') ∧ l'.chars = rest ∧
      t.noLoc = if decValue ds < 2 ^ 64 then .lit (.int (decValue ds))
        else .error (.invalidInt .default .posOverflow) := by
  have hlex : TLex.lex l.chars = .ok (if decValue ds < 2 ^ 64 then .lit (.int (decValue ds))
        else .error (.invalidInt .default .posOverflow), rest) := by
    obtain ⟨h1, h2⟩ := TLex.takeWhile_append_stop hd hr
    obtain ⟨d, es, rfl⟩ : ∃ d es, ds = d :: es := by
      cases ds with
      | nil => exact absurd rfl hne
      | cons d es => exact ⟨d, es, rfl⟩
    have hdig : isDigit10 d = true := by simp at hd; exact hd.1
    have hnat : 48 ≤ d.toNat ∧ d.toNat ≤ 57 := by
      simpa [isDigit10, toNat_le_iff] using hdig
    have hnws : isWhitespace d = false := by
      unfold isWhitespace
      simp only [Bool.or_eq_false_iff, Bool.and_eq_false_iff, decide_eq_false_iff_not, beq_eq_false_iff_ne]
      omega
    have hdis : TLex.dispatch (d :: (es ++ rest)) d = .ok (.of (TLex.number (d :: (es ++ rest)))) := by
      unfold TLex.dispatch
      have e1 : d ≠ ';' := by rintro rfl; revert hdig; decide
      have e2 : d ≠ '\'' := by rintro rfl; revert hdig; decide
      have e3 : d ≠ '"' := by rintro rfl; revert hdig; decide
      rw [if_neg e1, if_neg e2, if_neg e3, if_pos hdig]
    rw [h, List.cons_append, TLex.lex_cons hnws, hdis]
    simp only [TLex.R.of, TLex.number]
    rw [List.cons_append] at h1 h2
    rw [h1, h2, TLex.parseUsize_eq hd hne]
    have hb : Lexer.usizeBound = 2 ^ 64 := rfl
    rw [hb]
    by_cases hv : decValue (d :: es) < 2 ^ 64
    · rw [if_pos hv, if_pos hv]
    · rw [if_neg hv, if_neg hv]; rfl
  obtain ⟨t, sp, l', h1, h2, h3⟩ := (hl.sync hc).next hlex (by split <;> simp)
  exact ⟨t, sp, l', h1, h3, h2⟩

omit [LawfulTables] in
/-- C31 when the digits are the whole source. -/
theorem C31_integer_source (ds : Text) (hne : ds ≠ []) (hd : ds.all isDigit10 = true) :
    ∃ t sp l', (new ds).next = .ok (some (t, sp), l') ∧ l'.chars = [] ∧
      t.noLoc = if decValue ds < 2 ^ 64 then .lit (.int (decValue ds))
        else .error (.invalidInt .default .posOverflow) := by
  have hnws : ∀ c ∈ ds, isWhitespace c = false ∧ c ≠ '\n' := by
    intro c hc
    have hdig : isDigit10 c = true := List.all_eq_true.1 hd c hc
    have hnat : 48 ≤ c.toNat ∧ c.toNat ≤ 57 := by simpa [isDigit10, toNat_le_iff] using hdig
    constructor
    · unfold isWhitespace
      simp only [Bool.or_eq_false_iff, Bool.and_eq_false_iff, decide_eq_false_iff_not, beq_eq_false_iff_ne]
      omega
    · rintro rfl; revert hdig; decide
  have hclean : NoLFCR ds := by
    rintro ⟨a, b, hab⟩
    exact (hnws '\n' (by rw [← hab]; simp)).2 rfl
  have hch : (new ds).chars = ds ++ [] := by
    obtain ⟨c, cs, rfl⟩ : ∃ c cs, ds = c :: cs := by
      cases ds with
      | nil => exact absurd rfl hne
      | cons c cs => exact ⟨c, cs, rfl⟩
    have : isWhitespace c = false := (hnws c (by simp)).1
    simp [new, eatWhitespace, eatWhile, eatWhileN, this]
  exact C31_integers_partial hclean .new hch hne hd (by simp)

omit [CharTables] [LawfulTables] in
/-- C31 is false after "\n\r": the number 12 is reported as not being a number. -/
theorem C31_integers_wrong :
    (@next asciiTables (new t!"\n\r12")).toOption.map (·.1.map (·.1)) =
      some (some (.error (.invalidInt ⟨2, 1, 1⟩ .invalidDigit))) := by decide

example : decValue t!"00120" = 120 := by decide
example : ¬ decValue t!"18446744073709551616" < 2 ^ 64 := by decide

end

/-! ### C32 -/

section
variable [CharTables] [LawfulTables]

/-- C32 for sources without "\n\r": at two places of any two sources such that what is left at the
first is what is left at the second after some whitespace and line comments, everything lexed from
there on is the same up to locations: the same tokens, the same end, the same panic. (Missing:
sources with "\n\r".) -/
theorem C32_gaps_partial {src1 src2 : Text} (hc1 : NoLFCR src1) (hc2 : NoLFCR src2) {l1 l2 : Lexer}
    (h1 : Point src1 l1) (h2 : Point src2 l2) {g : Text} (hg : Gap g)
    (h : l1.chars = g ++ l2.chars) (n : Nat) : noLocs (items n l1) = noLocs (items n l2) := by
  rw [(h1.sync hc1).items, (h2.sync hc2).items, h]
  exact TLex.tokens_congr (TLex.lex_gap hg) n

/-- C32 for a gap at the beginning of a source. -/
theorem C32_leading_gap_partial {g s : Text} (hg : Gap g) (hc : NoLFCR (g ++ s)) (n : Nat) :
    noLocs (items n (new (g ++ s))) = noLocs (items n (new s)) := by
  have hc2 : NoLFCR s := hc.infix ⟨g, [], by simp⟩
  rw [(Point.sync .new hc).items, (Point.sync .new hc2).items]
  apply TLex.tokens_congr
  have key : ∀ {s : Text}, NoLFCR s → TLex.lex (new s).chars = TLex.lex s := by
    intro s hs
    rw [show (new s).chars = s.dropWhile isWhitespace from ?_, TLex.lex_dropWhile]
    have h0 : Sync (⟨s, s, none, 1, 1, 0, Loc.default⟩ : Lexer) :=
      ⟨⟨[], ⟨rfl, rfl, by simp⟩⟩, hs⟩
    exact h0.eatWhitespace
  rw [key hc, key hc2]
  exact TLex.lex_gap hg

/-- A line comment at the end of the input, without a newline, is skipped too. -/
theorem C32_last_line_partial {src : Text} (hc : NoLFCR src) {l : Lexer} (hl : Point src l) {b : Text}
    (hb : '\n' ∉ b) (hh : ∀ c ∈ b.head?, isInfixChar c = false ∧ isTrailing c = false)
    (h : l.chars = t!"~~" ++ b) : ∃ l', l.next = .ok (none, l') ∧ l'.chars = [] := by
  apply (hl.sync hc).next_none
  rw [h]
  show TLex.lex ('~' :: '~' :: b) = _
  rw [TLex.lex_cons (by decide), TLex.dispatch_infix _ (by decide)]
  have hm : TLex.munch isInfixChar ('~' :: '~' :: b) = (t!"~~", b) :=
    TLex.munch_head (a := t!"~~") (by decide) hh
  have hd : b.dropWhile (· != '\n') = [] := by
    have := (TLex.takeWhile_append_stop (p := (· != '\n')) (a := b) (r := []) (by
      simp only [List.all_eq_true, bne_iff_ne, ne_eq]
      rintro x hx rfl
      exact hb hx) (by simp)).2
    simpa using this
  unfold TLex.operator
  rw [hm]
  simp only
  rw [if_neg (by decide), if_pos trivial]
  simp only [hd]
  rfl

example : Gap t!" \t~~ a (comment\n\n" :=
  .space (by decide) (.space (by decide) (.line (b := t!" a (comment") (by decide) (by decide)
    (.space (by decide) .nil)))

omit [CharTables] [LawfulTables] in
/-- C32 is false with "\n\r": this whitespace before `ab` changes the identifier. -/
theorem C32_gap_wrong :
    Gap t!"\n\r" ∧ @noLocs (@items asciiTables 2 (new t!"ab")) = .ok [.lower t!"ab"] ∧
    @noLocs (@items asciiTables 2 (new (t!"\n\r" ++ t!"ab"))) = .ok [.lower t!"\ra"] :=
  ⟨.space (by decide) (.space (by decide) .nil), by decide, by decide⟩

end

/-! ### C33 -/

section
variable [CharTables] [LawfulTables]

/-- C33, part that holds (sources without "\n\r"): a terminated block comment, however nested,
together with the one character after it, is skipped; everything else is unaffected.
(Missing: the code drops the character after the comment, see `C33_block_comment_wrong`.) -/
theorem C33_block_comment_partial {src1 src2 : Text} (hc1 : NoLFCR src1) (hc2 : NoLFCR src2)
    {l1 l2 : Lexer} (h1 : Point src1 l1) (h2 : Point src2 l2) {b rest : Text} (hb : CommentBody b)
    (h : l1.chars = t!"~{" ++ b ++ t!"}~" ++ rest) (hr : l2.chars = rest.tail) (n : Nat) :
    noLocs (items n l1) = noLocs (items n l2) := by
  rw [(h1.sync hc1).items, (h2.sync hc2).items, h, hr]
  exact TLex.tokens_congr (TLex.lex_comment hb) n

/-- C33 when whitespace or nothing follows the comment: it is skipped exactly. -/
theorem C33_block_comment_space_partial {src1 src2 : Text} (hc1 : NoLFCR src1) (hc2 : NoLFCR src2)
    {l1 l2 : Lexer} (h1 : Point src1 l1) (h2 : Point src2 l2) {b : Text} (hb : CommentBody b)
    (h : l1.chars = t!"~{" ++ b ++ t!"}~" ++ l2.chars)
    (hr : ∀ c ∈ l2.chars.head?, isWhitespace c = true) (n : Nat) :
    noLocs (items n l1) = noLocs (items n l2) := by
  rw [(h1.sync hc1).items, (h2.sync hc2).items, h]
  apply TLex.tokens_congr
  rw [TLex.lex_comment hb]
  cases hx : l2.chars with
  | nil => rfl
  | cons c cs => rw [hx] at hr; rw [TLex.lex_space (hr c (by simp))]; rfl

/-- C33: a comment that is never closed is reported, and swallows the rest of the input. -/
theorem C33_unterminated {src : Text} (hc : NoLFCR src) {l : Lexer} (hl : Point src l) {s : Text}
    (h : l.chars = t!"~{" ++ s) (hs : ¬ ∃ b r, CommentBody b ∧ s = b ++ t!"}~" ++ r) :
    ∃ t sp l', l.next = .ok (some (t, sp), l') ∧
      t.noLoc = .error (.unterminatedComment .default .default) ∧ l'.chars = [] := by
  apply (hl.sync hc).next _ (by simp)
  rw [h]
  exact TLex.lex_unterminated hs

example : CommentBody t!"a ~{ b }~ c } ~" := by
  have e : t!"a ~{ b }~ c } ~" = 'a' :: ' ' :: (t!"~{" ++ t!" b " ++ t!"}~" ++ t!" c } ~") := by decide
  have c1 : ∀ {c : Char} {b : Text}, CommentBody b → (¬ t!"~{" <+: c :: b) → (¬ t!"}~" <+: c :: b) →
      CommentBody (c :: b) := fun h a b => .char a b h
  rw [e]
  refine c1 (c1 (.nest ?_ ?_) (by decide) (by decide)) (by decide) (by decide)
  · exact c1 (c1 (c1 .nil (by decide) (by decide)) (by decide) (by decide)) (by decide) (by decide)
  · exact c1 (c1 (c1 (c1 (c1 (c1 .nil (by decide) (by decide)) (by decide) (by decide))
      (by decide) (by decide)) (by decide) (by decide)) (by decide) (by decide)) (by decide) (by decide)

omit [CharTables] [LawfulTables] in
/-- C33 is false: the first character after a block comment is lost. -/
theorem C33_block_comment_wrong :
    CommentBody [] ∧
    @noLocs (@items asciiTables 3 (new (t!"~{" ++ [] ++ t!"}~" ++ t!"xy z"))) =
      .ok [.lower t!"y", .lower t!"z"] := ⟨.nil, by decide⟩

end

/-! ### C34 -/

section
variable [CharTables] [LawfulTables]

omit [CharTables] [LawfulTables] in
theorem eatWhitespace_chars {l : Lexer} {c : Char} {cs : Text} (h : l.chars = c :: cs)
    (hc : isWhitespace c = false) : l.eatWhitespace.chars = c :: cs := by
  unfold eatWhitespace eatWhile
  rw [h]
  simp [eatWhileN, h, hc]

omit [LawfulTables] in
/-- `next` on a state that is at the start of a token. -/
theorem next_of_dispatch {l l' : Lexer} {c : Char} {cs : Text} {t : Token} (h : l.chars = c :: cs)
    (hc : isWhitespace c = false) (hd : l.eatWhitespace.dispatch c = .ok (.tok t l')) :
    l.next = .ok (some (t, l'.locSpan), l') := by
  have hlex : l.lex = .ok (t, l') := by
    unfold lex lexN
    rw [eatWhitespace_chars h hc]
    simp only [hd]
  unfold next
  rw [hlex]
  simp only
  rw [if_neg (by rintro rfl; exact dispatch_ne_eof hd)]
  rfl

omit [CharTables] [LawfulTables] in
theorem stringLoop_escape {s : Text} {n : Nat} {l : Lexer} {buf rest : Text}
    (hl : l.chars = escapeText s ++ '"' :: rest) (hn : (escapeText s).length < n) :
    ∃ l', stringLoop n l false buf = (true, buf ++ s, l') ∧ l'.chars = rest := by
  induction s generalizing n l buf with
  | nil =>
    cases n with
    | zero => omega
    | succ n =>
      have hl : l.chars = '"' :: rest := hl
      refine ⟨l.advance, ?_, advance_chars_of hl (by decide)⟩
      simp [stringLoop, bumpChar_of hl]
  | cons c s ih =>
    have e : escapeText (c :: s) = escapeChar c ++ escapeText s := by simp [escapeText]
    rw [e] at hn hl
    have one : ∀ d : Char, isEscapable d = true → getEscaped d = c → escapeChar c = ['\\', d] →
        ∃ l', stringLoop n l false buf = (true, buf ++ c :: s, l') ∧ l'.chars = rest := by
      intro d hd hg he
      rw [he] at hn hl
      obtain ⟨m, rfl⟩ : ∃ m, n = m + 2 := ⟨n - 2, by simp at hn; omega⟩
      have hl : l.chars = '\\' :: d :: (escapeText s ++ '"' :: rest) := by rw [hl]; simp
      have h1 := advance_chars_of hl (by decide)
      have hdn : d ≠ '\n' := by rintro rfl; revert hd; decide
      have h2 := advance_chars_of h1 hdn
      obtain ⟨l', h3, h4⟩ := ih (n := m) (l := l.advance.advance) (buf := buf ++ [c]) h2
        (by simp at hn; omega)
      refine ⟨l', ?_, h4⟩
      rw [stringLoop, bumpChar_of hl]
      simp only
      rw [if_neg (by decide), if_neg (by decide), if_pos trivial, stringLoop, bumpChar_of h1]
      simp only
      rw [if_pos trivial, if_pos hd, hg, h3]
      simp
    by_cases h1 : c = '\t'
    · subst h1; exact one 't' (by decide) (by decide) (by decide)
    by_cases h2 : c = '\n'
    · subst h2; exact one 'n' (by decide) (by decide) (by decide)
    by_cases h3 : c = '\r'
    · subst h3; exact one 'r' (by decide) (by decide) (by decide)
    by_cases h4 : c = '"'
    · subst h4; exact one '"' (by decide) (by decide) (by decide)
    by_cases h5 : c = '\\'
    · subst h5; exact one '\\' (by decide) (by decide) (by decide)
    by_cases h6 : c = '\x08'
    · subst h6; exact one 'b' (by decide) (by decide) (by decide)
    by_cases h7 : c = '\x0C'
    · subst h7; exact one 'f' (by decide) (by decide) (by decide)
    have hc : escapeChar c = [c] := by simp [escapeChar, h1, h2, h3, h4, h5, h6, h7]
    rw [hc] at hn hl
    obtain ⟨m, rfl⟩ : ∃ m, n = m + 1 := ⟨n - 1, by simp at hn; omega⟩
    have hl : l.chars = c :: (escapeText s ++ '"' :: rest) := by rw [hl]; simp
    have ha := advance_chars_of hl h2
    obtain ⟨l', h3, h4'⟩ := ih (n := m) (l := l.advance) (buf := buf ++ [c]) ha
      (by simp at hn; omega)
    refine ⟨l', ?_, h4'⟩
    rw [stringLoop, bumpChar_of hl]
    simp only
    rw [if_neg (by decide), if_neg h4, if_neg h5, h3]
    simp

omit [LawfulTables] in
/-- C34, for all sources: wherever the lexer is at a string literal in which each character of a
text `s` is written with its usual escape, it yields the string `s` and stops after the closing
quote. -/
theorem C34_strings {l : Lexer} {s rest : Text}
    (h : l.chars = '"' :: (escapeText s ++ '"' :: rest)) :
    ∃ sp l', l.next = .ok (some (.lit (.str s), sp), l') ∧ l'.chars = rest := by
  have hw := eatWhitespace_chars h (by decide)
  have ha := advance_chars_of hw (by decide)
  obtain ⟨l', h1, h2⟩ := stringLoop_escape (s := s) (n := l.eatWhitespace.advance.chars.length + 1)
    (buf := []) ha (by rw [ha]; simp; omega)
  have hs : l.eatWhitespace.string = (.lit (.str s), l') := by
    unfold string
    simp only [h1, List.nil_append]
  have hd : l.eatWhitespace.dispatch '"' = .ok (.tok (.lit (.str s)) l') := by
    unfold dispatch
    rw [if_neg (by decide), if_neg (by decide), if_pos rfl, hs]
  exact ⟨_, l', next_of_dispatch h (by decide) hd, h2⟩

example : escapeText t!"a\"\n\\é" = t!"a\\\"\\n\\\\é" := by decide

/-! ### C35 -/

omit [LawfulTables] in
theorem next_char {l l' : Lexer} {cs : Text} {t : Token} (h : l.chars = '\'' :: cs)
    (hx : l.eatWhitespace.charLit = .ok (t, l')) :
    l.next = .ok (some (t, l'.locSpan), l') := by
  refine next_of_dispatch h (by decide) ?_
  unfold dispatch
  rw [if_neg (by decide), if_pos rfl, hx]
  rfl

omit [LawfulTables] in
/-- C35, for all sources: a character between apostrophes is that character. (Missing: NUL, which
the lexer takes for the end of the input, see `C35_nul_wrong`.) -/
theorem C35_plain_partial {l : Lexer} {c : Char} {rest : Text} (h : l.chars = '\'' :: c :: '\'' :: rest)
    (h1 : c ≠ '\'') (h2 : c ≠ '\\') (h3 : c ≠ '\x00') :
    ∃ sp l', l.next = .ok (some (.lit (.char c), sp), l') ∧ l'.chars = rest := by
  have hw := eatWhitespace_chars h (by decide)
  have ha := advance_chars_of hw (by decide)
  have hb : l.eatWhitespace.advance.advance.chars = '\'' :: rest := by
    by_cases hc : c = '\n'
    · unfold advance bumpChar at ha ⊢
      rw [ha]; simp [hc, dropCR]
    · exact advance_chars_of ha hc
  have hd := advance_chars_of hb (by decide)
  refine ⟨_, _, next_char h (t := .lit (.char c)) (l' := l.eatWhitespace.advance.advance.advance) ?_, hd⟩
  unfold charLit
  have hq : l.eatWhitespace.advance.advance.onChar '\'' = true := by unfold onChar; rw [hb]; rfl
  have hcc : l.eatWhitespace.advance.currentChar = c := by unfold currentChar; rw [ha]; rfl
  simp only [hcc, hq, if_neg h1, if_neg h2, if_neg h3, if_true]

omit [LawfulTables] in
/-- C35, for all sources: an escaped character between apostrophes is the character the escape
stands for. -/
theorem C35_escape {l : Lexer} {c d : Char} {rest : Text}
    (h : l.chars = '\'' :: '\\' :: c :: '\'' :: rest)
    (hc : (c, d) ∈ List.zip t!"tnr\"'\\bf" t!"\t\n\r\"'\\\x08\x0C") :
    ∃ sp l', l.next = .ok (some (.lit (.char d), sp), l') ∧ l'.chars = rest := by
  have he : isEscapable c = true ∧ c ≠ '\n' ∧ ¬ (c = 'u' ∨ c = 'U') ∧ getEscaped c = d := by
    have : ∀ x ∈ List.zip t!"tnr\"'\\bf" t!"\t\n\r\"'\\\x08\x0C", isEscapable x.1 = true ∧
        x.1 ≠ '\n' ∧ ¬ (x.1 = 'u' ∨ x.1 = 'U') ∧ getEscaped x.1 = x.2 := by decide
    exact this _ hc
  obtain ⟨he, hn, hu, rfl⟩ := he
  have hw := eatWhitespace_chars h (by decide)
  have ha := advance_chars_of hw (by decide)
  have hb := advance_chars_of ha (by decide)
  have hd := advance_chars_of hb hn
  have hf := advance_chars_of hd (by decide)
  refine ⟨_, _, next_char h (t := .lit (.char (getEscaped c)))
    (l' := l.eatWhitespace.advance.advance.advance.advance) ?_, hf⟩
  have hcc : l.eatWhitespace.advance.currentChar = '\\' := by unfold currentChar; rw [ha]; rfl
  have hq : l.eatWhitespace.advance.advance.advance.onChar '\'' = true := by
    unfold onChar; rw [hd]; rfl
  unfold charLit
  simp only [hcc]
  rw [if_neg (by decide), if_pos trivial]
  unfold charEscape
  rw [hb]
  simp only [if_neg hu, he, if_true, hq]

example : ('n', '\n') ∈ List.zip t!"tnr\"'\\bf" t!"\t\n\r\"'\\\x08\x0C" := by decide

/-- The scalar value written by hexadecimal digits. -/
def hexValue (s : Text) : Nat :=
  s.foldl (fun a c => a * 16 + (if isDigit10 c then c.toNat - 48
    else if c.toNat < 97 then c.toNat - 55 else c.toNat - 87)) 0

omit [CharTables] [LawfulTables] in
theorem hexNum_eq {s : Text} (h : s.all isHexDigit = true) : hexNum s = hexValue s := by
  have key : ∀ a, s.foldl (fun a c => a * 16 + hexVal c) a = s.foldl (fun a c => a * 16 +
      (if isDigit10 c then c.toNat - 48 else if c.toNat < 97 then c.toNat - 55 else c.toNat - 87)) a := by
    induction s with
    | nil => intro a; rfl
    | cons c s ih =>
      simp only [List.all_cons, Bool.and_eq_true] at h
      intro a
      rw [List.foldl_cons, List.foldl_cons, ih h.2]
      congr 2
      have hc := h.1
      simp only [isHexDigit, Bool.or_eq_true, Bool.and_eq_true, decide_eq_true_eq, toNat_le_iff,
        Char.reduceToNat] at hc
      simp only [hexVal, toDigit, isDigit10, toNat_le_iff, Char.reduceToNat, Bool.and_eq_true,
        decide_eq_true_eq]
      by_cases h1 : c.toNat ≤ 57
      · have : 48 ≤ c.toNat := by omega
        have h3 : c.toNat - 48 < 16 := by omega
        simp [h1, this, h3]
      · by_cases h2 : c.toNat < 97
        · have ha : ¬ 97 ≤ c.toNat := by omega
          have hb : 65 ≤ c.toNat := by omega
          have hc' : c.toNat ≤ 90 := by omega
          have hd : c.toNat - 65 + 10 < 16 := by omega
          simp [h1, h2, ha, hb, hc', hd]
          omega
        · have ha : 97 ≤ c.toNat := by omega
          have hb : c.toNat ≤ 122 := by omega
          have hd : c.toNat - 97 + 10 < 16 := by omega
          simp [h1, h2, ha, hb, hd]
          omega
  exact key 0

omit [LawfulTables] in
/-- C35, unicode escapes in sources without "\n\r": the character is the one denoted, or an error
if there is none, but the character after the closing quote is dropped. (Missing: the lexer should
stop after the closing quote, see `C35_unicode_wrong`.) -/
theorem C35_unicode_partial {src : Text} (hc : NoLFCR src) {l : Lexer} (hl : Point src l)
    {u : Char} (hu : u = 'u' ∨ u = 'U') {plus ds rest : Text} (hp : plus = [] ∨ plus = t!"+")
    (hd : ds.all isHexDigit = true) (hne : ds ≠ []) (hlen : ds.length ≤ 6)
    (h : l.chars = '\'' :: '\\' :: u :: (plus ++ ds ++ '\'' :: rest)) :
    ∃ t sp l', l.next = .ok (some (t, sp), l') ∧ l'.chars = rest.tail ∧
      ((∃ c : Char, c.toNat = hexValue ds ∧ t = .lit (.char c)) ∨
       ((∀ c : Char, c.toNat ≠ hexValue ds) ∧
          t.noLoc = .error (.invalidUnicode .default (.notInCharRange ds (hexValue ds))))) := by
  have hx := TLex.charLit_unicode hp hd hne hlen hu (rest := rest)
  have hlex : TLex.lex l.chars = .ok (TLex.charLit ('\'' :: '\\' :: u :: (plus ++ ds ++ '\'' :: rest))) := by
    rw [h, TLex.lex_cons (by decide)]
    unfold TLex.dispatch
    rw [if_neg (by decide), if_pos rfl]
    rfl
  rw [hx, hexNum_eq hd] at hlex
  obtain ⟨t, sp, l', h1, h2, h3⟩ := (hl.sync hc).next hlex (by
    cases charFromU32 (hexValue ds) <;> simp [TLex.err])
  refine ⟨t, sp, l', h1, h3, ?_⟩
  unfold charFromU32 at h2
  by_cases hv : (hexValue ds).isValidChar
  · left
    rw [dif_pos hv] at h2
    refine ⟨Char.ofNatAux _ hv, rfl, ?_⟩
    simp only at h2
    revert h2
    cases t <;> simp [Token.noLoc]
  · right
    rw [dif_neg hv] at h2
    refine ⟨?_, h2⟩
    rintro c hc
    apply hv
    rw [← hc]
    exact c.valid

omit [CharTables] [LawfulTables] in
/-- C35 is false: a unicode escape swallows the character after its closing quote. -/
theorem C35_unicode_wrong :
    @noLocs (@items asciiTables 3 (new t!"'\\u41'x y")) = .ok [.lit (.char 'A'), .lower t!"y"] := by
  decide

omit [CharTables] [LawfulTables] in
/-- C35 is false for NUL: the lexer takes it for the end of the input. -/
theorem C35_nul_wrong :
    (@next asciiTables (new t!"'\x00'")).toOption.map (·.1.map (·.1)) =
      some (some (.error (.unterminatedChar ⟨1, 1, 0⟩ ⟨1, 1, 0⟩))) := by decide

example : hexValue t!"1F60a" = 0x1F60A := by decide

end

/-! ### C36 -/

section
variable [CharTables] [LawfulTables]

omit [LawfulTables] in
theorem dispatch_error {s : Text} {c : Char} {p : Panic} (h : TLex.dispatch s c = .error p) :
    isIdentStart c = true ∧ TLex.ident c s = .error p := by
  unfold TLex.dispatch at h
  by_cases hc : c = ';'
  · rw [if_pos hc] at h; cases h
  rw [if_neg hc] at h; clear hc
  by_cases hc : c = '\''
  · rw [if_pos hc] at h; cases h
  rw [if_neg hc] at h; clear hc
  by_cases hc : c = '"'
  · rw [if_pos hc] at h; cases h
  rw [if_neg hc] at h; clear hc
  by_cases hc : isDigit10 c = true
  · rw [if_pos hc] at h; cases h
  rw [if_neg hc] at h; clear hc
  by_cases hc : c = '`'
  · rw [if_pos hc] at h; cases h
  rw [if_neg hc] at h; clear hc
  by_cases hc : isIdentStart c = true
  · rw [if_pos hc] at h; exact ⟨hc, h⟩
  rw [if_neg hc] at h; clear hc
  repeat' split at h
  all_goals cases h

theorem underscore_word {cs : Text} : (TLex.munch isIdentChar ('_' :: cs)).1 = t!"_" ↔
    ¬ ∃ d ∈ cs.head?, isIdentChar d = true ∨ isTrailing d = true := by
  have hu : isIdentChar '_' = true := by rw [TLex.ascii_identChar (by decide)]; decide
  unfold TLex.munch
  simp only [List.takeWhile_cons, List.dropWhile_cons, hu, if_true, List.cons_append]
  cases cs with
  | nil => simp
  | cons d ds =>
    simp only [List.head?_cons, Option.mem_some_iff, exists_eq_left', List.takeWhile_cons,
      List.dropWhile_cons, not_or, Bool.not_eq_true]
    by_cases h1 : isIdentChar d = true
    · simp [h1]
    · by_cases h2 : isTrailing d = true
      · simp [h1, h2]
      · simp [h1, h2]

theorem word_error {c : Char} {cs : Text} {p : Panic}
    (h : TLex.word c (TLex.munch isIdentChar (c :: cs)).1 = .error p) (hid : isIdentStart c = true) :
    p = .identAssert ∧ BadWord (c :: cs) := by
  unfold TLex.word at h
  split at h
  · cases h
  rename_i hne
  repeat' split at h
  all_goals try cases h
  unfold identifier at h
  split at h
  · cases h
  · rename_i hl
    cases h
    refine ⟨rfl, c, cs, rfl, hid, by simpa using hl, ?_⟩
    rintro rfl
    exact Decidable.byContradiction fun hn => hne (underscore_word.2 hn)

theorem word_bad {s : Text} (h : BadWord s) :
    ∃ c cs, s = c :: cs ∧ isWhitespace c = false ∧ TLex.dispatch s c = .error .identAssert := by
  obtain ⟨c, cs, rfl, hid, hlow, hun⟩ := h
  have hfirst : ∃ k, (TLex.munch isIdentChar (c :: cs)).1 = c :: k := by
    have : isIdentChar c = true := isIdentStart_identChar hid
    unfold TLex.munch
    simp [this]
  obtain ⟨k, hk⟩ := hfirst
  have hnl : ∀ d : Char, d.toNat < 128 → asciiLower d = true → c ≠ d := by
    rintro d hd1 hd2 rfl
    rw [LawfulTables.ascii_lower c hd1, hd2] at hlow
    cases hlow
  have hi := hnl 'i' (by decide) (by decide)
  have hl := hnl 'l' (by decide) (by decide)
  have hw : TLex.word c (TLex.munch isIdentChar (c :: cs)).1 = .error .identAssert := by
    unfold TLex.word
    rw [if_neg]
    · rw [hk]
      simp [hi, hl, identifier, hlow]
    · intro hu
      have hc : c = '_' := by rw [hk] at hu; injection hu
      subst hc
      exact underscore_word.1 hu (hun rfl)
  have hasc : ∀ d : Char, d.toNat < 128 → (d == '_' || (asciiUpper d || asciiLower d)) = false →
      c ≠ d := by
    rintro d hd1 hd2 rfl
    rw [TLex.ascii_identStart hd1, hd2] at hid
    cases hid
  refine ⟨c, cs, rfl, ?_, ?_⟩
  · by_cases hws : isWhitespace c = true
    · exfalso
      unfold isIdentStart hasCase at hid
      simp only [Bool.or_eq_true, beq_iff_eq] at hid
      have := LawfulTables.ws_not_alnum c hws
      rcases hid with rfl | h | h
      · revert hws; decide
      · rw [LawfulTables.alphabetic_alnum c (LawfulTables.upper_alphabetic c h)] at this; cases this
      · rw [LawfulTables.alphabetic_alnum c (LawfulTables.lower_alphabetic c h)] at this; cases this
    · simpa using hws
  · unfold TLex.dispatch
    rw [if_neg (hasc ';' (by decide) (by decide)), if_neg (hasc '\'' (by decide) (by decide)),
      if_neg (hasc '"' (by decide) (by decide))]
    rw [if_neg, if_neg (hasc '`' (by decide) (by decide)), if_pos hid]
    · unfold TLex.ident; rw [hw]
    · intro hd
      have hnat : c.toNat < 128 := by
        have : 48 ≤ c.toNat ∧ c.toNat ≤ 57 := by simpa [isDigit10, toNat_le_iff] using hd
        omega
      have := hasc c hnat (by
        have h2 : 48 ≤ c.toNat ∧ c.toNat ≤ 57 := by simpa [isDigit10, toNat_le_iff] using hd
        simp only [asciiUpper, asciiLower, toNat_le_iff, Char.reduceToNat, Bool.or_eq_false_iff,
          Bool.and_eq_false_iff, decide_eq_false_iff_not, beq_eq_false_iff_ne]
        refine ⟨?_, by omega, by omega⟩
        rintro rfl; revert h2; decide)
      exact this rfl

theorem lexN_error {n : Nat} {s : Text} {p : Panic} (h : TLex.lexN n s = .error p) :
    p = .identAssert ∧ ∃ w, w <:+ s ∧ BadWord w := by
  induction n generalizing s with
  | zero => cases h
  | succ n ih =>
    unfold TLex.lexN at h
    have hsuf := List.dropWhile_suffix (l := s) isWhitespace
    split at h
    · cases h
    · rename_i c cs hch
      split at h
      · rename_i q hd
        cases h
        obtain ⟨hid, hx⟩ := dispatch_error hd
        unfold TLex.ident at hx
        split at hx
        · cases hx
        · rename_i q hw
          cases hx
          obtain ⟨h1, h2⟩ := word_error hw hid
          exact ⟨h1, _, by rw [← hch]; exact hsuf, h2⟩
      · cases h
      · rename_i r hd
        obtain ⟨h1, w, h2, h3⟩ := ih h
        obtain ⟨h4, h5⟩ := TLex.dispatch_skipped hd
        rw [hch] at hsuf
        refine ⟨h1, w, h2.trans (List.IsSuffix.trans ?_ hsuf), h3⟩
        -- what an operator leaves is a suffix
        have hm : (TLex.munch isInfixChar (c :: cs)).2 <:+ c :: cs :=
          ⟨_, (munch_append isInfixChar (c :: cs)).symm⟩
        have hblock : ∀ {s : Text} {d : Nat} {r : Text}, TLex.block s d = some r → r <:+ s := by
          intro s d r h
          induction s, d using TLex.block.induct with
          | case1 s => simp [TLex.block] at h; rw [h]; exact List.suffix_refl _
          | case2 d => simp [TLex.block] at h
          | case3 cs d hc ih =>
            rw [TLex.block, if_pos hc] at h; exact (ih h).trans (List.suffix_cons _ _)
          | case4 cs d hc ih =>
            rw [TLex.block, if_neg hc] at h; exact (ih h).trans (List.suffix_cons _ _)
          | case5 cs d ih =>
            rw [TLex.block] at h
            exact (ih h).trans ((List.suffix_cons _ _).trans (List.suffix_cons _ _))
          | case6 c cs d h1 h2 ih =>
            rw [TLex.block.eq_5 _ _ _ h1 h2] at h; exact (ih h).trans (List.suffix_cons _ _)
        unfold TLex.operator at h5
        simp only at h5
        split at h5
        · split at h5
          · split at h5
            · cases h5
            · rename_i r' hr
              cases h5
              exact (List.tail_suffix _).trans ((hblock hr).trans ((List.tail_suffix _).trans hm))
          · cases h5
        · split at h5
          · cases h5; exact (List.dropWhile_suffix _).trans hm
          · repeat' split at h5
            all_goals cases h5

/-- C36, part that holds: in a source without "\n\r" the only panic of the lexer is the assertion
on identifiers, and only a word that does not start with a lower-case character causes it.
(Missing: it does happen, see `C36_panics`; with "\n\r" slicing may panic, see
`C29_token_text_wrong`.) -/
theorem C36_panics_partial {src : Text} (hc : NoLFCR src) {l : Lexer} (hl : Point src l) {p : Panic}
    (h : l.next = .error p) : p = .identAssert ∧ ∃ w, w <:+ l.chars ∧ BadWord w :=
  lexN_error ((hl.sync hc).next_error.1 h)

/-- C36: a source all of whose letters are lower case, without `_` and "\n\r", never makes the
lexer panic, whatever the client does. -/
theorem C36_lower_case_partial {src : Text} (hc : NoLFCR src)
    (hlow : ∀ c ∈ src, isIdentStart c = true → isLowercase c = true) {l : Lexer} (hl : Point src l) :
    ∃ r, l.next = .ok r := by
  cases h : l.next with
  | ok r => exact ⟨r, rfl⟩
  | error p =>
    exfalso
    obtain ⟨_, w, hw, c, cs, rfl, h1, h2, _⟩ := C36_panics_partial hc hl h
    obtain ⟨hs, ⟨pre, hat⟩, _⟩ := hl.inv
    have : c ∈ src := by
      rw [← hs, hat.src]
      exact List.mem_append_right _ (hw.subset (by simp))
    rw [hlow c this h1] at h2
    cases h2

/-- C36 is false: whenever the next token would be an identifier with an upper-case initial or one
starting with an underscore, the lexer panics. -/
theorem C36_panics {src : Text} (hc : NoLFCR src) {l : Lexer} (hl : Point src l)
    (h : BadWord l.chars) : l.next = .error .identAssert := by
  rw [(hl.sync hc).next_error]
  obtain ⟨c, cs, he, hws, hd⟩ := word_bad h
  rw [he, TLex.lex_cons hws, ← he, hd]

/-- C36 is false: a one-letter source. -/
theorem C36_upper_wrong : (new t!"X").next = .error .identAssert := by
  apply C36_panics (src := t!"X") (by unfold NoLFCR; decide) .new
  have hch : (new t!"X").chars = ['X'] := by decide
  rw [hch]
  refine ⟨'X', [], rfl, ?_, ?_, ?_⟩
  · rw [TLex.ascii_identStart (by decide)]; decide
  · rw [LawfulTables.ascii_lower _ (by decide)]; decide
  · intro h; exact absurd h (by decide)

example : ∀ c ∈ t!"let infixl 6 + in a + b * 12", @isIdentStart asciiTables c = true →
    @isLowercase asciiTables c = true := by decide

end

/-! ### C71 -/

section
variable [CharTables] [LawfulTables]

/-- C71: an identifier between backticks is read as the infix operator of that name, for sources
without "\n\r". (Missing: sources with "\n\r".) -/
theorem C71_backtick_partial {src : Text} (hc : NoLFCR src) {l : Lexer} (hl : Point src l) {c : Char}
    {y rest : Text} (hid : isIdentStart c = true) (hy : Shape isIdentChar y)
    (h : l.chars = '`' :: c :: (y ++ '`' :: rest)) :
    ∃ sp l', l.next = .ok (some (.affix (c :: y) true, sp), l') ∧ l'.chars = rest := by
  have hm := TLex.munch_eq (r := '`' :: rest) hy (by
    intro d hd
    have : d = '`' := by simpa using hd.symm
    subst this
    exact ⟨by rw [TLex.ascii_identChar (by decide)]; decide, by decide⟩)
  have hlex : TLex.lex l.chars = .ok (.affix (c :: y) true, rest) := by
    rw [h, TLex.lex_cons (by decide)]
    unfold TLex.dispatch
    rw [if_neg (by decide), if_neg (by decide), if_neg (by decide), if_neg (by decide), if_pos rfl]
    unfold TLex.backtick
    simp only [List.tail_cons, List.head?_cons, Option.any_some, hid, if_true, hm, TLex.R.of]
    rfl
  obtain ⟨t, sp, l', h1, h2, h3⟩ := (hl.sync hc).next hlex (by simp)
  have : t = .affix (c :: y) true := by
    revert h2; cases t <;> simp [Token.noLoc]
  exact ⟨sp, l', by rw [h1, this], h3⟩

/-- C71: an identifier of at least two characters after an apostrophe is read as the infix
operator of that name, for sources without "\n\r". (Missing: names of one character, see
`C71_one_character_wrong`; names whose second character is an apostrophe, which are read as
character literals; sources with "\n\r".) -/
theorem C71_apostrophe_partial {src : Text} (hc : NoLFCR src) {l : Lexer} (hl : Point src l)
    {c d : Char} {y rest : Text} (hid : isIdentStart c = true) (hd : d ≠ '\'')
    (hy : Shape isIdentChar (d :: y))
    (hr : ∀ e ∈ rest.head?, isIdentChar e = false ∧ isTrailing e = false)
    (h : l.chars = '\'' :: c :: d :: (y ++ rest)) :
    ∃ sp l', l.next = .ok (some (.affix (c :: d :: y) true, sp), l') ∧ l'.chars = rest := by
  have hm := TLex.munch_eq (r := rest) hy hr
  have hasc : ∀ e : Char, e.toNat < 128 → (e == '_' || (asciiUpper e || asciiLower e)) = false →
      c ≠ e := by
    rintro e hd1 hd2 rfl
    rw [TLex.ascii_identStart hd1, hd2] at hid
    cases hid
  have h1 := hasc '\'' (by decide) (by decide)
  have h2 := hasc '\\' (by decide) (by decide)
  have h3 := hasc '\x00' (by decide) (by decide)
  have hws : isWhitespace d = false := by
    obtain ⟨b, t, he, hb, ht⟩ := hy
    cases b with
    | nil =>
      have hdt : isTrailing d = true := by
        cases t with
        | nil => cases he
        | cons e es =>
          rw [List.nil_append] at he
          injection he with h4 h5
          rw [h4]; simp at ht; exact ht.1
      have hmem : d ∈ subscriptChars ++ superscriptChars := by
        simpa [isTrailing, isSubscript, isSuperscript] using hdt
      revert hmem; clear h he hm hd hdt; revert d; decide
    | cons e es =>
      injection he with h4 h5
      have hdi : isIdentChar d = true := by rw [h4]; simp at hb; exact hb.1
      by_cases hws : isWhitespace d = true
      · have := LawfulTables.ws_not_alnum d hws
        simp only [isIdentChar, this, Bool.false_or, Bool.or_eq_true, beq_iff_eq] at hdi
        rcases hdi with rfl | rfl
        · revert hws; decide
        · revert hws; decide
      · simpa using hws
  have hlex : TLex.lex l.chars = .ok (.affix (c :: d :: y) true, rest) := by
    rw [h, TLex.lex_cons (by decide)]
    unfold TLex.dispatch
    rw [if_neg (by decide), if_pos rfl]
    unfold TLex.charLit
    rw [List.cons_append] at hm
    simp only [List.tail_cons, List.headD_cons, if_neg h1, if_neg h2, if_neg h3, List.head?_cons,
      Option.some.injEq, if_neg hd, Option.any_some, hws, hid, if_true, hm, TLex.R.of]
    simp
  obtain ⟨t, sp, l', h1, h2, h3⟩ := (hl.sync hc).next hlex (by simp)
  have : t = .affix (c :: d :: y) true := by
    revert h2; cases t <;> simp [Token.noLoc]
  exact ⟨sp, l', by rw [h1, this], h3⟩

omit [CharTables] [LawfulTables] in
/-- C71 is false for names of one character: written with an apostrophe, the whitespace after the
name becomes part of it, so `'f ` and `` `f` `` are different operators. -/
theorem C71_one_character_wrong :
    @noLocs (@items asciiTables 1 (new t!"'f x")) = .ok [.affix t!"f " true] ∧
    @noLocs (@items asciiTables 1 (new t!"`f` x")) = .ok [.affix t!"f" true] := by
  constructor <;> decide

example : @isIdentStart asciiTables 'e' = true ∧ @Shape (@isIdentChar asciiTables) t!"lem" :=
  ⟨by decide, t!"lem", [], rfl, by decide, rfl⟩

end

/-! ### C72 -/

section
variable [CharTables] [LawfulTables]

/-- C72, for sources without "\n\r" and tokens other than string literals and errors: the text
covered by the span is not empty, does not start with whitespace, and is exactly the last part of
what was consumed. (Missing: string literals, see
`C72_string_span_partial`; it is false for some of them, see `C72_span_wrong`.) -/
theorem C72_span_partial {src : Text} (hc : NoLFCR src) {l l' : Lexer} (hl : Point src l)
    {t : Token} {sp : LocSpan} (h : l.next = .ok (some (t, sp), l'))
    (hstr : ∀ s, t ≠ .lit (.str s)) (herr : ∀ e, t ≠ .error e) :
    ∃ pre c x, l.chars = pre ++ (c :: x) ++ l'.chars ∧ isWhitespace c = false ∧
      byteSlice src sp.lo.pos sp.hi.pos = some (c :: x) := by
  obtain ⟨m, x, hr, _, hx, _, _, hs⟩ := next_reads hc hl h
  obtain ⟨pre, hpre⟩ := hr.suffix
  obtain ⟨h1, c, y, rfl, h2⟩ := hs hstr herr
  exact ⟨pre, c, y, by rw [← hpre, hx]; simp, h2, h1⟩

omit [CharTables] [LawfulTables] in
/-- C72 is false: if a string literal contains an escaped newline, its span only starts after that
newline and the indentation that follows. -/
theorem C72_span_wrong :
    (@next asciiTables (new t!"\"ab\\\n  cd\"")).toOption.map (·.1) =
      some (some (.lit (.str t!"abcd"), ⟨⟨2, 3, 7⟩, ⟨2, 6, 10⟩⟩)) := by decide

end
end Lexer
end Pemdas
