import Verif.Props.LexerTokens
/-
C116 spans measure the text they cover, C117 the end of iteration, C118 displayed positions.
-/
namespace Pemdas
namespace Lexer

/-! ### a string literal ends after its closing quote -/

theorem stringLoop_quote {n : Nat} {l l' : Lexer} {esc : Bool} {buf b : Text}
    (h : stringLoop n l esc buf = (true, b, l')) :
    ∃ m cs, Reach true l m ∧ m.chars = '"' :: cs ∧ l' = m.advance := by
  induction n generalizing l esc buf with
  | zero => cases h
  | succ n ih =>
    unfold stringLoop at h
    split at h
    · cases h
    · rename_i c m hb
      have hm : m = l.advance := by simp only [advance, hb]
      have hc : ∃ cs, l.chars = c :: cs := by
        unfold bumpChar at hb
        split at hb
        · cases hb
        · rename_i d ds hch
          split at hb <;> (cases hb; exact ⟨ds, hch⟩)
      have h1 : Reach true l m := hm ▸ Reach.one l
      have go : ∀ {k : Lexer} {esc : Bool} {buf : Text}, Reach true l k →
          stringLoop n k esc buf = (true, b, l') →
          ∃ m cs, Reach true l m ∧ m.chars = '"' :: cs ∧ l' = m.advance := by
        intro k esc buf hk h
        obtain ⟨m', cs, h2, h3, h4⟩ := ih h
        exact ⟨m', cs, hk.trans h2, h3, h4⟩
      split at h
      · split at h
        · exact go h1 h
        · split at h
          · exact go (h1.trans (reach_eatWhitespace m)) h
          · exact go h1 h
      · split at h
        · rename_i hq
          cases h
          obtain ⟨cs, hcs⟩ := hc
          exact ⟨l, cs, .refl _, by rw [hcs, hq], hm⟩
        · split at h
          · exact go h1 h
          · exact go h1 h

theorem string_quote {l : Lexer} {s : Text} (h : l.string.1 = .lit (.str s)) :
    ∃ m cs, Reach true l m ∧ m.chars = '"' :: cs ∧ l.string.2 = m.advance := by
  unfold string at h ⊢
  simp only at h ⊢
  split at h
  · rename_i b l' hx
    obtain ⟨m, cs, h1, h2, h3⟩ := stringLoop_quote hx
    exact ⟨m, cs, (Reach.one l).trans h1, h2, h3⟩
  · cases h

section
variable [CharTables] [LawfulTables]

/-- A token that is not an error ends after the place where it starts. -/
theorem next_nonempty {src : Text} (hc : NoLFCR src) {l l' : Lexer} (hl : Point src l) {t : Token}
    {sp : LocSpan} (h : l.next = .ok (some (t, sp), l')) (he : ∀ e, t ≠ .error e) :
    sp.lo.pos < sp.hi.pos := by
  obtain ⟨hlex, hne, rfl⟩ := next_some h
  obtain ⟨m, hr, hm, h1⟩ := lexN_land hlex (Nat.lt_succ_self _)
  rcases h1 with ⟨_, rfl, _⟩ | ⟨c, cs, hch, hws, hd⟩
  · exact absurd rfl hne
  show l'.prevLoc.pos < l'.pos
  by_cases hq : c = '"'
  · subst hq
    have hs : m.string = (t, l') := by
      unfold dispatch at hd
      simp at hd
      exact Prod.ext hd.1 hd.2
    have hstr : ∃ s, m.string.1 = .lit (.str s) := by
      rw [hs]
      have : (∃ s, m.string.1 = .lit (.str s)) ∨ ∃ e, m.string.1 = .error e := by
        unfold string; simp only; split
        · exact .inl ⟨_, rfl⟩
        · exact .inr ⟨_, rfl⟩
      rw [hs] at this
      rcases this with h | ⟨e, h⟩
      · exact h
      · exact absurd h (he e)
    obtain ⟨s, hstr⟩ := hstr
    obtain ⟨k, ds, h2, h3, h4⟩ := string_quote hstr
    rw [hs] at h4
    simp only at h4
    have h5 : k.prevLoc.pos ≤ k.pos := (h2.prev_before (by rw [hm]; exact .refl _)).1
    rw [h4, advance_prevLoc]
    simp only [advance, bumpChar, h3]
    have h6 : ('"' : Char) ≠ '\n' := by decide
    simp only [h6, if_false]
    have := Char.utf8Size_pos '"'
    omega
  · have hr2 : Reach false m l' := reach_dispatch' hd (fun hcq => absurd hcq hq)
    rw [hr2.prevLoc, hm]
    obtain ⟨⟨pre, hat⟩, _⟩ := (hl.sync hc).reach hr
    obtain ⟨u, hu, hat'⟩ := hat.reach (reach_dispatch hd)
    have hne' : u ≠ [] := by
      rintro rfl
      rcases dispatch_progress hch hd with hlt | ⟨h1, _⟩
      · simp only [OpRes.lexer] at hlt hu; rw [hu] at hlt; simp at hlt
      · cases h1; exact he _ rfl
    have hsrc : l'.src = src := (hl.next h).inv.1
    have e1 : m.pos = utf8Len (unCR pre) := congrArg Loc.pos hat.loc
    have e2 : l'.pos = utf8Len (unCR (pre ++ u)) := congrArg Loc.pos hat'.loc
    have h3 : NoLFCR (pre ++ u) := hc.infix ⟨[], l'.chars, by rw [← hsrc]; simpa [OpRes.lexer] using hat'.src.symm⟩
    rw [unCR_of_noLFCR (h3.infix ⟨[], u, by simp⟩)] at e1
    rw [unCR_of_noLFCR h3, utf8Len_append] at e2
    have : utf8Len u ≠ 0 := fun h0 => hne' ((utf8Len_eq_zero u).1 h0)
    show m.pos < l'.pos
    omega

omit [CharTables] [LawfulTables] in
/-- Of two prefixes of a text, the one with fewer bytes is a prefix of the other. -/
theorem prefix_of_utf8Len {p q a b : Text} (h : p ++ q = a ++ b) (hle : utf8Len p ≤ utf8Len a) :
    ∃ mid, a = p ++ mid ∧ q = mid ++ b := by
  rcases List.append_eq_append_iff.1 h with ⟨x, h1, h2⟩ | ⟨x, h1, h2⟩
  · exact ⟨x, h1, h2⟩
  · have : utf8Len x = 0 := by rw [h1, utf8Len_append] at hle; omega
    rw [(utf8Len_eq_zero x).1 this] at h1 h2
    exact ⟨[], by simpa using h1.symm, by simpa using h2.symm⟩

/-- **C116** (the part that holds) In a source without a line feed directly followed by a carriage
return, the span that comes with a token covers a piece of the source that ends where the lexer has
arrived: indexing the source with the span gives that piece, `lines` is the number of line feeds in
it, and `is_empty` says whether it is empty, which it is only for errors. Missing: sources with
"\n\r", see `C116_span_wrong`. -/
theorem C116_span_partial {src : Text} (hc : NoLFCR src) {l l' : Lexer} (hl : Point src l)
    {t : Token} {sp : LocSpan} (h : l.next = .ok (some (t, sp), l')) :
    ∃ pre mid, src = pre ++ mid ++ l'.chars ∧
      sp.span = ⟨utf8Len pre, utf8Len (pre ++ mid)⟩ ∧
      sp.span.index src = .ok mid ∧
      sp.lines = mid.count '\n' ∧ (sp.isEmpty = true ↔ mid = []) ∧
      (sp.isEmpty = true → ∃ e, t = .error e) := by
  have hne := next_nonempty hc hl h
  have hl' := hl.next h
  obtain ⟨_, _, rfl⟩ := next_some h
  obtain ⟨⟨a, h1, h2⟩, p, q, h3, h4⟩ := C28_positions_partial hc hl'
  have hb := hl'.inv.2.2.1
  have hle : utf8Len p ≤ utf8Len a := by
    have := hb.1
    rw [h2, h4] at this
    exact this
  obtain ⟨mid, rfl, rfl⟩ := prefix_of_utf8Len (h3.symm.trans h1) hle
  have hspan : (⟨l'.prevLoc, l'.currLoc⟩ : LocSpan).span = ⟨utf8Len p, utf8Len (p ++ mid)⟩ := by
    rw [h2, h4]; rfl
  have hemp : (⟨l'.prevLoc, l'.currLoc⟩ : LocSpan).isEmpty = true ↔ mid = [] := by
    unfold LocSpan.isEmpty
    rw [h2, h4]
    simp only [beq_iff_eq]
    constructor
    · intro he
      have := congrArg Loc.pos he
      simp only [locOf, utf8Len_append] at this
      exact (utf8Len_eq_zero mid).1 (by omega)
    · rintro rfl; simp
  refine ⟨p, mid, h1, hspan, ?_, ?_, hemp, ?_⟩
  · rw [hspan]
    unfold Span.index byteSlice!
    rw [h1, utf8Len_append, byteSlice_mid]
  · unfold LocSpan.lines
    rw [h2, h4]
    simp only [locOf, List.count_append]
    split <;> omega
  · intro hi
    cases t with
    | error e => exact ⟨e, rfl⟩
    | _ =>
      exfalso
      have := hne (by simp)
      have he : l'.prevLoc = l'.currLoc := by simpa [LocSpan.isEmpty] using hi
      simp only [he] at this
      omega

omit [CharTables] [LawfulTables] in
/-- C116 is false after "\n\r": the span of `a` covers the carriage return. -/
theorem C116_span_wrong :
    ∃ l', @next asciiTables (new t!"\n\ra") = .ok (some (.lower t!"\r", ⟨⟨2, 1, 1⟩, ⟨2, 2, 2⟩⟩), l') ∧
      (⟨⟨2, 1, 1⟩, ⟨2, 2, 2⟩⟩ : LocSpan).span.index t!"\n\ra" = .ok t!"\r" ∧ l'.chars = [] :=
  ⟨_, rfl, rfl, rfl⟩

example : ∃ l', @next asciiTables (new t!"  \"a\\\n b\nc\" x") =
    .ok (some (.lit (.str t!"ab\nc"), ⟨⟨2, 2, 7⟩, ⟨3, 3, 11⟩⟩), l') ∧
    (⟨⟨2, 2, 7⟩, ⟨3, 3, 11⟩⟩ : LocSpan).lines = 1 := ⟨_, rfl, by decide⟩

omit [LawfulTables] in
/-- **C116** `loc_span` gives the span of the token that was read last, whether `next` has read it or
`peek`. -/
theorem C116_loc_span {l : Lexer} :
    (∀ t sp l', l.next = .ok (some (t, sp), l') → l'.locSpan = sp) ∧
    (l.curr = none → ∀ t l', l.peek = .ok (some t, l') →
      ∃ l'', l.next = .ok (some (t, l'.locSpan), l'')) := by
  constructor
  · intro t sp l' h
    obtain ⟨_, _, rfl⟩ := next_some h
    rfl
  · intro hc t l' h
    unfold peek at h
    rw [hc] at h
    unfold next
    cases hl : l.lex with
    | error p => simp [hl] at h
    | ok x =>
      obtain ⟨t', m⟩ := x
      simp only [hl] at h ⊢
      by_cases he : t' = .eof
      · subst he; simp at h
      · rw [if_neg he]
        have h1 : t' = t ∧ l'.prevLoc = m.prevLoc ∧ l'.currLoc = m.currLoc := by
          cases t' <;> first
            | exact absurd rfl he
            | (simp only [Except.ok.injEq, Prod.mk.injEq, Option.some.injEq] at h
               obtain ⟨rfl, rfl⟩ := h
               exact ⟨rfl, rfl, rfl⟩)
        obtain ⟨rfl, h2, h3⟩ := h1
        exact ⟨m, by rw [locSpan, h2, h3]⟩

/-! ### C117 -/

/-- **C117** Once `is_done` holds, `next` yields nothing; once `next` yields nothing, `is_done`
holds, and `next` yields nothing for ever. -/
theorem C117_done {l : Lexer} :
    (l.isDone = true → ∃ l', l.next = .ok (none, l') ∧ l'.isDone = true) ∧
    (∀ l', l.next = .ok (none, l') → l'.isDone = true ∧ ∀ n, items n l' = .ok []) := by
  have key : ∀ {l : Lexer}, l.isDone = true → ∃ l', l.next = .ok (none, l') ∧ l'.isDone = true := by
    intro l h
    have hc : l.chars = [] := by simpa [isDone] using h
    have hw : l.eatWhitespace.chars = [] := by
      have := (reach_eatWhitespace l).suffix
      rw [hc] at this
      exact List.suffix_nil.1 this
    refine ⟨l.eatWhitespace, ?_, by simp [isDone, hw]⟩
    unfold next lex lexN
    simp [hw]
  refine ⟨key, fun l' h => ?_⟩
  have hd : l'.isDone = true := by
    have hlex := next_none h
    rcases (C26_progress hlex).2 with ⟨_, h1⟩ | ⟨h1, _⟩ | ⟨h1, _⟩
    · simp [isDone, h1]
    · exact absurd rfl h1
    · cases h1
  refine ⟨hd, fun n => ?_⟩
  obtain ⟨l'', h1, _⟩ := key hd
  cases n with
  | zero => rfl
  | succ n => rw [items, h1]

omit [CharTables] [LawfulTables] in
/-- Before that, `is_done` need not tell: it is false as long as whitespace or a comment is left. -/
theorem C117_blank_left : ∃ l l', @next asciiTables (new t!"a ") = .ok (some (.lower t!"a", ⟨⟨1, 1, 0⟩, ⟨1, 2, 1⟩⟩), l) ∧
    l.isDone = false ∧ @next asciiTables l = .ok (none, l') := ⟨_, _, rfl, rfl, rfl⟩

end
end Lexer

/-! ### C118 -/

private theorem decText_inj {a b : Nat} (h : decText a = decText b) : a = b := by
  have := congrArg (fun s => Nat.ofDigitChars 10 s 0) h
  simpa only [decText, Nat.ofDigitChars_ten_toDigits] using this

private theorem decText_digit (n : Nat) : ∀ c ∈ decText n, c.isDigit = true :=
  fun _ hc => Nat.isDigit_of_mem_toDigits (by decide) (by decide) hc

/-- Decimal numbers followed by something that does not start with a digit can be told apart. -/
private theorem decText_stop {a b : Nat} {r s : Text} (hr : ∀ c ∈ r.head?, c.isDigit = false)
    (hs : ∀ c ∈ s.head?, c.isDigit = false) (h : decText a ++ r = decText b ++ s) : a = b ∧ r = s := by
  have key : ∀ {x y : Text}, (∀ d ∈ x, d.isDigit = true) → (∀ d ∈ y, d.isDigit = true) →
      x ++ r = y ++ s → x = y ∧ r = s := by
    intro x
    induction x with
    | nil =>
      intro y _ hy h
      cases y with
      | nil => exact ⟨rfl, h⟩
      | cons d y =>
        have h1 := hr d (by rw [show r = _ from h]; simp)
        rw [hy d (by simp)] at h1; cases h1
    | cons e x ih =>
      intro y hx hy h
      cases y with
      | nil =>
        have h1 := hs e (by rw [← show _ = s from h]; simp)
        rw [hx e (by simp)] at h1; cases h1
      | cons d y =>
        injection h with h1 h2
        obtain ⟨h3, h4⟩ := ih (fun d hd => hx d (by simp [hd])) (fun d hd => hy d (by simp [hd])) h2
        exact ⟨by rw [h1, h3], h4⟩
  obtain ⟨h1, h2⟩ := key (decText_digit a) (decText_digit b) h
  exact ⟨decText_inj h1, h2⟩

private theorem decText_sep {a b : Nat} {c : Char} (hc : c.isDigit = false) {r s : Text}
    (h : decText a ++ c :: r = decText b ++ c :: s) : a = b ∧ r = s := by
  obtain ⟨h1, h2⟩ := decText_stop (by simpa using hc) (by simpa using hc) h
  injection h2 with _ h2
  exact ⟨h1, h2⟩

/-- **C118** Different locations are displayed differently, also when something that does not start
with a digit follows. -/
theorem C118_location {a b : Loc} {r s : Text} (hr : ∀ c ∈ r.head?, c.isDigit = false)
    (hs : ∀ c ∈ s.head?, c.isDigit = false) (h : a.text ++ r = b.text ++ s) : a = b ∧ r = s := by
  obtain ⟨a1, a2, a3⟩ := a
  obtain ⟨b1, b2, b3⟩ := b
  simp only [Loc.text, List.append_assoc, List.cons_append, List.nil_append] at h
  injection h with _ h
  obtain ⟨rfl, h1⟩ := decText_sep (by decide) h
  injection h1 with _ h1
  obtain ⟨rfl, h2⟩ := decText_sep (by decide) h1
  obtain ⟨rfl, h3⟩ := decText_stop hr hs h2
  exact ⟨rfl, h3⟩

/-- **C118** Line and column as shown in messages determine line and column. -/
theorem C118_line_column {a b : Loc} (h : a.lncol = b.lncol) : a.line = b.line ∧ a.col = b.col := by
  unfold Loc.lncol at h
  simp only [List.append_assoc, List.cons_append, List.nil_append] at h
  obtain ⟨h1, h2⟩ := decText_sep (by decide) h
  exact ⟨h1, decText_inj h2⟩

/-- **C118** Different spans are displayed differently. -/
theorem C118_spans : (∀ a b : Span, a.text = b.text → a = b) ∧
    (∀ a b : LocSpan, a.text = b.text → a = b) := by
  constructor
  · rintro ⟨a1, a2⟩ ⟨b1, b2⟩ h
    simp only [Span.text, List.append_assoc, List.cons_append, List.nil_append] at h
    obtain ⟨rfl, h2⟩ := decText_sep (by decide) h
    rw [decText_inj h2]
  · rintro ⟨a1, a2⟩ ⟨b1, b2⟩ h
    simp only [LocSpan.text, List.append_assoc, List.cons_append, List.nil_append] at h
    obtain ⟨rfl, h2⟩ := C118_location (by simp) (by simp) h
    injection h2 with _ h2
    obtain ⟨rfl, _⟩ := C118_location (r := []) (s := []) (by simp) (by simp) (by simpa using h2)
    rfl

end Pemdas
