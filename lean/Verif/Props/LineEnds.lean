import Verif.Spec.LineEnds
import Verif.Props.Join
import Verif.Lemmas.Laid
/-
C148 Windows line ends.
-/
namespace Pemdas
open Lexer

section
variable [CharTables] [LawfulTables]

private theorem placed_withEol {last : Text} {cs' : List CTok} (hl : Placed [] last cs') :
    ∀ (ls : List Text), (∀ l ∈ ls, WholeLine l) →
      ∃ cs, ∀ eol, eol = t!"\n" ∨ eol = t!"\r\n" → Placed [] (withEol eol ls last) cs
  | [], _ => ⟨cs', fun eol _ => by simpa [withEol] using hl⟩
  | l :: ls, h => by
    obtain ⟨us, ih⟩ := placed_withEol hl ls fun l hl => h l (by simp [hl])
    obtain ⟨ts, h3, h4⟩ := (h l (by simp)).whole
    obtain ⟨cs, h2, h1⟩ := h3.placed []
    refine ⟨cs ++ us, fun eol he => ?_⟩
    have h6 : Placed ([] ++ l ++ eol) (withEol eol ls last) us := by
      obtain ⟨p, hp⟩ : ∃ p, [] ++ l ++ eol = p ++ ['\n'] := by
        rcases he with rfl | rfl
        · exact ⟨l, by simp⟩
        · exact ⟨l ++ ['\r'], by simp⟩
      rw [hp, Placed.newline]
      exact ih eol he
    have := h1.gap (g := eol) (by rcases he with rfl | rfl <;> decide)
      (by rcases he with rfl | rfl <;> simp) (h l (by simp)).code (by rw [h2]; exact h4)
      (.inl (by rcases he with rfl | rfl <;> simp)) h6
    simpa [withEol] using this

omit [LawfulTables] in
private theorem noLFCR_withEol {eol : Text} (he : eol = t!"\n" ∨ eol = t!"\r\n") {last : Text}
    (hn : '\n' ∉ last) (hr : '\r' ∉ last) : ∀ ls : List Text, (∀ l ∈ ls, WholeLine l) →
      NoLFCR (withEol eol ls last) ∧ (withEol eol ls last).head? ≠ some '\r'
  | [], _ => by
    refine ⟨by simpa [withEol] using noLFCR_of_noLF hn, ?_⟩
    intro h
    exact hr (List.mem_of_mem_head? (by simpa [withEol] using h))
  | l :: ls, h => by
    obtain ⟨h1, h2⟩ := noLFCR_withEol he hn hr ls fun l hl => h l (by simp [hl])
    have hl := h l (by simp)
    have e : withEol eol (l :: ls) last = l ++ (eol ++ withEol eol ls last) := by simp [withEol]
    have h3 : NoLFCR ('\n' :: withEol eol ls last) := noLFCR_cons (fun _ => h2) h1
    have h4 : ∃ p, '\n' ∉ p ∧ l ++ (eol ++ withEol eol ls last) = p ++ '\n' :: withEol eol ls last := by
      rcases he with rfl | rfl
      · exact ⟨l, hl.lf, by simp⟩
      · exact ⟨l ++ ['\r'], by simp [hl.lf], by simp⟩
    obtain ⟨p, h5, h6⟩ := h4
    rw [e]
    refine ⟨by rw [h6]; exact noLFCR_append (noLFCR_of_noLF h5) h3 (by simp), ?_⟩
    cases hc : l with
    | nil => exact absurd hc hl.ne
    | cons c l' => 
      intro h7
      exact hl.cr (by rw [hc]; simp at h7; simp [h7])

/-- C148, the part that holds: lines that end in a carriage return and a line feed are read like
lines that end in a line feed: the same texts are accepted, with the same declarations. (Missing:
texts with empty lines, for which it is false, see `C148_empty_lines_wrong`, literals and block
comments that extend over line ends, and codes of characters and promoted names of one character at
the end of a line.) -/
theorem C148_line_ends_partial {ls : List Text} {last : Text} (h : ∀ l ∈ ls, WholeLine l)
    (hn : '\n' ∉ last) (hr : '\r' ∉ last) {ts : List Token} (hl : Tokenizes last ts) (ast : Ast) :
    (∃ l', parse (withEol t!"\r\n" ls last) = .ok ast l') ↔
      ∃ l', parse (withEol t!"\n" ls last) = .ok ast l' := by
  obtain ⟨cs', _, hl'⟩ := hl.placed []
  obtain ⟨us, h1⟩ := placed_withEol hl' ls h
  rw [C96_texts (noLFCR_withEol (.inr rfl) hn hr ls h).1,
    C96_texts (noLFCR_withEol (.inl rfl) hn hr ls h).1]
  have ha := h1 _ (.inl rfl)
  have hb := h1 _ (.inr rfl)
  constructor
  · rintro ⟨cs, ds, h2, h3⟩
    rw [h2.hasC.unique hb.hasC] at h3
    exact ⟨_, ds, ha, h3⟩
  · rintro ⟨cs, ds, h2, h3⟩
    rw [h2.hasC.unique ha.hasC] at h3
    exact ⟨_, ds, hb, h3⟩

end

/-! ### What happens after empty lines -/

section
variable [CharTables] [LawfulTables]

omit [LawfulTables] in
private theorem ident_text {l l' : Lexer} {c : Char} {t : Token} (h : l.ident c = .ok (t, l')) :
    ∃ y, byteSlice l.src l.pos l'.pos = some y ∧ Spells t y := by
  have hl := reach_ident h
  subst hl
  unfold ident at h
  simp only [bind, Except.bind, slice, byteSlice!] at h
  have hs : (l.eatWithTrailing isIdentChar).src = l.src :=
    (reach_eatWithTrailing (b := true) l isIdentChar).src
  rw [hs] at h
  cases hb : byteSlice l.src l.pos (l.eatWithTrailing isIdentChar).pos with
  | none => rw [hb] at h; cases h
  | some y =>
    rw [hb] at h
    refine ⟨y, rfl, ?_⟩
    simp only at h
    unfold identifier at h
    repeat' split at h
    all_goals first | (cases h; first | assumption | rfl) | (cases h; skip) | cases h
    rename_i h'
    split at h'
    · injection h' with h'; rw [← h']; split <;> rfl
    · cases h'

omit [CharTables] [LawfulTables] in
private theorem operator_text {l l' : Lexer} {t : Token} (h : l.operator = .ok (.tok t l'))
    (ht : t.isOperator = true) : ∃ y, byteSlice l.src l.pos l'.pos = some y ∧ Spells t y := by
  have hl := (operator_not_word h).2 ht
  subst hl
  unfold operator at h
  simp only [bind, Except.bind, slice, byteSlice!] at h
  have hs : (l.eatWithTrailing isInfixChar).src = l.src :=
    (reach_eatWithTrailing (b := true) l isInfixChar).src
  rw [hs] at h
  cases hb : byteSlice l.src l.pos (l.eatWithTrailing isInfixChar).pos with
  | none => rw [hb] at h; cases h
  | some y =>
    rw [hb] at h
    refine ⟨y, rfl, ?_⟩
    simp only at h
    repeat' split at h
    all_goals
      first
      | (injection h with h; injection h with h1 h2; subst h1; first | assumption | rfl | cases ht)
      | cases h

/-- C29 for all sources: the text of a name, keyword or operator has as many bytes as the characters
that are read, but comes from as many bytes before them as carriage returns directly after line feeds
have been read. -/
theorem C29_shifted {src : Text} {l l' : Lexer} (hl : Point src l) {t : Token} {sp : LocSpan}
    (h : l.next = .ok (some (t, sp), l')) (p : Char → Bool)
    (hp : (t.isWord = true ∧ p = isIdentChar) ∨ (t.isOperator = true ∧ p = isInfixChar)) :
    ∃ pre x y, src = pre ++ x ++ l'.chars ∧ x ≠ [] ∧ Shape p x ∧
      byteSlice src (utf8Len (unCR pre)) (utf8Len (unCR pre) + utf8Len x) = some y ∧ Spells t y := by
  obtain ⟨hlex, hne, rfl⟩ := next_some h
  obtain ⟨m, hr, hm, h1⟩ := lexN_land hlex (Nat.lt_succ_self _)
  rcases h1 with ⟨_, rfl, _⟩ | ⟨c, cs, hch, hws, hd⟩
  · exact absurd rfl hne
  obtain ⟨hsrc, ⟨pre₀, hat₀⟩, _⟩ := hl.inv
  obtain ⟨u, _, hat⟩ := hat₀.reach hr
  have key : ∀ p : Char → Bool, p '\n' = false → p c = true → l' = m.eatWithTrailing p →
      (∃ y, byteSlice m.src m.pos l'.pos = some y ∧ Spells t y) →
      ∃ pre x y, src = pre ++ x ++ l'.chars ∧ x ≠ [] ∧ Shape p x ∧
        byteSlice src (utf8Len (unCR pre)) (utf8Len (unCR pre) + utf8Len x) = some y ∧
          Spells t y := by
    intro p hpn hpc hl' ⟨y, hy, hsp⟩
    have hms : m.src = src := hr.src.trans hsrc
    have hchars := eatWithTrailing_chars hpn m
    have hmu := munch_append p m.chars
    have hx : (TLex.munch p m.chars).1 ≠ [] := by rw [hch]; unfold TLex.munch; simp [hpc]
    have hsh := TLex.munch_shape p m.chars
    generalize hX : (TLex.munch p m.chars).1 = x at *
    obtain ⟨v, hv, hat'⟩ := hat.reach (reach_eatWithTrailing (b := true) m p)
    rw [hchars] at hv
    have hvx : v = x := List.append_cancel_right (hv.symm.trans hmu)
    subst hvx
    have hnl : '\n' ∉ v := by
      intro hmem
      obtain ⟨b, t', rfl, hb, ht'⟩ := hsh
      rcases List.mem_append.1 hmem with hmem | hmem
      · have := List.all_eq_true.1 hb _ hmem
        rw [hpn] at this; cases this
      · have := List.all_eq_true.1 ht' _ hmem
        revert this; decide
    have hun : unCR (pre₀ ++ u ++ v) = unCR (pre₀ ++ u) ++ v := by
      rw [unCR_append, unCR_of_noLFCR (noLFCR_of_noLF hnl)]
      rintro ⟨h1, h2⟩
      refine hat.edge ⟨h1, ?_⟩
      rw [hv]
      cases v with
      | nil => exact absurd rfl hx
      | cons d v => simpa using h2
    have hpos : m.pos = utf8Len (unCR (pre₀ ++ u)) := congrArg Loc.pos hat.loc
    have hpos' : l'.pos = utf8Len (unCR (pre₀ ++ u)) + utf8Len v := by
      have := congrArg Loc.pos hat'.loc
      rw [hun] at this
      rw [hl']
      refine this.trans ?_
      simp [locOf]
    refine ⟨pre₀ ++ u, v, y, ?_, hx, hsh, ?_, hsp⟩
    · rw [← hms, hl', hchars, List.append_assoc, ← hmu]
      exact hat.src
    · rw [← hpos', ← hpos, ← hms]; exact hy
  rcases hp with ⟨ht, rfl⟩ | ⟨ht, rfl⟩
  · obtain ⟨h1, h2⟩ := dispatch_word hd ht
    refine key _ (by rw [TLex.ascii_identChar (by decide)]; decide) (isIdentStart_identChar h1) h2 ?_
    cases dispatch_pass hd with
    | punct hc =>
      simp only [List.mem_cons, Prod.mk.injEq, List.not_mem_nil, or_false] at hc
      rcases hc with ⟨_, rfl⟩ | ⟨_, rfl⟩ | ⟨_, rfl⟩ | ⟨_, rfl⟩ | ⟨_, rfl⟩ | ⟨_, rfl⟩ | ⟨_, rfl⟩ |
        ⟨_, rfl⟩ <;> cases ht
    | char _ h => rw [(charLit_other h).1] at ht; cases ht
    | string => rw [(string_other m).1] at ht; cases ht
    | number _ h => rw [(number_other h).1] at ht; cases ht
    | backtick _ h => rw [(backtick_other h).1] at ht; cases ht
    | ident hc h => exact ident_text h
    | op _ h => rw [(operator_not_word h).1] at ht; cases ht
    | unknown => cases ht
  · obtain ⟨h1, h2⟩ := dispatch_operator hd ht
    refine key _ (by decide) h1 h2 ?_
    cases dispatch_pass hd with
    | punct hc =>
      simp only [List.mem_cons, Prod.mk.injEq, List.not_mem_nil, or_false] at hc
      rcases hc with ⟨_, rfl⟩ | ⟨_, rfl⟩ | ⟨_, rfl⟩ | ⟨_, rfl⟩ | ⟨_, rfl⟩ | ⟨_, rfl⟩ | ⟨_, rfl⟩ |
        ⟨_, rfl⟩ <;> cases ht
    | char _ h => rw [(charLit_other h).2] at ht; cases ht
    | string => rw [(string_other m).2] at ht; cases ht
    | number _ h => rw [(number_other h).2] at ht; cases ht
    | backtick _ h => rw [(backtick_other h).2] at ht; cases ht
    | ident hc h => rw [ident_not_operator h] at ht; cases ht
    | op _ h => exact operator_text h ht
    | unknown => cases ht

end

section
attribute [local instance] asciiTables asciiTables_lawful

/-- What C29 says about `ab` in the source "\\n\\rab". -/
example : byteSlice t!"\n\rab" (utf8Len (unCR t!"\n\r")) (utf8Len (unCR t!"\n\r") + utf8Len t!"ab") =
    some t!"\ra" := by decide

example : WholeLine t!"infixl 6 + ~~ plus" ∧ withEol t!"\r\n" [t!"infixl 6 + ~~ plus"] t!"a + b" =
    t!"infixl 6 + ~~ plus\r\na + b" := by
  refine ⟨⟨by decide, by decide, by decide, ?_, [.infixL, .lit (.int 6), .affix t!"+" false], ?_, ?_⟩,
    rfl⟩
  · exact noCodeEnd_of_last (by decide)
  · exact exTokens 9 (by decide +kernel) (by decide) (by simp)
  · rintro x ⟨⟩

/-- C148 is false with empty lines: after one, names are not what is written. -/
theorem C148_empty_lines_wrong : ∃ ast ast' l l',
    parse (withEol t!"\n" [t!"a;", []] t!"b") = .ok ast l ∧
    parse (withEol t!"\r\n" [t!"a;", []] t!"b") = .ok ast' l' ∧
    ast.exprs = [.var (.lower t!"a"), .var (.lower t!"b")] ∧
    ast'.exprs = [.var (.lower t!"a"), .var (.lower t!"\n")] := by
  obtain ⟨l, h⟩ := of_value (src := t!"a;\n\nb")
    (ast := ⟨[.expr, .expr], [], [.var (.lower t!"a"), .var (.lower t!"b")]⟩) (by decide +kernel)
  obtain ⟨l', h'⟩ := of_value (src := t!"a;\r\n\r\nb")
    (ast := ⟨[.expr, .expr], [], [.var (.lower t!"a"), .var (.lower t!"\n")]⟩) (by decide +kernel)
  exact ⟨_, _, l, l', h, h', rfl, rfl⟩

/-- C148 is false after a character given by its code: the line end, or the first half of it, is lost,
and with it the column of the character. -/
theorem C148_code_wrong : ∃ ast ast' l l',
    parse (withEol t!"\n" [t!"abcdef", t!"'\\u41'"] t!"x") = .ok ast l ∧
    parse (withEol t!"\r\n" [t!"abcdef", t!"'\\u41'"] t!"x") = .ok ast' l' ∧
    ast.exprs = [.var (.lower t!"abcdef"), .app (.lit (.char 'A')) (.var (.lower t!"x"))] ∧
    ast'.exprs = [.app (.var (.lower t!"abcdef")) (.lit (.char 'A')), .var (.lower t!"x")] := by
  obtain ⟨l, h⟩ := of_value (src := t!"abcdef\n'\\u41'\nx")
    (ast := ⟨[.expr, .expr], [], [.var (.lower t!"abcdef"),
      .app (.lit (.char 'A')) (.var (.lower t!"x"))]⟩) (by decide +kernel)
  obtain ⟨l', h'⟩ := of_value (src := t!"abcdef\r\n'\\u41'\r\nx")
    (ast := ⟨[.expr, .expr], [], [.app (.var (.lower t!"abcdef")) (.lit (.char 'A')),
      .var (.lower t!"x")]⟩) (by decide +kernel)
  exact ⟨_, _, l, l', h, h', rfl, rfl⟩

end
end Pemdas
