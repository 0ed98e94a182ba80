import Verif.Props.LexerTokens
/-
C139 Unicode escapes.
-/
namespace Pemdas
namespace Lexer

section
variable [CharTables]

omit [CharTables] in
theorem escapeText_hex {s : Text} (h : ∀ c ∈ s, isHexDigit c = true ∨ c = '+') : escapeText s = s := by
  induction s with
  | nil => rfl
  | cons c s ih =>
    have h1 : escapeChar c = [c] := by
      have hc := h c (by simp)
      have hne : ∀ d, (isHexDigit d = false ∧ d ≠ '+') → c ≠ d := by
        rintro d ⟨h1, h2⟩ rfl
        rcases hc with hc | hc
        · rw [h1] at hc; cases hc
        · exact h2 hc
      unfold escapeChar
      rw [if_neg (hne _ (by decide)), if_neg (hne _ (by decide)), if_neg (hne _ (by decide)),
        if_neg (hne _ (by decide)), if_neg (hne _ (by decide)), if_neg (hne _ (by decide)),
        if_neg (hne _ (by decide))]
    have h2 : escapeText (c :: s) = escapeChar c ++ escapeText s := by simp [escapeText]
    rw [h2, h1, ih fun d hd => h d (by simp [hd])]
    rfl

/-- **C139** A backslash before a character that needs none is dropped: the string has the character
itself, wherever in the source the literal is. -/
theorem C139_dropped {l : Lexer} {u : Char} {s rest : Text} (hu : isEscapable u = false)
    (hn : u ≠ '\n') (h : l.chars = '"' :: '\\' :: u :: (escapeText s ++ '"' :: rest)) :
    ∃ sp l', l.next = .ok (some (.lit (.str (u :: s)), sp), l') ∧ l'.chars = rest := by
  have hw := eatWhitespace_chars h (by decide)
  have ha := advance_chars_of hw (by decide)
  have hb := advance_chars_of ha (by decide)
  have hc := advance_chars_of hb hn
  obtain ⟨l', h1, h2⟩ := stringLoop_escape (s := s) (n := (escapeText s).length + rest.length + 2)
    (buf := [u]) hc (by omega)
  have hs : l.eatWhitespace.string = (.lit (.str (u :: s)), l') := by
    unfold string
    have hlen : l.eatWhitespace.advance.chars.length + 1 =
        (escapeText s).length + rest.length + 2 + 1 + 1 := by rw [ha]; simp; omega
    simp only [hlen]
    rw [stringLoop, bumpChar_of ha]
    simp only
    rw [if_neg (by decide), if_neg (by decide), if_pos trivial, stringLoop, bumpChar_of hb]
    simp only
    rw [if_pos trivial, hu, if_neg (by decide), if_neg hn, List.nil_append, h1]
    rfl
  have hd : l.eatWhitespace.dispatch '"' = .ok (.tok (.lit (.str (u :: s))) l') := by
    unfold dispatch
    rw [if_neg (by decide), if_neg (by decide), if_pos rfl, hs]
  exact ⟨_, l', next_of_dispatch h (by decide) hd, h2⟩

/-- **C139** fails always: a string literal that is a unicode escape, in whichever form, lexes to
the text of the escape without its backslash, and never to the text of one character. -/
theorem C139_strings_wrong {l : Lexer} {u : Char} (hu : u = 'u' ∨ u = 'U') {plus ds rest : Text}
    (hp : plus = [] ∨ plus = t!"+") (hd : ds.all isHexDigit = true) (hne : ds ≠ [])
    (h : l.chars = '"' :: '\\' :: u :: (plus ++ ds ++ '"' :: rest)) :
    (∃ sp l', l.next = .ok (some (.lit (.str (u :: (plus ++ ds))), sp), l') ∧ l'.chars = rest) ∧
    ∀ c : Char, ∀ sp l', l.next ≠ .ok (some (.lit (.str [c]), sp), l') := by
  have he : escapeText (plus ++ ds) = plus ++ ds := by
    apply escapeText_hex
    intro c hc
    rcases List.mem_append.1 hc with hc | hc
    · rcases hp with rfl | rfl
      · simp at hc
      · exact .inr (by simpa using hc)
    · exact .inl (List.all_eq_true.1 hd c hc)
  obtain ⟨sp, l', h1, h2⟩ := C139_dropped (l := l) (u := u) (s := plus ++ ds) (rest := rest)
    (by rcases hu with rfl | rfl <;> decide) (by rcases hu with rfl | rfl <;> decide)
    (by rw [he]; exact h)
  refine ⟨⟨sp, l', h1, h2⟩, ?_⟩
  intro c sp' l'' h3
  rw [h1] at h3
  injection h3 with h3
  injection h3 with h3 _
  injection h3 with h3
  injection h3 with h3 _
  injection h3 with h3
  injection h3 with h3
  injection h3 with _ h3
  exact hne (List.append_eq_nil_iff.1 h3).2

/-- **C139** What holds: in a character literal all forms of an escape are the same character.
(Missing: strings, see `C139_strings_wrong`.) -/
theorem C139_characters_partial {src src' : Text} (hc : NoLFCR src) (hc' : NoLFCR src')
    {l m : Lexer} (hl : Point src l) (hm : Point src' m) {u v : Char} (hu : u = 'u' ∨ u = 'U')
    (hv : v = 'u' ∨ v = 'U') {plus plus' ds es rest rest' : Text} (hp : plus = [] ∨ plus = t!"+")
    (hp' : plus' = [] ∨ plus' = t!"+") (hd : ds.all isHexDigit = true) (hne : ds ≠ [])
    (hlen : ds.length ≤ 6) (he : es.all isHexDigit = true) (hne' : es ≠ []) (hlen' : es.length ≤ 6)
    (h : l.chars = '\'' :: '\\' :: u :: (plus ++ ds ++ '\'' :: rest))
    (h' : m.chars = '\'' :: '\\' :: v :: (plus' ++ es ++ '\'' :: rest'))
    {c : Char} (hx : c.toNat = hexValue ds) (hy : c.toNat = hexValue es) :
    (∃ sp l', l.next = .ok (some (.lit (.char c), sp), l')) ∧
      ∃ sp m', m.next = .ok (some (.lit (.char c), sp), m') := by
  have key : ∀ {src : Text} (_ : NoLFCR src) {l : Lexer} (_ : Point src l) {u : Char}
      (_ : u = 'u' ∨ u = 'U') {plus ds rest : Text} (_ : plus = [] ∨ plus = t!"+")
      (_ : ds.all isHexDigit = true) (_ : ds ≠ []) (_ : ds.length ≤ 6)
      (_ : l.chars = '\'' :: '\\' :: u :: (plus ++ ds ++ '\'' :: rest)) (_ : c.toNat = hexValue ds),
      ∃ sp l', l.next = .ok (some (.lit (.char c), sp), l') := by
    intro src hc l hl u hu plus ds rest hp hd hne hlen h hx
    obtain ⟨t, sp, l', h1, -, h2⟩ := C35_unicode_partial hc hl hu hp hd hne hlen h
    rcases h2 with ⟨d, h3, rfl⟩ | ⟨h3, -⟩
    · have : d = c := Char.toNat_inj.1 (h3.trans hx.symm)
      subst this
      exact ⟨sp, l', h1⟩
    · exact absurd hx (h3 c)
  exact ⟨key hc hl hu hp hd hne hlen h hx, key hc' hm hv hp' he hne' hlen' h' hy⟩

end

/-- The four forms in README.md as string literals: `"\U+0041"`, `"\u+41"`, `"\u41"` and `"A"`. -/
example : ((@items asciiTables 9 (new t!"\"\\U+0041\" \"\\u+41\" \"\\u41\" \"A\"")).toOption.map
      (·.map (·.1))) =
    some [.lit (.str t!"U+0041"), .lit (.str t!"u+41"), .lit (.str t!"u41"), .lit (.str t!"A")] := by
  decide +kernel

/-- The same as character literals, each followed by the blank that is lost. -/
example : ((@items asciiTables 9 (new t!"'\\U+0041' '\\u+41' '\\u41' 'A'")).toOption.map
      (·.map (·.1))) = some (List.replicate 4 (.lit (.char 'A'))) ∧
    'A'.toNat = hexValue t!"0041" ∧ 'A'.toNat = hexValue t!"41" := by
  decide +kernel

end Lexer
end Pemdas
