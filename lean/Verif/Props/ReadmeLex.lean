import Verif.Spec.ReadmeLex
import Verif.Props.Chars
import Verif.Props.Spellings
import Verif.Lemmas.Expressible
/-
C140: the operators and names of the README's lexical syntax can be declared and used.
-/
namespace Pemdas
namespace Readme

theorem trails_iff (c : Char) : c ∈ trails ↔ isTrailing c = true := by
  rw [C133_trailing]
  exact ⟨fun h => subset_of_all (m := t!"₀₁₂₃₄₅₆₇₈₉₊₋₍₎⁰¹²³⁴⁵⁶⁷⁸⁹⁺⁻⁽⁾") (l := trails) (by decide) h,
    fun h => subset_of_all (m := trails) (l := t!"₀₁₂₃₄₅₆₇₈₉₊₋₍₎⁰¹²³⁴⁵⁶⁷⁸⁹⁺⁻⁽⁾") (by decide) h⟩

theorem opchar_infix {c : Char} (h : c ∈ opchar) : isInfixChar c = true :=
  (C133_operators c).2 (subset_of_all (l := opchar) (by decide) h)

/-- The operators that have a token of their own. -/
def special : List Text := [t!"\\", t!"->", t!"-", t!"@"]

theorem Symbolic.opName {w : Text} (h : Symbolic w) (hs : w ∉ special) : OpName w := by
  obtain ⟨o, t, rfl, hne, ho, hc, ht⟩ := h
  cases o with
  | nil => exact absurd rfl hne
  | cons c o =>
    refine ⟨c, o ++ t, rfl, opchar_infix (ho c (by simp)), ⟨o, t, rfl, ?_, ?_⟩, ?_⟩
    · exact List.all_eq_true.2 fun d hd => opchar_infix (ho d (by simp [hd]))
    · exact List.all_eq_true.2 fun d hd => (trails_iff d).1 (ht d hd)
    · have h0 : c ∈ opchar := ho c (by simp)
      have h1 : ∀ d, d ∉ opchar → ∀ x, d :: x ≠ c :: (o ++ t) := by
        rintro d hd x hx
        exact hd ((List.cons.inj hx).1 ▸ h0)
      have hcomm : c :: o ++ t ≠ t!"~~" := by
        intro he
        cases o with
        | nil =>
          have h2 : t = t!"~" := (List.cons.inj he).2
          have := ht '~' (by simp [h2])
          exact absurd this (by decide)
        | cons d o =>
          simp only [List.cons_append, List.cons.injEq, List.append_eq_nil_iff] at he
          exact hc (by simp [he])
      intro hm
      simp only [reservedOps, special, List.mem_cons, List.not_mem_nil, or_false, not_or] at hm hs
      obtain ⟨s1, s2, s3, s4⟩ := hs
      rcases hm with h | h | h | h | h | h | h | h | h | h
      · exact hcomm h
      · exact s1 h
      · exact h1 _ (by decide) _ h.symm
      · exact s3 h
      · exact s2 h
      · exact h1 _ (by decide) _ h.symm
      · exact h1 _ (by decide) _ h.symm
      · exact h1 _ (by decide) _ h.symm
      · exact h1 _ (by decide) _ h.symm
      · exact s4 h

section
variable [CharTables] [LawfulTables]

theorem Ident.promoted {s : Text} (h : Ident s) : PromotedName s := by
  obtain ⟨c, y, t, rfl, hc, hy, ht⟩ := h
  refine ⟨c, y ++ t, rfl, ?_, y, t, rfl, ?_, ?_⟩
  · exact (C133_names c).1.2 (by rcases hc with h | h | h <;> simp [h])
  · refine List.all_eq_true.2 fun d hd => (C133_names d).2.1.2 ?_
    rcases hy d hd with h | h | h | h
    · exact .inr (.inr (LawfulTables.alphabetic_alnum _ (LawfulTables.upper_alphabetic _ h)))
    · exact .inr (.inr (LawfulTables.alphabetic_alnum _ (LawfulTables.lower_alphabetic _ h)))
    · refine .inr (.inr ?_)
      have hd : d.toNat < 128 := by
        have : ∀ d ∈ digit, d.toNat < 128 := by decide
        exact this d h
      rw [LawfulTables.ascii_alnum _ hd, (C133_digits d).2 h]
      simp
    · exact .inl h
  · exact List.all_eq_true.2 fun d hd => (trails_iff d).1 (ht d hd)

theorem Ident.lowerName {s : Text} (h : Ident s) (hl : ∀ c ∈ s.head?, isLowercase c = true)
    (hk : s ∉ Pemdas.keywords) : LowerName s := by
  obtain ⟨c, y, rfl, -, hy⟩ := h.promoted
  exact ⟨c, y, rfl, hl c rfl, hy, hk⟩

/-! Texts around an operator. -/

omit [CharTables] [LawfulTables] in
theorem sealed (p : Char → Bool) (x : Text) {c : Char} (rest : Text) (h1 : p c = false)
    (h2 : isTrailing c = false) : Maximal p x (c :: rest) :=
  TLex.Maximal.of_head (by rintro d hd; cases hd; exact ⟨h1, h2⟩)

/-- A name that can be read as a variable: it begins with a lower-case letter and is no keyword. -/
def Variable (s : Text) : Prop :=
  Ident s ∧ (∀ c ∈ s.head?, isLowercase c = true) ∧ s ∉ Pemdas.keywords

theorem Variable.lowerName {s : Text} (h : Variable s) : LowerName s := h.1.lowerName h.2.1 h.2.2

theorem Variable.not_newline {s : Text} (h : Variable s) : '\n' ∉ s := h.1.promoted.not_newline

/-- An operator between two variables. -/
theorem used {op : Infix} {t : Token} {w x y : Text} (hop : OpTok op t) (hn : '\n' ∉ w)
    (hx : Variable x) (hy : Variable y) (h : ∀ rest, TokenAt t w (' ' :: rest)) :
    ∃ l', parse (x ++ t!" " ++ w ++ t!" " ++ y) =
      .ok ⟨[.expr], [], [.bin (.var (.lower x)) op (.var (.lower y))]⟩ l' := by
  refine accepts (by simp [hn, hx.not_newline, hy.not_newline]) (ts := [.lower x, t, .lower y]) ?_
    (.bin (.head (.lower _)) hop (.last (.head (.lower _))))
  have hb : Tokenizes (y ++ []) [.lower y] :=
    .token (.lower hy.lowerName (by intro c hc; cases hc)) .nil
  have h1 : Tokenizes (w ++ (' ' :: (y ++ []))) [t, .lower y] := .token (h _) (.space (by decide) hb)
  have := Tokenizes.token (.lower hx.lowerName
    (sealed _ _ (w ++ (' ' :: (y ++ []))) space_ident (by decide))) (.space (by decide) h1)
  simpa using this

/-- `assoc` with what it stands for. -/
def assocs : List (Assoc × Text) :=
  [(.left, t!"infixl"), (.right, t!"infixr"), (.neither, t!"infix")]

/-- An operator declared. -/
theorem declared {op : Infix} {t : Token} {w k : Text} {a : Assoc} {p : Nat} (hop : OpTok op t)
    (hn : '\n' ∉ w) (hk : (a, k) ∈ assocs) (hp : p ≤ 9) (h : TokenAt t w []) :
    ∃ l', parse (k ++ t!" " ++ decText p ++ t!" " ++ w) =
      .ok ⟨[.infix_], [⟨[op], ⟨p, a⟩⟩], []⟩ l' := by
  obtain ⟨hd, hne, hv⟩ := TLex.decText_digits p
  have h6 : TokenAt (.lit (.int p)) (decText p) (' ' :: w) := by
    have := TokenAt.int (rest := ' ' :: w) hne hd (by rw [hv]; omega)
      (by rintro c hc; cases hc; decide)
    rwa [hv] at this
  have h1 : Tokenizes (w ++ []) [t] := .token h .nil
  rw [List.append_nil] at h1
  have h2 : Tokenizes (decText p ++ (' ' :: w)) [.lit (.int p), t] :=
    .token h6 (.space (by decide) h1)
  have hkt : (a.kwTok, k) ∈ keywordTokens ∧ '\n' ∉ k := by
    simp only [assocs, List.mem_cons, List.not_mem_nil, or_false, Prod.mk.injEq] at hk
    rcases hk with ⟨rfl, rfl⟩ | ⟨rfl, rfl⟩ | ⟨rfl, rfl⟩ <;> decide
  have h3 := Tokenizes.token (w := k) (.keyword hkt.1
    (sealed _ _ (decText p ++ (' ' :: w)) space_ident (by decide))) (.space (by decide) h2)
  have hnd : '\n' ∉ decText p := fun hm => absurd (List.all_eq_true.1 hd _ hm) (by decide)
  refine (C96_one_line_programs (by simp [hn, hkt.2, hnd]) _).2 ⟨[a.kwTok, .lit (.int p), t],
    [.infix_ ⟨[op], ⟨p, a⟩⟩], by simpa using h3, ?_, rfl⟩
  have hd : DeclWritten ⟨[op], ⟨p, a⟩⟩ [a.kwTok, .lit (.int p), t] := by
    refine ⟨?_, by simp, by simp⟩
    have := DeclToks.withPrec (a := a) (p := p) (ops := [(op, t)]) hp (by simp)
      (by simpa using hop)
    simpa [sepBy] using this
  simpa using LineProg.infix_ (ds := []) (us := []) false hd .nil

/-- An operator as a function. -/
theorem applied {b : Bool} {s w x : Text} (hn : '\n' ∉ w) (hx : Variable x)
    (h : ∀ rest, TokenAt (.affix s b) w (')' :: rest)) :
    ∃ l', parse (t!"(" ++ w ++ t!") " ++ x) =
      .ok ⟨[.expr], [], [.app (.var (.infix_ s)) (.var (.lower x))]⟩ l' := by
  refine accepts (by simp [hn, hx.not_newline])
    (ts := [.parenL, .affix s b, .parenR] ++ [.lower x]) ?_
    (.last (.app (.head (.op _ _)) (.lower _)))
  have ha : Tokenizes (x ++ []) [.lower x] :=
    .token (.lower hx.lowerName (by intro c hc; cases hc)) .nil
  have h1 : Tokenizes (t!")" ++ (' ' :: (x ++ []))) [.parenR, .lower x] :=
    .token (w := t!")") (.punct (by decide)) (.space (by decide) ha)
  have := Tokenizes.token (w := t!"(") (.punct (t := .parenL) (by decide)) (.token (h _) h1)
  simpa using this

end
end Readme

section
variable [CharTables] [LawfulTables]
open Readme

/-- **C140** Every operator of the README's lexical syntax that has no token of its own can be
declared, used and turned into a function. (Missing: the operators `\`, `->`, `-` and `@`, see
`C140_operators_wrong`.) -/
theorem C140_operators_partial {w x y k : Text} {a : Assoc} {p : Nat} (hw : Symbolic w)
    (hs : w ∉ [t!"\\", t!"->", t!"-", t!"@"]) (hx : Variable x) (hy : Variable y)
    (hk : (a, k) ∈ assocs) (hp : p ≤ 9) :
    (∃ l', parse (x ++ t!" " ++ w ++ t!" " ++ y) =
      .ok ⟨[.expr], [], [.bin (.var (.lower x)) (.standard w) (.var (.lower y))]⟩ l') ∧
    (∃ l', parse (k ++ t!" " ++ decText p ++ t!" " ++ w) =
      .ok ⟨[.infix_], [⟨[.standard w], ⟨p, a⟩⟩], []⟩ l') ∧
    ∃ l', parse (t!"(" ++ w ++ t!") " ++ x) =
      .ok ⟨[.expr], [], [.app (.var (.infix_ w)) (.var (.lower x))]⟩ l' := by
  have ho := hw.opName hs
  have hn := ho.not_newline
  refine ⟨used (.standard w) hn hx hy fun rest => .op ho (sealed _ _ _ (by decide) (by decide))
      (by simp), declared (.standard w) hn hk hp (.op ho (by intro c hc; cases hc) (by simp)),
    applied (b := false) hn hx fun rest => .op ho (sealed _ _ _ (by decide) (by decide)) (by simp)⟩

/-- **C140** Every name of the README's lexical syntax, be it a keyword, can be promoted to an
operator with backticks, and be declared, used and turned into a function as such; and with
more than one character also by an apostrophe before it, with the same meaning. -/
theorem C140_promoted {s x y k : Text} {a : Assoc} {p : Nat} (hs : Readme.Ident s) (hx : Variable x)
    (hy : Variable y) (hk : (a, k) ∈ assocs) (hp : p ≤ 9) {w : Text}
    (hw : w = t!"`" ++ s ++ t!"`" ∨ 2 ≤ s.length ∧ w = t!"'" ++ s) :
    (∃ l', parse (x ++ t!" " ++ w ++ t!" " ++ y) =
      .ok ⟨[.expr], [], [.bin (.var (.lower x)) (.promoted s) (.var (.lower y))]⟩ l') ∧
    (∃ l', parse (k ++ t!" " ++ decText p ++ t!" " ++ w) =
      .ok ⟨[.infix_], [⟨[.promoted s], ⟨p, a⟩⟩], []⟩ l') ∧
    ∃ l', parse (t!"(" ++ w ++ t!") " ++ x) =
      .ok ⟨[.expr], [], [.app (.var (.infix_ s)) (.var (.lower x))]⟩ l' := by
  have hpr := hs.promoted
  have hn := hpr.not_newline
  rcases hw with rfl | ⟨hlen, rfl⟩
  · have hn' : '\n' ∉ t!"`" ++ s ++ t!"`" := by simp [hn]
    have ht : ∀ rest, TokenAt (.affix s true) (t!"`" ++ s ++ t!"`") rest := fun rest => by
      simpa using TokenAt.backticks (rest := rest) hpr
    exact ⟨used (.promoted s) hn' hx hy fun _ => ht _, declared (.promoted s) hn' hk hp (ht _),
      applied hn' hx fun _ => ht _⟩
  · have hn' : '\n' ∉ t!"'" ++ s := by simp [hn]
    obtain ⟨c, u, t, rfl, -, hu, htr⟩ := hs
    have hc : ∀ rest, ∀ d ∈ (((c :: (u ++ t)).tail ++ rest)).head?, d ≠ '\'' ∧ isWhitespace d = false := by
      intro rest d hd
      have hm : d ∈ u ++ t := by
        cases hut : u ++ t with
        | nil => rw [hut] at hlen; simp at hlen
        | cons e v => rw [hut] at hd; cases hd; simp
      have hsub : ∀ d, d ∈ trails ∨ d ∈ digit ∨ d = '_' → d ≠ '\'' ∧ isWhitespace d = false := by
        have : ∀ d ∈ trails ++ digit ++ ['_'], d ≠ '\'' ∧ isWhitespace d = false := by decide
        intro d hd
        exact this d (by simpa [or_assoc] using hd)
      have hal : isAlphanumeric d = true → d ≠ '\'' ∧ isWhitespace d = false := by
        intro h
        refine ⟨?_, ?_⟩
        · rintro rfl
          rw [LawfulTables.ascii_alnum _ (by decide)] at h
          revert h; decide
        · cases hws : isWhitespace d with
          | false => rfl
          | true => rw [LawfulTables.ws_not_alnum _ hws] at h; cases h
      rcases List.mem_append.1 hm with hm | hm
      · rcases hu d hm with h | h | h | h
        · exact hal (LawfulTables.alphabetic_alnum _ (LawfulTables.upper_alphabetic _ h))
        · exact hal (LawfulTables.alphabetic_alnum _ (LawfulTables.lower_alphabetic _ h))
        · exact hsub d (.inr (.inl h))
        · exact hsub d (.inr (.inr h))
      · exact hsub d (.inl (htr d hm))
    have hparen : isIdentChar ')' = false := by rw [TLex.ascii_identChar (by decide)]; decide
    refine ⟨used (.promoted _) hn' hx hy fun rest => ?_, declared (.promoted _) hn' hk hp ?_,
      applied (b := true) hn' hx fun rest => ?_⟩
    · exact .apostrophe hpr (sealed _ _ _ space_ident (by decide)) (hc _)
    · exact .apostrophe hpr (by intro c hc; cases hc) (hc _)
    · exact .apostrophe hpr (sealed _ _ _ hparen (by decide)) (hc _)

/-- **C140** A name with a lower-case letter first that is no keyword is a variable. (Missing: names
that begin with `_` or with an upper-case letter, see `C140_names_wrong` and C36.) -/
theorem C140_names_partial {x : Text} (hx : Variable x) :
    ∃ l', parse x = .ok ⟨[.expr], [], [.var (.lower x)]⟩ l' := by
  refine accepts hx.not_newline (ts := [.lower x]) ?_ (.last (.head (.lower _)))
  have : Tokenizes (x ++ []) [.lower x] :=
    .token (.lower hx.lowerName (by intro c hc; cases hc)) .nil
  simpa using this

end

section
attribute [local instance] asciiTables asciiTables_lawful
open Readme

/-- **C140** fails for the operators with a token of their own: `\` and `->` are neither used nor
declared, and none of the four is turned into a function. -/
theorem C140_operators_wrong :
    ∀ w ∈ [t!"\\", t!"->", t!"-", t!"@"], Symbolic w ∧
      (parse (t!"(" ++ w ++ t!") a")).value? = none ∧
      (w ∈ [t!"\\", t!"->"] → (parse (t!"a " ++ w ++ t!" b")).value? = none ∧
        (parse (t!"infixl 6 " ++ w)).value? = none) := by
  intro w hw
  refine ⟨⟨w, [], by simp, ?_, ?_, ?_, by simp⟩, ?_⟩
  all_goals (revert w; decide +kernel)

/-- **C140** fails for names that begin with `_` or with an upper-case letter. -/
theorem C140_names_wrong : Readme.Ident t!"Just" ∧ (parse t!"Just").value? = none ∧
    Readme.Ident t!"_x" ∧ (parse t!"_x").value? = none :=
  ⟨⟨'J', t!"ust", [], rfl, by decide, by decide, by decide⟩, by decide +kernel,
    ⟨'_', t!"x", [], rfl, by decide, by decide, by decide⟩, by decide +kernel⟩

/-- Operators and names that meet the hypotheses. -/
example : Symbolic t!"~~+₁" ∧ Readme.Ident t!"elem²" ∧ Variable t!"x1" ∧ ¬ Symbolic t!"~~" := by
  refine ⟨⟨t!"~~+", t!"₁", rfl, by decide, by decide, by decide, by decide⟩,
    ⟨'e', t!"lem", t!"²", rfl, by decide, by decide, by decide⟩,
    ⟨⟨'x', t!"1", [], rfl, by decide, by decide, by decide⟩, by decide, by decide⟩, ?_⟩
  rintro ⟨o, t, h, hne, -, hc, ht⟩
  match o, t, h with
  | [], _, _ => exact hne rfl
  | [c], t, h =>
    have h2 : t = t!"~" := ((List.cons.inj h).2).symm
    exact absurd (ht '~' (by simp [h2])) (by decide)
  | [c, d], [], h => exact hc (by simpa using h.symm)

end
end Pemdas
