import Verif.Lemmas.ReprintLex
import Verif.Lemmas.ReprintShape
import Verif.Lemmas.ResolverMore
import Verif.Lemmas.ParseSound
import Verif.Spec.Line
/-
Helper lemmas: the tokens of what is printed, and the expression they stand for.
-/
namespace Pemdas
open Printer TLex
variable [CharTables]

/-- The text is read as the tokens if something that ends tokens follows. -/
def ReadsAs (w : Text) (ts : List Token) : Prop :=
  '\n' ∉ w ∧ ∀ rest us, Brk rest → Has rest us → Has (w ++ rest) (ts ++ us)

/-- What follows the text can follow a token, and so can the text. -/
def EndsTokens (w : Text) : Prop := ∀ rest, Brk rest → Brk (w ++ rest)

omit [CharTables] in
theorem EndsTokens.nil : EndsTokens [] := fun _ h => h

omit [CharTables] in
theorem EndsTokens.cons {c : Char} {w : Text} (h : c ∈ t!" )],") : EndsTokens (c :: w) :=
  fun _ _ => Brk.cons h

namespace ReadsAs

theorem nil : ReadsAs [] [] := ⟨by simp, fun _ _ _ h => h⟩

theorem append {a b : Text} {ts us : List Token} (ha : ReadsAs a ts) (hb : ReadsAs b us)
    (he : EndsTokens b) : ReadsAs (a ++ b) (ts ++ us) := by
  refine ⟨by simp [ha.1, hb.1], fun rest vs hs hr => ?_⟩
  rw [List.append_assoc, List.append_assoc]
  exact ha.2 _ _ (he rest hs) (hb.2 _ _ hs hr)

theorem space {b : Text} {us : List Token} (hb : ReadsAs b us) : ReadsAs (' ' :: b) us :=
  ⟨by simp [hb.1], fun rest vs hs hr => Has.space (by decide) (hb.2 _ _ hs hr)⟩

theorem tok {w : Text} {t : Token} (hn : '\n' ∉ w) (ht : t ≠ .eof ∧ ∀ e, t ≠ .error e)
    (h : ∀ rest, Brk rest → lex (w ++ rest) = .ok (t, rest)) : ReadsAs w [t] :=
  ⟨hn, fun rest _ hs hr => .cons (h rest hs) ht hr⟩

section
variable [LawfulTables]

theorem punct {c : Char} {t : Token} {b : Text} {us : List Token}
    (h : (c, t) ∈ [('(', Token.parenL), (')', .parenR), ('[', .brackL), (']', .brackR), (',', .comma)])
    (hb : ReadsAs b us) : ReadsAs (c :: b) (t :: us) := by
  have hc : c ≠ '\n' ∧ (t ≠ .eof ∧ ∀ e, t ≠ .error e) := by
    clear hb
    revert h; simp
    rintro (⟨rfl, rfl⟩ | ⟨rfl, rfl⟩ | ⟨rfl, rfl⟩ | ⟨rfl, rfl⟩ | ⟨rfl, rfl⟩) <;> simp
  refine ⟨by simp [hb.1, hc.1.symm], fun rest vs hs hr => ?_⟩
  exact .cons (lex_punct _ h) hc.2 (hb.2 _ _ hs hr)

theorem paren {b : Text} {us : List Token} (hb : ReadsAs b us) :
    ReadsAs ('(' :: (b ++ [')'])) (.parenL :: us ++ [.parenR]) := by
  rw [List.cons_append]
  exact punct (by simp) (hb.append (punct (by simp) nil) (.cons (by decide)))

theorem brack {b : Text} {us : List Token} (hb : ReadsAs b us) :
    ReadsAs ('[' :: (b ++ [']'])) (.brackL :: us ++ [.brackR]) := by
  rw [List.cons_append]
  exact punct (by simp) (hb.append (punct (by simp) nil) (.cons (by decide)))

theorem name_noNL {s : Text} (h : LowerName s) : '\n' ∉ s := by
  have hi : isIdentChar '\n' = false := by rw [ascii_identChar (by decide)]; decide
  obtain ⟨c, y, rfl, hl, ⟨b, t, rfl, hb, ht⟩, _⟩ := h
  intro hm
  rcases List.mem_cons.1 hm with rfl | hm
  · rw [lower_identChar hl] at hi; cases hi
  · rcases List.mem_append.1 hm with hm | hm
    · rw [List.all_eq_true.1 hb _ hm] at hi; cases hi
    · exact absurd (List.all_eq_true.1 ht _ hm) (by decide)

theorem name {s : Text} (h : LowerName s) : ReadsAs s [.lower s] :=
  tok (name_noNL h) (by simp) fun _ hs => lex_name h hs.ident

omit [CharTables] [LawfulTables] in
theorem op_noNL {s : Text} (h : OpName s) : '\n' ∉ s := by
  obtain ⟨c, y, rfl, hl, ⟨b, t, rfl, hb, ht⟩, _⟩ := h
  intro hm
  rcases List.mem_cons.1 hm with rfl | hm
  · revert hl; decide
  · rcases List.mem_append.1 hm with hm | hm
    · exact absurd (List.all_eq_true.1 hb _ hm) (by decide)
    · exact absurd (List.all_eq_true.1 ht _ hm) (by decide)

theorem op {s : Text} (h : OpName s) : ReadsAs s [.affix s false] :=
  tok (op_noNL h) (by simp) fun _ hs => lex_op h fun d hd =>
    ⟨(hs.infix_ d hd).1, (hs.infix_ d hd).2.1, (hs.infix_ d hd).2.2.1⟩

theorem reserved {c : Char} {y : Text} {t : Token}
    (h : (c :: y, t) ∈ [(t!"\\", Token.lambda), (t!"-", .dash), (t!"->", .arrow), (t!"@", .at_)]) :
    ReadsAs (c :: y) [t] := by
  have key : '\n' ∉ c :: y ∧ (t ≠ .eof ∧ ∀ e, t ≠ .error e) := by
    generalize c :: y = w at h
    simp only [List.mem_cons, Prod.mk.injEq, List.not_mem_nil, or_false] at h
    rcases h with ⟨rfl, rfl⟩ | ⟨rfl, rfl⟩ | ⟨rfl, rfl⟩ | ⟨rfl, rfl⟩ <;> exact ⟨by decide, by simp⟩
  exact tok key.1 key.2 fun rest hs => lex_reserved h fun d hd =>
    ⟨(hs.infix_ d hd).1, (hs.infix_ d hd).2.1⟩

theorem lit_noNL {l : Literal} (h : l.Rereads) : '\n' ∉ l.text := by
  cases l with
  | int n => exact fun hm => absurd (decText_mem hm) (by decide)
  | frac f => cases h
  | str s =>
    show '\n' ∉ debugStr s
    unfold debugStr
    rw [escape_str h]
    unfold escapeText
    simp only [List.mem_cons, List.mem_append, List.mem_flatMap, List.not_mem_nil, or_false, not_or]
    refine ⟨by decide, ?_, by decide⟩
    rintro ⟨c, _, hc⟩
    unfold escapeChar at hc
    repeat' split at hc
    all_goals first | (revert hc; decide) | (simp at hc; rename_i h2 _ _ _ _ _; exact h2 hc.symm)
  | char c =>
    show '\n' ∉ debugChar c
    unfold debugChar
    rcases escape_char h with ⟨h1, _, _, _, h5⟩ | ⟨d, h1, _, _, h4⟩
    · rw [h1]; simp [h5.symm]
    · rw [h1]; simp [h4.symm]

theorem lit {l : Literal} (h : l.Rereads) : ReadsAs l.text [.lit l] :=
  tok (lit_noNL h) (by simp) fun _ hs => lex_lit h hs

/-- An operator between blanks. -/
theorem infix_ {op : Infix} (h : op.Rereads) : ∃ t, OpTok op t ∧ ReadsAs op.text [t] := by
  cases op with
  | standard s =>
    rcases h with h | rfl | rfl
    · exact ⟨_, .standard s, op h⟩
    · exact ⟨_, .dash, reserved (by simp)⟩
    · exact ⟨_, .at_, reserved (by simp)⟩
  | promoted s =>
    have htext : (Infix.promoted s).text = '\'' :: s := by
      show (if _ then _ else _) = _
      rw [if_neg]
      rintro ⟨hl, _⟩
      rcases h with ⟨c, d, y, rfl, _⟩ | ⟨c, w, rfl, _⟩
      · have h1 := c.utf8Size_pos
        have h2 := d.utf8Size_pos
        simp only [utf8Len] at hl
        omega
      · have h1 := c.utf8Size_pos
        have h2 := w.utf8Size_pos
        simp only [utf8Len] at hl
        omega
    rw [htext]
    refine ⟨_, .promoted s, tok ?_ (by simp) fun rest hs => ?_⟩
    · rcases h with ⟨c, d, y, rfl, hid, _, hy⟩ | ⟨c, w, rfl, _, h1, h2, _⟩
      · have h1 := identStart_ne hid (d := '\n') (by decide) (by decide)
        obtain ⟨b, t, he, hb, ht⟩ := hy
        rw [he]
        have hi : isIdentChar '\n' = false := by rw [ascii_identChar (by decide)]; decide
        simp only [List.mem_cons, List.mem_append, not_or]
        refine ⟨by decide, h1.symm, fun hm => ?_, fun hm => ?_⟩
        · rw [List.all_eq_true.1 hb _ hm] at hi; cases hi
        · exact absurd (List.all_eq_true.1 ht _ hm) (by decide)
      · simp [h1.symm, h2.symm]
    · exact lex_promoted h hs

end
end ReadsAs

/-! ### patterns -/

/-- The text does not continue an operator. -/
def Fresh (w : Text) : Prop := ∀ rest, ∀ c ∈ (w ++ rest).head?, isInfixChar c = false ∧ isTrailing c = false

omit [CharTables] in
theorem Fresh.cons {c : Char} {w : Text} (h1 : isInfixChar c = false) (h2 : isTrailing c = false) :
    Fresh (c :: w) := by
  intro rest d hd
  have : d = c := by simpa using hd.symm
  rw [this]; exact ⟨h1, h2⟩

section
variable [LawfulTables]

theorem lower_not_infix {c : Char} (h : isLowercase c = true) : isInfixChar c = false := by
  by_cases hc : isInfixChar c = true
  · have hm : c ∈ infixChars := by simpa [isInfixChar] using hc
    rw [LawfulTables.ascii_lower c (by revert hm; clear h hc; revert c; decide)] at h
    revert h; revert hm; clear hc; revert c; decide
  · simpa using hc

theorem Fresh.name {s : Text} (h : PlainName s) (w : Text) : Fresh (s ++ w) := by
  obtain ⟨⟨c, y, rfl, hl, _, _⟩, ht⟩ := h
  exact Fresh.cons (lower_not_infix hl) (ht c (by simp))

/-- A reserved operator directly before something. -/
theorem ReadsAs.glue {c : Char} {t : Token} {w : Text} {ts : List Token}
    (h : ([c], t) ∈ [(t!"\\", Token.lambda), (t!"-", .dash), (t!"->", .arrow), (t!"@", .at_)])
    (hw : ReadsAs w ts) (hf : Fresh w) : ReadsAs (c :: w) (t :: ts) := by
  refine ⟨?_, fun rest us hs hr => ?_⟩
  · have : c ≠ '\n' := by
      rintro rfl; revert h; simp
    simp [hw.1, this.symm]
  · refine .cons (lex_reserved (y := []) h (hf rest)) ?_ (hw.2 _ _ hs hr)
    refine ⟨?_, fun e => ?_⟩ <;> · rintro rfl; revert h; simp

omit [CharTables] [LawfulTables] in
theorem plain_inParens (d : Nat) (ps : List Piece) : plain (inParens d ps) = '(' :: (plain ps ++ [')']) := by
  simp [inParens, plain, Piece.plain]

omit [LawfulTables] in
theorem Pat.Rereads.cases {p : Pat} (h : p.Rereads true) : (∃ l, p = .lit l ∧ l.Rereads) ∨ p.Rereads false := by
  cases p with
  | lit l => exact .inl ⟨l, rfl, h.2⟩
  | wild => exact .inr trivial
  | var s => exact .inr h
  | neg p => exact .inr h
  | con c ps => exact .inr h
  | tup ps => exact .inr h
  | arr ps => exact .inr h
  | lnk l r => exact .inr h
  | as_ s p => exact .inr h

/-- The tokens have no constructor. -/
def NoUpper (ts : List Token) : Prop := ∀ s, Token.upper s ∉ ts

/-- The text is a pattern. -/
def PatShows (w : Text) (p : Pat) : Prop :=
  ∃ ts, ReadsAs w ts ∧ Fresh w ∧ PatToks .pattern p ts ∧ NoUpper ts

theorem PatShows.wild : PatShows t!"_" .wild := by
  refine ⟨[.underscore], ReadsAs.tok (by decide) (by simp) fun rest hs => lex_underscore hs.ident,
    Fresh.cons (by decide) (by decide), .wild, by simp [NoUpper]⟩

theorem PatShows.name {s : Text} (h : PlainName s) : PatShows s (.var s) := by
  refine ⟨[.lower s], .name h.1, ?_, .var s, by simp [NoUpper]⟩
  have := Fresh.name h []
  rwa [List.append_nil] at this

theorem PatShows.neg {w : Text} {p : Pat} (h : PatShows w p) : PatShows ('(' :: '-' :: (w ++ [')'])) (.neg p) := by
  obtain ⟨ts, h1, h2, h3, h4⟩ := h
  refine ⟨.parenL :: (.dash :: ts) ++ [.parenR], ?_, Fresh.cons (by decide) (by decide),
    .paren (.firstNeg h3), by simpa [NoUpper] using h4⟩
  exact (ReadsAs.glue (by simp) h1 h2).paren

theorem PatShows.paren {w : Text} {p : Pat} (h : PatShows w p) : PatShows ('(' :: (w ++ [')'])) p := by
  obtain ⟨ts, h1, h2, h3, h4⟩ := h
  exact ⟨.parenL :: ts ++ [.parenR], h1.paren, Fresh.cons (by decide) (by decide),
    .paren (.first h3), by simpa [NoUpper] using h4⟩

theorem PatShows.as_ {s w : Text} {p : Pat} (hs : PlainName s) (h : PatShows w p) :
    PatShows (s ++ '@' :: w) (.as_ s p) := by
  obtain ⟨ts, h1, h2, h3, h4⟩ := h
  refine ⟨.lower s :: .at_ :: ts, ⟨?_, fun rest us hr hh => ?_⟩, Fresh.name hs _, .as_ s h3,
    by simpa [NoUpper] using h4⟩
  · have := ReadsAs.name_noNL hs.1
    simp [this, h1.1]
  · rw [List.append_assoc]
    refine .cons (lex_name hs.1 ?_) (by simp) ?_
    · intro c hc
      have : c = '@' := by simpa using hc.symm
      subst this
      exact ⟨by rw [ascii_identChar (by decide)]; decide, by decide⟩
    · exact (ReadsAs.glue (by simp) h1 h2).2 _ _ hr hh

/-- Elements after the first one. -/
def PatsShow (w : Text) (ps : List Pat) : Prop :=
  ∃ xs : List (Pat × List Token), xs.map (·.1) = ps ∧
    (∀ x ∈ xs, PatToks .inner x.1 x.2 ∧ NoUpper x.2) ∧
    ReadsAs w ((xs.map (·.2)).map fun us => .comma :: us).flatten ∧ EndsTokens w

omit [CharTables] [LawfulTables] in
theorem noUpper_flatten {xs : List (Pat × List Token)} (h : ∀ x ∈ xs, NoUpper x.2) :
    NoUpper ((xs.map (·.2)).map fun us => .comma :: us).flatten := by
  intro s hm
  simp only [List.mem_flatten, List.mem_map] at hm
  obtain ⟨l, ⟨us, ⟨x, hx, rfl⟩, rfl⟩, hm⟩ := hm
  rcases List.mem_cons.1 hm with hm | hm
  · cases hm
  · exact h x hx s hm

mutual
theorem pat_shows : ∀ (p : Pat) (d : Nat), p.Rereads false → PatShows (plain (ppPat d p)) p
  | .wild, d, _ => by
    rw [show plain (ppPat d .wild) = t!"_" from by simp [ppPat, plain, Piece.plain]]
    exact .wild
  | .lit l, _, h => absurd h.1 (by simp)
  | .var s, d, h => by
    rw [show plain (ppPat d (.var s)) = s from by simp [ppPat, plain, Piece.plain]]
    exact .name h
  | .neg p, d, h => by
    have ih := pat_shows p d h
    have e : plain (ppPat d (.neg p)) =
        '(' :: '-' :: (plain (parIf (!bareNeg p) d (ppPat d p)) ++ [')']) := by
      simp [ppPat, plain, Piece.plain]
    rw [e]
    apply PatShows.neg
    unfold parIf
    split
    · rw [plain_inParens]; exact ih.paren
    · exact ih
  | .con _ _, _, h => h.elim
  | .tup [], _, h => by simp [Pat.Rereads] at h
  | .tup (p :: ps), d, h => by
    obtain ⟨hl, hp, hps⟩ := h
    obtain ⟨ts, h1, h2, h3, h4⟩ := pat_shows p d hp
    obtain ⟨xs, rfl, hx, hs, he⟩ := pats_tail ps d hps
    have e : plain (ppPat d (.tup (p :: xs.map (·.1)))) =
        '(' :: ((plain (ppPat d p) ++ plain (ppPats d false (xs.map (·.1)))) ++ [')']) := by
      simp [ppPat, ppPats, plain, Piece.plain]
    rw [e]
    have hne : xs ≠ [] := by rintro rfl; simp at hl
    refine ⟨_, (h1.append hs he).paren, Fresh.cons (by decide) (by decide), ?_, ?_⟩
    · rw [← sepBy_cons]
      exact .tup (.first h3) hne fun x hm => (hx x hm).1
    · intro s hm
      simp only [List.mem_append, List.mem_cons, List.not_mem_nil, or_false] at hm
      rcases hm with (hm | hm | hm) | hm
      · cases hm
      · exact h4 s hm
      · exact noUpper_flatten (fun x hx' => (hx x hx').2) s hm
      · cases hm
  | .arr [], _, h => absurd rfl h.1
  | .arr (p :: ps), d, h => by
    obtain ⟨_, hp, hps⟩ := h
    obtain ⟨xs, rfl, hx, hs, he⟩ := pats_tail ps d hps
    have e : plain (ppPat d (.arr (p :: xs.map (·.1)))) =
        '[' :: ((plain (ppPat d p) ++ plain (ppPats d false (xs.map (·.1)))) ++ [']']) := by
      simp [ppPat, ppPats, plain, Piece.plain]
    rw [e]
    have key : ∃ ts, ReadsAs (plain (ppPat d p)) ts ∧ PatToks .inner p ts ∧ NoUpper ts := by
      rcases hp.cases with ⟨l, rfl, hl⟩ | hp
      · refine ⟨[.lit l], ?_, .lit l, by simp [NoUpper]⟩
        rw [show plain (ppPat d (.lit l)) = l.text from by simp [ppPat, plain, Piece.plain]]
        exact .lit hl
      · obtain ⟨ts, h1, h2, h3, h4⟩ := pat_shows p d hp
        exact ⟨ts, h1, .inner h3, h4⟩
    obtain ⟨ts, h1, h3, h4⟩ := key
    refine ⟨_, (h1.append hs he).brack, Fresh.cons (by decide) (by decide), ?_, ?_⟩
    · rw [← sepBy_cons]
      refine PatToks.arr (ps := (p, ts) :: xs) (by simp) ?_
      intro x hm
      rcases List.mem_cons.1 hm with rfl | hm
      · exact h3
      · exact (hx x hm).1
    · intro s hm
      simp only [List.mem_append, List.mem_cons, List.not_mem_nil, or_false] at hm
      rcases hm with (hm | hm | hm) | hm
      · cases hm
      · exact h4 s hm
      · exact noUpper_flatten (fun x hx' => (hx x hx').2) s hm
      · cases hm
  | .lnk _ _, _, h => h.elim
  | .as_ s p, d, h => by
    have ih := pat_shows p d h.2
    have e : plain (ppPat d (.as_ s p)) = s ++ '@' :: plain (ppPat d p) := by
      simp [ppPat, plain, Piece.plain]
    rw [e]
    exact .as_ h.1 ih
theorem pats_tail : ∀ (ps : List Pat) (d : Nat), Pat.RereadsList true ps →
    PatsShow (plain (ppPats d false ps)) ps
  | [], d, _ => ⟨[], rfl, by simp, by simpa [ppPats, plain] using ReadsAs.nil, by simpa [ppPats, plain] using EndsTokens.nil⟩
  | p :: ps, d, h => by
    obtain ⟨xs, hxs, hx, hs, he⟩ := pats_tail ps d h.2
    have key : ∃ ts, ReadsAs (plain (ppPat d p)) ts ∧ PatToks .inner p ts ∧ NoUpper ts := by
      rcases h.1.cases with ⟨l, rfl, hl⟩ | hp
      · refine ⟨[.lit l], ?_, .lit l, by simp [NoUpper]⟩
        rw [show plain (ppPat d (.lit l)) = l.text from by simp [ppPat, plain, Piece.plain]]
        exact .lit hl
      · obtain ⟨ts, h1, h2, h3, h4⟩ := pat_shows p d hp
        exact ⟨ts, h1, .inner h3, h4⟩
    obtain ⟨ts, h1, h3, h4⟩ := key
    have e : plain (ppPats d false (p :: ps)) =
        ',' :: ' ' :: (plain (ppPat d p) ++ plain (ppPats d false ps)) := by
      simp [ppPats, plain, Piece.plain]
    rw [e]
    refine ⟨(p, ts) :: xs, by simp [hxs], ?_, ?_, .cons (by decide)⟩
    · intro x hm
      rcases List.mem_cons.1 hm with rfl | hm
      · exact ⟨h3, h4⟩
      · exact hx x hm
    · exact .punct (by simp) (h1.append hs he).space
end

/-! ### expressions -/

/-- The tokens stand for the expression `x` in all categories in which `e` can occur. -/
def LineAs (e x : Expr) (ts : List Token) : Prop :=
  Line .chain x ts ∧ (e.NonBin → e.isOpen = false → Line .operand x ts) ∧
    (e.isArg = true → Line .arg x ts)

omit [CharTables] [LawfulTables] in
theorem LineAs.arg {e x : Expr} {ts : List Token} (h : Line .arg x ts) : LineAs e x ts :=
  ⟨.last (.head h), fun _ _ => .head h, fun _ => h⟩

/-- What is printed for `e` at depth `d`, outside the head of a lambda. -/
def ExprShows (e : Expr) (d : Nat) : Prop :=
  ∃ ts, ReadsAs (plain (ppGo d none e)) ts ∧ LineAs e (e.shown (decide (d ≠ 0)) false) ts

/-- What is printed for `e` as the body of a lambda at depth `k`. -/
def BodyShows (e : Expr) (k : Nat) : Prop :=
  ∃ (ps : List (Pat × List Token)) (x : Expr) (ts : List Token),
    e.shown (decide (k ≠ 0)) true = (ps.map (·.1)).foldr .lam x ∧
    (∀ y ∈ ps, PatWritten y.1 y.2) ∧ Line .chain x ts ∧
    ReadsAs (plain (ppGo 0 (some k) e)) ((ps.map (·.2)).flatten ++ .arrow :: ts) ∧
    EndsTokens (plain (ppGo 0 (some k) e))

omit [LawfulTables] in
theorem ppGo_body {e : Expr} (h : ∀ p b, e ≠ .lam p b) (k : Nat) :
    plain (ppGo 0 (some k) e) = t!" -> " ++ plain (ppGo k none e) := by
  cases e with
  | lam p b => exact absurd rfl (h p b)
  | _ => simp [ppGo, ppEnter, plain, Piece.plain]

omit [CharTables] [LawfulTables] in
theorem shown_body {e : Expr} (h : ∀ p b, e ≠ .lam p b) (deep : Bool) :
    e.shown deep true = e.shown deep false := by
  cases e with
  | lam p b => exact absurd rfl (h p b)
  | _ => simp [Expr.shown]

theorem ExprShows.body {e : Expr} (hn : ∀ p b, e ≠ .lam p b) {k : Nat} (h : ExprShows e k) :
    BodyShows e k := by
  obtain ⟨ts, h1, h2, _⟩ := h
  refine ⟨[], _, ts, shown_body hn _, by simp, h2, ?_, ?_⟩
  · rw [ppGo_body hn]
    have := ((ReadsAs.reserved (c := '-') (y := t!">") (t := .arrow) (by simp)).append h1.space
      (.cons (by decide))).space
    simpa using this
  · rw [ppGo_body hn]; exact .cons (by decide)

/-- An operand of an infix expression. -/
theorem ExprShows.operand {e : Expr} {d : Nat} (h : ExprShows e (d + 1)) :
    ∃ ts, ReadsAs (plain (parIf (!noParen e) (d + 1) (ppGo (d + 1) none e))) ts ∧
      Line .operand (if noParen e then e.shown true false else .grp (e.shown true false)) ts := by
  obtain ⟨ts, h1, h2, _, h3⟩ := h
  simp only [Nat.add_eq_zero_iff, Nat.succ_ne_self, and_false, not_false_eq_true, decide_true, ne_eq] at h2 h3
  by_cases hp : noParen e = true
  · rw [hp]
    refine ⟨ts, h1, .head (h3 ?_)⟩
    revert hp; cases e <;> simp [noParen, Expr.isArg]
  · simp only [hp, Bool.false_eq_true, if_false]
    refine ⟨_, ?_, .head (.grp h2)⟩
    show ReadsAs (plain (inParens _ _)) _
    rw [plain_inParens]
    exact h1.paren

/-- The elements of a tuple or list after the first one. -/
def ExprsShow (w : Text) (es : List Expr) : Prop :=
  ∃ xs : List (Expr × List Token), xs.map (·.1) = Expr.shownList es ∧
    (∀ x ∈ xs, Line .chain x.1 x.2) ∧
    ReadsAs w (xs.map fun x => .comma :: x.2).flatten ∧ EndsTokens w

omit [CharTables] [LawfulTables] in
theorem list_items {e : Expr} {ts : List Token} (xs : List (Expr × List Token)) :
    Line .chain e ts → (∀ x ∈ xs, Line .chain x.1 x.2) →
    ∃ ys : List (Expr × List Token × Bool), ys.map (·.1) = e :: xs.map (·.1) ∧
      (∀ y ∈ ys, Line .chain y.1 y.2.1) ∧
      (ys.map elemToks).flatten = ts ++ (xs.map fun x => .comma :: x.2).flatten ∧
      ∀ a x b, ys = a ++ x :: b → x.2.2 = false → b = [] := by
  induction xs generalizing e ts with
  | nil =>
    intro he _
    refine ⟨[(e, ts, false)], by simp, by simpa using he, by simp [elemToks], ?_⟩
    rintro a x b h _
    cases a with
    | nil => simp at h; exact h.2
    | cons y a => simp at h
  | cons x xs ih =>
    intro he hx
    obtain ⟨ys, h1, h2, h3, h4⟩ := ih (e := x.1) (ts := x.2) (hx x (by simp))
      (fun y hy => hx y (by simp [hy]))
    refine ⟨(e, ts, true) :: ys, by simp [h1], ?_, by simp [elemToks, h3], ?_⟩
    · intro y hy
      rcases List.mem_cons.1 hy with rfl | hy
      · exact he
      · exact h2 y hy
    · rintro a y b h hf
      cases a with
      | nil =>
        injection h with h5 h6
        subst h5; cases hf
      | cons z a =>
        injection h with h5 h6
        exact h4 a y b h6 hf

mutual
theorem expr_shows : ∀ (e : Expr), e.Rereads → (∀ d, ExprShows e d) ∧ ∀ k, BodyShows e k
  | .lit l, h => by
    have : ∀ d, ExprShows (.lit l) d := by
      intro d
      refine ⟨[.lit l], ?_, .arg (by rw [Expr.shown]; exact .lit l)⟩
      rw [show plain (ppGo d none (.lit l)) = l.text from by simp [ppGo, ppEnter, plain, Piece.plain]]
      exact .lit h
    exact ⟨this, fun k => (this k).body (by simp)⟩
  | .var i, h => by
    have : ∀ d, ExprShows (.var i) d := by
      intro d
      have e : plain (ppGo d none (.var i)) = if i.isInfix then t!"(" ++ i.text ++ t!")" else i.text := by
        simp [ppGo, ppEnter, plain, Piece.plain]
      unfold ExprShows
      rw [e, Expr.shown]
      cases i with
      | upper s => exact h.elim
      | nil => exact h.elim
      | lower s => exact ⟨[.lower s], .name h.1, .arg (.lower s)⟩
      | infix_ s => exact ⟨_, (ReadsAs.op h).paren, .arg (.op s false)⟩
      | commas k =>
        refine ⟨_, ?_, .arg (.commas h)⟩
        refine ReadsAs.paren (b := List.replicate k ',') (us := List.replicate k .comma) ?_
        clear h e
        induction k with
        | zero => exact .nil
        | succ k ih => exact .punct (by simp) ih
    exact ⟨this, fun k => (this k).body (by simp)⟩
  | .app f x, h => by
    have : ∀ d, ExprShows (.app f x) d := by
      intro d
      obtain ⟨h1, h2, h3, hf, hx⟩ := h
      obtain ⟨ts, f1, _, f2, _⟩ := (expr_shows f hf).1 d
      obtain ⟨us, x1, _, _, x2⟩ := (expr_shows x hx).1 d
      have e : plain (ppGo d none (.app f x)) =
          plain (ppGo d none f) ++ ' ' :: plain (ppGo d none x) := by
        simp [ppGo, ppEnter, plain, Piece.plain]
      unfold ExprShows
      rw [e, Expr.shown]
      have hl := Line.app (f2 h1 h2) (x2 h3)
      exact ⟨_, f1.append x1.space (.cons (by decide)), .last hl, fun _ _ => hl, by simp [Expr.isArg]⟩
    exact ⟨this, fun k => (this k).body (by simp)⟩
  | .bin l op r, h => by
    have : ∀ d, ExprShows (.bin l op r) d := by
      intro d
      obtain ⟨ho, hl, hr⟩ := h
      obtain ⟨ts, l1, l2⟩ := ((expr_shows l hl).1 (d + 1)).operand
      obtain ⟨us, r1, r2⟩ := ((expr_shows r hr).1 (d + 1)).operand
      obtain ⟨t, o1, o2⟩ := ReadsAs.infix_ ho
      have e : plain (ppGo d none (.bin l op r)) =
          plain (parIf (!noParen l) (d + 1) (ppGo (d + 1) none l)) ++
            ' ' :: (op.text ++ ' ' :: plain (parIf (!noParen r) (d + 1) (ppGo (d + 1) none r))) := by
        simp [ppGo, ppEnter, plain, Piece.plain]
      unfold ExprShows
      rw [e, Expr.shown]
      refine ⟨ts ++ t :: us, ?_, .bin l2 o1 (.last r2), by simp [Expr.NonBin, Expr.rootOp], by simp [Expr.isArg]⟩
      exact l1.append (o2.append r1.space (.cons (by decide))).space (.cons (by decide))
    exact ⟨this, fun k => (this k).body (by simp)⟩
  | .lam p b, h => by
    obtain ⟨hp, hb⟩ := h
    have ih := (expr_shows b hb).2
    constructor
    · intro d
      obtain ⟨ps, x, ts, h1, h2, h3, h4, h5⟩ := ih d
      obtain ⟨us, p1, p2, p3, p4⟩ := pat_shows p 0 hp
      have hl := Line.lam (ps := (p, us) :: ps) (by simp) (by
        intro y hy
        rcases List.mem_cons.1 hy with rfl | hy
        · exact ⟨p3, p4⟩
        · exact h2 y hy) h3
      simp only [List.map_cons, List.foldr_cons, List.flatten_cons, ← h1] at hl
      have hs : ReadsAs ('\\' :: (plain (ppPat 0 p) ++ plain (ppGo 0 (some d) b)))
          (.lambda :: (us ++ (ps.map (·.2)).flatten) ++ .arrow :: ts) := by
        have := ReadsAs.glue (c := '\\') (t := .lambda) (by simp) (p1.append h4 h5) (by
          intro rest
          rw [List.append_assoc]
          exact p2 _)
        simpa using this
      unfold ExprShows
      by_cases hd : d = 0
      · subst hd
        refine ⟨.lambda :: (us ++ (ps.map (·.2)).flatten) ++ .arrow :: ts, ?_, .lastOpen ?_,
          by simp [Expr.isOpen], by simp [Expr.isArg]⟩
        rotate_left
        · rw [Expr.shown]; exact hl
        · have e : plain (ppGo 0 none (.lam p b)) =
              '\\' :: (plain (ppPat 0 p) ++ plain (ppGo 0 (some 0) b)) := by
            simp [ppGo, plain, Piece.plain]
          rw [e]
          exact hs
      · refine ⟨_, ?_, .arg (by simp only [Expr.shown, hd, ne_eq, not_false_eq_true, decide_true, Bool.not_false, Bool.and_self, if_true]; exact .grp (.lastOpen (by simpa [hd] using hl)))⟩
        have e : plain (ppGo d none (.lam p b)) =
            '(' :: ('\\' :: (plain (ppPat 0 p) ++ plain (ppGo 0 (some d) b)) ++ [')']) := by
          simp [ppGo, plain, Piece.plain, hd]
        rw [e]
        simpa using hs.paren
    · intro k
      obtain ⟨ps, x, ts, h1, h2, h3, h4, h5⟩ := ih k
      obtain ⟨us, p1, p2, p3, p4⟩ := pat_shows p 0 hp
      have e : plain (ppGo 0 (some k) (.lam p b)) =
          ' ' :: (plain (ppPat 0 p) ++ plain (ppGo 0 (some k) b)) := by
        simp [ppGo, plain, Piece.plain]
      refine ⟨(p, us) :: ps, x, ts, by simp [Expr.shown, ← h1], ?_, h3, ?_, ?_⟩
      · intro y hy
        rcases List.mem_cons.1 hy with rfl | hy
        · exact ⟨p3, p4⟩
        · exact h2 y hy
      · rw [e]
        have := (p1.append h4 h5).space
        simpa using this
      · rw [e]; exact .cons (by decide)
  | .grp e, h => by
    have : ∀ d, ExprShows (.grp e) d := by
      intro d
      obtain ⟨ts, h1, h2, _⟩ := (expr_shows e h).1 d
      have eq : plain (ppGo d none (.grp e)) = '(' :: (plain (ppGo d none e) ++ [')']) := by
        simp [ppGo, ppEnter, plain_inParens]
      unfold ExprShows
      rw [eq, Expr.shown]
      exact ⟨_, h1.paren, .arg (.grp h2)⟩
    exact ⟨this, fun k => (this k).body (by simp)⟩
  | .neg _, h => h.elim
  | .tup [], _ => by
    have : ∀ d, ExprShows (.tup []) d := by
      intro d
      refine ⟨[.parenL, .parenR], ?_, .arg (by rw [Expr.shown, Expr.shownList]; exact .unit)⟩
      rw [show plain (ppGo d none (.tup [])) = t!"()" from by simp [ppGo, ppList, ppEnter, plain, Piece.plain]]
      exact ReadsAs.nil.paren
    exact ⟨this, fun k => (this k).body (by simp)⟩
  | .tup (e :: es), h => by
    have : ∀ d, ExprShows (.tup (e :: es)) d := by
      intro d
      obtain ⟨hn, he, hes⟩ := h
      obtain ⟨ts, h1, h2, _⟩ := (expr_shows e he).1 0
      obtain ⟨xs, x1, x2, x3, x4⟩ := exprs_show es hes
      have eq : plain (ppGo d none (.tup (e :: es))) =
          '(' :: ((plain (ppGo 0 none e) ++ plain (ppList false es)) ++ [')']) := by
        simp [ppGo, ppList, ppEnter, plain, Piece.plain]
      unfold ExprShows
      rw [eq, Expr.shown, Expr.shownList, ← x1]
      refine ⟨_, (h1.append x3 x4).paren, .arg ?_⟩
      refine .tup (by simpa using h2) ?_ x2
      rintro rfl
      cases es with
      | nil => exact hn rfl
      | cons _ _ => simp [Expr.shownList] at x1
    exact ⟨this, fun k => (this k).body (by simp)⟩
  | .list [], _ => by
    have : ∀ d, ExprShows (.list []) d := by
      intro d
      refine ⟨[.brackL, .brackR], ?_, .arg (by
        rw [Expr.shown, Expr.shownList]; exact Line.list (xs := []) (by simp) (by simp))⟩
      rw [show plain (ppGo d none (.list [])) = t!"[]" from by simp [ppGo, ppList, ppEnter, plain, Piece.plain]]
      exact ReadsAs.nil.brack
    exact ⟨this, fun k => (this k).body (by simp)⟩
  | .list (e :: es), h => by
    have : ∀ d, ExprShows (.list (e :: es)) d := by
      intro d
      obtain ⟨he, hes⟩ := h
      obtain ⟨ts, h1, h2, _⟩ := (expr_shows e he).1 0
      obtain ⟨xs, x1, x2, x3, x4⟩ := exprs_show es hes
      obtain ⟨ys, y1, y2, y3, y4⟩ := list_items xs h2 x2
      have eq : plain (ppGo d none (.list (e :: es))) =
          '[' :: ((plain (ppGo 0 none e) ++ plain (ppList false es)) ++ [']']) := by
        simp [ppGo, ppList, ppEnter, plain, Piece.plain]
      unfold ExprShows
      rw [eq, Expr.shown, Expr.shownList, ← x1]
      refine ⟨_, (h1.append x3 x4).brack, .arg ?_⟩
      have := Line.list (xs := ys) y2 (by
        intro a x b hab hf
        rw [y4 a x b hab hf]
        exact ⟨rfl, rfl⟩)
      rw [y1, y3] at this
      simpa using this
    exact ⟨this, fun k => (this k).body (by simp)⟩
  | .let_ ds b, h => by
    have : ∀ d, ExprShows (.let_ ds b) d := by
      intro d
      obtain ⟨ts, h1, h2, _⟩ := (expr_shows b h).1 d
      have eq : plain (ppGo d none (.let_ ds b)) = plain (ppGo d none b) := by
        simp [ppGo, ppEnter]
      unfold ExprShows
      rw [eq, Expr.shown]
      exact ⟨ts, h1, h2, by simp [Expr.isOpen], by simp [Expr.isArg]⟩
    exact ⟨this, fun k => (this k).body (by simp)⟩
theorem exprs_show : ∀ (es : List Expr), Expr.RereadsList es → ExprsShow (plain (ppList false es)) es
  | [], _ => ⟨[], rfl, by simp, by simpa [ppList, plain] using ReadsAs.nil, by simpa [ppList, plain] using EndsTokens.nil⟩
  | e :: es, h => by
    obtain ⟨xs, x1, x2, x3, x4⟩ := exprs_show es h.2
    obtain ⟨ts, h1, h2, _⟩ := (expr_shows e h.1).1 0
    have eq : plain (ppList false (e :: es)) =
        ',' :: ' ' :: (plain (ppGo 0 none e) ++ plain (ppList false es)) := by
      simp [ppList, plain, Piece.plain]
    rw [eq]
    refine ⟨(e.shown false false, ts) :: xs, by simp [x1, Expr.shownList], ?_, ?_, .cons (by decide)⟩
    · intro x hm
      rcases List.mem_cons.1 hm with rfl | hm
      · simpa using h2
      · exact x2 x hm
    · exact .punct (by simp) (h1.append x3 x4).space
end

end
end Pemdas
