import Verif.Spec.Expressible
import Verif.Lemmas.LexGrammar
import Verif.Lemmas.GrammarSound
import Verif.Lemmas.ParseShapes
import Verif.Lemmas.ParseLine
import Verif.Lemmas.Reprint
/-
Helper lemmas: the syntax trees that can be written.
-/
namespace Pemdas
section
variable [CharTables] {ml : Bool}

/-- Texts that are considered: without newlines, or without newlines before carriage returns. -/
def Considered (ml : Bool) (s : Text) : Prop := if ml then NoLFCR s else '\n' ∉ s

omit [CharTables] in
theorem Considered.infix {s t : Text} (h : Considered ml t) (hi : s <:+: t) : Considered ml s := by
  unfold Considered at h ⊢
  cases ml with
  | false => exact fun hm => h (hi.subset hm)
  | true => exact NoLFCR.infix h hi

/-- Tokens that can be written. -/
def Token.Writable (ml : Bool) : Token → Prop
  | .lower s => LowerName s
  | .affix s false => OpName s
  | .affix s true => PromotedOp ml s
  | .lit l => l.Expressible
  | .upper _ | .eof | .error _ | .dot => False
  | _ => True

variable [LawfulTables]

omit [LawfulTables] in
theorem TokenAt.writable {t : Token} {w rest : Text} (h : TokenAt t w rest) (hn : Considered ml w) :
    t.Writable ml := by
  cases h with
  | punct h => revert h; simp only [punctuation]; intro h; simp at h; rcases h with h|h|h|h|h|h|h|h <;> (rw [h.1]; trivial)
  | keyword h _ => simp only [keywordTokens] at h; simp at h; rcases h with h|h|h|h|h|h <;> (rw [h.1]; trivial)
  | reserved h _ => simp only [reservedTokens] at h; simp at h; rcases h with h|h|h|h <;> (rw [h.1]; trivial)
  | lower h _ => exact h
  | op h _ _ => exact h
  | backticks h => exact .inl h
  | apostrophe h _ _ => exact .inl h
  | @blank c w _ h1 h2 =>
    refine .inr ⟨c, w, rfl, h1, h2, ?_⟩
    have := hn.infix (s := [c, w]) ⟨['\''], [], rfl⟩
    unfold Considered at this
    cases ml with
    | true => exact fun he => this (he ▸ List.infix_refl _)
    | false => exact this
  | int _ _ h _ => exact h
  | char | charEscape | charCode | str => trivial

omit [LawfulTables] in
theorem Tokenizes.writable {s : Text} {ts : List Token} (h : Tokenizes s ts) :
    Considered ml s → ∀ t ∈ ts, t.Writable ml := by
  induction h with
  | nil => simp
  | space _ _ ih => exact fun hn => ih (hn.infix (List.suffix_cons ..).isInfix)
  | line _ _ _ _ ih | block _ _ _ ih => exact fun hn => ih (hn.infix (List.suffix_append ..).isInfix)
  | token ht _ ih =>
    intro hn u hu
    rcases List.mem_cons.1 hu with rfl | hu
    · exact ht.writable (hn.infix (List.prefix_append ..).isInfix)
    · exact ih (hn.infix (List.suffix_append ..).isInfix) u hu

omit [CharTables] [LawfulTables] in
theorem not_newline_shape {p : Char → Bool} {x : Text} (hp : p '\n' = false) (h : Shape p x) :
    '\n' ∉ x := by
  obtain ⟨b, t, rfl, hb, ht⟩ := h
  intro hm
  rcases List.mem_append.1 hm with hm | hm
  · have := List.all_eq_true.1 hb _ hm; rw [hp] at this; cases this
  · exact absurd (List.all_eq_true.1 ht _ hm) (by decide)

theorem newline_ident : isIdentChar '\n' = false := by
  rw [TLex.ascii_identChar (by decide)]; decide

theorem space_ident : isIdentChar ' ' = false := by
  rw [TLex.ascii_identChar (by decide)]; decide

theorem PromotedName.not_newline {s : Text} (h : PromotedName s) : '\n' ∉ s := by
  obtain ⟨c, y, rfl, hc, hy⟩ := h
  have := Lexer.isIdentStart_identChar hc
  intro hm
  rcases List.mem_cons.1 hm with h | hm
  · rw [← h, newline_ident] at this; cases this
  · exact not_newline_shape newline_ident hy hm

theorem LowerName.not_newline {s : Text} (h : LowerName s) : '\n' ∉ s := by
  obtain ⟨c, y, rfl, hc, hy, _⟩ := h
  intro hm
  rcases List.mem_cons.1 hm with h | hm
  · rw [← h, LawfulTables.ascii_lower _ (by decide)] at hc; revert hc; decide
  · exact not_newline_shape newline_ident hy hm

omit [CharTables] [LawfulTables] in
theorem OpName.not_newline {s : Text} (h : OpName s) : '\n' ∉ s := by
  obtain ⟨c, y, rfl, hc, hy, _⟩ := h
  intro hm
  rcases List.mem_cons.1 hm with h | hm
  · rw [← h] at hc; revert hc; decide
  · exact not_newline_shape (by decide) hy hm

omit [CharTables] [LawfulTables] in
theorem escapeText_body (s : Text) : ∃ w, '\n' ∉ w ∧ StrBody w s := by
  induction s with
  | nil => exact ⟨[], by simp, .nil⟩
  | cons c s ih =>
    obtain ⟨w, h1, h2⟩ := ih
    by_cases hn : c = '\n'
    · subst hn
      exact ⟨'\\' :: 'n' :: w, by simp [h1], .escape (by decide) h2⟩
    · by_cases hq : c = '"'
      · subst hq
        exact ⟨'\\' :: '"' :: w, by simp [h1], .escape (by decide) h2⟩
      · by_cases hb : c = '\\'
        · subst hb
          exact ⟨'\\' :: '\\' :: w, by simp [h1], .escape (by decide) h2⟩
        · exact ⟨c :: w, by simp [h1, Ne.symm hn], .char hq hb h2⟩

/-- Every such token can be written before a blank. -/
theorem Token.Writable.written {t : Token} (h : t.Writable false) :
    ∃ w, '\n' ∉ w ∧ ∀ rest, TokenAt t w (' ' :: rest) := by
  have mi : ∀ (x rest : Text), Maximal isIdentChar x (' ' :: rest) := fun x rest =>
    TLex.Maximal.of_head (by simp; exact ⟨space_ident, by decide⟩)
  have mo : ∀ (x rest : Text), Maximal isInfixChar x (' ' :: rest) := fun x rest =>
    TLex.Maximal.of_head (by simp; decide)
  have punct : ∀ c, (t, c) ∈ punctuation → ∃ w, '\n' ∉ w ∧ ∀ rest, TokenAt t w (' ' :: rest) := by
    intro c hc
    refine ⟨[c], ?_, fun rest => .punct hc⟩
    simp only [punctuation] at hc
    intro hm
    have : c = '\n' := (List.mem_singleton.1 hm).symm
    subst this
    simp at hc
  have kw : ∀ w, (t, w) ∈ keywordTokens → '\n' ∉ w → ∃ w, '\n' ∉ w ∧ ∀ rest, TokenAt t w (' ' :: rest) :=
    fun w hw hn => ⟨w, hn, fun rest => .keyword hw (mi _ _)⟩
  have rs : ∀ w, (t, w) ∈ reservedTokens → '\n' ∉ w → ∃ w, '\n' ∉ w ∧ ∀ rest, TokenAt t w (' ' :: rest) :=
    fun w hw hn => ⟨w, hn, fun rest => .reserved hw (mo _ _)⟩
  cases t with
  | semi => exact punct ';' (by decide)
  | parenL => exact punct '(' (by decide)
  | parenR => exact punct ')' (by decide)
  | brackL => exact punct '[' (by decide)
  | brackR => exact punct ']' (by decide)
  | curlyL => exact punct '{' (by decide)
  | curlyR => exact punct '}' (by decide)
  | comma => exact punct ',' (by decide)
  | underscore => exact kw t!"_" (by decide) (by decide)
  | infixL => exact kw t!"infixl" (by decide) (by decide)
  | infixR => exact kw t!"infixr" (by decide) (by decide)
  | infix_ => exact kw t!"infix" (by decide) (by decide)
  | let_ => exact kw t!"let" (by decide) (by decide)
  | in_ => exact kw t!"in" (by decide) (by decide)
  | lambda => exact rs t!"\\" (by decide) (by decide)
  | dash => exact rs t!"-" (by decide) (by decide)
  | arrow => exact rs t!"->" (by decide) (by decide)
  | at_ => exact rs t!"@" (by decide) (by decide)
  | lower s => exact ⟨s, LowerName.not_newline h, fun rest => .lower h (mi _ _)⟩
  | affix s b =>
    cases b with
    | false => exact ⟨s, OpName.not_newline h, fun rest => .op h (mo _ _) (by simp)⟩
    | true =>
      rcases h with h | ⟨c, w, rfl, h1, h2, h3⟩
      · exact ⟨'`' :: (s ++ t!"`"), by simp [h.not_newline], fun rest => .backticks h⟩
      · exact ⟨['\'', c, w], by simpa using h3, fun rest => .blank h1 h2⟩
  | lit l =>
    cases l with
    | int n =>
      obtain ⟨h1, h2, h3⟩ := TLex.decText_digits n
      refine ⟨decText n, ?_, fun rest => ?_⟩
      · intro hm; exact absurd (List.all_eq_true.1 h1 _ hm) (by decide)
      · have := TokenAt.int (rest := ' ' :: rest) h2 h1 (by rw [h3]; exact h) (by simp; decide)
        rwa [h3] at this
    | frac x => exact h.elim
    | str s =>
      obtain ⟨w, h1, h2⟩ := escapeText_body s
      exact ⟨'"' :: (w ++ t!"\""), by simp [h1], fun rest => .str h2⟩
    | char c =>
      by_cases h1 : c ∈ t!"'\\\x00\n"
      · simp at h1
        rcases h1 with rfl | rfl | rfl | rfl
        · exact ⟨['\'', '\\', '\'', '\''], by decide, fun rest => .charEscape (by decide)⟩
        · exact ⟨['\'', '\\', '\\', '\''], by decide, fun rest => .charEscape (by decide)⟩
        · exact ⟨'\'' :: '\\' :: 'u' :: ([] ++ ['0'] ++ '\'' :: [' ']), by decide, fun rest =>
            .charCode (by decide) (by decide) (by decide) (by decide) (by decide) (by decide)
              (.inl rfl)⟩
        · exact ⟨['\'', '\\', 'n', '\''], by decide, fun rest => .charEscape (by decide)⟩
      · simp at h1
        exact ⟨['\'', c, '\''], by simp [Ne.symm h1.2.2.2], fun rest => .char (by simp [h1])⟩
  | _ => exact h.elim

/-- Such tokens can be written on one line. -/
theorem writable_line {ts : List Token} (h : ∀ t ∈ ts, t.Writable false) :
    ∃ src, '\n' ∉ src ∧ Tokenizes src ts := by
  induction ts with
  | nil => exact ⟨[], by simp, .nil⟩
  | cons t ts ih =>
    obtain ⟨s, h1, h2⟩ := ih fun u hu => h u (by simp [hu])
    obtain ⟨w, h3, h4⟩ := (h t (by simp)).written
    exact ⟨w ++ ' ' :: s, by simp [h1, h3], .token (h4 s) (.space (by decide) h2)⟩

end

section
variable [CharTables] {ml : Bool}

/-! ### from tokens to trees -/

/-- All tokens can be written. -/
def AllW (ml : Bool) (ts : List Token) : Prop := ∀ t ∈ ts, t.Writable ml

theorem AllW.left {ts us : List Token} (h : AllW ml (ts ++ us)) : AllW ml ts := fun t ht => h t (by simp [ht])
theorem AllW.right {ts us : List Token} (h : AllW ml (ts ++ us)) : AllW ml us := fun t ht => h t (by simp [ht])
theorem AllW.tail {t : Token} {us : List Token} (h : AllW ml (t :: us)) : AllW ml us :=
  fun t ht => h t (by simp [ht])
theorem AllW.infix {ts us : List Token} (h : AllW ml us) (hi : ts <:+: us) : AllW ml ts :=
  fun t ht => h t (hi.subset ht)

theorem OpTok.expressible {op : Infix} {t : Token} (h : OpTok op t) (ht : t.Writable ml) :
    op.Expressible ml := by
  cases h with
  | dash => exact .inl (by decide)
  | at_ => exact .inl (by decide)
  | standard s => exact .inr ht
  | promoted s => exact ht

theorem DeclToks.expressible {d : InfixDecl} {ts : List Token} (h : DeclToks d ts) (hw : AllW ml ts) :
    d.Expressible ml := by
  have hops : ∀ ops : List (Infix × Token), (∀ x ∈ ops, OpTok x.1 x.2) →
      AllW ml (Pemdas.sepBy .comma (ops.map fun x => [x.2])) → ∀ op ∈ ops.map (·.1), op.Expressible ml := by
    intro ops h hw op hop
    obtain ⟨x, hx, rfl⟩ := List.mem_map.1 hop
    exact (h x hx).expressible (hw _ (mem_sepBy (List.mem_map_of_mem hx) (by simp)))
  cases h with
  | withPrec hp hne hall => exact ⟨by simpa using hne, hp, hops _ hall hw.tail.tail⟩
  | noPrec hne hall => exact ⟨by simpa using hne, Nat.le_refl _, hops _ hall hw.tail⟩

theorem expressibleElems_iff {ps : List Pat} : Pat.ExpressibleElems ml ps ↔
    ∀ p ∈ ps, p.Expressible ml ∨ ∃ l, p = .lit l ∧ l.Expressible := by
  induction ps with
  | nil => simp [Pat.ExpressibleElems]
  | cons p ps ih => simp [Pat.ExpressibleElems, ih]

theorem PatToks.expressible {c : PatCat} {p : Pat} {ts : List Token} (h : PatToks c p ts) :
    AllW ml ts → c ≠ .con ∧ (c ≠ .inner → p.Expressible ml) ∧
      (p.Expressible ml ∨ ∃ l, p = .lit l ∧ l.Expressible) := by
  have fin : ∀ {c : PatCat} {p : Pat}, c ≠ .con → p.Expressible ml → c ≠ .con ∧ (c ≠ .inner → p.Expressible ml) ∧
      (p.Expressible ml ∨ ∃ l, p = .lit l ∧ l.Expressible) := fun h1 h2 => ⟨h1, fun _ => h2, .inl h2⟩
  induction h with
  | wild => exact fun _ => fin (by simp) trivial
  | con0 s => exact fun h => (h (.upper s) (by simp)).elim
  | var s => exact fun h => fin (by simp) (.inl (h (.lower s) (by simp)))
  | as_ s _ ih => exact fun h => fin (by simp) ⟨h (.lower s) (by simp), (ih h.tail.tail).2.1 (by simp)⟩
  | firstOp s b =>
    intro h
    have := h (.affix s b) (by simp)
    cases b with
    | false => exact fin (by simp) (.inr (.inl this))
    | true => exact fin (by simp) (.inr (.inr this))
  | @firstNeg p ts _ ih => exact fun h => fin (by simp) (show p.Expressible ml from (ih h.tail).2.1 (by simp))
  | minus _ ih => exact fun h => fin (by simp) ((ih h.tail).2.1 (by simp))
  | firstCon _ ih | innerCon _ ih => exact fun h => absurd rfl (ih h).1
  | first _ ih | inner _ ih => exact fun h => fin (by simp) ((ih h).2.1 (by simp))
  | paren _ ih => exact fun h => fin (by simp) ((ih h.tail.left).2.1 (by simp))
  | @tup p ts ps _ hne _ ih ihs =>
    intro h
    have h := h.tail.left
    have h1 := (ih (h.infix (sepBy_infix (by simp)))).2.1 (by simp)
    have h2 : Pat.ExpressibleElems ml (ps.map (·.1)) := by
      rw [expressibleElems_iff]
      intro q hq
      obtain ⟨x, hx, rfl⟩ := List.mem_map.1 hq
      exact (ihs x hx (h.infix (sepBy_infix (List.mem_cons_of_mem _ (List.mem_map_of_mem hx))))).2.2
    cases ps with
    | nil => exact absurd rfl hne
    | cons x ps => exact fin (by simp) ⟨h1, h2⟩
  | arrNil => exact fun h => fin (by simp) trivial
  | @arr ps _ _ ihs =>
    intro h
    have h := h.tail.left
    have h2 : Pat.ExpressibleElems ml (ps.map (·.1)) := by
      rw [expressibleElems_iff]
      intro q hq
      obtain ⟨x, hx, rfl⟩ := List.mem_map.1 hq
      exact (ihs x hx (h.infix (sepBy_infix (List.mem_map_of_mem hx)))).2.2
    exact fin (by simp) h2
  | con s _ _ => exact fun h => (h (.upper s) (by simp)).elim
  | conTup _ _ _ ih _ => exact fun h => absurd rfl (ih (h.infix (sepBy_infix (by simp)))).1
  | lit l => exact fun h => ⟨by simp, fun h => absurd rfl h, .inr ⟨l, rfl, h (.lit l) (by simp)⟩⟩

theorem expressibleList_iff {es : List Expr} : Expr.ExpressibleList ml es ↔ ∀ e ∈ es, e.Expressible ml := by
  induction es with
  | nil => simp [Expr.ExpressibleList]
  | cons p ps ih => simp [Expr.ExpressibleList, ih]

theorem foldr_lam_expressible {ps : List Pat} {e : Expr} (hp : ∀ p ∈ ps, p.Expressible ml)
    (he : e.Expressible ml) : (ps.foldr .lam e).Expressible ml := by
  induction ps with
  | nil => exact he
  | cons p ps ih => exact ⟨hp p (by simp), ih fun q hq => hp q (by simp [hq])⟩

theorem Line.expressible {cat : ExprCat} {e : Expr} {ts : List Token} (h : Line cat e ts) :
    AllW ml ts → e.Expressible ml ∧ (cat = .operand ∨ cat = .arg → e.NonBin ∧ e.isOpen = false) ∧
      (cat = .arg → e.isArg = true) := by
  have fin : ∀ {cat : ExprCat} {e : Expr}, e.Expressible ml → e.isArg = true →
      e.Expressible ml ∧ (cat = .operand ∨ cat = .arg → e.NonBin ∧ e.isOpen = false) ∧
      (cat = .arg → e.isArg = true) := by
    intro cat e h1 h2
    refine ⟨h1, fun _ => ?_, fun _ => h2⟩
    cases e <;> simp_all [Expr.isArg, Expr.isOpen, Expr.NonBin, Expr.rootOp]
  induction h with
  | last _ ih | lastOpen _ ih => exact fun h => ⟨(ih h).1, by simp, by simp⟩
  | bin _ ho _ ih1 ih2 =>
    intro h
    have h1 := ih1 h.left
    exact ⟨⟨ho.expressible (h _ (by simp)), (h1.2.1 (.inl rfl)).1, (h1.2.1 (.inl rfl)).2, h1.1,
      (ih2 h.right.tail).1⟩, by simp, by simp⟩
  | head _ ih => exact fun h => ⟨(ih h).1, fun _ => (ih h).2.1 (.inr rfl), by simp⟩
  | app _ _ ih1 ih2 =>
    intro h
    have h1 := ih1 h.left
    have h2 := ih2 h.right
    exact ⟨⟨(h1.2.1 (.inl rfl)).1, .inr (h1.2.1 (.inl rfl)).2, h2.2.2 rfl, h1.1, h2.1⟩,
      fun _ => ⟨rfl, rfl⟩, by simp⟩
  | @lam ps e ts _ hp _ ih =>
    intro h
    refine ⟨foldr_lam_expressible ?_ (ih h.tail.right.tail).1, by simp, by simp⟩
    intro p hp'
    obtain ⟨x, hx, rfl⟩ := List.mem_map.1 hp'
    exact ((hp x hx).1.expressible (h.tail.left.infix (flatten_infix (List.mem_map_of_mem hx)))).2.1
      (by simp)
  | let_ hd _ ih =>
    intro h
    exact ⟨⟨hd.1.expressible h.tail.left, (ih h.tail.right.tail).1⟩, by simp, by simp⟩
  | lit l => exact fun h => fin (h (.lit l) (by simp)) rfl
  | upper s => exact fun h => (h (.upper s) (by simp)).elim
  | lower s => exact fun h => fin (h (.lower s) (by simp)) rfl
  | unit => exact fun h => fin ⟨by simp, trivial⟩ rfl
  | op s b =>
    intro h
    have := h (.affix s b) (by simp)
    cases b with
    | false => exact fin (.inl this) rfl
    | true => exact fin (.inr this) rfl
  | commas hk => exact fun h => fin hk rfl
  | @grp e ts _ ih => exact fun h => fin (show e.Expressible ml from (ih h.tail.left).1) rfl
  | @tup e ts xs _ hne _ ih ihs =>
    intro h
    refine fin ⟨?_, ?_⟩ rfl
    · cases xs with
      | nil => exact absurd rfl hne
      | cons x xs => simp
    · rw [expressibleList_iff]
      intro e' he'
      rcases List.mem_cons.1 he' with rfl | he'
      · exact (ih h.left.left.tail).1
      · obtain ⟨x, hx, rfl⟩ := List.mem_map.1 he'
        exact (ihs x hx ((h.left.right.infix (flatten_infix (List.mem_map_of_mem hx))).tail)).1
  | @list xs _ _ ihs =>
    intro h
    refine fin (show Expr.ExpressibleList ml _ from ?_) rfl
    rw [expressibleList_iff]
    intro e' he'
    obtain ⟨x, hx, rfl⟩ := List.mem_map.1 he'
    exact (ihs x hx ((h.tail.left.infix (flatten_infix (List.mem_map_of_mem hx))).left)).1

theorem LineProg.expressible {ds : List Decl} {ts : List Token} (h : LineProg ds ts) :
    AllW ml ts → ∀ d ∈ ds, d.Expressible ml := by
  induction h with
  | nil => simp
  | infix_ semi hd _ ih =>
    intro h d hd'
    rcases List.mem_cons.1 hd' with rfl | hd'
    · exact hd.1.expressible h.left.left
    · exact ih h.right d hd'
  | expr semi he _ _ ih =>
    intro h d hd'
    rcases List.mem_cons.1 hd' with rfl | hd'
    · exact (he.expressible h.left.left).1
    · exact ih h.right d hd'

/-! ### from trees to tokens -/

theorem AllW.append {ts us : List Token} (h : AllW ml ts) (h' : AllW ml us) : AllW ml (ts ++ us) :=
  fun t ht => (List.mem_append.1 ht).elim (h t) (h' t)
theorem AllW.cons {t : Token} {us : List Token} (h : t.Writable ml) (h' : AllW ml us) : AllW ml (t :: us) :=
  fun u hu => (List.mem_cons.1 hu).elim (fun e => e ▸ h) (h' u)
theorem AllW.nil : AllW ml [] := by simp [AllW]
theorem AllW.flatten {tss : List (List Token)} (h : ∀ ts ∈ tss, AllW ml ts) : AllW ml tss.flatten := by
  intro t ht
  obtain ⟨ts, h1, h2⟩ := List.mem_flatten.1 ht
  exact h ts h1 t h2
theorem AllW.sepBy {tss : List (List Token)} (h : ∀ ts ∈ tss, AllW ml ts) :
    AllW ml (Pemdas.sepBy .comma tss) := by
  induction tss with
  | nil => exact .nil
  | cons ts rest ih =>
    cases rest with
    | nil => exact h ts (by simp)
    | cons us rest =>
      exact (h ts (by simp)).append (.cons trivial (ih fun vs hv => h vs (by simp [hv])))

theorem Infix.Expressible.tok {op : Infix} (h : op.Expressible ml) : ∃ t, OpTok op t ∧ t.Writable ml := by
  cases op with
  | standard s =>
    rcases h with h | h
    · simp at h
      rcases h with rfl | rfl
      · exact ⟨_, .dash, trivial⟩
      · exact ⟨_, .at_, trivial⟩
    · exact ⟨_, .standard s, h⟩
  | promoted s => exact ⟨_, .promoted s, h⟩

omit [CharTables] in
/-- A list of things each of which comes with something else. -/
theorem zip_exists {α β : Type} {P : α → β → Prop} {l : List α} (h : ∀ x ∈ l, ∃ y, P x y) :
    ∃ xs : List (α × β), xs.map (·.1) = l ∧ ∀ x ∈ xs, P x.1 x.2 := by
  induction l with
  | nil => exact ⟨[], rfl, by simp⟩
  | cons a l ih =>
    obtain ⟨xs, h1, h2⟩ := ih fun x hx => h x (by simp [hx])
    obtain ⟨y, hy⟩ := h a (by simp)
    exact ⟨(a, y) :: xs, by simp [h1], fun x hx => (List.mem_cons.1 hx).elim (fun e => e ▸ hy) (h2 x)⟩

theorem InfixDecl.Expressible.toks {d : InfixDecl} (h : d.Expressible ml) :
    ∃ ts, DeclWritten d ts ∧ AllW ml ts := by
  obtain ⟨h1, h2, h3⟩ := h
  obtain ⟨ops, h4, h5⟩ := zip_exists fun op hop => (h3 op hop).tok
  obtain ⟨is, p, a⟩ := d
  simp only at h1 h2 h4 h5
  subst h4
  refine ⟨_, ⟨.withPrec (a := a) h2 (by simpa using h1) fun x hx => (h5 x hx).1, by simp, by simp⟩, ?_⟩
  refine .cons (by cases a <;> trivial) (.cons (show p < 2 ^ 64 by omega) (.sepBy ?_))
  intro us hu
  obtain ⟨x, hx, rfl⟩ := List.mem_map.1 hu
  exact .cons (h5 x hx).2 .nil

theorem AllW.noUpper {ts : List Token} (h : AllW ml ts) (s) : .upper s ∉ ts := fun hm => h _ hm

mutual
theorem Pat.Expressible.toks : ∀ {p : Pat}, p.Expressible ml → ∃ ts, PatToks .pattern p ts ∧ AllW ml ts
  | .wild, _ => ⟨_, .wild, .cons trivial .nil⟩
  | .var s, h => by
    rcases h with h | h | h
    · exact ⟨_, .var s, .cons h .nil⟩
    · exact ⟨_, .paren (.firstOp s false), .cons trivial (.cons h (.cons trivial .nil))⟩
    · exact ⟨_, .paren (.firstOp s true), .cons trivial (.cons h (.cons trivial .nil))⟩
  | .neg p, h => by
    obtain ⟨ts, h1, h2⟩ := Pat.Expressible.toks (p := p) h
    exact ⟨_, .paren (.firstNeg h1), .cons trivial (.append (.cons trivial h2) (.cons trivial .nil))⟩
  | .as_ s p, h => by
    obtain ⟨ts, h1, h2⟩ := Pat.Expressible.toks (p := p) h.2
    exact ⟨_, .as_ s h1, .cons h.1 (.cons trivial h2)⟩
  | .tup [], h => h.elim
  | .tup [_], h => h.elim
  | .tup (p :: q :: ps), h => by
    obtain ⟨ts, h1, h2⟩ := Pat.Expressible.toks (p := p) h.1
    obtain ⟨xs, h3, h4⟩ := Pat.expressibleElems_toks (q :: ps) h.2
    rw [← h3]
    refine ⟨_, .tup (.first h1) ?_ fun x hx => (h4 x hx).1,
      .append (.cons trivial (.sepBy ?_)) (.cons trivial .nil)⟩
    · intro e; rw [e] at h3; cases h3
    · intro us hu
      rcases List.mem_cons.1 hu with rfl | hu
      · exact h2
      · obtain ⟨x, hx, rfl⟩ := List.mem_map.1 hu
        exact (h4 x hx).2
  | .arr ps, h => by
    obtain ⟨xs, h3, h4⟩ := Pat.expressibleElems_toks ps h
    rw [← h3]
    cases xs with
    | nil => exact ⟨_, .arrNil, .cons trivial (.cons trivial (.cons trivial .nil))⟩
    | cons x xs =>
      refine ⟨_, .arr (by simp) fun x hx => (h4 x hx).1,
        .append (.cons trivial (.sepBy ?_)) (.cons trivial .nil)⟩
      intro us hu
      obtain ⟨x, hx, rfl⟩ := List.mem_map.1 hu
      exact (h4 x hx).2
  | .lit _, h | .con _ _, h | .lnk _ _, h => h.elim
theorem Pat.expressibleElems_toks : ∀ (ps : List Pat), Pat.ExpressibleElems ml ps →
    ∃ xs : List (Pat × List Token), xs.map (·.1) = ps ∧ ∀ x ∈ xs, PatToks .inner x.1 x.2 ∧ AllW ml x.2
  | [], _ => ⟨[], rfl, by simp⟩
  | p :: ps, h => by
    obtain ⟨xs, h1, h2⟩ := Pat.expressibleElems_toks ps h.2
    rcases h.1 with h | ⟨l, rfl, hl⟩
    · obtain ⟨ts, h3, h4⟩ := Pat.Expressible.toks (p := p) h
      exact ⟨(p, ts) :: xs, by simp [h1], fun x hx => (List.mem_cons.1 hx).elim (fun e => e ▸ ⟨.inner h3, h4⟩) (h2 x)⟩
    · exact ⟨(.lit l, [.lit l]) :: xs, by simp [h1],
        fun x hx => (List.mem_cons.1 hx).elim
          (fun e => e ▸ ⟨PatToks.lit l, AllW.cons (t := .lit l) hl .nil⟩) (h2 x)⟩
end

mutual
theorem Expr.Expressible.toks : ∀ {e : Expr}, e.Expressible false → ∃ ts, LineAs e e ts ∧ AllW false ts
  | .lit l, h => ⟨_, .arg (.lit l), .cons h .nil⟩
  | .var i, h => by
    cases i with
    | lower s => exact ⟨_, .arg (.lower s), .cons h .nil⟩
    | infix_ s =>
      rcases h with h | h
      · exact ⟨_, .arg (.op s false), .cons trivial (.cons h (.cons trivial .nil))⟩
      · exact ⟨_, .arg (.op s true), .cons trivial (.cons h (.cons trivial .nil))⟩
    | commas k =>
      refine ⟨_, .arg (.commas h), .cons trivial (.append ?_ (.cons trivial .nil))⟩
      intro t ht
      rw [List.eq_of_mem_replicate ht]; trivial
    | upper s => exact h.elim
    | nil => exact h.elim
  | .app f x, h => by
    obtain ⟨h1, h2, h3, h4, h5⟩ := h
    obtain ⟨ts, ht, hw⟩ := Expr.Expressible.toks (e := f) h4
    obtain ⟨us, hu, hv⟩ := Expr.Expressible.toks (e := x) h5
    have := Line.app (ht.2.1 h1 (by simpa using h2)) (hu.2.2 h3)
    exact ⟨_, ⟨.last this, fun _ _ => this, by simp [Expr.isArg]⟩, hw.append hv⟩
  | .bin l op r, h => by
    obtain ⟨h1, h2, h3, h4, h5⟩ := h
    obtain ⟨ts, ht, hw⟩ := Expr.Expressible.toks (e := l) h4
    obtain ⟨us, hu, hv⟩ := Expr.Expressible.toks (e := r) h5
    obtain ⟨t, ho, hx⟩ := h1.tok
    exact ⟨_, ⟨.bin (ht.2.1 h2 h3) ho hu.1, by simp [Expr.NonBin, Expr.rootOp], by simp [Expr.isArg]⟩,
      hw.append (.cons hx hv)⟩
  | .lam p b, h => by
    obtain ⟨ts, ht, hw⟩ := Pat.Expressible.toks h.1
    obtain ⟨us, hu, hv⟩ := Expr.Expressible.toks (e := b) h.2
    have := Line.lam (ps := [(p, ts)]) (by simp) (by simpa using ⟨ht, hw.noUpper⟩) hu.1
    simp only [List.map_cons, List.map_nil, List.foldr_cons, List.foldr_nil] at this
    refine ⟨_, ⟨.lastOpen this, by simp [Expr.isOpen], by simp [Expr.isArg]⟩,
      .cons trivial (.append ?_ (.cons trivial hv))⟩
    simpa using hw
  | .grp e, h => by
    obtain ⟨ts, ht, hw⟩ := Expr.Expressible.toks (e := e) h
    exact ⟨_, .arg (.grp ht.1), .cons trivial (hw.append (.cons trivial .nil))⟩
  | .neg _, h => h.elim
  | .tup [], _ => ⟨_, .arg .unit, .cons trivial (.cons trivial .nil)⟩
  | .tup (e :: es), h => by
    obtain ⟨h1, h2⟩ := h
    obtain ⟨ts, ht, hw⟩ := Expr.Expressible.toks (e := e) h2.1
    obtain ⟨xs, h3, h4⟩ := Expr.expressibleList_toks es h2.2
    subst h3
    refine ⟨_, .arg (.tup ht.1 ?_ fun x hx => (h4 x hx).1), ?_⟩
    · rintro rfl; simp at h1
    · refine .append (.append (.cons trivial hw) (.flatten ?_)) (.cons trivial .nil)
      intro us hu
      obtain ⟨x, hx, rfl⟩ := List.mem_map.1 hu
      exact .cons trivial (h4 x hx).2
  | .list es, h => by
    obtain ⟨xs, h3, h4⟩ := Expr.expressibleList_toks es h
    have := Line.list (xs := xs.map fun x => (x.1, x.2, true))
      (by
        intro y hy
        obtain ⟨x, hx, rfl⟩ := List.mem_map.1 hy
        exact (h4 x hx).1)
      (by
        intro a y b hab hf
        have : y ∈ xs.map fun x => (x.1, x.2, true) := by rw [hab]; simp
        obtain ⟨x, hx, rfl⟩ := List.mem_map.1 this
        cases hf)
    have e : (xs.map fun x => (x.1, x.2, true)).map (·.1) = es := by
      rw [← h3]; simp
    rw [e] at this
    refine ⟨_, .arg this, .append (.cons trivial (.flatten ?_)) (.cons trivial .nil)⟩
    intro us hu
    obtain ⟨y, hy, rfl⟩ := List.mem_map.1 hu
    obtain ⟨x, hx, rfl⟩ := List.mem_map.1 hy
    exact .append (h4 x hx).2 (.cons trivial .nil)
  | .let_ d b, h => by
    obtain ⟨ts, ht, hw⟩ := h.1.toks
    obtain ⟨us, hu, hv⟩ := Expr.Expressible.toks (e := b) h.2
    exact ⟨_, ⟨.lastOpen (.let_ ht hu.1), by simp [Expr.isOpen], by simp [Expr.isArg]⟩,
      .cons trivial (.append hw (.cons trivial hv))⟩
theorem Expr.expressibleList_toks : ∀ (es : List Expr), Expr.ExpressibleList false es →
    ∃ xs : List (Expr × List Token), xs.map (·.1) = es ∧ ∀ x ∈ xs, Line .chain x.1 x.2 ∧ AllW false x.2
  | [], _ => ⟨[], rfl, by simp⟩
  | e :: es, h => by
    obtain ⟨xs, h1, h2⟩ := Expr.expressibleList_toks es h.2
    obtain ⟨ts, h3, h4⟩ := Expr.Expressible.toks (e := e) h.1
    exact ⟨(e, ts) :: xs, by simp [h1],
      fun x hx => (List.mem_cons.1 hx).elim (fun e => e ▸ ⟨h3.1, h4⟩) (h2 x)⟩
end

theorem decls_toks {ds : List Decl} (h : ∀ d ∈ ds, d.Expressible false) :
    ∃ ts, LineProg ds ts ∧ AllW false ts := by
  induction ds with
  | nil => exact ⟨[], .nil, .nil⟩
  | cons d ds ih =>
    obtain ⟨us, h1, h2⟩ := ih fun d hd => h d (by simp [hd])
    have hd := h d (by simp)
    cases d with
    | infix_ d =>
      obtain ⟨ts, h3, h4⟩ := InfixDecl.Expressible.toks hd
      exact ⟨_, .infix_ true h3 h1, (h4.append (.cons (t := .semi) trivial .nil)).append h2⟩
    | expr e =>
      obtain ⟨ts, h3, h4⟩ := Expr.Expressible.toks hd
      exact ⟨_, .expr true h3.1 h1 (by simp), (h4.append (.cons (t := .semi) trivial .nil)).append h2⟩

end
end Pemdas
