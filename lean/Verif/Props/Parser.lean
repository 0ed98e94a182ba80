import Verif.Lemmas.ParseShape
import Verif.Lemmas.ParseFuel
import Verif.Lemmas.LexMore
import Verif.Lemmas.ResolverMain
import Verif.Props.LexerTokens
/-
C37 parsing terminates, C38 fixity declarations, C39 large precedences, C40 shape of parsed
expressions, C43 panics, C68 reporting errors, C73 the parser follows the grammar.
-/
namespace Pemdas
open Lexer

section
variable [CharTables] [LawfulTables]

omit [CharTables] [LawfulTables] in
theorem curr_new (src : Text) : (Lexer.new src).curr = none := by
  unfold Lexer.new; exact (reach_eatWhitespace _).curr

omit [LawfulTables] in
theorem weight_new (src : Text) : (Lexer.new src).weight ≤ src.length := by
  have : (Lexer.new src).chars <:+ src := by
    obtain ⟨pre, h⟩ := (Point.new (src := src)).inv.2.1
    have h2 := (Point.new (src := src)).inv.1
    exact ⟨pre, by rw [← h.src, h2]⟩
  have h := this.length_le
  simp only [Lexer.weight, curr_new]
  exact h

theorem parse_run (src : Text) :
    Run (Lexer.new src) (fun ast ts l' => (∃ ds, ast = ds.foldl Ast.push Ast.empty ∧ ProgToks ds ts) ∧
      P.peek l' = .ok .eof l') (parse src) := by
  have := weight_new src
  exact Run.parseInto _ _ _ (by unfold Parser.fuelFor; omega)

theorem parseExpr_run (src : Text) :
    Run (Lexer.new src) (fun e ts _ => ExprToks .chain e ts) (parseExpr src) := by
  have := weight_new src
  exact (exprSpec _).expression _ (by unfold Parser.fuelFor; omega)

omit [LawfulTables] in
theorem Eats.point {src : Text} {l l' : Lexer} {ts : List Token} (h : Eats l ts l')
    (hl : Point src l) : Point src l' := by
  induction h with
  | refl => exact hl
  | peek _ hp ih => exact ih.peek hp
  | @bump ts m t _ hc _ ih =>
    have := ih.bump
    unfold Lexer.bump at this
    rw [hc] at this
    exact this

/-! ### C37 -/

/-- C37: parsing terminates on every source. The loops and recursive calls of the parser are
bounded by a fuel argument in the model; the fuel `parse` and `parse_expr` start with never runs
out, and any larger amount gives the same outcome. -/
theorem C37_terminates (src : Text) :
    parse src ≠ .fuel ∧ parseExpr src ≠ .fuel ∧
    ∀ n, 16 * src.length + 16 ≤ n →
      Parser.parseInto n Ast.empty (Lexer.new src) = parse src ∧
      Parser.expression n (Lexer.new src) = parseExpr src := by
  have h1 : parse src ≠ .fuel := by
    intro h; have := parse_run src; rw [h] at this; exact this
  have h2 : parseExpr src ≠ .fuel := by
    intro h; have := parseExpr_run src; rw [h] at this; exact this
  refine ⟨h1, h2, fun n hn => ⟨?_, ?_⟩⟩
  · exact same_of_below (m := fun n => Parser.parseInto n Ast.empty)
      (fun k => Parser.parseInto_below k _) h1 hn
  · exact same_of_below (m := fun n => Parser.expression n)
      (fun k => (Parser.exprBelow k).expression) h2 hn

/-! ### C73 -/

/-- C73: when parsing a program succeeds, the tokens of the whole source (as the lexer's iterator
yields them) are derived by the grammar for the declarations parsed, in order. -/
theorem C73_program {src : Text} {ast : Ast} {l' : Lexer} (h : parse src = .ok ast l') :
    ∃ xs ds, (∀ n, src.length ≤ n → items n (Lexer.new src) = .ok xs) ∧
      ProgToks ds (xs.map (·.1)) ∧ ast = ds.foldl Ast.push Ast.empty := by
  have hr := parse_run src
  rw [h] at hr
  obtain ⟨ts, he, ⟨ds, rfl, hds⟩, hp⟩ := hr
  obtain ⟨xs, hx, rfl⟩ := he.items (curr_new src) hp
  refine ⟨xs, ds, fun n hn => ?_, hds, rfl⟩
  have hw := he.weight
  have hw2 := weight_new src
  have := hx (n - xs.length)
  rw [List.length_map] at this hw
  rwa [show xs.length + (n - xs.length) = n by omega] at this

/-- C73: when parsing an expression succeeds, the tokens consumed (a prefix of those of the
source) are derived by the grammar for it. -/
theorem C73_expression {src : Text} {e : Expr} {l' : Lexer} (h : parseExpr src = .ok e l') :
    ∃ ts, Eats (Lexer.new src) ts l' ∧ ExprToks .chain e ts := by
  have hr := parseExpr_run src
  rw [h] at hr
  exact hr

/-! ### C38 -/

/-- C38: every fixity declaration in a parsed program, at the top level or in a `let`, is written
in the source as keyword, optional precedence and operators. -/
theorem C38_written {src : Text} {ast : Ast} {l' : Lexer} (h : parse src = .ok ast l')
    {d : InfixDecl} (hd : d ∈ ast.allDecls) :
    ∃ xs ts, items src.length (Lexer.new src) = .ok xs ∧ ts <:+: xs.map (·.1) ∧ DeclToks d ts := by
  obtain ⟨xs, ds, h1, h2, rfl⟩ := C73_program h
  rcases h2.declares _ d hd with h | ⟨ts, h3, h4⟩
  · simp [Ast.empty, Ast.allDecls, Expr.letsList] at h
  · exact ⟨xs, ts, h1 _ (Nat.le_refl _), h3, h4⟩

/-- C38: every fixity declaration in a parsed program names an operator and has a precedence
from 0 to 9; its associativity is that of its keyword; its precedence is the one written, or 9. -/
theorem C38_declarations {src : Text} {ast : Ast} {l' : Lexer} (h : parse src = .ok ast l')
    {d : InfixDecl} (hd : d ∈ ast.allDecls) :
    d.infixes ≠ [] ∧ d.fixity.prec ≤ 9 ∧
    ∃ xs a b k rest, items src.length (Lexer.new src) = .ok xs ∧
      xs.map (·.1) = a ++ k :: rest ++ b ∧ k = d.fixity.assoc.kwTok ∧
      ((rest.head? = some (.lit (.int d.fixity.prec))) ∨
       ((∀ n, rest.head? ≠ some (.lit (.int n))) ∧ d.fixity.prec = 9)) := by
  obtain ⟨xs, ts, h1, ⟨a, b, h2⟩, h3⟩ := C38_written h hd
  cases h3 with
  | @withPrec as p ops hp hne hall =>
    exact ⟨by simpa using hne, hp, xs, a, b, _, _, h1, h2.symm, rfl, .inl rfl⟩
  | @noPrec as ops hne hall =>
    refine ⟨by simpa using hne, Nat.le_refl _, xs, a, b, _, _, h1, h2.symm, rfl, .inr ⟨?_, rfl⟩⟩
    intro n hn
    cases ops with
    | nil => exact hne rfl
    | cons o ops =>
      rw [List.map_cons, sepBy_cons] at hn
      have ho := hall o (by simp)
      simp only [List.singleton_append, List.head?_cons, Option.some.injEq] at hn
      rw [hn] at ho
      generalize o.1 = x at ho
      cases ho

/-! ### C39 -/

/-- C39, part that holds: a source in which a fixity keyword is followed by an integer above 9 is
never accepted. (Missing: it is not rejected with an error, see `C39_panics_wrong`.) -/
theorem C39_not_accepted_partial {src : Text} {xs : List (Token × LocSpan)} {a b : List Token}
    {k : Token} {n : Nat} (hx : items src.length (Lexer.new src) = .ok xs)
    (hk : k.isFixityKeyword = true) (hn : 9 < n)
    (h : xs.map (·.1) = a ++ k :: .lit (.int n) :: b) (ast : Ast) (l' : Lexer) :
    parse src ≠ .ok ast l' := by
  intro hp
  obtain ⟨ys, ds, h1, h2, _⟩ := C73_program hp
  have h3 := h1 _ (Nat.le_refl _)
  rw [hx] at h3
  cases h3
  have := h2.precOk.1 a b k n h hk
  omega

/-! ### C40 -/

/-- C40: the shape of parsed expressions. -/
theorem C40_shape {src : Text} {ast : Ast} {l' : Lexer} (h : parse src = .ok ast l') :
    ∀ e ∈ ast.exprs, e.Parsed := by
  obtain ⟨xs, ds, _, h2, rfl⟩ := C73_program h
  intro e he
  rcases h2.exprs _ e he with h | h
  · simp [Ast.empty] at h
  · exact h

/-- C40, for `parse_expr`. -/
theorem C40_shape_expr {src : Text} {e : Expr} {l' : Lexer} (h : parseExpr src = .ok e l') :
    e.Parsed := by
  obtain ⟨ts, _, h⟩ := C73_expression h
  exact h.parsed.1

omit [CharTables] [LawfulTables] in
theorem Expr.Parsed.rightNested {e : Expr} (h : e.Parsed) : e.RightNested := by
  induction hn : e.size using Nat.strongRecOn generalizing e with
  | ind n ih =>
    subst hn
    have list : ∀ es : List Expr, (∀ x ∈ es, x.size < e.size) → Expr.ParsedList es →
        Expr.RightNestedList es := by
      intro es
      induction es with
      | nil => intros; trivial
      | cons x es ihx =>
        intro h1 h2
        exact ⟨ih _ (h1 x (by simp)) h2.1 rfl, ihx (fun y hy => h1 y (by simp [hy])) h2.2⟩
    cases e with
    | lit _ | var _ => trivial
    | app f x =>
      exact ⟨ih _ (by simp only [Expr.size]; omega) h.2.2.1 rfl, ih _ (by simp only [Expr.size]; omega) h.2.2.2 rfl⟩
    | bin l op r =>
      exact ⟨h.1, ih _ (by simp only [Expr.size]; omega) h.2.1 rfl, ih _ (by simp only [Expr.size]; omega) h.2.2 rfl⟩
    | lam p b => exact ih _ (by simp only [Expr.size]; omega) (e := b) h rfl
    | grp b => exact ih _ (by simp only [Expr.size]; omega) (e := b) h rfl
    | neg b => exact h.elim
    | tup es => exact list es (fun x hx => by have := Resolver.mem_sizeList hx; simp only [Expr.size]; omega) h.2
    | list es => exact list es (fun x hx => by have := Resolver.mem_sizeList hx; simp only [Expr.size]; omega) h
    | let_ d b => exact ih _ (by simp only [Expr.size]; omega) (e := b) h rfl

/-- C40: in particular the expressions of a parsed program have the shape the theorems about the
resolver (C09, C10, C16) ask for. -/
theorem C40_right_nested {src : Text} {ast : Ast} {l' : Lexer} (h : parse src = .ok ast l') :
    ∀ e ∈ ast.exprs, e.RightNested :=
  fun e he => (C40_shape h e he).rightNested

/-! ### C43 -/

omit [LawfulTables] in
theorem PanicAt.cases {src : Text} {p : Panic} (h : PanicAt (Lexer.new src) p) :
    (∃ l, Point src l ∧ l.next = .error p) ∨
    (p = .precTodo ∧ ∃ ts l a n, Eats (Lexer.new src) (ts ++ [Assoc.kwTok a, .lit (.int n)]) l ∧
      9 < n) := by
  obtain ⟨ts, m, h1, h2⟩ := h
  rcases h2 with h2 | ⟨h2, us, a, n, rfl, h3⟩
  · refine .inl ⟨m, h1.point .new, ?_⟩
    unfold Lexer.peek at h2
    unfold Lexer.next
    split at h2
    · cases h2
    · split at h2
      · rename_i hx; cases h2; rw [hx]
      · cases h2
      · cases h2
  · exact .inr ⟨h2, us, m, a, n, h1, h3⟩

/-- C43: a panic while parsing is a panic of the lexer (failed assertion on an identifier, bad
slice, or bad hexadecimal number), or it comes from a declaration with a precedence above 9. -/
theorem C43_panics {src : Text} {p : Panic} (h : parse src = .panic p ∨ parseExpr src = .panic p) :
    ((p = .badSlice ∨ p = .identAssert ∨ p = .hexExpect) ∧
      ∃ l, Point src l ∧ l.next = .error p) ∨
    (p = .precTodo ∧ ∃ ts l a n, Eats (Lexer.new src) (ts ++ [Assoc.kwTok a, .lit (.int n)]) l ∧
      9 < n) := by
  have hp : PanicAt (Lexer.new src) p := by
    rcases h with h | h
    · have := parse_run src; rw [h] at this; exact this
    · have := parseExpr_run src; rw [h] at this; exact this
  rcases hp.cases with ⟨l, h1, h2⟩ | h1
  · refine .inl ⟨?_, l, h1, h2⟩
    unfold Lexer.next at h2
    split at h2
    · rename_i hx; cases h2; exact lexN_error_kind hx
    · split at h2 <;> cases h2
  · exact .inr h1

/-- C43, for sources without "\n\r": the panic is the assertion on identifiers, caused by a word
that does not start with a lower-case letter, or the precedence. -/
theorem C43_panics_plain {src : Text} (hc : NoLFCR src) {p : Panic}
    (h : parse src = .panic p ∨ parseExpr src = .panic p) :
    (p = .identAssert ∧ ∃ w, w <:+ src ∧ BadWord w) ∨
    (p = .precTodo ∧ ∃ ts l a n, Eats (Lexer.new src) (ts ++ [Assoc.kwTok a, .lit (.int n)]) l ∧
      9 < n) := by
  rcases C43_panics h with ⟨_, l, h1, h2⟩ | h1
  · obtain ⟨h3, w, h4, h5⟩ := C36_panics_partial hc h1 h2
    obtain ⟨hs, ⟨pre, hat⟩, _⟩ := h1.inv
    exact .inl ⟨h3, w, h4.trans ⟨pre, by rw [← hs, hat.src]⟩, h5⟩
  · exact .inr h1

/-! ### C68 -/

omit [LawfulTables] in
theorem token_text_ok {t : Token} (h : t.isEmptyChar = false) : ∃ s, t.text = .ok s := by
  cases t with
  | error e => cases e <;> first | cases h | exact ⟨_, rfl⟩ | skip
               all_goals (rename_i k; cases k <;> exact ⟨_, rfl⟩)
  | _ => exact ⟨_, rfl⟩

omit [LawfulTables] in
theorem Steps.last {l m : Lexer} {ts : List Token} {t : Token} {src : Text} (h : Steps l (ts ++ [t]) m)
    (hl : Point src l) : ∃ k m' sp, Point src k ∧ k.next = .ok (some (t, sp), m') := by
  have hpt : ∀ {us k}, Steps l us k → Point src k := by
    intro us k h
    induction h with
    | refl => exact hl
    | step _ hn ih => exact ih.next hn
  generalize hu : ts ++ [t] = us at h
  cases h with
  | refl => simp at hu
  | @step vs k t' sp m' h1 h2 =>
    obtain ⟨_, h3⟩ := List.append_inj' hu rfl
    cases h3
    exact ⟨k, m, sp, hpt h1, h2⟩

/-- The offending token of a parse error is the end of the input or a token of the source. -/
theorem ErrAt.token {src : Text} {e : ParseError} {l' : Lexer} (h : ErrAt (Lexer.new src) e l') :
    ∃ t loc, (e = .unexpected t loc ∨ ∃ t', t' ∈ wanted ∧ e = .expected t' loc t) ∧
      (t = .eof ∨ ∃ l m sp, Point src l ∧ l.next = .ok (some (t, sp), m)) := by
  obtain ⟨ts, m, t, h1, h2, h3⟩ := h
  refine ⟨t, m.currLoc, ?_, ?_⟩
  · rcases h3 with h3 | ⟨t', _, h4, h5⟩
    · exact .inl h3
    · exact .inr ⟨t', h4, h5⟩
  · by_cases ht : t = .eof
    · exact .inl ht
    · refine .inr ?_
      have h4 : Eats (Lexer.new src) ts l' ∧ l'.curr = some t := by
        unfold P.peek at h2
        cases hp : m.peek with
        | error p => rw [hp] at h2; cases h2
        | ok x =>
          obtain ⟨r, k⟩ := x
          rw [hp] at h2
          cases r with
          | none => cases h2; exact absurd rfl ht
          | some t' => cases h2; exact ⟨h1.peek hp, peek_some hp⟩
      rcases h4.1.steps (curr_new src) with ⟨h5, _⟩ | ⟨t', h5, _, h6⟩ | ⟨h5, _⟩
      · rw [h4.2] at h5; cases h5
      · rw [h4.2] at h5; cases h5
        obtain ⟨k, m', sp, h7, h8⟩ := h6.last .new
        exact ⟨k, m', sp, h7, h8⟩
      · rw [h4.2] at h5; cases h5

/-- C68, part that holds: every parse error can be displayed, unless the source contains two
adjacent apostrophes. (Missing: with them it may crash, see `C68_empty_char_wrong`.) -/
theorem C68_errors_display_partial {src : Text} (hq : ¬ t!"''" <:+: src) {e : ParseError} {l' : Lexer}
    (h : parse src = .err e l' ∨ parseExpr src = .err e l') : ∃ s, e.text = .ok s := by
  have hp : ErrAt (Lexer.new src) e l' := by
    rcases h with h | h
    · have := parse_run src; rw [h] at this; exact this
    · have := parseExpr_run src; rw [h] at this; exact this
  obtain ⟨t, loc, h1, h2⟩ := hp.token
  have ht : ∃ s, t.text = .ok s := by
    apply token_text_ok
    rcases h2 with rfl | ⟨l, m, sp, h3, h4⟩
    · rfl
    · cases h5 : t.isEmptyChar with
      | false => rfl
      | true =>
        exfalso
        apply hq
        obtain ⟨hs, ⟨pre, hat⟩, _⟩ := h3.inv
        refine (lex_empty (next_some h4).1 h5).trans ?_
        exact ⟨pre, [], by rw [List.append_nil, ← hs, hat.src]⟩
  obtain ⟨s, hs⟩ := ht
  rcases h1 with rfl | ⟨t', h6, rfl⟩
  · exact ⟨_, by simp only [ParseError.text, hs]; rfl⟩
  · obtain ⟨s', hs'⟩ : ∃ s, t'.text = .ok s := by
      apply token_text_ok
      cases t' <;> first | rfl | exact absurd rfl (wanted_ne h6 _)
    exact ⟨_, by simp only [ParseError.text, hs, hs']; rfl⟩

end

/-! ### concrete cases -/

/-- The outcome without the lexer state. -/
def PRes.value? {α : Type} : PRes α → Option α
  | .ok a _ => some a
  | _ => none

section
attribute [local instance] asciiTables asciiTables_lawful

/-- A program with a fixity declaration, an infix expression and a `let`. -/
def exSource : Text := t!"infixl 6 +, 'plus; a + f 1; let infixr 5 * in [x, \\y -> y] * ()"

def exAst : Ast :=
  ⟨[.infix_, .expr, .expr], [⟨[.standard t!"+", .promoted t!"plus"], ⟨6, .left⟩⟩],
    [.bin (.var (.lower t!"a")) (.standard t!"+") (.app (.var (.lower t!"f")) (.lit (.int 1))),
     .let_ ⟨[.standard t!"*"], ⟨5, .right⟩⟩
      (.bin (.list [.var (.lower t!"x"), .lam (.var t!"y") (.var (.lower t!"y"))]) (.standard t!"*")
        (.tup []))]⟩

theorem exSource_parses : (parse exSource).value? = some exAst := by decide +kernel

/-- C37–C40, C73: a program for which all of them say something. -/
example : ∃ l', parse exSource = .ok exAst l' ∧ exAst.allDecls.length = 2 ∧ exAst.exprs.length = 2 := by
  have h := exSource_parses
  cases h2 : parse exSource with
  | ok a l => rw [h2] at h; cases h; exact ⟨l, rfl, by decide, by decide⟩
  | err e l => rw [h2] at h; cases h
  | panic p => rw [h2] at h; cases h
  | fuel => rw [h2] at h; cases h

/-- C40, `parse_expr`. -/
example : (parseExpr t!"f (a - b) [1, 2] + c * d").value? =
    some (.bin (.app (.app (.var (.lower t!"f")) (.grp (.bin (.var (.lower t!"a")) (.standard t!"-")
        (.var (.lower t!"b"))))) (.list [.lit (.int 1), .lit (.int 2)])) (.standard t!"+")
      (.bin (.var (.lower t!"c")) (.standard t!"*") (.var (.lower t!"d")))) := by decide +kernel

/-- The panic of an outcome. -/
def PRes.panic? {α : Type} : PRes α → Option Panic
  | .panic p => some p
  | _ => none

/-- The error of an outcome. -/
def PRes.error? {α : Type} : PRes α → Option ParseError
  | .err e _ => some e
  | _ => none

/-- C39 is false: a declaration with a precedence above 9 is not reported, the parser panics. The
same happens in a `let`. -/
theorem C39_panics_wrong :
    parse t!"infixl 10 +" = .panic .precTodo ∧
    parse t!"let infix 10 # in a # b" = .panic .precTodo := by
  have h : ∀ {r : PRes Ast} {p}, r.panic? = some p → r = .panic p := by
    intro r p h; cases r <;> cases h; rfl
  exact ⟨h (by decide +kernel), h (by decide +kernel)⟩

/-- C39: a source that meets the hypotheses of `C39_not_accepted_partial`. -/
example : ((items 11 (Lexer.new t!"infixl 10 +")).toOption.map (·.map (·.1))) =
    some ([] ++ .infixL :: .lit (.int 10) :: [.affix t!"+" false]) ∧
    Token.isFixityKeyword .infixL = true := by decide +kernel

/-- C43: each of the panics happens. -/
example : (parse t!"Foo").panic? = some .identAssert ∧
    (parse t!"infixl 10 +").panic? = some .precTodo ∧
    (parseExpr t!"\n\r`é").panic? = some .badSlice ∧
    (parseExpr t!"\n\r'\\u41'").panic? = some .hexExpect := by decide +kernel

/-- C68 is false: `''` is a parse error, but displaying it panics. -/
theorem C68_empty_char_wrong :
    ∃ e l', parse t!"''" = .err e l' ∧ e.text = .error .emptyCharTodo := by
  have h : (parse t!"''").error? = some (.unexpected (.error (.emptyChar ⟨1, 1, 0⟩ ⟨1, 1, 0⟩)) ⟨1, 3, 2⟩) := by
    decide +kernel
  cases h2 : parse t!"''" with
  | err e l => rw [h2] at h; cases h; exact ⟨_, l, rfl, rfl⟩
  | ok a l => rw [h2] at h; cases h
  | panic p => rw [h2] at h; cases h
  | fuel => rw [h2] at h; cases h

/-- C68: an error that can be displayed. -/
example : (parse t!"(a + ]").error?.map (·.text.toOption) =
    some (some t!"unexpected token `]` found at [4]:1:5") ∧ ¬ t!"''" <:+: t!"(a + ]" := by decide +kernel

end

end Pemdas
