import Verif.Lemmas.PrintBalance
import Verif.Lemmas.PrintList
import Verif.Lemmas.ResolverNames
import Verif.Props.Parser
import Verif.Props.Resolver
/-
C44 printing does not depend on fixities, C45 printing succeeds, C47 brackets are balanced and
colour-matched, C49 listing of fixities, C74 what can be written in a source.
-/
namespace Pemdas
open Printer Resolver

section
variable [CharTables]

/-! ### C44 -/

/-- C44: the outcome of printing an expression is the same for every table of fixities. -/
theorem C44_table_irrelevant (m m' : Fixities) (e : Expr) :
    writeExpr m e = writeExpr m' e ∧ printExpr m e = printExpr m' e := by
  have h : writeExpr m e = writeExpr m' e := by
    by_cases hn : e.NoNeg
    · rw [writeExpr_noNeg m hn, writeExpr_noNeg m' hn]
    · rw [writeExpr_neg m hn, writeExpr_neg m' hn]
  exact ⟨h, by simp only [printExpr, h]⟩

/-! ### C45 -/

/-- C45: printing succeeds exactly for expressions without negations; the only panic is the
unimplemented case for negations. -/
theorem C45_prints_iff (m : Fixities) (e : Expr) :
    ((∃ t, writeExpr m e = .ok t) ↔ e.NoNeg) ∧
    ∀ p, writeExpr m e = .error p → p = .negTodo := by
  by_cases hn : e.NoNeg
  · rw [writeExpr_noNeg m hn]
    exact ⟨⟨fun _ => hn, fun _ => ⟨_, rfl⟩⟩, fun p h => by cases h⟩
  · rw [writeExpr_neg m hn]
    refine ⟨⟨?_, fun h => absurd h hn⟩, ?_⟩
    · rintro ⟨t, h⟩; cases h
    · intro p h; cases h; rfl

omit [CharTables] in
theorem Expr.Parsed.noNeg {e : Expr} (h : e.Parsed) : e.NoNeg := by
  induction hn : e.size using Nat.strongRecOn generalizing e with
  | ind n ih =>
    subst hn
    have list : ∀ es : List Expr, (∀ x ∈ es, x.size < e.size) → Expr.ParsedList es →
        Expr.NoNegList es := by
      intro es
      induction es with
      | nil => intros; trivial
      | cons x es ihx =>
        intro h1 h2
        exact ⟨ih _ (h1 x (by simp)) h2.1 rfl, ihx (fun y hy => h1 y (by simp [hy])) h2.2⟩
    cases e with
    | lit _ | var _ => trivial
    | app f x =>
      exact ⟨ih _ (by simp only [Expr.size]; omega) h.2.2.1 rfl,
        ih _ (by simp only [Expr.size]; omega) h.2.2.2 rfl⟩
    | bin l op r =>
      exact ⟨ih _ (by simp only [Expr.size]; omega) h.2.1 rfl,
        ih _ (by simp only [Expr.size]; omega) h.2.2 rfl⟩
    | lam p b => exact ih _ (by simp only [Expr.size]; omega) (e := b) h rfl
    | grp b => exact ih _ (by simp only [Expr.size]; omega) (e := b) h rfl
    | neg b => exact h.elim
    | tup es =>
      exact list es (fun x hx => by have := mem_sizeList hx; simp only [Expr.size]; omega) h.2
    | list es =>
      exact list es (fun x hx => by have := mem_sizeList hx; simp only [Expr.size]; omega) h
    | let_ d b => exact ih _ (by simp only [Expr.size]; omega) (e := b) h rfl

variable [LawfulTables]

/-- C45: whatever the parser accepts can be printed, before and after resolution with any resolver,
whether or not resolution reports errors. -/
theorem C45_printing_succeeds {src : Text} {ast : Ast} {l' : Lexer} (h : parse src = .ok ast l')
    {r r' : Resolver} {ast' : Ast} {errs : List AssocError}
    (hr : resolveAst r ast = .ok (r', ast', errs)) (m : Fixities) :
    (∀ e ∈ ast.exprs, ∃ t, writeExpr m e = .ok t) ∧
    (∀ e ∈ ast'.exprs, ∃ t, writeExpr m e = .ok t) := by
  have h0 : ∀ e ∈ ast.exprs, e.NoNeg := fun e he => (C40_shape h e he).noNeg
  refine ⟨fun e he => (C45_prints_iff m e).1.2 (h0 e he), fun e he => (C45_prints_iff m e).1.2 ?_⟩
  obtain ⟨x, hx, hi⟩ := resolveAst_exprs (P := fun e e' => e'.NoNeg ↔ e.NoNeg) visit_noNeg hr e he
  exact hi.2 (h0 x hx)

/-! ### C74 -/

/-- C74, for sources without "\n\r": identifiers start with a lower-case letter and are not
keywords; operators consist of operator characters and are not reserved; promoted operators have
the name of an identifier, or two characters of which the second is whitespace (see
`C71_one_character_wrong`); integers fit in 64 bits. (Missing: sources with "\n\r", where it is
false, see `C74_kinds_wrong`.) -/
theorem C74_kinds_partial {src : Text} (hc : NoLFCR src) {n : Nat} {xs : List (Token × LocSpan)}
    (h : Lexer.items n (Lexer.new src) = .ok xs) : ∀ x ∈ xs, x.1.LexedFrom src :=
  Lexer.items_lexed hc .new h

/-! ### C47 -/

/-- C47, part that holds (expressions in whose names no bracket or escape character occurs): on a
terminal, brackets outside literals in the printed text are properly nested, every closing bracket
is of the same kind and colour as its opening bracket, and the pen is reset afterwards. (Missing:
names with brackets, see `C47_balanced_wrong`.) -/
theorem C47_balanced_partial (m : Fixities) {e : Expr} (hn : e.CleanNames) {t : Text}
    (h : writeExpr m e = .ok t) :
    ∃ sc, Term.run Term.start t = ⟨.ground, Pen.default, sc⟩ ∧ Balanced sc := by
  have hg := ppGo_good e 0 none hn
  rw [writeExpr_noNeg m ((C45_prints_iff m e).1.1 ⟨t, h⟩)] at h
  cases h
  exact ⟨_, run_render hg.1, hg.2⟩

/-- C47, for what is printed for a source without "\n\r" in which no apostrophe is directly
followed by a bracket or escape character and whitespace. -/
theorem C47_balanced_source_partial {src : Text} (hc : NoLFCR src)
    (hq : ∀ c ∈ special, ∀ w, isWhitespace w = true → ¬ ['\'', c, w] <:+: src) {ast : Ast} {l' : Lexer}
    (h : parse src = .ok ast l') {r r' : Resolver} {ast' : Ast} {errs : List AssocError}
    (hr : resolveAst r ast = .ok (r', ast', errs)) (m : Fixities) {e : Expr} (he : e ∈ ast'.exprs) :
    ∃ t sc, writeExpr m e = .ok t ∧ Term.run Term.start t = ⟨.ground, Pen.default, sc⟩ ∧
      Balanced sc := by
  obtain ⟨t, ht⟩ := (C45_printing_succeeds h hr m).2 e he
  have hn : e.CleanNames := by
    obtain ⟨x, hx, hi⟩ := resolveAst_exprs (P := fun e e' => ∀ n, n ∈ e'.names ↔ n ∈ e.names)
      (fun e r r' e' h n => visit_names n e r r' e' h) hr e he
    intro n hm
    obtain ⟨xs, ds, h1, h2, rfl⟩ := C73_program h
    have hd : Decl.expr x ∈ ds := by
      have : ∀ (ds : List Decl) (a : Ast), x ∈ (ds.foldl Ast.push a).exprs →
          x ∈ a.exprs ∨ Decl.expr x ∈ ds := by
        intro ds
        induction ds with
        | nil => intro a h; exact .inl h
        | cons d ds ih =>
          intro a h
          rcases ih _ h with h | h
          · cases d with
            | infix_ d => exact .inl h
            | expr y =>
              rcases List.mem_append.1 h with h | h
              · exact .inl h
              · exact .inr (by rw [List.mem_singleton.1 h]; simp)
          · exact .inr (List.mem_cons_of_mem _ h)
      rcases this ds _ hx with h | h
      · simp [Ast.empty] at h
      · exact h
    obtain ⟨t, h3, h4⟩ := h2.names x hd n ((hi n).1 hm)
    obtain ⟨y, hy, rfl⟩ := List.mem_map.1 h3
    exact lexed_clean hq (C74_kinds_partial hc (h1 _ (Nat.le_refl _)) y hy) n h4
  obtain ⟨sc, h1, h2⟩ := C47_balanced_partial m hn ht
  exact ⟨t, sc, ht, h1, h2⟩

end

/-! ### C49 -/

/-- C49: on a terminal, the listing of fixities shows one line for every different fixity, in the
order in which they were first declared, each with the operators that have it. (The names of
operators must not contain escape characters.) -/
theorem C49_listing (es : List (Infix × Fixity)) (h : ∀ e ∈ es, '\x1b' ∉ e.1.text) :
    Term.visible (writeFixities es) = listing es := by
  unfold writeFixities
  rw [writeLines_frags, C48_strip _ (linesFrags_noEsc h _), lines_plain, indexSet_nil]
  · rfl
  · intro fx hfx
    rw [indexSet_nil, mem_eraseDups] at hfx
    obtain ⟨e, he, rfl⟩ := List.mem_map.1 hfx
    exact ⟨e, he, rfl⟩

/-- C49: the same for what is sent to the terminal, whatever the names of the operators are. -/
theorem C49_sent (es : List (Infix × Fixity)) : writeFixities es = listingSent es := by
  unfold writeFixities
  rw [lines_written, indexSet_nil]
  · rfl
  · intro fx hfx
    rw [indexSet_nil, mem_eraseDups] at hfx
    obtain ⟨e, he, rfl⟩ := List.mem_map.1 hfx
    exact ⟨e, he, rfl⟩

theorem distinctFixities_complete (es : List (Infix × Fixity)) :
    (distinctFixities es).Nodup ∧ (∀ fx ∈ distinctFixities es, ∃ e ∈ es, e.2 = fx) ∧
    ((distinctFixities es).flatMap fun fx => es.filter (·.2 = fx)).Perm es := by
  refine ⟨nodup_eraseDups _, ?_, ?_⟩
  · intro fx hfx
    obtain ⟨e, he, rfl⟩ := List.mem_map.1 (mem_eraseDups.1 hfx)
    exact ⟨e, he, rfl⟩
  · have key : ∀ (fxs : List Fixity), fxs.Nodup → ∀ es : List (Infix × Fixity),
        (∀ e ∈ es, e.2 ∈ fxs) → (fxs.flatMap fun fx => es.filter (·.2 = fx)).Perm es := by
      intro fxs hfx
      induction fxs with
      | nil =>
        intro es h
        cases es with
        | nil => exact .refl _
        | cons e es => exact absurd (h e (by simp)) (by simp)
      | cons fx fxs ih =>
        intro es h
        have hn := List.nodup_cons.1 hfx
        have h1 := ih hn.2 (es.filter fun e => ! decide (e.2 = fx)) (by
          intro e he
          obtain ⟨h1, h2⟩ := List.mem_filter.1 he
          rcases List.mem_cons.1 (h e h1) with h3 | h3
          · simp [h3] at h2
          · exact h3)
        rw [List.flatMap_cons]
        have h2 : (fxs.flatMap fun x => (es.filter fun e => ! decide (e.2 = fx)).filter (·.2 = x)) =
            fxs.flatMap fun x => es.filter (·.2 = x) := by
          have : ∀ x ∈ fxs, (es.filter fun e => ! decide (e.2 = fx)).filter (·.2 = x) =
              es.filter (·.2 = x) := by
            intro x hx
            rw [List.filter_filter]
            apply List.filter_congr
            intro e _
            by_cases hex : e.2 = x
            · have : ¬ e.2 = fx := by rintro h4; exact hn.1 (by rw [← h4, hex]; exact hx)
              simp [hex]; rintro rfl; exact this hex
            · simp [hex]
          revert this
          generalize fxs = fxs
          intro this
          induction fxs with
          | nil => rfl
          | cons y ys ihy =>
            rw [List.flatMap_cons, List.flatMap_cons, this y (by simp), ihy (fun x hx => this x (by simp [hx]))]
        rw [← h2]
        exact (List.Perm.append_left _ h1).trans (List.filter_append_perm _ _)
    exact key _ (nodup_eraseDups _) es (fun e he => mem_eraseDups.2 (List.mem_map_of_mem he))

/-- C49: what is written consists of lines for different fixities, none of them without operators,
and every entry of the table is on exactly one line, the one of its fixity. -/
theorem C49_complete (es : List (Infix × Fixity)) :
    ∃ ls : List (Fixity × List Infix),
      writeFixities es = List.intercalate t!"\n" (ls.map fun l => l.1.written l.2) ∧
      ((∀ e ∈ es, '\x1b' ∉ e.1.text) →
        Term.visible (writeFixities es) = List.intercalate t!"\n" (ls.map fun l => l.1.line l.2)) ∧
      (ls.map (·.1)).Nodup ∧ (∀ l ∈ ls, l.2 ≠ []) ∧
      (ls.flatMap fun l => l.2.map fun op => (op, l.1)).Perm es := by
  obtain ⟨h1, h2, h3⟩ := distinctFixities_complete es
  refine ⟨(distinctFixities es).map fun fx => (fx, (es.filter (·.2 = fx)).map (·.1)), ?_, ?_, ?_, ?_, ?_⟩
  · rw [C49_sent es, List.map_map]; rfl
  · intro h; rw [C49_listing es h, List.map_map]; rfl
  · rw [List.map_map]
    simpa [Function.comp_def] using h1
  · intro l hl
    obtain ⟨fx, hfx, rfl⟩ := List.mem_map.1 hl
    obtain ⟨e, he, rfl⟩ := h2 fx hfx
    intro hn
    have := List.map_eq_nil_iff.1 hn
    have hm : e ∈ es.filter (·.2 = e.2) := List.mem_filter.2 ⟨he, by simp⟩
    rw [this] at hm
    exact absurd hm (by simp)
  · have : ∀ fx : Fixity, (((es.filter (·.2 = fx)).map (·.1)).map fun op => (op, fx)) =
        es.filter (·.2 = fx) := by
      intro fx
      rw [List.map_map]
      conv => rhs; rw [← List.map_id (es.filter (·.2 = fx))]
      apply List.map_congr_left
      intro e he
      have := (List.mem_filter.1 he).2
      simp only [decide_eq_true_eq] at this
      rw [← this]; rfl
    rw [List.flatMap_map]
    simpa only [this] using h3

/-- C49: a table with two lines. -/
example : listing [(.standard t!"+", ⟨6, .left⟩), (.standard t!"=", ⟨4, .neither⟩),
    (.standard t!"-", ⟨6, .left⟩)] = t!"infixl 6 +, -\ninfix  4 =" := by decide

example : listingSent [(.standard t!"+", ⟨6, .left⟩), (.standard t!"=", ⟨4, .neither⟩)] =
    t!"\x1b[31minfixl\x1b[0m \x1b[38;2;128;0;128m6\x1b[0m +\n\x1b[31minfix\x1b[0m  \x1b[38;2;128;0;128m4\x1b[0m =" := by
  decide

/-! ### concrete cases -/

section
attribute [local instance] asciiTables asciiTables_lawful

/-- C44, C45, C47: what is printed. -/
def exPrinted : Expr :=
  .bin (.lam (.tup [.var t!"x", .wild]) (.var (.infix_ t!"+"))) (.promoted t!"of")
    (.bin (.grp (.app (.var (.lower t!"f")) (.lit (.str t!"(")))) (.standard t!"-")
      (.list [.lit (.int 1), .tup []]))

example : exPrinted.NoNeg ∧ exPrinted.CleanNames ∧
    (writeExpr [] exPrinted).toOption.map Term.visible =
      some t!"((\\(x, _) -> (+))) 'of ((f \"(\") - [1, ()])" := by
  refine ⟨?_, ?_, by decide +kernel⟩
  · simp [exPrinted, Expr.NoNeg, Expr.NoNegList]
  · unfold Expr.CleanNames; decide

/-- C45: there are expressions that cannot be printed, but the parser does not produce them. -/
example : writeExpr [] (.neg (.var (.lower t!"x"))) = .error .negTodo := rfl

/-- C47: a source that meets the hypotheses. -/
example : NoLFCR t!"[f (a + 'b')]" ∧
    (∀ c ∈ special, ∀ w, isWhitespace w = true → ¬ ['\'', c, w] <:+: t!"[f (a + 'b')]") ∧
    ((parse t!"[f (a + 'b')]").value?.map (·.exprs.length)) = some 1 := by
  refine ⟨by unfold NoLFCR; decide +kernel, ?_, by decide +kernel⟩
  intro c hc w hw hi
  have hm : w ∈ t!"[f (a + 'b')]" := hi.subset (by simp)
  have : w = ' ' := (by decide +kernel : ∀ w ∈ t!"[f (a + 'b')]", isWhitespace w = true → w = ' ') w hm hw
  subst this
  exact (by decide +kernel : ∀ c ∈ special, ¬ ['\'', c, ' '] <:+: t!"[f (a + 'b')]") c hc hi

/-- The number of quotation marks on a screen. -/
private def quotes (w : List (Char × Pen)) : Nat := (w.filter fun x => x.1 = '"' || x.1 = '\'').length

private def opens (w : List (Char × Pen)) : Nat := (w.filter fun x => x.1 = '(').length
private def closes (w : List (Char × Pen)) : Nat := (w.filter fun x => x.1 = ')').length

private theorem balanced_counts {w : List (Char × Pen)} (h : Balanced w) (hq : quotes w ≤ 1) :
    opens w = closes w := by
  induction h with
  | nil => rfl
  | char hc =>
    rename_i c p
    have h1 : c ≠ '(' := by rintro rfl; exact hc (by decide)
    have h2 : c ≠ ')' := by rintro rfl; exact hc (by decide)
    simp [opens, closes, h1, h2]
  | lit l p =>
    have hq : quotes (l.text.map (·, p)) ≤ 1 := hq
    have digits : ∀ t : Text, '(' ∉ t → ')' ∉ t → opens (t.map (·, p)) = closes (t.map (·, p)) := by
      intro t h1 h2
      have : ∀ c : Char, c ∉ t → ((t.map (·, p)).filter fun x => decide (x.1 = c)) = [] := by
        intro c hc
        rw [List.filter_eq_nil_iff]
        intro x hx
        obtain ⟨d, hd, rfl⟩ := List.mem_map.1 hx
        simp only [decide_eq_true_eq]
        rintro rfl; exact hc hd
      simp only [opens, closes, this _ h1, this _ h2]
    have hdec : ∀ (c : Char) n, c.isDigit = false → c ∉ decText n := by
      intro c n hc h
      rw [decText_mem h] at hc; cases hc
    have hint : ∀ (c : Char) i, c.isDigit = false → c ≠ '-' → c ∉ intText i := by
      intro c i hc h2
      cases i <;> simp [intText, hdec _ _ hc, h2]
    cases l with
    | char c => simp [quotes, Literal.text, debugChar] at hq
    | str s => simp [quotes, Literal.text, debugStr] at hq
    | int n => exact digits _ (hdec _ _ (by decide)) (hdec _ _ (by decide))
    | frac f =>
      apply digits
      · simp only [Literal.text, FloatRep.text, List.mem_append, not_or]
        refine ⟨⟨hdec _ _ (by decide), ?_⟩, ?_⟩
        · split <;> simp [hdec _ _ (show Char.isDigit '(' = false by decide)]
        · split <;> simp [hint _ _ (show Char.isDigit '(' = false by decide) (by decide)]
      · simp only [Literal.text, FloatRep.text, List.mem_append, not_or]
        refine ⟨⟨hdec _ _ (by decide), ?_⟩, ?_⟩
        · split <;> simp [hdec _ _ (show Char.isDigit ')' = false by decide)]
        · split <;> simp [hint _ _ (show Char.isDigit ')' = false by decide) (by decide)]
  | append _ _ ih1 ih2 =>
    simp only [quotes, opens, closes, List.filter_append, List.length_append] at *
    rw [ih1 (by omega), ih2 (by omega)]
  | parens _ ih =>
    simp [quotes, opens, closes] at *
    rw [ih hq]
  | brackets _ ih =>
    simp [quotes, opens, closes] at *
    exact ih hq

/-- C47 is false: an apostrophe, a parenthesis and a space are read as an operator, and printed
unbalanced. -/
theorem C47_balanced_wrong :
    ∃ e t, ((parse t!"a '( b").value?.map (·.exprs)) = some [e] ∧ writeExpr [] e = .ok t ∧
      ¬ Balanced (Term.run Term.start t).screen := by
  refine ⟨.bin (.var (.lower t!"a")) (.promoted t!"( ") (.var (.lower t!"b")), _, by decide +kernel, rfl, ?_⟩
  intro h
  have := balanced_counts h (by decide +kernel)
  revert this
  decide +kernel

/-- C74 is false for sources with "\n\r". -/
theorem C74_kinds_wrong :
    (Lexer.items 2 (Lexer.new (t!"\n\r" ++ t!"ab"))).toOption.map (·.map (·.1)) =
      some [.lower t!"\ra"] ∧ ¬ LowerName t!"\ra" := by
  refine ⟨by decide, ?_⟩
  rintro ⟨c, y, h1, h2, _⟩
  cases h1
  exact absurd h2 (by decide)

/-- C74: a source with all kinds of names. -/
example : NoLFCR t!"a +₁ 'of b `in` 12" ∧
    (Lexer.items 9 (Lexer.new t!"a +₁ 'of b `in` 12")).toOption.map (·.map (·.1)) =
      some [.lower t!"a", .affix t!"+₁" false, .affix t!"of" true, .lower t!"b", .affix t!"in" true,
        .lit (.int 12)] := ⟨by unfold NoLFCR; decide +kernel, by decide +kernel⟩

end
end Pemdas
