import Verif.Lemmas.ParsePats
/-
Soundness and adequacy of the fuel for the expression parsing functions and for programs.
-/
namespace Pemdas
open Lexer
variable [CharTables]

omit [CharTables] in
theorem ExprToks.length_pos {c : ExprCat} {e : Expr} {ts : List Token} (h : ExprToks c e ts) :
    0 < ts.length := by
  induction h <;> simp_all <;> omega

omit [CharTables] in
/-- Folding a stack of operands and operators over the last operand. -/
theorem reduce_toks {stack : List ((Expr × Infix) × List Token)} {e : Expr} {ts : List Token}
    (hs : ∀ x ∈ stack, ∃ us t, ExprToks .operand x.1.1 us ∧ OpTok x.1.2 t ∧ x.2 = us ++ [t])
    (he : ExprToks .chain e ts) :
    ExprToks .chain (Parser.reduce (stack.map (·.1)) e) ((stack.map (·.2)).flatten ++ ts) := by
  induction stack with
  | nil => exact he
  | cons x stack ih =>
    obtain ⟨us, t, h1, h2, h3⟩ := hs x (by simp)
    have := ExprToks.bin h1 h2 (ih fun y hy => hs y (by simp [hy]))
    simpa [Parser.reduce, h3] using this

/-- What the expression functions do with fuel `n`. -/
structure ExprSpec (n : Nat) : Prop where
  expression : ∀ l, 16 * l.weight + 10 ≤ n →
    Run l (fun e ts _ => ExprToks .chain e ts) (Parser.expression n l)
  binaryLoop : ∀ l left stack, 16 * l.weight + 1 ≤ n →
    Run l (fun e ts _ => ∀ (lt : List Token) (st : List ((Expr × Infix) × List Token)),
        ExprToks .operand left lt → stack = st.map (·.1) →
        (∀ x ∈ st, ∃ us t, ExprToks .operand x.1.1 us ∧ OpTok x.1.2 t ∧ x.2 = us ++ [t]) →
        ExprToks .chain e ((st.map (·.2)).flatten ++ lt ++ ts))
      (Parser.binaryLoop n left stack l)
  subexpression : ∀ l, 16 * l.weight + 9 ≤ n →
    Run l (fun e ts _ => ExprToks .operand e ts) (Parser.subexpression n l)
  appLoop : ∀ l start f, 16 * l.weight + 9 ≤ n →
    Run l (fun e ts _ => ∀ us, ExprToks .operand f us → ExprToks .operand e (us ++ ts))
      (Parser.appLoop n start f l)
  atom : ∀ l, 16 * l.weight + 8 ≤ n →
    Run l (fun e ts _ => ExprToks .atom e ts ∧
      ∀ t, Shows l t → t ≠ .eof → argExprTok t = true → ExprToks .arg e ts) (Parser.atom n l)
  lambda : ∀ l, 16 * l.weight + 7 ≤ n → Shows l .lambda →
    Run l (fun e ts _ => ExprToks .atom e ts) (Parser.lambda n l)
  paren : ∀ l, 16 * l.weight + 7 ≤ n → Shows l .parenL →
    Run l (fun e ts _ => ExprToks .arg e ts) (Parser.parenExpr n l)
  tail : ∀ l es, 16 * l.weight + 1 ≤ n →
    Run l (fun es' ts _ => (∃ xs : List (Expr × List Token), (∀ x ∈ xs, ExprToks .chain x.1 x.2) ∧
        es' = es ++ xs.map (·.1) ∧ ts = (xs.map fun x => .comma :: x.2).flatten) ∧
        (Shows l .comma → ts ≠ [])) (Parser.exprTail n es l)
  brack : ∀ l, 16 * l.weight + 7 ≤ n → Shows l .brackL →
    Run l (fun e ts _ => ExprToks .arg e ts) (Parser.brackExpr n l)
  brackLoop : ∀ l es, 16 * l.weight + 11 ≤ n →
    Run l (fun es' ts _ => ∃ xs : List (Expr × List Token × Bool),
        (∀ x ∈ xs, ExprToks .chain x.1 x.2.1) ∧ es' = es ++ xs.map (·.1) ∧
        ts = (xs.map fun x => x.2.1 ++ if x.2.2 then [.comma] else []).flatten)
      (Parser.brackLoop n es l)

variable [LawfulTables]

theorem expression_step {n : Nat} (ih : ExprSpec n) (l : Lexer) (hn : 16 * l.weight + 10 ≤ n + 1) :
    Run l (fun e ts _ => ExprToks .chain e ts) (Parser.expression (n + 1) l) := by
  unfold Parser.expression
  refine Run.bind (ih.subexpression l (by omega)) ?_
  intro e ts l1 h1 he
  have hw := h1.weight
  have := he.length_pos
  refine Run.mono (ih.binaryLoop l1 e [] (by omega)) ?_
  intro e' us l2 h2 h
  simpa using h ts [] he rfl (by simp)

theorem binaryLoop_step {n : Nat} (ih : ExprSpec n) (l : Lexer) (left : Expr)
    (stack : List (Expr × Infix)) (hn : 16 * l.weight + 1 ≤ n + 1) :
    Run l (fun e ts _ => ∀ (lt : List Token) (st : List ((Expr × Infix) × List Token)),
        ExprToks .operand left lt → stack = st.map (·.1) →
        (∀ x ∈ st, ∃ us t, ExprToks .operand x.1.1 us ∧ OpTok x.1.2 t ∧ x.2 = us ++ [t]) →
        ExprToks .chain e ((st.map (·.2)).flatten ++ lt ++ ts))
      (Parser.binaryLoop (n + 1) left stack l) := by
  unfold Parser.binaryLoop
  refine Run.bind (Run.tryInfix l) ?_
  rintro r ts l1 h1 (⟨rfl, rfl⟩ | ⟨op, t, rfl, ht, rfl⟩)
  · refine Run.ret ?_
    rintro lt st h2 rfl h3
    simpa using reduce_toks h3 (.single h2)
  · have hw1 := h1.weight
    simp only [List.length_singleton] at hw1
    refine Run.loc ?_
    refine Run.look fun t' l2 h0 hs hp => ?_
    have hw0 := h0.weight
    split
    · refine Run.from h0 ?_
      refine Run.bind (ih.subexpression l2 (by omega)) ?_
      intro left' us l3 h3 hl
      have hw3 := h3.weight
      refine Run.mono (ih.binaryLoop l3 left' _ (by omega)) ?_
      rintro e vs l4 h4 h5 lt st h6 rfl h7
      have := h5 us (st ++ [((left, op), lt ++ [t])]) hl (by simp) (by
        intro x hx
        rcases List.mem_append.1 hx with hx | hx
        · exact h7 x hx
        · simp only [List.mem_singleton] at hx; subst hx; exact ⟨lt, t, h6, ht, rfl⟩)
      simpa using this
    · exact Run.fail hp

theorem subexpression_step {n : Nat} (ih : ExprSpec n) (l : Lexer)
    (hn : 16 * l.weight + 9 ≤ n + 1) :
    Run l (fun e ts _ => ExprToks .operand e ts) (Parser.subexpression (n + 1) l) := by
  unfold Parser.subexpression
  refine Run.loc ?_
  refine Run.bind (ih.atom l (by omega)) ?_
  rintro e ts l1 h1 ⟨he, _⟩
  have hw := h1.weight
  have := he.length_pos
  refine Run.mono (ih.appLoop l1 _ e (by omega)) ?_
  intro e' us l2 h2 h
  exact h ts (.head he)

theorem appLoop_step {n : Nat} (ih : ExprSpec n) (l : Lexer) (start : Loc) (f : Expr)
    (hn : 16 * l.weight + 9 ≤ n + 1) :
    Run l (fun e ts _ => ∀ us, ExprToks .operand f us → ExprToks .operand e (us ++ ts))
      (Parser.appLoop (n + 1) start f l) := by
  unfold Parser.appLoop
  refine Run.look fun t l1 h0 hs hp => ?_
  have hw0 := h0.weight
  rw [P.bind_ok (m := P.loc) (a := l1.currLoc) (l' := l1) rfl]
  split
  · rename_i hc
    refine Run.from h0 ?_
    refine Run.bind (ih.atom l1 (by omega)) ?_
    rintro x ts l2 h2 ⟨hx, hx'⟩
    have hw := h2.weight
    have := hx.length_pos
    have hne : t ≠ .eof := by rintro rfl; cases hc.1
    have hx := hx' t hs hne hc.1
    refine Run.mono (ih.appLoop l2 _ _ (by omega)) ?_
    intro e us l3 h3 h vs hf
    have := h (vs ++ ts) (.app hf hx)
    simpa using this
  · refine Run.pure h0 ?_
    intro us h; simpa using h

theorem atom_step {n : Nat} (ih : ExprSpec n) (l : Lexer) (hn : 16 * l.weight + 8 ≤ n + 1) :
    Run l (fun e ts _ => ExprToks .atom e ts ∧
      ∀ t, Shows l t → t ≠ .eof → argExprTok t = true → ExprToks .arg e ts)
      (Parser.atom (n + 1) l) := by
  unfold Parser.atom
  refine Run.loc ?_
  refine Run.look fun t l1 h0 hs hp => ?_
  have hw0 := h0.weight
  have hsame : ∀ t', Shows l t' → t' ≠ .eof → t' = t := by
    intro t' h hne
    have := h.peek hne
    rw [hp] at this
    cases this; rfl
  split
  · refine Run.from h0 ?_
    refine Run.mono (ih.lambda l1 (by omega) hs) ?_
    intro e ts l2 _ he
    refine ⟨he, fun t h1 h2 h3 => ?_⟩
    rw [hsame t h1 h2] at h3; cases h3
  · refine Run.from h0 ?_
    refine Run.mono (ih.paren l1 (by omega) hs) ?_
    intro e ts l2 _ he
    exact ⟨.arg he, fun _ _ _ _ => he⟩
  · refine Run.from h0 ?_
    refine Run.mono (ih.brack l1 (by omega) hs) ?_
    intro e ts l2 _ he
    exact ⟨.arg he, fun _ _ _ _ => he⟩
  · refine Run.bump h0 hs (by simp) (by simp) fun l2 h2 => ?_
    have hw2 := h2.weight
    simp only [List.length_singleton] at hw2
    refine Run.bind (Run.infixDecl n l2 (by omega)) ?_
    intro d ds l3 h3 hd
    refine Run.bind (Run.eat l3 .in_ (by simp [wanted]) (by simp)) ?_
    rintro _ _ l4 h4 rfl
    have hw3 := h3.weight
    have hw4 := h4.weight
    refine Run.bind (ih.expression l4 (by omega)) ?_
    intro e ts l5 h5 he
    refine Run.ret ⟨by simpa using ExprToks.let_ hd he, fun t h1 h2 h3 => ?_⟩
    rw [hsame t h1 h2] at h3; cases h3
  · exact Run.bump h0 hs (by simp) (by simp) fun l3 h3 =>
      Run.ret ⟨.arg (.lit _), fun _ _ _ _ => .lit _⟩
  · exact Run.bump h0 hs (by simp) (by simp) fun l3 h3 =>
      Run.ret ⟨.arg (.upper _), fun _ _ _ _ => .upper _⟩
  · exact Run.bump h0 hs (by simp) (by simp) fun l3 h3 =>
      Run.ret ⟨.arg (.lower _), fun _ _ _ _ => .lower _⟩
  · exact Run.fail hp

theorem lambda_step {n : Nat} (ih : ExprSpec n) (l : Lexer) (hn : 16 * l.weight + 7 ≤ n + 1)
    (hs : Shows l .lambda) :
    Run l (fun e ts _ => ExprToks .atom e ts) (Parser.lambda (n + 1) l) := by
  unfold Parser.lambda
  refine Run.bind (Run.eatShown l .lambda (by simp) (by simp) hs) ?_
  rintro _ _ l1 h1 rfl
  have hw1 := h1.weight
  simp only [List.length_singleton] at hw1
  refine Run.bind ((patSpec n).pattern l1 (by omega)) ?_
  intro p ts l2 h2 hp
  have hw2 := h2.weight
  refine Run.bind ((patSpec n).args l2 _ (by omega)) ?_
  rintro _ _ l3 h3 ⟨xs, hx, rfl, rfl⟩
  have hw3 := h3.weight
  refine Run.bind (Run.eat l3 .arrow (by simp [wanted]) (by simp)) ?_
  rintro _ _ l4 h4 rfl
  have hw4 := h4.weight
  refine Run.bind (ih.expression l4 (by omega)) ?_
  intro e us l5 h5 he
  refine Run.ret ?_
  have := ExprToks.lam (ps := (p, ts) :: xs) (by simp) (by simpa [hp] using hx) he
  simpa using this

theorem commaLoop_run (n : Nat) (l : Lexer) (k : Nat) (hn : l.weight < n) :
    Run l (fun k' ts _ => ∃ j, k' = k + j ∧ ts = List.replicate j .comma ∧
      (Shows l .comma → 0 < j)) (Parser.commaLoop n k l) := by
  induction n generalizing l k with
  | zero => omega
  | succ n ih =>
    unfold Parser.commaLoop
    refine Run.bind (Run.bumpOn' l .comma (by simp) (by simp)) ?_
    rintro b ts l1 h1 ⟨rfl, hb⟩
    cases b with
    | false => exact Run.ret ⟨0, rfl, rfl, fun h => by cases hb h⟩
    | true =>
      simp only [if_true] at h1 ⊢
      have hw1 := h1.weight
      simp only [List.length_singleton] at hw1
      refine Run.mono (ih l1 _ (by omega)) ?_
      rintro k' ts l2 _ ⟨j, rfl, rfl, _⟩
      exact ⟨j + 1, by omega, by simp [List.replicate_succ], by omega⟩

theorem tail_step {n : Nat} (ih : ExprSpec n) (l : Lexer) (es : List Expr)
    (hn : 16 * l.weight + 1 ≤ n + 1) :
    Run l (fun es' ts _ => (∃ xs : List (Expr × List Token), (∀ x ∈ xs, ExprToks .chain x.1 x.2) ∧
        es' = es ++ xs.map (·.1) ∧ ts = (xs.map fun x => .comma :: x.2).flatten) ∧
        (Shows l .comma → ts ≠ [])) (Parser.exprTail (n + 1) es l) := by
  unfold Parser.exprTail
  refine Run.bind (Run.bumpOn' l .comma (by simp) (by simp)) ?_
  rintro b ts l1 h1 ⟨rfl, hb⟩
  cases b with
  | false => exact Run.ret ⟨⟨[], by simp, by simp, by simp⟩, fun h => by cases hb h⟩
  | true =>
    simp only [if_true] at h1 ⊢
    have hw1 := h1.weight
    simp only [List.length_singleton] at hw1
    refine Run.bind (ih.expression l1 (by omega)) ?_
    intro e ts l2 h2 he
    have hw2 := h2.weight
    refine Run.mono (ih.tail l2 _ (by omega)) ?_
    rintro es' us l3 h3 ⟨⟨xs, h4, rfl, rfl⟩, _⟩
    exact ⟨⟨(e, ts) :: xs, by simpa [he] using h4, by simp, by simp⟩, by simp⟩

theorem paren_expr_step {n : Nat} (ih : ExprSpec n) (l : Lexer) (hn : 16 * l.weight + 7 ≤ n + 1)
    (hs : Shows l .parenL) :
    Run l (fun e ts _ => ExprToks .arg e ts) (Parser.parenExpr (n + 1) l) := by
  unfold Parser.parenExpr
  refine Run.bind (Run.eatShown l .parenL (by simp) (by simp) hs) ?_
  rintro _ _ l1 h1 rfl
  have hw1 := h1.weight
  simp only [List.length_singleton] at hw1
  refine Run.loc ?_
  refine Run.look fun t l2 h0 hs hp => ?_
  have hw0 := h0.weight
  split
  · exact Run.bump h0 hs (by simp) (by simp) fun l3 h3 => Run.ret .unit
  · refine Run.bump h0 hs (by simp) (by simp) fun l3 h3 => ?_
    refine Run.bind (Run.eat l3 .parenR (by simp [wanted]) (by simp)) ?_
    rintro _ _ l4 h4 rfl
    exact Run.ret (.op _ _)
  · refine Run.from h0 ?_
    refine Run.bind (commaLoop_run n l2 0 (by omega)) ?_
    rintro _ _ l3 h3 ⟨j, rfl, rfl, hj⟩
    refine Run.bind (Run.eat l3 .parenR (by simp [wanted]) (by simp)) ?_
    rintro _ _ l4 h4 rfl
    refine Run.ret ?_
    have := ExprToks.commas (hj hs)
    simpa using this
  · split
    · refine Run.from h0 ?_
      refine Run.bind (ih.expression l2 (by omega)) ?_
      intro e ts l3 h3 he
      have hw3 := h3.weight
      refine Run.bind (Run.peekOn l3 .comma) ?_
      rintro b _ l4 h4 ⟨rfl, t, hst, hb⟩
      have hw4 := h4.weight
      cases b with
      | true =>
        simp only [if_true]
        obtain rfl := hb.1 rfl
        refine Run.bind (ih.tail l4 _ (by omega)) ?_
        rintro _ _ l5 h5 ⟨⟨xs, hx, rfl, rfl⟩, hne⟩
        refine Run.bind (Run.eat l5 .parenR (by simp [wanted]) (by simp)) ?_
        rintro _ _ l6 h6 rfl
        refine Run.ret ?_
        have hy : xs ≠ [] := by rintro rfl; exact hne hst rfl
        have := ExprToks.tup (es := (e, ts) :: xs)
          (by have := List.length_pos_iff.2 hy; simp only [List.length_cons]; omega)
          (by simpa [he] using hx)
        rw [List.map_cons, List.map_cons, sepBy_cons, List.map_map] at this
        simpa [Function.comp_def] using this
      | false =>
        simp only [Bool.false_eq_true, if_false]
        refine Run.bind (Run.eat l4 .parenR (by simp [wanted]) (by simp)) ?_
        rintro _ _ l5 h5 rfl
        refine Run.ret ?_
        simpa using ExprToks.grp he
    · exact Run.fail hp

theorem brack_expr_step {n : Nat} (ih : ExprSpec n) (l : Lexer) (hn : 16 * l.weight + 7 ≤ n + 1)
    (hs : Shows l .brackL) :
    Run l (fun e ts _ => ExprToks .arg e ts) (Parser.brackExpr (n + 1) l) := by
  unfold Parser.brackExpr
  refine Run.bind (Run.eatShown l .brackL (by simp) (by simp) hs) ?_
  rintro _ _ l1 h1 rfl
  have hw1 := h1.weight
  simp only [List.length_singleton] at hw1
  refine Run.bind (ih.brackLoop l1 [] (by omega)) ?_
  rintro _ _ l2 h2 ⟨xs, hx, rfl, rfl⟩
  refine Run.bind (Run.eat l2 .brackR (by simp [wanted]) (by simp)) ?_
  rintro _ _ l3 h3 rfl
  refine Run.ret ?_
  have := ExprToks.list hx
  simpa using this

theorem brackLoop_step {n : Nat} (ih : ExprSpec n) (l : Lexer) (es : List Expr)
    (hn : 16 * l.weight + 11 ≤ n + 1) :
    Run l (fun es' ts _ => ∃ xs : List (Expr × List Token × Bool),
        (∀ x ∈ xs, ExprToks .chain x.1 x.2.1) ∧ es' = es ++ xs.map (·.1) ∧
        ts = (xs.map fun x => x.2.1 ++ if x.2.2 then [.comma] else []).flatten)
      (Parser.brackLoop (n + 1) es l) := by
  unfold Parser.brackLoop
  refine Run.bind (Run.isDone l) ?_
  rintro b _ l1 h1 ⟨rfl, _⟩
  have hw1 := h1.weight
  cases b with
  | true => exact Run.ret ⟨[], by simp, by simp, by simp⟩
  | false =>
    simp only [Bool.false_eq_true, if_false]
    refine Run.bind (Run.peekOn l1 .brackR) ?_
    rintro b _ l2 h2 ⟨rfl, _⟩
    have hw2 := h2.weight
    cases b with
    | true => exact Run.ret ⟨[], by simp, by simp, by simp⟩
    | false =>
      simp only [Bool.false_eq_true, if_false]
      refine Run.bind (ih.expression l2 (by omega)) ?_
      intro e ts l3 h3 he
      have hw3 := h3.weight
      have := he.length_pos
      refine Run.bind (Run.bumpOn l3 .comma (by simp) (by simp)) ?_
      rintro b _ l4 h4 rfl
      have hw4 := h4.weight
      refine Run.mono (ih.brackLoop l4 _ (by omega)) ?_
      rintro _ _ l5 h5 ⟨xs, hx, rfl, rfl⟩
      exact ⟨(e, ts, b) :: xs, by simpa [he] using hx, by simp, by simp⟩

theorem exprSpec (n : Nat) : ExprSpec n := by
  induction n with
  | zero => constructor <;> intros <;> omega
  | succ n ih =>
    exact ⟨expression_step ih, binaryLoop_step ih, subexpression_step ih, appLoop_step ih,
      atom_step ih, lambda_step ih, paren_expr_step ih, tail_step ih, brack_expr_step ih,
      brackLoop_step ih⟩

end Pemdas
