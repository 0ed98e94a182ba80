import Verif.Lemmas.ParseFullPats
import Verif.Lemmas.ParseExprs
/-
Completeness of the parser: on the tokens of `Written`, `WrittenProg` it produces the expression or
program, or runs out of fuel.
-/
namespace Pemdas
open Lexer Parser
set_option linter.unusedSectionVars false
variable [CharTables] [LawfulTables]

/-! ### operators and declarations -/

theorem infixOp_gives {op : Infix} {t : Token} (h : OpTok op t) {l : Lexer} {k : Nat}
    {rest : List CTok} (hs : Stream l ((t, k) :: rest)) : Gives (infixOp l) op (After k rest) := by
  unfold infixOp
  refine Gives.loc (Gives.look hs fun l' h1 h2 => ?_)
  cases h <;> exact Gives.bump h1 h2 fun _ h => Gives.ret h

theorem tryInfix_some {op : Infix} {t : Token} (h : OpTok op t) {l : Lexer} {k : Nat}
    {rest : List CTok} (hs : Stream l ((t, k) :: rest)) :
    Gives (tryInfix l) (some op) (After k rest) := by
  unfold tryInfix
  rcases infixOp_gives h hs with h | ⟨l', h, h'⟩
  · rw [h]; exact .inl rfl
  · rw [h]; exact .inr ⟨l', rfl, h'⟩

theorem tryInfix_none {l : Lexer} {rest : List CTok} (hs : Stream l rest)
    (h : (nextTok rest).joins = false) :
    Gives (tryInfix l) none (Stream · rest) := by
  obtain ⟨l', h1, h2, _⟩ := hs.peek
  have : infixOp l = .err (.unexpected (nextTok rest) l.currLoc) l' := by
    unfold infixOp
    show (P.peek >>= _) l = _
    rw [P.bind_ok h1]
    cases ht : nextTok rest <;> rw [ht] at h <;> first | rfl | cases h
  unfold tryInfix
  rw [this]
  exact .inr ⟨l', rfl, h2⟩

theorem infixLoop_gives {xs : List (Infix × Token)} (hx : ∀ x ∈ xs, OpTok x.1 x.2) (n : Nat)
    (l : Lexer) (acc : List Infix) (cts rest : List CTok)
    (hc : cts.map (·.1) = (xs.map fun x => [Token.comma, x.2]).flatten)
    (hs : Stream l (cts ++ rest)) (h1 : nextTok rest ≠ .comma) :
    Gives (infixLoop n acc l) (acc ++ xs.map (·.1)) (Stream · rest) := by
  induction xs generalizing n l acc cts with
  | nil =>
    have := cols_nil hc
    subst this
    cases n with
    | zero => exact .inl rfl
    | succ n =>
      unfold infixLoop
      refine Gives.bind (Gives.bumpOn_false hs (Ne.symm h1)) ?_
      rintro l' ⟨h, _⟩
      simpa using Gives.ret h
  | cons x xs ih =>
    cases n with
    | zero => exact .inl rfl
    | succ n =>
      simp only [List.map_cons, List.flatten_cons, List.cons_append, List.nil_append] at hc
      obtain ⟨k, cts', rfl, hc'⟩ := cols_cons hc
      obtain ⟨k', b, rfl, hb⟩ := cols_cons hc'
      unfold infixLoop
      refine Gives.bind (Gives.bumpOn_true (c := k) hs) ?_
      rintro l' ⟨h, _⟩
      simp only [if_true]
      refine Gives.bind (infixOp_gives (hx x (by simp)) h) ?_
      rintro l'' ⟨h, _⟩
      have := ih (fun y hy => hx y (by simp [hy])) n l'' (acc ++ [x.1]) b hb h
      simpa using this

theorem fixityAssoc_gives {a : Assoc} {l : Lexer} {k : Nat} {rest : List CTok}
    (hs : Stream l ((a.kwTok, k) :: rest)) : Gives (fixityAssoc l) a (After k rest) := by
  unfold fixityAssoc
  refine Gives.loc (Gives.look hs fun l' h1 h2 => ?_)
  cases a <;> exact Gives.bump h1 h2 fun _ h => Gives.ret h

theorem opsToks_split {ops : List (Infix × Token)} (hne : ops ≠ []) :
    ∃ x xs, ops = x :: xs ∧ sepBy .comma (ops.map fun x => [x.2]) =
      x.2 :: (xs.map fun x => [Token.comma, x.2]).flatten := by
  cases ops with
  | nil => exact absurd rfl hne
  | cons x xs =>
    refine ⟨x, xs, rfl, ?_⟩
    rw [List.map_cons, sepBy_cons, List.map_map]
    rfl

theorem infixDecl_gives {d : InfixDecl} {ds : List CTok} (h : DeclWritten d (ds.map (·.1)))
    {n : Nat} {l : Lexer} {rest : List CTok} (hs : Stream l (ds ++ rest))
    (h1 : nextTok rest ≠ .comma) : Gives (infixDecl n l) d (Stream · rest) := by
  obtain ⟨h, hd, ha⟩ := h
  generalize hts : ds.map (·.1) = ts at h hd ha
  cases h with
  | @withPrec a p ops hp hne hall =>
    obtain ⟨x, xs, rfl, hx⟩ := opsToks_split hne
    rw [hx] at hts
    obtain ⟨k1, ds, rfl, hts1⟩ := cols_cons hts
    obtain ⟨k2, ds, rfl, hts2⟩ := cols_cons hts1
    obtain ⟨k3, ds, rfl, hts3⟩ := cols_cons hts2
    unfold infixDecl fixity
    refine Gives.bind (a := ⟨p, a⟩) (Q := After k2 ((x.2, k3) :: (ds ++ rest))) ?_ ?_
    · refine Gives.bind (fixityAssoc_gives hs) fun l1 h1 => ?_
      refine Gives.bind (a := p) (Q := After k2 ((x.2, k3) :: (ds ++ rest))) ?_ fun l2 h2 => Gives.ret h2
      unfold fixityPrec
      refine Gives.loc (Gives.look h1.1 fun l2 h2 h3 => ?_)
      refine Gives.bump h2 h3 fun l3 h4 => ?_
      have : p ≤ precMax := hp
      rw [if_pos this]
      exact Gives.ret h4
    · intro l1 h2
      refine Gives.bind (infixOp_gives (hall x (by simp)) h2.1) fun l3 h3 => ?_
      refine Gives.bind (infixLoop_gives (xs := xs) (fun y hy => hall y (by simp [hy])) n l3 [x.1] ds rest
        hts3 h3.1 h1) fun l4 h4 => Gives.ret h4
  | @noPrec a ops hne hall =>
    obtain ⟨x, xs, rfl, hx⟩ := opsToks_split hne
    rw [hx] at hts hd ha
    obtain ⟨k1, ds, rfl, hts1⟩ := cols_cons hts
    obtain ⟨k3, ds, rfl, hts3⟩ := cols_cons hts1
    unfold infixDecl fixity
    refine Gives.bind (a := ⟨9, a⟩) (Q := (Stream · ((x.2, k3) :: (ds ++ rest)))) ?_ ?_
    · refine Gives.bind (fixityAssoc_gives hs) fun l1 h1 => ?_
      refine Gives.bind (a := 9) (Q := (Stream · ((x.2, k3) :: (ds ++ rest)))) ?_ fun l2 h2 => Gives.ret h2
      unfold fixityPrec
      refine Gives.loc (Gives.look h1.1 fun l2 h2 h3 => ?_)
      have hop := hall x (by simp)
      obtain ⟨op, t⟩ := x
      cases hop with
      | dash => simp at hd
      | at_ => simp at ha
      | standard s => exact Gives.ret h2
      | promoted s => exact Gives.ret h2
    · intro l1 h2
      refine Gives.bind (infixOp_gives (hall x (by simp)) h2) fun l3 h3 => ?_
      refine Gives.bind (infixLoop_gives (xs := xs) (fun y hy => hall y (by simp [hy])) n l3 [x.1] ds rest
        hts3 h3.1 h1) fun l4 h4 => Gives.ret h4

theorem patArgs_gives {xs : List (Pat × List Token)} (hx : ∀ x ∈ xs, PatWritten x.1 x.2) (n : Nat)
    (l : Lexer) (acc : List Pat) (cts rest : List CTok)
    (hc : cts.map (·.1) = (xs.map (·.2)).flatten)
    (hs : Stream l (cts ++ rest)) (h1 : beginsPat (nextTok rest) false = false)
    (h2 : nextTok rest ≠ .at_) :
    Gives (patArgs n acc l) (acc ++ xs.map (·.1)) (Stream · rest) := by
  induction xs generalizing n l acc cts with
  | nil =>
    have := cols_nil hc
    subst this
    cases n with
    | zero => exact .inl rfl
    | succ n =>
      unfold patArgs
      refine Gives.look hs fun l' h _ => ?_
      simp only [List.nil_append, h1, Bool.false_eq_true, if_false]
      simpa using Gives.ret h
  | cons x xs ih =>
    cases n with
    | zero => exact .inl rfl
    | succ n =>
      simp only [List.map_cons, List.flatten_cons] at hc
      obtain ⟨a, b, rfl, ha, hb⟩ := cols_append hc
      rw [List.append_assoc] at hs
      obtain ⟨hx1, hx2⟩ := hx x (by simp)
      obtain ⟨t, ts', hts, _, hst, _⟩ := hx1.starts
      unfold patArgs
      refine Gives.look hs fun l' h _ => ?_
      have hbp : beginsPat (nextTok (a ++ (b ++ rest))) false = true := by
        rw [nextTok_append (ha.trans hts)]
        have := hst rfl
        cases t <;> first | rfl | cases this
      simp only [hbp, if_true]
      have hat : nextTok (b ++ rest) ≠ .at_ := by
        cases xs with
        | nil => rw [cols_nil hb]; exact h2
        | cons y ys =>
          obtain ⟨t, ts', hts, _, hst, _⟩ := (hx y (by simp)).1.starts
          rw [List.map_cons, List.flatten_cons, hts, List.cons_append] at hb
          rw [nextTok_append hb]
          rintro rfl
          cases hst rfl
      refine Gives.bind (hx1.run hx2 l' a (b ++ rest) ha h hat n) ?_
      intro l'' h
      have := ih (fun y hy => hx y (by simp [hy])) n l'' (acc ++ [x.1]) b hb h
      simpa using this

theorem commaLoop_gives (ks : List Nat) (n : Nat) (l : Lexer) (j : Nat) (rest : List CTok)
    (hs : Stream l (ks.map (fun k => (.comma, k)) ++ rest)) (h1 : nextTok rest ≠ .comma) :
    Gives (commaLoop n j l) (j + ks.length) (Stream · rest) := by
  induction ks generalizing n l j with
  | nil =>
    cases n with
    | zero => exact .inl rfl
    | succ n =>
      unfold commaLoop
      refine Gives.bind (Gives.bumpOn_false hs (Ne.symm h1)) ?_
      rintro l' ⟨h, _⟩
      exact Gives.ret h
  | cons k ks ih =>
    cases n with
    | zero => exact .inl rfl
    | succ n =>
      unfold commaLoop
      refine Gives.bind (Gives.bumpOn_true (c := k) hs) ?_
      rintro l' ⟨h, _⟩
      simp only [if_true]
      have := ih n l' (j + 1) h
      rwa [show j + (k :: ks).length = j + 1 + ks.length by simp; omega]

/-! ### expressions -/

omit [CharTables] [LawfulTables] in
theorem Written.starts {cat : ExprCat} {c m : Nat} {e : Expr} {ts : List CTok}
    (h : Written cat c m e ts) : ∃ t k ts', ts = (t, k) :: ts' ∧ beginsExpr t false = true ∧
      (cat = .arg → t.startsArg = true) := by
  induction h with
  | last _ ih | lastOpen _ ih | head _ ih =>
    obtain ⟨t, k, ts', rfl, h, _⟩ := ih
    exact ⟨t, k, ts', rfl, h, by simp⟩
  | bin _ _ _ ih | app _ _ _ ih | appOpen _ _ _ _ ih =>
    obtain ⟨t, k, ts', rfl, h, _⟩ := ih
    exact ⟨t, k, _, rfl, h, by simp⟩
  | _ => exact ⟨_, _, _, rfl, rfl, by simp [Token.startsArg]⟩

theorem argExprTok_eq (t : Token) : argExprTok t = t.startsArg := by cases t <;> rfl

/-- What the expression functions do on the tokens `ts` of `e`. -/
def ExprRun (cat : ExprCat) (c m : Nat) (e : Expr) (ts : List CTok) : Prop :=
  ∀ (l : Lexer) (rest : List CTok), Stream l (ts ++ rest) →
    match cat with
    | .chain => l.col = c → Follow m rest → ∀ n stack,
        Gives ((subexpression n >>= fun left => binaryLoop n left stack) l) (reduce stack e)
          (Stream · rest)
    | .operand => l.col = c → ∀ n, subexpression n l = .fuel ∨ ∃ k start l', start.col = c ∧
        subexpression n l = appLoop k start e l' ∧ Stream l' rest
    | .atom => Follow m rest → ∀ n, Gives (atom n l) e (Stream · rest)
    | .arg => ∀ n, Gives (atom n l) e (Stream · rest)

theorem appLoop_stop {start : Loc} {rest : List CTok}
    (hf : (nextTok rest).startsArg = true → firstCol rest ≤ start.col) (n : Nat)
    (e : Expr) (l : Lexer) (hs : Stream l rest) :
    Gives (appLoop n start e l) e (Stream · rest) := by
  cases n with
  | zero => exact .inl rfl
  | succ n =>
    unfold appLoop
    refine Gives.look hs fun l' h hr => Gives.loc ?_
    have : ¬ (argExprTok (nextTok rest) = true ∧ start.col < l'.currLoc.col) := by
      rintro ⟨h1, h2⟩
      cases rest with
      | nil => simp [nextTok, argExprTok] at h1
      | cons x rest =>
        rw [argExprTok_eq] at h1
        have h3 : l'.col = x.2 := hr.2
        have h4 : x.2 ≤ start.col := hf h1
        have h5 : start.col < l'.col := h2
        omega
    rw [if_neg this]
    exact Gives.ret h

theorem Follow.args {m : Nat} {rest : List CTok} (h : Follow m rest) :
    (nextTok rest).startsArg = true → firstCol rest ≤ m := by
  cases rest with
  | nil => intro h; cases h
  | cons x rest => exact h.2

theorem appLoop_cont {n : Nat} {start : Loc} {f x : Expr} {l : Lexer} {us rest : List CTok}
    (hw : Written .arg start.col start.col x us) (hx : ExprRun .arg start.col start.col x us)
    (hlt : start.col < firstCol us) (hs : Stream l (us ++ rest)) :
    appLoop n start f l = .fuel ∨ ∃ k l', appLoop n start f l = appLoop k start (.app f x) l' ∧
      Stream l' rest := by
  cases n with
  | zero => exact .inl rfl
  | succ n =>
    obtain ⟨t, k, us', rfl, _, ht⟩ := hw.starts
    obtain ⟨l', h1, h2, h3⟩ := hs.peek
    have he : appLoop (n + 1) start f l = (atom n >>= fun x => appLoop n start (.app f x)) l' := by
      show (P.peek >>= _) l = _
      rw [P.bind_ok h1]
      have : argExprTok (nextTok ((t, k) :: us' ++ rest)) = true ∧ start.col < l'.currLoc.col := by
        refine ⟨by rw [argExprTok_eq]; exact ht rfl, ?_⟩
        show start.col < l'.col
        rw [show l'.col = k from h3.2]
        exact hlt
      show (P.loc >>= _) l' = _
      rw [P.bind_ok (show P.loc l' = .ok l'.currLoc l' from rfl), if_pos this]
    rw [he]
    rcases hx l' rest h2 n with h4 | ⟨l'', h4, h5⟩
    · refine .inl ?_
      show P.bind _ _ l' = _
      unfold P.bind; rw [h4]
    · rw [P.bind_ok h4]
      exact .inr ⟨n, l'', rfl, h5⟩

theorem binaryLoop_stop {m : Nat} {rest : List CTok} (hf : Follow m rest) (n : Nat) (e : Expr)
    (stack : List (Expr × Infix)) (l : Lexer) (hs : Stream l rest) :
    Gives (binaryLoop n e stack l) (reduce stack e) (Stream · rest) := by
  cases n with
  | zero => exact .inl rfl
  | succ n =>
    unfold binaryLoop
    have : (nextTok rest).joins = false := by
      cases rest with
      | nil => rfl
      | cons x rest => exact hf.1
    exact Gives.bind (tryInfix_none hs this) fun l' h => Gives.ret h

theorem Follow.mono {m m' : Nat} {rest : List CTok} (h : Follow m rest) (hm : m ≤ m') :
    Follow m' rest := by
  cases rest with
  | nil => trivial
  | cons x rest => exact ⟨h.1, fun h' => Nat.le_trans (h.2 h') hm⟩

theorem reduce_snoc (stack : List (Expr × Infix)) (l : Expr) (op : Infix) (r : Expr) :
    reduce (stack ++ [(l, op)]) r = reduce stack (.bin l op r) := by
  unfold reduce; rw [List.foldr_append]; rfl

/-- `expression` on a chain. -/
theorem ExprRun.expression {c m : Nat} {e : Expr} {ts : List CTok} (h : ExprRun .chain c m e ts)
    {l : Lexer} {rest : List CTok} (hs : Stream l (ts ++ rest)) (hc : l.col = c)
    (hf : Follow m rest) (n : Nat) : Gives (Parser.expression n l) e (Stream · rest) := by
  cases n with
  | zero => exact .inl rfl
  | succ n => exact h l rest hs hc hf n []

theorem exprTail_gives {xs : List TupItem} (hx : ∀ x ∈ xs, ExprRun .chain x.comma x.edge x.expr x.toks)
    (n : Nat) (l : Lexer) (acc : List Expr) (k : Nat) (rest : List CTok)
    (hs : Stream l ((xs.map (·.all)).flatten ++ (.parenR, k) :: rest)) :
    Gives (exprTail n acc l) (acc ++ xs.map (·.expr)) (Stream · ((.parenR, k) :: rest)) := by
  induction xs generalizing n l acc with
  | nil =>
    cases n with
    | zero => exact .inl rfl
    | succ n =>
      unfold exprTail
      refine Gives.bind (Gives.bumpOn_false hs (by simp [nextTok])) ?_
      rintro l' ⟨h, _⟩
      simpa using Gives.ret h
  | cons x xs ih =>
    cases n with
    | zero => exact .inl rfl
    | succ n =>
      simp only [List.map_cons, List.flatten_cons, TupItem.all, List.cons_append, List.append_assoc] at hs
      unfold exprTail
      refine Gives.bind (Gives.bumpOn_true hs) ?_
      rintro l' ⟨h1, _, h2⟩
      simp only [if_true]
      have hf : Follow x.edge ((xs.map TupItem.all).flatten ++ (.parenR, k) :: rest) := by
        cases xs with
        | nil => exact ⟨rfl, fun h => by cases h⟩
        | cons y ys => exact ⟨rfl, fun h => by cases h⟩
      refine Gives.bind ((hx x (by simp)).expression h1 h2 hf n) ?_
      intro l'' h
      have := ih (fun y hy => hx y (by simp [hy])) n l'' (acc ++ [x.expr]) h
      simpa using this

theorem Ready.col {l : Lexer} {ts rest : List CTok} (h : Ready l (ts ++ rest)) (hne : ts ≠ []) :
    l.col = firstCol ts := by
  cases ts with
  | nil => exact absurd rfl hne
  | cons x ts => exact h.2

theorem brackLoop_gives {xs : List ListItem}
    (hw : ∀ x ∈ xs, Written .chain (firstCol x.toks) x.edge x.expr x.toks)
    (hx : ∀ x ∈ xs, ExprRun .chain (firstCol x.toks) x.edge x.expr x.toks)
    {k : Nat} (hc : ∀ a x b, xs = a ++ x :: b → x.comma = none →
      Follow x.edge ((b.map (·.all)).flatten ++ [(.brackR, k)]))
    (n : Nat) (l : Lexer) (acc : List Expr) (rest : List CTok)
    (hs : Stream l ((xs.map (·.all)).flatten ++ (.brackR, k) :: rest)) :
    Gives (brackLoop n acc l) (acc ++ xs.map (·.expr)) (Stream · ((.brackR, k) :: rest)) := by
  induction xs generalizing n l acc with
  | nil =>
    cases n with
    | zero => exact .inl rfl
    | succ n =>
      unfold brackLoop
      refine Gives.bind (Gives.isDone hs) ?_
      rintro l1 ⟨h1, _⟩
      refine Gives.bind (Gives.peekOn .brackR h1) ?_
      rintro l2 ⟨h2, _⟩
      simpa [nextTok] using Gives.ret h2
  | cons x xs ih =>
    cases n with
    | zero => exact .inl rfl
    | succ n =>
      rw [List.map_cons, List.flatten_cons, List.append_assoc,
        show x.all = x.toks ++ commaToks x.comma from rfl, List.append_assoc] at hs
      obtain ⟨t, j, ts', hts, hb, _⟩ := (hw x (by simp)).starts
      have hne : x.toks ≠ [] := by rw [hts]; simp
      unfold brackLoop
      refine Gives.bind (Gives.isDone hs) ?_
      rintro l1 ⟨h1, _⟩
      rw [show (x.toks ++ _).isEmpty = false by rw [hts]; rfl]
      refine Gives.bind (Gives.peekOn .brackR h1) ?_
      rintro l2 ⟨h2, hr⟩
      have hnt : ∀ us, nextTok (x.toks ++ us) = t := by intro us; rw [hts]; rfl
      have hd : ∀ us, decide (Token.brackR = nextTok (x.toks ++ us)) = false := by
        intro us
        rw [hnt]; cases t <;> first | rfl | cases hb
      rw [hd]
      simp only [Bool.false_eq_true, if_false]
      have hcol := hr.col hne
      have hc' : ∀ a y b, xs = a ++ y :: b → y.comma = none →
          Follow y.edge ((b.map (·.all)).flatten ++ [(.brackR, k)]) := by
        intro a y b h; exact hc (x :: a) y b (by rw [h]; rfl)
      have hf : Follow x.edge (commaToks x.comma ++
          ((xs.map ListItem.all).flatten ++ (.brackR, k) :: rest)) := by
        cases hcm : x.comma with
        | some j => exact ⟨rfl, fun h => by cases h⟩
        | none =>
          have := hc [] x xs rfl hcm
          revert this
          rw [show commaToks none = [] from rfl, List.nil_append]
          generalize (xs.map ListItem.all).flatten = us
          intro this
          cases us with
          | nil => exact this
          | cons u us => exact this
      refine Gives.bind ((hx x (by simp)).expression h2 hcol hf n) ?_
      intro l3 h3
      have key : ∃ b, Gives (P.bumpOn .comma l3) b
          (Stream · ((xs.map ListItem.all).flatten ++ (.brackR, k) :: rest)) := by
        cases hcm : x.comma with
        | some j =>
          rw [hcm] at h3
          exact ⟨_, (Gives.bumpOn_true h3).mono fun _ h => h.1⟩
        | none =>
          rw [hcm] at h3
          refine ⟨_, (Gives.bumpOn_false h3 ?_).mono fun _ h => h.1⟩
          cases xs with
          | nil => simp [nextTok, commaToks]
          | cons y ys =>
            obtain ⟨t, j, ts', hts, hb, _⟩ := (hw y (by simp)).starts
            simp only [commaToks, List.map_cons, List.flatten_cons, ListItem.all, hts,
              List.cons_append, List.nil_append, nextTok]
            rintro rfl
            cases hb
      obtain ⟨b, key⟩ := key
      refine Gives.bind key ?_
      intro l4 h4
      have := ih (fun y hy => hw y (by simp [hy])) (fun y hy => hx y (by simp [hy])) hc' n l4
        (acc ++ [x.expr]) h4
      simpa using this

/-- `parenExpr` when the parenthesis is followed by an expression. -/
theorem parenExpr_gives {l : Lexer} {t : Token} {k k₀ : Nat} {ts' : List CTok} {e : Expr}
    {Q : Lexer → Prop} (hb : beginsExpr t false = true)
    (hs : Stream l ((.parenL, k₀) :: (t, k) :: ts'))
    (h : ∀ n l', Stream l' ((t, k) :: ts') → Ready l' ((t, k) :: ts') →
      Gives ((do
        let first ← Parser.expression n
        if ← P.peekOn .comma then
          let es ← exprTail n [first]
          P.eat .parenR
          return .tup es
        else
          P.eat .parenR
          return .grp first : P Expr) l') e Q) (n : Nat) :
    Gives (atom n l) e Q := by
  cases n with
  | zero => exact .inl rfl
  | succ n =>
    unfold atom
    refine Gives.loc (Gives.look hs fun l1 h1 _ => ?_)
    show Gives (parenExpr n l1) _ _
    cases n with
    | zero => exact .inl rfl
    | succ n =>
      unfold parenExpr
      refine Gives.bind (Gives.eat h1) fun l2 h2 => Gives.loc ?_
      refine Gives.look h2.1 fun l3 h3 hr => ?_
      have := h n l3 h3 hr
      have hb' : beginsExpr t true = true := by cases t <;> first | rfl | cases hb
      cases t <;> first | exact this | cases hb

theorem Written.run {cat : ExprCat} {c m : Nat} {e : Expr} {ts : List CTok}
    (h : Written cat c m e ts) : ExprRun cat c m e ts := by
  induction h with
  | @last c e ts hw ih =>
    intro l rest hs hc hf n stack
    rcases ih l rest hs hc n with h | ⟨k, start, l', h1, h2, h3⟩
    · exact Gives.bind (a := e) (Q := fun _ => False) (.inl h) fun _ h => h.elim
    · refine Gives.bind (a := e) (Q := (Stream · rest)) ?_ fun l2 h => binaryLoop_stop hf n e stack l2 h
      rw [h2]
      exact appLoop_stop (by rw [h1]; exact hf.args) k e l' h3
  | @lastOpen c m e ts hw ih =>
    intro l rest hs hc hf n stack
    refine Gives.bind (a := e) (Q := (Stream · rest)) ?_ fun l2 h => binaryLoop_stop hf n e stack l2 h
    cases n with
    | zero => exact .inl rfl
    | succ n =>
      unfold subexpression
      refine Gives.loc (Gives.bind (ih l rest hs (hf.mono (Nat.min_le_right _ _)) n) fun l2 h2 => ?_)
      refine appLoop_stop ?_ n e l2 h2
      show _ → _ ≤ l.col
      rw [hc]
      exact (hf.mono (Nat.min_le_left _ _)).args
  | @bin c m lhs op t k r ts us hl ho hr ihl ihr =>
    intro l rest hs hc hf n stack
    rw [List.append_assoc] at hs
    rcases ihl l _ hs hc n with h | ⟨k', start, l', h1, h2, h3⟩
    · exact Gives.bind (a := e) (Q := fun _ => False) (.inl h) fun _ h => h.elim
    · obtain ⟨t', k2, us', rfl, hb, _⟩ := hr.starts
      refine Gives.bind (a := lhs) (Q := (Stream · ((t, k) :: ((t', k2) :: us' ++ rest)))) ?_ fun l2 h5 => ?_
      · rw [h2]
        refine appLoop_stop (fun h => ?_) k' lhs l' h3
        cases ho <;> cases h
      · cases n with
        | zero => exact .inl rfl
        | succ n =>
          unfold binaryLoop
          refine Gives.bind (tryInfix_some ho h5) fun l3 h3 => ?_
          refine Gives.loc (Gives.look h3.1 fun l4 h4 hr4 => ?_)
          rw [show nextTok ((t', k2) :: us' ++ rest) = t' from rfl]
          simp only [hb, if_true]
          have := ihr l4 rest h4 (hr4.col (by simp)) hf n (stack ++ [(lhs, op)])
          rwa [reduce_snoc] at this
  | @head c e ts hw ih =>
    intro l rest hs hc n
    cases n with
    | zero => exact .inl rfl
    | succ n =>
      unfold subexpression
      show P.bind (atom n) _ l = _ ∨ ∃ k start l', _ ∧ P.bind (atom n) _ l = _ ∧ _
      rcases ih l rest hs n with h | ⟨l', h, h'⟩
      · exact .inl (by unfold P.bind; rw [h])
      · exact .inr ⟨n, l.currLoc, l', hc, by unfold P.bind; rw [h], h'⟩
  | @app c f x ts us hf hx hlt ihf ihx =>
    intro l rest hs hc n
    rw [List.append_assoc] at hs
    rcases ihf l _ hs hc n with h | ⟨k', start, l', h1, h2, h3⟩
    · exact .inl h
    · rw [h2]
      subst h1
      rcases appLoop_cont hx ihx hlt h3 with h | ⟨k, l'', h, h'⟩
      · exact .inl h
      · exact .inr ⟨k, start, l'', rfl, h, h'⟩
  | @appOpen c m f x ts us hf hx hlt hle ihf ihx =>
    intro l rest hs hc n
    rw [List.append_assoc] at hs
    obtain ⟨t, k, us', rfl, hb, ht⟩ := hx.starts
    cases n with
    | zero => exact .inl rfl
    | succ n =>
      have hfol : Follow m ((t, k) :: us' ++ rest) := by
        refine ⟨?_, fun _ => hle⟩
        cases t <;> first | rfl | cases hb
      unfold subexpression
      show P.bind (atom n) _ l = _ ∨ ∃ k start l', _ ∧ P.bind (atom n) _ l = _ ∧ _
      unfold P.bind
      rcases ihf l _ hs hfol n with h | ⟨l', h, h'⟩
      · rw [h]; exact .inl rfl
      · rw [h]
        subst hc
        rcases appLoop_cont (n := n) (start := l.currLoc) (f := f) hx ihx hlt h' with h | ⟨k, l'', h, h'⟩
        · exact .inl h
        · exact .inr ⟨k, l.currLoc, l'', rfl, h, h'⟩
  | @lam c k₀ k m ps pts e ts hne hps hpts hw ih =>
    intro l rest hs hf n
    simp only [List.cons_append, List.append_assoc] at hs
    cases ps with
    | nil => exact absurd rfl hne
    | cons p ps =>
    simp only [List.map_cons, List.flatten_cons] at hpts
    obtain ⟨a, b, rfl, ha, hb⟩ := cols_append hpts
    obtain ⟨hp1, hp2⟩ := hps p (by simp)
    cases n with
    | zero => exact .inl rfl
    | succ n =>
      unfold atom
      refine Gives.loc (Gives.look hs fun l1 h1 _ => ?_)
      show Gives (lambda n l1) _ _
      cases n with
      | zero => exact .inl rfl
      | succ n =>
        unfold lambda
        refine Gives.bind (Gives.eat h1) fun l2 h2 => ?_
        have h2 := h2.1
        rw [List.append_assoc] at h2
        have hat : nextTok (b ++ (.arrow, k) :: (ts ++ rest)) ≠ .at_ := by
          cases ps with
          | nil => rw [cols_nil hb]; simp [nextTok]
          | cons y ys =>
            obtain ⟨t, ts', hts, _, hst, _⟩ := (hps y (by simp)).1.starts
            rw [List.map_cons, List.flatten_cons, hts, List.cons_append] at hb
            rw [nextTok_append hb]
            rintro rfl
            cases hst rfl
        refine Gives.bind (hp1.run hp2 l2 a _ ha h2 hat n) fun l3 h3 => ?_
        refine Gives.bind (patArgs_gives (xs := ps) (fun y hy => hps y (by simp [hy])) n l3 [p.1] b _
          hb h3 rfl (by simp [nextTok])) fun l4 h4 => ?_
        refine Gives.bind (Gives.eat h4) fun l5 h5 => ?_
        refine Gives.bind (ih.expression h5.1 h5.2.2 hf n) fun l6 h6 => ?_
        exact Gives.ret h6
  | @let_ c k₀ k m d e ds ts hd hw ih =>
    intro l rest hs hf n
    simp only [List.cons_append, List.append_assoc] at hs
    cases n with
    | zero => exact .inl rfl
    | succ n =>
      unfold atom
      refine Gives.loc (Gives.look hs fun l1 h1 hr => ?_)
      refine Gives.bump h1 hr fun l2 h2 => ?_
      refine Gives.bind (infixDecl_gives hd h2.1 (by simp [nextTok])) fun l3 h3 => ?_
      refine Gives.bind (Gives.eat h3) fun l5 h5 => ?_
      refine Gives.bind (ih.expression h5.1 h5.2.2 hf n) fun l6 h6 => ?_
      exact Gives.ret h6
  | lit | upper | lower =>
    intro l rest hs n
    cases n with
    | zero => exact .inl rfl
    | succ n =>
      unfold atom
      refine Gives.loc (Gives.look hs fun l1 h1 hr => ?_)
      exact Gives.bump h1 hr fun l2 h2 => Gives.ret h2.1
  | unit c k₀ k =>
    intro l rest hs n
    cases n with
    | zero => exact .inl rfl
    | succ n =>
      unfold atom
      refine Gives.loc (Gives.look hs fun l1 h1 _ => ?_)
      show Gives (parenExpr n l1) _ _
      cases n with
      | zero => exact .inl rfl
      | succ n =>
        unfold parenExpr
        refine Gives.bind (Gives.eat h1) fun l2 h2 => Gives.loc ?_
        refine Gives.look h2.1 fun l3 h3 hr => ?_
        exact Gives.bump h3 hr fun l2 h2 => Gives.ret h2.1
  | op c k₀ k₁ k s b =>
    intro l rest hs n
    cases n with
    | zero => exact .inl rfl
    | succ n =>
      unfold atom
      refine Gives.loc (Gives.look hs fun l1 h1 _ => ?_)
      show Gives (parenExpr n l1) _ _
      cases n with
      | zero => exact .inl rfl
      | succ n =>
        unfold parenExpr
        refine Gives.bind (Gives.eat h1) fun l2 h2 => Gives.loc ?_
        refine Gives.look h2.1 fun l3 h3 hr => ?_
        refine Gives.bump h3 hr fun l2 h2 => ?_
        exact Gives.bind (Gives.eat h2.1) fun l5 h5 => Gives.ret h5.1
  | @commas c k₀ k ks hne =>
    intro l rest hs n
    simp only [List.cons_append, List.append_assoc, List.nil_append] at hs
    cases n with
    | zero => exact .inl rfl
    | succ n =>
      unfold atom
      refine Gives.loc (Gives.look hs fun l1 h1 _ => ?_)
      show Gives (parenExpr n l1) _ _
      cases n with
      | zero => exact .inl rfl
      | succ n =>
        unfold parenExpr
        refine Gives.bind (Gives.eat h1) fun l2 h2 => Gives.loc ?_
        refine Gives.look h2.1 fun l3 h3 hr => ?_
        cases ks with
        | nil => exact absurd rfl hne
        | cons j ks =>
          refine Gives.bind (commaLoop_gives (j :: ks) n l3 0 _ h3 (by simp [nextTok])) fun l4 h4 => ?_
          refine Gives.bind (Gives.eat h4) fun l5 h5 => ?_
          rw [Nat.zero_add]
          exact Gives.ret h5.1
  | @grp c k₀ k m e ts hw ih =>
    intro l rest hs
    simp only [List.cons_append, List.append_assoc, List.nil_append] at hs
    obtain ⟨t, j, ts', rfl, hb, _⟩ := hw.starts
    refine parenExpr_gives hb hs fun n l1 h1 hr => ?_
    refine Gives.bind (ih.expression (rest := (.parenR, k) :: rest) h1 hr.2 ⟨rfl, fun h => by cases h⟩ n) fun l2 h2 => ?_
    refine Gives.bind (Gives.peekOn _ h2) ?_
    rintro l3 ⟨h3, _⟩
    exact Gives.bind (Gives.eat h3) fun l4 h4 => Gives.ret h4.1
  | @tup c k₀ k m e ts xs hw hne hall ih ihs =>
    intro l rest hs
    simp only [List.cons_append, List.append_assoc, List.nil_append] at hs
    obtain ⟨t, j, ts', rfl, hb, _⟩ := hw.starts
    refine parenExpr_gives hb hs fun n l1 h1 hr => ?_
    cases xs with
    | nil => exact absurd rfl hne
    | cons x xs =>
    have hf : Follow m (((x :: xs).map TupItem.all).flatten ++ (.parenR, k) :: rest) :=
      ⟨rfl, fun h => by cases h⟩
    refine Gives.bind (ih.expression h1 hr.2 hf n) fun l2 h2 => ?_
    refine Gives.bind (Gives.peekOn _ h2) ?_
    rintro l3 ⟨h3, _⟩
    refine Gives.bind (exprTail_gives (xs := x :: xs) ihs n l3 [e] k rest h3) fun l4 h4 => ?_
    exact Gives.bind (Gives.eat h4) fun l4 h4 => Gives.ret h4.1
  | @list c k₀ k xs hall hcm ihs =>
    intro l rest hs n
    simp only [List.cons_append, List.append_assoc, List.nil_append] at hs
    cases n with
    | zero => exact .inl rfl
    | succ n =>
      unfold atom
      refine Gives.loc (Gives.look hs fun l1 h1 _ => ?_)
      show Gives (brackExpr n l1) _ _
      cases n with
      | zero => exact .inl rfl
      | succ n =>
        unfold brackExpr
        refine Gives.bind (Gives.eat h1) fun l2 h2 => ?_
        refine Gives.bind (brackLoop_gives hall ihs hcm n l2 [] rest h2.1) fun l3 h3 => ?_
        exact Gives.bind (Gives.eat h3) fun l4 h4 => Gives.ret h4.1

end Pemdas
