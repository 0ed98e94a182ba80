import Verif.Lemmas.CrashText
import Verif.Spec.ExprErrors
/-
What `parse_expr` reads, and where it stops.
-/
namespace Pemdas
open Lexer Parser
set_option linter.unusedSectionVars false
variable [CharTables] [LawfulTables]

theorem new_loc (src : Text) : (Lexer.new src).currLoc = startLoc src := by
  obtain ⟨⟨pre, h1, h2⟩, _⟩ := C28_positions (Point.new (src := src))
  have hc : (Lexer.new src).chars = src.dropWhile isWhitespace := by
    unfold Lexer.new eatWhitespace eatWhile
    exact eatWhileN_ws _ _ (Nat.le_refl _)
  rw [hc] at h1
  have : pre = src.takeWhile isWhitespace := by
    have h3 := List.takeWhile_append_dropWhile (p := isWhitespace) (l := src)
    exact List.append_cancel_right (h1.symm.trans h3.symm)
  rw [this] at h2
  rw [h2]; rfl

/-! ### the last thing done is to peek -/

theorem tryInfix_none_peeked {l l' : Lexer} (h : tryInfix l = .ok none l') :
    ∃ t, P.peek l' = .ok t l' := by
  have key : (∃ op m, infixOp l = .ok op m) ∨ (∃ p, infixOp l = .panic p) ∨
      (∃ e t m, infixOp l = .err e m ∧ P.peek l = .ok t m) ∨ infixOp l = .fuel := by
    unfold infixOp
    simp only [Bind.bind, P.bind, P.loc]
    cases hp : P.peek l with
    | ok t m =>
      cases t <;> first
        | exact .inl ⟨_, _, rfl⟩
        | exact .inr (.inr (.inl ⟨_, _, _, rfl, rfl⟩))
    | err e m => exact absurd hp (peek_ne_err _ _ _)
    | panic p => simp
    | fuel => simp
  unfold tryInfix at h
  rcases key with ⟨op, m, hm⟩ | ⟨p, hm⟩ | ⟨e, t, m, hm, hp⟩ | hm <;> rw [hm] at h
  · cases h
  · cases h
  · cases h; exact ⟨t, peek_again hp⟩
  · cases h

theorem binaryLoop_peeked (n : Nat) : ∀ {e : Expr} {s : List (Expr × Infix)} {l l' : Lexer} {r : Expr},
    binaryLoop n e s l = .ok r l' → ∃ t, P.peek l' = .ok t l' := by
  induction n with
  | zero => intro e s l l' r h; cases h
  | succ n ih =>
    intro e s l l' r h
    unfold binaryLoop at h
    simp only [Bind.bind, P.bind] at h
    cases ht : tryInfix l with
    | ok o m =>
      rw [ht] at h
      cases o with
      | none =>
        cases h
        exact tryInfix_none_peeked ht
      | some op =>
        simp only [P.bind, P.loc] at h
        cases hp : P.peek m with
        | ok t m' =>
          rw [hp] at h
          simp only at h
          split at h
          · simp only [P.bind] at h
            cases hs : subexpression n m' with
            | ok a m'' =>
              rw [hs] at h
              exact ih h
            | err e m => rw [hs] at h; cases h
            | panic p => rw [hs] at h; cases h
            | fuel => rw [hs] at h; cases h
          · cases h
        | err e m => exact absurd hp (peek_ne_err _ _ _)
        | panic p => rw [hp] at h; cases h
        | fuel => rw [hp] at h; cases h
    | err e m => rw [ht] at h; cases h
    | panic p => rw [ht] at h; cases h
    | fuel => rw [ht] at h; cases h

theorem expression_peeked {n : Nat} {l l' : Lexer} {r : Expr} (h : expression n l = .ok r l') :
    ∃ t, P.peek l' = .ok t l' := by
  cases n with
  | zero => cases h
  | succ n =>
    unfold expression at h
    simp only [Bind.bind, P.bind] at h
    cases hs : subexpression n l with
    | ok a m => rw [hs] at h; exact binaryLoop_peeked _ h
    | err e m => rw [hs] at h; cases h
    | panic p => rw [hs] at h; cases h
    | fuel => rw [hs] at h; cases h

/-! ### outcomes -/

theorem parseExpr_firm (src : Text) : FirmRes (Lexer.new src) (parseExpr src) :=
  (firm_iff.1 ((exprFirm _).expression (o := none))) _ (by simp [Sure])

theorem parseExpr_same {src src' : Text} {r : PRes Expr}
    (h : expression (Parser.fuelFor src) (Lexer.new src') = r) (hr : r ≠ .fuel) : parseExpr src' = r := by
  have hb := same_of_below (m := fun n => expression n) (fun k => (exprBelow k).expression)
    (n := Parser.fuelFor src) (k := Parser.fuelFor src + (16 * src'.length + 16))
    (l := Lexer.new src') (by rw [h]; exact hr) (by omega)
  rw [((C37_terminates src').2.2 _ (by omega)).2, h] at hb
  exact hb

/-- The outcome is the same for sources with the same tokens. -/
def SameFor (src : Text) (us : List (Token × Loc)) : Prop :=
  ∀ src', Agree (us.length + 1) (Lexer.new src) (Lexer.new src') →
    (∀ e l', parseExpr src = .ok e l' → ∃ l'', parseExpr src' = .ok e l'' ∧ Takes (Lexer.new src') us l'') ∧
    (∀ e l', parseExpr src = .err e l' → ∃ l'', parseExpr src' = .err e l'' ∧ Takes (Lexer.new src') us l'')

theorem parseExpr_ok_ate {src : Text} {e : Expr} {l' : Lexer} (h : parseExpr src = .ok e l') :
    ∃ us k t, Ate (Lexer.new src) us k ∧ P.peek k = .ok t l' ∧ Tame (us.map (·.1)) ∧
      SameFor src us := by
  have hf := parseExpr_firm src
  rw [h] at hf
  obtain ⟨us, h1, h2⟩ := hf
  obtain ⟨t, h3⟩ := expression_peeked h
  obtain ⟨k, h4, h5⟩ := h1.ate
  have hl := (exprLocal (Parser.fuelFor src)).expression (o := none) (Lexer.new src) (by simp [Knows])
  rw [show expression (Parser.fuelFor src) (Lexer.new src) = .ok e l' from h] at hl
  obtain ⟨vs, h6, h7⟩ := hl
  obtain ⟨k', h8, _⟩ := h6.ate
  obtain ⟨rfl, rfl⟩ := h8.unique h4 (h6.length h1)
  refine ⟨vs, k', t, h4, ?_, h2, fun src' ha => ⟨?_, ?_⟩⟩
  · rcases h5 with rfl | ⟨t', h5⟩
    · exact h3
    · rw [peek_again h5] at h3
      cases h3
      exact h5
  · intro e' l'' h'
    rw [h] at h'; cases h'
    obtain ⟨l₂, g1, g2, _⟩ := h7 (Lexer.new src') vs.length ha (Nat.le_refl _)
    exact ⟨l₂, parseExpr_same g1 (by simp), g2⟩
  · intro e' l'' h'
    rw [h] at h'; cases h'

theorem parseExpr_err_ate {src : Text} {e : ParseError} {l' : Lexer} (h : parseExpr src = .err e l') :
    ∃ us k, Ate (Lexer.new src) us k ∧ P.peek k = .ok e.found l' ∧
      NoTodo (us.map (·.1) ++ [e.found]) ∧ SameFor src us := by
  have hf := parseExpr_firm src
  rw [h] at hf
  obtain ⟨us, h1, h2⟩ := hf
  obtain ⟨k, h4, h5⟩ := h1.ate
  have hl := (exprLocal (Parser.fuelFor src)).expression (o := none) (Lexer.new src) (by simp [Knows])
  rw [show expression (Parser.fuelFor src) (Lexer.new src) = .err e l' from h] at hl
  obtain ⟨vs, h6, hb, h7⟩ := hl
  obtain ⟨k', h8, _⟩ := h6.ate
  obtain ⟨rfl, rfl⟩ := h8.unique h4 (h6.length h1)
  obtain ⟨l₀, b1, b2, b3⟩ := hb.resolve_right (by rintro ⟨_, _, h⟩; cases h)
  refine ⟨vs, k', h4, ?_, h2, fun src' ha => ⟨?_, ?_⟩⟩
  · obtain ⟨k₂, c1, c2⟩ := b1.ate
    obtain ⟨_, rfl⟩ := c1.unique h4 rfl
    rcases c2 with rfl | ⟨t', c2⟩
    · exact b2
    · rw [peek_again c2] at b2
      cases b2
      exact c2
  · intro e' l'' h'
    rw [h] at h'; cases h'
  · intro e' l'' h'
    rw [h] at h'; cases h'
    obtain ⟨l₂, g1, g2, _⟩ := h7 (Lexer.new src') vs.length ha (Nat.le_refl _)
    exact ⟨l₂, parseExpr_same g1 (by simp), g2⟩

theorem parseExpr_panic_ate {src : Text} {p : Panic} (h : parseExpr src = .panic p) :
    ∃ us k, Ate (Lexer.new src) us k ∧ ((P.peek k = .panic p ∧ NoTodo (us.map (·.1))) ∨
      (p = .precTodo ∧ ∃ vs a n, us.map (·.1) = vs ++ [Assoc.kwTok a, .lit (.int n)] ∧ 9 < n ∧
        NoTodo (vs ++ [Assoc.kwTok a]))) := by
  have hf := parseExpr_firm src
  rw [h] at hf
  obtain ⟨us, l', h1, h2⟩ := hf
  obtain ⟨k, h4, h5⟩ := h1.ate
  refine ⟨us, k, h4, h2.imp (fun h2 => ⟨?_, h2.2⟩) id⟩
  rcases h5 with rfl | ⟨t, h5⟩
  · exact h2.1
  · have := h2.1
    rw [peek_again h5] at this; cases this

/-- Two sources that begin with the same tokens at the same place. -/
theorem agree_ate' {src src' : Text} {us : List (Token × Loc)} {k k' : Lexer}
    (hl : (Lexer.new src).currLoc = (Lexer.new src').currLoc)
    (h : Ate (Lexer.new src) us k) (h' : Ate (Lexer.new src') us k') :
    Agree us.length (Lexer.new src) (Lexer.new src') := by
  obtain ⟨xs, hx1, hx2⟩ := h.items (curr_new' src)
  obtain ⟨ys, hy1, hy2⟩ := h'.items (curr_new' src')
  have hx := hx2 0 [] rfl
  have hy := hy2 0 [] rfl
  simp only [Nat.add_zero, List.append_nil] at hx hy
  exact agree_of_items (curr_new' src) (curr_new' src') hl hx hy (hx1.trans hy1.symm)
    (by rw [← hx1, List.length_map])

/-- A panic that is not the lexer's is due to the tokens consumed. -/
theorem parseExpr_panic_same {src : Text} {p : Panic} (h : parseExpr src = .panic p) :
    ∃ us k, Ate (Lexer.new src) us k ∧ (P.peek k = .panic p ∨
      ∀ src' k', (Lexer.new src).currLoc = (Lexer.new src').currLoc → Ate (Lexer.new src') us k' →
        parseExpr src' = .panic p) := by
  have hl := (exprLocal (Parser.fuelFor src)).expression (o := none) (Lexer.new src) (by simp [Knows])
  rw [show expression (Parser.fuelFor src) (Lexer.new src) = .panic p from h] at hl
  obtain ⟨us, l3, h1, h2⟩ := hl
  obtain ⟨k, h3, h4⟩ := h1.ate
  refine ⟨us, k, h3, ?_⟩
  rcases h2 with h2 | ⟨hne, h2⟩
  · rcases h4 with rfl | ⟨t', h4⟩
    · exact .inl h2
    · rw [peek_again h4] at h2; cases h2
  · refine .inr fun src' k' hloc hk' => ?_
    exact parseExpr_same (h2 _ _ (agree_ate' hloc h3 hk') (Nat.le_refl _)) (by simp)

/-! ### what is known of a beginning -/

theorem BeginsExpr.ate {x : Loc} {us : List (Token × Loc)} (h : BeginsExpr x us) :
    ∃ src k vs kv m e l', (Lexer.new src).currLoc = x ∧ Ate (Lexer.new src) us k ∧
      parseExpr src = .ok e l' ∧ Ate (Lexer.new src) vs kv ∧ P.peek kv = .ok .eof m ∧
      Takes (Lexer.new src) vs l' := by
  obtain ⟨src, xs, ts, w, e, h0, h1, h2, h3, hw⟩ := h
  have hl : xs.length = us.length := by rw [← h2]; simp [ends]
  have hcol : (Lexer.new src).col = x.col := by rw [← h0, ← new_loc]; rfl
  refine ⟨src, ?_⟩
  obtain ⟨l', h4, h5⟩ : ∃ l', parseExpr src = .ok e l' ∧ Stream l' [] := by
    rcases hw.run.expression (rest := []) (by simpa using h3.strm.1) hcol trivial
      (Parser.fuelFor src) with h | ⟨l', h, h'⟩
    · exact absurd h (C37_terminates src).2.1
    · exact ⟨l', h, h'⟩
  obtain ⟨vs, kv, t, g1, g2, _, _⟩ := parseExpr_ok_ate h4
  obtain ⟨m, g3⟩ := h5
  rw [peek_again g2] at g3
  cases g3
  obtain ⟨ys, h6, h7⟩ := g1.items (curr_new' src)
  have hnone : ∀ n, Lexer.items n kv = .ok [] := by
    intro n
    cases n with
    | zero => rfl
    | succ n =>
      have := next_of_eof (peek_lex (g1.curr (curr_new' src)) g2)
      unfold Lexer.items
      rw [this]
  have h8 := h7 us.length [] (hnone _)
  rw [List.append_nil] at h8
  have hpre := (items_prefix h1 h8 (by omega)).1
  have hne : ∀ x ∈ xs, ∀ e, x.1 ≠ .error e := by
    intro x hx e
    have hy : (x.1, x.2.hi) ∈ vs := by
      rw [← h6]; exact List.mem_map.2 ⟨x, hpre.subset hx, rfl⟩
    exact g1.noError _ hy e
  obtain ⟨k', hk'⟩ := items_ate (curr_new' src) h1 hl hne
  rw [h2] at hk'
  exact ⟨k', vs, kv, _, e, _, by rw [new_loc, h0], hk', h4, g1, g2, .peek g1.takes g2⟩

/-- Where a source begins like an expression, parsing does not stop earlier. -/
theorem not_before {src : Text} {us vs : List (Token × Loc)} {k : Lexer}
    (hk : Ate (Lexer.new src) us k) (hb : BeginsExpr (Lexer.new src).currLoc us)
    (hs : SameFor src vs) {l' : Lexer}
    (hr : (∃ e, parseExpr src = .ok e l') ∨ ∃ e, parseExpr src = .err e l')
    (hlt : vs.length < us.length) : False := by
  obtain ⟨src', k', ws, kw, m, e', l₂, h0, h1, h2, h3, h4, h5⟩ := hb.ate
  have ha := (agree_ate' h0.symm hk h1).mono (j := vs.length + 1) hlt
  obtain ⟨ho, he⟩ := hs src' ha
  rcases hr with ⟨e, hr⟩ | ⟨e, hr⟩
  · obtain ⟨l'', g1, g2⟩ := ho e l' hr
    rw [h2] at g1; cases g1
    have := g2.length h5
    obtain ⟨xs, h6, _⟩ := h3.longest h1 (by intro t m' h; rw [h4] at h; cases h; exact .inl rfl)
    rw [h6, List.length_append] at this
    omega
  · obtain ⟨l'', g1, g2⟩ := he e l' hr
    rw [h2] at g1; cases g1

theorem parseExpr_panic_of_begins {src : Text} {us : List (Token × Loc)} {k : Lexer} {p : Panic}
    (hk : Ate (Lexer.new src) us k) (hp : P.peek k = .panic p)
    (hb : BeginsExpr (Lexer.new src).currLoc us) : parseExpr src = .panic p := by
  have hstop : ∀ t m, P.peek k = .ok t m → t = .eof ∨ ∃ e, t = .error e := by
    intro t m h; rw [hp] at h; cases h
  have later : ∀ {vs kv t l2}, Ate (Lexer.new src) vs kv → P.peek kv = .ok t l2 →
      vs.length < us.length := by
    intro vs kv t l2 h3 h4
    obtain ⟨xs, h5, h6⟩ := hk.longest h3 hstop
    have hne : xs ≠ [] := by
      rintro rfl
      obtain ⟨_, rfl⟩ := h6.unique .nil rfl
      rw [hp] at h4; cases h4
    have := List.length_pos_iff.2 hne
    rw [h5, List.length_append]; omega
  cases hr : parseExpr src with
  | fuel => exact absurd hr (C37_terminates src).2.1
  | ok e l2 =>
    exfalso
    obtain ⟨vs, kv, t, h3, h4, _, hs⟩ := parseExpr_ok_ate hr
    exact not_before hk hb hs (.inl ⟨e, hr⟩) (later h3 h4)
  | err e l2 =>
    exfalso
    obtain ⟨vs, kv, h3, h4, _, hs⟩ := parseExpr_err_ate hr
    exact not_before hk hb hs (.inr ⟨e, hr⟩) (later h3 h4)
  | panic q =>
    obtain ⟨vs, kv, h3, h4⟩ := parseExpr_panic_same hr
    obtain ⟨xs, h5, h6⟩ := hk.longest h3 hstop
    rcases h4 with h4 | h4
    · cases xs with
      | nil =>
        obtain ⟨_, rfl⟩ := h6.unique .nil rfl
        rw [hp] at h4; cases h4; rfl
      | cons x xs =>
        obtain ⟨_, _, m', h7⟩ := h6.head rfl
        rw [h4] at h7; cases h7
    · exfalso
      subst h5
      obtain ⟨src', k', _, _, _, e', l₂, h0, h1, h2, _⟩ := hb.ate
      obtain ⟨kx, hkx⟩ := h1.cut
      have := h4 src' kx h0.symm hkx
      rw [h2] at this; cases this

theorem parseExpr_todo_of_begins {src : Text} {us : List (Token × Loc)} {k : Lexer} {a : Assoc}
    {n : Nat} {x y : Loc} (hk : Ate (Lexer.new src) (us ++ [(a.kwTok, x), (.lit (.int n), y)]) k)
    (hn : 9 < n) (hb : BeginsExpr (Lexer.new src).currLoc (us ++ [(a.kwTok, x)])) :
    parseExpr src = .panic .precTodo := by
  have hno : ∀ q : List Token, ¬ NoTodo ((us ++ [(a.kwTok, x), (.lit (.int n), y)]).map (·.1) ++ q) := by
    intro q h
    have := h (us.map (·.1)) q a n (by simp)
    omega
  -- the state before the precedence
  have hk' : ∃ k₁, Ate (Lexer.new src) (us ++ [(a.kwTok, x)]) k₁ ∧ Ate k₁ [(.lit (.int n), y)] k := by
    generalize hw : us ++ [(a.kwTok, x), (.lit (.int n), y)] = ws at hk
    cases hk with
    | nil => simp at hw
    | @snoc ws m t m' hm hp ht he =>
      have : us ++ [(a.kwTok, x)] ++ [(.lit (.int n), y)] = ws ++ [(t, m'.currLoc)] := by
        rw [← hw]; simp
      obtain ⟨rfl, h⟩ := List.append_inj' this rfl
      rw [h]
      exact ⟨m, hm, .snoc .nil hp ht he⟩
  obtain ⟨k₁, hk₁, hk₂⟩ := hk'
  obtain ⟨_, _, m₁, hm₁⟩ := hk₂.head rfl
  have hcmp : ∀ {vs kv t l2}, Ate (Lexer.new src) vs kv → P.peek kv = .ok t l2 →
      NoTodo (vs.map (·.1) ++ [t]) → vs.length < (us ++ [(a.kwTok, x)]).length := by
    intro vs kv t l2 h3 h4 h5
    rcases h3.compare hk₁ with ⟨xs, rfl, h6⟩ | ⟨z, zs, h6, _⟩
    · exfalso
      cases xs with
      | nil =>
        obtain ⟨_, rfl⟩ := h6.unique .nil rfl
        rw [hm₁] at h4
        injection h4 with h4 _
        rw [← h4] at h5
        refine hno [] ?_
        simpa using h5
      | cons z zs =>
        obtain ⟨_, _, m₂, h7⟩ := h6.head rfl
        rw [hm₁] at h7
        injection h7 with h7 _
        refine hno (zs.map (·.1) ++ [t]) ?_
        simp only [List.map_append, List.map_cons, List.map_nil, List.append_assoc, List.cons_append,
          List.nil_append, ← h7] at h5 ⊢
        exact h5
    · rw [h6]; simp
  cases hr : parseExpr src with
  | fuel => exact absurd hr (C37_terminates src).2.1
  | ok e l2 =>
    exfalso
    obtain ⟨vs, kv, t, h3, h4, h5, hs⟩ := parseExpr_ok_ate hr
    exact not_before hk₁ hb hs (.inl ⟨e, hr⟩) (hcmp h3 h4 (h5 _ (.one _)))
  | err e l2 =>
    exfalso
    obtain ⟨vs, kv, h3, h4, h5, hs⟩ := parseExpr_err_ate hr
    exact not_before hk₁ hb hs (.inr ⟨e, hr⟩) (hcmp h3 h4 h5)
  | panic q =>
    obtain ⟨vs, kv, h3, h4⟩ := parseExpr_panic_ate hr
    rcases h4 with ⟨h4, h5⟩ | ⟨h4, _⟩
    · exfalso
      obtain ⟨xs, rfl, _⟩ := h3.longest hk (by intro t m' h; rw [h4] at h; cases h)
      rw [List.map_append] at h5
      exact hno _ h5
    · rw [h4]

/-! ### the beginning of a source -/

theorem all_ws_lex {a : Text} (h : ∀ c ∈ a, isWhitespace c = true) : TLex.lex a = .ok (.eof, []) := by
  have : a.dropWhile isWhitespace = [] := by
    induction a with
    | nil => rfl
    | cons c a ih =>
      rw [List.dropWhile_cons_of_pos (h c (by simp))]
      exact ih fun d hd => h d (by simp [hd])
  rw [← TLex.lex_dropWhile, this, TLex.lex_nil]

theorem takeWhile_of_not_all {a r : Text} (h : ¬ ∀ c ∈ a, isWhitespace c = true) :
    (a ++ r).takeWhile isWhitespace = a.takeWhile isWhitespace := by
  induction a with
  | nil => exact absurd (by simp) h
  | cons c a ih =>
    by_cases hc : isWhitespace c = true
    · simp only [List.cons_append, List.takeWhile_cons, hc, if_true]
      rw [ih fun h' => h (by simpa [hc] using h')]
    · simp [hc]

/-- A text with a token starts where any continuation of it starts. -/
theorem startLoc_append {a z : Text} {us : List (Token × Loc)} (h : TokRun a a us []) (hus : us ≠ [])
    : startLoc (a ++ z) = startLoc a := by
  unfold startLoc
  rw [takeWhile_of_not_all]
  intro hall
  cases h with
  | nil => exact hus rfl
  | cons h1 h2 _ _ =>
    rw [all_ws_lex hall] at h1
    cases h1
    exact h2.1 rfl

theorem beginsExpr_nil {src : Text} (hc : NoLFCR src) : BeginsExpr (startLoc src) [] := by
  have hall : ∀ c ∈ src.takeWhile isWhitespace, isWhitespace c = true := fun c hc => by
    simpa using List.all_eq_true.1 List.all_takeWhile c hc
  have hv : ∀ v ∈ [Token.lower t!"x"], v ∈ fillers := by decide
  have hca : NoLFCR (src.takeWhile isWhitespace ++ fillerTexts [.lower t!"x"]) :=
    (hc.infix ⟨[], src.dropWhile isWhitespace, by simp⟩).append (fillerTexts_noCR hv)
  have htok : Tokenizes (src.takeWhile isWhitespace ++ fillerTexts [.lower t!"x"]) [.lower t!"x"] := by
    generalize src.takeWhile isWhitespace = w at hall
    induction w with
    | nil => exact fillerTexts_tokenizes hv
    | cons c w ih => exact .space (hall c (by simp)) (ih fun d hd => hall d (by simp [hd]))
  obtain ⟨cs, hcs, hpl⟩ := htok.placed []
  obtain ⟨⟨t, k⟩, ds, rfl, hx, hd⟩ := List.map_eq_cons_iff.1 hcs
  cases hx
  obtain rfl := List.map_eq_nil_iff.1 hd
  obtain ⟨e, m, hw⟩ := ArgDone.expr (us := [(.lower t!"x", k)]) ⟨_, fun c => .lower c k _⟩
    (startLoc src).col
  refine ⟨_, [], _, m, e, ?_, rfl, rfl, hpl.lexes hca, hw⟩
  unfold startLoc
  congr 2
  generalize src.takeWhile isWhitespace = w at hall
  induction w with
  | nil =>
    rw [List.nil_append]
    exact List.takeWhile_cons_of_neg (by decide)
  | cons c w ih =>
    rw [List.cons_append, List.takeWhile_cons_of_pos (hall c (by simp)),
      ih fun d hd => hall d (by simp [hd])]

/-- If the parser does not stop before the tokens `us`, they are an expression or can be continued to
one. `a` is the source cut off after them. -/
theorem live_expr {src a : Text} {us : List (Token × Loc)} {k ka : Lexer}
    (hk : Ate (Lexer.new src) us k) (ht : NoTodo (us.map (·.1)))
    (hlexes : Lexes a (us.map fun u => (u.1, u.2.col))) (hka : Ate (Lexer.new a) us ka)
    (hsa : startLoc src = startLoc a)
    (hlive : ∀ vs l', Takes (Lexer.new src) vs l' → vs.length < us.length →
      (∀ e, parseExpr src ≠ .ok e l') ∧ ∀ e, parseExpr src ≠ .err e l') :
    (∃ e m, Written .chain (startLoc src).col m e (us.map fun u => (u.1, u.2.col))) ∨
      Compl (fun ts => ∃ e m, Written .chain (startLoc src).col m e ts)
        (us.map fun u => (u.1, u.2.col)) := by
  have hstrm := hlexes.strm
  have heof : ∃ m, P.peek ka = .ok .eof m := by
    obtain ⟨cs', h1, h2⟩ := Stream.ate hka hstrm.1
    have : cs' = [] := by
      rw [List.length_map] at h2
      exact List.eq_nil_of_length_eq_zero (by omega)
    subst this
    obtain ⟨m, h3, _⟩ := h1.peek
    exact ⟨m, h3⟩
  obtain ⟨me, heof⟩ := heof
  have hlong : ∀ {vs kv}, Ate (Lexer.new a) vs kv → ∃ xs, us = vs ++ xs ∧ Ate kv xs ka :=
    fun hv => hka.longest hv (by intro t m' h; rw [heof] at h; cases h; exact .inl rfl)
  have hloc : (Lexer.new a).currLoc = (Lexer.new src).currLoc := by rw [new_loc, new_loc, hsa]
  -- it does not stop before the end
  have hend : ∀ {vs kv t l2}, Ate (Lexer.new a) vs kv → P.peek kv = .ok t l2 → SameFor a vs →
      ((∃ e, parseExpr a = .ok e l2) ∨ ∃ e, parseExpr a = .err e l2) → kv = ka := by
    intro vs kv t l2 h1 h2 hs hr
    obtain ⟨xs, rfl, h3⟩ := hlong h1
    cases xs with
    | nil => exact (h3.unique .nil rfl).2.symm
    | cons x xs =>
      exfalso
      obtain ⟨g1, g2⟩ := hs src ((agree_ate' hloc hka hk).mono (by simp))
      rcases hr with ⟨e, hr⟩ | ⟨e, hr⟩
      · obtain ⟨l'', g3, g4⟩ := g1 e l2 hr
        exact (hlive vs l'' g4 (by simp)).1 e g3
      · obtain ⟨l'', g3, g4⟩ := g2 e l2 hr
        exact (hlive vs l'' g4 (by simp)).2 e g3
  have hcol : (Lexer.new a).col = (startLoc src).col := by
    rw [hsa, ← new_loc]; rfl
  cases hr' : parseExpr a with
  | ok e l2 =>
    obtain ⟨vs, kv, t, h1, h2, _, h3⟩ := parseExpr_ok_ate hr'
    obtain rfl := hend h1 h2 h3 (.inl ⟨e, hr'⟩)
    have hsees := (exactSpec (Parser.fuelFor a)).expression _ _ hstrm
    rw [show expression (Parser.fuelFor a) (Lexer.new a) = .ok e l2 from hr'] at hsees
    obtain ⟨us', rest, g1, g2, m, g3, _⟩ := hsees
    have hrest : rest = [] := by
      obtain ⟨l3, g4, _⟩ := g2.1.peek
      rw [peek_again h2] at g4
      injection g4 with g4 _
      rw [heof] at h2
      injection h2 with h2 _
      cases rest with
      | nil => rfl
      | cons x rest => exact absurd (h2.trans g4).symm g2.1.1
    rw [hrest, List.append_nil] at g1
    rw [hcol, ← g1] at g3
    exact .inl ⟨e, m, g3⟩
  | fuel => exact absurd hr' (C37_terminates a).2.1
  | panic q =>
    exfalso
    obtain ⟨vs, kv, h1, h2⟩ := parseExpr_panic_ate hr'
    obtain ⟨xs, rfl, h3⟩ := hlong h1
    rcases h2 with ⟨h2, _⟩ | ⟨_, ws, b, n, h4, h5, _⟩
    · cases xs with
      | nil =>
        obtain ⟨_, rfl⟩ := h3.unique .nil rfl
        rw [heof] at h2; cases h2
      | cons x xs =>
        obtain ⟨_, _, m, h4⟩ := h3.head rfl
        rw [h2] at h4; cases h4
    · have := ht ws (xs.map (·.1)) b n (by rw [List.map_append, h4]; simp)
      omega
  | err e l2 =>
    obtain ⟨vs, kv, h1, h2, _, h3⟩ := parseExpr_err_ate hr'
    obtain rfl := hend h1 h2 h3 (.inr ⟨e, hr'⟩)
    have hfe : e.found = .eof := by
      rw [heof] at h2
      injection h2 with h2 _
      exact h2.symm
    -- it ends too early, and can be continued
    have hdies := (exprDies (Parser.fuelFor a)).expression _ _ hstrm
    rw [show expression (Parser.fuelFor a) (Lexer.new a) = _ from hr'] at hdies
    have := hdies hfe
    rw [hcol] at this
    exact .inr this

theorem beginsExpr_of_live {src : Text} (hc : NoLFCR src) {us : List (Token × Loc)} {k : Lexer}
    (hk : Ate (Lexer.new src) us k) (ht : NoTodo (us.map (·.1)))
    (hne : k.chars = [] → NoCodeEnd src)
    (hlive : ∀ vs l', Takes (Lexer.new src) vs l' → vs.length < us.length →
      (∀ e, parseExpr src ≠ .ok e l') ∧ ∀ e, parseExpr src ≠ .err e l') :
    BeginsExpr (startLoc src) us := by
  by_cases hus : us = []
  · subst hus
    exact beginsExpr_nil hc
  obtain ⟨r, h5, h6, h7, h8, h9⟩ := hk.run hc
  obtain ⟨a, ha, h10, h11, h12⟩ := h5.change (pre := []) rfl
  simp only [List.nil_append] at h12
  have hca : NoLFCR a := hc.infix ⟨[], r, by rw [ha]; simp⟩
  have hrun : TokRun a a us [] := by
    have := h12 [] (by intro x _ c hc; cases hc) (by intro h; exact absurd rfl h)
    simpa using this
  have hsl : ∀ z, startLoc (a ++ z) = startLoc a := fun z => startLoc_append hrun hus
  have hsa : startLoc src = startLoc a := by rw [ha, hsl]
  obtain ⟨ys, hy, hy'⟩ := hrun.new hca
  have hlexes : Lexes a (us.map fun u => (u.1, u.2.col)) := by
    have hh := hrun.hasC (cs := []) (.nil TLex.lex_nil)
    rw [List.append_nil] at hh
    have := TLex.HasC.placed (pre := []) (by simpa using hh)
    exact this.lexes hca
  -- the tokens of the text `a`
  obtain ⟨ka, hka⟩ : ∃ ka, Ate (Lexer.new a) us ka := by
    have hl : ys.length = us.length := by rw [← hy']; simp [ends]
    rw [← hy']
    refine items_ate (curr_new' a) hy hl fun y hy e => ?_
    have : (y.1, y.2.hi) ∈ us := by rw [← hy']; exact List.mem_map.2 ⟨y, hy, rfl⟩
    exact hk.noError _ this e
  have hlong := live_expr hk ht hlexes hka hsa hlive
  rcases hlong with ⟨e, m, g3⟩ | ⟨vs, hv, hd⟩
  · exact ⟨a, ys, _, m, e, hsa.symm, hy, hy', hlexes, g3⟩
  -- it ends too early, and can be continued
  obtain ⟨sep, hsep, hsepT, hcr⟩ := separator us
  have hx := h12 (sep ++ fillerTexts vs) (fun x hx => hsep x hx _) (fun _ hz => hne (by
    rw [← h9 hus, hz]))
  obtain ⟨cs', hcs, hpl⟩ := (hsepT _ _ (fillerTexts_tokenizes hv)).placed a
  have hP := TLex.HasC.placed (pre := []) (by simpa using hx.hasC hpl.hasC)
  obtain ⟨e', m, hds⟩ := hd cs' hcs
  have hcl : NoLFCR (a ++ (sep ++ fillerTexts vs)) := by
    refine hca.append ?_
    simp only [List.mem_append, not_or]
    exact ⟨hcr, fillerTexts_noCR hv⟩
  obtain ⟨zs, hz1, hz2⟩ := hx.new hcl
  exact ⟨_, zs, _, m, e', by rw [hsl, hsa], hz1, hz2, hP.lexes hcl, hds⟩

theorem Stream.unique {ts : List CTok} (hx : ∀ x ∈ ts, ∀ er, x.1 ≠ .error er) :
    ∀ {l : Lexer} {ts' : List CTok}, Stream l ts → Stream l ts' → ts = ts' := by
  induction ts with
  | nil =>
    intro l ts' h h'
    cases ts' with
    | nil => rfl
    | cons y ts' =>
      obtain ⟨l1, h1⟩ := h
      obtain ⟨h2, l2, h3, _⟩ := h'
      rw [h1] at h3
      injection h3 with h3 _
      exact absurd h3.symm h2
  | cons x ts ih =>
    intro l ts' h h'
    obtain ⟨g2, l2, g3, _, g5, g6⟩ := h
    cases ts' with
    | nil =>
      obtain ⟨l1, h1⟩ := h'
      rw [h1] at g3
      injection g3 with g3 _
      exact absurd g3.symm g2
    | cons y ts' =>
      obtain ⟨_, l3, k3, _, k5, k6⟩ := h'
      rw [g3] at k3
      injection k3 with k3 k4
      subst k4
      have he := hx x (by simp)
      rw [ih (fun z hz => hx z (by simp [hz])) (g6 he) (k6 fun er h => he er (k3.trans h)), show x = y from Prod.ext k3 (g5.symm.trans k5)]

/-- How many tokens were eaten. -/
theorem Takes.stream_length {l l' : Lexer} {us : List (Token × Loc)} {cs rest : List CTok}
    (h : Takes l us l') (hs : Stream l cs) (hr : Stream l' rest)
    (hx : ∀ x ∈ rest, ∀ er, x.1 ≠ .error er) : cs.length = us.length + rest.length := by
  obtain ⟨k, h1, h2⟩ := h.ate
  obtain ⟨cs', h3, h4⟩ := Stream.ate h1 hs
  have : cs' = rest := by
    rcases h2 with rfl | ⟨t, h2⟩
    · exact (hr.unique hx h3).symm
    · obtain ⟨l2, h5, h6, _⟩ := h3.peek
      rw [h2] at h5
      injection h5 with _ h5
      subst h5
      exact (hr.unique hx h6).symm
  rw [h4, this]

end Pemdas
