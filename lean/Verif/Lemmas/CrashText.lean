import Verif.Lemmas.Crash
import Verif.Props.LexerStop
/-
Where a source that makes the parser panic stops being the beginning of a program.
-/
namespace Pemdas
open Lexer Parser
set_option linter.unusedSectionVars false
variable [CharTables] [LawfulTables]

/-! ### tokens consumed and tokens listed -/

theorem Ate.head {k k' : Lexer} {xs : List (Token × Loc)} (h : Ate k xs k') :
    ∀ {x ys}, xs = x :: ys → x.1 ≠ .eof ∧ (∀ e, x.1 ≠ .error e) ∧ ∃ m, P.peek k = .ok x.1 m := by
  induction h with
  | nil => intro x ys h; cases h
  | @snoc us m t m' hm hp ht he ih =>
    intro x ys hx
    cases us with
    | nil =>
      obtain ⟨_, rfl⟩ := hm.unique .nil rfl
      cases hx
      exact ⟨ht, he, _, hp⟩
    | cons u us =>
      cases hx
      exact ih rfl

/-- Either the first run continues the second, or the other way round. -/
theorem Ate.compare {l k k' : Lexer} {us vs : List (Token × Loc)} (h : Ate l us k)
    (h' : Ate l vs k') : (∃ xs, us = vs ++ xs ∧ Ate k' xs k) ∨
      (∃ x xs, vs = us ++ x :: xs ∧ Ate k (x :: xs) k') := by
  rcases Nat.lt_trichotomy us.length vs.length with hl | hl | hl
  · obtain ⟨xs, h1, h2, h3⟩ := h'.more h hl
    cases xs with
    | nil => exact absurd rfl h1
    | cons x xs => exact .inr ⟨x, xs, h2, h3⟩
  · obtain ⟨rfl, rfl⟩ := h.unique h' hl
    exact .inl ⟨[], by simp, .nil⟩
  · obtain ⟨xs, _, h2, h3⟩ := h.more h' hl
    exact .inl ⟨xs, h2, h3⟩

/-- A run that has come to the end, or to a panic, or to an error, is the longest. -/
theorem Ate.longest {l k k' : Lexer} {us vs : List (Token × Loc)} (h : Ate l us k)
    (h' : Ate l vs k') (hk : ∀ t m, P.peek k = .ok t m → t = .eof ∨ ∃ e, t = .error e) :
    ∃ xs, us = vs ++ xs ∧ Ate k' xs k := by
  rcases h.compare h' with h1 | ⟨x, xs, _, h2⟩
  · exact h1
  · obtain ⟨h3, h4, m, h5⟩ := h2.head rfl
    rcases hk _ _ h5 with h6 | ⟨e, h6⟩
    · exact absurd h6 h3
    · exact absurd h6 (h4 e)

theorem Ate.trans {l k k' : Lexer} {us vs : List (Token × Loc)} (h : Ate l us k) (h' : Ate k vs k') :
    Ate l (us ++ vs) k' := by
  induction h' with
  | nil => simpa using h
  | snoc _ hp ht he ih => rw [← List.append_assoc]; exact .snoc ih hp ht he

theorem items_ate {n : Nat} : ∀ {l : Lexer} {xs : List (Token × LocSpan)}, l.curr = none →
    Lexer.items n l = .ok xs → xs.length = n → (∀ x ∈ xs, ∀ e, x.1 ≠ .error e) →
    ∃ k, Ate l (ends xs) k := by
  induction n with
  | zero =>
    intro l xs _ _ hn _
    rw [List.eq_nil_of_length_eq_zero hn]
    exact ⟨l, .nil⟩
  | succ n ih =>
    intro l xs hc h hn he
    cases xs with
    | nil => simp at hn
    | cons x xs =>
      obtain ⟨m, h1, h2, h3, h4, h5⟩ := items_peek hc h
      obtain ⟨k, hk⟩ := ih (l := { m with curr := none }) rfl h5 (by simpa using hn)
        fun y hy => he y (by simp [hy])
      refine ⟨k, ?_⟩
      have := (Ate.snoc .nil h1 h4 (he x (by simp))).trans hk
      rw [h3] at this
      exact this

theorem peek_panic_iff {l : Lexer} {p : Panic} (hc : l.curr = none) :
    P.peek l = .panic p ↔ l.lex = .error p := by
  unfold P.peek Lexer.peek
  rw [hc]
  simp only
  constructor
  · intro h
    split at h
    · rename_i hx
      split at hx
      · cases hx; cases h; assumption
      · cases hx
      · cases hx
    · cases h
    · cases h
  · intro h
    rw [h]

theorem lex_of_nil {l : Lexer} (hc : l.chars = []) : ∃ l', l.lex = .ok (.eof, l') := by
  unfold lex
  rw [hc]
  unfold lexN
  have : l.eatWhitespace.chars = [] := by
    have := (reach_eatWhitespace l).length_le
    rw [hc] at this
    exact List.length_eq_zero_iff.1 (Nat.le_zero.1 this)
  rw [this]
  exact ⟨_, rfl⟩

theorem items_one_error {l : Lexer} {p : Panic} : l.lex = .error p ↔ Lexer.items 1 l = .error p := by
  unfold Lexer.items Lexer.next
  cases hx : l.lex with
  | error q => simp
  | ok y =>
    obtain ⟨t, l'⟩ := y
    cases t <;> simp [Lexer.items]

/-- After the tokens consumed, listing fails exactly where peeking panics. -/
theorem Ate.items_error {l k : Lexer} {us : List (Token × Loc)} (h : Ate l us k) (hc : l.curr = none)
    (n : Nat) (p : Panic) : Lexer.items (us.length + n) l = .error p ↔ Lexer.items n k = .error p := by
  induction h generalizing n with
  | nil => simp
  | @snoc us m t m' hm hp ht he ih =>
    have hn := next_of_lex (peek_lex (hm.curr hc) hp) ht
    rw [show (us ++ [(t, m'.currLoc)]).length + n = us.length + (n + 1) by simp; omega, ih]
    conv => lhs; unfold Lexer.items
    rw [hn]
    simp only
    split
    · rename_i hx; rw [hx]
    · rename_i hx; rw [hx]; simp

/-- What may separate the tokens from what follows. -/
theorem separator (us : List (Token × Loc)) :
    ∃ sep : Text, (∀ x ∈ us.getLast?, ∀ s, MayFollow x.1 (sep ++ s)) ∧
      (∀ s ts, Tokenizes s ts → Tokenizes (sep ++ s) ts) ∧ '\r' ∉ sep := by
  cases hx : us.getLast? with
  | none => exact ⟨[], by simp, fun _ _ h => h, by simp⟩
  | some x =>
    by_cases hp : ∃ y, x.1 = .affix y true
    · refine ⟨t!"~~\n", ?_, fun s ts h => ?_, by decide⟩
      · rintro x' hx' s c hc
        cases hx'; cases hc
        exact ⟨fun h => absurd hp (by rintro ⟨y, hy⟩; exact h y hy), fun _ _ => rfl⟩
      · refine .line (b := []) (s := '\n' :: s) (by simp) ?_ (by intro c hc; cases hc; rfl)
          (.space (by decide) h)
        exact TLex.Maximal.of_head (by intro c hc; cases hc; decide)
    · refine ⟨t!" ", ?_, fun s ts h => .space (by decide) h, by decide⟩
      rintro x' hx' s c hc
      cases hx'; cases hc
      exact ⟨fun _ => by decide, fun y hy => absurd ⟨y, hy⟩ hp⟩

/-! ### outcomes -/

theorem parse_firm (src : Text) : FirmRes (Lexer.new src) (parse src) :=
  (firm_iff.1 (Parser.parseInto_firm _ (o := none) _)) _ (by simp [Sure])

theorem parse_ok_ate {src : Text} {ast : Ast} {l' : Lexer} (h : parse src = .ok ast l') :
    ∃ us k m, Ate (Lexer.new src) us k ∧ P.peek k = .ok .eof m ∧ NoTodo (us.map (·.1)) := by
  have hf := parse_firm src
  have hr := parse_run src
  rw [h] at hf hr
  obtain ⟨us, h1, h2⟩ := hf
  obtain ⟨_, _, _, h3⟩ := hr
  obtain ⟨k, h4, h5⟩ := h1.ate
  rcases h5 with rfl | ⟨t, h5⟩
  · exact ⟨us, k, k, h4, h3, h2.noTodo⟩
  · rw [peek_again h5] at h3
    cases h3
    exact ⟨us, k, _, h4, h5, h2.noTodo⟩

theorem parse_err_ate {src : Text} {e : ParseError} {l' : Lexer} (h : parse src = .err e l') :
    ∃ us k, Ate (Lexer.new src) us k ∧ P.peek k = .ok e.found l' ∧
      NoTodo (us.map (·.1) ++ [e.found]) ∧
      ∃ t m, P.peek (Lexer.new src) = .ok t m ∧
      ∀ src' t' m₂, P.peek (Lexer.new src') = .ok t' m₂ → Agree (us.length + 1) m m₂ →
        ∃ l'', parse src' = .err e l'' := by
  have hf := parse_firm src
  rw [h] at hf
  obtain ⟨vs, h1, h2⟩ := hf
  obtain ⟨t, m, us, k, h3, h4, h5, h6, _, _, h7⟩ := parse_err h
  have hl : Takes (Lexer.new src) us l' := .peek h5.takes h6
  obtain ⟨k', h8, _⟩ := h1.ate
  obtain ⟨rfl, rfl⟩ := h8.unique h5 (h1.length hl)
  exact ⟨vs, k', h5, h6, h2, t, m, h3, h7⟩

/-- Why a source makes the parser panic. -/
theorem parse_panic_ate {src : Text} {p : Panic} (h : parse src = .panic p) :
    ∃ us k, Ate (Lexer.new src) us k ∧ ((P.peek k = .panic p ∧ NoTodo (us.map (·.1))) ∨
      (p = .precTodo ∧ ∃ vs a n, us.map (·.1) = vs ++ [Assoc.kwTok a, .lit (.int n)] ∧ 9 < n ∧
        NoTodo (vs ++ [Assoc.kwTok a]))) := by
  have hf := parse_firm src
  rw [h] at hf
  obtain ⟨us, l', h1, h2⟩ := hf
  obtain ⟨k, h4, h5⟩ := h1.ate
  refine ⟨us, k, h4, h2.imp (fun h2 => ⟨?_, h2.2⟩) id⟩
  rcases h5 with rfl | ⟨t, h5⟩
  · exact h2.1
  · have := h2.1
    rw [peek_again h5] at this; cases this

/-- Two sources that begin with the same tokens. -/
theorem agree_ate {src src' : Text} {us : List (Token × Loc)} {k k' : Lexer} (hus : us ≠ [])
    (h : Ate (Lexer.new src) us k) (h' : Ate (Lexer.new src') us k') :
    ∃ t m m₂, P.peek (Lexer.new src) = .ok t m ∧ P.peek (Lexer.new src') = .ok t m₂ ∧
      Agree us.length m m₂ := by
  obtain ⟨n, hn⟩ : ∃ n, us.length = n + 1 := ⟨us.length - 1, by
    have := List.length_pos_iff.2 hus; omega⟩
  obtain ⟨xs, hx1, hx2⟩ := h.items (curr_new' src)
  obtain ⟨ys, hy1, hy2⟩ := h'.items (curr_new' src')
  have hx := hx2 0 [] rfl
  have hy := hy2 0 [] rfl
  simp only [Nat.add_zero, List.append_nil] at hx hy
  rw [hn] at hx hy
  have hxl : xs.length = n + 1 := by rw [← hn, ← hx1, List.length_map]
  obtain ⟨t, m, m₂, a, b, _, c⟩ := agree_peeked (curr_new' src) (curr_new' src') hx hy
    (show ends xs = ends ys from hx1.trans hy1.symm) hxl
  rw [← hn] at c
  exact ⟨t, m, m₂, a, b, c⟩

/-- A source that is rejected before the end of some tokens is rejected whatever follows them. -/
theorem err_of_ate {src src' : Text} {us vs : List (Token × Loc)} {k k' kv : Lexer}
    {e : ParseError} {l' : Lexer} (h : parse src = .err e l')
    (hus : Ate (Lexer.new src) us k) (hus' : Ate (Lexer.new src') us k')
    (hv : Ate (Lexer.new src) vs kv) (hf : P.peek kv = .ok e.found l') (hl : vs.length < us.length) :
    ∃ l'', parse src' = .err e l'' := by
  obtain ⟨ws, k₂, h1, h2, _, t, m, h3, h4⟩ := parse_err_ate h
  have : vs.length = ws.length :=
    (Takes.peek hv.takes hf).length (.peek h1.takes h2)
  obtain ⟨t', m', m₂, h5, h6, h7⟩ := agree_ate (by rintro rfl; simp at hl) hus hus'
  rw [h3] at h5; cases h5
  exact h4 src' _ m₂ h6 (h7.mono (by omega))

/-- A panic that is not the lexer's is due to the tokens consumed. -/
theorem panic_of_ate {src : Text} {p : Panic} (h : parse src = .panic p) :
    ∃ us k, Ate (Lexer.new src) us k ∧ (P.peek k = .panic p ∨
      ∀ src' k', Ate (Lexer.new src') us k' → parse src' = .panic p) := by
  obtain ⟨n, hn⟩ := fuelFor_succ src
  cases hp : P.peek (Lexer.new src) with
  | err e m => exact absurd hp (peek_ne_err _ _ _)
  | panic q =>
    have h' := h
    unfold parse at h'
    rw [hn] at h'
    unfold Parser.parseInto P.isDone at h'
    simp only [Bind.bind, P.bind, hp] at h'
    cases h'
    exact ⟨[], _, .nil, .inl hp⟩
  | fuel =>
    unfold P.peek at hp
    split at hp <;> cases hp
  | ok t m =>
    have h' := h
    unfold parse at h'
    rw [hn, parseInto_peeked n _ hp] at h'
    have hl := Parser.parseInto_local (n + 1) (o := none) Ast.empty m (by simp [Knows])
    rw [h'] at hl
    obtain ⟨us, l3, h1, h2⟩ := hl
    obtain ⟨k, h3, h4⟩ := (Takes.trans (.peek .refl hp) h1).ate
    rw [List.nil_append] at h3
    refine ⟨us, k, h3, ?_⟩
    rcases h2 with h2 | ⟨hne, h2⟩
    · rcases h4 with rfl | ⟨t', h4⟩
      · exact .inl h2
      · rw [peek_again h4] at h2; cases h2
    · refine .inr fun src' k' hk' => ?_
      obtain ⟨t', m', m₂, h5, h6, h7⟩ := agree_ate hne h3 hk'
      rw [hp] at h5; cases h5
      have h8 := h2 m₂ _ h7 (Nat.le_refl _)
      rw [← parseInto_peeked n _ h6, ← hn] at h8
      have hb := same_of_below (m := fun n => Parser.parseInto n Ast.empty)
        (fun k => Parser.parseInto_below k _) (n := Parser.fuelFor src)
        (k := Parser.fuelFor src + (16 * src'.length + 16)) (l := Lexer.new src')
        (by rw [h8]; simp) (by omega)
      rw [((C37_terminates src').2.2 _ (by omega)).1, h8] at hb
      exact hb

theorem Ate.cut {l k : Lexer} {vs xs : List (Token × Loc)} (h : Ate l (vs ++ xs) k) :
    ∃ kx, Ate l vs kx := by
  generalize hu : vs ++ xs = us at h
  induction h generalizing xs with
  | nil =>
    obtain ⟨rfl, _⟩ := List.append_eq_nil_iff.1 hu
    exact ⟨_, .nil⟩
  | @snoc us m t m' hm hp ht he ih =>
    rcases List.eq_nil_or_concat xs with rfl | ⟨ys, y, rfl⟩
    · rw [List.append_nil] at hu
      rw [hu]
      exact ⟨_, .snoc hm hp ht he⟩
    · rw [List.concat_eq_append, ← List.append_assoc] at hu
      exact ih (List.append_inj_left' hu rfl)

/-! ### what is known of a beginning -/

theorem Begins.ate {us : List (Token × Loc)} (h : Begins us) :
    ∃ src k ast l', Ate (Lexer.new src) us k ∧ parse src = .ok ast l' := by
  obtain ⟨src, xs, ast, l', h1, h2, h3⟩ := h
  have hl : xs.length = us.length := by rw [← h2]; simp [ends]
  refine ⟨src, ?_⟩
  obtain ⟨vs, k, m, h4, h5, _⟩ := parse_ok_ate h3
  obtain ⟨ys, h6, h7⟩ := h4.items (curr_new' src)
  -- the tokens listed are those consumed
  have hnone : ∀ n, Lexer.items n k = .ok [] := by
    intro n
    cases n with
    | zero => rfl
    | succ n =>
      have := next_of_eof (peek_lex (h4.curr (curr_new' src)) h5)
      unfold Lexer.items
      rw [this]
  have h8 := h7 us.length [] (hnone _)
  rw [List.append_nil] at h8
  have hpre := (items_prefix h1 h8 (by omega)).1
  have hne : ∀ x ∈ xs, ∀ e, x.1 ≠ .error e := by
    intro x hx e
    have hy : (x.1, x.2.hi) ∈ vs := by
      rw [← h6]; exact List.mem_map.2 ⟨x, hpre.subset hx, rfl⟩
    exact h4.noError _ hy e
  obtain ⟨k', hk'⟩ := items_ate (curr_new' src) h1 hl hne
  rw [h2] at hk'
  exact ⟨k', ast, l', hk', h3⟩

/-- The lexer's panic after the beginning of a program is the parser's. -/
theorem panic_of_begins {src : Text} {us : List (Token × Loc)} {k : Lexer} {p : Panic}
    (hk : Ate (Lexer.new src) us k) (hp : P.peek k = .panic p) (hb : Begins us) :
    parse src = .panic p := by
  obtain ⟨src', k', ast, l', h1, h2⟩ := hb.ate
  have hstop : ∀ t m, P.peek k = .ok t m → t = .eof ∨ ∃ e, t = .error e := by
    intro t m h; rw [hp] at h; cases h
  cases hr : parse src with
  | fuel => exact absurd hr (C37_terminates src).1
  | ok ast l2 =>
    exfalso
    obtain ⟨vs, kv, m, h3, h4, _⟩ := parse_ok_ate hr
    obtain ⟨xs, _, h6⟩ := h3.longest hk (by intro t m' h; rw [h4] at h; cases h; exact .inl rfl)
    cases xs with
    | nil =>
      obtain ⟨_, rfl⟩ := h6.unique .nil rfl
      rw [hp] at h4; cases h4
    | cons x xs =>
      obtain ⟨_, _, m', h7⟩ := h6.head rfl
      rw [hp] at h7; cases h7
  | err e l2 =>
    exfalso
    obtain ⟨vs, kv, h3, h4, _⟩ := parse_err_ate hr
    obtain ⟨xs, h5, h6⟩ := hk.longest h3 hstop
    have hne : xs ≠ [] := by
      rintro rfl
      obtain ⟨_, rfl⟩ := h6.unique .nil rfl
      rw [hp] at h4; cases h4
    have := List.length_pos_iff.2 hne
    obtain ⟨l'', h7⟩ := err_of_ate hr hk h1 h3 h4 (by rw [h5, List.length_append]; omega)
    rw [h2] at h7; cases h7
  | panic q =>
    obtain ⟨vs, kv, h3, h4⟩ := panic_of_ate hr
    obtain ⟨xs, h5, h6⟩ := hk.longest h3 hstop
    rcases h4 with h4 | h4
    · cases xs with
      | nil =>
        obtain ⟨_, rfl⟩ := h6.unique .nil rfl
        rw [hp] at h4; cases h4; rfl
      | cons x xs =>
        obtain ⟨_, _, m', h7⟩ := h6.head rfl
        rw [h4] at h7; cases h7
    · exfalso
      subst h5
      obtain ⟨kx, hkx⟩ := h1.cut
      have := h4 src' kx hkx
      rw [h2] at this; cases this

/-- A precedence above 9, where a program could have had one up to 9, makes the parser panic. -/
theorem todo_of_begins {src : Text} {us : List (Token × Loc)} {k : Lexer} {a : Assoc} {n : Nat}
    {x y : Loc} (hk : Ate (Lexer.new src) (us ++ [(a.kwTok, x), (.lit (.int n), y)]) k) (hn : 9 < n)
    (hb : Begins (us ++ [(a.kwTok, x)])) : parse src = .panic .precTodo := by
  obtain ⟨src', k', ast, l', h1, h2⟩ := hb.ate
  have hno : ∀ q : List Token, ¬ NoTodo ((us ++ [(a.kwTok, x), (.lit (.int n), y)]).map (·.1) ++ q) := by
    intro q h
    have := h (us.map (·.1)) q a n (by simp)
    omega
  -- the state before the precedence
  have hk' : ∃ k₁, Ate (Lexer.new src) (us ++ [(a.kwTok, x)]) k₁ ∧ Ate k₁ [(.lit (.int n), y)] k := by
    generalize hw : us ++ [(a.kwTok, x), (.lit (.int n), y)] = ws at hk
    cases hk with
    | nil => simp at hw
    | @snoc ws m t m' hm hp ht he =>
      have : us ++ [(a.kwTok, x)] ++ [(.lit (.int n), y)] = ws ++ [(t, m'.currLoc)] := by
        rw [← hw]; simp
      obtain ⟨rfl, h⟩ := List.append_inj' this rfl
      rw [h]
      exact ⟨m, hm, .snoc .nil hp ht he⟩
  obtain ⟨k₁, hk₁, hk₂⟩ := hk'
  obtain ⟨_, _, m₁, hm₁⟩ := hk₂.head rfl
  cases hr : parse src with
  | fuel => exact absurd hr (C37_terminates src).1
  | ok ast l2 =>
    exfalso
    obtain ⟨vs, kv, m, h3, h4, h5⟩ := parse_ok_ate hr
    obtain ⟨xs, rfl, _⟩ := h3.longest hk (by intro t m' h; rw [h4] at h; cases h; exact .inl rfl)
    rw [List.map_append] at h5
    exact hno _ h5
  | err e l2 =>
    exfalso
    obtain ⟨vs, kv, h3, h4, h5, _⟩ := parse_err_ate hr
    rcases h3.compare hk₁ with ⟨xs, rfl, h6⟩ | ⟨z, zs, h6, _⟩
    · cases xs with
      | nil =>
        obtain ⟨_, rfl⟩ := h6.unique .nil rfl
        rw [hm₁] at h4
        injection h4 with h4 _
        rw [← h4] at h5
        refine hno [] ?_
        simpa using h5
      | cons z zs =>
        obtain ⟨_, _, m₂, h7⟩ := h6.head rfl
        rw [hm₁] at h7
        injection h7 with h7 _
        refine hno (zs.map (·.1) ++ [e.found]) ?_
        simp only [List.map_append, List.map_cons, List.map_nil, List.append_assoc, List.cons_append,
          List.nil_append, ← h7] at h5 ⊢
        exact h5
    · have hlt : vs.length < (us ++ [(a.kwTok, x)]).length := by rw [h6]; simp
      obtain ⟨l'', h7⟩ := err_of_ate hr hk₁ h1 h3 h4 hlt
      rw [h2] at h7; cases h7
  | panic q =>
    obtain ⟨vs, kv, h3, h4⟩ := parse_panic_ate hr
    rcases h4 with ⟨h4, h5⟩ | ⟨h4, _⟩
    · exfalso
      obtain ⟨xs, rfl, _⟩ := h3.longest hk (by intro t m' h; rw [h4] at h; cases h)
      rw [List.map_append] at h5
      exact hno _ h5
    · rw [h4]

/-- An error token after the beginning of a program is reported. -/
theorem err_of_begins {src : Text} {us : List (Token × Loc)} {k m : Lexer} {x : LexError}
    (hk : Ate (Lexer.new src) us k) (hp : P.peek k = .ok (.error x) m) (hb : Begins us) :
    ∃ e l', parse src = .err e l' ∧ e.found = .error x := by
  obtain ⟨src', k', ast, l', h1, h2⟩ := hb.ate
  have hstop : ∀ t m, P.peek k = .ok t m → t = .eof ∨ ∃ e, t = .error e := by
    intro t m h; rw [hp] at h; cases h; exact .inr ⟨_, rfl⟩
  cases hr : parse src with
  | fuel => exact absurd hr (C37_terminates src).1
  | ok ast l2 =>
    exfalso
    obtain ⟨vs, kv, m, h3, h4, _⟩ := parse_ok_ate hr
    obtain ⟨xs, _, h6⟩ := h3.longest hk (by intro t m' h; rw [h4] at h; cases h; exact .inl rfl)
    cases xs with
    | nil =>
      obtain ⟨_, rfl⟩ := h6.unique .nil rfl
      rw [hp] at h4; cases h4
    | cons y xs =>
      obtain ⟨_, h7, m', h8⟩ := h6.head rfl
      rw [hp] at h8
      injection h8 with h8 _
      exact h7 x h8.symm
  | err e l2 =>
    obtain ⟨vs, kv, h3, h4, _⟩ := parse_err_ate hr
    obtain ⟨xs, h5, h6⟩ := hk.longest h3 hstop
    cases xs with
    | nil =>
      obtain ⟨_, rfl⟩ := h6.unique .nil rfl
      rw [hp] at h4
      injection h4 with h4 _
      exact ⟨e, l2, rfl, h4.symm⟩
    | cons y xs =>
      exfalso
      obtain ⟨l'', h7⟩ := err_of_ate hr hk h1 h3 h4 (by rw [h5]; simp)
      rw [h2] at h7; cases h7
  | panic q =>
    exfalso
    obtain ⟨vs, kv, h3, h4⟩ := panic_of_ate hr
    obtain ⟨xs, h5, h6⟩ := hk.longest h3 hstop
    rcases h4 with h4 | h4
    · cases xs with
      | nil =>
        obtain ⟨_, rfl⟩ := h6.unique .nil rfl
        rw [hp] at h4; cases h4
      | cons x xs =>
        obtain ⟨_, _, m', h7⟩ := h6.head rfl
        rw [h4] at h7; cases h7
    · subst h5
      obtain ⟨kx, hkx⟩ := h1.cut
      have := h4 src' kx hkx
      rw [h2] at this; cases this

/-! ### the beginning of a source that makes the parser panic -/

/-- The tokens of a source that makes the parser panic, or that is rejected because of an error
token, begin a program, if they contain no precedence above 9 and are followed by something. -/
theorem begins_of_live {src : Text} (hc : NoLFCR src)
    (h : ∀ e l', parse src = .err e l' → ∃ x, e.found = .error x) {us : List (Token × Loc)} {k : Lexer} (hk : Ate (Lexer.new src) us k)
    (ht : NoTodo (us.map (·.1))) (hne : k.chars ≠ []) : Begins us := by
  by_cases hus : us = []
  · subst hus
    exact ⟨[], [], _, _, rfl, rfl, rfl⟩
  obtain ⟨r, h5, h6, h7, h8, h9⟩ := hk.run hc
  obtain ⟨a, ha, h10, h11, h12⟩ := h5.change (pre := []) rfl
  simp only [List.nil_append] at h12
  have hr : r ≠ [] := by rw [h9 hus]; exact hne
  have hca : NoLFCR a := hc.infix ⟨[], r, by rw [ha]; simp⟩
  have hrun : TokRun a a us [] := by
    have := h12 [] (by intro x _ c hc; cases hc) (by intro h; exact absurd rfl h)
    simpa using this
  obtain ⟨ys, hy, hy'⟩ := hrun.new hca
  have hstrm : Strm (Lexer.new a) (us.map fun u => (u.1, u.2.col)) := by
    have hh := hrun.hasC (cs := []) (.nil TLex.lex_nil)
    rw [List.append_nil] at hh
    have := TLex.HasC.placed (pre := []) (by simpa using hh)
    exact (this.lexes hca).strm
  -- the tokens of the text `a`
  obtain ⟨ka, hka⟩ : ∃ ka, Ate (Lexer.new a) us ka := by
    have hl : ys.length = us.length := by rw [← hy']; simp [ends]
    rw [← hy']
    refine items_ate (curr_new' a) hy hl fun y hy e => ?_
    have : (y.1, y.2.hi) ∈ us := by rw [← hy']; exact List.mem_map.2 ⟨y, hy, rfl⟩
    exact hk.noError _ this e
  have heof : ∃ m, P.peek ka = .ok .eof m := by
    obtain ⟨cs', h1, h2⟩ := Stream.ate hka hstrm.1
    have : cs' = [] := by
      rw [List.length_map] at h2
      exact List.eq_nil_of_length_eq_zero (by omega)
    subst this
    obtain ⟨m, h3, _⟩ := h1.peek
    exact ⟨m, h3⟩
  obtain ⟨me, heof⟩ := heof
  have hlong : ∀ {vs kv}, Ate (Lexer.new a) vs kv → ∃ xs, us = vs ++ xs ∧ Ate kv xs ka :=
    fun hv => hka.longest hv (by intro t m' h; rw [heof] at h; cases h; exact .inl rfl)
  cases hr' : parse a with
  | ok ast l2 => exact ⟨a, ys, ast, l2, hy, hy', hr'⟩
  | fuel => exact absurd hr' (C37_terminates a).1
  | panic q =>
    exfalso
    obtain ⟨vs, kv, h1, h2⟩ := parse_panic_ate hr'
    obtain ⟨xs, rfl, h3⟩ := hlong h1
    rcases h2 with ⟨h2, _⟩ | ⟨_, ws, b, n, h4, h5, _⟩
    · cases xs with
      | nil =>
        obtain ⟨_, rfl⟩ := h3.unique .nil rfl
        rw [heof] at h2; cases h2
      | cons x xs =>
        obtain ⟨_, _, m, h4⟩ := h3.head rfl
        rw [h2] at h4; cases h4
    · have := ht ws (xs.map (·.1)) b n (by rw [List.map_append, h4]; simp)
      omega
  | err e l2 =>
    by_cases hfe : e.found = .eof
    · -- it ends too early, and can be continued
      have hdies := parseInto_dies (Parser.fuelFor a) hstrm Ast.empty
      rw [show Parser.parseInto (Parser.fuelFor a) Ast.empty (Lexer.new a) = _ from hr'] at hdies
      obtain ⟨vs, hv, hd⟩ := (hdies hfe).2
      obtain ⟨sep, hsep, hsepT, hcr⟩ := separator us
      have hx := h12 (sep ++ fillerTexts vs) (fun x hx => hsep x hx _) (fun _ hz => absurd hz hr)
      obtain ⟨cs', hcs, hpl⟩ := (hsepT _ _ (fillerTexts_tokenizes hv)).placed a
      have hP := TLex.HasC.placed (pre := []) (by simpa using hx.hasC hpl.hasC)
      obtain ⟨ds, hds⟩ := hd cs' hcs
      have hcl : NoLFCR (a ++ (sep ++ fillerTexts vs)) := by
        refine hca.append ?_
        simp only [List.mem_append, not_or]
        exact ⟨hcr, fillerTexts_noCR hv⟩
      obtain ⟨zs, hz1, hz2⟩ := hx.new hcl
      obtain ⟨l3, h13⟩ := (C96_texts hcl (Ast.ofDecls ds)).2 ⟨_, ds, hP, hds, rfl⟩
      exact ⟨_, zs, _, l3, hz1, hz2, h13⟩
    · exfalso
      obtain ⟨vs, kv, h1, h2, _⟩ := parse_err_ate hr'
      obtain ⟨xs, rfl, h3⟩ := hlong h1
      cases xs with
      | nil =>
        obtain ⟨_, rfl⟩ := h3.unique .nil rfl
        rw [heof] at h2
        injection h2 with h2 _
        exact hfe h2.symm
      | cons x xs =>
        obtain ⟨l'', h4⟩ := err_of_ate hr' hka hk h1 h2 (by simp)
        obtain ⟨y, hy⟩ := h _ _ h4
        obtain ⟨_, h5, m, h6⟩ := h3.head rfl
        rw [h2] at h6
        injection h6 with h6 _
        exact h5 y (by rw [← h6, hy])

/-! ### the text after the tokens -/

/-- What is skipped, and what the outcome is due to. -/
theorem lexN_skips {n : Nat} : ∀ {s : Text}, s.length < n →
    (∃ r, TLex.lexN n s = .ok (.eof, r)) ∨
    ∃ g c cs, s = g ++ c :: cs ∧ Skips g (c :: cs) ∧
      ((∃ p, TLex.dispatch (c :: cs) c = .error p ∧ TLex.lexN n s = .error p) ∨
        ∃ t r, TLex.dispatch (c :: cs) c = .ok (.tok t r) ∧ TLex.lexN n s = .ok (t, r)) := by
  induction n with
  | zero => intro s h; omega
  | succ n ih =>
    intro s hl
    have ws : ∀ s : Text, ∀ g c cs, s.dropWhile isWhitespace = g ++ c :: cs → Skips g (c :: cs) →
        ∃ g', s = g' ++ c :: cs ∧ Skips g' (c :: cs) := by
      intro s
      induction s with
      | nil => intro g c cs h _; cases g <;> cases h
      | cons d s ih =>
        intro g c cs h hg
        rw [List.dropWhile_cons] at h
        split at h
        · rename_i hd
          obtain ⟨g', h1, h2⟩ := ih g c cs h hg
          exact ⟨d :: g', by rw [h1]; rfl, .space hd h2⟩
        · exact ⟨g, h, hg⟩
    have hlen := (List.dropWhile_suffix (l := s) isWhitespace).length_le
    cases hd : s.dropWhile isWhitespace with
    | nil => exact .inl ⟨[], by unfold TLex.lexN; rw [hd]⟩
    | cons c cs =>
      rw [hd] at hlen
      have hun : TLex.lexN (n + 1) s = (match TLex.dispatch (c :: cs) c with
        | .error p => .error p
        | .ok (.tok t r) => .ok (t, r)
        | .ok (.skipped r) => TLex.lexN n r) := by
          conv => lhs; unfold TLex.lexN
          simp only [hd]
          cases TLex.dispatch (c :: cs) c with
          | error p => rfl
          | ok z => cases z <;> rfl
      rw [hun]
      cases hx : TLex.dispatch (c :: cs) c with
      | error p =>
        obtain ⟨g', h1, h2⟩ := ws s [] c cs hd .nil
        exact .inr ⟨g', c, cs, h1, h2, .inl ⟨p, hx, rfl⟩⟩
      | ok z =>
        cases z with
        | tok t r =>
          obtain ⟨g', h1, h2⟩ := ws s [] c cs hd .nil
          exact .inr ⟨g', c, cs, h1, h2, .inr ⟨t, r, hx, rfl⟩⟩
        | skipped r =>
          simp only
          obtain ⟨hi, ho⟩ := TLex.dispatch_skipped hx
          have hlt := TLex.operator_skipped hi ho
          rcases ih (s := r) (by simp at hlen hlt; omega) with h | ⟨g, c', cs', rfl, h2, h3⟩
          · exact .inl h
          refine .inr ?_
          rcases TLex.operator_skips ho with ⟨b, e1, e2, e3, e4⟩ | ⟨b, x, e1, e2, e3⟩
          · obtain ⟨g', h4, h5⟩ := ws s (t!"~~" ++ b ++ g) c' cs' (by rw [hd, e1]; simp)
              (.line e2 e3 e4 h2)
            exact ⟨g', c', cs', h4, h5, h3⟩
          · obtain ⟨g', h4, h5⟩ := ws s (t!"~{" ++ b ++ t!"}~" ++ x ++ g) c' cs' (by rw [hd, e1]; simp)
              (.block e2 e3 h2)
            exact ⟨g', c', cs', h4, h5, h3⟩

/-- The lexer panics exactly at bad words. -/
theorem lex_error_iff {s : Text} {p : Panic} : TLex.lex s = .error p ↔
    p = .identAssert ∧ ∃ g w, s = g ++ w ∧ Skips g w ∧ BadWord w := by
  constructor
  · intro h
    rcases lexN_skips (Nat.lt_succ_self s.length) with ⟨r, h1⟩ | ⟨g, c, cs, h1, h2, h3⟩
    · rw [show TLex.lexN (s.length + 1) s = TLex.lex s from rfl, h] at h1; cases h1
    · rcases h3 with ⟨q, h3, h4⟩ | ⟨t, r, h3, h4⟩
      · rw [show TLex.lexN (s.length + 1) s = TLex.lex s from rfl, h] at h4
        cases h4
        obtain ⟨hid, hx⟩ := dispatch_error h3
        unfold TLex.ident at hx
        split at hx
        · cases hx
        · rename_i q hw
          cases hx
          obtain ⟨h5, h6⟩ := word_error hw hid
          exact ⟨h5, g, c :: cs, h1, h2, h6⟩
      · rw [show TLex.lexN (s.length + 1) s = TLex.lex s from rfl, h] at h4; cases h4
  · rintro ⟨rfl, g, w, rfl, h1, h2⟩
    rw [h1.lex]
    obtain ⟨c, cs, he, hws, hd⟩ := word_bad h2
    rw [he, TLex.lex_cons hws, ← he, hd]

theorem charLit_not_empty {d : Char} {cs : Text} (hd : d ≠ '\'') :
    (TLex.charLit ('\'' :: d :: cs)).1.isEmptyChar = false := by
  show Token.isEmptyChar (Prod.fst (
    if d = '\'' then (TLex.err (LexError.emptyChar Loc.default Loc.default), cs)
    else if d = '\\' then TLex.charEscape cs
    else if d = '\x00' then (TLex.err (LexError.unterminatedChar Loc.default Loc.default), d :: cs)
    else if List.head? cs = some '\'' then (Token.lit (Literal.char d), List.tail cs)
    else if Option.any isWhitespace (List.head? cs) = true then
      (Token.affix (d :: List.take 1 cs) true, List.tail cs)
    else if isIdentStart d = true then
      (Token.affix (d :: (TLex.munch isIdentChar cs).fst) true, (TLex.munch isIdentChar cs).snd)
    else (TLex.err (LexError.unterminatedChar Loc.default Loc.default),
      List.dropWhile (fun c => c != '\'' && isAlphanumeric c || c == '_') cs))) = false
  rw [if_neg hd]
  by_cases h : d = '\\'
  · rw [if_pos h]
    cases cs with
    | nil => rfl
    | cons e cs =>
      unfold TLex.charEscape
      simp only
      by_cases h : e = 'u' ∨ e = 'U'
      · rw [if_pos h]
        have key : ∀ s : Text, Token.isEmptyChar (Prod.fst (
            if isHexDigit (s.headD '\x00') then
              if (s.dropWhile isHexDigit).head? = some '\'' then
                if (s.takeWhile isHexDigit).length ≤ 6 then
                  (match Lexer.charFromU32 (Lexer.hexNum (s.takeWhile isHexDigit)) with
                   | some c => Token.lit (.char c)
                   | none => TLex.err (.invalidUnicode .default (.notInCharRange
                      (s.takeWhile isHexDigit) (Lexer.hexNum (s.takeWhile isHexDigit)))),
                    (s.dropWhile isHexDigit).tail.tail)
                else (TLex.err (.invalidUnicode .default (.tooLong (s.takeWhile isHexDigit))),
                  (s.dropWhile isHexDigit).tail)
              else (TLex.err (.unterminatedChar .default .default),
                (s.dropWhile isHexDigit).dropWhile (· != '\''))
            else (TLex.err (.invalidUnicode .default (.badConnector (s.headD '\x00'))),
              s.dropWhile (· != '\'')))) = false := by
          intro s
          split
          · split
            · split
              · dsimp only
                split <;> rfl
              · rfl
            · rfl
          · rfl
        exact key _
      rw [if_neg h]
      split
      · split <;> rfl
      · rfl
  rw [if_neg h]
  split
  · rfl
  split
  · rfl
  split
  · rfl
  split <;> rfl

theorem dispatch_empty {c : Char} {cs r : Text} {a b : Loc}
    (h : TLex.dispatch (c :: cs) c = .ok (.tok (.error (.emptyChar a b)) r)) :
    ∃ w, c :: cs = t!"''" ++ w := by
  unfold TLex.dispatch at h
  by_cases hc : c = ';'
  · rw [if_pos hc] at h; cases h
  rw [if_neg hc] at h; clear hc
  by_cases hc : c = '\''
  · rw [if_pos hc] at h
    subst hc
    injection h with h
    injection h with h _
    cases cs with
    | nil => cases h
    | cons d cs =>
      by_cases hd : d = '\''
      · subst hd; exact ⟨cs, rfl⟩
      · exfalso
        have := charLit_not_empty (cs := cs) hd
        rw [h] at this
        cases this
  rw [if_neg hc] at h; clear hc
  exfalso
  by_cases hc : c = '"'
  · rw [if_pos hc] at h
    unfold TLex.string TLex.R.of TLex.err at h
    repeat' split at h
    all_goals cases h
  rw [if_neg hc] at h; clear hc
  by_cases hc : isDigit10 c = true
  · rw [if_pos hc] at h
    unfold TLex.number TLex.R.of TLex.err at h
    simp only at h
    repeat' split at h
    all_goals cases h
  rw [if_neg hc] at h; clear hc
  by_cases hc : c = '`'
  · rw [if_pos hc] at h
    unfold TLex.backtick TLex.R.of TLex.err at h
    simp only at h
    repeat' split at h
    all_goals cases h
  rw [if_neg hc] at h; clear hc
  by_cases hc : isIdentStart c = true
  · rw [if_pos hc] at h
    unfold TLex.ident at h
    split at h
    · rename_i t hw
      injection h with h
      injection h with h _
      subst h
      unfold TLex.word identifier at hw
      repeat' split at hw
      all_goals try cases hw
      all_goals (injection hw with hw; split at hw <;> cases hw)
    · cases h
  rw [if_neg hc] at h; clear hc
  by_cases hc : c = '('
  · rw [if_pos hc] at h; cases h
  rw [if_neg hc] at h; clear hc
  by_cases hc : c = ')'
  · rw [if_pos hc] at h; cases h
  rw [if_neg hc] at h; clear hc
  by_cases hc : c = '['
  · rw [if_pos hc] at h; cases h
  rw [if_neg hc] at h; clear hc
  by_cases hc : c = ']'
  · rw [if_pos hc] at h; cases h
  rw [if_neg hc] at h; clear hc
  by_cases hc : c = '{'
  · rw [if_pos hc] at h; cases h
  rw [if_neg hc] at h; clear hc
  by_cases hc : c = '}'
  · rw [if_pos hc] at h; cases h
  rw [if_neg hc] at h; clear hc
  by_cases hc : c = ','
  · rw [if_pos hc] at h; cases h
  rw [if_neg hc] at h; clear hc
  by_cases hc : isInfixChar c = true
  · rw [if_pos hc] at h
    injection h with h
    unfold TLex.operator at h
    simp only at h
    repeat' split at h
    all_goals cases h
  · rw [if_neg hc] at h; cases h

/-- Empty characters are read exactly at two apostrophes. -/
theorem lex_empty_iff {s : Text} : (∃ r, TLex.lex s = .ok (.error (.emptyChar .default .default), r)) ↔
    ∃ g w, s = g ++ (t!"''" ++ w) ∧ Skips g (t!"''" ++ w) := by
  constructor
  · rintro ⟨r, h⟩
    rcases lexN_skips (Nat.lt_succ_self s.length) with ⟨r, h1⟩ | ⟨g, c, cs, h1, h2, h3⟩
    · rw [show TLex.lexN (s.length + 1) s = TLex.lex s from rfl, h] at h1; cases h1
    · rcases h3 with ⟨q, h3, h4⟩ | ⟨t, r, h3, h4⟩
      · rw [show TLex.lexN (s.length + 1) s = TLex.lex s from rfl, h] at h4
        cases h4
      · rw [show TLex.lexN (s.length + 1) s = TLex.lex s from rfl, h] at h4
        cases h4
        obtain ⟨w, hw⟩ : ∃ w, c :: cs = t!"''" ++ w := by
          exact dispatch_empty h3
        rw [hw] at h1 h2
        exact ⟨g, w, h1, h2⟩
  · rintro ⟨g, w, rfl, h1⟩
    rw [h1.lex]
    refine ⟨w, ?_⟩
    show TLex.lex ('\'' :: '\'' :: w) = _
    rw [TLex.lex_cons (by decide)]
    rfl

/-! ### the text that is left -/

omit [CharTables] [LawfulTables] in
theorem locOf_prefix {a b r s : Text} (h : a ++ r = b ++ s) (hl : locOf a = locOf b) : r = s := by
  have hu : utf8Len a = utf8Len b := congrArg Loc.pos hl
  rcases List.append_eq_append_iff.1 h with ⟨c, rfl, rfl⟩ | ⟨c, rfl, rfl⟩
  · rw [utf8Len_append] at hu
    cases c with
    | nil => rfl
    | cons d c => rw [utf8Len_cons] at hu; have := Char.utf8Size_pos d; omega
  · rw [utf8Len_append] at hu
    cases c with
    | nil => rfl
    | cons d c => rw [utf8Len_cons] at hu; have := Char.utf8Size_pos d; omega

theorem last_loc {src : Text} {us : List (Token × Loc)} {xs : List (Token × LocSpan)} {k : Lexer}
    (hk : Ate (Lexer.new src) us k) (he : ends xs = us) (hne : us ≠ []) {x : Token × LocSpan}
    (h : xs.getLast? = some x) : x.2.hi = k.currLoc := by
  obtain ⟨vs, t, rfl⟩ := hk.last hne
  obtain ⟨y, h1, h2⟩ := ends_last he
  rw [h] at h1; cases h1
  exact h2

/-- What is left is what the lexer reads next. -/
theorem left_of_ate {src : Text} (hc : NoLFCR src) {us : List (Token × Loc)}
    {xs : List (Token × LocSpan)} {k : Lexer} (hk : Ate (Lexer.new src) us k) (he : ends xs = us) :
    ∃ r, LeftAfter src xs r ∧ proj k.lex = TLex.lex r := by
  obtain ⟨r, h5, h6, h7, h8, h9⟩ := hk.run hc
  obtain ⟨a, ha, h10, -, -⟩ := h5.change (pre := []) rfl
  refine ⟨r, ⟨a, ha, ?_, ?_⟩, ?_⟩
  · rintro rfl
    exact h10 (by rw [← he]; rfl)
  · intro x hx
    have hne : us ≠ [] := by
      rintro rfl
      have := List.map_eq_nil_iff.1 he
      subst this; cases hx
    rw [last_loc hk he hne hx]
    obtain ⟨pre, hp1, hp2⟩ := h7.pos
    rw [hp2]
    congr 1
    rw [h8, ← h9 hne, ha] at hp1
    exact (List.append_cancel_right hp1).symm
  · rw [h6]; exact sync_lex h7

omit [CharTables] [LawfulTables] in
theorem LeftAfter.unique {src r s : Text} {xs : List (Token × LocSpan)} (h : LeftAfter src xs r)
    (h' : LeftAfter src xs s) : r = s := by
  obtain ⟨a, h1, h2, h3⟩ := h
  obtain ⟨b, h4, h5, h6⟩ := h'
  cases hx : xs.getLast? with
  | none =>
    have := List.getLast?_eq_none_iff.1 hx
    rw [h2 this] at h1; rw [h5 this] at h4
    rw [← List.nil_append r, ← h1, h4]; rfl
  | some x => exact locOf_prefix (by rw [← h1, ← h4]) ((h3 x hx).symm.trans (h6 x hx))

end Pemdas
