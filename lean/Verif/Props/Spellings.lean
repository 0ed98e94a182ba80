import Verif.Lemmas.Spellings
import Verif.Props.LexGrammar
/-
C101 patterns that cannot be written as one would expect. C102 the operators `-` and `@`. C103 commas
in lists. C104 brackets.
-/
namespace Pemdas
open Lexer

theorem pat_starts_paren {p : Pat} {ts c b : List Token} (h : PatToks .pattern p ts)
    (he : .parenL :: b = ts ++ c) : ∃ t b', b = t :: b' ∧ t.startsInner = true := by
  cases h with
  | wild | con0 | var | as_ | arrNil | arr => simp at he
  | paren h =>
    obtain ⟨t, ts', rfl, h1, _⟩ := h.starts
    simp only [List.cons_append, List.cons.injEq, true_and] at he
    exact ⟨t, _, he, h1⟩
  | tup h hne _ =>
    obtain ⟨t, ts', rfl, h1, _⟩ := h.starts
    rw [sepBy_cons] at he
    simp only [List.cons_append, List.cons.injEq, true_and] at he
    exact ⟨t, _, he, h1⟩

theorem pat_starts_brack {p : Pat} {ts c b : List Token} (h : PatToks .pattern p ts)
    (he : .brackL :: b = ts ++ c) : b = .brackR :: .brackR :: c ∨
      ∃ t b', b = t :: b' ∧ t.startsInner = true := by
  cases h with
  | wild | con0 | var | as_ | paren | tup => simp at he
  | arrNil => exact .inl (by simpa using he)
  | @arr ps hne hps =>
    right
    cases ps with
    | nil => exact (hne rfl).elim
    | cons x ps =>
      obtain ⟨t, ts', hts, h1, _⟩ := (hps x (by simp)).starts
      rw [List.map_cons, sepBy_cons, hts] at he
      simp only [List.cons_append, List.cons.injEq, true_and] at he
      exact ⟨t, _, he, h1⟩

section
variable [CharTables] [LawfulTables]

/-- In an accepted program, a lambda is followed by a pattern and the keyword of a fixity
declaration by neither `-` nor `@`. -/
theorem accepted_heads {src : Text} {cs : List CTok} (hl : Lexes src cs) {ast : Ast} {l' : Lexer}
    (h : parse src = .ok ast l') : Heads (cs.map (·.1)) := by
  obtain ⟨cs', ds, h1, h2, _⟩ := (C81_program src ast).1 ⟨l', h⟩
  rw [hl.unique h1]
  exact h2.heads

/-- Acceptance of a text on one line, by its tokens. -/
theorem accepts {src : Text} (hn : '\n' ∉ src) {ts : List Token} (ht : Tokenizes src ts) {e : Expr}
    (h : Line .chain e ts) : ∃ l', parse src = .ok ⟨[.expr], [], [e]⟩ l' :=
  (C96_one_line_programs hn _).2 ⟨ts, [.expr e], ht, by
    simpa using LineProg.expr (ds := []) (us := []) false h .nil (fun _ => trivial), rfl⟩

/-! ### C101 -/

/-- C101 fails: no program in which a lambda is followed by `()`, by `[]` (unless another `]`
follows) or by a literal is accepted. -/
theorem C101_patterns_wrong {src : Text} {cs : List CTok} (hl : Lexes src cs)
    (h : Contains (cs.map (·.1)) [.lambda, .parenL, .parenR] ∨
      (∃ t, t ≠ .brackR ∧ Contains (cs.map (·.1)) [.lambda, .brackL, .brackR, t]) ∨
      ∃ l, Contains (cs.map (·.1)) [.lambda, .lit l]) : ¬ ∃ ast l', parse src = .ok ast l' := by
  rintro ⟨ast, l', hp⟩
  have hh := accepted_heads hl hp
  rcases h with ⟨a, b, h⟩ | ⟨t, ht, a, b, h⟩ | ⟨l, a, b, h⟩
  · obtain ⟨p, ps, c, hp, hb⟩ := (hh a .lambda (.parenL :: .parenR :: b) (by simp [h])).1 rfl
    obtain ⟨t, b', he, hs⟩ := pat_starts_paren hp.1 hb
    simp only [List.cons.injEq] at he
    rw [← he.1] at hs
    cases hs
  · obtain ⟨p, ps, c, hp, hb⟩ := (hh a .lambda (.brackL :: .brackR :: t :: b) (by simp [h])).1 rfl
    rcases pat_starts_brack hp.1 hb with he | ⟨t', b', he, hs⟩
    · simp only [List.cons.injEq] at he
      exact ht he.2.1
    · simp only [List.cons.injEq] at he
      rw [← he.1] at hs
      cases hs
  · obtain ⟨p, ps, c, hp, hb⟩ := (hh a .lambda (.lit l :: b) (by simp [h])).1 rfl
    obtain ⟨t, ts', rfl, _, hs, _⟩ := hp.1.starts
    simp only [List.cons_append, List.cons.injEq] at hb
    have := hs rfl
    rw [← hb.1] at this
    cases this

/-- C101 fails: as an element of a list, a negated pattern is read as the pattern itself. -/
theorem C101_negation_lost_wrong {src : Text} (hn : '\n' ∉ src) {p : Pat} {e : Expr}
    {ts us : List Token} (hp : PatWritten p ts) (he : Line .chain e us)
    (ht : Tokenizes src (.lambda :: (.brackL :: .dash :: ts ++ [.brackR]) ++ .arrow :: us)) :
    ∃ l', parse src = .ok ⟨[.expr], [], [.lam (.arr [p]) e]⟩ l' := by
  refine accepts hn ht ?_
  have hw : PatWritten (.arr [p]) (.brackL :: .dash :: ts ++ [.brackR]) := by
    refine ⟨?_, ?_⟩
    · have := PatToks.arr (ps := [(p, .dash :: ts)]) (by simp) (by
        intro x hx; rw [List.mem_singleton.1 hx]; exact .minus hp.1)
      simpa [sepBy] using this
    · intro s hs
      simp only [List.cons_append, List.mem_cons, List.mem_append, reduceCtorEq, List.not_mem_nil,
        or_false, false_or] at hs
      exact hp.2 s hs
  have := Line.lam (ps := [(.arr [p], .brackL :: .dash :: ts ++ [.brackR])]) (by simp)
    (by intro x hx; rw [List.mem_singleton.1 hx]; exact hw) he
  exact .lastOpen (by simpa using this)

/-- C101, what holds: in parentheses a negated pattern is read as the negation; the empty list is
read if its closing bracket is doubled; and lists and tuples that are not empty are read element by
element. -/
theorem C101_patterns_partial {src : Text} (hn : '\n' ∉ src) {p : Pat} {e : Expr}
    {pts us : List Token} (he : Line .chain e us)
    (ht : Tokenizes src (.lambda :: pts ++ .arrow :: us))
    (h : (∃ q ts, PatWritten q ts ∧ p = .neg q ∧ pts = .parenL :: .dash :: ts ++ [.parenR]) ∨
      (p = .arr [] ∧ pts = [.brackL, .brackR, .brackR]) ∨
      (∃ qs : List (Pat × List Token), qs ≠ [] ∧ (∀ x ∈ qs, PatWritten x.1 x.2) ∧
        p = .arr (qs.map (·.1)) ∧
        pts = .brackL :: sepBy .comma (qs.map (·.2)) ++ [.brackR]) ∨
      ∃ (q : Pat) (ts : List Token) (qs : List (Pat × List Token)), PatWritten q ts ∧ qs ≠ [] ∧
        (∀ x ∈ qs, PatWritten x.1 x.2) ∧ p = .tup (q :: qs.map (·.1)) ∧
        pts = .parenL :: sepBy .comma (ts :: qs.map (·.2)) ++ [.parenR]) :
    ∃ l', parse src = .ok ⟨[.expr], [], [.lam p e]⟩ l' := by
  refine accepts hn ht ?_
  have sep : ∀ (tss : List (List Token)), (∀ ts ∈ tss, ∀ s, Token.upper s ∉ ts) →
      ∀ s, Token.upper s ∉ sepBy .comma tss := by
    intro tss h s
    induction tss with
    | nil => simp [sepBy]
    | cons ts rest ih =>
      rw [sepBy_cons]
      simp only [List.mem_append, not_or]
      refine ⟨h ts (by simp) s, ?_⟩
      intro hm
      obtain ⟨us, hu, hm⟩ := List.mem_flatten.1 hm
      obtain ⟨vs, hv, rfl⟩ := List.mem_map.1 hu
      simp only [List.mem_cons, reduceCtorEq, false_or] at hm
      exact h vs (by simp [hv]) s hm
  have hw : PatWritten p pts := by
    rcases h with ⟨q, ts, hq, rfl, rfl⟩ | ⟨rfl, rfl⟩ | ⟨qs, hne, hq, rfl, rfl⟩ |
      ⟨q, ts, qs, hq0, hne, hq, rfl, rfl⟩
    · refine ⟨.paren (.firstNeg hq.1), ?_⟩
      intro s hs
      simp only [List.cons_append, List.mem_cons, List.mem_append, reduceCtorEq, List.not_mem_nil,
        or_false, false_or] at hs
      exact hq.2 s hs
    · exact ⟨.arrNil, by simp⟩
    · refine ⟨.arr hne fun x hx => .inner (hq x hx).1, ?_⟩
      intro s hs
      simp only [List.cons_append, List.mem_cons, List.mem_append, reduceCtorEq, List.not_mem_nil,
        or_false, false_or] at hs
      refine sep _ ?_ s hs
      intro ts hts
      obtain ⟨x, hx, rfl⟩ := List.mem_map.1 hts
      exact (hq x hx).2
    · refine ⟨.tup (.first hq0.1) hne fun x hx => .inner (hq x hx).1, ?_⟩
      intro s hs
      simp only [List.cons_append, List.mem_cons, List.mem_append, reduceCtorEq, List.not_mem_nil,
        or_false, false_or] at hs
      refine sep _ ?_ s hs
      intro us hus
      rcases List.mem_cons.1 hus with rfl | hus
      · exact hq0.2
      · obtain ⟨x, hx, rfl⟩ := List.mem_map.1 hus
        exact (hq x hx).2
  have := Line.lam (ps := [(p, pts)]) (by simp)
    (by intro x hx; rw [List.mem_singleton.1 hx]; exact hw) he
  exact .lastOpen (by simpa using this)

/-! ### C102 -/

/-- C102 fails: no program in which the keyword of a fixity declaration is directly followed by `-`
or `@` is accepted, and none that starts with one of them in parentheses. -/
theorem C102_operators_wrong {src : Text} {cs : List CTok} (hl : Lexes src cs) {o : Token}
    (ho : o = .dash ∨ o = .at_)
    (h : (∃ k, k.isFixityKw = true ∧ Contains (cs.map (·.1)) [k, o]) ∨
      ∃ b, cs.map (·.1) = .parenL :: o :: b) : ¬ ∃ ast l', parse src = .ok ast l' := by
  rintro ⟨ast, l', hp⟩
  rcases h with ⟨k, hk, a, b, h⟩ | ⟨b, h⟩
  · obtain ⟨u, c, hb, h1, h2⟩ := ((accepted_heads hl hp) a k (o :: b) (by simp [h])).2 hk
    simp only [List.cons.injEq] at hb
    rw [hb.1] at ho
    exact ho.elim h1 h2
  · obtain ⟨cs', ds, h1, h2, _⟩ := (C81_program src ast).1 ⟨l', hp⟩
    obtain rfl := hl.unique h1
    have hw : ∀ {cat c m e} {ts us : List CTok}, Written cat c m e ts →
        (ts ++ us).map (·.1) ≠ .parenL :: o :: b := by
      intro cat c m e ts us hw
      induction hw generalizing us with
      | last _ ih | lastOpen _ ih | head _ ih => exact ih
      | bin _ _ _ ih | app _ _ _ ih | appOpen _ _ _ _ ih => rw [List.append_assoc]; exact ih
      | lam | let_ | lit | upper | lower | list => simp
      | unit => rcases ho with rfl | rfl <;> simp
      | op => rcases ho with rfl | rfl <;> simp
      | @commas c k₀ k ks hne =>
        cases ks with
        | nil => exact (hne rfl).elim
        | cons => rcases ho with rfl | rfl <;> simp
      | grp hw' =>
        obtain ⟨t, k, ts', rfl, hb, _⟩ := hw'.starts
        rcases ho with rfl | rfl <;>
        · simp only [List.cons_append, List.map_cons, ne_eq, List.cons.injEq, true_and, not_and]
          rintro rfl
          cases hb
      | tup hw' =>
        obtain ⟨t, k, ts', rfl, hb, _⟩ := hw'.starts
        rcases ho with rfl | rfl <;>
        · simp only [List.cons_append, List.map_cons, ne_eq, List.cons.injEq, true_and, not_and]
          rintro rfl
          cases hb
    cases h2 with
    | nil => simp at h
    | infix_ semi hd _ =>
      obtain ⟨k, us, hk, _, hk', _⟩ := hd.1.plain
      simp only [List.map_append, hk, List.cons_append, List.cons.injEq] at h
      rw [h.1] at hk'
      cases hk'
    | expr semi he _ _ =>
      rw [List.append_assoc] at h
      exact hw he h

/-- C102, what holds: `-` and `@`, like all operators, can be declared with a precedence and used
between operands. -/
theorem C102_operators_partial {src : Text} (hn : '\n' ∉ src) {op : Infix} {t : Token}
    (ho : OpTok op t) :
    (∀ (a : Assoc) (n : Nat), n ≤ 9 → Tokenizes src [a.kwTok, .lit (.int n), t] →
      ∃ l', parse src = .ok ⟨[.infix_], [⟨[op], ⟨n, a⟩⟩], []⟩ l') ∧
    ∀ (l r : Expr) (ts us : List Token), Line .operand l ts → Line .chain r us →
      Tokenizes src (ts ++ t :: us) →
      ∃ l', parse src = .ok ⟨[.expr], [], [.bin l op r]⟩ l' := by
  refine ⟨fun a n hle ht => ?_, fun l r ts us hl hr ht => accepts hn ht (.bin hl ho hr)⟩
  refine (C96_one_line_programs hn _).2 ⟨_, [.infix_ ⟨[op], ⟨n, a⟩⟩], ht, ?_, rfl⟩
  have hd : DeclWritten ⟨[op], ⟨n, a⟩⟩ [a.kwTok, .lit (.int n), t] := by
    refine ⟨?_, by simp, by simp⟩
    have := DeclToks.withPrec (a := a) (p := n) (ops := [(op, t)]) hle (by simp) (by
      intro x hx; rw [List.mem_singleton.1 hx]; exact ho)
    simpa [sepBy] using this
  simpa using LineProg.infix_ (ds := []) (us := []) false hd .nil

/-! ### C103 -/

/-- C103 fails: a comma after the last element of a list does not matter. -/
theorem C103_trailing_comma_wrong {src : Text} (hn : '\n' ∉ src) {e : Expr} {ts : List Token}
    (he : Line .chain e ts) (ht : Tokenizes src (.brackL :: (ts ++ [.comma]) ++ [.brackR])) :
    ∃ l', parse src = .ok ⟨[.expr], [], [.list [e]]⟩ l' := by
  refine accepts hn ht (.last (.head ?_))
  have := Line.list (xs := [(e, ts, true)]) (by
    intro x hx; rw [List.mem_singleton.1 hx]; exact he) (by
    intro a x b h hx
    cases a with
    | nil =>
      simp only [List.nil_append, List.cons.injEq] at h
      rw [← h.1] at hx
      cases hx
    | cons y a =>
      have := congrArg List.length h
      simp at this)
  simpa [elemToks] using this

/-- C103 fails: before an element that is a lambda or a `let` no comma is needed. -/
theorem C103_missing_comma_wrong {src : Text} (hn : '\n' ∉ src) {e f : Expr} {ts us : List Token}
    (he : Line .chain e ts) (hf : Line .atom f us) (hu : us.head? = some .lambda ∨ us.head? = some .let_)
    (ht : Tokenizes src (.brackL :: (ts ++ us) ++ [.brackR])) :
    ∃ l', parse src = .ok ⟨[.expr], [], [.list [e, f]]⟩ l' := by
  refine accepts hn ht (.last (.head ?_))
  have := Line.list (xs := [(e, ts, false), (f, us, false)]) (by
    intro x hx
    simp only [List.mem_cons, List.not_mem_nil, or_false] at hx
    rcases hx with rfl | rfl
    · exact he
    · exact .lastOpen hf) (by
    intro a x b h hx
    cases a with
    | nil =>
      simp only [List.nil_append, List.cons.injEq] at h
      rw [← h.2]
      cases us with
      | nil => rcases hu with h | h <;> cases h
      | cons u us =>
        rcases hu with h | h <;>
        · simp only [List.head?_cons, Option.some.injEq] at h
          subst h
          exact ⟨rfl, rfl⟩
    | cons y a =>
      cases a with
      | nil =>
        simp only [List.cons_append, List.nil_append, List.cons.injEq] at h
        rw [← h.2.2]
        exact ⟨rfl, rfl⟩
      | cons z a =>
        have := congrArg List.length h
        simp at this)
  simpa [elemToks] using this

/-- C103, what holds: if a text on one line without lambdas and `let`s is read as a list, it
consists of its elements separated by commas, perhaps with one more comma at the end. -/
theorem C103_commas_partial {src : Text} (hn : '\n' ∉ src) {ts : List Token}
    (ht : Tokenizes src ts) (h1 : .lambda ∉ ts) (h2 : .let_ ∉ ts) (h3 : .semi ∉ ts) {es : List Expr}
    {l' : Lexer} (h : parse src = .ok ⟨[.expr], [], [.list es]⟩ l') :
    ∃ (xs : List (Expr × List Token)) (trail : List Token), es = xs.map (·.1) ∧
      (∀ x ∈ xs, Line .chain x.1 x.2) ∧ (trail = [] ∨ (trail = [.comma] ∧ xs ≠ [])) ∧
      ts = .brackL :: (sepBy .comma (xs.map (·.2)) ++ trail) ++ [.brackR] := by
  obtain ⟨ts', ds, ht', hp, he⟩ := (C96_one_line_programs hn _).1 ⟨l', h⟩
  obtain rfl := C95_unambiguous ht ht'
  have : (⟨[.expr], [], [.list es]⟩ : Ast) = Ast.ofDecls [.expr (.list es)] := rfl
  rw [this] at he
  rw [← ofDecls_inj he] at hp
  cases hp with
  | @expr _ _ us vs semi hw hr hc =>
    cases hr with
    | nil =>
      cases semi with
      | true => simp at h3
      | false =>
        simp only [Bool.false_eq_true, if_false, List.append_nil] at *
        obtain ⟨xs, rfl, rfl, g1, g2⟩ := hw.list_inv
        have g3 : ∀ x ∈ xs, Token.lambda ∉ x.2.1 ∧ Token.let_ ∉ x.2.1 := by
          intro x hx
          have hsub : ∀ t ∈ x.2.1, t ∈ (xs.map elemToks).flatten := fun t ht =>
            List.mem_flatten.2 ⟨_, List.mem_map_of_mem hx, by simp [elemToks, ht]⟩
          exact ⟨fun hm => h1 (by simp [hsub _ hm]), fun hm => h2 (by simp [hsub _ hm])⟩
        obtain ⟨trail, htr, hts⟩ := elems_commas g1 g2 g3
        refine ⟨xs.map fun x => (x.1, x.2.1), trail, by simp, ?_, ?_, ?_⟩
        · intro x hx
          obtain ⟨y, hy, rfl⟩ := List.mem_map.1 hx
          exact g1 y hy
        · simpa using htr
        · rw [hts]; simp [Function.comp_def]

/-! ### C104 -/

/-- C104, what holds: in every accepted program without lambdas the brackets match. -/
theorem C104_brackets_partial {src : Text} {cs : List CTok} (hl : Lexes src cs)
    (hn : .lambda ∉ cs.map (·.1)) {ast : Ast} {l' : Lexer} (h : parse src = .ok ast l') :
    Matched (cs.map (·.1)) := by
  obtain ⟨cs', ds, h1, h2, _⟩ := (C81_program src ast).1 ⟨l', h⟩
  obtain rfl := hl.unique h1
  exact h2.matched hn

end

theorem Matched.count {ts : List Token} (h : Matched ts) :
    ts.count .brackL = ts.count .brackR := by
  induction h with
  | nil => rfl
  | flat ht _ ih =>
    rename_i t ts _
    cases t <;> simp_all [Token.flat]
  | paren _ _ ih1 ih2 => simp only [List.count_append, List.count_cons] at *; simp; omega
  | brack _ _ ih1 ih2 => simp only [List.count_append, List.count_cons] at *; simp; omega

section
attribute [local instance] asciiTables asciiTables_lawful

theorem of_value {src : Text} {ast : Ast} (h : (parse src).value? = some ast) :
    ∃ l', parse src = .ok ast l' := by
  cases hp : parse src with
  | ok a l' => rw [hp] at h; cases h; exact ⟨l', rfl⟩
  | _ => rw [hp] at h; cases h

theorem exTokens {src : Text} {ts : List Token} (n : Nat) (h : TLex.tokens n src = .ok ts)
    (hl : ts.length < n) (he : ∀ e, .error e ∉ ts) : Tokenizes src ts :=
  TLex.has_iff.1 (TLex.Has.of_tokens h hl he)

/-- The hypotheses of C101 are met. -/
example : ∃ cs, Lexes t!"f; \\() -> x" cs ∧ Contains (cs.map (·.1)) [.lambda, .parenL, .parenR] := by
  have ht : Tokenizes t!"f; \\() -> x"
      [.lower t!"f", .semi, .lambda, .parenL, .parenR, .arrow, .lower t!"x"] :=
    exTokens 9 (by decide +kernel) (by decide) (by simp)
  obtain ⟨cs, h, he, _⟩ := (C95_lexical_grammar (fun h =>
    absurd (h.subset (by simp : '\n' ∈ ['\n', '\r'])) (by decide)) _).2 ht
  exact ⟨cs, h, [.lower t!"f", .semi], [.arrow, .lower t!"x"], by rw [he]; rfl⟩

example : (parse t!"\\() -> x").value? = none ∧ (parse t!"\\[] -> x").value? = none ∧
    (parse t!"\\5 -> x").value? = none ∧ (parse t!"\\x -> x").value?.isSome := by decide +kernel

/-- A negated name in a list, and one in parentheses. -/
example : (parse t!"\\[-y] -> x").value? =
      some ⟨[.expr], [], [.lam (.arr [.var t!"y"]) (.var (.lower t!"x"))]⟩ ∧
    (parse t!"\\(-y) -> x").value? =
      some ⟨[.expr], [], [.lam (.neg (.var t!"y")) (.var (.lower t!"x"))]⟩ := by decide +kernel

example : '\n' ∉ t!"\\[-y] -> x" ∧ PatWritten (.var t!"y") [.lower t!"y"] ∧
    Line .chain (.var (.lower t!"x")) [.lower t!"x"] ∧ Tokenizes t!"\\[-y] -> x"
      (.lambda :: (.brackL :: .dash :: [.lower t!"y"] ++ [.brackR]) ++ .arrow :: [.lower t!"x"]) :=
  ⟨by decide, ⟨.var _, by simp⟩, .last (.head (.lower _)),
    exTokens 9 (by decide +kernel) (by decide) (by simp)⟩

example : '\n' ∉ t!"\\(a, b@_) -> x" ∧ Tokenizes t!"\\(a, b@_) -> x"
      (.lambda :: (.parenL :: sepBy .comma [[.lower t!"a"], [.lower t!"b", .at_, .underscore]] ++
        [.parenR]) ++ .arrow :: [.lower t!"x"]) ∧
      PatWritten (.as_ t!"b" .wild) [.lower t!"b", .at_, .underscore] :=
  ⟨by decide, exTokens 12 (by decide +kernel) (by decide) (by simp [sepBy]), .as_ _ .wild, by simp⟩

/-- `-` cannot be declared without a precedence or named; other operators can. -/
example : (parse t!"infixl -").value? = none ∧ (parse t!"(-)").value? = none ∧
    (parse t!"infixl +").value?.isSome ∧ (parse t!"(+)").value?.isSome ∧
    (parse t!"infixl 6 -").value? = some ⟨[.infix_], [⟨[.standard t!"-"], ⟨6, .left⟩⟩], []⟩ := by
  decide +kernel

/-- The hypotheses of C102 are met. -/
example : ∃ cs, Lexes t!"infixl -" cs ∧ Contains (cs.map (·.1)) [.infixL, .dash] := by
  have ht : Tokenizes t!"infixl -" [.infixL, .dash] :=
    exTokens 9 (by decide +kernel) (by decide) (by simp)
  obtain ⟨cs, h, he, _⟩ := (C95_lexical_grammar (fun h =>
    absurd (h.subset (by simp : '\n' ∈ ['\n', '\r'])) (by decide)) _).2 ht
  exact ⟨cs, h, [], [], by rw [he]; rfl⟩

example : OpTok (.standard t!"@") .at_ ∧ '\n' ∉ t!"infixr 0 @" ∧
    Tokenizes t!"infixr 0 @" [Assoc.right.kwTok, .lit (.int 0), .at_] :=
  ⟨.at_, by decide, exTokens 9 (by decide +kernel) (by decide) (by simp [Assoc.kwTok])⟩

/-- Lists with too many and too few commas. -/
example : (parse t!"[x, y,]").value? = (parse t!"[x, y]").value? ∧
    (parse t!"[x \\y -> y]").value? = (parse t!"[x, \\y -> y]").value? ∧
    (parse t!"[x, y]").value?.isSome ∧ (parse t!"[x, \\y -> y]").value?.isSome := by decide +kernel

/-- The hypotheses of C103 are met. -/
example : Tokenizes t!"[x \\y -> y]" (.brackL :: ([.lower t!"x"] ++
      [.lambda, .lower t!"y", .arrow, .lower t!"y"]) ++ [.brackR]) ∧
    Line .atom (.lam (.var t!"y") (.var (.lower t!"y")))
      [.lambda, .lower t!"y", .arrow, .lower t!"y"] :=
  ⟨exTokens 9 (by decide +kernel) (by decide) (by simp),
    Line.lam (ps := [(.var t!"y", [.lower t!"y"])]) (by simp)
      (by intro x hx; rw [List.mem_singleton.1 hx]; exact ⟨.var _, by simp⟩)
      (.last (.head (.lower _)))⟩

example : Tokenizes t!"[x, y z,]" [.brackL, .lower t!"x", .comma, .lower t!"y", .lower t!"z",
      .comma, .brackR] ∧ ∃ es l', parse t!"[x, y z,]" = .ok ⟨[.expr], [], [.list es]⟩ l' :=
  ⟨exTokens 9 (by decide +kernel) (by decide) (by simp),
    [.var (.lower t!"x"), .app (.var (.lower t!"y")) (.var (.lower t!"z"))],
    of_value (by decide +kernel)⟩

/-- C104 fails: a program is accepted although a bracket in it is closed twice. -/
theorem C104_brackets_wrong : ∃ src cs ast l', Lexes src cs ∧ parse src = .ok ast l' ∧
    ¬ Matched (cs.map (·.1)) := by
  have ht : Tokenizes t!"\\[]] -> x"
      [.lambda, .brackL, .brackR, .brackR, .arrow, .lower t!"x"] :=
    exTokens 9 (by decide +kernel) (by decide) (by simp)
  obtain ⟨cs, h, he, _⟩ := (C95_lexical_grammar (fun h =>
    absurd (h.subset (by simp : '\n' ∈ ['\n', '\r'])) (by decide)) _).2 ht
  obtain ⟨l', hp⟩ := of_value (src := t!"\\[]] -> x")
    (ast := ⟨[.expr], [], [.lam (.arr []) (.var (.lower t!"x"))]⟩) (by decide +kernel)
  refine ⟨_, cs, _, l', h, hp, fun hm => ?_⟩
  have := hm.count
  rw [he] at this
  exact absurd this (by decide)

/-- The hypotheses of C104 are met. -/
example : ∃ cs ast l', Lexes t!"[(x, [y]), ()]" cs ∧ .lambda ∉ cs.map (·.1) ∧
    parse t!"[(x, [y]), ()]" = .ok ast l' := by
  have ht : Tokenizes t!"[(x, [y]), ()]" [.brackL, .parenL, .lower t!"x", .comma, .brackL,
      .lower t!"y", .brackR, .parenR, .comma, .parenL, .parenR, .brackR] :=
    exTokens 15 (by decide +kernel) (by decide) (by simp)
  obtain ⟨cs, h, he, _⟩ := (C95_lexical_grammar (fun h =>
    absurd (h.subset (by simp : '\n' ∈ ['\n', '\r'])) (by decide)) _).2 ht
  obtain ⟨l', hp⟩ := of_value (src := t!"[(x, [y]), ()]") (ast := ⟨[.expr], [], [.list [.tup
    [.var (.lower t!"x"), .list [.var (.lower t!"y")]], .tup []]]⟩) (by decide +kernel)
  exact ⟨cs, _, l', h, by rw [he]; simp, hp⟩

end
end Pemdas
