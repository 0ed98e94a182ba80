import Verif.Lemmas.ParseExact
/-
Declarations, programs, and the tokens of a source: the parser accepts exactly the layout grammar.
-/
namespace Pemdas
open Lexer Parser
set_option linter.unusedSectionVars false
variable [CharTables] [LawfulTables]

/-! ### upper-case identifiers are never lexed -/

theorem number_ne_upper {l l' : Lexer} {s : Symbol} : l.number ≠ .ok (.upper s, l') := by
  intro h
  unfold number at h
  simp only [bind, Except.bind] at h
  repeat' split at h
  all_goals cases h

theorem operator_ne_upper {l l' : Lexer} {s : Symbol} : l.operator ≠ .ok (.tok (.upper s) l') := by
  intro h
  unfold operator at h
  simp only [bind, Except.bind] at h
  repeat' split at h
  all_goals cases h

theorem string_ne_upper {l : Lexer} {s : Symbol} : l.string.1 ≠ .upper s := by
  intro h
  unfold string at h
  simp only at h
  repeat' split at h
  all_goals cases h

theorem unicodeEscape_ne_upper {l l' : Lexer} {loc : Loc} {s : Symbol} :
    l.unicodeEscape loc ≠ .ok (.upper s, l') := by
  intro h
  unfold unicodeEscape at h
  simp only [bind, Except.bind] at h
  repeat' split at h
  all_goals cases h

theorem charEscape_ne_upper {l l' : Lexer} {loc : Loc} {s : Symbol} :
    l.charEscape loc ≠ .ok (.upper s, l') := by
  intro h
  unfold charEscape at h
  simp only at h
  repeat' split at h
  all_goals first | exact unicodeEscape_ne_upper h | cases h

theorem charLit_ne_upper {l l' : Lexer} {s : Symbol} : l.charLit ≠ .ok (.upper s, l') := by
  intro h
  unfold charLit at h
  simp only [bind, Except.bind] at h
  repeat' split at h
  all_goals first | exact charEscape_ne_upper h | cases h

theorem backtick_ne_upper {l l' : Lexer} {s : Symbol} : l.backtick ≠ .ok (.upper s, l') := by
  intro h
  unfold backtick promotedOperator at h
  simp only [bind, Except.bind] at h
  repeat' split at h
  all_goals cases h

theorem ident_ne_upper {l l' : Lexer} {c : Char} {s : Symbol} : l.ident c ≠ .ok (.upper s, l') := by
  intro h
  unfold ident identifier at h
  simp only [bind, Except.bind] at h
  repeat' split at h
  all_goals try cases h
  rename_i h2
  split at h2
  · rename_i hl
    injection h2 with h2
    split at h2
    · rename_i hu
      rw [LawfulTables.lower_not_upper c hl] at hu
      cases hu
    · cases h2
  · cases h2

theorem dispatch_ne_upper {l l' : Lexer} {c : Char} {s : Symbol} :
    l.dispatch c ≠ .ok (.tok (.upper s) l') := by
  intro h
  have hp := dispatch_pass h
  generalize hr : OpRes.tok (.upper s) l' = r at hp
  cases hp with
  | punct hc => cases hr; simp at hc
  | char _ hx => cases hr; exact charLit_ne_upper hx
  | string => injection hr with h1 h2; exact string_ne_upper h1.symm
  | number _ hx => cases hr; exact number_ne_upper hx
  | backtick _ hx => cases hr; exact backtick_ne_upper hx
  | ident _ hx => cases hr; exact ident_ne_upper hx
  | op _ hx => cases hr; exact operator_ne_upper hx
  | unknown => cases hr

theorem lexN_ne_upper (n : Nat) {l l' : Lexer} {s : Symbol} : lexN n l ≠ .ok (.upper s, l') := by
  induction n generalizing l with
  | zero => intro h; cases h
  | succ n ih =>
    intro h
    unfold lexN at h
    repeat' split at h
    · cases h
    · cases h
    · rename_i hd
      cases h
      exact dispatch_ne_upper hd
    · exact ih h

theorem next_ne_upper {l l' : Lexer} {s : Symbol} {sp : LocSpan} :
    l.next ≠ .ok (some (.upper s, sp), l') := by
  intro h
  exact lexN_ne_upper _ (next_some h).1

/-! ### the tokens of a source -/

/-- A token with the column at which its span ends. -/
def ctok (x : Token × LocSpan) : CTok := (x.1, x.2.hi.col)

theorem items_cons {n : Nat} {l : Lexer} {x : Token × LocSpan} {xs : List (Token × LocSpan)}
    (h : items (n + 1) l = .ok (x :: xs)) : ∃ l', l.next = .ok (some x, l') ∧ items n l' = .ok xs := by
  unfold items at h
  cases hn : l.next with
  | error p => rw [hn] at h; cases h
  | ok y =>
    obtain ⟨r, l'⟩ := y
    rw [hn] at h
    cases r with
    | none => cases h
    | some z =>
      simp only at h
      cases hi : items n l' with
      | error p => rw [hi] at h; cases h
      | ok ys => rw [hi] at h; cases h; exact ⟨l', rfl, hi⟩

theorem items_nil {n : Nat} {l : Lexer} (h : items (n + 1) l = .ok []) :
    ∃ l', l.next = .ok (none, l') := by
  unfold items at h
  repeat' split at h
  all_goals cases h
  rename_i l' hx
  exact ⟨l', hx⟩

theorem items_length {n : Nat} {l : Lexer} {xs : List (Token × LocSpan)} (h : items n l = .ok xs) :
    xs.length ≤ n := by
  induction n generalizing l xs with
  | zero => cases h; exact Nat.le_refl _
  | succ n ih =>
    cases xs with
    | nil => exact Nat.zero_le _
    | cons x xs =>
      obtain ⟨l', _, h2⟩ := items_cons h
      have := ih h2
      simp only [List.length_cons]; omega

theorem items_done {n : Nat} {l : Lexer} {xs : List (Token × LocSpan)} (h : items n l = .ok xs)
    (hn : xs.length < n) (m : Nat) (hm : xs.length ≤ m) : items m l = .ok xs := by
  induction xs generalizing n l m with
  | nil =>
    cases n with
    | zero => simp at hn
    | succ n =>
      obtain ⟨l', h1⟩ := items_nil h
      exact items_of_none h1 m
  | cons x xs ih =>
    cases n with
    | zero => simp at hn
    | succ n =>
      obtain ⟨l', h1, h2⟩ := items_cons h
      cases m with
      | zero => simp at hm
      | succ m =>
        have := ih h2 (by simpa using hn) m (by simpa using hm)
        unfold items
        rw [h1]; simp only [this]

theorem next_curr {l l' : Lexer} {r : Option (Token × LocSpan)} (h : l.next = .ok (r, l'))
    (hc : l.curr = none) : l'.curr = none := by
  unfold Lexer.next at h
  split at h
  · cases h
  · rename_i hx
    split at h <;> (cases h; rw [(reach_lex hx).curr, hc])

theorem stream_of_items {n : Nat} {l : Lexer} {xs : List (Token × LocSpan)} (hc : l.curr = none)
    (h : items n l = .ok xs) (hn : xs.length < n) : Stream l (xs.map ctok) := by
  induction xs generalizing n l with
  | nil =>
    cases n with
    | zero => simp at hn
    | succ n =>
      obtain ⟨l', h1⟩ := items_nil h
      refine ⟨l', ?_⟩
      unfold Lexer.next at h1
      unfold P.peek Lexer.peek
      rw [hc]
      simp only
      cases hx : l.lex with
      | error p => rw [hx] at h1; cases h1
      | ok y =>
        obtain ⟨t, l1⟩ := y
        rw [hx] at h1
        simp only at h1
        split at h1
        · rename_i ht; cases h1; subst ht; rfl
        · cases h1
  | cons x xs ih =>
    cases n with
    | zero => simp at hn
    | succ n =>
      obtain ⟨l', h1, h2⟩ := items_cons h
      have hc' := next_curr h1 hc
      have h3 := ih hc' h2 (by simpa using hn)
      obtain ⟨t, sp⟩ := x
      obtain ⟨hx, hne, rfl⟩ := next_some h1
      refine ⟨hne, { l' with curr := some t }, ?_, rfl, rfl, ?_⟩
      · unfold P.peek Lexer.peek
        rw [hc]
        simp only [hx]
      · have : ({ l' with curr := none } : Lexer) = l' := by cases l'; simp_all
        intro _
        show Stream { l' with curr := none } _
        rw [this]; exact h3

theorem Lexes.items {src : Text} {ts : List CTok} (h : Lexes src ts) :
    ∃ xs, ts = xs.map ctok ∧ ∀ n, xs.length ≤ n → items n (Lexer.new src) = .ok xs := by
  obtain ⟨xs, n, h1, h2, rfl⟩ := h
  exact ⟨xs, rfl, items_done h2 h1⟩

theorem curr_new' (src : Text) : (Lexer.new src).curr = none := by
  unfold Lexer.new; exact (reach_eatWhitespace _).curr

theorem Lexes.strm {src : Text} {ts : List CTok} (h : Lexes src ts) : Strm (Lexer.new src) ts := by
  obtain ⟨xs, n, h1, h2, rfl⟩ := h
  have hc := curr_new' src
  refine ⟨stream_of_items hc h2 h1, ?_, by rw [hc]; simp⟩
  intro s k hm
  obtain ⟨x, hx, he⟩ := List.mem_map.1 hm
  have : ∀ (n : Nat) (l : Lexer) (xs : List (Token × LocSpan)), Lexer.items n l = .ok xs →
      ∀ x ∈ xs, x.1 ≠ .upper s := by
    intro n
    induction n with
    | zero => intro l xs h x hx; cases h; cases hx
    | succ n ih =>
      intro l xs h x hx
      cases xs with
      | nil => cases hx
      | cons y ys =>
        obtain ⟨l', h3, h4⟩ := items_cons h
        rcases List.mem_cons.1 hx with rfl | hx
        · rintro h5
          obtain ⟨t, sp⟩ := x
          simp only at h5
          subst h5
          exact next_ne_upper h3
        · exact ih _ _ h4 x hx
  exact this n _ _ h2 x hx (by injection he)

theorem Lexes.unique {src : Text} {ts us : List CTok} (h : Lexes src ts) (h' : Lexes src us) :
    ts = us := by
  obtain ⟨xs, rfl, h1⟩ := h.items
  obtain ⟨ys, rfl, h2⟩ := h'.items
  have h3 := h1 (xs.length + ys.length) (by omega)
  rw [h2 (xs.length + ys.length) (by omega)] at h3
  cases h3
  rfl

/-! ### declarations -/

theorem decl_sees (n : Nat) {l : Lexer} {ts : List CTok} (h : Strm l ts) :
    Sees ts (fun d us rest _ => (∃ x, d = .infix_ x ∧ DeclWritten x (us.map (·.1))) ∨
      ∃ e m, d = .expr e ∧ Written .chain (firstCol us) m e us ∧ Follow m rest) (decl n l) := by
  unfold decl
  refine Sees.loc (Sees.look h fun l1 h1 hr => ?_)
  have dec : Sees ts (fun d us rest _ => (∃ x, d = .infix_ x ∧ DeclWritten x (us.map (·.1))) ∨
      ∃ e m, d = .expr e ∧ Written .chain (firstCol us) m e us ∧ Follow m rest)
      ((do let d ← infixDecl n; return .infix_ d : P Decl) l1) := by
    refine Sees.bind (infixDecl_sees n h1) ?_
    rintro d us rest l2 rfl h2 hd
    exact Sees.ret h2 (.inl ⟨d, rfl, by simpa using hd⟩)
  have exp : ∀ t, Sees ts (fun d us rest _ =>
      (∃ x, d = .infix_ x ∧ DeclWritten x (us.map (·.1))) ∨
      ∃ e m, d = .expr e ∧ Written .chain (firstCol us) m e us ∧ Follow m rest)
      ((if beginsExpr t true then (do
        let e ← Parser.expression n
        return .expr e : P Decl) else P.fail (.unexpected t l.currLoc)) l1) := by
    intro t
    cases beginsExpr t true
    · exact Sees.fail
    · refine Sees.bind ((exactSpec n).expression l1 ts h1) ?_
      rintro e us rest l2 rfl h2 ⟨m, he, hf⟩
      have hcol : l1.col = firstCol us := hr.col he.ne_nil
      rw [hcol] at he
      exact Sees.ret h2 (.inr ⟨e, m, rfl, by simpa using he, hf⟩)
  cases ht : nextTok ts with
  | infixL => exact dec
  | infixR => exact dec
  | infix_ => exact dec
  | _ => exact exp _

theorem parseInto_sees (n : Nat) {l : Lexer} {ts : List CTok} (h : Strm l ts) (ast : Ast) :
    Sees ts (fun ast' us rest _ => rest = [] ∧ ∃ ds, WrittenProg ds us ∧
      ast' = ds.foldl Ast.push ast) (parseInto n ast l) := by
  induction n generalizing l ts ast with
  | zero => trivial
  | succ n ih =>
    unfold parseInto
    refine Sees.bind (Sees.isDone h) ?_
    rintro b us ts l1 rfl h1 ⟨rfl, _, rfl⟩
    by_cases hb : nextTok ts = .eof
    · simp only [hb, decide_true, if_true]
      have : ts = [] := by
        cases ts with
        | nil => rfl
        | cons x ts => exact absurd hb h1.1.1
      exact Sees.ret h1 ⟨this, [], .nil, rfl⟩
    · simp only [hb, decide_false, if_false, Bool.false_eq_true]
      refine Sees.bind (decl_sees n h1) ?_
      rintro d us rest l2 rfl h2 hd
      refine Sees.bind (Sees.bumpOn (by simp) h2) ?_
      rintro b vs rest l3 rfl h3 hb
      refine Sees.mono (ih h3 _) ?_
      rintro ast' ws rest l4 rfl ⟨rfl, ds, hds, rfl⟩
      refine ⟨rfl, d :: ds, ?_, rfl⟩
      rw [List.nil_append]
      have hs : ∃ semi, vs = semiToks semi ∧ (semi = none → vs = []) := by
        rcases hb with ⟨_, c, rfl, _⟩ | ⟨_, rfl, _⟩
        · exact ⟨some c, rfl, by simp⟩
        · exact ⟨none, rfl, by simp⟩
      obtain ⟨semi, rfl, hsemi⟩ := hs
      rcases hd with ⟨x, rfl, hx⟩ | ⟨e, m, rfl, he, hf⟩
      · have := WrittenProg.infix_ semi hx hds
        simpa using this
      · have := WrittenProg.expr semi he hds fun hn => by
          rw [hsemi hn] at hf
          simpa using hf
        simpa using this

theorem Written.beginsExpr {c m : Nat} {e : Expr} {cat : ExprCat} {ts rest : List CTok}
    (h : Written cat c m e ts) : Pemdas.beginsExpr (nextTok (ts ++ rest)) false = true := by
  obtain ⟨t, k, ts', rfl, hb, _⟩ := h.starts
  exact hb

theorem WrittenProg.starts {ds : List Decl} {ts : List CTok} (h : WrittenProg ds ts) :
    nextTok ts ≠ .comma ∧ nextTok ts ≠ .semi := by
  cases h with
  | nil => exact ⟨by simp [nextTok], by simp [nextTok]⟩
  | @infix_ d ds us ts semi hd _ =>
    obtain ⟨hd, _⟩ := hd
    cases ts with
    | nil => have := hd.length_pos; simp at this
    | cons x ts =>
      show x.1 ≠ _ ∧ x.1 ≠ _
      rw [List.map_cons] at hd
      generalize x.1 = t at hd ⊢
      generalize ts.map (·.1) = us at hd
      cases hd with
      | @withPrec a => cases a <;> simp [Assoc.kwTok]
      | @noPrec a => cases a <;> simp [Assoc.kwTok]
  | @expr e m ds ts us semi he _ _ =>
    have := he.beginsExpr (rest := semiToks semi ++ us)
    rw [← List.append_assoc] at this
    generalize nextTok (ts ++ semiToks semi ++ us) = t at this ⊢
    cases t <;> simp [Pemdas.beginsExpr] at this ⊢

theorem decl_infix {d : InfixDecl} {ts : List CTok} (h : DeclWritten d (ts.map (·.1))) {n : Nat}
    {l : Lexer} {rest : List CTok} (hs : Stream l (ts ++ rest)) (h1 : nextTok rest ≠ .comma) :
    Gives (decl n l) (.infix_ d) (Stream · rest) := by
  unfold decl
  refine Gives.loc (Gives.look hs fun l1 h2 hr => ?_)
  have dec : Gives ((do let d ← infixDecl n; return .infix_ d : P Decl) l1) (.infix_ d)
      (Stream · rest) :=
    Gives.bind (infixDecl_gives h h2 h1) fun l2 h3 => Gives.ret h3
  have ht : nextTok (ts ++ rest) = .infixL ∨ nextTok (ts ++ rest) = .infixR ∨
      nextTok (ts ++ rest) = .infix_ := by
    obtain ⟨hd, _⟩ := h
    cases ts with
    | nil => have := hd.length_pos; simp at this
    | cons x ts =>
      show x.1 = _ ∨ x.1 = _ ∨ x.1 = _
      rw [List.map_cons] at hd
      generalize x.1 = t at hd ⊢
      generalize ts.map (·.1) = us at hd
      cases hd with
      | @withPrec a => cases a <;> simp [Assoc.kwTok]
      | @noPrec a => cases a <;> simp [Assoc.kwTok]
  rcases ht with ht | ht | ht <;> rw [ht] <;> exact dec

theorem decl_expr {e : Expr} {m : Nat} {ts : List CTok} (h : Written .chain (firstCol ts) m e ts)
    {n : Nat} {l : Lexer} {rest : List CTok} (hs : Stream l (ts ++ rest)) (hf : Follow m rest) :
    Gives (decl n l) (.expr e) (Stream · rest) := by
  unfold decl
  refine Gives.loc (Gives.look hs fun l1 h2 hr => ?_)
  have hb := h.beginsExpr (rest := rest)
  have key : Gives ((do let e ← Parser.expression n; return .expr e : P Decl) l1) (.expr e)
      (Stream · rest) :=
    Gives.bind (h.run.expression h2 (hr.col h.ne_nil) hf n) fun l2 h3 => Gives.ret h3
  generalize nextTok (ts ++ rest) = t at hb
  cases t <;> simp only [Pemdas.beginsExpr, Bool.false_eq_true] at hb <;> exact key

theorem parseInto_gives {ds : List Decl} {ts : List CTok} (h : WrittenProg ds ts) (n : Nat)
    (l : Lexer) (hs : Stream l ts) (ast : Ast) :
    Gives (parseInto n ast l) (ds.foldl Ast.push ast) (fun _ => True) := by
  induction h generalizing n l ast with
  | nil =>
    cases n with
    | zero => exact .inl rfl
    | succ n =>
      unfold parseInto
      exact Gives.bind (Gives.isDone hs) fun l1 h1 => Gives.ret trivial
  | @infix_ d ds us ts semi hd hds ih =>
    cases n with
    | zero => exact .inl rfl
    | succ n =>
      have hst := hds.starts
      unfold parseInto
      refine Gives.bind (Gives.isDone hs) ?_
      rintro l1 ⟨h1, _⟩
      have hne : (ts ++ semiToks semi ++ us).isEmpty = false := by
        have := hd.1.length_pos
        cases ts with
        | nil => simp at this
        | cons => rfl
      rw [hne]
      rw [List.append_assoc] at h1
      refine Gives.bind (decl_infix hd h1 ?_) fun l2 h2 => ?_
      · cases semi with
        | none => exact hst.1
        | some k => simp [semiToks, nextTok]
      · cases semi with
        | none =>
          exact Gives.bind (Gives.bumpOn_false h2 (Ne.symm hst.2)) fun l3 h3 => ih n l3 h3.1 _
        | some k =>
          exact Gives.bind (Gives.bumpOn_true h2) fun l3 h3 => ih n l3 h3.1 _
  | @expr e m ds ts us semi he hds hf ih =>
    cases n with
    | zero => exact .inl rfl
    | succ n =>
      have hst := hds.starts
      unfold parseInto
      refine Gives.bind (Gives.isDone hs) ?_
      rintro l1 ⟨h1, _⟩
      have hne : (ts ++ semiToks semi ++ us).isEmpty = false := by
        have := he.ne_nil
        cases ts with
        | nil => exact absurd rfl this
        | cons => rfl
      rw [hne]
      rw [List.append_assoc] at h1
      refine Gives.bind (decl_expr he h1 ?_) fun l2 h2 => ?_
      · cases semi with
        | none => exact hf rfl
        | some k => exact ⟨rfl, by simp [Token.startsArg]⟩
      · cases semi with
        | none =>
          exact Gives.bind (Gives.bumpOn_false h2 (Ne.symm hst.2)) fun l3 h3 => ih n l3 h3.1 _
        | some k =>
          exact Gives.bind (Gives.bumpOn_true h2) fun l3 h3 => ih n l3 h3.1 _

end Pemdas
