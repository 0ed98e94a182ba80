import Verif.Lemmas.ParseExprs
import Verif.Spec.LexRun
/-
Soundness and adequacy of the fuel for programs; the tokens the parser consumes are those the
lexer's iterator yields.
-/
namespace Pemdas
open Lexer
variable [CharTables]

section
variable [LawfulTables]

theorem Run.decl (n : Nat) (l : Lexer) (hn : 16 * l.weight + 10 ≤ n) :
    Run l (fun d ts _ => (∃ x, d = .infix_ x ∧ DeclToks x ts) ∨
      ∃ e, d = .expr e ∧ ExprToks .chain e ts) (Parser.decl n l) := by
  unfold Parser.decl
  refine Run.loc ?_
  refine Run.look fun t l1 h0 hs hp => ?_
  have hw0 := h0.weight
  have key : Run l1 (fun d ts _ => (∃ x, d = Decl.infix_ x ∧ DeclToks x ts) ∨
      ∃ e, d = Decl.expr e ∧ ExprToks .chain e ts)
      ((do let d ← Parser.infixDecl n; return .infix_ d : P Decl) l1) := by
    refine Run.bind (Run.infixDecl n l1 (by omega)) ?_
    intro d ts l2 h2 hd
    exact Run.ret (.inl ⟨d, rfl, by simpa using hd⟩)
  split
  · exact Run.from h0 key
  · exact Run.from h0 key
  · exact Run.from h0 key
  · split
    · refine Run.from h0 ?_
      refine Run.bind ((exprSpec n).expression l1 (by omega)) ?_
      intro e ts l2 h2 he
      exact Run.ret (.inr ⟨e, rfl, by simpa using he⟩)
    · exact Run.fail hp

omit [CharTables] [LawfulTables] in
theorem DeclToks.length_pos {d : InfixDecl} {ts : List Token} (h : DeclToks d ts) :
    0 < ts.length := by cases h <;> simp

omit [CharTables] [LawfulTables] in
theorem ProgToks.cons {d : Decl} {ds : List Decl} {ts us : List Token} (semi : Bool)
    (h : (∃ x, d = .infix_ x ∧ DeclToks x ts) ∨ ∃ e, d = .expr e ∧ ExprToks .chain e ts)
    (h' : ProgToks ds us) :
    ProgToks (d :: ds) (ts ++ ((if semi then [.semi] else []) ++ us)) := by
  rw [← List.append_assoc]
  rcases h with ⟨x, rfl, hx⟩ | ⟨e, rfl, he⟩
  · exact .infix_ semi hx h'
  · exact .expr semi he h'

theorem lex_eof_again {l l' : Lexer} (h : l.lex = .ok (.eof, l')) :
    l'.chars = [] ∧ l'.lex = .ok (.eof, l') := by
  obtain ⟨m, hr, hm, h1⟩ := lexN_land h (Nat.lt_succ_self _)
  rcases h1 with ⟨h1, _, rfl⟩ | ⟨c, cs, _, _, hd⟩
  · refine ⟨h1, ?_⟩
    have h2 : l'.eatWhitespace = l' := by
      unfold eatWhitespace eatWhile
      simp only [h1, List.length_nil, eatWhileN, ← hm]
      rw [← h1]
    unfold lex
    rw [h1]
    unfold lexN
    rw [h2, h1]
  · exact absurd hd dispatch_ne_eof

theorem peek_eof_again {l l' : Lexer} (h : P.peek l = .ok .eof l') : P.peek l' = .ok .eof l' := by
  unfold P.peek at h
  cases hp : l.peek with
  | error p => rw [hp] at h; cases h
  | ok x =>
    obtain ⟨r, m⟩ := x
    rw [hp] at h
    cases r with
    | some t =>
      cases h
      have := peek_some hp
      unfold P.peek Lexer.peek
      rw [this]
    | none =>
      cases h
      unfold Lexer.peek at hp
      split at hp
      · cases hp
      · rename_i hc
        split at hp
        · cases hp
        · rename_i hx
          cases hp
          have h2 := lex_eof_again hx
          have h3 : l'.curr = none := by rw [(reach_lex hx).curr, hc]
          unfold P.peek Lexer.peek
          rw [h3]
          simp only [h2.2]
        · cases hp

theorem Run.parseInto (n : Nat) (l : Lexer) (ast : Ast) (hn : 16 * l.weight + 11 ≤ n) :
    Run l (fun ast' ts l' => (∃ ds, ast' = ds.foldl Ast.push ast ∧ ProgToks ds ts) ∧
      P.peek l' = .ok .eof l') (Parser.parseInto n ast l) := by
  induction n generalizing l ast with
  | zero => omega
  | succ n ih =>
    unfold Parser.parseInto
    refine Run.bind (Q := fun b ts l' => ts = [] ∧ (b = true → P.peek l' = .ok .eof l')) ?_ ?_
    · unfold P.isDone
      refine Run.look fun t l1 h0 hs hp => ?_
      refine Run.pure h0 ⟨rfl, fun h => ?_⟩
      have := of_decide_eq_true h
      subst this
      exact peek_eof_again hp
    · rintro b _ l1 h1 ⟨rfl, hb⟩
      have hw1 := h1.weight
      cases b with
      | true => exact Run.ret ⟨⟨[], rfl, .nil⟩, hb rfl⟩
      | false =>
        simp only [Bool.false_eq_true, if_false]
        refine Run.bind (Run.decl n l1 (by omega)) ?_
        intro d ts l2 h2 hd
        have hw2 := h2.weight
        have hpos : 0 < ts.length := by
          rcases hd with ⟨_, _, h⟩ | ⟨_, _, h⟩ <;> exact h.length_pos
        refine Run.bind (Run.bumpOn l2 .semi (by simp) (by simp)) ?_
        rintro b _ l3 h3 rfl
        have hw3 := h3.weight
        refine Run.mono (ih l3 _ (by omega)) ?_
        rintro _ us l4 h4 ⟨⟨ds, rfl, hds⟩, hp⟩
        exact ⟨⟨d :: ds, rfl, ProgToks.cons b hd hds⟩, hp⟩

end

/-! ### the tokens consumed are the tokens of the source -/

/-- `ts` are the next tokens that the iterator yields from `l`, and it arrives at `l'`. -/
inductive Steps (l : Lexer) : List Token → Lexer → Prop
  | refl : Steps l [] l
  | step {ts m t sp m'} : Steps l ts m → m.next = .ok (some (t, sp), m') → Steps l (ts ++ [t]) m'

theorem Steps.cons {l m l' : Lexer} {t : Token} {sp : LocSpan} {ts : List Token}
    (h : l.next = .ok (some (t, sp), m)) (h' : Steps m ts l') : Steps l (t :: ts) l' := by
  induction h' with
  | refl => exact Steps.step (ts := []) .refl h
  | step _ hn ih => exact ih.step hn

theorem Steps.items {l m : Lexer} {ts : List Token} (h : Steps l ts m) :
    ∃ zs, zs.map (·.1) = ts ∧ ∀ (k : Nat) (xs : List (Token × LocSpan)), items k m = .ok xs →
      items (ts.length + k) l = .ok (zs ++ xs) := by
  induction h with
  | refl => exact ⟨[], rfl, fun k xs hx => by simpa using hx⟩
  | @step ts m t sp m' _ hn ih =>
    obtain ⟨zs, h1, h2⟩ := ih
    refine ⟨zs ++ [(t, sp)], by simp [h1], fun k xs hx => ?_⟩
    have : Lexer.items (k + 1) m = .ok ((t, sp) :: xs) := by
      unfold Lexer.items; rw [hn]; simp only [hx]
    have h3 := h2 _ _ this
    simp only [List.append_assoc, List.singleton_append]
    rw [← h3]; congr 1; simp; omega

/-- The state of the parser's lexer in terms of the iterator: the next token may already have been
read, or the end may have been reached. -/
def StepsTo (l : Lexer) (ts : List Token) (l' : Lexer) : Prop :=
  (l'.curr = none ∧ Steps l ts l') ∨
  (∃ t, l'.curr = some t ∧ t ≠ .eof ∧ Steps l (ts ++ [t]) { l' with curr := none }) ∨
  (l'.curr = none ∧ l'.chars = [] ∧ ∃ m, Steps l ts m ∧ m.next = .ok (none, l'))

theorem next_of_lex {l l' : Lexer} {t : Token} (h : l.lex = .ok (t, l')) (hne : t ≠ .eof) :
    l.next = .ok (some (t, ⟨l'.prevLoc, l'.currLoc⟩), l') := by
  unfold Lexer.next; rw [h]; simp [hne]

theorem next_of_eof {l l' : Lexer} (h : l.lex = .ok (.eof, l')) : l.next = .ok (none, l') := by
  unfold Lexer.next; rw [h]; simp

theorem lex_nil_eof {l l' : Lexer} {t : Token} (hc : l.chars = []) (h : l.lex = .ok (t, l')) :
    t = .eof := by
  unfold lex at h
  rw [hc] at h
  unfold lexN at h
  have : l.eatWhitespace.chars = [] := by
    have := (reach_eatWhitespace l).length_le
    rw [hc] at this
    exact List.length_eq_zero_iff.1 (Nat.le_zero.1 this)
  rw [this] at h
  simp only at h
  injection h with h; injection h with h _; exact h.symm

theorem Eats.steps [LawfulTables] {l l' : Lexer} {ts : List Token} (h : Eats l ts l')
    (hl : l.curr = none) : StepsTo l ts l' := by
  induction h with
  | refl => exact .inl ⟨hl, .refl⟩
  | @peek ts m m' r _ hp ih =>
    unfold Lexer.peek at hp
    split at hp
    · cases hp; exact ih
    · rename_i hc
      split at hp
      · cases hp
      · rename_i k hx
        cases hp
        have hk : m'.curr = none := by rw [(reach_lex hx).curr, hc]
        have h2 := lex_eof_again hx
        rcases ih with ⟨_, h1⟩ | ⟨t, h1, _⟩ | ⟨_, h1, n, h3, h4⟩
        · exact .inr (.inr ⟨hk, h2.1, m, h1, next_of_eof hx⟩)
        · rw [hc] at h1; cases h1
        · refine .inr (.inr ⟨hk, h2.1, n, h3, ?_⟩)
          have h5 := lex_eof_again (next_none h4)
          rw [h5.2] at hx
          cases hx
          exact h4
      · rename_i t k hne hx
        cases hp
        have hk : k.curr = none := by rw [(reach_lex hx).curr, hc]
        have hne : t ≠ .eof := hne
        rcases ih with ⟨_, h1⟩ | ⟨t, h1, _⟩ | ⟨_, h1, n, h3, h4⟩
        · refine .inr (.inl ⟨t, rfl, hne, ?_⟩)
          have : ({ k with curr := none } : Lexer) = k := by cases k; simp_all
          rw [this]
          exact h1.step (next_of_lex hx hne)
        · rw [hc] at h1; cases h1
        · exact absurd (lex_nil_eof h1 hx) hne
  | @bump ts m t _ hc he ih =>
    rcases ih with ⟨h1, _⟩ | ⟨t', h1, h2, h3⟩ | ⟨h1, _⟩
    · rw [hc] at h1; cases h1
    · rw [hc] at h1; cases h1
      exact .inl ⟨rfl, h3⟩
    · rw [hc] at h1; cases h1

theorem items_of_none {l l' : Lexer} (h : l.next = .ok (none, l')) (k : Nat) :
    items k l = .ok [] := by
  cases k with
  | zero => rfl
  | succ k => unfold Lexer.items; rw [h]

/-- When the parser has reached the end of the input, the tokens it consumed are exactly those the
iterator yields. -/
theorem Eats.items [LawfulTables] {l l' : Lexer} {ts : List Token} (h : Eats l ts l')
    (hl : l.curr = none) (hd : P.peek l' = .ok .eof l') :
    ∃ xs, (∀ k, items (ts.length + k) l = .ok xs) ∧ xs.map (·.1) = ts := by
  have key : ∃ m m', Steps l ts m ∧ m.next = .ok (none, m') := by
    rcases h.steps hl with ⟨h1, h2⟩ | ⟨t, h1, h2, h3⟩ | ⟨_, _, m, h1, h2⟩
    · unfold P.peek Lexer.peek at hd
      rw [h1] at hd
      simp only at hd
      cases hx : l'.lex with
      | error p => rw [hx] at hd; cases hd
      | ok x =>
        obtain ⟨t, m⟩ := x
        rw [hx] at hd
        by_cases ht : t = .eof
        · subst ht; exact ⟨l', m, h2, next_of_eof hx⟩
        · cases t <;> first | exact absurd rfl ht | (cases hd)
    · unfold P.peek Lexer.peek at hd
      rw [h1] at hd
      simp only at hd
      injection hd with hd _
      exact absurd hd h2
    · exact ⟨m, l', h1, h2⟩
  obtain ⟨m, m', h1, h2⟩ := key
  obtain ⟨xs, h3, h4⟩ := h1.items
  exact ⟨xs, fun k => by simpa using h4 k [] (items_of_none h2 k), h3⟩

end Pemdas
