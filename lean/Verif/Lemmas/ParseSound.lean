import Verif.Lemmas.ParseRun
/-
Every parsing function, on success, has consumed tokens that the grammar derives for its result;
its errors and panics are as described by `ErrAt` and `PanicAt`; and with enough fuel it does not
run out.
-/
namespace Pemdas
open Lexer
variable [CharTables]

omit [CharTables] in
theorem sepBy_cons (c : Token) (ts : List Token) (rest : List (List Token)) :
    sepBy c (ts :: rest) = ts ++ (rest.map (c :: ·)).flatten := by
  induction rest generalizing ts with
  | nil => simp [sepBy]
  | cons us rest ih => rw [sepBy, ih]; simp; simp

/-! ### combinators -/

theorem Run.eat (l : Lexer) (t : Token) (he : t ∈ wanted) (hne : t ≠ .eof) :
    Run l (fun _ ts _ => ts = [t]) (P.eat t l) := by
  unfold P.eat
  refine Run.loc ?_
  refine Run.look fun t' l1 h0 hs hp => ?_
  by_cases h : t' = t
  · subst h
    simp only [if_true]
    exact Run.bump h0 hs (wanted_ne he) hne fun l2 h2 => Run.ret rfl
  · simp only [h, if_false]
    exact ⟨[], l, t', .refl, hp, .inr ⟨t, fun h' => h h'.symm, he, rfl⟩⟩

/-- An opening token that has been seen. -/
theorem Run.eatShown (l : Lexer) (t : Token) (he : ∀ x, t ≠ .error x) (hne : t ≠ .eof) (hs : Shows l t) :
    Run l (fun _ ts _ => ts = [t]) (P.eat t l) := by
  unfold P.eat
  refine Run.loc ?_
  refine Run.look fun t' l1 h0 hs' hp => ?_
  have : P.peek l = .ok t l := by
    unfold P.peek Lexer.peek
    rw [hs hne]
  rw [this] at hp
  cases hp
  simp only [if_true]
  exact Run.bump h0 hs' he hne fun l2 h2 => Run.ret rfl

theorem Run.peekOn (l : Lexer) (t : Token) :
    Run l (fun b ts l' => ts = [] ∧ ∃ t', Shows l' t' ∧ (b = true ↔ t = t')) (P.peekOn t l) := by
  unfold P.peekOn
  refine Run.look fun t' l1 h0 hs hp => ?_
  exact Run.pure h0 ⟨rfl, t', hs, by simp⟩

theorem Run.isDone (l : Lexer) :
    Run l (fun b ts l' => ts = [] ∧ ∃ t', Shows l' t' ∧ (b = true ↔ t' = .eof)) (P.isDone l) := by
  unfold P.isDone
  refine Run.look fun t' l1 h0 hs hp => ?_
  exact Run.pure h0 ⟨rfl, t', hs, by simp⟩

theorem Shows.peek {l : Lexer} {t : Token} (h : Shows l t) (hne : t ≠ .eof) :
    P.peek l = .ok t l := by
  unfold P.peek Lexer.peek
  rw [h hne]

/-- Whether a token can be consumed without looking at it. -/
theorem Run.bumpOn' (l : Lexer) (t : Token) (he : ∀ e, t ≠ .error e) (hne : t ≠ .eof) :
    Run l (fun b ts _ => (ts = if b then [t] else []) ∧ (Shows l t → b = true))
      (P.bumpOn t l) := by
  unfold P.bumpOn
  refine Run.bind_base (Q := fun b ts l' => ts = [] ∧ (b = true → Shows l' t) ∧
    (Shows l t → b = true)) ?_ ?_
  · unfold P.peekOn
    refine Run.look fun t' l1 h0 hs hp => ?_
    refine Run.pure h0 ⟨rfl, ?_, ?_⟩
    · intro h; have := of_decide_eq_true h; subst this; exact hs
    · intro h; rw [h.peek hne] at hp; cases hp; simp
  rintro b _ l1 h1 ⟨rfl, hs, hb⟩
  cases b with
  | true => exact Run.bump h1 (hs rfl) he hne fun l2 h2 => Run.ret ⟨rfl, fun _ => rfl⟩
  | false => exact Run.pure h1 ⟨rfl, hb⟩

theorem Run.bumpOn (l : Lexer) (t : Token) (he : ∀ e, t ≠ .error e) (hne : t ≠ .eof) :
    Run l (fun b ts _ => ts = if b then [t] else []) (P.bumpOn t l) :=
  Run.mono (Run.bumpOn' l t he hne) fun _ _ _ _ h => h.1

/-! ### operators and fixity declarations -/

theorem Run.infixOp (l : Lexer) :
    Run l (fun op ts _ => ∃ t, OpTok op t ∧ ts = [t]) (Parser.infixOp l) := by
  unfold Parser.infixOp
  refine Run.loc ?_
  refine Run.look fun t l1 h0 hs hp => ?_
  split
  · exact Run.bump h0 hs (by simp) (by simp) fun l2 h2 => Run.ret ⟨_, .dash, rfl⟩
  · exact Run.bump h0 hs (by simp) (by simp) fun l2 h2 => Run.ret ⟨_, .at_, rfl⟩
  · rename_i s b
    refine Run.bump h0 hs (by simp) (by simp) fun l2 h2 => Run.ret ⟨_, ?_, rfl⟩
    cases b
    · exact .standard s
    · exact .promoted s
  · exact Run.fail hp

theorem peek_ne_err (l : Lexer) (e : ParseError) (l' : Lexer) : P.peek l ≠ .err e l' := by
  unfold P.peek
  split <;> simp

theorem Run.tryInfix (l : Lexer) :
    Run l (fun r ts _ => (r = none ∧ ts = []) ∨ ∃ op t, r = some op ∧ OpTok op t ∧ ts = [t])
      (Parser.tryInfix l) := by
  unfold Parser.tryInfix
  have h := Run.infixOp l
  cases hr : Parser.infixOp l with
  | ok op l1 =>
    rw [hr] at h
    obtain ⟨ts, h1, t, h2, h3⟩ := h
    exact ⟨ts, h1, .inr ⟨op, t, rfl, h2, h3⟩⟩
  | err e l1 =>
    have : Eats l [] l1 := by
      unfold Parser.infixOp at hr
      revert hr
      show P.bind P.loc _ l = _ → _
      unfold P.bind P.loc
      simp only
      show P.bind P.peek _ l = _ → _
      unfold P.bind
      have h := Run.peek l
      cases hp : P.peek l with
      | ok t l2 =>
        rw [hp] at h
        obtain ⟨_, h1, rfl, h2, _⟩ := h
        simp only
        intro hr
        split at hr
        all_goals first
          | (cases hr; done)
          | (cases hr; exact h1)
          | skip
      | err e l2 => exact absurd hp (peek_ne_err _ _ _)
      | panic p => intro h; cases h
      | fuel => intro h; cases h
    exact ⟨[], this, .inl ⟨rfl, rfl⟩⟩
  | panic p => rw [hr] at h; exact h
  | fuel => rw [hr] at h; exact h

/-- The precedence part of `fixity`. -/
theorem Run.fixityPrec {l l1 : Lexer} {a : Assoc} (h1 : Eats l [a.kwTok] l1) :
    Run l (fun (p : Nat) ts _ => (p ≤ 9 ∧ ts = [a.kwTok, .lit (.int p)]) ∨
        (p = 9 ∧ ts = [a.kwTok])) (Parser.fixityPrec l1) := by
  have h := Run.peek l1
  unfold Parser.fixityPrec
  rw [P.bind_ok (m := P.loc) (a := l1.currLoc) (l' := l1) rfl]
  cases hp : P.peek l1 with
  | ok t l2 =>
    rw [hp] at h
    obtain ⟨_, h2, rfl, h3, _⟩ := h
    rw [P.bind_ok hp]
    split
    · rename_i n _
      have hc := h3 (by simp)
      rw [P.bump_bind hc]
      have h4 : Eats l ([a.kwTok] ++ [] ++ [.lit (.int n)]) { l2 with curr := none } :=
        (h1.trans h2).bump hc (by simp)
      split
      · rename_i hn; exact ⟨_, h4, .inl ⟨hn, rfl⟩⟩
      · rename_i hn
        exact ⟨_, _, h4, .inr ⟨rfl, [], a, n, rfl, Nat.lt_of_not_le hn⟩⟩
    · exact ⟨_, h1.trans h2, .inr ⟨rfl, rfl⟩⟩
    · exact ⟨_, l1, t, h1, hp, .inl rfl⟩
  | err e l1 => exact absurd hp (peek_ne_err _ _ _)
  | panic p =>
    rw [hp] at h
    show Run l _ (P.bind _ _ l1)
    unfold P.bind; rw [hp]
    exact PanicAt.after h1 h
  | fuel => rw [hp] at h; exact absurd h id

theorem Run.fixity (l : Lexer) :
    Run l (fun (fx : Fixity) ts _ =>
      (fx.prec ≤ 9 ∧ ts = [fx.assoc.kwTok, .lit (.int fx.prec)]) ∨
      (fx.prec = 9 ∧ ts = [fx.assoc.kwTok])) (Parser.fixity l) := by
  unfold Parser.fixity
  refine Run.bind_base (Q := fun a ts _ => ts = [Assoc.kwTok a]) ?_ ?_
  · unfold Parser.fixityAssoc
    refine Run.loc ?_
    refine Run.look fun t l1 h0 hs hp => ?_
    split
    · exact Run.bump h0 hs (by simp) (by simp) fun l2 h2 => Run.ret rfl
    · exact Run.bump h0 hs (by simp) (by simp) fun l2 h2 => Run.ret rfl
    · exact Run.bump h0 hs (by simp) (by simp) fun l2 h2 => Run.ret rfl
    · exact Run.fail hp
  rintro a _ l1 h1 rfl
  have h := Run.fixityPrec h1
  show Run l _ (P.bind _ _ l1)
  unfold P.bind
  cases hr : Parser.fixityPrec l1 with
  | ok p l2 => rw [hr] at h; obtain ⟨ts, h2, h3⟩ := h; exact ⟨ts, h2, h3⟩
  | err e l2 => rw [hr] at h; exact h
  | panic p => rw [hr] at h; exact h
  | fuel => rw [hr] at h; exact h

/-- Result of the loop over further operators. -/
def MoreOps (ops ops' : List Infix) (ts : List Token) : Prop :=
  ∃ xs : List (Infix × Token), (∀ x ∈ xs, OpTok x.1 x.2) ∧ ops' = ops ++ xs.map (·.1) ∧
    ts = (xs.map fun x => [Token.comma, x.2]).flatten

variable [LawfulTables]

theorem Run.infixLoop (n : Nat) (l : Lexer) (ops : List Infix) (hn : l.weight < n) :
    Run l (fun ops' ts _ => MoreOps ops ops' ts) (Parser.infixLoop n ops l) := by
  induction n generalizing l ops with
  | zero => omega
  | succ n ih =>
    unfold Parser.infixLoop
    refine Run.bind (Run.bumpOn l .comma (by simp) (by simp)) ?_
    rintro b ts l1 h1 rfl
    cases b with
    | false => exact Run.ret ⟨[], by simp, by simp, by simp⟩
    | true =>
      simp only [if_true] at h1 ⊢
      refine Run.bind (Run.infixOp l1) ?_
      rintro op _ l2 h2 ⟨t, ht, rfl⟩
      have hw1 := h1.weight
      have hw2 := h2.weight
      simp only [List.length_singleton] at hw1 hw2
      refine Run.mono (ih l2 _ (by omega)) ?_
      rintro ops' ts l3 h3 ⟨xs, h4, rfl, rfl⟩
      exact ⟨(op, t) :: xs, by simpa [ht] using h4, by simp, by simp⟩

theorem Run.infixDecl (n : Nat) (l : Lexer) (hn : l.weight < n) :
    Run l (fun d ts _ => DeclToks d ts) (Parser.infixDecl n l) := by
  unfold Parser.infixDecl
  refine Run.bind (Run.fixity l) ?_
  rintro fx ts l1 h1 hfx
  refine Run.bind (Run.infixOp l1) ?_
  rintro op _ l2 h2 ⟨t, ht, rfl⟩
  have hw1 := h1.weight
  have hw2 := h2.weight
  refine Run.bind (Run.infixLoop n l2 [op] (by omega)) ?_
  rintro ops us l3 h3 ⟨xs, h4, rfl, rfl⟩
  refine Run.ret ?_
  have hall : ∀ x ∈ (op, t) :: xs, OpTok x.1 x.2 := by simpa [ht] using h4
  have hsep : sepBy .comma (((op, t) :: xs).map fun x => [x.2]) =
      t :: (xs.map fun x => [Token.comma, x.2]).flatten := by
    rw [List.map_cons, sepBy_cons, List.map_map]; rfl
  obtain ⟨p, a⟩ := fx
  rcases hfx with ⟨h5, rfl⟩ | ⟨h5, rfl⟩
  · have := DeclToks.withPrec (a := a) h5 (by simp : (op, t) :: xs ≠ []) hall
    rw [hsep] at this
    simpa using this
  · have := DeclToks.noPrec (a := a) (by simp : (op, t) :: xs ≠ []) hall
    rw [hsep] at this
    simp only at h5
    subst h5
    simpa using this

end Pemdas
