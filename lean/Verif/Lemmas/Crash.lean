import Verif.Lemmas.Prefix
/-
A precedence above 9 after a fixity keyword is never consumed without a panic, nor reported.
-/
namespace Pemdas
open Lexer
set_option linter.unusedSectionVars false

/-- No fixity keyword is followed by an integer above 9. -/
def NoTodo (ts : List Token) : Prop :=
  ∀ p q a n, ts = p ++ Assoc.kwTok a :: .lit (.int n) :: q → n ≤ 9

/-- Whatever follows. -/
def Tame (ts : List Token) : Prop := ∀ vs, NoTodo vs → NoTodo (ts ++ vs)

theorem NoTodo.nil : NoTodo [] := by intro p q a n h; simp at h

theorem NoTodo.one (t : Token) : NoTodo [t] := by
  intro p q a n h
  have := congrArg List.length h
  simp at this
  omega

theorem NoTodo.tail {t : Token} {ts : List Token} (h : NoTodo (t :: ts)) : NoTodo ts :=
  fun p q a n he => h (t :: p) q a n (by rw [he]; rfl)

theorem Tame.nil : Tame [] := fun _ h => h

theorem Tame.noTodo {ts : List Token} (h : Tame ts) : NoTodo ts := by
  have := h [] .nil
  rwa [List.append_nil] at this

theorem Tame.append {ts us : List Token} (h : Tame ts) (h' : Tame us) : Tame (ts ++ us) := by
  intro vs hv
  rw [List.append_assoc]
  exact h _ (h' _ hv)

theorem NoTodo.cons {t : Token} {vs : List Token} (hk : t.isFixityKeyword = false ∨
    ∀ n, vs.head? = some (.lit (.int n)) → n ≤ 9) (h : NoTodo vs) : NoTodo (t :: vs) := by
  intro p q a n he
  cases p with
  | nil =>
    simp only [List.nil_append, List.cons.injEq] at he
    obtain ⟨rfl, rfl⟩ := he
    rcases hk with hk | hk
    · cases a <;> cases hk
    · exact hk n rfl
  | cons x p =>
    simp only [List.cons_append, List.cons.injEq] at he
    exact h p q a n he.2

theorem Tame.one {t : Token} (h : t.isFixityKeyword = false) : Tame [t] :=
  fun _ hv => .cons (.inl h) hv

theorem Tame.prec {t : Token} {n : Nat} (h : n ≤ 9) : Tame [t, .lit (.int n)] := by
  intro vs hv
  exact .cons (.inr (by intro k hk; cases hk; exact h)) (.cons (.inl rfl) hv)

variable [CharTables] [LawfulTables]

/-- The token that was peeked at is still there. -/
def Sure (o : Option Token) (l : Lexer) : Prop := ∀ t, o = some t → t ≠ .eof → l.curr = some t

/-- Where a panic comes from. -/
def FirmPanic (l : Lexer) (p : Panic) : Prop :=
  ∃ us l', Takes l us l' ∧ ((P.peek l' = .panic p ∧ NoTodo (us.map (·.1))) ∨
    (p = .precTodo ∧ ∃ vs a n, us.map (·.1) = vs ++ [Assoc.kwTok a, .lit (.int n)] ∧ 9 < n ∧
      NoTodo (vs ++ [Assoc.kwTok a])))

/-- The tokens consumed contain no precedence above 9 after a keyword, nor is one reported. -/
def P.Firm {α : Type} (o : Option Token) (m : P α) : Prop :=
  ∀ l, Sure o l →
    match m l with
    | .ok _ l' => ∃ us, Takes l us l' ∧ Tame (us.map (·.1))
    | .err e l' => ∃ us, Takes l us l' ∧ NoTodo (us.map (·.1) ++ [e.found])
    | .panic p => FirmPanic l p
    | .fuel => True

namespace P.Firm

theorem pure {α : Type} {o : Option Token} (a : α) : P.Firm o (Pure.pure a : P α) :=
  fun _ _ => ⟨[], .refl, .nil⟩

theorem fail {α : Type} {o : Option Token} {e : ParseError} : P.Firm o (P.fail e : P α) :=
  fun _ _ => ⟨[], .refl, .one _⟩

theorem outOfFuel {α : Type} {o : Option Token} : P.Firm o (P.outOfFuel : P α) := fun _ _ => trivial

theorem loc {o : Option Token} : P.Firm o P.loc := fun _ _ => ⟨[], .refl, .nil⟩

theorem bind' {α β : Type} {o : Option Token} {m : P α} {f : α → P β} {oo : Lexer → α → Option Token}
    (h : P.Firm o m) (hk : ∀ l a l', m l = .ok a l' → Sure (oo l a) l')
    (hf : ∀ l a, P.Firm (oo l a) (f a)) : P.Firm o (m >>= f) := by
  intro l hl
  have h1 := h l hl
  show (match P.bind m f l with | .ok a l' => _ | .err e l' => _ | .panic p => _ | .fuel => True)
  unfold P.bind
  cases hm : m l with
  | ok a l' =>
    rw [hm] at h1
    obtain ⟨us, h2, h3⟩ := h1
    simp only
    have h7 := hf l a l' (hk l a l' hm)
    cases hx : f a l' with
    | ok b l'' =>
      rw [hx] at h7
      obtain ⟨vs, h8, h9⟩ := h7
      exact ⟨us ++ vs, h2.trans h8, by rw [List.map_append]; exact h3.append h9⟩
    | err b l'' =>
      rw [hx] at h7
      obtain ⟨vs, h8, h9⟩ := h7
      exact ⟨us ++ vs, h2.trans h8, by rw [List.map_append, List.append_assoc]; exact h3 _ h9⟩
    | panic p =>
      rw [hx] at h7
      obtain ⟨vs, l'', h8, h9⟩ := h7
      refine ⟨us ++ vs, l'', h2.trans h8, ?_⟩
      rw [List.map_append]
      rcases h9 with h9 | ⟨h9, ws, a, n, e, hn, ht⟩
      · exact .inl ⟨h9.1, h3 _ h9.2⟩
      · exact .inr ⟨h9, us.map (·.1) ++ ws, a, n, by rw [e, List.append_assoc], hn,
          by rw [List.append_assoc]; exact h3 _ ht⟩
    | fuel => trivial
  | err e l' => rw [hm] at h1; exact h1
  | panic p => rw [hm] at h1; exact h1
  | fuel => trivial

theorem bind {α β : Type} {o : Option Token} {m : P α} {f : α → P β} (h : P.Firm o m)
    (hf : ∀ a, P.Firm none (f a)) : P.Firm o (m >>= f) :=
  bind' (oo := fun _ _ => none) h (by simp [Sure]) fun _ => hf

theorem peek {o : Option Token} : P.Firm o P.peek := by
  intro l _
  cases hp : P.peek l with
  | ok t m => exact ⟨[], .peek .refl hp, .nil⟩
  | err e m => exact absurd hp (peek_ne_err _ _ _)
  | panic p => exact ⟨[], l, .refl, .inl ⟨hp, .nil⟩⟩
  | fuel => trivial

theorem peek_sure {l m : Lexer} {t : Token} (h : P.peek l = .ok t m) : Sure (some t) m := by
  intro t' ht hne
  cases ht
  exact peek_curr_of h hne

theorem look {β : Type} {o : Option Token} {f : Token → P β}
    (hf : ∀ t, P.Firm (some t) (f t)) : P.Firm o (P.peek >>= f) :=
  bind' (oo := fun _ t => some t) peek (fun _ _ _ h => peek_sure h) fun _ => hf

theorem locLook {β : Type} {o : Option Token} {f : Loc → Token → P β}
    (hf : ∀ x t, P.Firm (some t) (f x t)) :
    P.Firm o (P.loc >>= fun x => P.peek >>= f x) :=
  bind loc fun x => look (hf x)

theorem look' {α β : Type} {o : Option Token} {f : Token → P α} {g : α → P β}
    (hf : ∀ t, P.Firm (some t) (f t)) (hg : ∀ a, P.Firm none (g a)) :
    P.Firm o (P.peek >>= f >>= g) := bind (look hf) hg

theorem bump {t : Token} (ht : t ≠ .eof) (he : ∀ e, t ≠ .error e)
    (hk : t.isFixityKeyword = false) : P.Firm (some t) P.bump := by
  intro l hl
  have hc := hl t rfl ht
  have : P.bump l = .ok t { l with curr := none } := by unfold P.bump Lexer.bump; rw [hc]
  rw [this]
  exact ⟨[(t, l.currLoc)], .bump .refl hc ht he, .one hk⟩

theorem bumpOn {o : Option Token} {t : Token} (ht : t ≠ .eof) (he : ∀ e, t ≠ .error e)
    (hk : t.isFixityKeyword = false) : P.Firm o (P.bumpOn t) := by
  have : P.bumpOn t = (P.peek >>= fun t' => if t = t' then P.bump >>= fun _ => Pure.pure true
      else Pure.pure false) := by
    funext l
    unfold P.bumpOn P.peekOn
    show P.bind (P.bind P.peek _) _ l = P.bind P.peek _ l
    unfold P.bind
    cases P.peek l with
    | ok t' l' =>
      by_cases h : t = t' <;> simp [h, Pure.pure, P.pure] <;> rfl
    | _ => rfl
  rw [this]
  refine look fun t' => ?_
  split
  · rename_i h; subst h
    exact bind (bump ht he hk) fun _ => pure _
  · exact pure _

theorem peekOn {o : Option Token} {t : Token} : P.Firm o (P.peekOn t) := look fun _ => pure _

theorem isDone {o : Option Token} : P.Firm o P.isDone := look fun _ => pure _

theorem eat {o : Option Token} {t : Token} (ht : t ≠ .eof) (he : ∀ e, t ≠ .error e)
    (hk : t.isFixityKeyword = false) : P.Firm o (P.eat t) := by
  unfold P.eat
  refine locLook fun x t' => ?_
  split
  · rename_i h; subst h
    exact bind (bump ht he hk) fun _ => pure _
  · exact fail

end P.Firm

namespace Parser

theorem infixOp_firm {o : Option Token} : P.Firm o infixOp := by
  unfold infixOp
  refine .locLook fun x t => ?_
  split
  all_goals first
    | exact .fail
    | exact .bind (.bump (by simp) (by simp) rfl) fun _ => .pure _

theorem tryInfix_firm {o : Option Token} : P.Firm o tryInfix := by
  have : ∀ l, (∃ op l', infixOp l = .ok op l') ∨ (∃ p, infixOp l = .panic p ∧ P.peek l = .panic p) ∨
      (∃ e t l', infixOp l = .err e l' ∧ P.peek l = .ok t l') ∨ infixOp l = .fuel := by
    intro l
    unfold infixOp
    simp only [Bind.bind, P.bind, P.loc]
    cases hp : P.peek l with
    | ok t m =>
      cases t <;> first
        | exact .inl ⟨_, _, rfl⟩
        | exact .inr (.inr (.inl ⟨_, _, _, rfl, rfl⟩))
    | err e m => exact absurd hp (peek_ne_err _ _ _)
    | panic p => simp
    | fuel => simp
  intro l hl
  have h := infixOp_firm l hl
  unfold tryInfix
  rcases this l with ⟨op, l', hm⟩ | ⟨p, hm, hp⟩ | ⟨e, t, l', hm, hp⟩ | hm
  · rw [hm] at h ⊢; exact h
  · rw [hm] at h ⊢; exact h
  · rw [hm]; exact ⟨[], .peek .refl hp, .nil⟩
  · rw [hm]; trivial

/-- One step of a proof that a parsing function is firm. -/
macro "firm_step" : tactic => `(tactic| first
  | exact P.Firm.pure _
  | exact P.Firm.fail
  | exact P.Firm.outOfFuel
  | exact P.Firm.loc
  | exact P.Firm.isDone
  | exact P.Firm.peekOn
  | exact P.Firm.bump (by simp) (by simp) rfl
  | exact P.Firm.bumpOn (by simp) (by simp) rfl
  | exact P.Firm.eat (by simp) (by simp) rfl
  | exact infixOp_firm
  | exact tryInfix_firm
  | refine P.Firm.locLook fun _ _ => ?_
  | refine P.Firm.look fun _ => ?_
  | refine P.Firm.look' (fun _ => ?_) fun _ => ?_
  | refine P.Firm.bind ?_ fun _ => ?_
  | split)


theorem bind_assoc' {α β γ : Type} (m : P α) (f : α → P β) (g : β → P γ) :
    (m >>= f) >>= g = m >>= fun a => f a >>= g := by
  funext l
  show P.bind (P.bind m f) g l = P.bind m (fun a => P.bind (f a) g) l
  unfold P.bind
  cases m l <;> rfl

theorem pure_bind' {α β : Type} (a : α) (f : α → P β) : (pure a : P α) >>= f = f a := rfl

/-- What is known of an outcome. -/
def FirmRes {α : Type} (l : Lexer) : PRes α → Prop
  | .ok _ l' => ∃ us, Takes l us l' ∧ Tame (us.map (·.1))
  | .err e l' => ∃ us, Takes l us l' ∧ NoTodo (us.map (·.1) ++ [e.found])
  | .panic p => FirmPanic l p
  | .fuel => True

theorem firm_iff {α : Type} {o : Option Token} {m : P α} :
    P.Firm o m ↔ ∀ l, Sure o l → FirmRes l (m l) := by
  unfold P.Firm FirmRes
  constructor
  · intro h l hl
    have := h l hl
    cases hm : m l <;> rw [hm] at this <;> exact this
  · intro h l hl
    have := h l hl
    cases hm : m l <;> rw [hm] at this <;> exact this

theorem FirmRes.after {α : Type} {o : Option Token} {l m : Lexer} {us : List (Token × Loc)} {f : P α}
    (h : Takes l us m) (ht : Tame (us.map (·.1))) (hs : Sure o m) (hf : P.Firm o f) :
    FirmRes l (f m) := by
  have h1 := firm_iff.1 hf m hs
  cases hx : f m with
  | ok b l'' =>
    rw [hx] at h1
    obtain ⟨vs, h8, h9⟩ := h1
    exact ⟨us ++ vs, h.trans h8, by rw [List.map_append]; exact ht.append h9⟩
  | err b l'' =>
    rw [hx] at h1
    obtain ⟨vs, h8, h9⟩ := h1
    exact ⟨us ++ vs, h.trans h8, by rw [List.map_append, List.append_assoc]; exact ht _ h9⟩
  | panic p =>
    rw [hx] at h1
    obtain ⟨vs, l'', h8, h9⟩ := h1
    refine ⟨us ++ vs, l'', h.trans h8, ?_⟩
    rw [List.map_append]
    rcases h9 with h9 | ⟨h9, ws, a, n, e, hn, ht'⟩
    · exact .inl ⟨h9.1, ht _ h9.2⟩
    · exact .inr ⟨h9, us.map (·.1) ++ ws, a, n, by rw [e, List.append_assoc], hn,
        by rw [List.append_assoc]; exact ht _ ht'⟩
  | fuel => trivial

theorem peek_bind {β : Type} {l m : Lexer} {t : Token} (h : P.peek l = .ok t m) (f : Token → P β) :
    (P.peek >>= f) l = f t m := P.bind_ok h f

/-- After a keyword: a precedence and an operator, or an operator. -/
theorem after_keyword {β : Type} {t : Token} {a : Assoc} (ha : t = a.kwTok) {x : Loc} {l m : Lexer}
    (ht : Takes l [(t, x)] m)
    {g : Nat → Infix → P β} (hg : ∀ n op, P.Firm none (g n op)) :
    FirmRes l ((fixityPrec >>= fun n => infixOp >>= g n) m) := by
  have e : (fixityPrec >>= fun n => infixOp >>= g n) m =
      (P.peek >>= fun t' => (match t' with
        | .lit (.int n) => P.bump >>= fun _ => (if n ≤ precMax then pure n else P.crash .precTodo : P Nat)
        | .affix _ _ => pure precMax
        | t' => P.fail (.unexpected t' m.currLoc) : P Nat) >>= fun n => infixOp >>= g n) m := by
    unfold fixityPrec
    rw [bind_assoc', P.bind_ok (show P.loc m = .ok m.currLoc m from rfl), bind_assoc']
    rfl
  rw [e]
  cases hp : P.peek m with
  | err e m => exact absurd hp (peek_ne_err _ _ _)
  | panic p =>
    simp only [Bind.bind, P.bind, hp]
    exact ⟨_, m, ht, .inl ⟨hp, .one _⟩⟩
  | fuel => simp only [Bind.bind, P.bind, hp]; trivial
  | ok t' m' =>
    rw [peek_bind hp]
    have ht' : Takes l [(t, x)] m' := .peek ht hp
    have hfail : (∀ n, t' ≠ .lit (.int n)) → NoTodo ([t] ++ [t']) := by
      intro hn
      exact .cons (.inr (by intro n h; cases h; exact absurd rfl (hn n))) (.one _)
    have hfirm : ∀ n, P.Firm none (infixOp >>= g n) := fun n => .bind infixOp_firm (hg n)
    cases t' with
    | lit c =>
      cases c with
      | int n =>
        have hc : m'.curr = some (.lit (.int n)) := peek_curr_of hp (by simp)
        simp only [bind_assoc']
        rw [P.bump_bind hc]
        by_cases hn : n ≤ precMax
        · rw [if_pos hn, pure_bind']
          exact FirmRes.after (us := [(t, x), (.lit (.int n), m'.currLoc)])
            (.bump ht' hc (by simp) (by simp)) (Tame.prec hn) (by simp [Sure]) (hfirm n)
        · rw [if_neg hn]
          exact ⟨_, _, .bump ht' hc (by simp) (by simp), .inr ⟨rfl, [], a, n, by rw [ha]; rfl,
            Nat.lt_of_not_le hn, .one _⟩⟩
      | _ => exact ⟨_, ht', hfail (by simp)⟩
    | affix s b =>
      have hc : m'.curr = some (.affix s b) := peek_curr_of hp (by simp)
      simp only
      rw [pure_bind']
      have ho : infixOp m' = .ok (if b then .promoted s else .standard s) { m' with curr := none } := by
        unfold infixOp
        rw [P.bind_ok (show P.loc m' = .ok m'.currLoc m' from rfl), peek_bind (P.peek_curr hc)]
        simp only
        rw [P.bump_bind hc]
        rfl
      rw [P.bind_ok ho]
      refine FirmRes.after (us := [(t, x), (.affix s b, m'.currLoc)])
            (.bump ht' hc (by simp) (by simp)) ?_ (by simp [Sure]) (hg _ _)
      intro vs hv
      exact .cons (.inr (by intro k hk; cases hk)) (.cons (.inl rfl) hv)
    | _ => exact ⟨_, ht', hfail (by simp)⟩

theorem infixLoop_firm (n : Nat) : ∀ {o : Option Token} ops, P.Firm o (infixLoop n ops) := by
  induction n with
  | zero => intro o ops; exact .outOfFuel
  | succ n ih =>
    intro o ops
    unfold infixLoop
    repeat' first | exact ih _ | firm_step

theorem infixDecl_firm (n : Nat) {o : Option Token} : P.Firm o (infixDecl n) := by
  have e : infixDecl n = fixityAssoc >>= fun a => fixityPrec >>= fun p => infixOp >>= fun op =>
      infixLoop n [op] >>= fun ops => pure ⟨ops, ⟨p, a⟩⟩ := by
    unfold infixDecl fixity
    simp only [bind_assoc']
    rfl
  rw [e, firm_iff]
  intro l _
  have hg : ∀ (a : Assoc) (p : Nat) (op : Infix), P.Firm none
      (infixLoop n [op] >>= fun ops => (pure ⟨ops, ⟨p, a⟩⟩ : P InfixDecl)) :=
    fun a p op => .bind (infixLoop_firm n _) fun _ => .pure _
  unfold fixityAssoc
  rw [bind_assoc', P.bind_ok (show P.loc l = .ok l.currLoc l from rfl), bind_assoc']
  cases hp : P.peek l with
  | err e m => exact absurd hp (peek_ne_err _ _ _)
  | panic p =>
    simp only [Bind.bind, P.bind, hp]
    exact ⟨[], l, .refl, .inl ⟨hp, .nil⟩⟩
  | fuel => simp only [Bind.bind, P.bind, hp]; trivial
  | ok t m =>
    rw [peek_bind hp]
    have ht : Takes l [] m := .peek .refl hp
    have key : ∀ (a : Assoc), t = a.kwTok → FirmRes l ((P.bump >>= fun _ => (pure a : P Assoc) >>= fun a =>
        fixityPrec >>= fun p => infixOp >>= fun op =>
        infixLoop n [op] >>= fun ops => (pure ⟨ops, ⟨p, a⟩⟩ : P InfixDecl)) m) := by
      rintro a rfl
      have hc : m.curr = some a.kwTok := peek_curr_of hp (by cases a <;> simp [Assoc.kwTok])
      rw [P.bump_bind hc, pure_bind']
      exact after_keyword rfl (.bump (us := []) ht hc (by cases a <;> simp [Assoc.kwTok])
        (by cases a <;> simp [Assoc.kwTok])) (hg a)
    cases t with
    | infixL => simp only [bind_assoc']; exact key .left rfl
    | infixR => simp only [bind_assoc']; exact key .right rfl
    | infix_ => simp only [bind_assoc']; exact key .neither rfl
    | _ => exact ⟨[], ht, .one _⟩

theorem commaLoop_firm (n : Nat) : ∀ {o : Option Token} k, P.Firm o (commaLoop n k) := by
  induction n with
  | zero => intro o k; exact .outOfFuel
  | succ n ih =>
    intro o k
    unfold commaLoop
    repeat' first | exact ih _ | firm_step

structure PatFirm (n : Nat) : Prop where
  pattern : ∀ {o}, P.Firm o (pattern n)
  innerPat : ∀ {o}, P.Firm o (innerPat n)
  brackPat : ∀ {o}, P.Firm o (brackPat n)
  upperPat : ∀ {s}, P.Firm (some (.upper s)) (upperPat n s)
  lowerPat : ∀ {s}, P.Firm (some (.lower s)) (lowerPat n s)
  parenPat : ∀ {o}, P.Firm o (parenPat n)
  patArgs : ∀ {o} {s}, P.Firm o (patArgs n s)
  patTail : ∀ {o} {s}, P.Firm o (patTail n s)
  innerTail : ∀ {o} {s}, P.Firm o (innerTail n s)

theorem patFirm (n : Nat) : PatFirm n := by
  induction n with
  | zero => constructor <;> intros <;> exact .outOfFuel
  | succ n ih =>
    obtain ⟨h1, h2, h3, h4, h5, h6, h7, h8, h9⟩ := ih
    constructor
    · intro o; unfold Parser.pattern
      repeat' first | exact h6 | exact h3 | exact h5 | firm_step
    · intro o; unfold Parser.innerPat
      repeat' first | exact h6 | exact h3 | exact h5 | exact h4 | exact h1 | firm_step
    · intro o; unfold Parser.brackPat
      repeat' first | exact h2 | exact h9 | firm_step
    · intro s; unfold Parser.upperPat
      repeat' first | exact h7 | exact h8 | firm_step
    · intro s; unfold Parser.lowerPat
      repeat' first | exact h1 | firm_step
    · intro o; unfold Parser.parenPat
      repeat' first | exact h1 | exact h4 | exact h9 | firm_step
    · intro o s; unfold Parser.patArgs
      repeat' first | exact h1 | exact h7 | firm_step
    · intro o s; unfold Parser.patTail
      repeat' first | exact h1 | exact h8 | firm_step
    · intro o s; unfold Parser.innerTail
      repeat' first | exact h2 | exact h9 | firm_step

structure ExprFirm (n : Nat) : Prop where
  expression : ∀ {o}, P.Firm o (expression n)
  binaryLoop : ∀ {o} {e s}, P.Firm o (binaryLoop n e s)
  subexpression : ∀ {o}, P.Firm o (subexpression n)
  appLoop : ∀ {o} {l e}, P.Firm o (appLoop n l e)
  atom : ∀ {o}, P.Firm o (atom n)
  lambda : ∀ {o}, P.Firm o (lambda n)
  parenExpr : ∀ {o}, P.Firm o (parenExpr n)
  exprTail : ∀ {o} {es}, P.Firm o (exprTail n es)
  brackExpr : ∀ {o}, P.Firm o (brackExpr n)
  brackLoop : ∀ {o} {es}, P.Firm o (brackLoop n es)

theorem exprFirm (n : Nat) : ExprFirm n := by
  induction n with
  | zero => constructor <;> intros <;> exact .outOfFuel
  | succ n ih =>
    obtain ⟨h1, h2, h3, h4, h5, h6, h7, h8, h9, h10⟩ := ih
    have hp := patFirm n
    constructor
    · intro o; unfold Parser.expression
      exact .bind h3 fun _ => h2
    · intro o e s; unfold Parser.binaryLoop
      repeat' first | exact h3 | exact h2 | firm_step
    · intro o; unfold Parser.subexpression
      exact .bind .loc fun _ => .bind h5 fun _ => h4
    · intro o l e; unfold Parser.appLoop
      repeat' first | exact h5 | exact h4 | firm_step
    · intro o; unfold Parser.atom
      repeat' first | exact h1 | exact h6 | exact h7 | exact h9 | exact infixDecl_firm n | firm_step
    · intro o; unfold Parser.lambda
      repeat' first | exact h1 | exact hp.pattern | exact hp.patArgs | firm_step
    · intro o; unfold Parser.parenExpr
      repeat' first | exact h1 | exact h8 | exact commaLoop_firm n _ | firm_step
    · intro o es; unfold Parser.exprTail
      repeat' first | exact h1 | exact h8 | firm_step
    · intro o; unfold Parser.brackExpr
      repeat' first | exact h10 | firm_step
    · intro o es; unfold Parser.brackLoop
      repeat' first | exact h1 | exact h10 | firm_step

theorem decl_firm (n : Nat) {o : Option Token} : P.Firm o (decl n) := by
  unfold decl
  repeat' first | exact (exprFirm n).expression | exact infixDecl_firm n | firm_step

theorem parseInto_firm (n : Nat) : ∀ {o : Option Token} ast, P.Firm o (parseInto n ast) := by
  induction n with
  | zero => intro o ast; exact .outOfFuel
  | succ n ih =>
    intro o ast
    unfold parseInto
    repeat' first | exact ih _ | exact decl_firm n | firm_step

end Parser
end Pemdas
