import Verif.Lemmas.ParseProg
import Verif.Spec.Layout
/-
The lexer as a stream of tokens with columns, and outcomes of parsing functions on a given stream.
-/
namespace Pemdas
open Lexer
variable [CharTables]

/-- The tokens ahead in state `l`, with the columns at which they end. Of what follows an error
nothing is said. -/
def Stream : Lexer → List CTok → Prop
  | l, [] => ∃ l', P.peek l = .ok .eof l'
  | l, (t, c) :: ts => t ≠ .eof ∧ ∃ l', P.peek l = .ok t l' ∧ l'.curr = some t ∧ l'.col = c ∧
      ((∀ er, t ≠ .error er) → Stream { l' with curr := none } ts)

/-- The next token. -/
def nextTok : List CTok → Token
  | [] => .eof
  | x :: _ => x.1

/-- The next token has been read. -/
def Ready (l : Lexer) : List CTok → Prop
  | [] => P.peek l = .ok .eof l
  | (t, c) :: _ => l.curr = some t ∧ l.col = c

set_option linter.unusedSectionVars false
variable [LawfulTables]

omit [LawfulTables] in
theorem P.peek_curr {l : Lexer} {t : Token} (h : l.curr = some t) : P.peek l = .ok t l := by
  unfold P.peek Lexer.peek; rw [h]

theorem Stream.peek {l : Lexer} {ts : List CTok} (h : Stream l ts) :
    ∃ l', P.peek l = .ok (nextTok ts) l' ∧ Stream l' ts ∧ Ready l' ts := by
  cases ts with
  | nil =>
    obtain ⟨l', h⟩ := h
    have := peek_eof_again h
    exact ⟨l', h, ⟨l', this⟩, this⟩
  | cons x ts =>
    obtain ⟨hne, l', h1, h2, h3, h4⟩ := h
    exact ⟨l', h1, ⟨hne, l', P.peek_curr h2, h2, h3, h4⟩, h2, h3⟩

omit [LawfulTables] in
theorem Ready.peek {l : Lexer} {ts : List CTok} (h : Ready l ts) : P.peek l = .ok (nextTok ts) l := by
  cases ts with
  | nil => exact h
  | cons x ts => exact P.peek_curr h.1

omit [LawfulTables] in
theorem Stream.bump {l : Lexer} {t : Token} {c : Nat} {ts : List CTok} (h : Stream l ((t, c) :: ts))
    (hr : Ready l ((t, c) :: ts)) (hx : ∀ er, t ≠ .error er) : Stream { l with curr := none } ts := by
  obtain ⟨_, l', h1, h2, h3, h4⟩ := h
  rw [P.peek_curr hr.1] at h1
  cases h1
  exact h4 hx

/-- The outcome is "out of fuel", or success with value `a` and a state that satisfies `Q`. -/
def Gives {α : Type} (r : PRes α) (a : α) (Q : Lexer → Prop) : Prop :=
  r = .fuel ∨ ∃ l, r = .ok a l ∧ Q l

omit [CharTables] [LawfulTables] in
theorem Gives.bind {α β : Type} {l : Lexer} {m : P α} {f : α → P β} {a : α} {b : β}
    {Q R : Lexer → Prop} (h : Gives (m l) a Q) (hf : ∀ l', Q l' → Gives (f a l') b R) :
    Gives ((m >>= f) l) b R := by
  show Gives (P.bind m f l) b R
  unfold P.bind
  rcases h with h | ⟨l', h, hq⟩
  · rw [h]; exact .inl rfl
  · rw [h]; exact hf l' hq

omit [CharTables] [LawfulTables] in
theorem Gives.ret {α : Type} {l : Lexer} {a : α} {Q : Lexer → Prop} (h : Q l) :
    Gives ((pure a : P α) l) a Q := .inr ⟨l, rfl, h⟩

omit [CharTables] [LawfulTables] in
theorem Gives.mono {α : Type} {r : PRes α} {a : α} {Q R : Lexer → Prop} (h : Gives r a Q)
    (hq : ∀ l, Q l → R l) : Gives r a R := by
  rcases h with h | ⟨l, h, h2⟩
  · exact .inl h
  · exact .inr ⟨l, h, hq l h2⟩

omit [CharTables] [LawfulTables] in
theorem Gives.loc {β : Type} {l : Lexer} {f : Loc → P β} {b : β} {Q : Lexer → Prop}
    (h : Gives (f l.currLoc l) b Q) : Gives ((P.loc >>= f) l) b Q := h

theorem Gives.look {β : Type} {l : Lexer} {ts : List CTok} {f : Token → P β} {b : β}
    {Q : Lexer → Prop} (h : Stream l ts)
    (hf : ∀ l', Stream l' ts → Ready l' ts → Gives (f (nextTok ts) l') b Q) :
    Gives ((P.peek >>= f) l) b Q := by
  obtain ⟨l', h1, h2, h3⟩ := h.peek
  rw [P.bind_ok h1]
  exact hf l' h2 h3

/-- The state after a token was consumed. -/
def After (c : Nat) (ts : List CTok) (l : Lexer) : Prop := Stream l ts ∧ l.curr = none ∧ l.col = c

omit [LawfulTables] in
theorem Gives.bump {β : Type} {l : Lexer} {t : Token} {c : Nat} {ts : List CTok} {f : Token → P β}
    {b : β} {Q : Lexer → Prop} (h : Stream l ((t, c) :: ts)) (hr : Ready l ((t, c) :: ts))
    (hf : ∀ l', After c ts l' → Gives (f t l') b Q) (hx : ∀ er, t ≠ .error er := by intro _ h; cases h) :
    Gives ((P.bump >>= f) l) b Q := by
  rw [P.bump_bind hr.1]
  exact hf _ ⟨h.bump hr hx, rfl, hr.2⟩

theorem Gives.peekOn {l : Lexer} {ts : List CTok} (t : Token) (h : Stream l ts) :
    Gives (P.peekOn t l) (decide (t = nextTok ts)) (fun l' => Stream l' ts ∧ Ready l' ts) := by
  unfold P.peekOn
  exact Gives.look h fun l' h1 h2 => Gives.ret ⟨h1, h2⟩

theorem Gives.isDone {l : Lexer} {ts : List CTok} (h : Stream l ts) :
    Gives (P.isDone l) ts.isEmpty (fun l' => Stream l' ts ∧ Ready l' ts) := by
  unfold P.isDone
  refine Gives.look h fun l' h1 h2 => ?_
  have : decide (nextTok ts = .eof) = ts.isEmpty := by
    cases ts with
    | nil => rfl
    | cons x ts => simp [nextTok, h1.1]
  rw [this]
  exact Gives.ret ⟨h1, h2⟩

theorem Gives.bumpOn_true {l : Lexer} {t : Token} {c : Nat} {ts : List CTok}
    (h : Stream l ((t, c) :: ts)) (hx : ∀ er, t ≠ .error er := by intro _ h; cases h) :
    Gives (P.bumpOn t l) true (After c ts) := by
  unfold P.bumpOn
  refine Gives.bind (Gives.peekOn t h) ?_
  rintro l' ⟨h1, h2⟩
  simp only [nextTok, decide_true, if_true]
  exact Gives.bump h1 h2 (fun l'' h => Gives.ret h) hx

theorem Gives.bumpOn_false {l : Lexer} {t : Token} {ts : List CTok}
    (h : Stream l ts) (hne : t ≠ nextTok ts) :
    Gives (P.bumpOn t l) false (fun l' => Stream l' ts ∧ Ready l' ts) := by
  unfold P.bumpOn
  refine Gives.bind (Gives.peekOn t h) ?_
  rintro l' h1
  simp only [hne, decide_false, if_false, Bool.false_eq_true]
  exact Gives.ret h1

theorem Gives.eat {l : Lexer} {t : Token} {c : Nat} {ts : List CTok}
    (h : Stream l ((t, c) :: ts)) (hx : ∀ er, t ≠ .error er := by intro _ h; cases h) :
    Gives (P.eat t l) () (After c ts) := by
  unfold P.eat
  refine Gives.loc (Gives.look h fun l' h1 h2 => ?_)
  rw [if_pos (show nextTok ((t, c) :: ts) = t from rfl)]
  exact Gives.bump h1 h2 (fun l'' h => Gives.ret h) hx

end Pemdas
