import Verif.Model.Parser
import Verif.Props.LexerPos
import Verif.Spec.ParseRun
import Verif.Spec.Grammar
/-
Reasoning about the parser: outcomes of parsing functions relative to the tokens consumed, and
rules for sequencing.
-/
namespace Pemdas
open Lexer
variable [CharTables]

/-! ### the measure -/

/-- An upper bound for the number of tokens left. -/
def Lexer.weight (l : Lexer) : Nat :=
  l.chars.length + match l.curr with
    | none => 0
    | some (.error _) => 0
    | some _ => 1

theorem Eats.trans {l m l' : Lexer} {ts us : List Token} (h : Eats l ts m) (h' : Eats m us l') :
    Eats l (ts ++ us) l' := by
  induction h' with
  | refl => simpa using h
  | peek _ hp ih => exact ih.peek hp
  | bump _ hc he ih => rw [← List.append_assoc]; exact ih.bump hc he

theorem peek_some {l l' : Lexer} {t : Token} (h : l.peek = .ok (some t, l')) :
    l'.curr = some t := by
  unfold Lexer.peek at h
  repeat' split at h
  all_goals cases h
  · assumption
  · rfl

theorem peek_weight [LawfulTables] {l l' : Lexer} {r : Option Token} (h : l.peek = .ok (r, l')) :
    l'.weight ≤ l.weight := by
  unfold Lexer.peek at h
  repeat' split at h
  · cases h; exact Nat.le_refl _
  · cases h
  · rename_i hc _ m hx
    cases h
    have h2 := (reach_lex hx).curr
    have h3 := (reach_lex hx).length_le
    unfold Lexer.weight; rw [h2, hc]; exact h3
  · rename_i hc _ t m hne hx
    cases h
    have h3 := (reach_lex hx).length_le
    unfold Lexer.weight
    simp only [hc]
    rcases (C26_progress hx).2 with ⟨rfl, _⟩ | ⟨_, h4⟩ | ⟨rfl, _⟩
    · exact absurd rfl hne
    · cases t <;> simp only <;> omega
    · exact h3

theorem Eats.weight [LawfulTables] {l l' : Lexer} {ts : List Token} (h : Eats l ts l') :
    l'.weight + ts.length ≤ l.weight := by
  induction h with
  | refl => simp
  | peek _ hp ih => have := peek_weight hp; omega
  | @bump ts m t _ hc he ih =>
    have : m.weight = m.chars.length + 1 := by
      unfold Lexer.weight
      rw [hc]
      cases t <;> first | rfl | exact absurd rfl (he _)
    have h2 : (Lexer.weight { m with curr := none }) = m.chars.length := rfl
    rw [h2, List.length_append, List.length_singleton]
    omega

/-! ### outcomes -/

/-- The tokens that are ever expected. -/
def wanted : List Token := [.parenR, .brackR, .arrow, .in_]

omit [CharTables] in
theorem wanted_ne {t : Token} (h : t ∈ wanted) : ∀ x, t ≠ .error x := by
  rintro x rfl
  simp [wanted] at h

/-- Where a parse error comes from: the offending token is the next one. -/
def ErrAt (l : Lexer) (e : ParseError) (l' : Lexer) : Prop :=
  ∃ ts m t, Eats l ts m ∧ P.peek m = .ok t l' ∧
    (e = .unexpected t m.currLoc ∨
      ∃ t', t' ≠ t ∧ t' ∈ wanted ∧ e = .expected t' m.currLoc t)

/-- Where a panic comes from: the lexer, or a precedence above 9. -/
def PanicAt (l : Lexer) (p : Panic) : Prop :=
  ∃ ts m, Eats l ts m ∧ (m.peek = .error p ∨
    (p = .precTodo ∧ ∃ us a n, ts = us ++ [Assoc.kwTok a, .lit (.int n)] ∧ 9 < n))

/-- An outcome that is not "out of fuel"; if it is a success, the value, the tokens consumed and
the state afterwards satisfy `Q`. -/
def Run {α : Type} (l : Lexer) (Q : α → List Token → Lexer → Prop) : PRes α → Prop
  | .ok a l' => ∃ ts, Eats l ts l' ∧ Q a ts l'
  | .err e l' => ErrAt l e l'
  | .panic p => PanicAt l p
  | .fuel => False

theorem ErrAt.after {l m l' : Lexer} {ts : List Token} {e : ParseError} (h : Eats l ts m)
    (h' : ErrAt m e l') : ErrAt l e l' := by
  obtain ⟨us, k, t, h1, h2⟩ := h'
  exact ⟨_, k, t, h.trans h1, h2⟩

theorem PanicAt.after {l m : Lexer} {ts : List Token} {p : Panic} (h : Eats l ts m)
    (h' : PanicAt m p) : PanicAt l p := by
  obtain ⟨us, k, h1, h2⟩ := h'
  refine ⟨_, k, h.trans h1, ?_⟩
  rcases h2 with h2 | ⟨h2, vs, a, n, h3, h4⟩
  · exact .inl h2
  · exact .inr ⟨h2, ts ++ vs, a, n, by rw [h3, List.append_assoc], h4⟩

theorem Run.bind {α β : Type} {l : Lexer} {Q : α → List Token → Lexer → Prop}
    {R : β → List Token → Lexer → Prop} {m : P α} {f : α → P β} (hm : Run l Q (m l))
    (hf : ∀ a ts l1, Eats l ts l1 → Q a ts l1 → Run l1 (fun b us l2 => R b (ts ++ us) l2) (f a l1)) :
    Run l R ((m >>= f) l) := by
  show Run l R (P.bind m f l)
  unfold P.bind
  cases hr : m l with
  | ok a l1 =>
    rw [hr] at hm
    obtain ⟨ts, h1, h2⟩ := hm
    have := hf a ts l1 h1 h2
    simp only
    cases hr' : f a l1 with
    | ok b l2 =>
      rw [hr'] at this
      obtain ⟨us, h3, h4⟩ := this
      exact ⟨ts ++ us, h1.trans h3, h4⟩
    | err e l2 => rw [hr'] at this; exact ErrAt.after h1 this
    | panic p => rw [hr'] at this; exact PanicAt.after h1 this
    | fuel => rw [hr'] at this; exact this
  | err e l1 => rw [hr] at hm; exact hm
  | panic p => rw [hr] at hm; exact hm
  | fuel => rw [hr] at hm; exact hm

/-- Sequencing, with the second part still relative to the first state. -/
theorem Run.bind_base {α β : Type} {l : Lexer} {Q : α → List Token → Lexer → Prop}
    {R : β → List Token → Lexer → Prop} {m : P α} {f : α → P β} (hm : Run l Q (m l))
    (hf : ∀ a ts l1, Eats l ts l1 → Q a ts l1 → Run l R (f a l1)) :
    Run l R ((m >>= f) l) := by
  show Run l R (P.bind m f l)
  unfold P.bind
  cases hr : m l with
  | ok a l1 =>
    rw [hr] at hm
    obtain ⟨ts, h1, h2⟩ := hm
    exact hf a ts l1 h1 h2
  | err e l1 => rw [hr] at hm; exact hm
  | panic p => rw [hr] at hm; exact hm
  | fuel => rw [hr] at hm; exact hm

theorem Run.mono {α : Type} {l : Lexer} {Q R : α → List Token → Lexer → Prop} {r : PRes α}
    (h : Run l Q r) (hq : ∀ a ts l', Eats l ts l' → Q a ts l' → R a ts l') : Run l R r := by
  cases r with
  | ok a l' => obtain ⟨ts, h1, h2⟩ := h; exact ⟨ts, h1, hq a ts l' h1 h2⟩
  | err e l' => exact h
  | panic p => exact h
  | fuel => exact h

theorem Run.pure {α : Type} {l0 l : Lexer} {Q : α → List Token → Lexer → Prop} {a : α}
    (h0 : Eats l0 [] l) (h : Q a [] l) : Run l0 Q ((Pure.pure a : P α) l) := ⟨[], h0, h⟩

theorem Run.ret {α : Type} {l : Lexer} {Q : α → List Token → Lexer → Prop} {a : α}
    (h : Q a [] l) : Run l Q ((Pure.pure a : P α) l) := Run.pure .refl h

/-- Being done with the tokens before. -/
theorem Run.from {α : Type} {l l1 : Lexer} {Q : α → List Token → Lexer → Prop} {ts : List Token}
    {r : PRes α} (h : Eats l ts l1) (hr : Run l1 (fun a us l2 => Q a (ts ++ us) l2) r) :
    Run l Q r := by
  cases r with
  | ok a l' => obtain ⟨us, h1, h2⟩ := hr; exact ⟨ts ++ us, h.trans h1, h2⟩
  | err e l' => exact ErrAt.after h hr
  | panic p => exact PanicAt.after h hr
  | fuel => exact hr

/-! ### primitives -/

/-- `t` is the next token in state `l`. -/
def Shows (l : Lexer) (t : Token) : Prop := t ≠ .eof → l.curr = some t

theorem Run.peek (l : Lexer) :
    Run l (fun t ts l' => ts = [] ∧ Shows l' t ∧ P.peek l = .ok t l') (P.peek l) := by
  unfold P.peek
  cases hp : l.peek with
  | error p => exact ⟨[], l, .refl, .inl hp⟩
  | ok x =>
    obtain ⟨r, l'⟩ := x
    have he : Eats l [] l' := Eats.refl.peek hp
    cases r with
    | none => exact ⟨[], he, rfl, fun h => absurd rfl h, rfl⟩
    | some t => exact ⟨[], he, rfl, fun _ => peek_some hp, rfl⟩

/-- Continue after a look at the next token. -/
theorem Run.look {β : Type} {l : Lexer} {R : β → List Token → Lexer → Prop} {f : Token → P β}
    (hf : ∀ t l1, Eats l [] l1 → Shows l1 t → P.peek l = .ok t l1 → Run l R (f t l1)) :
    Run l R ((P.peek >>= f) l) := by
  have h := Run.peek l
  show Run l R (P.bind P.peek f l)
  unfold P.bind
  cases hp : P.peek l with
  | ok t l1 =>
    rw [hp] at h
    obtain ⟨_, h1, rfl, h2, _⟩ := h
    exact hf t l1 h1 h2 hp
  | err e l1 => rw [hp] at h; exact h
  | panic p => rw [hp] at h; exact h
  | fuel => rw [hp] at h; exact h

theorem Run.loc {β : Type} {l : Lexer} {R : β → List Token → Lexer → Prop} {f : Loc → P β}
    (hf : Run l R (f l.currLoc l)) : Run l R ((P.loc >>= f) l) := hf

theorem Run.bump {β : Type} {l0 l : Lexer} {R : β → List Token → Lexer → Prop} {f : Token → P β}
    {t : Token} (h0 : Eats l0 [] l) (hs : Shows l t) (he : ∀ e, t ≠ .error e) (hne : t ≠ .eof)
    (hf : ∀ l1, Eats l0 [t] l1 → Run l1 (fun b us l2 => R b (t :: us) l2) (f t l1)) :
    Run l0 R ((P.bump >>= f) l) := by
  have hc := hs hne
  have h1 : (P.bump >>= f) l = f t { l with curr := none } := by
    show P.bind P.bump f l = _
    unfold P.bind P.bump Lexer.bump; rw [hc]
  rw [h1]
  have h2 : Eats l0 ([] ++ [t]) { l with curr := none } := h0.bump hc he
  exact Run.from h2 (hf _ h2)

omit [CharTables] in
theorem P.bump_bind {β : Type} {l : Lexer} {t : Token} (hc : l.curr = some t) (f : Token → P β) :
    (P.bump >>= f) l = f t { l with curr := none } := by
  show P.bind P.bump f l = _
  unfold P.bind P.bump Lexer.bump
  simp only [hc]

omit [CharTables] in
theorem P.bind_ok {α β : Type} {l l' : Lexer} {a : α} {m : P α} (h : m l = .ok a l') (f : α → P β) :
    (m >>= f) l = f a l' := by
  show P.bind m f l = _
  unfold P.bind
  rw [h]

theorem Run.fail {α : Type} {l l' : Lexer} {Q : α → List Token → Lexer → Prop} {t : Token}
    (h : P.peek l = .ok t l') : Run l Q ((P.fail (.unexpected t l.currLoc) : P α) l') := 
  ⟨[], l, t, .refl, h, .inl rfl⟩

end Pemdas
