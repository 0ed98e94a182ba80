import Verif.Lemmas.ParseFuel
import Verif.Lemmas.ParseStream
import Verif.Spec.Errors
/-
What the parser does depends only on the tokens it consumes and on the one after them.
-/
namespace Pemdas
open Lexer
set_option linter.unusedSectionVars false
variable [CharTables] [LawfulTables]

/-- Two states have the same position and agree on the next `k` tokens and where they end. -/
def Agree : Nat → Lexer → Lexer → Prop
  | 0, _, _ => True
  | k + 1, l, l₂ => l.currLoc = l₂.currLoc ∧ l.curr = l₂.curr ∧ ∃ t m m₂, P.peek l = .ok t m ∧
      P.peek l₂ = .ok t m₂ ∧ m.currLoc = m₂.currLoc ∧
      (t ≠ .eof → m.curr = some t ∧ m₂.curr = some t ∧
        Agree k { m with curr := none } { m₂ with curr := none }) ∧
      (t = .eof → l.curr = none ∧ m.curr = none ∧ m₂.curr = none)

/-- Peeking, and consuming the tokens `us`, which are no errors. -/
inductive Takes (l : Lexer) : List (Token × Loc) → Lexer → Prop
  | refl : Takes l [] l
  | peek {us m m' t} : Takes l us m → P.peek m = .ok t m' → Takes l us m'
  | bump {us m t} : Takes l us m → m.curr = some t → t ≠ .eof → (∀ e, t ≠ .error e) →
      Takes l (us ++ [(t, m.currLoc)]) { m with curr := none }

omit [LawfulTables] in
theorem Takes.trans {l m n : Lexer} {us vs : List (Token × Loc)} (h : Takes l us m)
    (h' : Takes m vs n) : Takes l (us ++ vs) n := by
  induction h' with
  | refl => simpa using h
  | peek _ hp ih => exact .peek ih hp
  | bump _ hc he hx ih => rw [← List.append_assoc]; exact .bump ih hc he hx

omit [LawfulTables] in
theorem Agree.mono {k j : Nat} {l l₂ : Lexer} (h : Agree k l l₂) (hj : j ≤ k) : Agree j l l₂ := by
  induction j generalizing k l l₂ with
  | zero => trivial
  | succ j ih =>
    cases k with
    | zero => omega
    | succ k =>
      obtain ⟨h1, h2, t, m, m₂, h3, h4, h5, h6, h7⟩ := h
      refine ⟨h1, h2, t, m, m₂, h3, h4, h5, fun ht => ?_, h7⟩
      obtain ⟨a, b, c⟩ := h6 ht
      exact ⟨a, b, ih c (by omega)⟩

theorem Agree.peek {k : Nat} {l l₂ : Lexer} (h : Agree (k + 1) l l₂) :
    ∃ t m m₂, P.peek l = .ok t m ∧ P.peek l₂ = .ok t m₂ ∧ Agree (k + 1) m m₂ ∧
      (t ≠ .eof → m.curr = some t) := by
  obtain ⟨h1, h2, t, m, m₂, h3, h4, h5, h6, h7⟩ := h
  refine ⟨t, m, m₂, h3, h4, ?_, fun ht => (h6 ht).1⟩
  by_cases ht : t = .eof
  · subst ht
    obtain ⟨a, b, c⟩ := h7 rfl
    exact ⟨h5, by rw [b, c], .eof, m, m₂, peek_eof_again h3, peek_eof_again h4, h5, fun h => absurd rfl h,
      fun _ => ⟨b, b, c⟩⟩
  · obtain ⟨a, b, c⟩ := h6 ht
    exact ⟨h5, by rw [a, b], t, m, m₂, P.peek_curr a, P.peek_curr b, h5, fun _ => ⟨a, b, c⟩,
      fun h => absurd h ht⟩

/-- What is known at some point: the token that was peeked at last, and the location recorded
just before that. -/
abbrev Ctx : Type := Option (Option Loc × Token)

/-- The token that was peeked at last is still there. -/
def Knows (o : Ctx) (l : Lexer) : Prop := ∀ x t, o = some (x, t) → t ≠ .eof → l.curr = some t

/-- The error is about the token after `us`, and its location was recorded just before peeking at
that token. -/
def Blames (o : Ctx) (l : Lexer) (us : List (Token × Loc)) (e : ParseError) (l' : Lexer) : Prop :=
  (∃ l₀, Takes l us l₀ ∧ P.peek l₀ = .ok e.found l' ∧ e.loc = l₀.currLoc) ∨
    (us = [] ∧ l' = l ∧ o = some (some e.loc, e.found))

/-- A panic is the lexer's, at the next token, or it is due to the tokens `us`. -/
def Breaks {α : Type} (m : P α) (l : Lexer) (p : Panic) : Prop :=
  ∃ us l', Takes l us l' ∧ (P.peek l' = .panic p ∨
    us ≠ [] ∧ ∀ l₂ k, Agree k l l₂ → us.length ≤ k → m l₂ = .panic p)

/-- The outcome depends only on the tokens consumed and on the one after them, and an error is
about the latter. -/
def P.Local {α : Type} (o : Ctx) (m : P α) : Prop :=
  ∀ l, Knows o l →
    match m l with
    | .ok a l' => ∃ us, Takes l us l' ∧ ∀ l₂ k, Agree (k + 1) l l₂ → us.length ≤ k →
        ∃ l₂', m l₂ = .ok a l₂' ∧ Takes l₂ us l₂' ∧ Agree (k + 1 - us.length) l' l₂'
    | .err e l' => ∃ us, Takes l us l' ∧ Blames o l us e l' ∧
        ∀ l₂ k, Agree (k + 1) l l₂ → us.length ≤ k →
        ∃ l₂', m l₂ = .err e l₂' ∧ Takes l₂ us l₂' ∧ Agree (k + 1 - us.length) l' l₂'
    | .panic p => Breaks m l p
    | .fuel => True

namespace P.Local

theorem pure {α : Type} {o : Ctx} (a : α) : P.Local o (Pure.pure a : P α) :=
  fun _ _ => ⟨[], .refl, fun l₂ _ ha _ => ⟨l₂, rfl, .refl, ha⟩⟩

theorem fail {α : Type} {e : ParseError} : P.Local (some (some e.loc, e.found)) (P.fail e : P α) :=
  fun _ _ => ⟨[], .refl, .inr ⟨rfl, rfl, rfl⟩, fun l₂ _ ha _ => ⟨l₂, rfl, .refl, ha⟩⟩

theorem outOfFuel {α : Type} {o : Ctx} : P.Local o (P.outOfFuel : P α) :=
  fun _ _ => trivial

theorem loc {o : Ctx} : P.Local o P.loc :=
  fun _ _ => ⟨[], .refl, fun l₂ _ ha _ => ⟨l₂, by rw [P.loc, ha.1], .refl, ha⟩⟩

theorem bind' {α β : Type} {o : Ctx} {m : P α} {f : α → P β} {oo : Lexer → α → Ctx}
    (h : P.Local o m) (hk : ∀ l a l', m l = .ok a l' → Knows (oo l a) l')
    (hb : ∀ l a l' us x t, m l = .ok a l' → oo l a = some (some x, t) → Takes l us l' →
      us = [] ∧ P.peek l = .ok t l' ∧ x = l.currLoc)
    (hf : ∀ l a, P.Local (oo l a) (f a)) : P.Local o (m >>= f) := by
  intro l hl
  have h1 := h l hl
  show (match P.bind m f l with | .ok a l' => _ | .err e l' => _ | .panic p => _ | .fuel => True)
  unfold P.bind
  cases hm : m l with
  | ok a l' =>
    rw [hm] at h1
    obtain ⟨us, h2, h3⟩ := h1
    simp only
    have h7 := hf l a l' (hk l a l' hm)
    have key : ∀ (us vs : List (Token × Loc)) (k : Nat), us.length + vs.length ≤ k →
        k + 1 - us.length = (k - us.length) + 1 ∧
        k + 1 - (us ++ vs).length = k - us.length + 1 - vs.length := by
      intro us vs k h; rw [List.length_append]; omega
    cases hx : f a l' with
    | ok b l'' =>
      rw [hx] at h7
      obtain ⟨vs, h8, h9⟩ := h7
      refine ⟨us ++ vs, h2.trans h8, fun l₂ k ha hu => ?_⟩
      rw [List.length_append] at hu
      obtain ⟨l₂', h4, h5, h6⟩ := h3 l₂ k ha (by omega)
      rw [(key us vs k hu).1] at h6
      obtain ⟨l₂'', ha, hb, hc⟩ := h9 l₂' _ h6 (by omega)
      refine ⟨l₂'', by show P.bind m f l₂ = _; unfold P.bind; rw [h4]; exact ha, h5.trans hb, ?_⟩
      rw [(key us vs k hu).2]; exact hc
    | err b l'' =>
      rw [hx] at h7
      obtain ⟨vs, h8, hbl, h9⟩ := h7
      refine ⟨us ++ vs, h2.trans h8, .inl ?_, fun l₂ k ha hu => ?_⟩
      · rcases hbl with ⟨l₀, x1, x2, x3⟩ | ⟨x1, x2, x3⟩
        · exact ⟨l₀, h2.trans x1, x2, x3⟩
        · obtain ⟨y1, y2, y3⟩ := hb l a l' us _ _ hm x3 h2
          subst y1 x1 x2
          exact ⟨l, .refl, y2, y3⟩
      rw [List.length_append] at hu
      obtain ⟨l₂', h4, h5, h6⟩ := h3 l₂ k ha (by omega)
      rw [(key us vs k hu).1] at h6
      obtain ⟨l₂'', ha, hb, hc⟩ := h9 l₂' _ h6 (by omega)
      refine ⟨l₂'', by show P.bind m f l₂ = _; unfold P.bind; rw [h4]; exact ha, h5.trans hb, ?_⟩
      rw [(key us vs k hu).2]; exact hc
    | panic p =>
      rw [hx] at h7
      obtain ⟨vs, l'', h8, h9⟩ := h7
      refine ⟨us ++ vs, l'', h2.trans h8, h9.imp id fun ⟨hne, h9⟩ => ⟨by simp [hne], ?_⟩⟩
      intro l₂ k ha hu
      have := List.length_pos_iff.2 hne
      rw [List.length_append] at hu
      obtain ⟨j, rfl⟩ : ∃ j, k = j + 1 := ⟨k - 1, by omega⟩
      obtain ⟨l₂', h4, h5, h6⟩ := h3 l₂ j ha (by omega)
      show P.bind m f l₂ = _
      unfold P.bind; rw [h4]
      exact h9 l₂' _ h6 (by omega)
    | fuel => trivial
  | err e l' =>
    rw [hm] at h1
    obtain ⟨us, h2, hbl, h3⟩ := h1
    refine ⟨us, h2, hbl, fun l₂ k ha hl => ?_⟩
    obtain ⟨l₂', h4, h5, h6⟩ := h3 l₂ k ha hl
    exact ⟨l₂', by show P.bind m f l₂ = _; unfold P.bind; rw [h4], h5, h6⟩
  | panic p =>
    rw [hm] at h1
    obtain ⟨us, l', h2, h3⟩ := h1
    refine ⟨us, l', h2, h3.imp id fun ⟨hne, h3⟩ => ⟨hne, fun l₂ k ha hu => ?_⟩⟩
    show P.bind m f l₂ = _
    unfold P.bind; rw [h3 l₂ k ha hu]
  | fuel => trivial

theorem bind {α β : Type} {o : Ctx} {m : P α} {f : α → P β} (h : P.Local o m)
    (hf : ∀ a, P.Local none (f a)) : P.Local o (m >>= f) :=
  bind' (oo := fun _ _ => none) h (by simp [Knows]) (by simp) fun _ => hf

theorem peek {o : Ctx} : P.Local o P.peek := by
  intro l _
  cases hp : P.peek l with
  | ok t m =>
    refine ⟨[], .peek .refl hp, fun l₂ k ha _ => ?_⟩
    obtain ⟨t', m', m₂, h1, h2, h3, h4⟩ := ha.peek
    rw [hp] at h1; cases h1
    exact ⟨m₂, h2, .peek .refl h2, h3⟩
  | err e m =>
    unfold P.peek at hp
    repeat' split at hp
    all_goals cases hp
  | panic p => exact ⟨[], l, .refl, .inl hp⟩
  | fuel => trivial

theorem peek_knows {x : Option Loc} {l m : Lexer} {t : Token} (h : P.peek l = .ok t m) :
    Knows (some (x, t)) m := by
  intro _ t' ht hne
  cases ht
  unfold P.peek Lexer.peek at h
  repeat' split at h
  all_goals try cases h
  all_goals rename_i hx
  all_goals repeat' split at hx
  all_goals try cases hx
  all_goals first | assumption | rfl | exact absurd rfl hne | skip

theorem look {β : Type} {o : Ctx} {f : Token → P β}
    (hf : ∀ t, P.Local (some (none, t)) (f t)) : P.Local o (P.peek >>= f) :=
  bind' (oo := fun _ t => some (none, t)) peek (fun _ _ _ h => peek_knows h) (by simp)
    fun _ => hf

theorem locLook {β : Type} {o : Ctx} {f : Loc → Token → P β}
    (hf : ∀ x t, P.Local (some (some x, t)) (f x t)) :
    P.Local o (P.loc >>= fun x => P.peek >>= f x) := by
  intro l hl
  show (match (P.peek >>= f l.currLoc) l with | .ok a l' => _ | .err e l' => _ | .panic p => _ | .fuel => True)
  have h1 := peek l hl (o := o)
  show (match P.bind P.peek (f l.currLoc) l with | .ok a l' => _ | .err e l' => _ | .panic p => _ | .fuel => True)
  unfold P.bind
  cases hm : P.peek l with
  | ok a l' =>
    rw [hm] at h1
    simp only
    have h7 := hf l.currLoc a l' (peek_knows hm)
    cases hx : f l.currLoc a l' with
    | ok b l'' =>
      rw [hx] at h7
      obtain ⟨vs, h8, h9⟩ := h7
      refine ⟨vs, Takes.trans (.peek .refl hm) h8, fun l₂ k ha hu => ?_⟩
      have hcl := ha.1
      obtain ⟨t', m', m₂, z1, z2, z3, z4⟩ := ha.peek
      rw [hm] at z1; cases z1
      obtain ⟨l₂'', ha, hb, hc⟩ := h9 m₂ _ z3 hu
      refine ⟨l₂'', ?_, Takes.trans (.peek .refl z2) hb, hc⟩
      show P.bind P.peek (f l₂.currLoc) l₂ = _
      unfold P.bind; rw [z2, ← hcl]; exact ha
    | err b l'' =>
      rw [hx] at h7
      obtain ⟨vs, h8, hbl, h9⟩ := h7
      refine ⟨vs, Takes.trans (.peek .refl hm) h8, .inl ?_, fun l₂ k ha hu => ?_⟩
      · rcases hbl with ⟨l₀, x1, x2, x3⟩ | ⟨x1, x2, x3⟩
        · exact ⟨l₀, Takes.trans (.peek .refl hm) x1, x2, x3⟩
        · simp only [Option.some.injEq, Prod.mk.injEq] at x3
          subst x1 x2
          exact ⟨l, .refl, by rw [hm, x3.2], x3.1.symm⟩
      have hcl := ha.1
      obtain ⟨t', m', m₂, z1, z2, z3, z4⟩ := ha.peek
      rw [hm] at z1; cases z1
      obtain ⟨l₂'', ha, hb, hc⟩ := h9 m₂ _ z3 hu
      refine ⟨l₂'', ?_, Takes.trans (.peek .refl z2) hb, hc⟩
      show P.bind P.peek (f l₂.currLoc) l₂ = _
      unfold P.bind; rw [z2, ← hcl]; exact ha
    | panic p =>
      rw [hx] at h7
      obtain ⟨vs, l'', h8, h9⟩ := h7
      refine ⟨vs, l'', Takes.trans (.peek .refl hm) h8, h9.imp id fun ⟨hne, h9⟩ => ⟨hne, ?_⟩⟩
      intro l₂ k ha hu
      have := List.length_pos_iff.2 hne
      obtain ⟨j, rfl⟩ : ∃ j, k = j + 1 := ⟨k - 1, by omega⟩
      have hcl := ha.1
      obtain ⟨t', m', m₂, z1, z2, z3, z4⟩ := ha.peek
      rw [hm] at z1; cases z1
      show P.bind P.peek (f l₂.currLoc) l₂ = _
      unfold P.bind; rw [z2, ← hcl]
      exact h9 m₂ _ z3 hu
    | fuel => trivial
  | err e m =>
    unfold P.peek at hm
    repeat' split at hm
    all_goals cases hm
  | panic p => exact ⟨[], l, .refl, .inl hm⟩
  | fuel => trivial

theorem locLook' {α β : Type} {o : Ctx} {f : Loc → Token → P α} {g : Loc → α → P β}
    (hf : ∀ x t, P.Local (some (some x, t)) (f x t)) (hg : ∀ x a, P.Local none (g x a)) :
    P.Local o (P.loc >>= fun x => P.peek >>= f x >>= g x) := by
  have : (P.loc >>= fun x => P.peek >>= f x >>= g x) =
      (P.loc >>= fun x => P.peek >>= fun t => f x t >>= g x) := by
    funext l
    show P.bind (P.bind P.peek (f l.currLoc)) (g l.currLoc) l =
      P.bind P.peek (fun t => P.bind (f l.currLoc t) (g l.currLoc)) l
    unfold P.bind
    cases P.peek l <;> rfl
  rw [this]
  exact locLook fun x t => bind (hf x t) (hg x)

theorem bump {x : Option Loc} {t : Token} (ht : t ≠ .eof) (he : ∀ e, t ≠ .error e) :
    P.Local (some (x, t)) P.bump := by
  intro l hl
  have hc := hl x t rfl ht
  have : P.bump l = .ok t { l with curr := none } := by unfold P.bump Lexer.bump; rw [hc]
  rw [this]
  refine ⟨[(t, l.currLoc)], .bump .refl hc ht he, fun l₂ k ha hk => ?_⟩
  obtain ⟨h1, h2, t', m, m₂, h3, h4, h5, h6, h7⟩ := ha
  rw [P.peek_curr hc] at h3
  cases h3
  obtain ⟨a, b, c⟩ := h6 ht
  have hc₂ : l₂.curr = some t := by rw [← h2]; exact hc
  rw [P.peek_curr hc₂] at h4
  cases h4
  refine ⟨{ l₂ with curr := none }, by unfold P.bump Lexer.bump; rw [hc₂], ?_, ?_⟩
  · rw [h5]; exact .bump .refl hc₂ ht he
  · exact c

theorem bumpCrash {α : Type} {x : Option Loc} {t : Token} (p : Panic) (ht : t ≠ .eof)
    (he : ∀ e, t ≠ .error e) : P.Local (some (x, t)) (P.bump >>= fun _ => (P.crash p : P α)) := by
  intro l hl
  have hc := hl x t rfl ht
  have hb : P.bump l = .ok t { l with curr := none } := by unfold P.bump Lexer.bump; rw [hc]
  have hm : (P.bump >>= fun _ => (P.crash p : P α)) l = .panic p := by
    show P.bind P.bump _ l = _
    unfold P.bind; rw [hb]; rfl
  rw [hm]
  refine ⟨[(t, l.currLoc)], _, .bump .refl hc ht he, .inr ⟨by simp, fun l₂ k ha hk => ?_⟩⟩
  obtain ⟨j, rfl⟩ : ∃ j, k = j + 1 := ⟨k - 1, by simp at hk; omega⟩
  have hc₂ : l₂.curr = some t := by rw [← ha.2.1]; exact hc
  show P.bind P.bump _ l₂ = _
  unfold P.bind P.bump Lexer.bump
  rw [hc₂]
  rfl

theorem bumpOn {o : Ctx} {t : Token} (ht : t ≠ .eof) (he : ∀ e, t ≠ .error e) :
    P.Local o (P.bumpOn t) := by
  have : P.bumpOn t = (P.peek >>= fun t' => if t = t' then P.bump >>= fun _ => Pure.pure true
      else Pure.pure false) := by
    funext l
    unfold P.bumpOn P.peekOn
    show P.bind (P.bind P.peek _) _ l = P.bind P.peek _ l
    unfold P.bind
    cases P.peek l with
    | ok t' l' =>
      by_cases h : t = t' <;> simp [h, Pure.pure, P.pure] <;> rfl
    | _ => rfl
  rw [this]
  refine look fun t' => ?_
  split
  · rename_i h; subst h
    exact bind (bump ht he) fun _ => pure _
  · exact pure _

theorem peekOn {o : Ctx} {t : Token} : P.Local o (P.peekOn t) :=
  look fun _ => pure _

theorem isDone {o : Ctx} : P.Local o P.isDone := look fun _ => pure _

theorem eat {o : Ctx} {t : Token} (ht : t ≠ .eof) (he : ∀ e, t ≠ .error e) :
    P.Local o (P.eat t) := by
  unfold P.eat
  refine locLook fun x t' => ?_
  split
  · rename_i h; subst h
    exact bind (bump ht he) fun _ => pure _
  · exact fail (e := .expected t x t')

end P.Local

namespace Parser

theorem infixOp_local {o : Ctx} : P.Local o infixOp := by
  unfold infixOp
  refine .locLook fun x t => ?_
  split
  all_goals first
    | exact .fail (e := .unexpected _ _)
    | exact .bind (.bump (by simp) (by simp)) fun _ => .pure _

theorem tryInfix_local {o : Ctx} : P.Local o tryInfix := by
  intro l hl
  have h := infixOp_local l hl
  unfold tryInfix
  cases hm : infixOp l with
  | ok a l' =>
    rw [hm] at h
    obtain ⟨us, h1, h2⟩ := h
    refine ⟨us, h1, fun l₂ k ha hk => ?_⟩
    obtain ⟨l₂', h3, h4⟩ := h2 l₂ k ha hk
    exact ⟨l₂', by rw [h3], h4⟩
  | err e l' =>
    rw [hm] at h
    obtain ⟨us, h1, _, h2⟩ := h
    refine ⟨us, h1, fun l₂ k ha hk => ?_⟩
    obtain ⟨l₂', h3, h4⟩ := h2 l₂ k ha hk
    exact ⟨l₂', by rw [h3], h4⟩
  | panic p =>
    rw [hm] at h
    obtain ⟨us, l', h1, h2⟩ := h
    refine ⟨us, l', h1, h2.imp id fun ⟨hne, h2⟩ => ⟨hne, fun l₂ k ha hu => ?_⟩⟩
    simp only [h2 l₂ k ha hu]
  | fuel => trivial

/-- One step of a proof that a parsing function is local. -/
macro "local_step" : tactic => `(tactic| first
  | exact P.Local.pure _
  | exact P.Local.fail (e := .unexpected _ _)
  | exact P.Local.fail (e := .expected _ _ _)
  | exact P.Local.outOfFuel
  | exact P.Local.loc
  | exact P.Local.isDone
  | exact P.Local.peekOn
  | exact P.Local.bump (by simp) (by simp)
  | exact P.Local.bumpOn (by simp) (by simp)
  | exact P.Local.eat (by simp) (by simp)
  | exact infixOp_local
  | exact tryInfix_local
  | refine P.Local.locLook fun _ _ => ?_
  | refine P.Local.locLook' (fun _ _ => ?_) fun _ _ => ?_
  | refine P.Local.look fun _ => ?_
  | refine P.Local.bind ?_ fun _ => ?_
  | split)

theorem fixityAssoc_local {o : Ctx} : P.Local o fixityAssoc := by
  unfold fixityAssoc
  repeat' local_step

theorem fixityPrec_local {o : Ctx} : P.Local o fixityPrec := by
  unfold fixityPrec
  refine .locLook fun x t => ?_
  split
  · rename_i n
    by_cases h : n ≤ precMax
    · simp only [if_pos h]
      repeat' local_step
    · simp only [if_neg h]
      exact .bumpCrash _ (by simp) (by simp)
  all_goals repeat' local_step

theorem fixity_local {o : Ctx} : P.Local o fixity := by
  unfold fixity
  exact .bind fixityAssoc_local fun _ => .bind fixityPrec_local fun _ => .pure _

theorem infixLoop_local (n : Nat) : ∀ {o : Ctx} ops, P.Local o (infixLoop n ops) := by
  induction n with
  | zero => intro o ops; exact .outOfFuel
  | succ n ih =>
    intro o ops
    unfold infixLoop
    repeat' first | exact ih _ | local_step

theorem infixDecl_local (n : Nat) {o : Ctx} : P.Local o (infixDecl n) := by
  unfold infixDecl
  repeat' first | exact fixity_local | exact infixLoop_local _ _ | local_step

theorem commaLoop_local (n : Nat) : ∀ {o : Ctx} k, P.Local o (commaLoop n k) := by
  induction n with
  | zero => intro o k; exact .outOfFuel
  | succ n ih =>
    intro o k
    unfold commaLoop
    repeat' first | exact ih _ | local_step

structure PatLocal (n : Nat) : Prop where
  pattern : ∀ {o}, P.Local o (pattern n)
  innerPat : ∀ {o}, P.Local o (innerPat n)
  brackPat : ∀ {o}, P.Local o (brackPat n)
  upperPat : ∀ {x s}, P.Local (some (x, .upper s)) (upperPat n s)
  lowerPat : ∀ {x s}, P.Local (some (x, .lower s)) (lowerPat n s)
  parenPat : ∀ {o}, P.Local o (parenPat n)
  patArgs : ∀ {o} {s}, P.Local o (patArgs n s)
  patTail : ∀ {o} {s}, P.Local o (patTail n s)
  innerTail : ∀ {o} {s}, P.Local o (innerTail n s)

theorem patLocal (n : Nat) : PatLocal n := by
  induction n with
  | zero => constructor <;> intros <;> exact .outOfFuel
  | succ n ih =>
    obtain ⟨h1, h2, h3, h4, h5, h6, h7, h8, h9⟩ := ih
    constructor
    · intro o; unfold Parser.pattern
      repeat' first | exact h6 | exact h3 | exact h5 | local_step
    · intro o; unfold Parser.innerPat
      repeat' first | exact h6 | exact h3 | exact h5 | exact h4 | exact h1 | local_step
    · intro o; unfold Parser.brackPat
      repeat' first | exact h2 | exact h9 | local_step
    · intro x s; unfold Parser.upperPat
      repeat' first | exact h7 | exact h8 | local_step
    · intro x s; unfold Parser.lowerPat
      repeat' first | exact h1 | local_step
    · intro o; unfold Parser.parenPat
      repeat' first | exact h1 | exact h4 | exact h9 | local_step
    · intro o s; unfold Parser.patArgs
      repeat' first | exact h1 | exact h7 | local_step
    · intro o s; unfold Parser.patTail
      repeat' first | exact h1 | exact h8 | local_step
    · intro o s; unfold Parser.innerTail
      repeat' first | exact h2 | exact h9 | local_step

structure ExprLocal (n : Nat) : Prop where
  expression : ∀ {o}, P.Local o (expression n)
  binaryLoop : ∀ {o} {e s}, P.Local o (binaryLoop n e s)
  subexpression : ∀ {o}, P.Local o (subexpression n)
  appLoop : ∀ {o} {l e}, P.Local o (appLoop n l e)
  atom : ∀ {o}, P.Local o (atom n)
  lambda : ∀ {o}, P.Local o (lambda n)
  parenExpr : ∀ {o}, P.Local o (parenExpr n)
  exprTail : ∀ {o} {es}, P.Local o (exprTail n es)
  brackExpr : ∀ {o}, P.Local o (brackExpr n)
  brackLoop : ∀ {o} {es}, P.Local o (brackLoop n es)

theorem exprLocal (n : Nat) : ExprLocal n := by
  induction n with
  | zero => constructor <;> intros <;> exact .outOfFuel
  | succ n ih =>
    obtain ⟨h1, h2, h3, h4, h5, h6, h7, h8, h9, h10⟩ := ih
    have hp := patLocal n
    constructor
    · intro o; unfold Parser.expression
      exact .bind h3 fun _ => h2
    · intro o e s; unfold Parser.binaryLoop
      repeat' first | exact h3 | exact h2 | local_step
    · intro o; unfold Parser.subexpression
      exact .bind .loc fun _ => .bind h5 fun _ => h4
    · intro o l e; unfold Parser.appLoop
      repeat' first | exact h5 | exact h4 | local_step
    · intro o; unfold Parser.atom
      repeat' first | exact h1 | exact h6 | exact h7 | exact h9 | exact infixDecl_local n | local_step
    · intro o; unfold Parser.lambda
      repeat' first | exact h1 | exact hp.pattern | exact hp.patArgs | local_step
    · intro o; unfold Parser.parenExpr
      repeat' first | exact h1 | exact h8 | exact commaLoop_local n _ | local_step
    · intro o es; unfold Parser.exprTail
      repeat' first | exact h1 | exact h8 | local_step
    · intro o; unfold Parser.brackExpr
      repeat' first | exact h10 | local_step
    · intro o es; unfold Parser.brackLoop
      repeat' first | exact h1 | exact h10 | local_step

theorem decl_local (n : Nat) {o : Ctx} : P.Local o (decl n) := by
  unfold decl
  repeat' first | exact (exprLocal n).expression | exact infixDecl_local n | local_step

theorem parseInto_local (n : Nat) : ∀ {o : Ctx} ast, P.Local o (parseInto n ast) := by
  induction n with
  | zero => intro o ast; exact .outOfFuel
  | succ n ih =>
    intro o ast
    unfold parseInto
    repeat' first | exact ih _ | exact decl_local n | local_step

end Parser
end Pemdas
