import Verif.Spec.Looking
import Verif.Lemmas.ParseProg
import Verif.Model.Unicode
/-
C176 looking ahead does not change what is read.
-/
namespace Pemdas
namespace Lexer
variable [CharTables] [LawfulTables]

omit [LawfulTables] in
theorem peek_cases {l m : Lexer} {r : Option Token} (hc : l.curr = none) (h : l.peek = .ok (r, m)) :
    (r = none ∧ l.lex = .ok (.eof, m)) ∨
    ∃ t k, r = some t ∧ t ≠ .eof ∧ l.lex = .ok (t, k) ∧ m = { k with curr := some t } := by
  unfold Lexer.peek at h
  rw [hc] at h
  simp only at h
  split at h
  · cases h
  · rename_i k hx; cases h; exact .inl ⟨rfl, hx⟩
  · rename_i t k hne hx
    cases h
    exact .inr ⟨t, k, rfl, hne, hx, rfl⟩

/-- **C176** Looking again shows the same token and changes nothing. -/
theorem C176_again {l m : Lexer} {r : Option Token} (hc : l.curr = none) (h : l.peek = .ok (r, m)) :
    m.peek = .ok (r, m) := by
  rcases peek_cases hc h with ⟨rfl, hx⟩ | ⟨t, k, rfl, hne, hx, rfl⟩
  · have h2 := (lex_eof_again hx).2
    have h3 : m.curr = none := by rw [(reach_lex hx).curr, hc]
    unfold Lexer.peek
    rw [h3, h2]
  · rfl

omit [LawfulTables] in
/-- Looking and taking is `next`. -/
theorem next_of_peek {l m : Lexer} {r : Option Token} (hc : l.curr = none) (h : l.peek = .ok (r, m)) :
    ∃ x, l.next = .ok (x, m.bump.2) ∧ x.map (·.1) = r ∧ m.bump.1 = r.getD .eof := by
  rcases peek_cases hc h with ⟨rfl, hx⟩ | ⟨t, k, rfl, hne, hx, rfl⟩
  · have h3 : m.curr = none := by rw [(reach_lex hx).curr, hc]
    refine ⟨none, ?_, rfl, ?_⟩
    · rw [next_of_eof hx]; unfold Lexer.bump; rw [h3]
    · unfold Lexer.bump; rw [h3]; rfl
  · have h3 : k.curr = none := by rw [(reach_lex hx).curr, hc]
    refine ⟨some (t, ⟨k.prevLoc, k.currLoc⟩), ?_, rfl, rfl⟩
    rw [next_of_lex hx hne]
    have : ({ k with curr := none } : Lexer) = k := by cases k; simp_all
    simp only [Lexer.bump, this]

omit [LawfulTables] in
/-- **C176** What `peek` shows is what `next` would have yielded, and what `bump` hands over. -/
theorem C176_shown {l m : Lexer} {r : Option Token} (hc : l.curr = none) (h : l.peek = .ok (r, m)) :
    (∃ x k, l.next = .ok (x, k) ∧ x.map (·.1) = r) ∧ m.bump.1 = r.getD .eof := by
  obtain ⟨x, h1, h2, h3⟩ := next_of_peek hc h
  exact ⟨⟨x, _, h1, h2⟩, h3⟩

omit [LawfulTables] in
theorem peek_error {l : Lexer} {p : Panic} (hc : l.curr = none) (h : l.peek = .error p) :
    l.next = .error p := by
  unfold Lexer.peek at h
  rw [hc] at h
  simp only at h
  unfold Lexer.next
  split at h
  · rename_i q hx; cases h; rw [hx]
  · cases h
  · cases h

omit [CharTables] [LawfulTables] in
theorem plain_of_held {cs : List Call} (h : Call.careful true cs = true) :
    ∃ ds, Call.plain cs = .next :: ds := by
  induction cs with
  | nil => simp [Call.careful] at h
  | cons c cs ih =>
    cases c with
    | peek => exact ih h
    | bump => exact ⟨_, rfl⟩
    | next => simp [Call.careful] at h

omit [LawfulTables] in
theorem next_curr {l m : Lexer} {x : Option (Token × LocSpan)} (h : l.next = .ok (x, m)) :
    m.curr = l.curr := by
  unfold Lexer.next at h
  cases hx : l.lex with
  | error p => rw [hx] at h; cases h
  | ok y =>
    obtain ⟨t, k⟩ := y
    rw [hx] at h
    simp only at h
    split at h
    · cases h; exact (reach_lex hx).curr
    · cases h; exact (reach_lex hx).curr

theorem taken_plain (cs : List Call) :
    (∀ l : Lexer, l.curr = none → Call.careful false cs = true →
      l.taken cs = l.taken (Call.plain cs)) ∧
    (∀ (l m : Lexer) (r : Option Token), l.curr = none → l.peek = .ok (r, m) →
      Call.careful true cs = true → m.taken cs = l.taken (Call.plain cs)) := by
  induction cs with
  | nil => exact ⟨fun _ _ _ => rfl, fun _ _ _ _ _ h => by simp [Call.careful] at h⟩
  | cons c cs ih =>
    cases c with
    | peek =>
      constructor
      · intro l hc h
        simp only [Call.careful] at h
        simp only [Call.plain]
        unfold Lexer.taken
        cases hp : l.peek with
        | error p =>
          obtain ⟨ds, hd⟩ := plain_of_held h
          rw [hd]
          simp only [peek_error hc hp]
        | ok x =>
          obtain ⟨r, m⟩ := x
          simp only
          rw [ih.2 l m r hc hp h, Lexer.taken.eq_def]
      · intro l m r hc hp h
        simp only [Call.careful] at h
        simp only [Call.plain]
        rw [show m.taken (.peek :: cs) = m.taken cs by
          simp only [Lexer.taken, C176_again hc hp]]
        exact ih.2 l m r hc hp h
    | bump =>
      constructor
      · intro l hc h; simp [Call.careful] at h
      · intro l m r hc hp h
        simp only [Call.careful, Bool.true_and] at h
        obtain ⟨x, h1, h2, h3⟩ := next_of_peek hc hp
        have h4 : m.bump.2.curr = none := by rw [next_curr h1, hc]
        simp only [Call.plain, Lexer.taken, h1, ← ih.1 _ h4 h, h3]
        cases x with
        | none => subst h2; rfl
        | some y => subst h2; rfl
    | next =>
      constructor
      · intro l hc h
        simp only [Call.careful, Bool.not_false, Bool.true_and] at h
        simp only [Call.plain, Lexer.taken]
        cases hn : l.next with
        | error p => rfl
        | ok y =>
          obtain ⟨x, k⟩ := y
          have h4 : k.curr = none := by rw [next_curr hn, hc]
          simp only [ih.1 k h4 h]
      · intro l m r hc hp h; simp [Call.careful] at h

/-- **C176** A client that calls `bump` only after `peek`, and `next` only if it holds no token it
has looked at, takes the same tokens as one that never looks ahead, meets the same panic, and
leaves the lexer in the same state. `_partial`: without that care the tokens are others, see
`C176_order_wrong` and `C176_bump_wrong`. -/
theorem C176_same_partial (src : Text) (cs : List Call) (h : Call.careful false cs = true) :
    (new src).taken cs = (new src).taken (Call.plain cs) :=
  (taken_plain cs).1 _ (by unfold Lexer.new; exact (reach_eatWhitespace _).curr) h

omit [CharTables] [LawfulTables] in
/-- **C176 violated** Without a `peek` before it, `bump` hands over `Eof` wherever the lexer is. -/
theorem C176_bump_wrong {l : Lexer} (hc : l.curr = none) : l.bump = (.eof, l) := by
  unfold Lexer.bump; rw [hc]

end Lexer

section
attribute [local instance] asciiTables asciiTables_lawful

/-- **C176 violated** After `peek`, `next` passes over the token that was shown, and `bump` hands it
over afterwards: the client takes the tokens in the wrong order. -/
theorem C176_order_wrong : ∃ (src : Text) (t u : Token), t ≠ u ∧
    Lexer.takenOf src [.next, .next] = some [t, u] ∧ Lexer.takenOf src [.peek, .next, .bump] = some [u, t] :=
  ⟨t!"a 1", .lower t!"a", .lit (.int 1), by decide, by decide +kernel, by decide +kernel⟩

/-- **C176 violated** And `next` alone never hands it over. -/
theorem C176_lost_wrong : ∃ (src : Text) (t u : Token), t ≠ u ∧
    Lexer.takenOf src [.next, .next] = some [t, u] ∧ Lexer.takenOf src [.peek, .next, .next] = some [u, .eof] :=
  ⟨t!"a 1", .lower t!"a", .lit (.int 1), by decide, by decide +kernel, by decide +kernel⟩

/- The hypotheses hold for calls that look once, twice, past the end, and not at all. -/
example : Call.careful false [.peek, .peek, .bump, .next, .peek, .bump, .peek, .bump] = true := rfl
example : Lexer.takenOf t!"a + 1" [.peek, .peek, .bump, .next, .peek, .bump, .peek, .bump] =
    some [.lower t!"a", .affix t!"+" false, .lit (.int 1), .eof] := by decide +kernel
example : Lexer.takenOf t!"a + 1" (Call.plain [.peek, .peek, .bump, .next, .peek, .bump, .peek, .bump]) =
    some [.lower t!"a", .affix t!"+" false, .lit (.int 1), .eof] := by decide +kernel
example : ∃ m, (Lexer.new t!"a").curr = none ∧
    (Lexer.new t!"a").peek = .ok (some (.lower t!"a"), m) := ⟨_, by decide +kernel, rfl⟩

end
end Pemdas
