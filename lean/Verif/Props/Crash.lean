import Verif.Lemmas.CrashText
import Verif.Props.Errors
/-
C154 exactly which sources make the parser panic.
-/
namespace Pemdas
open Lexer

section
variable [CharTables] [LawfulTables]

/-- C154: the lexer's panic right after the beginning of some program is the parser's: whatever the
tokens before it, the parser neither accepts the source nor reports an error. -/
theorem C154_lexer {src : Text} {us : List (Token × Loc)} {xs : List (Token × LocSpan)} {p : Panic}
    (hx : items us.length (Lexer.new src) = .ok xs) (he : ends xs = us) (hb : Begins us)
    (hp : items (us.length + 1) (Lexer.new src) = .error p) : parse src = .panic p := by
  have hl : xs.length = us.length := by rw [← he]; simp [ends]
  obtain ⟨_, _, _, _, ha, _⟩ := hb.ate
  have hne : ∀ x ∈ xs, ∀ e, x.1 ≠ .error e := fun x hm =>
    ha.noError (x.1, x.2.hi) (by rw [← he]; exact List.mem_map.2 ⟨x, hm, rfl⟩)
  obtain ⟨k, hk⟩ := items_ate (curr_new' src) hx hl hne
  rw [he] at hk
  refine panic_of_begins hk ?_ hb
  rw [peek_panic_iff (hk.curr (curr_new' src)), items_one_error]
  exact (hk.items_error (curr_new' src) 1 p).1 hp

/-- C154: an integer above 9 after a fixity keyword, where some program has such a keyword at that
place after those tokens, makes the parser panic. -/
theorem C154_precedence {src : Text} {us : List (Token × Loc)} {xs : List (Token × LocSpan)}
    {a : Assoc} {n : Nat} {x y : Loc} (hx : items (us.length + 2) (Lexer.new src) = .ok xs)
    (he : ends xs = us ++ [(a.kwTok, x), (.lit (.int n), y)]) (hn : 9 < n)
    (hb : Begins (us ++ [(a.kwTok, x)])) : parse src = .panic .precTodo := by
  have hl : xs.length = us.length + 2 := by
    have := congrArg List.length he
    simpa [ends] using this
  obtain ⟨_, _, _, _, ha, _⟩ := hb.ate
  have hne : ∀ x ∈ xs, ∀ e, x.1 ≠ .error e := by
    intro z hm e
    have : (z.1, z.2.hi) ∈ us ++ [(a.kwTok, x)] ++ [(.lit (.int n), y)] := by
      rw [List.append_assoc]
      show _ ∈ us ++ [(a.kwTok, x), (.lit (.int n), y)]
      rw [← he]; exact List.mem_map.2 ⟨z, hm, rfl⟩
    rcases List.mem_append.1 this with h | h
    · exact ha.noError _ h e
    · rw [(Prod.mk.inj (List.mem_singleton.1 h)).1]; simp
  obtain ⟨k, hk⟩ := items_ate (curr_new' src) hx hl hne
  rw [he] at hk
  exact todo_of_begins hk hn hb

/-- C154: a source makes the parser panic exactly if it begins like some program and then either
the lexer panics or, after a fixity keyword, there is an integer above 9. In particular a source
with an error before that is rejected, and does not make the parser panic. -/
theorem C154_exact {src : Text} (hc : NoLFCR src) (p : Panic) :
    parse src = .panic p ↔
      (∃ us xs, items us.length (Lexer.new src) = .ok xs ∧ ends xs = us ∧ Begins us ∧
        items (us.length + 1) (Lexer.new src) = .error p) ∨
      (p = .precTodo ∧ ∃ us xs a n x y, items (us.length + 2) (Lexer.new src) = .ok xs ∧
        ends xs = us ++ [(Assoc.kwTok a, x), (.lit (.int n), y)] ∧ 9 < n ∧
        Begins (us ++ [(Assoc.kwTok a, x)])) := by
  constructor
  · intro h
    have hlive : ∀ e l', parse src = .err e l' → ∃ x, e.found = .error x := by
      intro e l' h'; rw [h] at h'; cases h'
    obtain ⟨us, k, hk, hcase⟩ := parse_panic_ate h
    obtain ⟨xs, hx1, hx2⟩ := hk.items (curr_new' src)
    have hx := hx2 0 [] rfl
    rw [Nat.add_zero, List.append_nil] at hx
    rcases hcase with ⟨hp, ht⟩ | ⟨rfl, vs, a, n, hu, hn, ht⟩
    · have hlex := (peek_panic_iff (hk.curr (curr_new' src))).1 hp
      refine .inl ⟨us, xs, hx, hx1, begins_of_live hc hlive hk ht fun hnil => ?_,
        (hk.items_error (curr_new' src) 1 p).2 (items_one_error.1 hlex)⟩
      obtain ⟨_, hq⟩ := lex_of_nil hnil
      rw [hq] at hlex
      cases hlex
    · refine .inr ⟨rfl, ?_⟩
      -- the last two tokens
      generalize hw : us = ws at hk hu
      subst hw
      cases hk with
      | nil =>
        have := congrArg List.length hu
        simp at this
      | @snoc ws m t m' hm hp hte hee =>
        have hu' : ws.map (·.1) ++ [t] = (vs ++ [a.kwTok]) ++ [.lit (.int n)] := by
          rw [List.append_assoc]; simpa using hu
        obtain ⟨h1, h2⟩ := List.append_inj' hu' rfl
        cases h2
        rw [← h1] at ht
        rcases List.eq_nil_or_concat ws with rfl | ⟨us, ⟨t, x⟩, rfl⟩
        · simp at h1
        rw [List.concat_eq_append] at *
        rw [List.map_append] at h1
        obtain ⟨_, h3⟩ := List.append_inj' h1 rfl
        obtain rfl : t = a.kwTok := (List.cons.inj h3).1
        refine ⟨us, xs, a, n, x, m'.currLoc, ?_, ?_, hn,
          begins_of_live hc hlive hm ht fun hnil => ?_⟩
        · simpa using hx
        · exact hx1.trans (by simp)
        · have := peek_lex (hm.curr (curr_new' src)) hp
          obtain ⟨_, hq⟩ := lex_of_nil hnil
          rw [hq] at this
          cases this
  · rintro (⟨us, xs, h1, h2, h3, h4⟩ | ⟨rfl, us, xs, a, n, x, y, h1, h2, h3, h4⟩)
    · exact C154_lexer h1 h2 h3 h4
    · exact C154_precedence h1 h2 h3 h4

end

/-! ### examples -/
section
attribute [local instance] asciiTables asciiTables_lawful

theorem of_panic {r : PRes Ast} {p : Panic} (h : r.panic? = some p) : r = .panic p := by
  cases r with
  | panic q => cases h; rfl
  | _ => cases h

theorem exBegins {us : List (Token × Loc)} (src : Text) {xs : List (Token × LocSpan)}
    (h : items us.length (Lexer.new src) = .ok xs) (he : ends xs = us)
    (h1 : (parse src).error? = none) (h2 : (parse src).panic? = none) : Begins us := by
  cases h3 : parse src with
  | ok ast l' => exact ⟨src, _, ast, l', h, he, h3⟩
  | err e l' => rw [h3] at h1; cases h1
  | panic p => rw [h3] at h2; cases h2
  | fuel => exact absurd h3 (C37_terminates _).1

/-- The parser panics at an upper case letter where a program could go on. -/
example : parse t!"infixl 6 X" = .panic .identAssert ∧ NoLFCR t!"infixl 6 X" ∧
    Begins [(.infixL, ⟨1, 7, 6⟩), (.lit (.int 6), ⟨1, 9, 8⟩)] :=
  ⟨of_panic (by decide +kernel), by unfold NoLFCR; decide,
    exBegins t!"infixl 6 +" rfl (by decide +kernel) (by decide +kernel) (by decide +kernel)⟩

/-- Not where no program goes on: the error before it is reported. -/
example : (∃ l', parse t!"infixl 6 ) X" = .err (.unexpected .parenR ⟨1, 9, 8⟩) l') ∧
    ∃ xs, items 3 (Lexer.new t!"infixl 6 ) X") = .ok xs ∧
      items 4 (Lexer.new t!"infixl 6 ) X") = .error .identAssert :=
  ⟨of_error (by decide +kernel), _, rfl, by decide +kernel⟩

/-- What `C154_precedence` assumes. -/
example : Begins [(.infixR, ⟨1, 7, 6⟩)] ∧
    parse t!"infixr 10 +" = .panic .precTodo ∧
    ∃ xs, items 2 (Lexer.new t!"infixr 10 +") = .ok xs ∧
      ends xs = [(.infixR, ⟨1, 7, 6⟩), (.lit (.int 10), ⟨1, 10, 9⟩)] := by
  exact ⟨exBegins t!"infixr 1 +" rfl (by decide +kernel) (by decide +kernel) (by decide +kernel),
    of_panic (by decide +kernel), _, rfl, by decide +kernel⟩

end
end Pemdas
