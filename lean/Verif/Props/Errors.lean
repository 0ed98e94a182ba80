import Verif.Lemmas.CutAfter
/-
C114 what a parse error says. C115 parse errors are about the first token that cannot be right.
-/
namespace Pemdas
open Lexer

section
variable [CharTables] [LawfulTables]

/-! ### C114 -/

/-- C114 (part): a parse error names the token after the first tokens `xs` of the source, which
contain no error, or the end of the source if `xs` is all of it. Its location is the end of that
token, or else the end of the last token before it. Missing: that it is always the former. -/
theorem C114_location_partial {src : Text} {e : ParseError} {l' : Lexer}
    (h : parse src = .err e l') :
    ∃ xs : List (Token × LocSpan), (∀ x ∈ xs, ∀ er, x.1 ≠ .error er) ∧
      ((∃ sp, items (xs.length + 1) (Lexer.new src) = .ok (xs ++ [(e.found, sp)]) ∧
          (e.loc = sp.hi ∨ ∃ x, xs.getLast? = some x ∧ e.loc = x.2.hi)) ∨
        (e.found = .eof ∧ items (xs.length + 1) (Lexer.new src) = .ok xs ∧
          (e.loc = locOf (unCR src) ∨ ∃ x, xs.getLast? = some x ∧ e.loc = x.2.hi))) := by
  obtain ⟨t, m, us, k, h1, h2, h3, h4, h5, h6, _⟩ := parse_err h
  obtain ⟨xs, hx1, hx2, hx3, hx4, hx5⟩ := h3.next h4
  refine ⟨xs, ?_, ?_⟩
  · intro x hx
    exact h3.noError (x.1, x.2.hi) (by rw [← hx1]; exact List.mem_map.2 ⟨x, hx, rfl⟩)
  have key : e.loc = l'.currLoc ∨ ∃ x, xs.getLast? = some x ∧ e.loc = x.2.hi := by
    by_cases hu : us = []
    · exact .inl (h6 hu)
    · rcases h5 with h5 | h5
      · obtain ⟨vs, t', he⟩ := h3.last hu
        obtain ⟨y, hy1, hy2⟩ := ends_last (hx1.trans he)
        exact .inr ⟨y, hy1, by rw [h5, hy2]⟩
      · exact .inl h5
  by_cases hf : e.found = .eof
  · refine .inr ⟨hf, hx4 hf, key.imp (fun hk => ?_) id⟩
    rw [hf] at h4
    have hpt : Point src l' := ((Takes.trans (.peek .refl h1) h2)).point .new
    obtain ⟨hs, ⟨pre, hat⟩, _⟩ := hpt.inv
    have hnil : l'.chars = [] := by
      have := lex_eof_again (peek_lex (h3.curr (curr_new' src)) h4)
      exact this.1
    have := hat.src
    rw [hs, hnil, List.append_nil] at this
    rw [hk, hat.loc, this]
  · exact .inl ⟨_, hx5 hf, key⟩

/-! ### C115 -/

/-- C115: for every source that is rejected, the tokens before the one named by the error, ending where
they end, begin those of some program; and unless these are all its tokens, every source that begins
with these tokens and the next one at the same places is rejected with the same error. -/
theorem C115_first_bad_token {src : Text} {e : ParseError} {l' : Lexer} (h : parse src = .err e l') :
    ∃ xs : List (Token × LocSpan), items xs.length (Lexer.new src) = .ok xs ∧
      (∃ cs ds, WrittenProg ds (cols xs ++ cs)) ∧
      ((e.found = .eof ∧ items (xs.length + 1) (Lexer.new src) = .ok xs) ∨
        ∃ sp, items (xs.length + 1) (Lexer.new src) = .ok (xs ++ [(e.found, sp)]) ∧
          ∀ src' ys, items (xs.length + 1) (Lexer.new src') = .ok ys →
            ends ys = ends (xs ++ [(e.found, sp)]) → ∃ l'', parse src' = .err e l'') := by
  obtain ⟨t, m, us, k, h1, h2, h3, h4, _, _, h10⟩ := parse_err h
  obtain ⟨xs, hx1, hx2, hx3, hx4, hx5⟩ := h3.next h4
  have hc : (us.map fun u => (u.1, u.2.col)) = cols xs := by rw [← hx1]; simp [cols, ends]
  refine ⟨xs, hx3, ?_, ?_⟩
  · by_cases hus : us = []
    · subst hus
      rw [← hc]
      exact ⟨[], [], .nil⟩
    · obtain ⟨a, ka, g1, g2, _⟩ := cut_after h3
      obtain ⟨ys, hy1, hy2⟩ := g2.items (curr_new' a)
      have hy := hy2 0 [] rfl
      simp only [Nat.add_zero, List.append_nil] at hy
      rcases viable_tokens h h1 hus h2 h3 hy hy1 g1.strm with ⟨ast, l2, hp⟩ | ⟨vs, _, hd⟩
      · obtain ⟨ts, ds, k1, k2, _⟩ := (C81_program a _).1 ⟨l2, hp⟩
        rw [k1.unique g1, hc] at k2
        exact ⟨[], ds, by simpa using k2⟩
      · obtain ⟨ds, hw⟩ := hd (vs.map (·, 0)) (by simp [Function.comp_def])
        rw [hc] at hw
        exact ⟨_, ds, hw⟩
  · by_cases hf : e.found = .eof
    · exact .inl ⟨hf, hx4 hf⟩
    · refine .inr ⟨_, hx5 hf, fun src' ys hy he => ?_⟩
      obtain ⟨t', m', m₂, g1, g2, _, g3⟩ := agree_peeked (curr_new' src) (curr_new' src') (hx5 hf) hy
        he.symm (by simp)
      rw [h1] at g1
      cases g1
      simp only [hx2] at g3
      exact h10 src' _ m₂ g2 g3

/-- C115 (part): if a source is rejected then it begins with a text `a`, ending with the last of
its first tokens `xs`, that can be continued to a program; and unless these are all its tokens, no
source that begins with the tokens `xs` and the next one at the same places is a program: all of
them are rejected with the same error. Missing: sources with a carriage return after a line feed,
and sources that end too early, in a character given by its code. -/
theorem C115_first_bad_token_partial {src : Text} (hc : NoLFCR src) {e : ParseError} {l' : Lexer}
    (hcode : e.found = .eof → NoCodeEnd src) (h : parse src = .err e l') :
    ∃ (xs : List (Token × LocSpan)) (a r : Text),
      src = a ++ r ∧ items xs.length (Lexer.new src) = .ok xs ∧ (xs = [] → a = []) ∧
      (∀ x, xs.getLast? = some x → x.2.hi = locOf a) ∧
      (∃ z ast l'', parse (a ++ z) = .ok ast l'') ∧
      ((e.found = .eof ∧ items (xs.length + 1) (Lexer.new src) = .ok xs) ∨
        ∃ sp, items (xs.length + 1) (Lexer.new src) = .ok (xs ++ [(e.found, sp)]) ∧
          ∀ src' ys, items (xs.length + 1) (Lexer.new src') = .ok ys →
            ends ys = ends (xs ++ [(e.found, sp)]) → ∃ l'', parse src' = .err e l'') := by
  obtain ⟨us, k, a, r, z, h3, h4, h5, h6, h7, h8, t, m, h9, h10⟩ := viable_text hc hcode h
  obtain ⟨xs, hx1, hx2, hx3, hx4, hx5⟩ := h3.next h4
  refine ⟨xs, a, r, h5, hx3, ?_, ?_, ⟨z, h8⟩, ?_⟩
  · rintro rfl
    exact h6 (by rw [← hx1]; rfl)
  · intro x hx
    have hu : us ≠ [] := by
      rintro rfl
      rw [List.length_eq_zero_iff.1 hx2] at hx
      cases hx
    obtain ⟨vs, t', he⟩ := h3.last hu
    obtain ⟨y, hy1, hy2⟩ := ends_last (hx1.trans he)
    rw [hx] at hy1
    cases hy1
    rw [hy2, h7 hu]
  · by_cases hf : e.found = .eof
    · exact .inl ⟨hf, hx4 hf⟩
    · refine .inr ⟨_, hx5 hf, fun src' ys hy he => ?_⟩
      obtain ⟨t', m', m₂, g1, g2, _, g3⟩ := agree_peeked (curr_new' src) (curr_new' src') (hx5 hf) hy
        he.symm (by simp)
      rw [h9] at g1
      cases g1
      rw [hx2] at g3
      exact h10 src' _ m₂ g2 g3

/-- C115: the token named by an error cannot be mended by what follows: every source that begins
with the same tokens up to and including that one, at the same places, is rejected with the same
error. -/
theorem C115_no_way_on {src : Text} {e : ParseError} {l' : Lexer} (h : parse src = .err e l')
    (hf : e.found ≠ .eof) :
    ∃ (xs : List (Token × LocSpan)) (sp : LocSpan),
      items (xs.length + 1) (Lexer.new src) = .ok (xs ++ [(e.found, sp)]) ∧
      ∀ src' ys, items (xs.length + 1) (Lexer.new src') = .ok ys →
        ends ys = ends (xs ++ [(e.found, sp)]) → ∃ l'', parse src' = .err e l'' := by
  obtain ⟨t, m, us, k, h1, h2, h3, h4, _, _, h10⟩ := parse_err h
  obtain ⟨xs, hx1, hx2, hx3, hx4, hx5⟩ := h3.next h4
  refine ⟨xs, _, hx5 hf, fun src' ys hy he => ?_⟩
  obtain ⟨t', m', m₂, g1, g2, _, g3⟩ := agree_peeked (curr_new' src) (curr_new' src') (hx5 hf) hy
    he.symm (by simp)
  rw [h1] at g1
  cases g1
  rw [hx2] at g3
  exact h10 src' _ m₂ g2 g3

/-- C115: the same for texts: if the token named by an error is a proper one, and no promoted
name, then the text that ends with it is rejected with the same error, alone and with any
continuation that starts with whitespace. -/
theorem C115_no_continuation {src : Text} (hc : NoLFCR src) (hcode : NoCodeEnd src)
    {e : ParseError} {l' : Lexer} (h : parse src = .err e l') (hf : e.found ≠ .eof)
    (hne : ∀ er, e.found ≠ .error er) (hpr : ∀ x, e.found ≠ .affix x true) :
    ∃ (a r : Text) (xs : List (Token × LocSpan)) (sp : LocSpan), src = a ++ r ∧
      items (xs.length + 1) (Lexer.new src) = .ok (xs ++ [(e.found, sp)]) ∧ sp.hi = locOf a ∧
      ∀ z, (∀ c ∈ z.head?, isWhitespace c = true) → NoLFCR (a ++ z) →
        ∃ l'', parse (a ++ z) = .err e l'' := by
  obtain ⟨t, m, us, k, h1, h2, h3, h4, _, _, h10⟩ := parse_err h
  obtain ⟨xs, hx1, hx2, hx3, hx4, hx5⟩ := h3.next h4
  have hate := h3.snoc h4 hf hne
  obtain ⟨r, k1, _, k3, k4, k5⟩ := hate.run hc
  obtain ⟨a, ha, _, _, k6⟩ := k1.change (pre := []) rfl
  have hloc : l'.currLoc = locOf a := by
    obtain ⟨pre, hp1, hp2⟩ := k3.pos
    show ({ l' with curr := none } : Lexer).currLoc = _
    rw [hp2]
    congr 1
    rw [k4, ← k5 (by simp), ha] at hp1
    exact (List.append_cancel_right hp1).symm
  refine ⟨a, r, xs, _, ha, hx5 hf, hloc, fun z hz hcz => ?_⟩
  have hrun := k6 z ?_ fun _ _ => hcode
  · simp only [List.nil_append] at hrun
    obtain ⟨ys, hy1, hy2⟩ := hrun.new hcz
    have hlen : (us ++ [(e.found, l'.currLoc)]).length = xs.length + 1 := by simp [hx2]
    rw [hlen] at hy1
    obtain ⟨t', m', m₂, g1, g2, _, g3⟩ := agree_peeked (curr_new' src) (curr_new' (a ++ z))
      (hx5 hf) hy1 (by rw [hy2, ends_append, hx1]; rfl) (by simp)
    rw [h1] at g1
    cases g1
    rw [hx2] at g3
    exact h10 _ _ m₂ g2 g3
  · intro x hx c hc
    have : x = (e.found, l'.currLoc) := by simpa using hx.symm
    subst this
    exact ⟨fun _ => hz c hc, fun y hy => absurd hy (hpr y)⟩

end

/-! ### examples -/
section
attribute [local instance] asciiTables asciiTables_lawful

theorem of_error {r : PRes Ast} {e : ParseError} (h : r.error? = some e) : ∃ l', r = .err e l' := by
  cases r with
  | err e' l' => cases h; exact ⟨l', rfl⟩
  | _ => cases h

/-- C114 fails: the location is that of the end of the token before the one that is named, here on
the first line rather than the third. -/
theorem C114_location_wrong :
    (∃ l', parse t!"infixl 6\n\n  )" = .err (.unexpected .parenR ⟨1, 9, 8⟩) l') ∧
    items 3 (Lexer.new t!"infixl 6\n\n  )") = .ok
      [(.infixL, ⟨⟨1, 1, 0⟩, ⟨1, 7, 6⟩⟩), (.lit (.int 6), ⟨⟨1, 8, 7⟩, ⟨1, 9, 8⟩⟩),
        (.parenR, ⟨⟨3, 3, 12⟩, ⟨3, 4, 13⟩⟩)] :=
  ⟨of_error (by decide +kernel), by decide +kernel⟩

/-- The hypotheses of C114 and C115 are met: the first `)` is wrong, the tokens before it are
`(`, `x`, `,`. -/
example : (∃ l', parse t!"(x, ) y" = .err (.unexpected .parenR ⟨1, 4, 3⟩) l') ∧
    NoLFCR t!"(x, ) y" ∧ NoCodeEnd t!"(x, ) y" :=
  ⟨of_error (by decide +kernel), by unfold NoLFCR; decide, fun p u q _ h => by
    have h2 := congrArg List.head? (congrArg List.reverse h)
    simp at h2⟩

/-- A rejected source with a carriage return directly after a line feed: its tokens before `)` begin a
program, although the operator, which is read one byte too early, is a space. -/
example : ¬ NoLFCR t!"(f\n\r + ) y" ∧
    (∃ l', parse t!"(f\n\r + ) y" = .err (.unexpected .parenR ⟨2, 3, 5⟩) l') ∧
    items 3 (Lexer.new t!"(f\n\r + ) y") = .ok [(.parenL, ⟨⟨1, 1, 0⟩, ⟨1, 2, 1⟩⟩),
      (.lower t!"f", ⟨⟨1, 2, 1⟩, ⟨1, 3, 2⟩⟩), (.affix t!" " false, ⟨⟨2, 2, 4⟩, ⟨2, 3, 5⟩⟩)] :=
  ⟨by unfold NoLFCR; decide, of_error (by decide +kernel), by decide +kernel⟩

end
end Pemdas
