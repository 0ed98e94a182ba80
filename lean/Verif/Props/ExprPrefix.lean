import Verif.Lemmas.CutAfter
import Verif.Props.Crash
/-
C160 what `parse_expr` reads: the tokens of an expression and the one after them.
-/
namespace Pemdas
open Lexer

section
variable [CharTables] [LawfulTables]

/-- C160: what `parse_expr` answers is decided by the first tokens `xs`, which are no errors, and the
one after them, `x`: for every source that starts at the same place and begins with the same tokens,
ending at the same places, it answers the same, whatever else that source contains. For an error, `x`
is what it is about. (Or these are all the tokens.) -/
theorem C160_local {src : Text} :
    (∀ e l', parseExpr src = .ok e l' → ∃ xs : List (Token × LocSpan),
      (∀ x ∈ xs, ∀ er, x.1 ≠ .error er) ∧ items xs.length (Lexer.new src) = .ok xs ∧
      (items (xs.length + 1) (Lexer.new src) = .ok xs ∨
        ∃ x, items (xs.length + 1) (Lexer.new src) = .ok (xs ++ [x]) ∧
          ∀ src' ys, startLoc src' = startLoc src →
            items (xs.length + 1) (Lexer.new src') = .ok ys → ends ys = ends (xs ++ [x]) →
            ∃ l'', parseExpr src' = .ok e l'')) ∧
    (∀ e l', parseExpr src = .err e l' → ∃ xs : List (Token × LocSpan),
      (∀ x ∈ xs, ∀ er, x.1 ≠ .error er) ∧ items xs.length (Lexer.new src) = .ok xs ∧
      ((e.found = .eof ∧ items (xs.length + 1) (Lexer.new src) = .ok xs) ∨
        ∃ sp, items (xs.length + 1) (Lexer.new src) = .ok (xs ++ [(e.found, sp)]) ∧
          ∀ src' ys, startLoc src' = startLoc src →
            items (xs.length + 1) (Lexer.new src') = .ok ys → ends ys = ends (xs ++ [(e.found, sp)]) →
            ∃ l'', parseExpr src' = .err e l'')) := by
  have agree : ∀ {us : List (Token × Loc)} {xs : List (Token × LocSpan)} {x} {src' ys},
      xs.length = us.length → items (xs.length + 1) (Lexer.new src) = .ok (xs ++ [x]) →
      startLoc src' = startLoc src →
      items (xs.length + 1) (Lexer.new src') = .ok ys → ends ys = ends (xs ++ [x]) →
      Agree (us.length + 1) (Lexer.new src) (Lexer.new src') := by
    intro us xs x src' ys h1 h2 h3 h4 h5
    rw [← h1]
    exact agree_of_items (curr_new' _) (curr_new' _) (by rw [new_loc, new_loc, h3]) h2 h4 h5.symm
      (by simp)
  constructor
  · intro e l' h
    obtain ⟨us, k, t, h1, h2, _, hs⟩ := parseExpr_ok_ate h
    obtain ⟨xs, hx1, hx2, hx3, hx4, hx5⟩ := h1.next h2
    refine ⟨xs, fun x hx => h1.noError (x.1, x.2.hi) (by
      rw [← hx1]; exact List.mem_map.2 ⟨x, hx, rfl⟩), hx3, ?_⟩
    by_cases ht : t = .eof
    · exact .inl (hx4 ht)
    · refine .inr ⟨_, hx5 ht, fun src' ys h3 h4 h5 => ?_⟩
      obtain ⟨l'', g, _⟩ := (hs src' (agree hx2 (hx5 ht) h3 h4 h5)).1 e l' h
      exact ⟨l'', g⟩
  · intro e l' h
    obtain ⟨us, k, h1, h2, _, hs⟩ := parseExpr_err_ate h
    obtain ⟨xs, hx1, hx2, hx3, hx4, hx5⟩ := h1.next h2
    refine ⟨xs, fun x hx => h1.noError (x.1, x.2.hi) (by
      rw [← hx1]; exact List.mem_map.2 ⟨x, hx, rfl⟩), hx3, ?_⟩
    by_cases ht : e.found = .eof
    · exact .inl ⟨ht, hx4 ht⟩
    · refine .inr ⟨_, hx5 ht, fun src' ys h3 h4 h5 => ?_⟩
      obtain ⟨l'', g, _⟩ := (hs src' (agree hx2 (hx5 ht) h3 h4 h5)).2 e l' h
      exact ⟨l'', g⟩

/-- C160: whatever follows: `parse_expr` answers an expression exactly if the first tokens `xs` of the
source are those of that expression at that place, and the next, if there is one, cannot go on with it.
That may be an error, and after it there may be anything. -/
theorem C160_accepts {src : Text} (e : Expr) :
    (∃ l', parseExpr src = .ok e l') ↔ ∃ (xs ys : List (Token × LocSpan)) (m : Nat),
      items (xs.length + 1) (Lexer.new src) = .ok (xs ++ ys) ∧
      Written .chain (startCol src) m e (cols xs) ∧ Follow m (cols ys) := by
  constructor
  · rintro ⟨l', h⟩
    obtain ⟨us, k, t, h1, h2, _, hs⟩ := parseExpr_ok_ate h
    obtain ⟨xs, hx1, hx2, hx3, hx4, hx5⟩ := h1.next h2
    have hcx : cols xs = us.map fun u => (u.1, u.2.col) := by
      rw [← hx1]; simp [cols, ends]
    by_cases ht : t = .eof
    · refine ⟨xs, [], ?_⟩
      have hl : Lexes src (cols xs) := ⟨xs, xs.length + 1, by omega, hx4 ht, rfl⟩
      have hsees := (exactSpec (Parser.fuelFor src)).expression _ _ hl.strm
      rw [show Parser.expression (Parser.fuelFor src) (Lexer.new src) = .ok e l' from h] at hsees
      obtain ⟨us', rest, g1, g2, m, g3, g4⟩ := hsees
      have hrest : rest = [] := by
        obtain ⟨l3, g4, _⟩ := g2.1.peek
        rw [peek_again h2] at g4
        injection g4 with g4 _
        cases rest with
        | nil => rfl
        | cons x rest => exact absurd (ht.symm.trans g4).symm g2.1.1
      subst hrest
      rw [List.append_nil] at g1
      rw [new_col, ← g1] at g3
      exact ⟨m, by rw [hx4 ht, List.append_nil], g3, g4⟩
    · refine ⟨xs, [(t, ⟨l'.prevLoc, l'.currLoc⟩)], ?_⟩
      by_cases her : ∃ er, t = .error er
      · obtain ⟨er, rfl⟩ := her
        have hsees := (exactSpec (Parser.fuelFor src)).expression _ _ (h1.strm_error h2)
        rw [show Parser.expression (Parser.fuelFor src) (Lexer.new src) = .ok e l' from h] at hsees
        obtain ⟨us', rest, g1, g2, m, g3, g4⟩ := hsees
        obtain ⟨l3, k4, _⟩ := g2.1.peek
        rw [peek_again h2] at k4
        injection k4 with k4 _
        have hrest : rest = [(.error er, l'.currLoc.col)] := by
          rcases List.append_eq_append_iff.1 g1 with ⟨c, e1, e2⟩ | ⟨c, e1, e2⟩
          · cases c with
            | nil => simpa using e2.symm
            | cons x c =>
              rw [List.cons_append] at e2
              obtain ⟨_, hr⟩ := List.cons.inj e2
              have hr := (List.append_eq_nil_iff.1 hr.symm).2
              subst hr
              cases k4
          · subst e2
            cases c with
            | nil => rfl
            | cons x c =>
              rw [List.cons_append] at k4
              have : x ∈ us.map fun u => (u.1, u.2.col) := by rw [e1]; simp
              obtain ⟨u, hu, rfl⟩ := List.mem_map.1 this
              exact absurd k4.symm (h1.noError u hu er)
        subst hrest
        have := List.append_cancel_right g1
        rw [← this, ← hcx, new_col] at g3
        exact ⟨m, hx5 ht, g3, g4⟩
      · have hate := h1.snoc h2 ht (fun er h => her ⟨er, h⟩)
        obtain ⟨a, ka, g1, g2, g3⟩ := cut_after hate
        have hag := agree_ate' (by rw [new_loc, new_loc, g3]) hate g2
        rw [List.length_append] at hag
        obtain ⟨l'', g4, g5⟩ := (hs a hag).1 e l' h
        have hsees := (exactSpec (Parser.fuelFor a)).expression _ _ g1.strm
        rw [show Parser.expression (Parser.fuelFor a) (Lexer.new a) = .ok e l'' from g4] at hsees
        obtain ⟨us', rest, k1, k2, m, k3, k4⟩ := hsees
        have hne : ∀ x ∈ rest, ∀ er, x.1 ≠ .error er := by
          intro x hx
          have : x ∈ (us ++ [(t, l'.currLoc)]).map fun u => (u.1, u.2.col) := by rw [k1]; simp [hx]
          obtain ⟨u, hu, rfl⟩ := List.mem_map.1 this
          exact hate.noError u hu
        have hl := g5.stream_length g1.strm.1 k2.1 hne
        have hus : us'.length = us.length := by
          have := congrArg List.length k1
          simp at this hl
          omega
        have hcs : ((us ++ [(t, l'.currLoc)]).map fun u => (u.1, u.2.col)) =
            cols xs ++ cols [(t, ⟨l'.prevLoc, l'.currLoc⟩)] := by
          rw [hcx]; simp [cols]
        rw [hcs] at k1
        obtain ⟨rfl, rfl⟩ := List.append_inj k1 (by rw [hus, hcx]; simp)
        rw [new_col, show startCol a = startCol src from congrArg Loc.col g3] at k3
        exact ⟨m, hx5 ht, k3, k4⟩
  · rintro ⟨xs, ys, m, hx, hw, hf⟩
    have hnx : ∀ x ∈ xs, ∀ er, x.1 ≠ .error er := by
      intro x hm er
      exact hw.inner.sound x.1 (List.mem_map.2 ⟨(x.1, x.2.hi.col), List.mem_map.2 ⟨x, hm, rfl⟩, rfl⟩) er
    have hlen := items_length hx
    match ys, hlen with
    | [], _ =>
      rw [List.append_nil] at hx
      exact (C81_expression ⟨xs, xs.length + 1, by omega, hx, rfl⟩ e).2
        ⟨cols xs, [], m, by simp [cols], hw, hf⟩
    | [y], _ =>
      by_cases her : ∃ er, y.1 = .error er
      · obtain ⟨er, her⟩ := her
        have hst : Stream (Lexer.new src) (cols xs ++ cols [y]) := by
          have := stream_of_error her (curr_new' src) hx
          simpa [cols] using this
        rw [← new_col] at hw
        rcases hw.run.expression hst rfl hf (Parser.fuelFor src) with h | ⟨l'', h, _⟩
        · exact absurd h (C37_terminates src).2.1
        · exact ⟨l'', h⟩
      · have hcat : ∀ x ∈ xs ++ [y], ∀ er, x.1 ≠ .error er := fun x hm =>
          (List.mem_append.1 hm).elim (hnx x) fun h er he => her ⟨er, by rw [← List.mem_singleton.1 h]; exact he⟩
        obtain ⟨k, hk⟩ := items_ate (curr_new' src) hx (by simp) hcat
        obtain ⟨a, ka, g1, g2, g3⟩ := cut_after hk
        have hag := agree_ate' (by rw [new_loc, new_loc, g3]) g2 hk
        have hcs : ((ends (xs ++ [y])).map fun u => (u.1, u.2.col)) = cols xs ++ cols [y] := by
          simp [cols, ends]
        rw [hcs] at g1
        have hcol : startCol a = startCol src := congrArg Loc.col g3
        rw [← hcol, ← new_col] at hw
        rcases hw.run.expression g1.strm.1 rfl hf (Parser.fuelFor a) with h | ⟨l'', h, hs⟩
        · exact absurd h (C37_terminates a).2.1
        · obtain ⟨vs, kv, t, h1, h2, _, hsame⟩ := parseExpr_ok_ate h
          have hl := (Takes.peek h1.takes h2).stream_length g1.strm.1 hs (by
            intro x hm er
            simp only [cols, List.map_cons, List.map_nil, List.mem_singleton] at hm
            subst hm
            exact fun h => her ⟨er, h⟩)
          have : vs.length = xs.length := by simpa [cols] using hl.symm
          have hag' : Agree (vs.length + 1) (Lexer.new a) (Lexer.new src) := by
            simpa [ends, this] using hag
          obtain ⟨l3, h3, _⟩ := (hsame src hag').1 e l'' h
          exact ⟨l3, h3⟩
    | _ :: _ :: _, h => simp at h

/-- C160: for every source that `parse_expr` rejects, the tokens before the one it complains about,
ending where they end, begin those of some expression at that place. -/
theorem C160_first_bad_token {src : Text} {e : ParseError} {l' : Lexer} (h : parseExpr src = .err e l') :
    ∃ xs : List (Token × LocSpan), items xs.length (Lexer.new src) = .ok xs ∧
      (∃ cs e' m, Written .chain (startCol src) m e' (cols xs ++ cs)) ∧
      ((e.found = .eof ∧ items (xs.length + 1) (Lexer.new src) = .ok xs) ∨
        ∃ sp, items (xs.length + 1) (Lexer.new src) = .ok (xs ++ [(e.found, sp)])) := by
  obtain ⟨us, k, h1, h2, h3, _⟩ := parseExpr_err_ate h
  obtain ⟨xs, hx1, hx2, hx3, hx4, hx5⟩ := h1.next h2
  have htodo : NoTodo (us.map (·.1)) := by
    intro p q a n he
    exact h3 p (q ++ [e.found]) a n (by rw [he]; simp)
  obtain ⟨a, ka, g1, g2, g3⟩ := cut_after h1
  have hb := live_expr h1 htodo g1 g2 g3.symm fun vs l'' ht hlt =>
    ⟨fun e' h' => (by rw [h] at h'; cases h'),
     fun e' h' => (by
      rw [h] at h'; cases h'
      have := ht.length (.peek h1.takes h2)
      omega)⟩
  have hc : (us.map fun u => (u.1, u.2.col)) = cols xs := by rw [← hx1]; simp [cols, ends]
  rw [hc] at hb
  refine ⟨xs, hx3, ?_, ?_⟩
  · rcases hb with ⟨e', m, hw⟩ | ⟨vs, _, hd⟩
    · exact ⟨[], e', m, by rw [List.append_nil]; exact hw⟩
    · obtain ⟨e', m, hw⟩ := hd (vs.map (·, 0)) (by simp [Function.comp_def])
      exact ⟨_, e', m, hw⟩
  · by_cases ht : e.found = .eof
    · exact .inl ⟨ht, hx4 ht⟩
    · exact .inr ⟨_, hx5 ht⟩

/-- C160 (part): if `parse_expr` rejects a source then the tokens before the one it complains about
begin some text that is an expression. Missing: sources with a carriage return after a line feed, and sources that end
too early, in a character given by its code. -/
theorem C160_first_bad_token_partial {src : Text} (hc : NoLFCR src) {e : ParseError} {l' : Lexer}
    (hcode : e.found = .eof → NoCodeEnd src) (h : parseExpr src = .err e l') :
    ∃ xs : List (Token × LocSpan), items xs.length (Lexer.new src) = .ok xs ∧
      BeginsExpr (startLoc src) (ends xs) ∧
      ((e.found = .eof ∧ items (xs.length + 1) (Lexer.new src) = .ok xs) ∨
        ∃ sp, items (xs.length + 1) (Lexer.new src) = .ok (xs ++ [(e.found, sp)])) := by
  obtain ⟨us, k, h1, h2, h3, _⟩ := parseExpr_err_ate h
  obtain ⟨xs, hx1, hx2, hx3, hx4, hx5⟩ := h1.next h2
  have htodo : NoTodo (us.map (·.1)) := by
    intro p q a n he
    exact h3 p (q ++ [e.found]) a n (by rw [he]; simp)
  have hb : BeginsExpr (startLoc src) us := by
    refine beginsExpr_of_live hc h1 htodo (fun hnil => ?_) fun vs l'' ht hlt => ⟨fun e' h' => ?_, fun e' h' => ?_⟩
    · obtain ⟨_, hq⟩ := lex_of_nil hnil
      have := peek_lex (h1.curr (curr_new' src)) h2
      rw [hq] at this
      injection this with this
      exact hcode (Prod.mk.inj this).1.symm
    · rw [h] at h'; cases h'
    · rw [h] at h'; cases h'
      have := ht.length (.peek h1.takes h2)
      omega
  refine ⟨xs, hx3, by rw [hx1]; exact hb, ?_⟩
  by_cases ht : e.found = .eof
  · exact .inl ⟨ht, hx4 ht⟩
  · exact .inr ⟨_, hx5 ht⟩

/-- C160: `parse_expr` panics exactly if the source begins with tokens with which some expression at
that place begins, and then the lexer panics or, after a fixity keyword, there is an integer above 9.
In particular nothing after the expression, and nothing after an error, makes it panic. -/
theorem C160_panics {src : Text} (hc : NoLFCR src) (p : Panic) :
    parseExpr src = .panic p ↔
      (∃ us xs, items us.length (Lexer.new src) = .ok xs ∧ ends xs = us ∧
        BeginsExpr (startLoc src) us ∧ items (us.length + 1) (Lexer.new src) = .error p) ∨
      (p = .precTodo ∧ ∃ us xs a n x y, items (us.length + 2) (Lexer.new src) = .ok xs ∧
        ends xs = us ++ [(Assoc.kwTok a, x), (.lit (.int n), y)] ∧ 9 < n ∧
        BeginsExpr (startLoc src) (us ++ [(Assoc.kwTok a, x)])) := by
  constructor
  · intro h
    have hlive : ∀ (vs : List (Token × Loc)) l', Takes (Lexer.new src) vs l' → ∀ us : List (Token × Loc),
        vs.length < us.length → (∀ e, parseExpr src ≠ .ok e l') ∧ ∀ e, parseExpr src ≠ .err e l' := by
      intro _ _ _ _ _
      rw [h]
      simp
    obtain ⟨us, k, hk, hcase⟩ := parseExpr_panic_ate h
    obtain ⟨xs, hx1, hx2⟩ := hk.items (curr_new' src)
    have hx := hx2 0 [] rfl
    rw [Nat.add_zero, List.append_nil] at hx
    rcases hcase with ⟨hp, ht⟩ | ⟨rfl, vs, a, n, hu, hn, ht⟩
    · have hlex := (peek_panic_iff (hk.curr (curr_new' src))).1 hp
      refine .inl ⟨us, xs, hx, hx1, beginsExpr_of_live hc hk ht (fun hnil => ?_)
          (fun vs l' h1 h2 => hlive vs l' h1 us h2),
        (hk.items_error (curr_new' src) 1 p).2 (items_one_error.1 hlex)⟩
      obtain ⟨_, hq⟩ := lex_of_nil hnil
      rw [hq] at hlex
      cases hlex
    · refine .inr ⟨rfl, ?_⟩
      -- the last two tokens
      generalize hw : us = ws at hk hu
      subst hw
      cases hk with
      | nil =>
        have := congrArg List.length hu
        simp at this
      | @snoc ws m t m' hm hp hte hee =>
        have hu' : ws.map (·.1) ++ [t] = (vs ++ [a.kwTok]) ++ [.lit (.int n)] := by
          rw [List.append_assoc]; simpa using hu
        obtain ⟨h1, h2⟩ := List.append_inj' hu' rfl
        cases h2
        rw [← h1] at ht
        rcases List.eq_nil_or_concat ws with rfl | ⟨us, ⟨t, x⟩, rfl⟩
        · simp at h1
        rw [List.concat_eq_append] at *
        rw [List.map_append] at h1
        obtain ⟨_, h3⟩ := List.append_inj' h1 rfl
        obtain rfl : t = a.kwTok := (List.cons.inj h3).1
        refine ⟨us, xs, a, n, x, m'.currLoc, ?_, ?_, hn,
          beginsExpr_of_live hc hm ht (fun hnil => ?_) fun vs l' h1 h2 => hlive vs l' h1 _ h2⟩
        · simpa using hx
        · exact hx1.trans (by simp)
        · have := peek_lex (hm.curr (curr_new' src)) hp
          obtain ⟨_, hq⟩ := lex_of_nil hnil
          rw [hq] at this
          cases this
  · have noError : ∀ {us : List (Token × Loc)}, BeginsExpr (startLoc src) us →
        ∀ x ∈ us, ∀ e, x.1 ≠ .error e := by
      intro us hb
      obtain ⟨_, _, _, _, _, _, _, _, h, _⟩ := hb.ate
      exact h.noError
    rintro (⟨us, xs, hx, he, hb, hp⟩ | ⟨rfl, us, xs, a, n, x, y, hx, he, hn, hb⟩)
    · have hl : xs.length = us.length := by rw [← he]; simp [ends]
      have hne : ∀ x ∈ xs, ∀ e, x.1 ≠ .error e := fun x hm =>
        noError hb (x.1, x.2.hi) (by rw [← he]; exact List.mem_map.2 ⟨x, hm, rfl⟩)
      obtain ⟨k, hk⟩ := items_ate (curr_new' src) hx hl hne
      rw [he] at hk
      rw [← new_loc] at hb
      refine parseExpr_panic_of_begins hk ?_ hb
      rw [peek_panic_iff (hk.curr (curr_new' src)), items_one_error]
      exact (hk.items_error (curr_new' src) 1 p).1 hp
    · have hl : xs.length = us.length + 2 := by
        have := congrArg List.length he
        simpa [ends] using this
      have hne : ∀ x ∈ xs, ∀ e, x.1 ≠ .error e := by
        intro z hm e
        have : (z.1, z.2.hi) ∈ us ++ [(a.kwTok, x)] ++ [(.lit (.int n), y)] := by
          rw [List.append_assoc]
          show _ ∈ us ++ [(a.kwTok, x), (.lit (.int n), y)]
          rw [← he]; exact List.mem_map.2 ⟨z, hm, rfl⟩
        rcases List.mem_append.1 this with h | h
        · exact noError hb _ h e
        · rw [(Prod.mk.inj (List.mem_singleton.1 h)).1]; simp
      obtain ⟨k, hk⟩ := items_ate (curr_new' src) hx hl hne
      rw [he] at hk
      rw [← new_loc] at hb
      exact parseExpr_todo_of_begins hk hn hb

end

/-! ### examples -/
section
attribute [local instance] asciiTables asciiTables_lawful

theorem of_expr {r : PRes Expr} :
    (∀ {e}, r.value? = some e → ∃ l', r = .ok e l') ∧ (∀ {e}, r.error? = some e → ∃ l', r = .err e l') ∧
      ∀ {p}, r.panic? = some p → r = .panic p := by
  refine ⟨fun h => ?_, fun h => ?_, fun h => ?_⟩ <;> cases r <;> cases h
  · exact ⟨_, rfl⟩
  · exact ⟨_, rfl⟩
  · rfl

/-- An expression is read although, further on, the lexer would panic: the right side of
`C160_accepts`. -/
example : items 4 (Lexer.new t!"f x ) X") = .error .identAssert ∧
    (∃ xs ys m, items (xs.length + 1) (Lexer.new t!"f x ) X") = .ok (xs ++ ys) ∧
      Written .chain (startCol t!"f x ) X") m (.app (.var (.lower t!"f")) (.var (.lower t!"x"))) (cols xs) ∧
      Follow m (cols ys)) ∧
    ∃ l', parseExpr t!"f x ) X" = .ok (.app (.var (.lower t!"f")) (.var (.lower t!"x"))) l' := by
  refine ⟨by decide +kernel,
    ⟨[(.lower t!"f", ⟨⟨1, 1, 0⟩, ⟨1, 2, 1⟩⟩), (.lower t!"x", ⟨⟨1, 3, 2⟩, ⟨1, 4, 3⟩⟩)],
      [(.parenR, ⟨⟨1, 5, 4⟩, ⟨1, 6, 5⟩⟩)], 1, by decide +kernel, ?_,
      by simp [Follow, cols, Token.joins, Token.startsArg]⟩,
    of_expr.1 (by decide +kernel)⟩
  rw [show startCol t!"f x ) X" = 1 by decide +kernel]
  exact .last (.app (.head (.lower 1 2 _)) (.lower 1 4 _) (by decide))

/-- Also where the next token is an error and after it the lexer would panic. (Because of the carriage
return the name is looked up one byte too early, and so are the digits.) -/
example : items 4 (Lexer.new t!"f \n\rxx 12 X") = .error .identAssert ∧
    (∃ xs ys m, items (xs.length + 1) (Lexer.new t!"f \n\rxx 12 X") = .ok (xs ++ ys) ∧
      Written .chain (startCol t!"f \n\rxx 12 X") m (.app (.var (.lower t!"f")) (.var (.lower t!"\rx")))
        (cols xs) ∧ Follow m (cols ys) ∧ ∃ y er, ys = [y] ∧ y.1 = .error er) ∧
    ∃ l', parseExpr t!"f \n\rxx 12 X" = .ok (.app (.var (.lower t!"f")) (.var (.lower t!"\rx"))) l' := by
  refine ⟨by decide +kernel,
    ⟨[(.lower t!"f", ⟨⟨1, 1, 0⟩, ⟨1, 2, 1⟩⟩), (.lower t!"\rx", ⟨⟨2, 1, 3⟩, ⟨2, 3, 5⟩⟩)],
      [(.error (.invalidInt ⟨2, 4, 6⟩ .invalidDigit), ⟨⟨2, 4, 6⟩, ⟨2, 6, 8⟩⟩)], 1, by decide +kernel, ?_,
      by simp [Follow, cols, Token.joins, Token.startsArg], _, _, rfl, rfl⟩,
    of_expr.1 (by decide +kernel)⟩
  rw [show startCol t!"f \n\rxx 12 X" = 1 by decide +kernel]
  exact .last (.app (.head (.lower 1 2 _)) (.lower 1 3 _) (by decide))

/-- Not where the upper case letter is the token after the expression. -/
example : parseExpr t!"f x X" = .panic .identAssert := of_expr.2.2 (by decide +kernel)

/-- An error, in a source with a carriage return directly after a line feed (the operator is then read
one byte too early, as a space): its tokens before `)` begin an expression all the same. -/
example : ¬ NoLFCR t!"(f\n\r + )" ∧
    (∃ l', parseExpr t!"(f\n\r + )" = .err (.unexpected .parenR ⟨2, 3, 5⟩) l') ∧
    items 3 (Lexer.new t!"(f\n\r + )") = .ok [(.parenL, ⟨⟨1, 1, 0⟩, ⟨1, 2, 1⟩⟩),
      (.lower t!"f", ⟨⟨1, 2, 1⟩, ⟨1, 3, 2⟩⟩), (.affix t!" " false, ⟨⟨2, 2, 4⟩, ⟨2, 3, 5⟩⟩)] := by
  refine ⟨by unfold NoLFCR; decide, of_expr.2.1 (by decide +kernel), by decide +kernel⟩

/-- An error: the tokens before `)` begin an expression. -/
example : NoLFCR t!"(f + )" ∧ NoCodeEnd t!"(f + )" ∧
    ∃ l', parseExpr t!"(f + )" = .err (.unexpected .parenR ⟨1, 5, 4⟩) l' := by
  refine ⟨by unfold NoLFCR; decide, ?_, of_expr.2.1 (by decide +kernel)⟩
  intro p u q _ h
  rw [show p ++ '\'' :: '\\' :: u :: (q ++ t!"'") = (p ++ '\'' :: '\\' :: u :: q) ++ t!"'" by simp] at h
  have := congrArg List.getLast? h
  rw [List.getLast?_append] at this
  cases this

/-- The tokens of `let infixl 1 + in x`. -/
def exLetItems : List (Token × LocSpan) :=
  [(.let_, ⟨⟨1, 1, 0⟩, ⟨1, 4, 3⟩⟩), (.infixL, ⟨⟨1, 5, 4⟩, ⟨1, 11, 10⟩⟩),
    (.lit (.int 1), ⟨⟨1, 12, 11⟩, ⟨1, 13, 12⟩⟩), (.affix t!"+" false, ⟨⟨1, 14, 13⟩, ⟨1, 15, 14⟩⟩),
    (.in_, ⟨⟨1, 16, 15⟩, ⟨1, 18, 17⟩⟩), (.lower t!"x", ⟨⟨1, 19, 18⟩, ⟨1, 20, 19⟩⟩)]

/-- What the second part of `C160_panics` assumes. -/
example : parseExpr t!"let infixl 10 + in x" = .panic .precTodo ∧ NoLFCR t!"let infixl 10 + in x" ∧
    BeginsExpr (startLoc t!"let infixl 10 + in x") [(.let_, ⟨1, 4, 3⟩), (.infixL, ⟨1, 11, 10⟩)] := by
  refine ⟨of_expr.2.2 (by decide +kernel), by unfold NoLFCR; decide, t!"let infixl 1 + in x", exLetItems.take 2,
    cols exLetItems, min 1 18, .let_ ⟨[.standard t!"+"], ⟨1, .left⟩⟩ (.var (.lower t!"x")), by decide +kernel, by decide +kernel,
    by decide +kernel, ⟨exLetItems, 7, by decide, by decide +kernel, rfl⟩, ?_⟩
  rw [show startLoc t!"let infixl 10 + in x" = ⟨1, 1, 0⟩ by decide +kernel]
  exact .lastOpen (.let_ (ds := [_, _, _])
    ⟨.withPrec (a := .left) (p := 1) (ops := [(.standard t!"+", .affix t!"+" false)]) (by decide) (by simp)
      (by simpa using OpTok.standard _), by simp, by simp⟩ (.last (.head (.lower _ _ _))))

end

end Pemdas
