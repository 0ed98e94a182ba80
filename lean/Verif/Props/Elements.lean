import Verif.Props.LetFirst
import Verif.Lemmas.Drawn
/-
C191: what is shown for lists, tuples, applications and lambdas is put together from what is shown for their parts.
-/
namespace Pemdas
open Session Resolver

section
variable [CharTables]

/-- In the session, the expression, entered as an input without declarations, has the answer `out`. -/
def Session.Answers (s : Session) (e : Expr) (out : List Effect) : Prop :=
  ∃ (w : World) (line src : Text) (k : List DeclKind) (l : Lexer) (s' : Session), Completes s line src ∧
    parse src = .ok ⟨.expr :: k, [], [e]⟩ l ∧ step w s line = .ok (true, s', out)

/-- In the session, the expression is accepted, and the text is shown for it. -/
def Session.ShowsFor (s : Session) (e : Expr) (t : Text) : Prop := s.Answers e [.out (t!"  " ++ t ++ t!"\n")]

/-- The same for expressions one by one. -/
inductive Session.ShowsAll (s : Session) : List Expr → List Text → Prop
  | nil : ShowsAll s [] []
  | cons {e t es ts} : s.ShowsFor e t → ShowsAll s es ts → ShowsAll s (e :: es) (t :: ts)

omit [CharTables] in
theorem become_stays {m : Fixities} (hw : m.Wf) {e g : Expr} {es : List AssocError} {fx : Env}
    (h : Becomes m.get e g es fx) (hl : e.LetsDistinct) : fx = m.get := by
  obtain ⟨x₁, es₁, fx₁, hb, m₁, -, k1, k2⟩ := C152_expression hw e
  obtain ⟨rfl, rfl, rfl⟩ := (hb _ _ _).1 h
  have := C11_no_leak_partial _ _ _ _ hl k2
  simp only at this
  rw [← k1, this]

theorem answer_shown {k : List DeclKind} {x : Expr} {es : List AssocError} {t : Text}
    (h : answer (.expr :: k) [x] es = [.out (t!"  " ++ t ++ t!"\n")]) : es = [] ∧ x.drawn.sent = t := by
  unfold answer at h
  rcases he : firstOfEach es with _ | ⟨e, _ | ⟨e', es'⟩⟩
  · rw [he] at h
    simp only [List.cons.injEq, and_true, Effect.out.injEq] at h
    exact ⟨firstOfEach_ne_nil.1 he, List.append_cancel_left (List.append_cancel_right h)⟩
  · rw [he] at h
    simp at h
  · rw [he] at h
    simp at h

theorem answer_failed {k : List DeclKind} {x : Expr} {es : List AssocError} :
    (∃ t, answer (.expr :: k) [x] es = [.err t]) ↔ es ≠ [] := by
  unfold answer
  rcases he : firstOfEach es with _ | ⟨e, _ | ⟨e', es'⟩⟩
  · have := firstOfEach_ne_nil.1 he
    simp [this]
  · have : es ≠ [] := by rintro rfl; cases he
    simp [this]
  · have : es ≠ [] := by rintro rfl; cases he
    simp [this]

omit [CharTables] in
theorem sent_joined (sep : Text) : ∀ xs : List Drawing,
    (joined sep xs).sent = List.intercalate sep (xs.map Drawing.sent)
  | [] => rfl
  | [x] => by simp [joined, List.intercalate]
  | x :: y :: xs => by
    have := sent_joined sep (y :: xs)
    simp only [joined, List.intercalate, List.intersperse, List.flatten_cons, List.map_cons] at this ⊢
    rw [sent_append, sent_append, sent_ink, this]

variable [LawfulTables]

theorem answers_becomes {s : Session} {log : List Event} (hh : History s log) {e : Expr} {out : List Effect}
    (h : s.Answers e out) :
    ∃ k x es fx, Becomes s.resolver.fixities.get e x es fx ∧ out = answer (.expr :: k) [x] es := by
  obtain ⟨w, line, src, k, l, s', hc, hp, hs⟩ := h
  obtain ⟨s₁, xs, es, fx, a1, a2, -, -⟩ := input_becomes w hh hc hp
  rw [a2] at hs
  simp only [Except.ok.injEq, Prod.mk.injEq, true_and] at hs
  simp only at a1
  cases a1 with
  | cons a1 a =>
    cases a
    exact ⟨k, _, _, _, a1, by rw [← hs.2, List.append_nil]⟩

theorem becomeAll_shown {s : Session} {log : List Event} (hh : History s log) : ∀ {es : List Expr} {ts : List Text}
    {ys : List Expr} {errs : List AssocError} {fx : Env}, s.ShowsAll es ts → Expr.LetsDistinctList es →
    BecomeAll s.resolver.fixities.get es ys errs fx →
    errs = [] ∧ (Expr.drawnList ys).map Drawing.sent = ts
  | [], _, _, _, _, h, _, hb => by
    cases h
    cases hb
    exact ⟨rfl, rfl⟩
  | e :: es, _, _, _, _, h, hl, hb => by
    cases h with
    | cons h h' =>
      cases hb with
      | cons b b' =>
        obtain ⟨k, x, es', fx', c1, c2⟩ := answers_becomes hh h
        obtain ⟨rfl, rfl, rfl⟩ := b.unique c1
        have := become_stays (history_after hh).1 b hl.1
        rw [this] at b'
        obtain ⟨d1, d2⟩ := becomeAll_shown hh h' hl.2 b'
        obtain ⟨e1, e2⟩ := answer_shown c2.symm
        subst d1 e1
        refine ⟨rfl, ?_⟩
        simp only [Expr.drawnList, List.map_cons, d2]
        exact congrArg (· :: _) e2

theorem answers_shown {s : Session} {log : List Event} (hh : History s log) {e : Expr} {out : List Effect}
    (h : s.Answers e out) {t : Text} (hb : ∀ x es fx, Becomes s.resolver.fixities.get e x es fx → es = [] ∧ x.drawn.sent = t) :
    out = [.out (t!"  " ++ t ++ t!"\n")] := by
  obtain ⟨k, x, es, fx, c1, rfl⟩ := answers_becomes hh h
  obtain ⟨rfl, rfl⟩ := hb _ _ _ c1
  rfl

/-- **C191** (part that holds) If all elements of a list are accepted when they are entered on their own, the list is
accepted, and what is shown for it is what is shown for the elements, with commas between them, in brackets. Missing:
elements with a `let` that names an operator twice. -/
theorem C191_list_partial {s : Session} {log : List Event} (hh : History s log) {es : List Expr} {ts : List Text}
    (hs : s.ShowsAll es ts) (hl : ∀ e ∈ es, e.LetsDistinct) {out : List Effect} (h : s.Answers (.list es) out) :
    out = [.out (t!"  [" ++ List.intercalate t!", " ts ++ t!"]\n")] := by
  have := answers_shown hh h (t := t!"[" ++ List.intercalate t!", " ts ++ t!"]") fun x errs fx hb => by
    cases hb with
    | list hb =>
      obtain ⟨h1, h2⟩ := becomeAll_shown hh hs ((letsDistinctList_iff _).2 hl) hb
      refine ⟨h1, ?_⟩
      simp only [Expr.drawn, Expr.parts, lambda, List.isEmpty_nil, if_true]
      rw [sent_append, sent_append, sent_joined, sent_ink, sent_ink, h2]
  rw [this]
  simp

/-- **C191** (part that holds) The same for tuples, in parentheses. -/
theorem C191_tuple_partial {s : Session} {log : List Event} (hh : History s log) {es : List Expr} {ts : List Text}
    (hs : s.ShowsAll es ts) (hl : ∀ e ∈ es, e.LetsDistinct) {out : List Effect} (h : s.Answers (.tup es) out) :
    out = [.out (t!"  (" ++ List.intercalate t!", " ts ++ t!")\n")] := by
  have := answers_shown hh h (t := t!"(" ++ List.intercalate t!", " ts ++ t!")") fun x errs fx hb => by
    cases hb with
    | tup hb =>
      obtain ⟨h1, h2⟩ := becomeAll_shown hh hs ((letsDistinctList_iff _).2 hl) hb
      refine ⟨h1, ?_⟩
      simp only [Expr.drawn, Expr.parts, lambda, List.isEmpty_nil, if_true]
      rw [sent_append, sent_append, sent_joined, sent_ink, sent_ink, h2]
  rw [this]
  simp

/-- **C191** (part that holds) What is shown for an application is what is shown for the function and for the argument,
with a blank between. Missing: functions with a `let` that names an operator twice. -/
theorem C191_application_partial {s : Session} {log : List Event} (hh : History s log) {f x : Expr} {t t' : Text}
    (hf : s.ShowsFor f t) (hx : s.ShowsFor x t') (hl : f.LetsDistinct) {out : List Effect}
    (h : s.Answers (.app f x) out) : out = [.out (t!"  " ++ t ++ t!" " ++ t' ++ t!"\n")] := by
  have := answers_shown hh h (t := t ++ t!" " ++ t') fun y errs fx hb => by
    cases hb with
    | app b b' =>
      obtain ⟨k, y, es, fx', c1, c2⟩ := answers_becomes hh hf
      obtain ⟨rfl, rfl, rfl⟩ := b.unique c1
      rw [become_stays (history_after hh).1 b hl] at b'
      obtain ⟨k', y', es', fx'', c1', c2'⟩ := answers_becomes hh hx
      obtain ⟨rfl, rfl, rfl⟩ := b'.unique c1'
      obtain ⟨rfl, e2⟩ := answer_shown c2.symm
      obtain ⟨rfl, e2'⟩ := answer_shown c2'.symm
      refine ⟨rfl, ?_⟩
      rw [← e2, ← e2']
      simp only [Expr.drawn, Expr.parts]
      rw [show ∀ y : Drawing, lambda 0 ([], y) = y from fun _ => rfl, sent_append, sent_append, sent_ink]
  rw [this]
  simp

/-- **C191** What is shown for a lambda is a backslash, the pattern, an arrow, and what is shown for its body (if the body
is not itself a lambda, in which case the patterns share a backslash). -/
theorem C191_lambda {s : Session} {log : List Event} (hh : History s log) {p : Pat} {b : Expr} {t : Text}
    (hb : s.ShowsFor b t) (hn : ∀ p' b', b ≠ .lam p' b') {out : List Effect}
    (h : s.Answers (.lam p b) out) : out = [.out (t!"  \\" ++ (p.drawn 0).sent ++ t!" -> " ++ t ++ t!"\n")] := by
  have := answers_shown hh h (t := t!"\\" ++ (p.drawn 0).sent ++ t!" -> " ++ t) fun y errs fx hy => by
    cases hy with
    | @lam _ _ _ b' _ _ hy =>
      have hp : (b'.parts 0).1 = [] := by
        cases hy with
        | lam _ => exact absurd rfl (hn _ _)
        | var => rename_i i; cases i <;> rfl
        | _ => rfl
      obtain ⟨k, y, es, fx', c1, c2⟩ := answers_becomes hh hb
      obtain ⟨rfl, rfl, rfl⟩ := hy.unique c1
      obtain ⟨rfl, e2⟩ := answer_shown c2.symm
      refine ⟨rfl, ?_⟩
      rw [Expr.drawn, lambda, hp] at e2
      simp only [List.isEmpty_nil, if_true] at e2
      simp only [Expr.drawn, Expr.parts, lambda, hp, List.isEmpty_cons, Bool.false_eq_true, if_false, if_true, joined,
        List.intercalate, List.intersperse, List.flatten_cons, List.flatten_nil, List.append_nil]
      simp only [sent_append, sent_ink, e2, List.append_nil]
  rw [this]
  simp

/-- **C191** (part that holds) If an element of a list or tuple is refused on its own, so is the list or tuple. Missing:
elements with a `let` that names an operator twice. -/
theorem C191_refused_partial {s : Session} {log : List Event} (hh : History s log) {es : List Expr} {e : Expr} (he : e ∈ es)
    {t : Text} (hs : s.Answers e [.err t]) (hl : ∀ e ∈ es, e.LetsDistinct) {out : List Effect}
    (h : s.Answers (.list es) out ∨ s.Answers (.tup es) out) : ∃ t', out = [.err t'] := by
  obtain ⟨k₀, x₀, es₀, fx₀, c1, c2⟩ := answers_becomes hh hs
  have hne := answer_failed.1 ⟨t, c2.symm⟩
  have key : ∀ (xs : List Expr), e ∈ xs → (∀ e ∈ xs, e.LetsDistinct) → ∀ ys errs fx,
      BecomeAll s.resolver.fixities.get xs ys errs fx → errs ≠ [] := by
    intro xs
    induction xs with
    | nil => intro hx; cases hx
    | cons x xs ih =>
      intro hx hd ys errs fx hb
      cases hb with
      | cons b b' =>
        rcases List.mem_cons.1 hx with rfl | hx
        · obtain ⟨rfl, rfl, rfl⟩ := b.unique c1
          intro hz
          exact hne (List.append_eq_nil_iff.1 hz).1
        · rw [become_stays (history_after hh).1 b (hd x (by simp))] at b'
          intro hz
          exact ih hx (fun e h => hd e (by simp [h])) _ _ _ b' (List.append_eq_nil_iff.1 hz).2
  rcases h with h | h
  · obtain ⟨k, x, es', fx, d1, rfl⟩ := answers_becomes hh h
    cases d1 with
    | list d1 => exact answer_failed.2 (key es he hl _ _ _ d1)
  · obtain ⟨k, x, es', fx, d1, rfl⟩ := answers_becomes hh h
    cases d1 with
    | tup d1 => exact answer_failed.2 (key es he hl _ _ _ d1)

end

/-! ### concrete cases -/

section
attribute [local instance] asciiTables asciiTables_lawful

/-- C191: parts on their own and together. -/
example : exShown [t!"a + b + c", t!"\\x -> x", t!"f", t!"[a + b + c, \\x -> x]", t!"(a + b + c, \\x -> x)", t!"f [a + b + c]",
      t!"[a + b + c]", t!"\\y -> a + b + c"] =
    some [t!"  (a + b) + c\n", t!"  \\x -> x\n", t!"  f\n", t!"  [(a + b) + c, \\x -> x]\n", t!"  ((a + b) + c, \\x -> x)\n",
      t!"  f [(a + b) + c]\n", t!"  [(a + b) + c]\n", t!"  \\y -> (a + b) + c\n"] := by
  decide +kernel

/-- C191: `a` and `b` are shown in a new session, … -/
theorem shows_new {e : Expr} {src : Text} {l : Lexer} (hp : parse src = .ok ⟨[.expr], [], [e]⟩ l)
    (hs : Completes (Session.new exFs none).1 src src) (hn : ∀ x errs fx,
      Becomes (Session.new exFs none).1.resolver.fixities.get e x errs fx → x = e ∧ errs = []) :
    (Session.new exFs none).1.ShowsFor e e.drawn.sent := by
  obtain ⟨s₁, xs, es, fx, a1, a2, -, -⟩ := input_becomes exWorld (.start exFs none) hs hp
  refine ⟨exWorld, src, src, [], l, s₁, hs, hp, ?_⟩
  rw [a2]
  simp only at a1
  cases a1 with
  | cons a1 a =>
    cases a
    obtain ⟨rfl, rfl⟩ := hn _ _ _ a1
    rfl

/-- … and so the hypotheses of `C191_list_partial` are met for `[a, b]`. -/
example : ∃ (s : Session) (es : List Expr) (ts : List Text) (out : List Effect), History s [] ∧ s.ShowsAll es ts ∧
    (∀ e ∈ es, e.LetsDistinct) ∧ s.Answers (.list es) out ∧ es.length = 2 := by
  obtain ⟨l, h⟩ := of_value (src := t!"a") (ast := ⟨[.expr], [], [exA]⟩) (by decide +kernel)
  obtain ⟨l', h'⟩ := of_value (src := t!"b") (ast := ⟨[.expr], [], [exB]⟩) (by decide +kernel)
  obtain ⟨l₂, h₂⟩ := of_value (src := t!"[a, b]") (ast := ⟨[.expr], [], [.list [exA, exB]]⟩) (by decide +kernel)
  have hc : Completes (Session.new exFs none).1 t!"[a, b]" t!"[a, b]" :=
    ⟨_, .inl (.plain ((says_iff (by decide)).2 (by decide)) (by decide) (by decide) (by decide)), rfl⟩
  obtain ⟨s₁, xs, es, fx, -, a2, -, -⟩ := input_becomes exWorld (.start exFs none) hc h₂
  refine ⟨_, _, _, _, .start exFs none,
    .cons (shows_new h ⟨_, .inl (.plain ((says_iff (by decide)).2 (by decide)) (by decide) (by decide) (by decide)), rfl⟩
      fun x errs fx hb => by cases hb; exact ⟨rfl, rfl⟩)
    (.cons (shows_new h' ⟨_, .inl (.plain ((says_iff (by decide)).2 (by decide)) (by decide) (by decide) (by decide)), rfl⟩
      fun x errs fx hb => by cases hb; exact ⟨rfl, rfl⟩) .nil), ?_,
    ⟨exWorld, _, _, [], l₂, s₁, hc, h₂, a2⟩, rfl⟩
  intro e he
  simp only [List.mem_cons, List.not_mem_nil, or_false] at he
  rcases he with rfl | rfl <;> trivial

/-- C191 is false: after an element with a `let` that names an operator twice, another element is not shown as it is on
its own. -/
theorem C191_let_wrong :
    exShown [t!"infixl 6 +", t!"b + c + d"] = some [t!"  (b + c) + d\n"] ∧
    exShown [t!"infixl 6 +", t!"let infixr 9 +, + in a"] = some [t!"  a\n"] ∧
    exShown [t!"infixl 6 +", t!"[let infixr 9 +, + in a, b + c + d]"] = some [t!"  [a, b + (c + d)]\n"] := by
  decide +kernel

end
end Pemdas
