import Verif.Spec.Backwards
import Verif.Lemmas.Replace
import Verif.Props.Elements
import Verif.Props.Chains
/-
C194: whole expressions read backwards.
-/
namespace Pemdas
open Session Resolver

theorem Fixity.mirror_mirror (f : Fixity) : f.mirror.mirror = f := by
  obtain ⟨p, a⟩ := f
  cases a <;> rfl

theorem backwards_append (a b : List Tok) : Tok.backwards (a ++ b) = Tok.backwards b ++ Tok.backwards a := by
  induction a with
  | nil => simp [Tok.backwards]
  | cons t a ih => simp [Tok.backwards, ih]

mutual
theorem Tok.mirror_mirror : ∀ t : Tok, t.mirror.mirror = t
  | .op _ | .lit _ | .var _ => by simp [Tok.mirror]
  | .app f x => by simp [Tok.mirror, backwards_backwards f, backwards_backwards x]
  | .lam _ b => by simp [Tok.mirror, backwards_backwards b]
  | .grp b => by simp [Tok.mirror, backwards_backwards b]
  | .neg b => by simp [Tok.mirror, backwards_backwards b]
  | .tup es => by simp [Tok.mirror, each_each es]
  | .list es => by simp [Tok.mirror, each_each es]
  | .let_ d b => by simp [Tok.mirror, InfixDecl.mirror, Fixity.mirror_mirror, backwards_backwards b]
theorem backwards_backwards : ∀ ts : List Tok, Tok.backwards (Tok.backwards ts) = ts
  | [] => by simp [Tok.backwards]
  | t :: ts => by simp [Tok.backwards, backwards_append, backwards_backwards ts, Tok.mirror_mirror t]
theorem each_each : ∀ xs : List (List Tok), Tok.eachBackwards (Tok.eachBackwards xs) = xs
  | [] => by simp [Tok.eachBackwards]
  | x :: xs => by simp [Tok.eachBackwards, backwards_backwards x, each_each xs]
end

theorem Backwards.symm {e e' : Expr} (h : Backwards e e') : Backwards e' e := by
  unfold Backwards at *
  rw [h, backwards_backwards]

mutual
theorem toks_mirror : ∀ e : Expr, e.mirror.toks = Tok.backwards e.toks
  | .lit _ | .var _ => by simp [Expr.mirror, Expr.toks, Tok.backwards, Tok.mirror]
  | .app f x => by simp [Expr.mirror, Expr.toks, Tok.backwards, Tok.mirror, toks_mirror f, toks_mirror x]
  | .bin l o r => by
    simp [Expr.mirror, Expr.toks, Tok.backwards, Tok.mirror, backwards_append, toks_mirror l, toks_mirror r]
  | .lam _ b => by simp [Expr.mirror, Expr.toks, Tok.backwards, Tok.mirror, toks_mirror b]
  | .grp b => by simp [Expr.mirror, Expr.toks, Tok.backwards, Tok.mirror, toks_mirror b]
  | .neg b => by simp [Expr.mirror, Expr.toks, Tok.backwards, Tok.mirror, toks_mirror b]
  | .tup es => by simp [Expr.mirror, Expr.toks, Tok.backwards, Tok.mirror, toksList_mirrors es]
  | .list es => by simp [Expr.mirror, Expr.toks, Tok.backwards, Tok.mirror, toksList_mirrors es]
  | .let_ _ b => by simp [Expr.mirror, Expr.toks, Tok.backwards, Tok.mirror, toks_mirror b]
theorem toksList_mirrors : ∀ es : List Expr, Expr.toksList (Expr.mirrors es) = Tok.eachBackwards (Expr.toksList es)
  | [] => by simp [Expr.mirrors, Expr.toksList, Tok.eachBackwards]
  | e :: es => by simp [Expr.mirrors, Expr.toksList, Tok.eachBackwards, toks_mirror e, toksList_mirrors es]
end

theorem rootOp_mirror (e : Expr) : e.mirror.rootOp = e.rootOp := by
  cases e <;> rfl

mutual
theorem grouped_mirror : ∀ (e : Expr) (fx fx' : Env), (∀ o, UsesOp o e → fx' o = (fx o).mirror) → e.Grouped fx →
    e.mirror.Grouped fx'
  | .lit _, _, _, _, _ => trivial
  | .var _, _, _, _, _ => trivial
  | .app f x, fx, fx', h, g => ⟨grouped_mirror f fx fx' (fun o k => h o (.appL k)) g.1,
      grouped_mirror x fx fx' (fun o k => h o (.appR k)) g.2⟩
  | .bin l op r, fx, fx', h, g => ⟨grouped_mirror r fx fx' (fun o k => h o (.binR k)) g.2.1,
      grouped_mirror l fx fx' (fun o k => h o (.binL k)) g.1,
      fun o ho => by
        rw [rootOp_mirror] at ho
        rw [h o (.binR (rootOp_usesOp ho)), h op .here, leftOk_mirror]
        exact g.2.2.2 o ho,
      fun o ho => by
        rw [rootOp_mirror] at ho
        rw [h o (.binL (rootOp_usesOp ho)), h op .here, rightOk_mirror]
        exact g.2.2.1 o ho⟩
  | .lam _ b, fx, fx', h, g => grouped_mirror b fx fx' (fun o k => h o (.lam k)) g
  | .grp b, fx, fx', h, g => grouped_mirror b fx fx' (fun o k => h o (.grp k)) g
  | .neg b, fx, fx', h, g => grouped_mirror b fx fx' (fun o k => h o (.neg k)) g
  | .tup es, fx, fx', h, g => groupedList_mirror es fx fx' (fun x hx o k => h o (.tup hx k)) g
  | .list es, fx, fx', h, g => groupedList_mirror es fx fx' (fun x hx o k => h o (.list hx k)) g
  | .let_ d b, fx, fx', h, g => grouped_mirror b (fx.extend d) (fx'.extend d.mirror) (fun o k => by
      simp only [Env.extend, InfixDecl.mirror, h o (.let_ k)]
      split <;> rfl) g
theorem groupedList_mirror : ∀ (es : List Expr) (fx fx' : Env), (∀ x ∈ es, ∀ o, UsesOp o x → fx' o = (fx o).mirror) →
    Expr.GroupedList fx es → Expr.GroupedList fx' (Expr.mirrors es)
  | [], _, _, _, _ => trivial
  | e :: es, fx, fx', h, g => ⟨grouped_mirror e fx fx' (h e List.mem_cons_self) g.1,
      groupedList_mirror es fx fx' (fun x hx => h x (List.mem_cons_of_mem _ hx)) g.2⟩
end

/-- **C194** If an expression is accepted, so is the expression read backwards, with left and right exchanged in all
fixities; it becomes the mirror image of what the expression becomes. Missing: expressions with a `let` that names an
operator twice, for which it is false (`C194_let_wrong`). -/
theorem C194_result_partial {m m' m₁ : Fixities} {e e' g : Expr} (hn : e.RightNested) (hn' : e'.RightNested)
    (hl : e.LetsDistinct) (hl' : e'.LetsDistinct) (hb : Backwards e e')
    (hm : ∀ o, UsesOp o e → m'.get o = (m.get o).mirror) (h : visit ⟨m, []⟩ e = .ok (⟨m₁, []⟩, g)) :
    visit ⟨m', []⟩ e' = .ok (⟨m', []⟩, g.mirror) := by
  obtain ⟨x, hx, hg⟩ := (C10_error_iff_needed_partial m m₁ e g [] hn hl h).1 rfl
  have h1 := C10_result_is_regrouping_partial m e x hn hl hx hg
  rw [h] at h1
  cases h1
  refine C10_result_is_regrouping_partial m' e' g.mirror hn' hl' ?_ ?_
  · rw [toks_mirror, hx, hb]
  · exact grouped_mirror g m.get m'.get (fun o ho => hm o (visit_usesOp o e _ _ _ h ho)) hg

/-- **C194** An expression is refused if and only if it is read backwards, with left and right exchanged in all fixities. -/
theorem C194_refused_partial {m m' m₁ m₁' : Fixities} {e e' g g' : Expr} {es es' : List AssocError} (hn : e.RightNested)
    (hn' : e'.RightNested) (hl : e.LetsDistinct) (hl' : e'.LetsDistinct) (hb : Backwards e e')
    (hm : ∀ o, UsesOp o e ∨ UsesOp o e' → m'.get o = (m.get o).mirror) (h : visit ⟨m, []⟩ e = .ok (⟨m₁, es⟩, g))
    (h' : visit ⟨m', []⟩ e' = .ok (⟨m₁', es'⟩, g')) : es = [] ↔ es' = [] := by
  constructor
  · rintro rfl
    rw [C194_result_partial hn hn' hl hl' hb (fun o ho => hm o (.inl ho)) h] at h'
    cases h'
    rfl
  · rintro rfl
    rw [C194_result_partial hn' hn hl' hl hb.symm
      (fun o ho => by rw [hm o (.inr ho), Fixity.mirror_mirror]) h'] at h
    cases h
    rfl

section
variable [CharTables] [LawfulTables]

/-- **C194** for the answers of two sessions, whatever has happened in them: where one shows a result, the other one shows
its mirror image for the expression read backwards; where one shows errors, so does the other. -/
theorem C194_answer_partial {s t : Session} {log log' : List Event} (hs : History s log) (ht : History t log')
    {e e' : Expr} {out out' : List Effect} (h : s.Answers e out) (h' : t.Answers e' out') (hl : e.LetsDistinct)
    (hl' : e'.LetsDistinct) (hb : Backwards e e')
    (hm : ∀ o, UsesOp o e ∨ UsesOp o e' → t.resolver.fixities.get o = (s.resolver.fixities.get o).mirror) :
    (∃ g : Expr, out = [.out (t!"  " ++ g.drawn.sent ++ t!"\n")] ∧
      out' = [.out (t!"  " ++ g.mirror.drawn.sent ++ t!"\n")]) ∨
    (∃ x y, out = [.err x] ∧ out' = [.err y]) := by
  have hn : e.RightNested := by
    obtain ⟨_, _, src, _, _, _, _, hp, _⟩ := h
    exact C40_right_nested hp e (by simp)
  have hn' : e'.RightNested := by
    obtain ⟨_, _, src, _, _, _, _, hp, _⟩ := h'
    exact C40_right_nested hp e' (by simp)
  obtain ⟨k, x, es, fx, a1, rfl⟩ := answers_becomes hs h
  obtain ⟨k', x', es', fx', b1, rfl⟩ := answers_becomes ht h'
  obtain ⟨_, _, _, c1, m₁, -, -, c2⟩ := C152_expression (history_after hs).1 e
  obtain ⟨rfl, rfl, rfl⟩ := (c1 _ _ _).1 a1
  obtain ⟨_, _, _, d1, m₂, -, -, d2⟩ := C152_expression (history_after ht).1 e'
  obtain ⟨rfl, rfl, rfl⟩ := (d1 _ _ _).1 b1
  have key := C194_refused_partial hn hn' hl hl' hb hm c2 d2
  rw [firstOfEach_ne_nil, firstOfEach_ne_nil] at key
  by_cases he : es = []
  · have he' := key.1 he
    subst he he'
    have := C194_result_partial hn hn' hl hl' hb (fun o ho => hm o (.inl ho)) c2
    rw [d2] at this
    cases this
    exact .inl ⟨x, rfl, rfl⟩
  · obtain ⟨y, hy⟩ := answer_failed (k := k) (x := x).2 he
    obtain ⟨y', hy'⟩ := answer_failed (k := k') (x := x').2 (fun n => he (key.2 n))
    exact .inr ⟨y, y', hy, hy'⟩

end

/-- `(let infix 9 +, + in a) * (b + c + d)`. -/
def exLeaking : Expr :=
  .bin (.grp (.let_ ⟨[opPlus, opPlus], ⟨9, .neither⟩⟩ exA)) opMul (.grp (.bin exB opPlus (.bin exC opPlus exD)))

/-- `(d + c + b) * (let infix 9 +, + in a)`. -/
def exLeaking' : Expr :=
  .bin (.grp (.bin exD opPlus (.bin exC opPlus exB))) opMul (.grp (.let_ ⟨[opPlus, opPlus], ⟨9, .neither⟩⟩ exA))

/-- The table of the examples with left and right exchanged. -/
def exTableMirror : Fixities :=
  [(opPlus, ⟨6, .right⟩), (opMul, ⟨7, .right⟩), (opPow, ⟨8, .left⟩), (opEq, ⟨4, .neither⟩)]

theorem exLeaking_ops {o : Infix} (h : UsesOp o exLeaking) : o = opPlus ∨ o = opMul := by
  have hv : ∀ i, ¬ UsesOp o (.var i) := fun i h => by cases h
  cases h with
  | here => exact .inr rfl
  | binL h =>
    cases h with
    | grp h => cases h with | let_ h => exact absurd h (hv _)
  | binR h =>
    cases h with
    | grp h =>
      cases h with
      | here => exact .inl rfl
      | binL h => exact absurd h (hv _)
      | binR h =>
        cases h with
        | here => exact .inl rfl
        | binL h => exact absurd h (hv _)
        | binR h => exact absurd h (hv _)

/-- **C194 fails** after a `let` that names an operator twice, for its fixity reaches what stands to the right of it, but
not what stands to the left: one is refused, the other is not. -/
theorem C194_let_wrong : exLeaking.RightNested ∧ exLeaking'.RightNested ∧ Backwards exLeaking exLeaking' ∧
    (∀ o, UsesOp o exLeaking → exTableMirror.get o = (exTable.get o).mirror) ∧
    ∃ m₁ m₁' err, visit ⟨exTable, []⟩ exLeaking = .ok (⟨m₁, [err]⟩, exLeaking) ∧
      visit ⟨exTableMirror, []⟩ exLeaking' = .ok (⟨m₁', []⟩, exLeaking') := by
  refine ⟨by simp [exLeaking, Expr.RightNested, Expr.NonBin, Expr.rootOp, exA, exB, exC, exD],
    by simp [exLeaking', Expr.RightNested, Expr.NonBin, Expr.rootOp, exA, exB, exC, exD],
    by simp [Backwards, exLeaking, exLeaking', Expr.toks, Tok.backwards, Tok.mirror, InfixDecl.mirror, Fixity.mirror,
    Assoc.mirror, exA, exB, exC, exD], ?_,
    [(opPlus, ⟨9, .neither⟩), (opMul, ⟨7, .left⟩), (opPow, ⟨8, .right⟩), (opEq, ⟨4, .neither⟩)],
    [(opPlus, ⟨9, .neither⟩), (opMul, ⟨7, .right⟩), (opPow, ⟨8, .left⟩), (opEq, ⟨4, .neither⟩)],
    ⟨(opPlus, ⟨9, .neither⟩), (opPlus, ⟨9, .neither⟩)⟩, by decide +kernel, by decide +kernel⟩
  intro o ho
  rcases exLeaking_ops ho with rfl | rfl <;> decide

/-! ### concrete cases -/

/-- C194: `a * (b + c + d) + a` and the same backwards. -/
example : ∃ e e' g m₁, e.RightNested ∧ e'.RightNested ∧ e.LetsDistinct ∧ e'.LetsDistinct ∧ Backwards e e' ∧
    visit ⟨exTable, []⟩ e = .ok (⟨m₁, []⟩, g) ∧ g ≠ e ∧
    visit ⟨exTableMirror, []⟩ e' = .ok (⟨exTableMirror, []⟩, g.mirror) := by
  refine ⟨.bin exA opMul (.bin (.grp (.bin exB opPlus (.bin exC opPlus exD))) opPlus exA),
    .bin exA opPlus (.bin (.grp (.bin exD opPlus (.bin exC opPlus exB))) opMul exA),
    .bin (.bin exA opMul (.grp (.bin (.bin exB opPlus exC) opPlus exD))) opPlus exA, exTable,
    by simp [Expr.RightNested, Expr.NonBin, Expr.rootOp, exA, exB, exC, exD],
    by simp [Expr.RightNested, Expr.NonBin, Expr.rootOp, exA, exB, exC, exD],
    by simp [Expr.LetsDistinct, exA, exB, exC, exD], by simp [Expr.LetsDistinct, exA, exB, exC, exD],
    by simp [Backwards, Expr.toks, Tok.backwards, Tok.mirror, exA, exB, exC, exD], by decide +kernel, by decide, by decide +kernel⟩

section
attribute [local instance] asciiTables asciiTables_lawful

/-- C194: on the screen. -/
example : exShown [t!"infixl 6 -; infixr 7 ^", t!"a - b - c ^ d ^ e"] = some [t!"  (a - b) - (c ^ (d ^ e))\n"] ∧
    exShown [t!"infixr 6 -; infixl 7 ^", t!"e ^ d ^ c - b - a"] = some [t!"  ((e ^ d) ^ c) - (b - a)\n"] := by
  decide +kernel

end
end Pemdas
