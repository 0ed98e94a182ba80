import Verif.Spec.School
import Verif.Spec.Parsed
/-
Lemmas for C164: what is left of a line after some levels is the line in which the operators of the
remaining levels are visible and everything under the others has been worked out.
-/
namespace Pemdas
namespace School

variable {V : Type}

/-- The line of an expression in which only the operators in `s` are visible, and of these only such
as are not below an invisible one. -/
def flat (M : Meaning V) (s : Infix → Bool) : Expr → V × List (Infix × V)
  | .bin l op r =>
    if s op then ((flat M s l).1, (flat M s l).2 ++ (op, (flat M s r).1) :: (flat M s r).2)
    else (M.op op (l.meaning M) (r.meaning M), [])
  | e => (e.meaning M, [])

theorem flat_hidden {M : Meaning V} {s : Infix → Bool} {e : Expr}
    (h : ∀ o, e.rootOp = some o → s o = false) : flat M s e = (e.meaning M, []) := by
  cases e <;> simp [flat]
  rename_i l op r
  rw [h op rfl]
  simp [Expr.meaning]

theorem leftward_join (f : Infix → V → V → V) {now : Infix → Bool} {o : Infix} (h : now o = false)
    (a : V) (as : List (Infix × V)) (b : V) (bs : List (Infix × V)) :
    leftward f now a (as ++ (o, b) :: bs) =
      ((leftward f now a as).1, (leftward f now a as).2 ++
        (o, (leftward f now b bs).1) :: (leftward f now b bs).2) := by
  induction as generalizing a with
  | nil => simp [leftward, h]
  | cons x as ih =>
    obtain ⟨o', y⟩ := x
    simp only [List.cons_append, leftward]
    cases now o' with
    | true => simpa using ih _
    | false => simp [ih]

theorem leftward_now (f : Infix → V → V → V) {now : Infix → Bool} {o : Infix} (h : now o = true)
    {a l : V} {as : List (Infix × V)} (hl : leftward f now a as = (l, [])) (b : V) :
    leftward f now a (as ++ [(o, b)]) = (f o l b, []) := by
  induction as generalizing a with
  | nil =>
    simp only [leftward, Prod.mk.injEq] at hl
    simp [leftward, h, hl.1]
  | cons x as ih =>
    obtain ⟨o', y⟩ := x
    simp only [leftward] at hl
    simp only [List.cons_append, leftward]
    cases hn : now o' with
    | true =>
      rw [hn] at hl
      simpa using ih (by simpa using hl)
    | false =>
      rw [hn] at hl
      simp at hl

theorem rightward_join (f : Infix → V → V → V) {now : Infix → Bool} {o : Infix} (h : now o = false)
    (a : V) (as : List (Infix × V)) (b : V) (bs : List (Infix × V)) :
    rightward f now a (as ++ (o, b) :: bs) =
      ((rightward f now a as).1, (rightward f now a as).2 ++
        (o, (rightward f now b bs).1) :: (rightward f now b bs).2) := by
  induction as generalizing a with
  | nil => simp [rightward, h]
  | cons x as ih =>
    obtain ⟨o', y⟩ := x
    simp only [List.cons_append, rightward, ih]
    cases now o' <;> simp

/-- Below an operator of `now` nothing that is visible in `s` stands on the one side and nothing
that is visible in `s'` on the other. -/
def Ready (fx : Env) (s s' now : Infix → Bool) (left : Bool) : Prop :=
  ∀ op, s op = true → now op = true → ∀ o,
    (LeftOk (fx o) (fx op) → (if left then s' o else s o) = false) ∧
    (RightOk (fx o) (fx op) → (if left then s o else s' o) = false)

theorem leftward_flat (M : Meaning V) {fx : Env} {s s' now : Infix → Bool}
    (hs : ∀ o, s' o = (s o && !now o)) (hr : Ready fx s s' now true) (e : Expr) (hg : e.Grouped fx) :
    leftward M.op now (flat M s e).1 (flat M s e).2 = flat M s' e := by
  cases e with
  | bin l op r =>
    obtain ⟨hl, hrr, h1, h2⟩ := hg
    have ihl := leftward_flat M hs hr l hl
    have ihr := leftward_flat M hs hr r hrr
    simp only [flat, hs op]
    cases hso : s op with
    | false => simp [leftward]
    | true =>
      cases hn : now op with
      | false =>
        simp only [if_true, Bool.not_false, Bool.and_true]
        rw [leftward_join M.op hn, ihl, ihr]
      | true =>
        have h3 : flat M s r = (r.meaning M, []) :=
          flat_hidden fun o ho => by simpa using (hr op hso hn o).2 (h2 o ho)
        have h4 : flat M s' l = (l.meaning M, []) :=
          flat_hidden fun o ho => by simpa using (hr op hso hn o).1 (h1 o ho)
        simp only [if_true, Bool.not_true, Bool.and_false, Bool.false_eq_true, if_false, h3]
        exact leftward_now M.op hn (ihl.trans h4) _
  | _ => rfl

theorem rightward_flat (M : Meaning V) {fx : Env} {s s' now : Infix → Bool}
    (hs : ∀ o, s' o = (s o && !now o)) (hr : Ready fx s s' now false) (e : Expr) (hg : e.Grouped fx) :
    rightward M.op now (flat M s e).1 (flat M s e).2 = flat M s' e := by
  cases e with
  | bin l op r =>
    obtain ⟨hl, hrr, h1, h2⟩ := hg
    have ihl := rightward_flat M hs hr l hl
    have ihr := rightward_flat M hs hr r hrr
    simp only [flat, hs op]
    cases hso : s op with
    | false => simp [rightward]
    | true =>
      cases hn : now op with
      | false =>
        simp only [if_true, Bool.not_false, Bool.and_true]
        rw [rightward_join M.op hn, ihl, ihr]
      | true =>
        have h3 : flat M s l = (l.meaning M, []) :=
          flat_hidden fun o ho => by simpa using (hr op hso hn o).1 (h1 o ho)
        have h4 : flat M s' r = (r.meaning M, []) :=
          flat_hidden fun o ho => by simpa using (hr op hso hn o).2 (h2 o ho)
        simp only [if_true, Bool.not_true, Bool.and_false, Bool.false_eq_true, if_false, h3,
          List.nil_append, rightward, hn, ihr, h4]
  | _ => rfl

/-- The operators below a level. -/
def below (fx : Env) (p : Nat) : Infix → Bool := fun o => decide ((fx o).prec < p)

theorem level_flat (M : Meaning V) (fx : Env) (p : Nat) {e : Expr} (hg : e.Grouped fx) :
    level M.op fx p (flat M (below fx (p + 1)) e) = flat M (below fx p) e := by
  have h1 := rightward_flat M (fx := fx) (s := below fx (p + 1))
    (s' := fun o => below fx (p + 1) o && !((fx o).prec == p && (fx o).assoc == .right))
    (now := fun o => (fx o).prec == p && (fx o).assoc == .right) (fun _ => rfl)
    (by
      intro op _ hn o
      simp only [Bool.and_eq_true, beq_iff_eq] at hn
      obtain ⟨hn1, hn2⟩ := hn
      refine ⟨fun h => ?_, fun h => ?_⟩
      · simp only [Bool.false_eq_true, if_false, below, decide_eq_false_iff_not]
        rcases h with h | ⟨_, _, h⟩
        · omega
        · rw [hn2] at h; cases h
      · simp only [Bool.false_eq_true, if_false, below]
        rcases h with h | ⟨h, h', _⟩
        · rw [Bool.and_eq_false_iff]; left
          simp only [decide_eq_false_iff_not]; omega
        · rw [Bool.and_eq_false_iff]; right
          simp [h, hn1, h'])
    e hg
  have h2 := leftward_flat M (fx := fx)
    (s := fun o => below fx (p + 1) o && !((fx o).prec == p && (fx o).assoc == .right))
    (s' := below fx p)
    (now := fun o => (fx o).prec == p && (fx o).assoc != .right)
    (by
      intro o
      simp only [below]
      by_cases h : (fx o).prec < p
      · have h3 : (fx o).prec ≠ p := by omega
        have h4 : (fx o).prec < p + 1 := by omega
        simp [h, h3, h4]
      · by_cases h3 : (fx o).prec = p
        · cases (fx o).assoc <;> simp [h3] <;> decide
        · have h4 : ¬ (fx o).prec < p + 1 := by omega
          simp [h, h4])
    (by
      intro op _ hn o
      simp only [Bool.and_eq_true, beq_iff_eq, bne_iff_ne, ne_eq] at hn
      obtain ⟨hn1, hn2⟩ := hn
      refine ⟨fun h => ?_, fun h => ?_⟩
      · simp only [if_true, below, decide_eq_false_iff_not]
        rcases h with h | ⟨h, _, _⟩ <;> omega
      · simp only [if_true, below]
        rcases h with h | ⟨_, _, h⟩
        · rw [Bool.and_eq_false_iff]; left
          simp only [decide_eq_false_iff_not]; omega
        · exact absurd h hn2)
    e hg
  unfold level
  simp only [h1]
  exact h2

theorem calculate_flat (M : Meaning V) (fx : Env) {e : Expr} (hg : e.Grouped fx) :
    calculate M.op fx (flat M (below fx 10) e) = some (e.meaning M) := by
  have h0 : flat M (below fx 0) e = (e.meaning M, []) :=
    flat_hidden fun o _ => by simp [below]
  simp only [calculate, levels, List.foldl_cons, List.foldl_nil]
  rw [level_flat M fx 9 hg, level_flat M fx 8 hg, level_flat M fx 7 hg, level_flat M fx 6 hg,
    level_flat M fx 5 hg, level_flat M fx 4 hg, level_flat M fx 3 hg, level_flat M fx 2 hg,
    level_flat M fx 1 hg, level_flat M fx 0 hg, h0]

/-- The things in a line. -/
def spread (l : V × List (Infix × V)) : List (Item V) :=
  .val l.1 :: l.2.flatMap fun x => [.op x.1, .val x.2]

theorem asLine_spread (x : V) (l : List (Infix × V)) : asLine (spread (x, l)) = some (x, l) := by
  induction l generalizing x with
  | nil => rfl
  | cons y l ih =>
    have := ih y.2
    simp only [spread, List.flatMap_cons, List.cons_append, List.nil_append] at this ⊢
    simp [asLine, this]

theorem items_append (M : Meaning V) (fx : Env) {as : List Tok} {xs : List (Item V)}
    (ha : items M fx as = some xs) {bs : List Tok} {ys : List (Item V)} (hb : items M fx bs = some ys) :
    items M fx (as ++ bs) = some (xs ++ ys) := by
  induction as generalizing xs with
  | nil => simp only [items, Option.some.injEq] at ha; subst ha; simpa using hb
  | cons t as ih =>
    simp only [items, Option.bind_eq_bind, Option.pure_def, Option.bind_eq_some_iff,
      Option.some.injEq] at ha
    obtain ⟨i, hi, is, his, rfl⟩ := ha
    simp [items, hi, ih his]

theorem Env.extend_low {fx : Env} {d : InfixDecl} (hfx : ∀ o, (fx o).prec ≤ 9) (hd : d.fixity.prec ≤ 9)
    (o : Infix) : ((fx.extend d) o).prec ≤ 9 := by
  unfold Env.extend
  split
  · exact hd
  · exact hfx o

theorem line_of {M : Meaning V} {fx : Env} {e : Expr} (hg : e.Grouped fx)
    (h : items M fx e.toks = some (spread (flat M (below fx 10) e))) :
    ((items M fx e.toks).bind fun l => (asLine l).bind (calculate M.op fx)) = some (e.meaning M) := by
  have hc := calculate_flat M fx hg
  rw [h]
  generalize flat M (below fx 10) e = l at hc
  obtain ⟨a, as⟩ := l
  rw [Option.bind_some, asLine_spread, Option.bind_some, hc]

mutual
theorem items_toks (M : Meaning V) (fx : Env) (hfx : ∀ o, (fx o).prec ≤ 9) (e : Expr)
    (hg : e.Grouped fx) (hl : ∀ d ∈ e.lets, d.fixity.prec ≤ 9) :
    items M fx e.toks = some (spread (flat M (below fx 10) e)) := by
  cases e with
  | lit l => simp [Expr.toks, items, item, flat, spread, Expr.meaning]
  | var l => simp [Expr.toks, items, item, flat, spread, Expr.meaning]
  | app f x =>
    have h1 := line_of hg.1 (items_toks M fx hfx f hg.1 fun d h => hl d (by simp [Expr.lets, h]))
    have h2 := line_of hg.2 (items_toks M fx hfx x hg.2 fun d h => hl d (by simp [Expr.lets, h]))
    simp only [Expr.toks, items, item, h1, h2]
    simp [flat, spread, Expr.meaning]
  | bin l op r =>
    have h1 := items_toks M fx hfx l hg.1 fun d h => hl d (by simp [Expr.lets, h])
    have h2 := items_toks M fx hfx r hg.2.1 fun d h => hl d (by simp [Expr.lets, h])
    have h3 : items M fx (.op op :: r.toks) = some (.op op :: spread (flat M (below fx 10) r)) := by
      simp [items, item, h2]
    rw [Expr.toks, items_append M fx h1 h3]
    have : below fx 10 op = true := by
      have := hfx op
      simp only [below, decide_eq_true_eq]; omega
    simp [flat, this, spread]
  | lam p b =>
    have h1 := line_of (M := M) (fx := fx) (e := b) hg (items_toks M fx hfx b hg fun d h => hl d (by simpa [Expr.lets] using h))
    simp only [Expr.toks, items, item, h1]
    simp [flat, spread, Expr.meaning]
  | grp b =>
    have h1 := line_of (M := M) (fx := fx) (e := b) hg (items_toks M fx hfx b hg fun d h => hl d (by simpa [Expr.lets] using h))
    simp only [Expr.toks, items, item, h1]
    simp [flat, spread, Expr.meaning]
  | neg b =>
    have h1 := line_of (M := M) (fx := fx) (e := b) hg (items_toks M fx hfx b hg fun d h => hl d (by simpa [Expr.lets] using h))
    simp only [Expr.toks, items, item, h1]
    simp [flat, spread, Expr.meaning]
  | tup es =>
    have h1 := each_toks M fx hfx es hg fun d h => hl d (by simpa [Expr.lets] using h)
    simp only [Expr.toks, items, item, h1]
    simp [flat, spread, Expr.meaning]
  | list es =>
    have h1 := each_toks M fx hfx es hg fun d h => hl d (by simpa [Expr.lets] using h)
    simp only [Expr.toks, items, item, h1]
    simp [flat, spread, Expr.meaning]
  | let_ d b =>
    have h1 := line_of (M := M) (fx := fx.extend d) (e := b) hg (items_toks M (fx.extend d)
      (Env.extend_low hfx (hl d (by simp [Expr.lets]))) b hg fun d h => hl d (by simp [Expr.lets, h]))
    simp only [Expr.toks, items, item, h1]
    simp [flat, spread, Expr.meaning]
theorem each_toks (M : Meaning V) (fx : Env) (hfx : ∀ o, (fx o).prec ≤ 9) (es : List Expr)
    (hg : Expr.GroupedList fx es) (hl : ∀ d ∈ Expr.letsList es, d.fixity.prec ≤ 9) :
    each M fx (Expr.toksList es) = some (Expr.meaningList M es) := by
  cases es with
  | nil => simp [Expr.toksList, each, Expr.meaningList]
  | cons e es =>
    have h1 := line_of (M := M) hg.1 (items_toks M fx hfx e hg.1 fun d h => hl d (by simp [Expr.letsList, h]))
    have h2 := each_toks M fx hfx es hg.2 fun d h => hl d (by simp [Expr.letsList, h])
    simp only [Expr.toksList, each, h1, h2]
    simp [Expr.meaningList]
end

/-! The declarations of `let`s do not depend on the grouping. -/

mutual
def tokLets : Tok → List InfixDecl
  | .op _ => []
  | .lit _ => []
  | .var _ => []
  | .app f x => toksLets f ++ toksLets x
  | .lam _ b => toksLets b
  | .grp e => toksLets e
  | .neg e => toksLets e
  | .tup es => toksLetsList es
  | .list es => toksLetsList es
  | .let_ d b => d :: toksLets b
def toksLets : List Tok → List InfixDecl
  | [] => []
  | t :: ts => tokLets t ++ toksLets ts
def toksLetsList : List (List Tok) → List InfixDecl
  | [] => []
  | ts :: tss => toksLets ts ++ toksLetsList tss
end

theorem toksLets_append (as bs : List Tok) : toksLets (as ++ bs) = toksLets as ++ toksLets bs := by
  induction as with
  | nil => simp [toksLets]
  | cons a as ih => simp [toksLets, ih]

mutual
theorem toksLets_toks (e : Expr) : toksLets e.toks = e.lets := by
  cases e with
  | lit _ => rfl
  | var _ => rfl
  | app f x => simp [Expr.toks, toksLets, tokLets, Expr.lets, toksLets_toks f, toksLets_toks x]
  | bin l op r =>
    simp [Expr.toks, toksLets_append, toksLets, tokLets, Expr.lets, toksLets_toks l, toksLets_toks r]
  | lam p b => simp [Expr.toks, toksLets, tokLets, Expr.lets, toksLets_toks b]
  | grp b => simp [Expr.toks, toksLets, tokLets, Expr.lets, toksLets_toks b]
  | neg b => simp [Expr.toks, toksLets, tokLets, Expr.lets, toksLets_toks b]
  | tup es => simp [Expr.toks, toksLets, tokLets, Expr.lets, toksLets_list es]
  | list es => simp [Expr.toks, toksLets, tokLets, Expr.lets, toksLets_list es]
  | let_ d b => simp [Expr.toks, toksLets, tokLets, Expr.lets, toksLets_toks b]
theorem toksLets_list (es : List Expr) : toksLetsList (Expr.toksList es) = Expr.letsList es := by
  cases es with
  | nil => rfl
  | cons e es => simp [Expr.toksList, toksLetsList, Expr.letsList, toksLets_toks e, toksLets_list es]
end

theorem lets_of_toks {e e' : Expr} (h : e'.toks = e.toks) : e'.lets = e.lets := by
  rw [← toksLets_toks, ← toksLets_toks, h]

end School
end Pemdas
