import Verif.Lemmas.School
import Verif.Props.Drawn
import Verif.Props.Listing
import Verif.Props.SessionMore
/-
C164: expressions are grouped the way they are calculated at school.
-/
namespace Pemdas
open Printer Resolver Session

/-- Fixities from a table with precedences from 0 to 9 have such precedences; so has the default. -/
theorem get_low {m : Fixities} (h : ∀ e ∈ m, e.2.prec ≤ 9) (op : Infix) : (m.get op).prec ≤ 9 := by
  unfold Fixities.get
  induction m with
  | nil => exact Nat.le_refl 9
  | cons x m ih =>
    obtain ⟨k, v⟩ := x
    unfold Fixities.getDefined
    split
    · exact h (k, v) (by simp)
    · exact ih fun e he => h e (by simp [he])

/-- **C164** Whatever operators, names, literals, applications and all other constructs are taken to
mean: if no error is reported, then what the resolved expression means is what one gets from the
expression as it is written, by carrying out its operators level by level, from precedence 9 down to
0, on each level the right-associative ones from right to left and the others from left to right,
with the declarations of `let`s in force in their bodies. -/
theorem C164_resolved_partial {m m' : Fixities} (hm : ∀ x ∈ m, x.2.prec ≤ 9) {e e' : Expr}
    (hs : e.RightNested) (hl : e.LetsDistinct) (hd : ∀ d ∈ e.lets, d.fixity.prec ≤ 9)
    (h : visit ⟨m, []⟩ e = .ok (⟨m', []⟩, e')) {V : Type} (M : Meaning V) :
    School.result M m.get e.toks = some (e'.meaning M) := by
  have hg := C09_result_grouped_partial m m' e e' hs hl h
  have ht := C09_only_grouping_changes ⟨m, []⟩ ⟨m', []⟩ e e' h
  have hd' : ∀ d ∈ e'.lets, d.fixity.prec ≤ 9 := by
    rw [School.lets_of_toks ht]; exact hd
  rw [← ht]
  exact School.line_of hg (School.items_toks M m.get (get_low hm) e' hg hd')

/-- **C164** for what is typed: in every reachable session, for every input that can be parsed and in
whose `let`s no operator is named twice, the answer shows the first expression of the input (or the
errors met), and each expression in which no error is met is grouped the way it is calculated with
the fixities of the last declarations, those of the input included. -/
theorem C164_input_partial [CharTables] [LawfulTables] (w : World) {s : Session} {log : List Event}
    (hh : History s log) (hd : ∀ ev ∈ log, ev.NoDup) {line src : Text} (hc : Completes s line src)
    {ast : Ast} {l : Lexer} (hp : parse src = .ok ast l) (hl : ∀ e ∈ ast.exprs, e.LetsDistinct) :
    ∃ zs : List (Expr × Expr × List AssocError), ast.exprs = zs.map (·.1) ∧
      (∀ z ∈ zs, Resolves (innermost (fixitiesAfter log) ast.infxs) z.1 z.2.1 z.2.2) ∧
      (∀ z ∈ zs, z.2.2 = [] → ∀ (V : Type) (M : Meaning V),
        School.result M (innermost (fixitiesAfter log) ast.infxs) z.1.toks = some (z.2.1.meaning M)) ∧
      ∃ s', step w s line =
          .ok (true, s', answer ast.kinds (zs.map (·.2.1)) (zs.flatMap (·.2.2))) := by
  obtain ⟨zs, h1, h2, s', h3, -, h4, -⟩ := C150_answer_partial w hh hd hc hp hl
  refine ⟨zs, h1, h2, ?_, s', h3⟩
  intro z hz he V M
  have hmem : z.1 ∈ ast.exprs := by rw [h1]; exact List.mem_map.2 ⟨z, hz, rfl⟩
  obtain ⟨es, e', f⟩ := visit_follows z.1 (hl _ hmem) (C40_right_nested hp _ hmem)
    s'.resolver.fixities
  have hu := (h4 ▸ f.rules : Resolves (innermost (fixitiesAfter log) ast.infxs) z.1 e' es).unique (h2 z hz)
  have hv := f.vis []
  rw [hu.1, hu.2, he] at hv
  have hgood : ∀ x ∈ s'.resolver.fixities, x.2.prec ≤ 9 := by
    by_cases hr : ∃ evs, Reads w s.buffer line evs
    · obtain ⟨evs, hr⟩ := hr
      exact (C80_reachable (.reads hh hr h3)).1.2
    · exact (C80_reachable (.quiet hh hr h3)).1.2
  have := C164_resolved_partial hgood (C40_right_nested hp _ hmem) (hl _ hmem)
    (fun d hd' => (C38_declarations hp (d := d) (List.mem_append.2
      (.inr (mem_letsList.2 ⟨_, hmem, hd'⟩)))).2.1) hv M
  rwa [h4] at this

/-! ### concrete cases -/

/-- Numbers and their operations. -/
def exNumbers : Meaning Int where
  lit l := match l with | .int n => n | _ => 0
  var _ := 0
  op o x y :=
    if o.symbol = t!"+" then x + y else if o.symbol = t!"-" then x - y
    else if o.symbol = t!"*" then x * y else if o.symbol = t!"/" then x / y
    else x ^ y.toNat
  app x _ := x
  lam _ x := x
  grp x := x
  neg x := -x
  tup _ := 0
  list xs := xs.sum
  let_ _ x := x

/-- The fixities of the README. -/
def exReadme : Fixities := [(.standard t!"+", ⟨6, .left⟩), (.standard t!"-", ⟨6, .left⟩),
  (.standard t!"*", ⟨7, .left⟩), (.standard t!"/", ⟨7, .left⟩), (.standard t!"^", ⟨8, .right⟩)]

/-- `1 + 2 * 3 ^ 2 - 8 / 4`, as the parser delivers it: the expression of the README. -/
def exCalc : Expr :=
  let n (k : Nat) : Expr := .lit (.int k)
  .bin (n 1) (.standard t!"+") (.bin (n 2) (.standard t!"*") (.bin (n 3) (.standard t!"^")
    (.bin (n 2) (.standard t!"-") (.bin (n 8) (.standard t!"/") (n 4)))))

/-- The same as it is resolved: `(1 + (2 * (3 ^ 2))) - (8 / 4)`. -/
def exCalcDone : Expr :=
  let n (k : Nat) : Expr := .lit (.int k)
  .bin (.bin (n 1) (.standard t!"+") (.bin (n 2) (.standard t!"*") (.bin (n 3) (.standard t!"^") (n 2))))
    (.standard t!"-") (.bin (n 8) (.standard t!"/") (n 4))

/-- C164: the expression of the README meets the hypotheses and comes to 17; taken as it was
delivered it would come to something else. -/
example : (∀ x ∈ exReadme, x.2.prec ≤ 9) ∧ exCalc.RightNested ∧ exCalc.LetsDistinct ∧
    exCalc.lets = [] ∧ visit ⟨exReadme, []⟩ exCalc = .ok (⟨exReadme, []⟩, exCalcDone) ∧
    School.result exNumbers exReadme.get exCalc.toks = some 17 ∧ exCalcDone.meaning exNumbers = 17 ∧
    exCalc.meaning exNumbers ≠ 17 := by
  refine ⟨by decide, ?_, ?_, rfl, by decide +kernel, by decide +kernel, by decide +kernel,
    by decide +kernel⟩
  · simp [exCalc, Expr.RightNested, Expr.NonBin, Expr.rootOp]
  · simp [exCalc, Expr.LetsDistinct]

/-- C164: a `let` whose body has another fixity than what is around it:
`10 - (let infixr 6 - in 10 - 4 - 3) - 1`. -/
example : School.result exNumbers exReadme.get
    (Expr.bin (.lit (.int 10)) (.standard t!"-") (.bin (.grp (.let_ ⟨[.standard t!"-"], ⟨6, .right⟩⟩
      (.bin (.lit (.int 10)) (.standard t!"-") (.bin (.lit (.int 4)) (.standard t!"-") (.lit (.int 3))))))
      (.standard t!"-") (.lit (.int 1)))).toks = some (10 - (10 - (4 - 3)) - 1) := by decide +kernel

section
attribute [local instance] asciiTables asciiTables_lawful

/-- C164: the README's session. -/
example : exShown [t!"infixl 6 +, -", t!"infixl 7 *, /", t!"infixr 8 ^", t!"a + b * c ^ e - f / g"] =
    some [t!"  (a + (b * (c ^ e))) - (f / g)\n"] := by decide +kernel

/-- C164: an input with a declaration of its own meets the hypotheses. -/
example : ∃ ast, (parse t!"1 + 2 * 3\ninfixr 5 *").value? = some ast ∧
    ast.kinds = [.expr, .infix_] ∧ (∀ e ∈ ast.exprs, e.LetsDistinct) ∧
    (∃ e ∈ ast.exprs, School.result exNumbers (innermost (fixitiesAfter []) ast.infxs) e.toks = some 9) := by
  refine ⟨⟨[.expr, .infix_], [⟨[.standard t!"*"], ⟨5, .right⟩⟩], [.bin (.lit (.int 1)) (.standard t!"+")
    (.bin (.lit (.int 2)) (.standard t!"*") (.lit (.int 3)))]⟩, by decide +kernel, rfl, ?_, ?_⟩
  · simp [Expr.LetsDistinct]
  · exact ⟨_, List.mem_singleton.2 rfl, by decide +kernel⟩

end

/-- **C164 fails in general**: after a `let` that names an operator twice what follows is grouped to
the right although it is calculated from left to right. -/
theorem C164_resolved_wrong : ∃ m' e e', e.RightNested ∧ visit ⟨exReadme, []⟩ e = .ok (⟨m', []⟩, e') ∧
    School.result exNumbers exReadme.get e.toks ≠ some (e'.meaning exNumbers) := by
  refine ⟨[(.standard t!"+", ⟨6, .left⟩), (.standard t!"-", ⟨6, .right⟩), (.standard t!"*", ⟨7, .left⟩),
      (.standard t!"/", ⟨7, .left⟩), (.standard t!"^", ⟨8, .right⟩)],
    .list [.let_ ⟨[.standard t!"-", .standard t!"-"], ⟨6, .right⟩⟩ (.lit (.int 1)),
      .bin (.lit (.int 10)) (.standard t!"-") (.bin (.lit (.int 4)) (.standard t!"-") (.lit (.int 3)))],
    .list [.let_ ⟨[.standard t!"-", .standard t!"-"], ⟨6, .right⟩⟩ (.lit (.int 1)),
      .bin (.lit (.int 10)) (.standard t!"-") (.bin (.lit (.int 4)) (.standard t!"-") (.lit (.int 3)))],
    ?_, by decide +kernel, by decide +kernel⟩
  simp [Expr.RightNested, Expr.RightNestedList, Expr.NonBin, Expr.rootOp]

end Pemdas
