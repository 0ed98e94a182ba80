import Verif.Lemmas.Echo
import Verif.Props.Reprint
import Verif.Props.SessionFix
import Verif.Props.SessionCmds
/-
C87: what is shown for a line that is typed, from the keyboard to the screen.
-/
namespace Pemdas
open Printer Resolver Session

section
variable [CharTables]

/-- The fixities after the recorded events: those of the last declarations, and `infixl 9` for
operators that are not declared. -/
def fixitiesAfter (log : List Event) : Env := fun op =>
  (lastWrite (log.flatMap Event.log) op).getD ⟨9, .left⟩

variable [LawfulTables]

omit [CharTables] [LawfulTables] in
theorem resolve_single {m : Fixities} {e : Expr} (hl : e.LetsDistinct) (hs : e.RightNested) :
    (∃ g, g.toks = e.toks ∧ g.Grouped m.get ∧ visit ⟨m, []⟩ e = .ok (⟨m, []⟩, g) ∧
      resolveAst ⟨m, []⟩ ⟨[.expr], [], [e]⟩ = .ok (⟨m, []⟩, ⟨[.expr], [], [g]⟩, [])) ∨
    ((¬ ∃ g : Expr, g.toks = e.toks ∧ g.Grouped m.get) ∧
      ∃ a err errs, resolveAst ⟨m, []⟩ ⟨[.expr], [], [e]⟩ = .ok (⟨m, []⟩, a, err :: errs)) := by
  obtain ⟨es, e', g⟩ := visit_good e hl hs m
  have hv := g.vis []
  by_cases hn : es = []
  · subst hn
    refine .inl ⟨e', visit_toks _ _ _ _ hv, g.grouped rfl, hv, ?_⟩
    have hv' : visit ⟨m, []⟩ e = .ok (⟨m, []⟩, e') := hv
    simp [resolveAst, visitAst, loadDecls, walkList, hv', bind, Except.bind]
  · refine .inr ⟨fun ⟨x, hx, hg⟩ => g.needed hn x hx hg, ?_⟩
    cases hs : storeAll [] es with
    | nil => exact absurd ((storeAll_eq_nil es).1 hs) hn
    | cons err errs =>
      rw [hs] at hv
      refine ⟨⟨[.expr], [], [e']⟩, err, errs, ?_⟩
      simp [resolveAst, visitAst, loadDecls, walkList, hv, bind, Except.bind, takeErrors]

/-- **C87** In every reachable session a line that completes an input which is one expression (of
names, literals, applications, infix operators, parentheses, tuples and lists) either shows exactly
that expression, with parentheses around every application or infix expression that is an operand
of an infix operator, grouped in the only way that the fixities of the last declarations allow; or,
if they allow none, shows nothing but an error. In both cases the fixities stay as they are and the
next input starts afresh. -/
theorem C87_echo (w : World) {s : Session} {log : List Event} (hh : History s log)
    (hd : ∀ ev ∈ log, ev.NoDup) {line src : Text} (hc : Completes s line src) (hnl : '\n' ∉ src)
    {cs : List CTok} (hl : Lexes src cs) {e : Expr} (hw : Line .chain e (cs.map (·.1)))
    (hf : e.Formula) (hn : e.CleanNames) :
    ∃ s' fx, step w s line = .ok (true, s', fx) ∧ s'.resolver = s.resolver ∧ s'.buffer = [] ∧
      ((∃ g : Expr, g.toks = e.toks ∧ g.Grouped (fixitiesAfter log) ∧
          (∀ g' : Expr, g'.toks = e.toks → g'.Grouped (fixitiesAfter log) → g' = g) ∧
          ∃ t, fx = [.out (t!"  " ++ t ++ t!"\n")] ∧ Term.visible t = g.printed) ∨
       ((∀ g : Expr, g.toks = e.toks → ¬ g.Grouped (fixitiesAfter log)) ∧ ∃ t, fx = [.err t])) := by
  obtain ⟨l', hp⟩ := (C81_one_line hnl ⟨[.expr], [], [e]⟩).2 ⟨cs, [.expr e], hl, by
    have := LineProg.expr false hw .nil (fun _ => trivial)
    simpa using this, rfl⟩
  have hrn := C40_right_nested hp e (by simp)
  have hfx : s.resolver.fixities.get = fixitiesAfter log := by
    funext op
    rw [fixitiesAfter, ← C15_last_writer_wins_partial hh hd]; rfl
  have her := C14_no_pending_error hh
  have hld : s.resolver.loadFixities ⟨[.expr], [], [e]⟩ = ⟨s.resolver.fixities, []⟩ := by
    rw [loadFixities, her]; rfl
  have hsr : s.resolver = ⟨s.resolver.fixities, []⟩ := by rw [← her]
  obtain ⟨p, hstep⟩ := step_completes (w := w) hc
  rcases resolve_single (m := s.resolver.fixities) hf.facts.1 hrn with
    ⟨g, h1, h2, hv, h3⟩ | ⟨h1, a, err, errs, h2⟩
  · rw [hfx] at h2
    replace h3 : (s.resolver.loadFixities ⟨[.expr], [], [e]⟩).resolveAst ⟨[.expr], [], [e]⟩ =
        .ok (⟨s.resolver.fixities, []⟩, ⟨[.expr], [], [g]⟩, []) := by rw [hld]; exact h3
    obtain ⟨ds, ds', s', fx, -, e2, -, -, e5, e6, e7⟩ := C55_first_echoed w hc hp h3
    have hds : ds' = [.expr g] := ofDecls_inj (ds := ds') (ds' := [.expr g]) e2.symm
    have hgf := (visit_formula _ _ _ _ hv).2 hf
    subst hds
    have hb : s'.buffer = [] := by
      rw [hstep] at e5
      exact (process_applies e5).2.1
    refine ⟨s', fx, e5, by rw [e6, ← hsr], hb, .inl ⟨g, h1, h2, ?_, ?_⟩⟩
    · intro g' h1' h2'
      exact C10_regrouping_unique _ g' g (h1'.trans h1.symm) h2' h2
    · rcases e7 with ⟨x, rest, hx, h⟩ | ⟨h, -⟩
      · cases hx
        obtain ⟨t, ht, rfl⟩ := h []
        refine ⟨t, rfl, ?_⟩
        rw [writeExpr_noNeg _ hgf.facts.2] at ht
        cases ht
        have hgood := ppGo_good g 0 none (fun n h => hn n ((visit_names n _ _ _ _ hv).1 h))
        unfold Term.visible
        rw [show pp g = ppGo 0 none g from rfl, run_render hgood.1, screen_plain]
        exact plain_ppGo g 0 hgf
      · exact absurd rfl (h g [])
  · rw [hfx] at h1
    replace h2 : (s.resolver.loadFixities ⟨[.expr], [], [e]⟩).resolveAst ⟨[.expr], [], [e]⟩ =
        .ok (⟨s.resolver.fixities, []⟩, a, err :: errs) := by rw [hld]; exact h2
    have hfeed : feedInput { s with buffer := [], prompt := p } src =
        .ok (.error (.resolver (err :: errs)),
          { s with buffer := [], prompt := p, resolver := ⟨s.resolver.fixities, []⟩ }) := by
      unfold feedInput; rw [hp]; simp only [h2]
    obtain ⟨t, ht⟩ : ∃ t, SessionError.text (.resolver (err :: errs)) = .ok t := by
      cases errs <;> exact ⟨_, rfl⟩
    refine ⟨{ s with buffer := [], prompt := p, resolver := ⟨s.resolver.fixities, []⟩ },
      [.err (t ++ t!"\n")], ?_, hsr.symm, rfl, .inr ⟨fun g h1' h2' => h1 ⟨g, h1', h2'⟩, _, rfl⟩⟩
    rw [hstep]
    simp only [process, readBuffer, hfeed, ht, bind, Except.bind]

/-- **C87** for a line typed with single blanks between names, literals and operators, when no input
is pending. -/
theorem C87_typed (w : World) {s : Session} {log : List Event} (hh : History s log)
    (hd : ∀ ev ∈ log, ev.NoDup) (hb : s.buffer = []) {line : Text} {e : Expr} (he : e.Typable)
    (hc : Ends line e.typed) :
    ∃ s' fx, step w s line = .ok (true, s', fx) ∧ s'.resolver = s.resolver ∧ s'.buffer = [] ∧
      ((∃ g : Expr, g.toks = e.toks ∧ g.Grouped (fixitiesAfter log) ∧
          (∀ g' : Expr, g'.toks = e.toks → g'.Grouped (fixitiesAfter log) → g' = g) ∧
          ∃ t, fx = [.out (t!"  " ++ t ++ t!"\n")] ∧ Term.visible t = g.printed) ∨
       ((∀ g : Expr, g.toks = e.toks → ¬ g.Grouped (fixitiesAfter log)) ∧ ∃ t, fx = [.err t])) := by
  obtain ⟨ts, ⟨h1, h2⟩, h3, -⟩ := he.reads
  obtain ⟨cs, hl, rfl⟩ := lexes_has h1 (by
    have := h2 [] [] .nil (.nil (r := []) rfl)
    simpa using this)
  exact C87_echo w hh hd ⟨e.typed, .inl hc, by rw [hb]; rfl⟩ h1 hl h3 he.formula he.rereads.names.2

end

/-! ### concrete cases -/

section
attribute [local instance] asciiTables asciiTables_lawful

/-- `f a + b * (c + 1)`. -/
def exTyped : Expr := .bin (.app (.var (.lower t!"f")) exA) opPlus
  (.bin exB opMul (.grp (.bin exC opPlus (.lit (.int 1)))))

/-- C87: a session after `:load --prelude`, and a line that meets the hypotheses. -/
example : exTyped.Typable ∧ Ends t!" f a + b * (c + 1) " exTyped.typed ∧
    ∃ s : Session, History s [.prelude] ∧ s.buffer = [] ∧ ∀ ev ∈ [Event.prelude], ev.NoDup := by
  have hn : ∀ c ∈ t!"abcf", ∃ s, Ident.lower [c] = .lower s ∧ PlainName s := by
    intro c hc
    have := (by decide : ∀ c ∈ t!"abcf", isLowercase c = true ∧ [c] ∉ keywords ∧ isTrailing c = false) c hc
    exact ⟨_, rfl, ⟨c, [], rfl, this.1, ⟨[], [], rfl, rfl, rfl⟩, this.2.1⟩, by simpa using this.2.2⟩
  have hp : OpName t!"+" := ⟨'+', [], rfl, by decide, ⟨[], [], rfl, rfl, rfl⟩, by decide⟩
  have hm : OpName t!"*" := ⟨'*', [], rfl, by decide, ⟨[], [], rfl, rfl, rfl⟩, by decide⟩
  refine ⟨⟨.inl hp, rfl, ⟨rfl, rfl, hn 'f' (by decide), hn 'a' (by decide)⟩, .inl hm, rfl,
    hn 'b' (by decide), .inl hp, rfl, hn 'c' (by decide), show 1 < 2 ^ 64 by decide⟩,
    .plain ((says_iff (by decide)).2 (by decide)) (by decide) (by decide) (by decide), ?_⟩
  have h : (step exWorld exStart t!":load --prelude").toOption.isSome = true := by decide +kernel
  cases hs : step exWorld exStart t!":load --prelude" with
  | error e => rw [hs] at h; cases h
  | ok x =>
    obtain ⟨b, s, fx⟩ := x
    refine ⟨s, .reads (log := []) (.start exFs (some t!"/home/u")) (.prelude rfl
      ⟨t!" ", (says_iff (by decide)).2 (by decide), by unfold Blank; decide, by decide,
        ⟨_, _, rfl, by decide⟩⟩) hs, ?_, ?_⟩
    · have : ((step exWorld exStart t!":load --prelude").toOption.map (·.2.1.buffer)) = some [] := by
        decide +kernel
      rw [hs] at this
      simpa [Except.toOption] using this
    · intro ev hev; rw [List.mem_singleton.1 hev]; trivial

/-- The texts shown for lines. -/
def exShown (lines : List Text) : Option (List Text) :=
  (exRun lines).map fun x => x.2.filterMap fun
    | .out t => some (Term.visible t)
    | _ => none

/-- C87: what is shown depends on the declarations. -/
example : exShown [t!"infixl 6 +", t!"infixl 7 *", t!"f a + b * (c + 1)"] =
    some [t!"  (f a) + (b * (c + 1))\n"] := by decide +kernel
example : exShown [t!"infixl 7 +", t!"infixl 6 *", t!"f a + b * (c + 1)"] =
    some [t!"  ((f a) + b) * (c + 1)\n"] := by decide +kernel
example : exShown [t!"infixl 6 +", t!"infixr 6 *", t!"f a + b * (c + 1)"] = some [] := by
  decide +kernel

end
end Pemdas
