import Verif.Spec.Naming
import Verif.Props.Rename
import Verif.Props.LetFirst
/-
C193: what things are called does not matter to the answers.
-/
namespace Pemdas
open Session Resolver

theorem alike_ren {ρ : Renaming} (hρ : ρ.Faithful) (a b : AssocError) : (ρ.error a).Alike (ρ.error b) ↔ a.Alike b := by
  unfold AssocError.Alike Renaming.error Renaming.entry
  simp only [hρ _ _]

theorem firstOfEach_ren {ρ : Renaming} (hρ : ρ.Faithful) (es : List AssocError) :
    firstOfEach (es.map ρ.error) = (firstOfEach es).map ρ.error := by
  induction es with
  | nil => rfl
  | cons e es ih =>
    simp only [List.map_cons, firstOfEach, ih, List.filter_map, Function.comp_def, alike_ren hρ]

section
variable [CharTables]

/-- The answer to an input with this outcome. -/
def Outcome.answer (o : Outcome) : List Effect := Pemdas.answer o.kinds o.exprs o.errors

theorem step_ren [LawfulTables] {ρ : Renaming} (hρ : ρ.Faithful) (w w' : World) {s t : Session}
    (hs : s.resolver.errors = []) (hw : s.resolver.fixities.Wf) (ht : t.resolver = ρ.resolver s.resolver)
    {line line' src src' : Text} (hc : Completes s line src) (hc' : Completes t line' src') {ast : Ast} {l l' : Lexer}
    (hp : parse src = .ok ast l) (hp' : parse src' = .ok (ρ.ast ast) l') :
    ∃ s' t' xs es fx, BecomeAll (innermost s.resolver.fixities.get ast.infxs) ast.exprs xs es fx ∧
      step w s line = .ok (true, s', (Outcome.mk ast.kinds xs es).answer) ∧
      step w' t line' = .ok (true, t', ((Outcome.mk ast.kinds xs es).renamed ρ).answer) ∧
      t'.resolver = ρ.resolver s'.resolver ∧ Idle s' ∧ t'.buffer = [] := by
  have hl : s.resolver.loadFixities ast = ⟨loadDecls s.resolver.fixities ast.infxs, []⟩ := by
    rw [loadFixities, hs]
  have hl' : t.resolver.loadFixities (ρ.ast ast) = ρ.resolver (s.resolver.loadFixities ast) := by
    rw [ht]
    simp only [loadFixities, Renaming.resolver, Renaming.ast, Renaming.loadDecls_ren hρ]
  obtain ⟨xs, es, fx, hb, m', h0, -, h2⟩ := C152_input (wf_loadDecls hw ast.infxs) ast
  have h3 := C134_programs hρ (s.resolver.loadFixities ast) ast
  rw [← hl', hl, h2] at h3
  rw [← hl] at h2
  obtain ⟨s', k1, k2, k3⟩ := answer_step w hc hp h2
  obtain ⟨t', j1, j2, j3⟩ := answer_step w' hc' hp' (xs := ρ.exprs xs) (es := es.map ρ.error) (m := m'.map ρ.entry) (by
    rw [h3, firstOfEach_ren hρ]
    rfl)
  have := (hb xs es fx).2 ⟨rfl, rfl, rfl⟩
  rw [C13_last_declaration_wins, innermost_idem] at this
  exact ⟨s', t', xs, es, fx, this, k1, j1, by rw [j3, k3]; rfl, ⟨k2, by rw [k3], by rw [k3]; exact h0⟩, j2⟩

omit [CharTables] in
theorem resolver_ren {ρ : Renaming} {s t : Session} (hm : t.resolver.fixities = s.resolver.fixities.map ρ.entry)
    (n1 : s.resolver.errors = []) (n2 : t.resolver.errors = []) : t.resolver = ρ.resolver s.resolver := by
  obtain ⟨⟨m, errs⟩, _, _, _⟩ := s
  obtain ⟨⟨m', errs'⟩, _, _, _⟩ := t
  simp only at hm n1 n2
  subst hm n1 n2
  rfl

/-- **C193** An input and the same input with other names, in two sessions whose tables differ in the same way, have the
same answer but for the names: the results and errors are those that the rules demand for the first one, renamed for the
second. And so do the tables differ afterwards. -/
theorem C193_input [LawfulTables] {ρ : Renaming} (hρ : ρ.Faithful) (w w' : World) {s t : Session} {log log' : List Event}
    (hs : History s log) (ht : History t log') (hm : t.resolver.fixities = s.resolver.fixities.map ρ.entry)
    {line line' src src' : Text} (hc : Completes s line src) (hc' : Completes t line' src') {ast : Ast} {l l' : Lexer}
    (hp : parse src = .ok ast l) (hp' : parse src' = .ok (ρ.ast ast) l') :
    ∃ s' t' xs es fx, BecomeAll (innermost s.resolver.fixities.get ast.infxs) ast.exprs xs es fx ∧
      step w s line = .ok (true, s', answer ast.kinds xs es) ∧
      step w' t line' = .ok (true, t', answer ast.kinds (ρ.exprs xs) (es.map ρ.error)) ∧
      t'.resolver.fixities = s'.resolver.fixities.map ρ.entry := by
  obtain ⟨s', t', xs, es, fx, h1, h2, h3, h4, -, -⟩ := step_ren hρ w w' (C14_no_pending_error hs) (history_after hs).1
    (resolver_ren hm (C14_no_pending_error hs) (C14_no_pending_error ht)) hc hc' hp hp'
  exact ⟨s', t', xs, es, fx, h1, h2, h3, by rw [h4]; rfl⟩

theorem run_ren [LawfulTables] {ρ : Renaming} (hρ : ρ.Faithful) {xs ys : List (World × Text)} (hx : AllRenamed ρ xs ys) :
    ∀ s t : Session, Idle s → t.buffer = [] → t.resolver = ρ.resolver s.resolver →
    ∃ (s' t' : Session) (os : List Outcome), os.length = xs.length ∧ run s (typing xs) = .ok (true, s', os.flatMap Outcome.answer) ∧
      run t (typing ys) = .ok (true, t', (os.map (Outcome.renamed ρ)).flatMap Outcome.answer) ∧
      t'.resolver = ρ.resolver s'.resolver := by
  induction hx with
  | nil => exact fun s t _ _ h => ⟨s, t, [], rfl, rfl, rfl, h⟩
  | @cons w w' line line' src src' xs ys hl hl' hr _ ih =>
    intro s t hs hb ht
    obtain ⟨ast, l, l', hp, hp'⟩ := hr
    obtain ⟨s', t', zs, es, fx, -, h1, h2, h3, h4, h5⟩ := step_ren hρ w w' hs.errors hs.wf ht
      (line := line) (line' := line') ⟨src, hl, by rw [hs.buffer]; rfl⟩ ⟨src', hl', by rw [hb]; rfl⟩ hp hp'
    obtain ⟨s₂, t₂, os, k0, k1, k2, k3⟩ := ih s' t' h4 h5 h3
    refine ⟨s₂, t₂, ⟨ast.kinds, zs, es⟩ :: os, by simp [k0], ?_, ?_, k3⟩
    · unfold typing at k1 ⊢
      simp only [List.map_cons, run, bind, Except.bind, h1, if_true, k1, List.flatMap_cons]
    · unfold typing at k2 ⊢
      simp only [List.map_cons, run, bind, Except.bind, h2, if_true, k2, List.flatMap_cons]

/-- **C193** The same for any number of lines, each an input by itself: no session crashes, and line by line the answers
are the same but for the names. -/
theorem C193_script [LawfulTables] {ρ : Renaming} (hρ : ρ.Faithful) {s t : Session} {log log' : List Event}
    (hs : History s log) (ht : History t log') (hbs : s.buffer = []) (hbt : t.buffer = [])
    (hm : t.resolver.fixities = s.resolver.fixities.map ρ.entry) {xs ys : List (World × Text)} (hx : AllRenamed ρ xs ys) :
    ∃ (s' t' : Session) (os : List Outcome), os.length = xs.length ∧ run s (typing xs) = .ok (true, s', os.flatMap Outcome.answer) ∧
      run t (typing ys) = .ok (true, t', (os.map (Outcome.renamed ρ)).flatMap Outcome.answer) ∧
      t'.resolver.fixities = s'.resolver.fixities.map ρ.entry := by
  obtain ⟨s', t', os, h0, h1, h2, h3⟩ := run_ren hρ hx s t (hs.idle hbs) hbt
    (resolver_ren hm (C14_no_pending_error hs) (C14_no_pending_error ht))
  exact ⟨s', t', os, h0, h1, h2, by rw [h3]; rfl⟩

/-- **C193** In particular a result is shown if and only if one is shown with other names, and errors if and only if errors
are. -/
theorem C193_accepted [LawfulTables] {ρ : Renaming} (hρ : ρ.Faithful) (w w' : World) {s t : Session} {log log' : List Event}
    (hs : History s log) (ht : History t log') (hm : t.resolver.fixities = s.resolver.fixities.map ρ.entry)
    {line line' src src' : Text} (hc : Completes s line src) (hc' : Completes t line' src') {ast : Ast} {l l' : Lexer}
    (hp : parse src = .ok ast l) (hp' : parse src' = .ok (ρ.ast ast) l') :
    ∃ s' t' out out', step w s line = .ok (true, s', out) ∧ step w' t line' = .ok (true, t', out') ∧
      ((∃ x, out = [.out x]) ↔ ∃ x, out' = [.out x]) ∧ ((∃ x, out = [.err x]) ↔ ∃ x, out' = [.err x]) := by
  obtain ⟨s', t', xs, es, fx, -, h2, h3, -⟩ := C193_input hρ w w' hs ht hm hc hc' hp hp'
  refine ⟨s', t', _, _, h2, h3, ?_⟩
  unfold answer
  rw [firstOfEach_ren hρ]
  generalize ast.kinds = ks
  rcases firstOfEach es with _ | ⟨e, _ | ⟨e', es'⟩⟩
  · rcases ks with _ | ⟨_ | _, _⟩ <;> cases xs <;> simp [Renaming.exprs]
  · simp
  · simp

end

/-! ### concrete cases -/

/-- `+` and `*` are exchanged, and every variable is called `x`. -/
def exExchange : Renaming where
  op o := if o.symbol = t!"+" then opMul else if o.symbol = t!"*" then opPlus else o
  lit l := l
  var _ := .lower t!"x"
  pat p := p

theorem exExchange_faithful : exExchange.Faithful := by
  intro a b
  unfold exExchange
  simp only
  by_cases h1 : a.symbol = t!"+" <;> by_cases h2 : b.symbol = t!"+" <;> by_cases h3 : a.symbol = t!"*" <;>
    by_cases h4 : b.symbol = t!"*" <;> simp_all [opMul, opPlus, Infix.symbol, eq_comm]

section
attribute [local instance] asciiTables asciiTables_lawful

/-- C193: the same lines with `+` and `*` exchanged and all variables called `x`. -/
example : exShown [t!"infixl 6 +; infixr 7 *", t!"a + b * c", t!"let infix 5 * in a + b * c"] =
      some [t!"  a + (b * c)\n", t!"  (a + b) * c\n"] ∧
    exShown [t!"infixl 6 *; infixr 7 +", t!"x * x + x", t!"let infix 5 + in x * x + x"] =
      some [t!"  x * (x + x)\n", t!"  (x * x) + x\n"] := by
  decide +kernel

/-- C193: the hypotheses of `C193_script`, and with them those of `C193_input`, are met. -/
example : ∃ (s : Session), History s [] ∧ s.buffer = [] ∧
    s.resolver.fixities = s.resolver.fixities.map exExchange.entry ∧
    AllRenamed exExchange [(exWorld, t!"infixr 6 +"), (exWorld, t!"a + b")] [(exWorld, t!"infixr 6 *"), (exWorld, t!"x * x")] := by
  obtain ⟨l, h⟩ := of_value (src := t!"infixr 6 +") (ast := ⟨[.infix_], [⟨[opPlus], ⟨6, .right⟩⟩], []⟩) (by decide +kernel)
  obtain ⟨l₁, h₁⟩ := of_value (src := t!"infixr 6 *") (ast := ⟨[.infix_], [⟨[opMul], ⟨6, .right⟩⟩], []⟩) (by decide +kernel)
  obtain ⟨l₂, h₂⟩ := of_value (src := t!"a + b") (ast := ⟨[.expr], [], [.bin exA opPlus exB]⟩) (by decide +kernel)
  obtain ⟨l₃, h₃⟩ := of_value (src := t!"x * x")
    (ast := ⟨[.expr], [], [.bin (.var (.lower t!"x")) opMul (.var (.lower t!"x"))]⟩) (by decide +kernel)
  exact ⟨(Session.new exFs none).1, .start _ _, rfl, rfl,
    .cons (.inl (.plain ((says_iff (by decide)).2 (by decide)) (by decide) (by decide) (by decide)))
      (.inl (.plain ((says_iff (by decide)).2 (by decide)) (by decide) (by decide) (by decide))) ⟨_, l, l₁, h, h₁⟩
    (.cons plus_only.1 (.inl (.plain ((says_iff (by decide)).2 (by decide)) (by decide) (by decide) (by decide)))
      ⟨_, l₂, l₃, h₂, h₃⟩ .nil)⟩

end
end Pemdas
