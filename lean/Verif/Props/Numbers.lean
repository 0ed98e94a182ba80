import Verif.Spec.Numbers
import Verif.Props.Renumber
import Verif.Props.LetFirst
/-
C192: what numbers precedences are does not show, but for their order.
-/
namespace Pemdas
open Session Resolver

mutual
theorem noNeg_num (f : Nat → Nat) : ∀ e : Expr, (Renum.expr f e).NoNeg ↔ e.NoNeg
  | .lit _ | .var _ => Iff.rfl
  | .app a b => and_congr (noNeg_num f a) (noNeg_num f b)
  | .bin a _ b => and_congr (noNeg_num f a) (noNeg_num f b)
  | .lam _ b => noNeg_num f b
  | .grp b => noNeg_num f b
  | .neg _ => Iff.rfl
  | .tup es => noNegs_num f es
  | .list es => noNegs_num f es
  | .let_ _ b => noNeg_num f b
theorem noNegs_num (f : Nat → Nat) : ∀ es : List Expr, Expr.NoNegList (Renum.exprs f es) ↔ Expr.NoNegList es
  | [] => Iff.rfl
  | e :: es => and_congr (noNeg_num f e) (noNegs_num f es)
end

theorem closed_num (f : Nat → Nat) (e : Expr) : (Renum.expr f e).closed = e.closed := by
  cases e <;> rfl

theorem resolveAst_clean {r r' : Resolver} {a a' : Ast} {es : List AssocError}
    (h : resolveAst r a = .ok (r', a', es)) : r'.errors = [] := by
  unfold resolveAst at h
  cases hv : visitAst r a with
  | error s => simp [hv, bind, Except.bind] at h
  | ok x =>
    simp only [hv, bind, Except.bind] at h
    split at h
    · rename_i hn
      cases h
      exact hn
    · simp only [takeErrors] at h
      cases h
      rfl

section
variable [CharTables]

mutual
theorem parts_num (f : Nat → Nat) : ∀ (e : Expr) (d : Nat), (Renum.expr f e).parts d = e.parts d
  | .lit _, _ => rfl
  | .var _, _ => rfl
  | .app a b, d => by simp [Renum.expr, Expr.parts, parts_num f a, parts_num f b]
  | .bin a _ b, d => by simp [Renum.expr, Expr.parts, parts_num f a, parts_num f b, closed_num]
  | .lam _ b, d => by simp [Renum.expr, Expr.parts, parts_num f b]
  | .grp b, d => by simp [Renum.expr, Expr.parts, parts_num f b]
  | .neg _, d => by simp [Renum.expr, Expr.parts]
  | .tup es, d => by simp [Renum.expr, Expr.parts, drawnList_num f es]
  | .list es, d => by simp [Renum.expr, Expr.parts, drawnList_num f es]
  | .let_ _ b, d => by simp [Renum.expr, Expr.parts, parts_num f b]
theorem drawnList_num (f : Nat → Nat) : ∀ es : List Expr, Expr.drawnList (Renum.exprs f es) = Expr.drawnList es
  | [] => rfl
  | e :: es => by simp [Renum.exprs, Expr.drawnList, parts_num f e, drawnList_num f es]
end

theorem printExpr_num (f : Nat → Nat) (m m' : Fixities) (e : Expr) :
    Printer.printExpr m' (Renum.expr f e) = Printer.printExpr m e := by
  have h : Printer.writeExpr m' (Renum.expr f e) = Printer.writeExpr m e := by
    by_cases hn : e.NoNeg
    · rw [(C149_written m e _).2 ⟨hn, rfl⟩]
      exact (C149_written m' _ _).2 ⟨(noNeg_num f e).2 hn, by rw [Expr.drawn, Expr.drawn, parts_num]⟩
    · rw [writeExpr_neg m hn, writeExpr_neg m' (fun k => hn ((noNeg_num f e).1 k))]
  unfold Printer.printExpr
  rw [h]

theorem echo_num (f : Nat → Nat) (s t : Session) (a : Ast) : t.echo (Renum.ast f a) = s.echo a := by
  obtain ⟨ks, ds, es⟩ := a
  unfold echo
  match ks, ds, es with
  | [], _, _ => rfl
  | .infix_ :: _, [], _ => rfl
  | .infix_ :: _, _ :: _, _ => rfl
  | .expr :: _, _, [] => rfl
  | .expr :: _, _, e :: _ =>
    simp only [Renum.ast, Renum.exprs, AstIter.new, AstIter.next, popFront, Option.map]
    rw [printExpr_num f s.resolver.fixities]

theorem errors_num (f : Nat → Nat) (es : List AssocError) :
    SessionError.text (.resolver (es.map (Renum.error f))) = SessionError.text (.resolver es) := by
  match es with
  | [] => rfl
  | [e] => rfl
  | e :: e' :: es =>
    have h : ∀ es : List AssocError, SessionError.lines (es.map (Renum.error f)) = SessionError.lines es := by
      intro es
      unfold SessionError.lines
      rw [List.map_map]
      rfl
    have := h (e :: e' :: es)
    simp only [List.map_cons] at this ⊢
    simp only [SessionError.text, this]

/-- Two sessions between inputs, with the same operators in their tables, but other numbers. -/
structure InStep (f : Nat → Nat) (U : Nat → Prop) (s t : Session) : Prop where
  buffer : s.buffer = []
  buffer' : t.buffer = []
  errors : s.resolver.errors = []
  table : t.resolver = Renum.resolver f s.resolver
  within : Renum.InResolver U s.resolver

theorem readBuffer_num {f : Nat → Nat} {U : Nat → Prop} (h : Renum.Ordered f U) {s t : Session}
    (hs : s.resolver.errors = []) (ht : t.resolver = Renum.resolver f s.resolver) (hr : Renum.InResolver U s.resolver)
    (hb : Renumbered f U s.buffer t.buffer) :
    (∃ e, s.readBuffer = .error e ∧ t.readBuffer = .error e) ∨
    ∃ s' t' fx, s.readBuffer = .ok (s', fx) ∧ t.readBuffer = .ok (t', fx) ∧ InStep f U s' t' := by
  obtain ⟨r, buffer, prompt, path⟩ := s
  obtain ⟨r₁, buffer₁, prompt₁, path₁⟩ := t
  simp only at hs ht hr hb
  subst ht
  unfold readBuffer feedInput
  simp only
  cases hb with
  | refused hn =>
    cases hp : parse buffer with
    | fuel => exact .inl ⟨_, rfl, rfl⟩
    | panic p => exact .inl ⟨_, rfl, rfl⟩
    | err e l =>
      simp only
      split
      · exact .inr ⟨_, _, _, rfl, rfl, rfl, rfl, hs, rfl, hr⟩
      · exact .inl ⟨_, rfl, rfl⟩
    | ok ast l => exact absurd hp (hn ast l)
  | parsed hp hp' ha =>
    rename_i ast l l'
    have hl : (Renum.resolver f r).loadFixities (Renum.ast f ast) = Renum.resolver f (r.loadFixities ast) := by
      simp only [loadFixities, Renum.resolver, Renum.ast, Renum.loadDecls_num]
    have hr' : Renum.InResolver U (r.loadFixities ast) := ⟨Renum.loadDecls_in ha.1 hr.1, hr.2⟩
    have key := C180_programs h hr' ha
    simp only [hp, hp', hl]
    rw [key]
    cases hx : (r.loadFixities ast).resolveAst ast with
    | error e => exact .inl ⟨_, rfl, rfl⟩
    | ok x =>
      obtain ⟨r', a', es⟩ := x
      have h1 := resolveAst_clean hx
      have h2 := C180_next h hr' ha hx
      simp only [Except.map]
      cases es with
      | nil =>
        simp only [List.map_nil]
        rw [echo_num f ⟨r', [], prompt, path⟩ ⟨Renum.resolver f r', [], prompt₁, path₁⟩]
        split
        · exact .inr ⟨_, _, _, rfl, rfl, rfl, rfl, h1, rfl, h2⟩
        · exact .inl ⟨_, rfl, rfl⟩
      | cons err es =>
        have := errors_num f (err :: es)
        simp only [List.map_cons] at this ⊢
        rw [this]
        split
        · exact .inr ⟨_, _, _, rfl, rfl, rfl, rfl, h1, rfl, h2⟩
        · exact .inl ⟨_, rfl, rfl⟩

/-- **C192** An input and the same input with other precedences in the same order get exactly the same answer, be it a
result, down to the colours, or errors, in two sessions whose tables differ in the same way; and so do the tables
afterwards. -/
theorem C192_input [LawfulTables] {f : Nat → Nat} {U : Nat → Prop} (h : Renum.Ordered f U) (w w' : World) {s t : Session}
    {log log' : List Event} (hs : History s log) (ht : History t log')
    (hm : t.resolver.fixities = s.resolver.fixities.map (Renum.entry f)) (hu : Renum.InTable U s.resolver.fixities)
    {line line' src src' : Text} (hc : Completes s line src) (hc' : Completes t line' src') {ast : Ast} {l l' : Lexer}
    (hp : parse src = .ok ast l) (hp' : parse src' = .ok (Renum.ast f ast) l') (ha : Renum.InAst U ast) :
    ∃ s' t' out, step w s line = .ok (true, s', out) ∧ step w' t line' = .ok (true, t', out) ∧
      t'.resolver.fixities = s'.resolver.fixities.map (Renum.entry f) ∧ Renum.InTable U s'.resolver.fixities := by
  obtain ⟨s₁, xs, es, fx, -, k, -, -⟩ := input_becomes w hs hc hp
  obtain ⟨p, e1⟩ := step_completes (w := w) hc
  obtain ⟨p', e2⟩ := step_completes (w := w') hc'
  have n1 := C14_no_pending_error hs
  have n2 := C14_no_pending_error ht
  have ht' : t.resolver = Renum.resolver f s.resolver := by
    obtain ⟨⟨m, errs⟩, _, _, _⟩ := s
    obtain ⟨⟨m', errs'⟩, _, _, _⟩ := t
    simp only at hm n1 n2
    subst hm n1 n2
    rfl
  have hr : Renum.InResolver U s.resolver := ⟨hu, by rw [n1]; exact nofun⟩
  rw [e1] at k
  rw [e1, e2]
  unfold process at k ⊢
  rcases readBuffer_num h (s := { s with buffer := src, prompt := p }) (t := { t with buffer := src', prompt := p' })
      (by exact n1) (by exact ht') (by exact hr) (.parsed hp hp' ha) with ⟨e, h1, h2⟩ | ⟨s', t', out, h1, h2, h3⟩
  · rw [h1] at k
    cases k
  · exact ⟨s', t', out, by rw [h1]; rfl, by rw [h2]; rfl, by rw [h3.table]; rfl, h3.within.1⟩

theorem run_num {f : Nat → Nat} {U : Nat → Prop} (h : Renum.Ordered f U) {xs ys : List (World × Text)}
    (hx : AllRenumbered f U xs ys) : ∀ s t : Session, InStep f U s t →
    (∃ e, run s (typing xs) = .error e ∧ run t (typing ys) = .error e) ∨
    ∃ s' t' fx, run s (typing xs) = .ok (true, s', fx) ∧ run t (typing ys) = .ok (true, t', fx) ∧ InStep f U s' t' := by
  induction hx with
  | nil => exact fun s t hst => .inr ⟨s, t, [], rfl, rfl, hst⟩
  | @cons w w' line line' src src' xs ys hl hl' hr _ ih =>
    intro s t hst
    simp only [typing, List.map_cons, run, bind, Except.bind]
    obtain ⟨g, -, h1⟩ := step_single hl
    obtain ⟨g', -, h2⟩ := step_single hl'
    rw [h1 w s hst.buffer, h2 w' t hst.buffer']
    unfold process
    rcases readBuffer_num h (s := { s with buffer := src, prompt := g s.prompt })
        (t := { t with buffer := src', prompt := g' t.prompt }) (by exact hst.errors) (by exact hst.table)
        (by exact hst.within) (by exact hr) with ⟨e, k1, k2⟩ | ⟨s', t', fx, k1, k2, k3⟩
    · exact .inl ⟨e, by rw [k1]; rfl, by rw [k2]; rfl⟩
    · rw [k1, k2]
      simp only [bind, Except.bind, if_true]
      rcases ih s' t' k3 with ⟨e, j1, j2⟩ | ⟨s₂, t₂, fx₂, j1, j2, j3⟩
      · unfold typing at j1 j2
        exact .inl ⟨e, by rw [j1], by rw [j2]⟩
      · unfold typing at j1 j2
        exact .inr ⟨s₂, t₂, fx ++ fx₂, by rw [j1], by rw [j2], j3⟩

/-- **C192** Any number of lines, accepted or refused, each an input by itself, and the same lines with other precedences in
the same order are answered alike: exactly the same is written for them; or both sessions crash for the same reason. In the
end the tables have the same operators in the same order, with the numbers replaced. -/
theorem C192_script [LawfulTables] {f : Nat → Nat} {U : Nat → Prop} (h : Renum.Ordered f U) {s t : Session}
    {log log' : List Event} (hs : History s log) (ht : History t log') (hbs : s.buffer = []) (hbt : t.buffer = [])
    (hm : t.resolver.fixities = s.resolver.fixities.map (Renum.entry f)) (hu : Renum.InTable U s.resolver.fixities)
    {xs ys : List (World × Text)} (hx : AllRenumbered f U xs ys) :
    (∃ e, run s (typing xs) = .error e ∧ run t (typing ys) = .error e) ∨
    ∃ s' t' out, run s (typing xs) = .ok (true, s', out) ∧ run t (typing ys) = .ok (true, t', out) ∧
      t'.resolver.fixities = s'.resolver.fixities.map (Renum.entry f) := by
  have n1 := C14_no_pending_error hs
  have n2 := C14_no_pending_error ht
  have ht' : t.resolver = Renum.resolver f s.resolver := by
    obtain ⟨⟨m, errs⟩, _, _, _⟩ := s
    obtain ⟨⟨m', errs'⟩, _, _, _⟩ := t
    simp only at hm n1 n2
    subst hm n1 n2
    rfl
  rcases run_num h hx s t ⟨hbs, hbt, n1, ht', hu, by rw [n1]; exact nofun⟩ with k | ⟨s', t', fx, k1, k2, k3⟩
  · exact .inl k
  · exact .inr ⟨s', t', fx, k1, k2, by rw [k3.table]; rfl⟩

end

/-! ### concrete cases -/

section
attribute [local instance] asciiTables asciiTables_lawful

/-- C192: precedences 5, 6 and 7 become 1, 2 and 3. With an undeclared operator, which has 9, the answers change if 9 does
not remain the largest number: `infixr 9 *` clashes with it where `infixr 7 *` does not. -/
example : exShown [t!"infixl 6 +; infixr 7 *", t!"a + b * c # d", t!"let infix 5 + in a + b * c"] =
      some [t!"  a + (b * (c # d))\n", t!"  a + (b * c)\n"] ∧
    exShown [t!"infixl 2 +; infixr 3 *", t!"a + b * c # d", t!"let infix 1 + in a + b * c"] =
      some [t!"  a + (b * (c # d))\n", t!"  a + (b * c)\n"] ∧
    exShown [t!"infixl 8 +; infixr 9 *", t!"a + b * c # d", t!"let infix 7 + in a + b * c"] ≠
      some [t!"  a + (b * (c # d))\n", t!"  a + (b * c)\n"] := by
  decide +kernel

/-- C192: the hypotheses of `C192_script`, and with them those of `C192_input`, are met: a declaration, an expression, and
a line that is refused. -/
example : ∃ (s : Session), History s [] ∧ s.buffer = [] ∧
    s.resolver.fixities = s.resolver.fixities.map (Renum.entry exRenumbering) ∧
    Renum.InTable (fun n => n = 5 ∨ n = 6 ∨ n = 7 ∨ n = 9) s.resolver.fixities ∧
    AllRenumbered exRenumbering (fun n => n = 5 ∨ n = 6 ∨ n = 7 ∨ n = 9)
      [(exWorld, t!"infixr 6 +"), (exWorld, t!"a + b"), (exWorld, t!")")]
      [(exWorld, t!"infixr 2 +"), (exWorld, t!"a + b"), (exWorld, t!")")] := by
  obtain ⟨l, h⟩ := of_value (src := t!"infixr 6 +") (ast := ⟨[.infix_], [⟨[opPlus], ⟨6, .right⟩⟩], []⟩) (by decide +kernel)
  obtain ⟨l₁, h₁⟩ := of_value (src := t!"infixr 2 +") (ast := ⟨[.infix_], [⟨[opPlus], ⟨2, .right⟩⟩], []⟩) (by decide +kernel)
  obtain ⟨l₂, h₂⟩ := of_value (src := t!"a + b") (ast := ⟨[.expr], [], [.bin exA opPlus exB]⟩) (by decide +kernel)
  have h₃ : (parse t!")").value? = none := by decide +kernel
  refine ⟨(Session.new exFs none).1, .start _ _, rfl, rfl, nofun,
    .cons (.inl (.plain ((says_iff (by decide)).2 (by decide)) (by decide) (by decide) (by decide)))
      (.inl (.plain ((says_iff (by decide)).2 (by decide)) (by decide) (by decide) (by decide)))
      (.parsed h h₁ ⟨by simp, trivial⟩)
    (.cons plus_only.1 plus_only.1 (.parsed h₂ h₂ ⟨nofun, ⟨trivial, trivial⟩, trivial⟩)
    (.cons (src := t!")") (.inl (.plain ((says_iff (by decide)).2 (by decide)) (by decide) (by decide) (by decide)))
      (.inl (.plain ((says_iff (by decide)).2 (by decide)) (by decide) (by decide) (by decide)))
      (.refused fun a l k => ?_) .nil))⟩
  rw [k] at h₃
  cases h₃

end
end Pemdas
