import Verif.Spec.Unrelated
import Verif.Props.Repeat
import Verif.Props.Printer
import Verif.Props.Apart
/-
C189: only the fixities of the operators that are used matter to the answers of a session.
-/
namespace Pemdas
open Session Resolver

theorem resolveAst_agree {S : Symbol → Prop} {m m₁ : Fixities} (hw : m.Wf) (hw₁ : m₁.Wf) (a : Ast)
    (ha : Resolver.Agree S (loadDecls m a.infxs) (loadDecls m₁ a.infxs)) (hu : ∀ e ∈ a.exprs, ∀ o, UsesOp o e → S o.symbol) :
    ∃ m' m₁' xs es, resolveAst ⟨m, []⟩ a = .ok (⟨m', []⟩, { a with exprs := xs }, es) ∧
      resolveAst ⟨m₁, []⟩ a = .ok (⟨m₁', []⟩, { a with exprs := xs }, es) ∧ m'.Wf ∧ m₁'.Wf ∧ Resolver.Agree S m' m₁' := by
  obtain ⟨⟨⟨m', errs⟩, xs⟩, h⟩ := walkList_total (es := a.exprs) (fun e _ r => visit_total r e)
    ⟨loadDecls m a.infxs, []⟩
  obtain ⟨m₁', h₁, k1, k2, k3⟩ := thread_congr (walkList_thread (fun e _ => visit_congr S e) _ _ _ h) (loadDecls m₁ a.infxs)
    (wf_loadDecls hw _) (wf_loadDecls hw₁ _) ha hu
  refine ⟨m', m₁', xs, errs, ?_, ?_, k1, k2, k3⟩
  · simp only [resolveAst, visitAst, bind, Except.bind, h]
    split
    · rename_i hn
      rw [hn]
    · rfl
  · simp only [resolveAst, visitAst, bind, Except.bind, h₁]
    split
    · rename_i hn
      rw [hn]
    · rfl

section
variable [CharTables]

theorem echo_agree (s t : Session) (a : Ast) : t.echo a = s.echo a := by
  unfold echo
  split
  · rw [(C44_table_irrelevant t.resolver.fixities s.resolver.fixities _).2]
  · rfl

theorem readBuffer_agree {S : Symbol → Prop} {s t : Session} (hb : t.buffer = s.buffer) (hs : s.resolver.errors = [])
    (ht : t.resolver.errors = []) (ws : s.resolver.fixities.Wf) (wt : t.resolver.fixities.Wf) (hu : OnlyOps S s.buffer)
    (ha : ∀ ast l, parse s.buffer = .ok ast l →
      Resolver.Agree S (loadDecls s.resolver.fixities ast.infxs) (loadDecls t.resolver.fixities ast.infxs)) :
    (∃ e, s.readBuffer = .error e ∧ t.readBuffer = .error e) ∨
    ∃ s' t' fx, s.readBuffer = .ok (s', fx) ∧ t.readBuffer = .ok (t', fx) ∧
      (Resolver.Agree S s.resolver.fixities t.resolver.fixities ∨ (∃ ast l, parse s.buffer = .ok ast l) →
        Resolver.Agree S s'.resolver.fixities t'.resolver.fixities) ∧ Idle s' ∧ Idle t' := by
  obtain ⟨⟨m, errs⟩, buffer, prompt, path⟩ := s
  obtain ⟨⟨m₁, errs₁⟩, buffer₁, prompt₁, path₁⟩ := t
  simp only at hb hs ht ws wt hu ha
  subst hb hs ht
  unfold readBuffer feedInput
  simp only
  cases hp : parse buffer₁ with
  | fuel => exact .inl ⟨_, rfl, rfl⟩
  | panic p => exact .inl ⟨_, rfl, rfl⟩
  | err e l =>
    simp only
    split
    · refine .inr ⟨_, _, _, rfl, rfl, ?_, ⟨rfl, rfl, ws⟩, ⟨rfl, rfl, wt⟩⟩
      rintro (h | ⟨_, _, h⟩)
      · exact h
      · cases h
    · exact .inl ⟨_, rfl, rfl⟩
  | ok ast l =>
    have h1 := ha ast l hp
    have h0 : loadFixities ⟨m, []⟩ ast = ⟨loadDecls m ast.infxs, []⟩ := rfl
    have h0' : loadFixities ⟨m₁, []⟩ ast = ⟨loadDecls m₁ ast.infxs, []⟩ := rfl
    obtain ⟨m', m₁', xs, es, k1, k2, k3, k4, k5⟩ := resolveAst_agree (S := S) (wf_loadDecls ws ast.infxs)
      (wf_loadDecls wt ast.infxs) ast (by rw [loadDecls_twice ws, loadDecls_twice wt]; exact h1) (hu ast l hp)
    simp only [h0, h0', k1, k2]
    cases es with
    | nil =>
      simp only
      rw [echo_agree ⟨⟨m', []⟩, [], prompt, path⟩ ⟨⟨m₁', []⟩, [], prompt₁, path₁⟩]
      split
      · exact .inr ⟨_, _, _, rfl, rfl, fun _ => k5, ⟨rfl, rfl, k3⟩, ⟨rfl, rfl, k4⟩⟩
      · exact .inl ⟨_, rfl, rfl⟩
    | cons err es =>
      simp only
      split
      · exact .inr ⟨_, _, _, rfl, rfl, fun _ => k5, ⟨rfl, rfl, k3⟩, ⟨rfl, rfl, k4⟩⟩
      · exact .inl ⟨_, rfl, rfl⟩

/-- **C189** The same input is answered alike in two sessions, whatever has happened in them and whatever the system is
like, if the operators that it uses have the same fixities in both, or are declared by the input itself: both crash or both
show the same, and afterwards these operators have the same fixities in both again, also if the input contains errors. -/
theorem C189_input [LawfulTables] (S : Symbol → Prop) (w w' : World) {s t : Session} {log log' : List Event}
    (hs : History s log) (ht : History t log') {line src : Text} (hc : Completes s line src) (hc' : Completes t line src)
    {ast : Ast} {l : Lexer} (hp : parse src = .ok ast l) (hu : ∀ e ∈ ast.exprs, ∀ o, UsesOp o e → S o.symbol)
    (ha : ∀ op : Infix, S op.symbol → (∀ d ∈ ast.infxs, op.symbol ∉ d.infixes.map Infix.symbol) →
      s.resolver.fixities.get op = t.resolver.fixities.get op) :
    (∃ e, step w s line = .error e ∧ step w' t line = .error e) ∨
    ∃ s' t' out, step w s line = .ok (true, s', out) ∧ step w' t line = .ok (true, t', out) ∧
      ∀ op : Infix, S op.symbol → s'.resolver.fixities.get op = t'.resolver.fixities.get op := by
  obtain ⟨p, h⟩ := step_completes (w := w) hc
  obtain ⟨p', h'⟩ := step_completes (w := w') hc'
  have hd : ∀ ast' l', parse src = .ok ast' l' →
      Resolver.Agree S (loadDecls s.resolver.fixities ast'.infxs) (loadDecls t.resolver.fixities ast'.infxs) := by
    intro ast' l' hp' op ho
    rw [hp] at hp'
    cases hp'
    rw [C13_last_declaration_wins, C13_last_declaration_wins]
    unfold innermost
    cases hf : ast.infxs.reverse.find? (fun d => decide (op.symbol ∈ d.infixes.map Infix.symbol)) with
    | some d => rfl
    | none =>
      refine ha op ho fun d hd => ?_
      simpa using List.find?_eq_none.1 hf d (List.mem_reverse.2 hd)
  have e1 := C14_no_pending_error hs
  have e2 := C14_no_pending_error ht
  have w1 := (history_after hs).1
  have w2 := (history_after ht).1
  rw [h, h']
  unfold process
  rcases readBuffer_agree (S := S) (s := { s with buffer := src, prompt := p }) (t := { t with buffer := src, prompt := p' })
      rfl (by exact e1) (by exact e2) (by exact w1) (by exact w2) (by intro a l' ha'; rw [hp] at ha'; cases ha'; exact hu) (by exact hd) with
    ⟨e, h1, h2⟩ | ⟨s', t', fx, h1, h2, h3, -, -⟩
  · exact .inl ⟨e, by rw [h1]; rfl, by rw [h2]; rfl⟩
  · exact .inr ⟨s', t', fx, by rw [h1]; rfl, by rw [h2]; rfl, h3 (.inr ⟨ast, l, hp⟩)⟩

theorem step_agree {S : Symbol → Prop} {line src : Text} (hl : Single line src) (hu : OnlyOps S src) (w w' : World)
    {s t : Session} (hs : Idle s) (ht : Idle t) (ha : Resolver.Agree S s.resolver.fixities t.resolver.fixities) :
    (∃ e, step w s line = .error e ∧ step w' t line = .error e) ∨
    ∃ s' t' fx, step w s line = .ok (true, s', fx) ∧ step w' t line = .ok (true, t', fx) ∧
      Resolver.Agree S s'.resolver.fixities t'.resolver.fixities ∧ Idle s' ∧ Idle t' := by
  obtain ⟨f, -, h⟩ := step_single hl
  rw [h w s hs.buffer, h w' t ht.buffer]
  unfold process
  rcases readBuffer_agree (S := S) (s := { s with buffer := src, prompt := f s.prompt })
      (t := { t with buffer := src, prompt := f t.prompt }) rfl hs.errors ht.errors hs.wf ht.wf hu (by
        intro ast l _ op ho
        rw [C13_last_declaration_wins, C13_last_declaration_wins]
        unfold innermost
        simp only
        rw [ha op ho]) with
    ⟨e, h1, h2⟩ | ⟨s', t', fx, h1, h2, h3, h4, h5⟩
  · exact .inl ⟨e, by rw [h1]; rfl, by rw [h2]; rfl⟩
  · exact .inr ⟨s', t', fx, by rw [h1]; rfl, by rw [h2]; rfl, h3 (.inl ha), h4, h5⟩

theorem run_agree {S : Symbol → Prop} : ∀ (xs ys : List (World × Text)), ys.map (·.2) = xs.map (·.2) →
    (∀ x ∈ xs, ∃ src, Single x.2 src ∧ OnlyOps S src) → ∀ s t : Session, Idle s → Idle t →
    Resolver.Agree S s.resolver.fixities t.resolver.fixities →
    (∃ e, run s (typing xs) = .error e ∧ run t (typing ys) = .error e) ∨
    ∃ s' t' fx, run s (typing xs) = .ok (true, s', fx) ∧ run t (typing ys) = .ok (true, t', fx) ∧
      Resolver.Agree S s'.resolver.fixities t'.resolver.fixities
  | [], ys, hy, _, s, t, _, _, ha => by
    cases ys with
    | nil => exact .inr ⟨s, t, [], rfl, rfl, ha⟩
    | cons _ _ => cases hy
  | (w, line) :: xs, ys, hy, hx, s, t, hs, ht, ha => by
    cases ys with
    | nil => cases hy
    | cons y ys =>
      obtain ⟨w', line'⟩ := y
      simp only [List.map_cons, List.cons.injEq] at hy
      obtain ⟨rfl, hy⟩ := hy
      obtain ⟨src, hl, hu⟩ := hx (w, line') (by simp)
      simp only [typing, List.map_cons, run, bind, Except.bind]
      rcases step_agree hl hu w w' hs ht ha with ⟨e, h1, h2⟩ | ⟨s', t', fx, h1, h2, h3, h4, h5⟩
      · exact .inl ⟨e, by rw [h1], by rw [h2]⟩
      · rw [h1, h2]
        simp only [if_true]
        rcases run_agree xs ys hy (fun x hx' => hx x (by simp [hx'])) s' t' h4 h5 h3 with
          ⟨e, k1, k2⟩ | ⟨s₂, t₂, fx₂, k1, k2, k3⟩
        · unfold typing at k1 k2
          exact .inl ⟨e, by rw [k1], by rw [k2]⟩
        · unfold typing at k1 k2
          exact .inr ⟨s₂, t₂, fx ++ fx₂, by rw [k1], by rw [k2], k3⟩

/-- **C189** Any number of lines, accepted or refused, each an input by itself, are answered alike in two sessions,
whatever has happened in them, if the operators that they use have the same fixities in both at the beginning; or both
sessions crash for the same reason. In the end these operators have the same fixities in both again. -/
theorem C189_script [LawfulTables] (S : Symbol → Prop) {s t : Session} {log log' : List Event} (hs : History s log)
    (ht : History t log') (hbs : s.buffer = []) (hbt : t.buffer = [])
    (ha : ∀ op : Infix, S op.symbol → s.resolver.fixities.get op = t.resolver.fixities.get op)
    {xs ys : List (World × Text)} (hy : ys.map (·.2) = xs.map (·.2))
    (hx : ∀ x ∈ xs, ∃ src, Single x.2 src ∧ OnlyOps S src) :
    (∃ e, run s (typing xs) = .error e ∧ run t (typing ys) = .error e) ∨
    ∃ s' t' out, run s (typing xs) = .ok (true, s', out) ∧ run t (typing ys) = .ok (true, t', out) ∧
      ∀ op : Infix, S op.symbol → s'.resolver.fixities.get op = t'.resolver.fixities.get op :=
  run_agree xs ys hy hx s t (hs.idle hbs) (ht.idle hbt) ha

/-- **C189** An input that is entered before some lines does not change their answers if it gives no operator that they use
another fixity: because it declares other operators only, because it declares what holds already, because it states
`infixl 9` for an operator without fixity, or because it declares nothing. (`LetsDistinct` holds for every input without
expressions.) -/
theorem C189_before [LawfulTables] (S : Symbol → Prop) (w : World) {s : Session} {log : List Event} (hs : History s log)
    (hb : s.buffer = []) {line src : Text} (hl : Single line src) {ast : Ast} {l : Lexer} (hp : parse src = .ok ast l)
    (hd : ∀ e ∈ ast.exprs, e.LetsDistinct)
    (ha : ∀ op : Infix, S op.symbol → innermost s.resolver.fixities.get ast.infxs op = s.resolver.fixities.get op)
    {xs ys : List (World × Text)} (hy : ys.map (·.2) = xs.map (·.2))
    (hx : ∀ x ∈ xs, ∃ src, Single x.2 src ∧ OnlyOps S src) :
    ∃ t out₀, step w s line = .ok (true, t, out₀) ∧
      ((∃ e, run s (typing xs) = .error e ∧ run t (typing ys) = .error e) ∨
      ∃ s' t' out, run s (typing xs) = .ok (true, s', out) ∧ run t (typing ys) = .ok (true, t', out) ∧
        ∀ op : Infix, S op.symbol → s'.resolver.fixities.get op = t'.resolver.fixities.get op) := by
  have hc : Completes s line src := ⟨src, hl, by rw [hb]; rfl⟩
  obtain ⟨t, xs', es, fx, -, k1, k2, k3⟩ := input_leaves w hs hc hp hd
  refine ⟨t, _, k1, run_agree xs ys hy hx s t (hs.idle hb)
    ⟨k2, by rw [k3], by rw [k3]; exact wf_loadDecls (history_after hs).1 _⟩ ?_⟩
  intro op ho
  rw [k3, ← ha op ho, ← C13_last_declaration_wins]

end

/-- **C189** A `let` none of whose operators is used in its body changes nothing: the body becomes what it becomes without
the `let`, with the same errors in the same order. -/
theorem C189_idle_let {m : Fixities} (hw : m.Wf) (d : InfixDecl) (b : Expr)
    (hu : ∀ o, UsesOp o b → o.symbol ∉ d.infixes.map Infix.symbol) :
    ∃ x errs m₁ m₂, visit ⟨m, []⟩ b = .ok (⟨m₁, errs⟩, x) ∧ visit ⟨m, []⟩ (.let_ d b) = .ok (⟨m₂, errs⟩, .let_ d x) := by
  obtain ⟨⟨⟨m₁, errs⟩, x⟩, h⟩ := visit_total ⟨m, []⟩ b
  obtain ⟨⟨⟨m₂, errs₂⟩, x₂⟩, h₂⟩ := visit_total ⟨m, []⟩ (.let_ d b)
  obtain ⟨-, es, b1, e1⟩ := visit_becomes _ _ _ _ h hw
  obtain ⟨-, es₂, b2, e2⟩ := visit_becomes _ _ _ _ h₂ hw
  generalize Fixities.get (Resolver.mk m₂ errs₂).fixities = fx at b2
  cases b2 with
  | @let_ _ _ _ x' _ _ b2 =>
    have hg : (loadDecls m [d]).get = Env.extend m.get d := by
      rw [C13_last_declaration_wins]
      funext op
      unfold innermost Env.extend
      simp only [List.reverse_cons, List.reverse_nil, List.nil_append, List.find?_cons, List.find?_nil]
      by_cases ho : op.symbol ∈ d.infixes.map Infix.symbol
      · rw [decide_eq_true ho, if_pos ho]
      · rw [decide_eq_false ho, if_neg ho]
    obtain ⟨⟨⟨m₃, errs₃⟩, x₃⟩, h₃⟩ := visit_total ⟨loadDecls m [d], []⟩ b
    obtain ⟨-, es₃, b3, e3⟩ := visit_becomes _ _ _ _ h₃ (wf_loadDecls hw _)
    simp only [hg] at b3
    obtain ⟨rfl, rfl, -⟩ := b3.unique b2
    obtain ⟨m₄, h₄, -⟩ := visit_congr (fun t => ∃ o, UsesOp o b ∧ o.symbol = t) b _ _ _ h (loadDecls m [d]) hw
      (wf_loadDecls hw _) (by
        rintro op ⟨o, ho, hs⟩
        simp only [hg]
        unfold Env.extend
        rw [if_neg (hs ▸ hu o ho)]) (fun o ho => ⟨o, ho, rfl⟩)
    simp only at h₄
    rw [h₃] at h₄
    cases h₄
    refine ⟨x, errs, m₁, m₂, h, ?_⟩
    rw [h₂, show errs₂ = _ from e2, show errs = _ from e3]

/-! ### concrete cases -/

/-- C189: the hypotheses of `C189_idle_let` are met, with an error in the body. -/
example : exTable.Wf ∧ (∀ o, UsesOp o (.bin exA opEq (.bin exB opEq exC)) →
      o.symbol ∉ (InfixDecl.mk [opPlus] ⟨1, .right⟩).infixes.map Infix.symbol) ∧
    ∃ err x, visit ⟨exTable, []⟩ (.let_ ⟨[opPlus], ⟨1, .right⟩⟩ (.bin exA opEq (.bin exB opEq exC))) =
      .ok (⟨exTable, [err]⟩, x) := by
  refine ⟨by unfold Fixities.Wf; decide, ?_, ⟨(opEq, ⟨4, .neither⟩), (opEq, ⟨4, .neither⟩)⟩,
    .let_ ⟨[opPlus], ⟨1, .right⟩⟩ (.bin exA opEq (.bin exB opEq exC)), by decide⟩
  intro o h
  have : o = opEq := by
    cases h with
    | here => rfl
    | binL h => cases h
    | binR h =>
      cases h with
      | here => rfl
      | binL h => cases h
      | binR h => cases h
  subst this
  decide

section
attribute [local instance] asciiTables asciiTables_lawful

/-- C189: declarations of other operators, or of `infixl 9` for an operator without fixity, do not change answers;
declarations of the operators that are used do. -/
example : exShown [t!"infixl 6 +", t!"a + b * c", t!"a * b * c"] = some [t!"  a + (b * c)\n", t!"  (a * b) * c\n"] ∧
    exShown [t!"infixl 6 +", t!"infixr 1 ^", t!"infixl 9 *", t!"a + b * c", t!"a * b * c"] =
      some [t!"  a + (b * c)\n", t!"  (a * b) * c\n"] ∧
    exShown [t!"infixl 6 +", t!"infixr 1 *", t!"a + b * c", t!"a * b * c"] =
      some [t!"  (a + b) * c\n", t!"  a * (b * c)\n"] := by
  decide +kernel

/-- The input `a + b` uses `+` only. -/
theorem plus_only : Single t!"a + b" t!"a + b" ∧ OnlyOps (· = t!"+") t!"a + b" := by
  refine ⟨.inl (.plain ((says_iff (by decide)).2 (by decide)) (by decide) (by decide) (by decide)), ?_⟩
  intro ast l h e he o ho
  have hv : (parse t!"a + b").value? = some ⟨[.expr], [], [.bin exA opPlus exB]⟩ := by decide +kernel
  rw [h] at hv
  simp only [PRes.value?, Option.some.injEq] at hv
  subst hv
  rw [List.mem_singleton.1 he] at ho
  cases ho with
  | here => rfl
  | binL h => cases h
  | binR h => cases h

/-- C189: the hypotheses of `C189_before`, and with them those of `C189_script` and `C189_input`, are met: a declaration of
`*` and a line that uses `+`. -/
example : ∃ (s : Session) (line src : Text) (ast : Ast) (l : Lexer), History s [] ∧ s.buffer = [] ∧ Single line src ∧
    parse src = .ok ast l ∧ (∀ e ∈ ast.exprs, e.LetsDistinct) ∧ ast.infxs ≠ [] ∧
    (∀ op : Infix, op.symbol = t!"+" → innermost s.resolver.fixities.get ast.infxs op = s.resolver.fixities.get op) ∧
    ∀ x ∈ [(exWorld, t!"a + b")], ∃ src, Single x.2 src ∧ OnlyOps (· = t!"+") src := by
  obtain ⟨l, h⟩ := of_value (src := t!"infixl 6 *") (ast := ⟨[.infix_], [⟨[opMul], ⟨6, .left⟩⟩], []⟩) (by decide +kernel)
  refine ⟨(Session.new exFs none).1, t!"infixl 6 *", t!"infixl 6 *", _, l, .start _ _, rfl,
    .inl (.plain ((says_iff (by decide)).2 (by decide)) (by decide) (by decide) (by decide)), h, by simp, by simp, ?_, ?_⟩
  · intro op ho
    have : op.symbol ≠ opMul.symbol := by rw [ho]; decide
    simp [innermost, this.symm]
  · intro x hx
    rw [List.mem_singleton.1 hx]
    exact ⟨_, plus_only⟩

end
end Pemdas
