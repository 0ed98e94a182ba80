import Verif.Lemmas.Becomes
import Verif.Props.Drawn
import Verif.Props.Leaks
/-
C152: what resolving does, what a session knows and what it answers,
also if `let`s name an operator more than once.
-/
namespace Pemdas
open Printer Resolver Session

/-- **C152** Every expression becomes exactly what the rules say; the errors are those the rules say,
of errors that are alike only the first; and exactly the fixities that the rules leave are left. -/
theorem C152_expression {m : Fixities} (hw : m.Wf) (e : Expr) :
    ∃ e' es fx, (∀ g gs f, Becomes m.get e g gs f ↔ g = e' ∧ gs = es ∧ f = fx) ∧
      ∃ m', m'.Wf ∧ m'.get = fx ∧ visit ⟨m, []⟩ e = .ok (⟨m', firstOfEach es⟩, e') := by
  obtain ⟨⟨⟨m', errs⟩, e'⟩, h⟩ := visit_total ⟨m, []⟩ e
  obtain ⟨w, es, b, he⟩ := visit_becomes e _ _ _ h hw
  refine ⟨e', es, m'.get, fun g gs f => ⟨fun b' => b'.unique b, ?_⟩, m', w, rfl, ?_⟩
  · rintro ⟨rfl, rfl, rfl⟩
    exact b
  · rw [h, ← storeAll_firstOfEach, ← show errs = _ from he]

/-- **C152** The rules for whole inputs: the expressions one after the other, starting with the
fixities that the declarations leave. -/
theorem C152_input {m : Fixities} (hw : m.Wf) (a : Ast) :
    ∃ xs es fx, (∀ g gs f, BecomeAll (innermost m.get a.infxs) a.exprs g gs f ↔
        g = xs ∧ gs = es ∧ f = fx) ∧
      ∃ m', m'.Wf ∧ m'.get = fx ∧
        resolveAst ⟨m, []⟩ a = .ok (⟨m', []⟩, { a with exprs := xs }, firstOfEach es) := by
  obtain ⟨⟨⟨m', errs⟩, xs⟩, h⟩ := walkList_total (es := a.exprs) (fun e _ r => visit_total r e)
    ⟨loadDecls m a.infxs, []⟩
  have ht := walkList_thread (P := BecomesAt) (fun e _ => visit_becomes e) _ _ _ h
  obtain ⟨w, es, b, he⟩ := thread_becomes ht (wf_loadDecls hw _)
  simp only [C13_last_declaration_wins] at b
  refine ⟨xs, es, m'.get, fun g gs f => ⟨fun b' => b'.unique b, ?_⟩, m', w, rfl, ?_⟩
  · rintro ⟨rfl, rfl, rfl⟩
    exact b
  · rw [← storeAll_firstOfEach, ← show errs = _ from he]
    simp only [resolveAst, visitAst, bind, Except.bind, h]
    split
    · rename_i hn
      rw [← show errs = [] from hn]
    · rfl

section
variable [CharTables]

/-- The fixities after an entry of the log. -/
def Env.write (fx : Env) : Write → Env
  | .decl o f => fun op => if o.symbol = op.symbol then f else fx op
  | .clear => fun _ => ⟨9, .left⟩

/-- `Leaves fx evs fx'`: if the fixities are `fx` before the events, they are `fx'` after them. An
input that can be parsed leaves what its declarations and then its expressions leave. -/
inductive Leaves : Env → List Event → Env → Prop where
  | nil {fx} : Leaves fx [] fx
  | wrong {fx t e l evs fx'} : parse t = .err e l → Leaves fx evs fx' → Leaves fx (.text t :: evs) fx'
  | input {fx t ast l xs es fx₁ evs fx'} : parse t = .ok ast l →
      BecomeAll (innermost fx ast.infxs) ast.exprs xs es fx₁ → Leaves fx₁ evs fx' →
      Leaves fx (.text t :: evs) fx'
  | other {fx ev evs fx'} : (∀ t, ev ≠ .text t) → Leaves (ev.log.foldl Env.write fx) evs fx' →
      Leaves fx (ev :: evs) fx'

theorem Leaves.unique {fx f₁ f₂ : Env} {evs : List Event} (h₁ : Leaves fx evs f₁)
    (h₂ : Leaves fx evs f₂) : f₁ = f₂ := by
  induction h₁ with
  | nil => cases h₂; rfl
  | wrong h _ ih =>
    cases h₂ with
    | wrong _ h' => exact ih h'
    | input g => rw [h] at g; cases g
    | other g => exact absurd rfl (g _)
  | input h b _ ih =>
    cases h₂ with
    | wrong g => rw [h] at g; cases g
    | input g b' h' =>
      rw [h] at g
      cases g
      obtain ⟨-, -, rfl⟩ := b.unique b'
      exact ih h'
    | other g => exact absurd rfl (g _)
  | other h _ ih =>
    cases h₂ with
    | wrong => exact absurd rfl (h _)
    | input => exact absurd rfl (h _)
    | other _ h' => exact ih h'

theorem Leaves.append {fx f₁ f₂ : Env} {evs evs' : List Event} (h₁ : Leaves fx evs f₁)
    (h₂ : Leaves f₁ evs' f₂) : Leaves fx (evs ++ evs') f₂ := by
  induction h₁ with
  | nil => exact h₂
  | wrong h _ ih => exact .wrong h (ih h₂)
  | input h b _ ih => exact .input h b (ih h₂)
  | other h _ ih => exact .other h (ih h₂)

omit [CharTables] in
theorem get_write (m : Fixities) (ws : List Write) (op : Infix) :
    (ws.foldl (Write.on op) (m.getDefined op)).getD ⟨9, .left⟩ = ws.foldl Env.write m.get op := by
  suffices ∀ (o : Option Fixity) (fx : Env), o.getD ⟨9, .left⟩ = fx op →
      (ws.foldl (Write.on op) o).getD ⟨9, .left⟩ = ws.foldl Env.write fx op from this _ _ rfl
  induction ws with
  | nil => exact fun o fx h => h
  | cons w ws ih =>
    intro o fx h
    refine ih _ _ ?_
    cases w with
    | decl o' f =>
      simp only [Write.on, Env.write]
      split <;> simp_all
    | clear => rfl

theorem applies_after {r r' : Resolver} {evs : List Event} (h : Applies r evs r')
    (hr : r.errors = []) (hw : r.fixities.Wf) :
    r'.fixities.Wf ∧ Leaves r.fixities.get evs r'.fixities.get := by
  induction h with
  | nil => exact ⟨hw, .nil⟩
  | bad h1 _ ih => exact (ih hr hw).imp id (.wrong h1)
  | @good t ast l r r₁ a es r' evs h1 h2 _ ih =>
    have e : r.loadFixities ast = ⟨loadDecls r.fixities ast.infxs, []⟩ := by rw [loadFixities, hr]
    rw [e] at h2
    obtain ⟨xs, gs, fx, hb, m', w', h3, h4⟩ := C152_input (wf_loadDecls hw ast.infxs) ast
    rw [h4] at h2
    cases h2
    obtain ⟨w2, h5⟩ := ih rfl w'
    have := (hb xs gs fx).2 ⟨rfl, rfl, rfl⟩
    rw [C13_last_declaration_wins, innermost_idem, ← h3] at this
    exact ⟨w2, .input h1 this h5⟩
  | @clear r r' evs _ ih =>
    obtain ⟨w, h⟩ := ih hr List.nodup_nil
    exact ⟨w, .other (by simp) h⟩
  | @math r r' evs ha ih =>
    obtain ⟨w, h⟩ := ih ((loadArithmetic_errors _).trans hr)
      (by simp only [loadArithmetic]
          exact Fixities.wf_insertMany (Fixities.wf_insertMany (Fixities.wf_insertMany hw _ _) _ _) _ _)
    refine ⟨w, .other (by simp) ?_⟩
    have : r.loadArithmetic.2.fixities.get = Event.math.log.foldl Env.write r.fixities.get := by
      funext op
      have := applies_log (.math (.nil (r := r.loadArithmetic.2))) hr (by simp [Event.NoDup]) op
      simp only [List.flatMap_cons, List.flatMap_nil, List.append_nil] at this
      rw [← get_write, ← this]; rfl
    rw [← this]
    exact h
  | @prelude r r' evs ha ih =>
    obtain ⟨w, h⟩ := ih ((loadHsPrelude_errors _).trans hr) (wf_prelude hw)
    refine ⟨w, .other (by simp) ?_⟩
    have : r.loadHsPrelude.2.fixities.get = Event.prelude.log.foldl Env.write r.fixities.get := by
      funext op
      have := applies_log (.prelude (.nil (r := r.loadHsPrelude.2))) hr (by simp [Event.NoDup]) op
      simp only [List.flatMap_cons, List.flatMap_nil, List.append_nil] at this
      rw [← get_write, ← this]; rfl
    rw [← this]
    exact h

theorem history_after {s : Session} {log : List Event} (h : History s log) :
    s.resolver.fixities.Wf ∧ Leaves (fun _ => ⟨9, .left⟩) log s.resolver.fixities.get := by
  induction h with
  | start => exact ⟨List.nodup_nil, .nil⟩
  | reads hh hr hs ih =>
    obtain ⟨w, h⟩ := applies_after (reads_step hr hs) (C14_no_pending_error hh) ih.1
    exact ⟨w, ih.2.append h⟩
  | quiet _ hr hs ih => rw [quiet_step hr hs]; exact ih

/-- **C152** After every history the fixities are exactly those that the events leave. -/
theorem C152_fixities {s : Session} {log : List Event} (h : History s log) (fx : Env) :
    Leaves (fun _ => ⟨9, .left⟩) log fx ↔ s.resolver.fixities.get = fx :=
  ⟨fun h' => (history_after h).2.unique h', fun e => e ▸ (history_after h).2⟩

/-- **C152** For every input that can be parsed, after every history: the expressions become what the
rules say, starting with the fixities that the history and the declarations of the input leave; the
answer is exactly the errors met, or what the first expression has become; the fixities are then those
that the rules leave, and the next input starts afresh. -/
theorem C152_answer [LawfulTables] (w : World) {s : Session} {log : List Event}
    (hh : History s log) {line src : Text} (hc : Completes s line src)
    {ast : Ast} {l : Lexer} (hp : parse src = .ok ast l) :
    ∃ fx xs es fx', Leaves (fun _ => ⟨9, .left⟩) log fx ∧
      BecomeAll (innermost fx ast.infxs) ast.exprs xs es fx' ∧
      ∃ s', step w s line = .ok (true, s', answer ast.kinds xs es) ∧ s'.buffer = [] ∧
        s'.resolver.fixities.get = fx' ∧ s'.resolver.errors = [] := by
  obtain ⟨hw, ha⟩ := history_after hh
  have hld : s.resolver.loadFixities ast = ⟨loadDecls s.resolver.fixities ast.infxs, []⟩ := by
    rw [loadFixities, C14_no_pending_error hh]
  obtain ⟨xs, es, fx, hb, m', -, h1, h2⟩ := C152_input (wf_loadDecls hw ast.infxs) ast
  rw [← hld] at h2
  obtain ⟨s', k1, k2, k3⟩ := answer_step w hc hp h2
  have := (hb xs es fx).2 ⟨rfl, rfl, rfl⟩
  rw [C13_last_declaration_wins, innermost_idem] at this
  exact ⟨_, xs, es, fx, ha, this, s', k1, k2, by rw [k3]; exact h1, by rw [k3]⟩

end

section
attribute [local instance] asciiTables asciiTables_lawful

/-- `let infixr 9 +, + in a` leaves `+` with the fixity it declares. -/
def exTwice : InfixDecl := ⟨[opPlus, opPlus], ⟨9, .right⟩⟩

/-- The rules say what happens where the fixity of a `let` leaks: the chain behind it is grouped to the
right, although no declaration demands this. -/
example : ∃ fx', Becomes (fun _ => ⟨9, .left⟩)
    (.tup [.let_ exTwice exA, .bin exA opPlus (.bin exB opPlus exC)])
    (.tup [.let_ exTwice exA, .bin exA opPlus (.bin exB opPlus exC)]) [] fx' ∧
    fx' opPlus = ⟨9, .right⟩ ∧ fx' opMul = ⟨9, .left⟩ := by
  have h : ∀ fx : Env, fx opPlus = ⟨9, .right⟩ → Becomes fx (.bin exA opPlus (.bin exB opPlus exC))
      (.bin exA opPlus (.bin exB opPlus exC)) ([] ++ ([] ++ [])) fx := by
    intro fx hp
    refine .grouped (s := .leaf exA) (o := opPlus) (t := .node (.leaf exB) opPlus (.leaf exC))
      (by simp [OpTree.WellGrouped, OpTree.root, LeftOk, RightOk, hp]) rfl rfl .var ?_
    exact .grouped (s := .leaf exB) (o := opPlus) (t := .leaf exC)
      (by simp [OpTree.WellGrouped, OpTree.root, LeftOk, RightOk]) rfl rfl .var .var
  refine ⟨Env.afterLet (fun _ => ⟨9, .left⟩) exTwice (Env.extend (fun _ => ⟨9, .left⟩) exTwice),
    .tup (.cons (es := []) (.let_ .var) (.cons (es := []) (h _ (by decide)) .nil)), by decide,
    by decide⟩

/-- The session of C150_answer_wrong answers what the rules say. -/
example : ∃ s log, History s log ∧ Completes s t!"(let infixr 9 +, + in a, a + b + c)"
    t!"(let infixr 9 +, + in a, a + b + c)" ∧
    (parse t!"(let infixr 9 +, + in a, a + b + c)").value? =
      some ⟨[.expr], [], [.tup [.let_ exTwice exA, .bin exA opPlus (.bin exB opPlus exC)]]⟩ :=
  ⟨exStart, [], .start _ _, ⟨_, .inl (.plain ((says_iff (by decide)).2 (by decide)) (by decide)
    (by decide) (by decide)), rfl⟩, by decide +kernel⟩

end
end Pemdas
