import Verif.Lemmas.Leaks
import Verif.Props.SessionFix
/-
C11, C14, C15 in full: what exactly leaks when a `let` declares an operator twice.
-/
set_option linter.unusedSectionVars false
namespace Pemdas
open Session Resolver

/-- **C11** What a `let` leaves behind, for every declaration and body: operators it does not name
are as the body left them, operators it names once are as they were before, and operators it names
more than once have the fixity it declares. -/
theorem C11_let_exact (r r' : Resolver) (hw : r.fixities.Wf) (d : InfixDecl) (b e' : Expr)
    (h : visit r (.let_ d b) = .ok (r', e')) :
    ∃ r₁ b', visit { r with fixities := r.fixities.insertMany d.fixity d.infixes } b = .ok (r₁, b') ∧
      e' = .let_ d b' ∧ ∀ op, r'.fixities.getDefined op =
        match d.times op with
        | 0 => r₁.fixities.getDefined op
        | 1 => r.fixities.getDefined op
        | _ => some d.fixity := by
  rw [visit_eq] at h
  simp only [bind, Except.bind, insertLocal_snd] at h
  split at h
  · cases h
  · rename_i x hx
    obtain ⟨r₁, b'⟩ := x
    cases h
    have w1 := (visit_leaks (.standard []) _ _ _ _ hx (Fixities.wf_insertMany hw _ _)).1
    exact ⟨r₁, b', hx, rfl, fun op => getDefined_restore _ _ op _ _ w1⟩

/-- **C11** Whatever is resolved, with whatever errors: an operator keeps its fixity, unless some
`let` names it more than once, and then it keeps it or has the fixity of such a `let`. -/
theorem C11_leaks_only_duplicates (r r' : Resolver) (hw : r.fixities.Wf) (e e' : Expr)
    (h : visit r e = .ok (r', e')) (op : Infix) :
    r'.fixities.getDefined op = r.fixities.getDefined op ∨
      ∃ d, LetIn d e ∧ 2 ≤ d.times op ∧ r'.fixities.getDefined op = some d.fixity :=
  (visit_leaks op e r r' e' h hw).2

example : exTable.Wf ∧ (⟨[opPlus, opMul, opPlus], ⟨4, .right⟩⟩ : InfixDecl).times opPlus = 2 ∧
    LetIn ⟨[opPlus, opMul, opPlus], ⟨4, .right⟩⟩
      (.list [.let_ ⟨[opPlus, opMul, opPlus], ⟨4, .right⟩⟩ exA]) :=
  ⟨by unfold Fixities.Wf; decide, by decide, .list (List.mem_singleton.2 rfl) .here⟩

/-- **C14** After any input, accepted or not, an operator has the fixity it had before with the
input's declarations, unless some `let` of the input names it more than once, and then it has that
one or the fixity of such a `let`. -/
theorem C14_leaks_only_duplicates (m : Fixities) (hw : m.Wf) (a a' : Ast) (r' : Resolver)
    (errs : List AssocError) (h : resolveAst ⟨m, []⟩ a = .ok (r', a', errs)) :
    r'.fixities.Wf ∧ ∀ op, r'.fixities.getDefined op = (loadDecls m a.infxs).getDefined op ∨
      ∃ d, (∃ e ∈ a.exprs, LetIn d e) ∧ 2 ≤ d.times op ∧
        r'.fixities.getDefined op = some d.fixity := by
  obtain ⟨x, hx⟩ := walkList_total (v := visit) (es := a.exprs)
    (fun e _ r => visit_total r e) ⟨loadDecls m a.infxs, []⟩
  have key := fun op => thread_leaks (walkList_thread (P := LeaksAt op)
    (fun e _ r r' e' h => visit_leaks op e r r' e' h) _ _ _ hx) (wf_loadDecls hw _)
  simp only [resolveAst, visitAst, bind, Except.bind, hx] at h
  have hf : r'.fixities = x.1.fixities := by
    split at h
    · simp only [Except.ok.injEq, Prod.mk.injEq] at h
      rw [← h.1]
    · simp only [Except.ok.injEq, Prod.mk.injEq] at h
      rw [← h.1]; rfl
  rw [hf]
  exact ⟨(key (.standard [])).1, fun op => (key op).2⟩

section
variable [CharTables]

/-- What an event may add to the log as far as an operator is concerned: what it declares, and
possibly the fixity of a `let` that names the operator more than once. -/
inductive Event.Logs (op : Infix) : Event → List Write → Prop where
  | plain (ev) : Event.Logs op ev ev.log
  | leak {t ast l e d} : parse t = .ok ast l → e ∈ ast.exprs → LetIn d e → 2 ≤ d.times op →
      Event.Logs op (.text t) ((Event.text t).log ++ [.decl op d.fixity])

/-- `Event.Logs` for a sequence of events. -/
inductive Logs (op : Infix) : List Event → List Write → Prop where
  | nil : Logs op [] []
  | cons {ev ws evs ws'} : Event.Logs op ev ws → Logs op evs ws' → Logs op (ev :: evs) (ws ++ ws')

theorem Logs.append {op : Infix} {evs evs' : List Event} {ws ws' : List Write} (h : Logs op evs ws)
    (h' : Logs op evs' ws') : Logs op (evs ++ evs') (ws ++ ws') := by
  induction h with
  | nil => exact h'
  | cons h1 _ ih => rw [List.append_assoc]; exact .cons h1 ih

theorem wf_prelude {r : Resolver} (hw : r.fixities.Wf) : r.loadHsPrelude.2.fixities.Wf := by
  simp only [loadHsPrelude]
  generalize r.fixities = m at *
  repeat first
    | with_reducible refine Fixities.wf_insertMany ?_ _ _
    | with_reducible refine Fixities.wf_insert ?_ _ _
  exact hw

theorem applies_logs {r r' : Resolver} {evs : List Event} (h : Applies r evs r')
    (hr : r.errors = []) (hw : r.fixities.Wf) (op : Infix) : r'.fixities.Wf ∧
    ∃ ws, Logs op evs ws ∧ r'.fixities.getDefined op =
      ws.foldl (Write.on op) (r.fixities.getDefined op) := by
  induction h with
  | nil => exact ⟨hw, [], .nil, rfl⟩
  | @bad t e l r r' evs h1 _ ih =>
    obtain ⟨w, wss, h2, h3⟩ := ih hr hw
    exact ⟨w, _ ++ wss, .cons (.plain _) h2, by simp [Event.log, h1, h3]⟩
  | @good t ast l r r₁ a es r' evs h1 h2 _ ih =>
    have e : r.loadFixities ast = ⟨loadDecls r.fixities ast.infxs, []⟩ := by rw [loadFixities, hr]
    rw [e] at h2
    obtain ⟨w1, k⟩ := C14_leaks_only_duplicates _ (wf_loadDecls hw _) _ _ _ _ h2
    have h4 : ∀ o, (loadDecls (loadDecls r.fixities ast.infxs) ast.infxs).getDefined o =
        (loadDecls r.fixities ast.infxs).getDefined o := by
      intro o
      rw [getDefined_loadDecls, getDefined_loadDecls]
      cases ast.infxs.reverse.find? (fun d => decide (o.symbol ∈ d.infixes.map Infix.symbol)) <;> rfl
    obtain ⟨w, wss, h5, h6⟩ := ih (resolveAst_errors h2) w1
    have hl : (Event.text t).log = (declared ast.infxs).map fun d => .decl d.1 d.2 := by
      simp [Event.log, h1]
    rcases k op with k | ⟨d, ⟨x, hx, hd⟩, h7, h8⟩
    · refine ⟨w, _ ++ wss, .cons (.plain _) h5, ?_⟩
      rw [List.foldl_append, hl, foldl_declared, h6, k, h4]
    · refine ⟨w, _ ++ wss, .cons (.leak h1 hx hd h7) h5, ?_⟩
      rw [List.foldl_append, List.foldl_append, h6, h8]
      simp [Write.on]
  | @clear r r' evs _ ih =>
    obtain ⟨w, wss, h2, h3⟩ := ih hr List.nodup_nil
    exact ⟨w, _ ++ wss, .cons (.plain _) h2, h3⟩
  | @math r r' evs ha ih =>
    obtain ⟨w, wss, h2, h3⟩ := ih ((loadArithmetic_errors _).trans hr)
      (by simp only [loadArithmetic]
          exact Fixities.wf_insertMany (Fixities.wf_insertMany (Fixities.wf_insertMany hw _ _) _ _) _ _)
    refine ⟨w, _ ++ wss, .cons (.plain _) h2, ?_⟩
    have := applies_log (.math (.nil (r := r.loadArithmetic.2))) hr (by simp [Event.NoDup]) op
    simp only [List.flatMap_cons, List.flatMap_nil, List.append_nil] at this
    rw [h3, this, List.foldl_append]
  | @prelude r r' evs ha ih =>
    obtain ⟨w, wss, h2, h3⟩ := ih ((loadHsPrelude_errors _).trans hr)
      (wf_prelude hw)
    refine ⟨w, _ ++ wss, .cons (.plain _) h2, ?_⟩
    have := applies_log (.prelude (.nil (r := r.loadHsPrelude.2))) hr (by simp [Event.NoDup]) op
    simp only [List.flatMap_cons, List.flatMap_nil, List.append_nil] at this
    rw [h3, this, List.foldl_append]

/-- **C15** After every history, the fixity of an operator is that of the last writer, where the
writers are the declarations and, after the declarations of its input, at most one of the `let`s
that name the operator more than once. -/
theorem C15_last_writer {s : Session} {log : List Event} (h : History s log) (op : Infix) :
    ∃ ws, Logs op log ws ∧ s.resolver.fixities.getDefined op = lastWrite ws op := by
  suffices s.resolver.fixities.Wf ∧ ∃ ws, Logs op log ws ∧
      s.resolver.fixities.getDefined op = ws.foldl (Write.on op) none by
    obtain ⟨-, wss, h1, h2⟩ := this
    exact ⟨wss, h1, by rw [lastWrite_eq, h2]⟩
  induction h with
  | start => exact ⟨List.nodup_nil, [], .nil, rfl⟩
  | @reads w s s' line b fx log evs hh hr hs ih =>
    obtain ⟨w1, wss, h1, h2⟩ := ih
    obtain ⟨w2, wss', h3, h4⟩ := applies_logs (reads_step hr hs) (C14_no_pending_error hh) w1 op
    exact ⟨w2, wss ++ wss', h1.append h3, by rw [List.foldl_append, ← h2, h4]⟩
  | quiet _ hr hs ih => rw [quiet_step hr hs]; exact ih

/-- No `let` of the input names the operator more than once. -/
def Event.Spares (op : Infix) : Event → Prop
  | .text t => ∀ ast l, parse t = .ok ast l → ∀ e ∈ ast.exprs, ∀ d, LetIn d e → d.times op ≤ 1
  | _ => True

/-- **C15** (partial) The fixity of an operator is that of its last declaration as long as no `let`
names this operator more than once, whatever happens to other operators. -/
theorem C15_operator_partial {s : Session} {log : List Event} (h : History s log) (op : Infix)
    (hn : ∀ ev ∈ log, ev.Spares op) :
    s.resolver.fixities.getDefined op = lastWrite (log.flatMap Event.log) op := by
  obtain ⟨wss, h1, h2⟩ := C15_last_writer h op
  rw [h2]
  congr 1
  clear h h2
  induction h1 with
  | nil => rfl
  | @cons ev ws evs wss h _ ih =>
    rw [List.flatMap_cons, ih fun ev hev => hn ev (by simp [hev])]
    congr 1
    cases h with
    | plain => rfl
    | @leak t ast l e d h1 h2 h3 h4 =>
      have hs : Event.Spares op (.text t) := hn _ (List.mem_cons_self ..)
      exact absurd (hs ast l h1 e h2 d h3) (by omega)

end

section
attribute [local instance] asciiTables asciiTables_lawful

/-- C15: a session in which `+` leaks and `*` does not. -/
example : (exRun [t!"infixl 7 *; let infixr 4 +, + in a"]).map
    (fun x => (x.1.resolver.fixities.getDefined opPlus, x.1.resolver.fixities.getDefined opMul)) =
    some (some ⟨4, .right⟩, some ⟨7, .left⟩) := by decide +kernel

end
end Pemdas
