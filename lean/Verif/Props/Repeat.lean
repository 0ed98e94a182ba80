import Verif.Spec.Repeat
import Verif.Props.Becomes
import Verif.Props.CrashSession
/-
C179: entering inputs again.
-/
namespace Pemdas
open Session Resolver

section
variable [CharTables]

/-- What an input leaves of a session in which nothing is pending. -/
theorem readBuffer_leaves {s s' : Session} {fx : List Effect} (he : s.resolver.errors = [])
    (hw : s.resolver.fixities.Wf) (hl : NoDupIn s.buffer) (h : s.readBuffer = .ok (s', fx)) :
    s' = { s with buffer := [], resolver := ⟨Resolver.loadDecls s.resolver.fixities (declaredIn s.buffer), []⟩ } ∧
    ∀ t : Session, t.buffer = s.buffer → t.resolver = s'.resolver →
      t.readBuffer = .ok ({ t with buffer := [] }, fx) := by
  obtain ⟨⟨m, errs⟩, buffer, prompt, path⟩ := s
  simp only at he hw hl
  subst he
  unfold Session.readBuffer Session.feedInput at h
  unfold declaredIn
  simp only at h ⊢
  cases hp : parse buffer with
  | fuel => rw [hp] at h; cases h
  | panic p => rw [hp] at h; cases h
  | err e l =>
    rw [hp] at h
    simp only at h
    split at h <;> cases h
    rename_i t ht
    refine ⟨rfl, fun t' hb hr => ?_⟩
    unfold Session.readBuffer Session.feedInput
    rw [hb]
    simp only [hp, ht]
  | ok ast l =>
    rw [hp] at h
    have h0 : Resolver.loadFixities ⟨m, []⟩ ast = ⟨Resolver.loadDecls m ast.infxs, []⟩ := rfl
    have h1 : Resolver.loadFixities ⟨Resolver.loadDecls m ast.infxs, []⟩ ast =
        ⟨Resolver.loadDecls m ast.infxs, []⟩ := by
      unfold Resolver.loadFixities
      simp only [C13_load_twice m hw]
    simp only [h0] at h
    cases hr : Resolver.resolveAst ⟨Resolver.loadDecls m ast.infxs, []⟩ ast with
    | error e => rw [hr] at h; cases h
    | ok x =>
      obtain ⟨r, a, es⟩ := x
      have h2 := C14_resolver_state_partial _ ast a r es (hl ast l hp) hr
      rw [C13_load_twice m hw] at h2
      subst h2
      rw [hr] at h
      cases es with
      | nil =>
        simp only at h
        split at h <;> cases h
        rename_i fx' hfx
        refine ⟨rfl, fun t' hb hr' => ?_⟩
        simp only at hb hr'
        unfold Session.readBuffer Session.feedInput
        rw [hb]
        simp only [hp, hr', h1, hr]
        unfold Session.echo at hfx ⊢
        simp only at hfx ⊢
        rw [hfx]
      | cons err es =>
        simp only at h
        split at h <;> cases h
        rename_i t ht
        refine ⟨rfl, fun t' hb hr' => ?_⟩
        simp only at hb hr'
        unfold Session.readBuffer Session.feedInput
        rw [hb]
        simp only [hp, hr', h1, hr, ht]

/-- What becomes of the prompt after an input on one line. -/
def calm (p : LinePrompt) : LinePrompt := if p = .continued then .initial else p

theorem step_single {line src : Text} (h : Single line src) :
    ∃ f : LinePrompt → LinePrompt, (f = id ∨ f = calm) ∧ ∀ (w : World) (s : Session), s.buffer = [] →
      step w s line = process { s with buffer := src, prompt := f s.prompt } := by
  rcases h with h | h
  · refine ⟨calm, .inr rfl, fun w s hb => ?_⟩
    rw [step_plain w s h, hb]
    rfl
  · refine ⟨id, .inl rfl, fun w s hb => ?_⟩
    rw [step_block w s h, hb]
    rfl

omit [CharTables] in
theorem calm_twice {f : LinePrompt → LinePrompt} (h : f = id ∨ f = calm) (p : LinePrompt) : f (f p) = f p := by
  rcases h with rfl | rfl
  · rfl
  · cases p <;> rfl

omit [CharTables] in
theorem calm_comp {f g : LinePrompt → LinePrompt} (h : f = id ∨ f = calm) (h' : g = id ∨ g = calm) :
    (fun p => g (f p)) = id ∨ (fun p => g (f p)) = calm := by
  rcases h with rfl | rfl <;> rcases h' with rfl | rfl
  · exact .inl rfl
  · exact .inr rfl
  · exact .inr rfl
  · refine .inr (funext fun p => ?_)
    cases p <;> rfl

/-- Nothing is pending in the session. -/
structure Idle (s : Session) : Prop where
  buffer : s.buffer = []
  errors : s.resolver.errors = []
  wf : s.resolver.fixities.Wf

theorem History.idle {s : Session} {log : List Event} (h : History s log) (hb : s.buffer = []) : Idle s :=
  ⟨hb, C14_no_pending_error h, (history_after h).1⟩

theorem process_ok {s s' : Session} {b : Bool} {fx : List Effect} (h : process s = .ok (b, s', fx)) :
    b = true ∧ s.readBuffer = .ok (s', fx) := by
  unfold process at h
  cases hr : s.readBuffer with
  | error e => rw [hr] at h; cases h
  | ok x => rw [hr] at h; cases h; exact ⟨rfl, rfl⟩

/-- **C179** An input entered again, whether it is accepted or refused, is answered alike and changes nothing
more. `_partial`: inputs with a `let` that names an operator twice, for which this is false
(`C179_again_wrong`), are left out. -/
theorem C179_again_partial {s s' : Session} {log : List Event} (hh : History s log) (hb : s.buffer = [])
    {line src : Text} (hs : Single line src) (hl : NoDupIn src) {w : World} {b : Bool} {fx : List Effect}
    (h : step w s line = .ok (b, s', fx)) (w' : World) : step w' s' line = .ok (b, s', fx) := by
  have hi := hh.idle hb
  obtain ⟨f, hf, hstep⟩ := step_single hs
  rw [hstep w s hb] at h
  obtain ⟨rfl, h1⟩ := process_ok h
  obtain ⟨h2, h3⟩ := readBuffer_leaves (by exact hi.errors) (by exact hi.wf) (by exact hl) h1
  have h4 : s'.prompt = f s.prompt := by rw [h2]
  have h5 : s'.buffer = [] := by rw [h2]
  rw [hstep w' s' h5]
  unfold process
  rw [h3 { s' with buffer := src, prompt := f s'.prompt } rfl rfl]
  have : ({ s' with prompt := f s'.prompt, buffer := [] } : Session) = s' := by
    obtain ⟨r', b', p', q'⟩ := s'
    simp only at h4 h5 ⊢
    rw [h4, h5, calm_twice hf]
  simp only [bind, Except.bind]
  rw [this]

theorem step_idle {line src : Text} (hs : Single line src) (hl : NoDupIn src) :
    ∃ f : LinePrompt → LinePrompt, (f = id ∨ f = calm) ∧ ∀ (w : World) (s : Session), Idle s →
      ∀ b s' fx, step w s line = .ok (b, s', fx) → b = true ∧
        s' = ⟨⟨loadDecls s.resolver.fixities (declaredIn src), []⟩, [], f s.prompt, s.historyPath⟩ := by
  obtain ⟨f, hf, hstep⟩ := step_single hs
  refine ⟨f, hf, fun w s hi b s' fx h => ?_⟩
  rw [hstep w s hi.buffer] at h
  obtain ⟨rfl, h1⟩ := process_ok h
  exact ⟨rfl, (readBuffer_leaves (by exact hi.errors) (by exact hi.wf) (by exact hl) h1).1⟩

omit [CharTables] in
theorem loadDecls_append' (m : Fixities) (a b : List InfixDecl) :
    loadDecls m (a ++ b) = loadDecls (loadDecls m a) b := by
  induction a generalizing m with
  | nil => rfl
  | cons d a ih => exact ih _

theorem run_idle : ∀ ls : List Text, Lines1 ls →
    ∃ (D : List InfixDecl) (f : LinePrompt → LinePrompt), (f = id ∨ f = calm) ∧
      ∀ (xs : List (World × Text)) (s : Session), xs.map (·.2) = ls → Idle s →
      ∀ b s' fx, run s (typing xs) = .ok (b, s', fx) → b = true ∧
        s' = ⟨⟨loadDecls s.resolver.fixities D, []⟩, [], f s.prompt, s.historyPath⟩
  | [], _ => ⟨[], id, .inl rfl, fun xs s hx hi b s' fx h => by
      have : xs = [] := by simpa using hx
      subst this
      cases h
      refine ⟨rfl, ?_⟩
      obtain ⟨⟨m, errs⟩, b', p', q'⟩ := s
      obtain ⟨h1, h2, -⟩ := hi
      simp only at h1 h2
      rw [h1, h2]; rfl⟩
  | line :: ls, hl => by
    obtain ⟨src, hs, hn⟩ := hl line (by simp)
    obtain ⟨f, hf, h1⟩ := step_idle hs hn
    obtain ⟨D, g, hg, h2⟩ := run_idle ls fun l h => hl l (by simp [h])
    refine ⟨declaredIn src ++ D, fun p => g (f p), calm_comp hf hg, fun xs s hx hi b s' fx h => ?_⟩
    obtain ⟨⟨w, l'⟩, xs, rfl⟩ : ∃ x ys, xs = x :: ys := by
      cases xs with
      | nil => cases hx
      | cons x ys => exact ⟨x, ys, rfl⟩
    simp only [List.map_cons, List.cons.injEq] at hx
    obtain ⟨rfl, hx⟩ := hx
    simp only [typing, List.map_cons, run] at h
    cases hst : step w s l' with
    | error e => rw [hst] at h; cases h
    | ok y =>
      obtain ⟨b1, s1, fx1⟩ := y
      rw [hst] at h
      obtain ⟨rfl, rfl⟩ := h1 w s hi b1 s1 fx1 hst
      simp only [bind, Except.bind, if_true] at h
      split at h
      · cases h
      · rename_i z hz
        obtain ⟨b2, s2, fx2⟩ := z
        cases h
        have := h2 xs _ hx ⟨rfl, rfl, wf_loadDecls hi.wf _⟩ _ _ _ hz
        refine ⟨this.1, ?_⟩
        rw [this.2, loadDecls_append']

theorem run_survives [LawfulTables] : ∀ (xs ys : List (World × Text)) (s t : Session),
    xs.map (·.2) = ys.map (·.2) → Lines1 (xs.map (·.2)) → Idle s → Idle t → ∀ b s' fx,
    run s (typing xs) = .ok (b, s', fx) → ∃ b' t' fx', run t (typing ys) = .ok (b', t', fx')
  | [], ys, s, t, hx, _, _, _, b, s', fx, _ => by
    have : ys = [] := by simpa using hx.symm
    subst this
    exact ⟨_, _, _, rfl⟩
  | (w, line) :: xs, [], s, t, hx, _, _, _, b, s', fx, _ => by simp at hx
  | (w, line) :: xs, (w', line') :: ys, s, t, hx, hl, hi, hj, b, s', fx, h => by
    simp only [List.map_cons, List.cons.injEq] at hx
    obtain ⟨rfl, hx⟩ := hx
    obtain ⟨src, hs, hn⟩ := hl line (by simp)
    obtain ⟨f, hf, h1⟩ := step_idle hs hn
    obtain ⟨f', -, hstep⟩ := step_single hs
    simp only [typing, List.map_cons, run] at h ⊢
    cases hst : step w s line with
    | error e => rw [hst] at h; cases h
    | ok y =>
      obtain ⟨b1, s1, fx1⟩ := y
      rw [hst] at h
      have ht : ∃ z, step w' t line = .ok z := by
        cases ht : step w' t line with
        | ok z => exact ⟨z, rfl⟩
        | error e =>
          rw [hstep w' t hj.buffer, process_stop_iff] at ht
          have := (process_stop_iff (s := { s with buffer := src, prompt := f' s.prompt }) (e := e)).2 ht
          rw [← hstep w s hi.buffer, hst] at this
          cases this
      obtain ⟨⟨b2, t1, fx2⟩, ht⟩ := ht
      obtain ⟨rfl, rfl⟩ := h1 w s hi b1 s1 fx1 hst
      obtain ⟨rfl, rfl⟩ := h1 w' t hj b2 t1 fx2 ht
      rw [ht]
      simp only [bind, Except.bind, if_true] at h ⊢
      split at h
      · cases h
      · rename_i z hz
        obtain ⟨b3, s2, fx3⟩ := z
        obtain ⟨b4, t2, fx4, h4⟩ := run_survives xs ys _
          ⟨⟨loadDecls t.resolver.fixities (declaredIn src), []⟩, [], f t.prompt, t.historyPath⟩ hx
          (fun l hm => hl l (by simp only [List.map_cons, List.mem_cons]; exact .inr hm))
          ⟨rfl, rfl, wf_loadDecls hi.wf _⟩ ⟨rfl, rfl, wf_loadDecls hj.wf _⟩ _ _ _ hz
        unfold typing at h4
        rw [h4]
        exact ⟨_, _, _, rfl⟩

/-- **C179** Lines entered again, all in the same order, leave the session as they left it the first time,
whatever was declared before. So from the second time on they are always answered alike. `_partial`: without
lines that name an operator twice in a `let` (`C179_again_wrong`), and without commands. -/
theorem C179_script_partial [LawfulTables] {s s' : Session} {log : List Event} (hh : History s log)
    (hb : s.buffer = []) {xs : List (World × Text)} (hl : Lines1 (xs.map (·.2))) {b : Bool} {fx : List Effect}
    (h : run s (typing xs) = .ok (b, s', fx)) :
    ∀ ys : List (World × Text), ys.map (·.2) = xs.map (·.2) →
      ∃ fx', run s' (typing ys) = .ok (true, s', fx') := by
  intro ys hy
  have hi := hh.idle hb
  obtain ⟨D, f, hf, h1⟩ := run_idle _ hl
  obtain ⟨rfl, rfl⟩ := h1 xs s rfl hi b s' fx h
  have hj : Idle ⟨⟨loadDecls s.resolver.fixities D, []⟩, [], f s.prompt, s.historyPath⟩ :=
    ⟨rfl, rfl, wf_loadDecls hi.wf _⟩
  obtain ⟨b', t', fx', h2⟩ := run_survives xs ys s _ hy.symm hl hi hj _ _ _ h
  obtain ⟨rfl, rfl⟩ := h1 ys _ hy hj b' t' fx' h2
  refine ⟨fx', ?_⟩
  rw [h2]
  simp only [C13_load_twice _ hi.wf, calm_twice hf]

end

section
attribute [local instance] asciiTables asciiTables_lawful

/-- **C179 fails** for a `let` that names an operator twice: the same input, entered twice, is answered
differently. -/
theorem C179_again_wrong : ∃ line, exShown [line] = some [t!"  ((a + b) + c, a)\n"] ∧
    exShown [line, line] = some [t!"  ((a + b) + c, a)\n", t!"  (a + (b + c), a)\n"] :=
  ⟨t!"(a + b + c, let infixr 9 +, + in a)", by decide +kernel, by decide +kernel⟩

/-- The answers to lines entered the second time need not be those given the first time, but from then on they
stay the same. -/
example : exShown [t!"a + b * c", t!"infixl 1 +", t!"a + b * c", t!"infixl 1 +", t!"a + b * c", t!"infixl 1 +"] =
    some [t!"  (a + b) * c\n", t!"  a + (b * c)\n", t!"  a + (b * c)\n"] := by decide +kernel

/-- Lines that meet the hypotheses. -/
example : Lines1 [t!"a + b * c", t!"infixl 1 +"] := by
  intro line hl
  simp only [List.mem_cons, List.not_mem_nil, or_false] at hl
  rcases hl with rfl | rfl
  · refine ⟨t!"a + b * c", .inl (.plain ((says_iff (by decide)).2 (by decide)) (by decide) (by decide) (by decide)), ?_⟩
    intro ast l h e he
    have hv : (parse t!"a + b * c").value? = some ⟨[.expr], [], [.bin exA opPlus (.bin exB opMul exC)]⟩ := by
      decide +kernel
    rw [h] at hv
    cases hv
    simp only [List.mem_singleton] at he
    subst he
    simp [Expr.LetsDistinct, exA, exB, exC]
  · refine ⟨t!"infixl 1 +", .inl (.plain ((says_iff (by decide)).2 (by decide)) (by decide) (by decide) (by decide)), ?_⟩
    intro ast l h e he
    have hv : (parse t!"infixl 1 +").value? = some ⟨[.infix_], [⟨[opPlus], ⟨1, .left⟩⟩], []⟩ := by
      decide +kernel
    rw [h] at hv
    cases hv
    simp at he

end
end Pemdas
