import Verif.Lemmas.Synonyms
import Verif.Props.Repeat
/-
Lemmas for C187: loading several files, and loading again.
-/
namespace Pemdas
open Session Resolver

section
variable [CharTables]

theorem feedInput_twice {s s' : Session} {t : Text} {res : Except SessionError Ast} (he : s.resolver.errors = [])
    (hw : s.resolver.fixities.Wf) (hl : NoDupIn t) (h : feedInput s t = .ok (res, s')) :
    (∃ m, m.Wf ∧ s' = { s with resolver := ⟨m, []⟩ }) ∧ feedInput s' t = .ok (res, s') := by
  obtain ⟨⟨m, errs⟩, buffer, prompt, path⟩ := s
  simp only at he hw
  subst he
  unfold feedInput at h
  cases hp : parse t with
  | fuel => rw [hp] at h; cases h
  | panic p => rw [hp] at h; cases h
  | err e l =>
    rw [hp] at h
    cases h
    refine ⟨⟨m, hw, rfl⟩, ?_⟩
    unfold feedInput
    rw [hp]
  | ok ast l =>
    rw [hp] at h
    have h0 : Resolver.loadFixities ⟨m, []⟩ ast = ⟨Resolver.loadDecls m ast.infxs, []⟩ := rfl
    have h1 : Resolver.loadFixities ⟨Resolver.loadDecls m ast.infxs, []⟩ ast =
        ⟨Resolver.loadDecls m ast.infxs, []⟩ := by
      unfold Resolver.loadFixities
      simp only [C13_load_twice m hw]
    simp only [h0] at h
    cases hr : Resolver.resolveAst ⟨Resolver.loadDecls m ast.infxs, []⟩ ast with
    | error e => rw [hr] at h; cases h
    | ok x =>
      obtain ⟨r, a, es⟩ := x
      have h2 := C14_resolver_state_partial _ ast a r es (hl ast l hp) hr
      rw [C13_load_twice m hw] at h2
      subst h2
      rw [hr] at h
      cases es with
      | nil =>
        cases h
        refine ⟨⟨_, wf_loadDecls hw _, rfl⟩, ?_⟩
        unfold feedInput
        simp only [hp, h1, hr]
      | cons err es =>
        cases h
        refine ⟨⟨_, wf_loadDecls hw _, rfl⟩, ?_⟩
        unfold feedInput
        simp only [hp, h1, hr]

theorem feedInput_buffer {s s' : Session} {t : Text} {res : Except SessionError Ast}
    (h : feedInput s t = .ok (res, s')) : s'.buffer = s.buffer := by
  unfold feedInput at h
  repeat' split at h
  all_goals cases h
  all_goals rfl

theorem readFile_buffer {w : World} {s s' : Session} {p : Text} {fx : List Effect}
    (h : readFile w s p = .ok (s', fx)) : s'.buffer = s.buffer := by
  unfold readFile at h
  split at h
  · cases h; rfl
  · split at h
    · cases h
    · rename_i hf; cases h; exact feedInput_buffer hf
    · rename_i hf
      split at h
      · cases h; exact feedInput_buffer hf
      · cases h

theorem loadPaths_buffer {w : World} : ∀ {ps : List Text} {s s' : Session} {fx : List Effect},
    loadPaths w s ps = .ok (s', fx) → s'.buffer = s.buffer
  | [], _, _, _, h => by cases h; rfl
  | p :: ps, s, s', fx, h => by
    unfold loadPaths at h
    cases hu : unquote p with
    | error e => rw [hu] at h; cases h
    | ok q =>
      simp only [hu, bind, Except.bind] at h
      cases hr : readFile w s q with
      | error e => rw [hr] at h; cases h
      | ok x =>
        obtain ⟨s₁, o₁⟩ := x
        simp only [hr] at h
        cases hl : loadPaths w s₁ ps with
        | error e => rw [hl] at h; cases h
        | ok y =>
          obtain ⟨s₂, o₂⟩ := y
          rw [hl] at h
          cases h
          rw [loadPaths_buffer hl, readFile_buffer hr]

theorem loadPaths_append (w : World) : ∀ (ps qs : List Text) (s : Session), loadPaths w s (ps ++ qs) = (do
    let x ← loadPaths w s ps
    let y ← loadPaths w x.1 qs
    .ok (y.1, x.2 ++ y.2))
  | [], qs, s => by
    simp only [List.nil_append, loadPaths, bind, Except.bind]
    cases loadPaths w s qs <;> rfl
  | p :: ps, qs, s => by
    simp only [List.cons_append, loadPaths, bind, Except.bind]
    cases unquote p with
    | error e => rfl
    | ok q =>
      simp only
      cases readFile w s q with
      | error e => rfl
      | ok x =>
        simp only [loadPaths_append w ps qs, bind, Except.bind]
        cases loadPaths w x.1 ps with
        | error e => rfl
        | ok y =>
          simp only
          cases loadPaths w y.1 qs with
          | error e => rfl
          | ok z => simp

/-- `:load` with arguments. -/
theorem load_words (w : World) {s : Session} {line : Text} {ws : List Text} (hb : s.buffer = [])
    (h : Words line (t!":load" :: ws)) :
    ∃ rest, Words rest ws ∧ step w s line = (loadArg w s (Pemdas.trim rest)).map (true, ·) := by
  obtain ⟨r, h1, h2, h3, -, -⟩ := h.says
  have hk : kind (t!":load" ++ r) = .load :=
    (kind_of_word (isPrefix_of_rest (by decide) (by decide) h2)).2.2.2.2.1 rfl
  refine ⟨r, h3, ?_⟩
  rw [step_cmd w h1 ⟨_, rfl⟩ hb, hk]
  simp only [byKind, cmdLoad, sliceFrom_ok, bind, Except.bind]
  cases loadArg w s (Pemdas.trim r) <;> rfl

omit [CharTables] in
theorem trim_is_word {rest o : Text} {ws : List Text} (h : Words rest ws) (ho : Words o [o]) :
    Pemdas.trim rest = o ↔ ws = [o] :=
  ⟨fun e => (Words.trim.2 h).unique (e ▸ ho), fun e => (e ▸ h).trim_one⟩

theorem load_files (w : World) {s : Session} {line : Text} {ws : List Text} (hb : s.buffer = [])
    (h : Words line (t!":load" :: ws)) (h0 : ws ≠ []) (h1 : ws ≠ [t!"--math"]) (h2 : ws ≠ [t!"--prelude"]) :
    step w s line = (loadPaths w s ws).map (true, ·) := by
  obtain ⟨rest, hr, e⟩ := load_words w hb h
  rw [e, loadArg, if_neg, if_neg, if_neg, splitWhitespace_iff.2 (Words.trim.2 hr)]
  · rwa [trim_is_word hr (splitWhitespace_iff.1 (by decide))]
  · rwa [trim_is_word hr (splitWhitespace_iff.1 (by decide))]
  · intro e'
    exact h0 (hr.unique (.nil (trim_eq_nil.1 e')))

end
end Pemdas
