import Verif.Lemmas.Trace
/-
C159: what has been done when the program crashes.
-/
set_option linter.unusedSectionVars false
namespace Pemdas
open Session Resolver

section
variable [CharTables] [LawfulTables]

/-- **C159** The model that keeps what was done before a panic is the one of the other theorems: lines
and programs that do not panic do the same in both, and the others panic alike. -/
theorem C159_same (w : World) (s : Session) (line : Text) (fs : FileSystem) (home : Option Text)
    (ins : List (World × Input)) :
    (∀ go s' fx, step w s line = .ok (go, s', fx) ↔ stepT w s line = ⟨fx, .ok (go, s')⟩) ∧
    (∀ e, step w s line = .error e ↔ ∃ fx, stepT w s line = ⟨fx, .error e⟩) ∧
    (∀ go s' fx, runRepl fs home ins = .ok (go, s', fx) ↔ runReplT fs home ins = ⟨fx, .ok (go, s')⟩) ∧
    (∀ e, runRepl fs home ins = .error e ↔ ∃ fx, runReplT fs home ins = ⟨fx, .error e⟩) := by
  have h1 := agrees_step w s line
  have h2 := agrees_runRepl fs home ins
  exact ⟨fun _ _ _ => ⟨h1.ok, h1.back_ok⟩, fun _ => ⟨h1.error, fun ⟨_, h⟩ => h1.back h⟩,
    fun _ _ _ => ⟨h2.ok, h2.back_ok⟩, fun _ => ⟨h2.error, fun ⟨_, h⟩ => h2.back h⟩⟩

/-- **C159** In every session that can be reached, a line panics exactly if that is specified, after
exactly what is specified. -/
theorem C159_line (w : World) {s : Session} {log : List Event} (hh : History s log) (line : Text)
    (fx : List Effect) (e : Stop) :
    stepT w s line = ⟨fx, .error e⟩ ↔ ∃ p, e = .panic p ∧ Falls w s.desk line fx p :=
  falls_iff (neat_of_history hh)

/-- **C159** Every line does what C158 says or panics as specified here, never both, and in one way
only. A line that panics has at most read files and written to the screen: the history is not saved. -/
theorem C159_either (w : World) {s : Session} {log : List Event} (hh : History s log) (line : Text) :
    ((∃ go d fx, Does w s.desk line go d fx) ↔ ¬ ∃ fx p, Falls w s.desk line fx p) ∧
    (∀ {fx fx' p p'}, Falls w s.desk line fx p → Falls w s.desk line fx' p' → fx = fx' ∧ p = p') ∧
    ∀ {fx p}, Falls w s.desk line fx p → ∀ x ∈ fx, ∃ t, x = .read t ∨ x = .out t ∨ x = .err t := by
  have hn := neat_of_history hh
  have hstep : ∀ {fx p}, Falls w s.desk line fx p → stepT w s line = ⟨fx, .error (.panic p)⟩ :=
    fun h => (falls_iff hn).2 ⟨_, rfl, h⟩
  refine ⟨⟨?_, ?_⟩, ?_, ?_⟩
  · rintro ⟨go, d, fx, h⟩ ⟨fx', p, h'⟩
    obtain ⟨s', h1, -⟩ := does_step hn h
    have := (agrees_step w s line).back (hstep h')
    rw [h1] at this; cases this
  · intro h
    cases hs : step w s line with
    | ok y =>
      obtain ⟨go, s', fx⟩ := y
      exact does_exists hn hs
    | error e =>
      obtain ⟨fx, h1⟩ := (agrees_step w s line).error hs
      obtain ⟨p, -, h2⟩ := (falls_iff hn).1 h1
      exact absurd ⟨fx, p, h2⟩ h
  · intro fx fx' p p' h h'
    have := hstep h
    rw [hstep h'] at this
    cases this; exact ⟨rfl, rfl⟩
  · have snaps : ∀ {src fx p}, Snaps src fx p → ∀ x ∈ fx, ∃ t, x = .read t ∨ x = .out t ∨ x = .err t := by
      intro src fx p h x hx
      cases h with
      | silently => cases hx
      | speaking => cases List.mem_singleton.1 hx; exact ⟨_, .inr (.inr rfl)⟩
    have file : ∀ {l word fx l'}, RepliesFile w l word fx l' →
        ∀ x ∈ fx, ∃ t, x = .read t ∨ x = .out t ∨ x = .err t := by
      intro l word fx l' h x hx
      cases h <;> simp only [List.mem_cons, List.not_mem_nil, or_false] at hx
      · rcases hx with rfl | rfl | rfl <;> simp
      · rcases hx with rfl | rfl <;> simp
      · rcases hx with rfl | rfl | rfl <;> simp
      · rcases hx with rfl | rfl <;> simp
    have files : ∀ {l ws fx l'}, RepliesFiles w l ws fx l' →
        ∀ x ∈ fx, ∃ t, x = .read t ∨ x = .out t ∨ x = .err t := by
      intro l ws fx l' h
      induction h with
      | nil => simp
      | cons h _ ih =>
        intro x hx
        rcases List.mem_append.1 hx with hx | hx
        · exact file h x hx
        · exact ih x hx
    intro fx p h
    cases h with
    | ends _ h => exact snaps h
    | block _ h => exact snaps h
    | files _ _ _ _ h1 h2 =>
      intro x hx
      rcases List.mem_append.1 hx with hx | hx
      · exact files h1 x hx
      · cases h2 with
        | silently => cases List.mem_singleton.1 hx; exact ⟨_, .inl rfl⟩
        | speaking =>
          simp only [List.mem_cons, List.not_mem_nil, or_false] at hx
          rcases hx with rfl | rfl <;> simp

/-- **C159** The whole program panics exactly if it does what is specified up to some line, and that line
panics as specified; then that is all that was done. -/
theorem C159_session (fs : FileSystem) (home : Option Text) (ins : List (World × Input))
    (fx : List Effect) (e : Stop) :
    runReplT fs home ins = ⟨fx, .error e⟩ ↔ ∃ path fx₀ before w line after d fx₁ fx₂ p,
      Keeps fs home path fx₀ ∧ ins = before ++ (w, .line line) :: after ∧
      Sits ⟨[], [], .initial, path⟩ before true d fx₁ ∧ Falls w d line fx₂ p ∧
      fx = fx₀ ++ greeting path ++ (fx₁ ++ fx₂) ∧ e = .panic p := by
  have hi : ∀ s : Session, s.initMsg = greeting s.historyPath := by
    intro s
    unfold initMsg greeting sayLine
    simp only [List.append_assoc]
    rfl
  have run : ∀ {path fx₀}, Keeps fs home path fx₀ → runReplT fs home ins =
      ⟨fx₀ ++ greeting path ++ (runT ⟨⟨[], []⟩, [], .initial, path⟩ ins).done,
        (runT ⟨⟨[], []⟩, [], .initial, path⟩ ins).result⟩ := by
    intro path fx₀ hk
    unfold runReplT
    rw [(keeps_iff _ _ _ _).1 hk]
    simp only [Traced.bind, hi]
  have neat : ∀ {path}, (⟨⟨[], []⟩, [], .initial, path⟩ : Session).Neat := ⟨rfl, List.nodup_nil⟩
  constructor
  · intro h
    cases hnew : Session.new fs home with
    | mk s fx₀ =>
      have hs : s = ⟨⟨[], []⟩, [], .initial, s.historyPath⟩ := by
        have := congrArg Prod.fst hnew
        simp only [Session.new] at this
        rw [← this]
        rfl
      have hk : Keeps fs home s.historyPath fx₀ := (keeps_iff _ _ _ _).2 (by rw [hnew, ← hs])
      rw [run hk] at h
      simp only [Traced.mk.injEq] at h
      obtain ⟨rfl, h⟩ := h
      obtain ⟨before, w, line, after, d, fx₁, fx₂, p, h1, h2, h3, h4, h5⟩ :=
        (runT_falls neat (fx := (runT ⟨⟨[], []⟩, [], .initial, s.historyPath⟩ ins).done)).1 (by rw [← h])
      exact ⟨_, _, before, w, line, after, d, fx₁, fx₂, p, hk, h1, h2, h3, by rw [h4], h5⟩
  · rintro ⟨path, fx₀, before, w, line, after, d, fx₁, fx₂, p, hk, h1, h2, h3, rfl, rfl⟩
    rw [run hk, (runT_falls (s := ⟨⟨[], []⟩, [], .initial, path⟩) neat).2
      ⟨before, w, line, after, d, fx₁, fx₂, p, h1, h2, h3, rfl, rfl⟩]

end

attribute [local instance] asciiTables asciiTables_lawful

/-- A world with a file of declarations and one with an empty character literal. -/
def exFiles : World :=
  ⟨fun p => if p = t!"a" then .ok t!"infixl 6 +" else if p = t!"b" then .ok t!"x ''" else .error t!"no file",
   fun _ => .ok (), fun _ _ => .ok []⟩

/-- A panic as a result. -/
def exFell (x : Traced (Bool × Session)) : Option (List Effect × Panic) :=
  match x.result with
  | .error (.panic p) => some (x.done, p)
  | _ => none

theorem of_fell {x : Traced (Bool × Session)} {fx : List Effect} {p : Panic}
    (h : exFell x = some (fx, p)) : x = ⟨fx, .error (.panic p)⟩ := by
  obtain ⟨d, r⟩ := x
  unfold exFell at h
  simp only at h
  split at h
  · cases h; rfl
  · cases h

/-- The message about an empty character literal is begun, and then the program panics. -/
example : History exStart [] ∧ Falls exWorld exStart.desk t!"''"
    [.err (painted t!"0" (painted t!"31" t!"[Error]:" ++ t!" ") ++ t!"unexpected token `")]
    .emptyCharTodo :=
  ⟨.start _ _, by
    obtain ⟨p, h1, h2⟩ := (C159_line exWorld (.start exFs (some t!"/home/u")) t!"''" _
      (.panic .emptyCharTodo)).1 (of_fell (fx := [.err (painted t!"0" (painted t!"31" t!"[Error]:" ++ t!" ")
        ++ t!"unexpected token `")]) (by decide +kernel))
    cases h1
    exact h2⟩

/-- Files before the one that crashes are loaded, those after it are not. -/
example : (exFell (stepT exFiles exStart t!":load a c b d")).map (fun x => (x.1.map fun
      | .read p => t!"read " ++ p
      | .out t => t
      | .err t => t
      | _ => []).drop 3) =
    some [t!"read c", t!"unable to read `c`\n", t!"no file\n", t!"read b",
      painted t!"31" t!"[Error]:" ++ t!"  " ++ painted t!"34" t!"(b:1:5) " ++
        t!"unexpected token `"] := by decide +kernel

end Pemdas
