import Verif.Lemmas.Synonyms
/-
C185: the commands that the help text calls the same are the same, and blanks between the words of
a command do not matter.
-/
set_option linter.unusedSectionVars false
namespace Pemdas
open Session Resolver

section
variable [CharTables]

/-- **C185** The short names of the commands do the same as the long ones, and `:info` without
operators the same as `:fixities`. -/
theorem C185_names (w : World) {s : Session} {line line' n n' : Text} (hb : s.buffer = [])
    (h : Words line [n]) (h' : Words line' [n'])
    (hn : (n, n') ∈ [(t!":help", t!":h"), (t!":help", t!":?"), (t!":quit", t!":q"),
      (t!":reset", t!":r"), (t!":fixities", t!":info"), (t!":fixities", t!":i")]) :
    step w s line = step w s line' := by
  simp only [List.mem_cons, List.not_mem_nil, or_false, Prod.mk.injEq] at hn
  rcases hn with ⟨rfl, rfl⟩ | ⟨rfl, rfl⟩ | ⟨rfl, rfl⟩ | ⟨rfl, rfl⟩ | ⟨rfl, rfl⟩ | ⟨rfl, rfl⟩ <;>
    rw [bare_eq w hb ⟨_, rfl⟩ h, bare_eq w hb ⟨_, rfl⟩ h'] <;> rfl

/-- **C185** `:i` with operators does the same as `:info` with the same operators. -/
theorem C185_info (w : World) {s : Session} {line line' : Text} {ws : List Text} (hb : s.buffer = [])
    (h : Words line (t!":info" :: ws)) (h' : Words line' (t!":i" :: ws)) :
    step w s line = step w s line' := by
  cases ws with
  | nil => rw [bare_eq w hb ⟨_, rfl⟩ h, bare_eq w hb ⟨_, rfl⟩ h']; rfl
  | cons a ws =>
    obtain ⟨r, h1, h2⟩ := info_eq w hb (.inl rfl) h
    obtain ⟨r', h1', h2'⟩ := info_eq w hb (.inr rfl) h'
    rw [h2, h2', infoArg_words s h1 h1']

/-- **C185** (partial) `:reset` leaves the same session as `:clear --fixities`; each says one
line. Missing: the line, see `C185_reset_wrong`. -/
theorem C185_reset_partial (w : World) {s : Session} {line line' : Text} (hb : s.buffer = [])
    (h : Words line [t!":reset"]) (h' : Words line' [t!":clear", t!"--fixities"]) :
    ∃ s' a b, step w s line = .ok (true, s', [.out a]) ∧ step w s line' = .ok (true, s', [.out b]) := by
  obtain ⟨r, h1, h2, h3, h4, h5⟩ := h'.says
  rw [bare_eq w hb ⟨_, rfl⟩ h, clear_words w hb h1 h2, h3.trim_one]
  exact ⟨_, _, _, rfl, rfl⟩

/-- **C185** `:clear --session` does the same as `:clear` with the other two options, in either
order; and `:clear --history` the same as `:history --clear`. -/
theorem C185_clear (w : World) {s : Session} {line line' o o' : Text} (hb : s.buffer = []) :
    (SaysWith line t!":clear" o → SaysWith line' t!":clear" o' →
      o ∈ [t!"--session", t!"--history --fixities", t!"--fixities --history"] →
      o' ∈ [t!"--session", t!"--history --fixities", t!"--fixities --history"] →
      step w s line = step w s line') ∧
    (SaysWith line t!":clear" t!"--history" → SaysWith line' t!":history" t!"--clear" →
      step w s line = step w s line') := by
  refine ⟨fun h h' ho ho' => ?_, fun h h' => ?_⟩
  · obtain ⟨r, h1, h2, h3, -⟩ := saysWith_iff.1 h
    obtain ⟨r', h1', h2', h3', -⟩ := saysWith_iff.1 h'
    rw [clear_words w hb h1 h2, clear_words w hb h1' h2', h3, h3']
    simp only [List.mem_cons, List.not_mem_nil, or_false] at ho ho'
    rcases ho with rfl | rfl | rfl <;> rcases ho' with rfl | rfl | rfl <;> rfl
  · obtain ⟨r, h1, h2, h3, -⟩ := saysWith_iff.1 h
    obtain ⟨r', h1', h2', h3', -⟩ := saysWith_iff.1 h'
    rw [clear_words w hb h1 h2, h3, history_words w hb h1' h2', h3']
    rfl

/-- **C185** (partial) Two lines with the same words do the same, if the first is one of these
command words, or it is `:cd`, `:clear` or `:history` with at most one argument, or `:quit` or `:q`
without. Missing: more arguments of these, where blanks matter (`C185_blanks_wrong`; in paths after
`:cd` they have to). -/
theorem C185_blanks_partial (w : World) {s : Session} {line line' c : Text} {ws : List Text}
    (hb : s.buffer = []) (h : Words line (c :: ws)) (h' : Words line' (c :: ws))
    (hc : c ∈ [t!":help", t!":h", t!":?", t!":reset", t!":r", t!":fixities"] ∧ ws = [] ∨
      c ∈ [t!":load", t!":shell", t!":info", t!":i"] ∨
      c ∈ [t!":cd", t!":clear", t!":history"] ∧ ws.length ≤ 1 ∨
      c ∈ [t!":q", t!":quit"] ∧ ws = []) :
    step w s line = step w s line' := by
  have bare : t!":" <+: c → ws = [] → step w s line = step w s line' := by
    intro hcol he
    subst he
    rw [bare_eq w hb hcol h, bare_eq w hb hcol h']
  have one : ∀ {r r' : Text}, Words r ws → Words r' ws → ws.length ≤ 1 →
      Pemdas.trim r = Pemdas.trim r' := by
    intro r r' h h' hl
    match ws, hl with
    | [], _ => rw [h.trim_nil, h'.trim_nil]
    | [a], _ => rw [h.trim_one, h'.trim_one]
  have colon : ∀ {cs : List Text}, c ∈ cs → (∀ c ∈ cs, t!":" <+: c) → t!":" <+: c :=
    fun h1 h2 => h2 _ h1
  rcases hc with ⟨hc, he⟩ | hc | ⟨hc, hl⟩ | ⟨hc, he⟩
  · exact bare (colon hc (by decide)) he
  · simp only [List.mem_cons, List.not_mem_nil, or_false] at hc
    rcases hc with rfl | rfl | hc
    · obtain ⟨r, h1, h2, h3, -, -⟩ := h.says
      obtain ⟨r', h1', h2', h3', -, -⟩ := h'.says
      have hk : ∀ {r : Text}, (∀ x, r.head? = some x → isWhitespace x = true) →
          kind (t!":load" ++ r) = .load := fun h2 =>
        (kind_of_word (isPrefix_of_rest (by decide) (by decide) h2)).2.2.2.2.1 rfl
      rw [step_cmd w h1 ⟨_, rfl⟩ hb, step_cmd w h1' ⟨_, rfl⟩ hb, hk h2, hk h2']
      simp only [byKind, cmdLoad, sliceFrom_ok, bind, Except.bind, loadArg_words w s h3 h3']
    · obtain ⟨r, h1, h2, h3, -, -⟩ := h.says
      obtain ⟨r', h1', h2', h3', -, -⟩ := h'.says
      have hk : ∀ {r : Text}, (∀ x, r.head? = some x → isWhitespace x = true) →
          kind (t!":shell" ++ r) = .shell := fun h2 =>
        (kind_of_word (isPrefix_of_rest (by decide) (by decide) h2)).2.2.2.2.2.1 rfl
      rw [step_cmd w h1 ⟨_, rfl⟩ hb, step_cmd w h1' ⟨_, rfl⟩ hb, hk h2, hk h2']
      simp only [byKind, cmdShell, sliceFrom_ok, bind, Except.bind, splitWhitespace_iff.2 h3,
        splitWhitespace_iff.2 h3']
    · cases ws with
      | nil => exact bare (by rcases hc with rfl | rfl <;> exact ⟨_, rfl⟩) rfl
      | cons a ws =>
        obtain ⟨r, h1, h2⟩ := info_eq w hb hc h
        obtain ⟨r', h1', h2'⟩ := info_eq w hb hc h'
        rw [h2, h2', infoArg_words s h1 h1']
  · obtain ⟨r, h1, h2, h3, -, -⟩ := h.says
    obtain ⟨r', h1', h2', h3', -, -⟩ := h'.says
    have ht := one h3 h3' hl
    simp only [List.mem_cons, List.not_mem_nil, or_false] at hc
    rcases hc with rfl | rfl | rfl
    · have hk : ∀ {r : Text}, (∀ x, r.head? = some x → isWhitespace x = true) →
          kind (t!":cd" ++ r) = .cd := fun h2 =>
        (kind_of_word (isPrefix_of_rest (by decide) (by decide) h2)).1 rfl
      rw [step_cmd w h1 ⟨_, rfl⟩ hb, step_cmd w h1' ⟨_, rfl⟩ hb, hk h2, hk h2']
      simp only [byKind, cmdCd, sliceFrom_ok, bind, Except.bind, ht]
    · rw [clear_words w hb h1 h2, clear_words w hb h1' h2', ht]
    · rw [history_words w hb h1 h2, history_words w hb h1' h2', ht]
  · exact bare (colon hc (by decide)) he

end

section
attribute [local instance] asciiTables asciiTables_lawful

/-- **C185 is false**: `:reset` says something else than `:clear --fixities`, and another number. -/
theorem C185_reset_wrong :
    (exRun [t!"infixl 6 +", t!":reset"]).map (·.2.getLast?) = some (some (.out t!"0 fixities removed\n")) ∧
    (exRun [t!"infixl 6 +", t!":clear --fixities"]).map (·.2.getLast?) =
      some (some (.out t!"1 fixities cleared\n")) := by decide +kernel

/-- **C185 is false**: with two blanks `:quit  --no-history` is not a command and
`--history  --fixities` is not an option. -/
theorem C185_blanks_wrong (w : World) (s : Session) (hb : s.buffer = []) :
    step w s t!":quit --no-history" = .ok (false, s, [.out t!"exiting Pemdas REPL\n"]) ∧
    step w s t!":quit  --no-history" =
      .ok (true, s, [.err t!"unknown command: `:quit  --no-history`\n"]) ∧
    step w s t!":clear --history  --fixities" = .ok (true, s,
      [.err t!"unknown option(s) passed to command `:clear`: --history  --fixities\n"]) ∧
    (∃ s' fx, step w s t!":clear --history --fixities" = .ok (true, s', .clearHistory :: fx)) := by
  have hs : ∀ c ∈ [t!":quit --no-history", t!":quit  --no-history", t!":clear --history  --fixities",
      t!":clear --history --fixities"], Says c c ∧ t!":" <+: c := by
    intro c hc
    have key : ∀ c ∈ [t!":quit --no-history", t!":quit  --no-history",
      t!":clear --history  --fixities", t!":clear --history --fixities"],
      Pemdas.trim c = c ∧ c ≠ [] ∧ t!":" <+: c := by decide
    obtain ⟨h1, h2, h3⟩ := key c hc
    exact ⟨(says_iff h2).2 h1, h3⟩
  have go : ∀ c ∈ [t!":quit --no-history", t!":quit  --no-history", t!":clear --history  --fixities",
      t!":clear --history --fixities"], step w s c = byKind w s c (kind c) :=
    fun c hc => step_cmd w (hs c hc).1 (hs c hc).2 hb
  rw [go _ (by simp), go _ (by simp), go _ (by simp), go _ (by simp)]
  exact ⟨rfl, rfl, rfl, _, _, rfl⟩

/-- C185: the hypotheses are met, with different blanks. -/
example : Words t!"  :load  a   b" [t!":load", t!"a", t!"b"] ∧ Words t!":load a b " [t!":load", t!"a", t!"b"] :=
  ⟨splitWhitespace_iff.1 (by decide), splitWhitespace_iff.1 (by decide)⟩

example : Words t!":info ( + ) foo" [t!":info", t!"(", t!"+", t!")", t!"foo"] ∧
    (exRun [t!"infixl 6 +", t!":i ( + ) foo"]) = (exRun [t!"infixl 6 +", t!":info  ( +  ) foo"]) :=
  ⟨splitWhitespace_iff.1 (by decide), by decide +kernel⟩

example : SaysWith t!":clear --session" t!":clear" t!"--session" ∧
    SaysWith t!":history --clear" t!":history" t!"--clear" :=
  ⟨⟨t!" ", (says_iff (by decide)).2 (by decide), by unfold Blank; decide, by decide, '-', _, rfl, by decide⟩,
   ⟨t!" ", (says_iff (by decide)).2 (by decide), by unfold Blank; decide, by decide, '-', _, rfl, by decide⟩⟩

end

end Pemdas
