import Verif.Lemmas.SessionReads
/-
C50–C54: the loop of a session; C75–C79: quitting, history, unknown commands, prompt, start.
-/
set_option linter.unusedSectionVars false
namespace Pemdas
open Session

section
variable [CharTables]

/-- A session with `infixl 6 +` declared, in the middle of an input. -/
def exPending : Session := ⟨⟨[(opPlus, ⟨6, .left⟩)], []⟩, t!"a +\n ", .initial, t!"h"⟩

/-! ### C50 -/

/-- **C50** A blank line changes nothing and prints nothing, whatever is pending. -/
theorem C50_blank_ignored (w : World) (s : Session) {line : Text} (h : Blank line) :
    step w s line = .ok (true, s, []) :=
  step_blank w s h

/-- **C50** Hence blank lines can be removed from what is typed. -/
theorem C50_blank_removable (s : Session) (ins ins' : List (World × Input)) (w : World) {line : Text}
    (h : Blank line) : run s (ins ++ (w, .line line) :: ins') = run s (ins ++ ins') := by
  induction ins generalizing s with
  | nil =>
    simp only [List.nil_append, run, step_blank w s h, bind, Except.bind, if_true]
    cases run s ins' with
    | error e => rfl
    | ok x => obtain ⟨b, s', fx⟩ := x; simp
  | cons i ins ih =>
    obtain ⟨w', i⟩ := i
    cases i with
    | line l =>
      simp only [List.cons_append, run, ih]
    | eof => rfl
    | interrupted => rfl
    | error e => simp only [List.cons_append, run, ih]

example : Blank t!" \t " ∧ exPending.buffer ≠ [] := by unfold Blank; decide

/-! ### C51 -/

/-- **C51** Lines that are to be continued only accumulate. -/
theorem C51_accumulates (s : Session) (ls : List (Text × Text)) (w : World)
    (h : ∀ l ∈ ls, Continues l.1 l.2) :
    run s (ls.map fun l => (w, .line l.1)) = .ok (true, { s with
      buffer := s.buffer ++ (ls.map (·.2)).flatten
      prompt := if ls = [] then s.prompt else .initial }, []) := by
  induction ls generalizing s with
  | nil => simp [run]
  | cons l ls ih =>
    have h1 := h l (by simp)
    simp only [List.map_cons, run, step_continues w s h1, bind, Except.bind, if_true,
      ih _ fun l hl => h l (by simp [hl])]
    cases ls <;> simp

/-- **C51** The first line that is not continued (and is no command or block) is processed
together with all that was accumulated, and nothing is pending afterwards. -/
theorem C51_processed (w : World) (s : Session) {line body : Text} (h : Ends line body) :
    step w s line = (readBuffer { s with
      buffer := s.buffer ++ body
      prompt := if s.prompt = .continued then .initial else s.prompt }).map (true, ·) ∧
    ∀ b s' fx, step w s line = .ok (b, s', fx) → s'.buffer = [] := by
  refine ⟨?_, ?_⟩
  · rw [step_plain w s h]
    unfold process
    simp only [bind, Except.bind]
    generalize readBuffer _ = x
    cases x <;> rfl
  · intro b s' fx h'
    rw [step_plain w s h] at h'
    exact (process_applies h').2.1

/-- **C51** What processing does depends only on the text accumulated, not on how it was split into
lines. -/
theorem C51_split_irrelevant (w w' : World) (s s' : Session) {line line' body body' : Text}
    (h : Ends line body) (h' : Ends line' body') (ht : s.buffer ++ body = s'.buffer ++ body')
    (hr : s.resolver = s'.resolver) (hp : s.historyPath = s'.historyPath) (hc : s.prompt = s'.prompt) :
    step w s line = step w' s' line' := by
  rw [step_plain w s h, step_plain w' s' h', ht, hr, hp, hc]

example : (∀ l ∈ [(t!"infixl 6 + \\", t!"infixl 6 +\n"), (t!" a +\\ ", t!"a +\n ")],
    Continues l.1 l.2) ∧ Ends t!" b " t!"b" := by
  refine ⟨?_, .plain ?_ ?_ ?_ ?_⟩
  · intro l hl
    simp only [List.mem_cons, List.not_mem_nil, or_false] at hl
    rcases hl with rfl | rfl
    · exact .decl (body := t!"infixl 6 +") ((says_iff (by decide)).2 (by decide)) ⟨_, rfl⟩
    · exact .other (body := t!"a +") ((says_iff (by decide)).2 (by decide)) (by decide) (by decide)
  · exact (says_iff (by decide)).2 (by decide)
  · decide
  · decide
  · decide

/-! ### C52 -/

/-- **C52** While input is pending, a line starting with `:` changes nothing; all it does is to
print a message. -/
theorem C52_commands_refused (w : World) (s : Session) {line c : Text} (hb : s.buffer ≠ [])
    (h : Says line c) (hc : t!":" <+: c) :
    step w s line = .ok (true, s, [.err t!"cannot call a command in multiline mode!\n"]) := by
  rw [step_says w s h, if_pos (startsWith_iff.2 hc), if_neg hb]
  rfl

example : exPending.buffer ≠ [] ∧ Says t!" :quit" t!":quit" ∧ t!":" <+: t!":quit" :=
  ⟨by decide, (says_iff (by decide)).2 (by decide), by decide⟩

/-! ### C53 -/

theorem cmd_false {w : World} {s s' : Session} {line c : Text} {fx : List Effect} (hs : Says line c)
    (h : byKind w s c (kind c) = .ok (false, s', fx)) : c ∈ quitForms := by
  have hl := says_lead hs
  cases hk : kind c <;> rw [hk] at h <;> simp only [byKind] at h
  case cd => obtain ⟨fx', e⟩ := cmdCd_quiet (w := w) (s := s) hl hk; rw [e] at h; cases h
  case help => cases h
  case quit =>
    unfold cmdQuit at h
    split at h
    · rename_i h1; unfold quitForms; rcases h1 with rfl | rfl <;> simp
    split at h
    · rename_i h1; unfold quitForms; rcases h1 with rfl | rfl <;> simp
    · cases h
  case clear => obtain ⟨rest, _, _, e⟩ := cmdClear_eq (s := s) hl hk; rw [e] at h; cases h
  case history => obtain ⟨p, fx', e⟩ := cmdHistory_quiet (s := s) hl hk; rw [e] at h; cases h
  case reset => cases h
  case fixities => cases h
  case info => obtain ⟨p, _, rest, _, _, e⟩ := cmdInfo_eq (s := s) hl hk; rw [e] at h; cases h
  case load =>
    obtain ⟨rest, _, _, e⟩ := cmdLoad_eq (w := w) (s := s) hl hk
    rw [e] at h
    cases ha : loadArg w s (trim rest) with
    | error e => rw [ha] at h; cases h
    | ok x => rw [ha] at h; cases h
  case shell => obtain ⟨fx', e⟩ := cmdShell_quiet (w := w) (s := s) hl hk; rw [e] at h; cases h
  case unknown => cases h

theorem step_quit (w : World) {s : Session} {line c : Text} (hb : s.buffer = []) (hc : c ∈ quitForms)
    (h : Says line c) :
    step w s line = .ok (false, s,
      (if c = t!":q" ∨ c = t!":quit" then [Effect.saveHistory s.historyPath] else []) ++
        [.out t!"exiting Pemdas REPL\n"]) := by
  have hk : ∀ c ∈ quitForms, kind c = .quit ∧ t!":" <+: c := by decide
  obtain ⟨h1, h2⟩ := hk c hc
  rw [step_cmd w h h2 hb, h1]
  unfold quitForms at hc
  simp only [List.mem_cons, List.not_mem_nil, or_false] at hc
  rcases hc with rfl | rfl | rfl | rfl <;> rfl

/-- **C53** A line ends the session iff nothing is pending and the line is one of the four quit
commands. -/
theorem C53_ends_iff (w : World) (s : Session) (line : Text) :
    (∃ s' fx, step w s line = .ok (false, s', fx)) ↔
      s.buffer = [] ∧ ∃ c ∈ quitForms, Says line c := by
  constructor
  · rintro ⟨s', fx, h⟩
    rcases line_cases line with hl | ⟨c, hs, hc⟩ | ⟨add, hl⟩ | ⟨body, hl⟩ | ⟨body, hl⟩ | ⟨n, body, hl, h1, h2, h3⟩
    · rw [step_blank w s hl] at h; cases h
    · by_cases hb : s.buffer = []
      · rw [step_cmd w hs hc hb] at h
        exact ⟨hb, c, cmd_false hs h, hs⟩
      · rw [step_says w s hs, if_pos (startsWith_iff.2 hc), if_neg hb] at h
        cases h
    · rw [step_continues w s hl] at h; cases h
    · rw [step_plain w s hl] at h; exact absurd (process_applies h).1 (by simp)
    · rw [step_block w s hl] at h; exact absurd (process_applies h).1 (by simp)
    · rw [step_open w s hl h1 h2 h3] at h; cases h
  · rintro ⟨hb, c, hc, hs⟩
    exact ⟨_, _, step_quit w hb hc hs⟩

/-- **C53** The loop is left iff, after inputs that do not leave it, there is an end of input, an
interrupt or a quit command (with nothing pending). -/
theorem C53_loop_left_iff (s : Session) (ins : List (World × Input)) :
    (∃ s' fx, run s ins = .ok (false, s', fx)) ↔
      ∃ pre w i post s₁ fx, ins = pre ++ (w, i) :: post ∧ run s pre = .ok (true, s₁, fx) ∧
        (i = .eof ∨ i = .interrupted ∨
          ∃ line, i = .line line ∧ s₁.buffer = [] ∧ ∃ c ∈ quitForms, Says line c) := by
  induction ins generalizing s with
  | nil =>
    constructor
    · rintro ⟨s', fx, h⟩; cases h
    · rintro ⟨pre, w, i, post, _, _, h, _⟩
      cases pre <;> cases h
  | cons x ins ih =>
    obtain ⟨w, i⟩ := x
    cases i with
    | eof =>
      exact ⟨fun _ => ⟨[], w, .eof, ins, s, [], rfl, rfl, .inl rfl⟩, fun _ => ⟨_, _, rfl⟩⟩
    | interrupted =>
      exact ⟨fun _ => ⟨[], w, .interrupted, ins, s, [], rfl, rfl, .inr (.inl rfl)⟩, fun _ => ⟨_, _, rfl⟩⟩
    | error e =>
      constructor
      · rintro ⟨s', fx, h⟩
        unfold run at h
        cases hr : run s ins with
        | error e => rw [hr] at h; cases h
        | ok y =>
          obtain ⟨b, s1, fx1⟩ := y
          rw [hr] at h
          simp only [bind, Except.bind, Except.ok.injEq, Prod.mk.injEq] at h
          obtain ⟨rfl, rfl, -⟩ := h
          obtain ⟨pre, w', i, post, s₂, fx2, h1, h2, h3⟩ := (ih s).1 ⟨_, _, hr⟩
          exact ⟨(w, .error e) :: pre, w', i, post, s₂, errLine (t!"Error: " ++ e) :: fx2,
            by rw [h1]; rfl, by simp only [run, h2, bind, Except.bind], h3⟩
      · rintro ⟨pre, w', i, post, s₂, fx2, h1, h2, h3⟩
        cases pre with
        | nil =>
          simp only [List.nil_append, List.cons.injEq, Prod.mk.injEq] at h1
          rw [← h1.1.2] at h3
          rcases h3 with h3 | h3 | ⟨l, h3, -⟩ <;> cases h3
        | cons y pre =>
          simp only [List.cons_append, List.cons.injEq] at h1
          obtain ⟨rfl, rfl⟩ := h1
          unfold run at h2
          cases hr : run s pre with
          | error e => rw [hr] at h2; cases h2
          | ok y =>
            obtain ⟨b, s1, fx1⟩ := y
            rw [hr] at h2
            simp only [bind, Except.bind, Except.ok.injEq, Prod.mk.injEq] at h2
            obtain ⟨rfl, rfl, -⟩ := h2
            obtain ⟨s', fx, h4⟩ := (ih s).2 ⟨pre, w', i, post, _, _, rfl, hr, h3⟩
            exact ⟨s', _, by simp only [run, h4, bind, Except.bind]; rfl⟩
    | line l =>
      cases hs : step w s l with
      | error e =>
        constructor
        · rintro ⟨s', fx, h⟩
          unfold run at h; rw [hs] at h; cases h
        · rintro ⟨pre, w', i, post, s₂, fx2, h1, h2, h3⟩
          cases pre with
          | nil =>
            simp only [List.nil_append, List.cons.injEq, Prod.mk.injEq] at h1
            obtain ⟨⟨rfl, rfl⟩, rfl⟩ := h1
            rcases h3 with h3 | h3 | ⟨l', h3, h4, h5⟩
            · cases h3
            · cases h3
            · cases h3
              simp only [run, Except.ok.injEq, Prod.mk.injEq, true_and] at h2
              obtain ⟨rfl, -⟩ := h2
              obtain ⟨_, _, h6⟩ := (C53_ends_iff w s l).2 ⟨h4, h5⟩
              rw [h6] at hs; cases hs
          | cons y pre =>
            simp only [List.cons_append, List.cons.injEq] at h1
            obtain ⟨rfl, rfl⟩ := h1
            unfold run at h2; rw [hs] at h2; cases h2
      | ok y =>
        obtain ⟨b, s1, fx1⟩ := y
        cases b with
        | false =>
          have hq := (C53_ends_iff w s l).1 ⟨_, _, hs⟩
          constructor
          · intro _
            exact ⟨[], w, .line l, ins, s, [], rfl, rfl, .inr (.inr ⟨l, rfl, hq⟩)⟩
          · intro _
            exact ⟨s1, fx1, by simp only [run, hs, bind, Except.bind]; rfl⟩
        | true =>
          have hq : ¬ (s.buffer = [] ∧ ∃ c ∈ quitForms, Says l c) := by
            intro h
            obtain ⟨_, _, h6⟩ := (C53_ends_iff w s l).2 h
            rw [h6] at hs; cases hs
          have step1 : ∀ ins, run s ((w, .line l) :: ins) =
              (run s1 ins).map fun x => (x.1, x.2.1, fx1 ++ x.2.2) := by
            intro ins
            simp only [run, hs, bind, Except.bind, if_true]
            cases run s1 ins <;> rfl
          constructor
          · rintro ⟨s', fx, h⟩
            rw [step1] at h
            cases hr : run s1 ins with
            | error e => rw [hr] at h; cases h
            | ok y =>
              obtain ⟨b, s2, fx2⟩ := y
              rw [hr] at h
              simp only [Except.map, Except.ok.injEq, Prod.mk.injEq] at h
              obtain ⟨rfl, rfl, -⟩ := h
              obtain ⟨pre, w', i, post, s₂, fx3, h1, h2, h3⟩ := (ih s1).1 ⟨_, _, hr⟩
              refine ⟨(w, .line l) :: pre, w', i, post, s₂, fx1 ++ fx3, by rw [h1]; rfl, ?_, h3⟩
              rw [step1, h2]; rfl
          · rintro ⟨pre, w', i, post, s₂, fx2, h1, h2, h3⟩
            cases pre with
            | nil =>
              simp only [List.nil_append, List.cons.injEq, Prod.mk.injEq] at h1
              obtain ⟨⟨rfl, rfl⟩, rfl⟩ := h1
              simp only [run, Except.ok.injEq, Prod.mk.injEq, true_and] at h2
              obtain ⟨rfl, -⟩ := h2
              rcases h3 with h3 | h3 | ⟨l', h3, h4⟩
              · cases h3
              · cases h3
              · cases h3; exact absurd h4 hq
            | cons y pre =>
              simp only [List.cons_append, List.cons.injEq] at h1
              obtain ⟨rfl, rfl⟩ := h1
              rw [step1] at h2
              cases hr : run s1 pre with
              | error e => rw [hr] at h2; cases h2
              | ok y =>
                obtain ⟨b, s3, fx3⟩ := y
                rw [hr] at h2
                simp only [Except.map, Except.ok.injEq, Prod.mk.injEq] at h2
                obtain ⟨rfl, rfl, -⟩ := h2
                obtain ⟨s', fx, h4⟩ := (ih s1).2 ⟨pre, w', i, post, _, _, rfl, hr, h3⟩
                exact ⟨s', fx1 ++ fx, by rw [step1, h4]; rfl⟩

theorem loads_total (w : World) (ws : List Text) : ∃ evs, Loads w ws evs := by
  induction ws with
  | nil => exact ⟨[], .nil⟩
  | cons word ws ih =>
    obtain ⟨evs, h⟩ := ih
    obtain ⟨p, hp⟩ := unquote_ok word
    cases hr : w.readFile p with
    | error k => exact ⟨evs, .missing (unquote_opens.1 hp) hr h⟩
    | ok c => exact ⟨_, .file (unquote_opens.1 hp) hr (fileText_iff.2 rfl) h⟩

theorem loadPaths_crash [LawfulTables] {w : World} {s : Session} {ws : List Text} {e : Stop}
    {evs : List Event} (hl : Loads w ws evs) (h : loadPaths w s ws = .error e) :
    ∃ p t, e = .panic p ∧ .text t ∈ evs ∧ Crashes t p := by
  induction hl generalizing s with
  | nil => cases h
  | @missing word path k ws evs ho hr hl ih =>
    unfold loadPaths at h
    simp only [unquote_opens.2 ho, readFile, hr, bind, Except.bind] at h
    cases hl' : loadPaths w s ws with
    | error e' => rw [hl'] at h; cases h; exact ih hl'
    | ok x => rw [hl'] at h; cases h
  | @file word path content t ws evs ho hr hft hl ih =>
    unfold loadPaths at h
    simp only [unquote_opens.2 ho, bind, Except.bind] at h
    cases hf : readFile w s path with
    | error e' =>
      rw [hf] at h
      cases h
      obtain ⟨q, c, h1, h2, h3⟩ := readFile_stop hf
      rw [hr] at h2; cases h2
      rw [← fileText_iff.1 hft] at h3
      exact ⟨q, t, h1, by simp, h3⟩
    | ok y =>
      rw [hf] at h
      simp only at h
      cases hl' : loadPaths w y.1 ws with
      | error e' =>
        rw [hl'] at h; cases h
        obtain ⟨p, t', h1, h2, h3⟩ := ih hl'
        exact ⟨p, t', h1, by simp [h2], h3⟩
      | ok x => rw [hl'] at h; cases h

theorem process_stop [LawfulTables] {s : Session} {e : Stop} (h : process s = .error e) :
    ∃ p, e = .panic p ∧ Crashes s.buffer p := by
  unfold process at h
  cases hr : s.readBuffer with
  | error e' => rw [hr] at h; cases h; exact readBuffer_stop hr
  | ok x => rw [hr] at h; cases h

/-- **C53** A session crashes only while processing a text (typed or in a file), and only through
the known panics of lexing and parsing and of displaying their errors. -/
theorem C53_crashes [LawfulTables] (w : World) (s : Session) (line : Text) (e : Stop)
    (h : step w s line = .error e) :
    ∃ evs t p, Reads w s.buffer line evs ∧ .text t ∈ evs ∧ e = .panic p ∧ Crashes t p ∧
      p ∈ [Panic.badSlice, .identAssert, .hexExpect, .precTodo, .emptyCharTodo] := by
  have fin : ∀ {p : Panic} {t : Text}, Crashes t p →
      p ∈ [Panic.badSlice, .identAssert, .hexExpect, .precTodo, .emptyCharTodo] := by
    intro p t h
    rcases crashes_panics h with h | h | h | h | h <;> simp [h]
  rcases line_cases line with hl | ⟨c, hs, hc⟩ | ⟨add, hl⟩ | ⟨body, hl⟩ | ⟨body, hl⟩ | ⟨n, body, hl, h1, h2, h3⟩
  · rw [step_blank w s hl] at h; cases h
  · by_cases hb : s.buffer = []
    · rw [step_cmd w hs hc hb] at h
      have hl := says_lead hs
      cases hk : kind c <;> rw [hk] at h <;> simp only [byKind] at h
      case cd => obtain ⟨fx', e⟩ := cmdCd_quiet (w := w) (s := s) hl hk; rw [e] at h; cases h
      case help => cases h
      case quit =>
        unfold cmdQuit at h
        split at h
        · cases h
        split at h <;> cases h
      case clear => obtain ⟨rest, _, _, e⟩ := cmdClear_eq (s := s) hl hk; rw [e] at h; cases h
      case history => obtain ⟨p, fx', e⟩ := cmdHistory_quiet (s := s) hl hk; rw [e] at h; cases h
      case reset => cases h
      case fixities => cases h
      case info => obtain ⟨p, _, rest, _, _, e⟩ := cmdInfo_eq (s := s) hl hk; rw [e] at h; cases h
      case load =>
        obtain ⟨rest, h1, h2, h3⟩ := cmdLoad_eq (w := w) (s := s) hl hk
        rw [h3] at h
        cases ha : loadArg w s (trim rest) with
        | ok x => rw [ha] at h; cases h
        | error e' =>
          rw [ha] at h; cases h
          unfold loadArg at ha
          by_cases n1 : trim rest = []
          · rw [if_pos n1] at ha; cases ha
          rw [if_neg n1] at ha
          by_cases n2 : trim rest = t!"--prelude"
          · rw [if_pos n2] at ha; cases ha
          rw [if_neg n2] at ha
          by_cases n3 : trim rest = t!"--math"
          · rw [if_pos n3] at ha; cases ha
          rw [if_neg n3] at ha
          obtain ⟨evs, hld⟩ := loads_total w (splitWhitespace (trim rest))
          obtain ⟨p, t, e1, e2, e3⟩ := loadPaths_crash hld ha
          exact ⟨evs, t, p, .files hb (saysWith_iff.2 ⟨rest, by rw [← h1]; exact hs, h2, rfl, n1⟩) n3 n2
            (splitWhitespace_iff.1 rfl) hld, e2, e1, e3, fin e3⟩
      case shell => obtain ⟨fx', e⟩ := cmdShell_quiet (w := w) (s := s) hl hk; rw [e] at h; cases h
      case unknown => cases h
    · rw [step_says w s hs, if_pos (startsWith_iff.2 hc), if_neg hb] at h
      cases h
  · rw [step_continues w s hl] at h; cases h
  · rw [step_plain w s hl] at h
    obtain ⟨p, h1, h2⟩ := process_stop h
    exact ⟨_, _, p, .plain hl, by simp, h1, h2, fin h2⟩
  · rw [step_block w s hl] at h
    obtain ⟨p, h1, h2⟩ := process_stop h
    exact ⟨_, _, p, .block hl, by simp, h1, h2, fin h2⟩
  · rw [step_open w s hl h1 h2 h3] at h; cases h

example : t!":q --no-history" ∈ quitForms ∧ Says t!":q --no-history " t!":q --no-history" :=
  ⟨by decide, (says_iff (by decide)).2 (by decide)⟩

/-! ### C54 -/

/-- **C54** A command that changes the fixities is one of `:reset`, `:r`, a `:clear` of fixities, or
a `:load`, and nothing is pending. -/
theorem C54_commands_that_change_fixities {w : World} {s s' : Session} {line c : Text} {b : Bool}
    {fx : List Effect} (hs : Says line c) (hc : t!":" <+: c) (h : step w s line = .ok (b, s', fx))
    (hne : s'.resolver ≠ s.resolver) :
    s.buffer = [] ∧ (c = t!":reset" ∨ c = t!":r" ∨ (∃ o ∈ clearingOptions, SaysWith line t!":clear" o) ∨
      ∃ o, SaysWith line t!":load" o) := by
  rcases step_reads h with h1 | ⟨evs, h1, -⟩
  · exact absurd h1 hne
  cases h1 with
  | plain hl =>
    cases hl with
    | plain h1 h2 => exact absurd (says_unique hs h1 ▸ hc) h2
  | block hl =>
    obtain ⟨n, m, h1, -⟩ := hl
    rw [says_unique hs h1] at hc
    obtain ⟨t, ht⟩ := hc
    simp [List.replicate_succ] at ht
  | @reset c' hb h1 h2 =>
    rw [says_unique h1 hs] at h2
    simp only [List.mem_cons, List.not_mem_nil, or_false] at h2
    rcases h2 with h2 | h2
    · exact ⟨hb, .inl h2⟩
    · exact ⟨hb, .inr (.inl h2)⟩
  | clear hb h1 h2 => exact ⟨hb, .inr (.inr (.inl ⟨_, h2, h1⟩))⟩
  | math hb h1 => exact ⟨hb, .inr (.inr (.inr ⟨_, h1⟩))⟩
  | prelude hb h1 => exact ⟨hb, .inr (.inr (.inr ⟨_, h1⟩))⟩
  | files hb h1 => exact ⟨hb, .inr (.inr (.inr ⟨_, h1⟩))⟩

/-- **C54** No command changes what is pending or the prompt, and only `:history` changes where the
history is saved. -/
theorem C54_commands_keep_the_rest {w : World} {s s' : Session} {line c : Text} {b : Bool}
    {fx : List Effect} (hs : Says line c) (hc : t!":" <+: c) (h : step w s line = .ok (b, s', fx)) :
    s'.buffer = s.buffer ∧ s'.prompt = s.prompt ∧
    (s'.historyPath ≠ s.historyPath → FirstWord t!":history" c) := by
  by_cases hb : s.buffer = []
  · rw [step_cmd w hs hc hb] at h
    obtain ⟨h1, h2, h3⟩ := command_applies hs hb h
    refine ⟨by rw [h1, hb], h2, ?_⟩
    have hl := says_lead hs
    intro hne
    rcases h3 with ⟨hk, -⟩ | ⟨-, -, h3⟩ | ⟨-, h3, -⟩ | ⟨-, h3, -⟩
    · cases hk' : kind c <;> rw [hk'] at h hk <;> simp only [byKind] at h
      case cd => obtain ⟨fx', e⟩ := cmdCd_quiet (w := w) (s := s) hl hk'; rw [e] at h; cases h; exact absurd rfl hne
      case help => cases h; exact absurd rfl hne
      case quit =>
        unfold cmdQuit at h
        split at h
        · cases h; exact absurd rfl hne
        split at h <;> (cases h; exact absurd rfl hne)
      case clear => simp at hk
      case history =>
        obtain ⟨⟨p, hp, h4⟩, -⟩ := kind_word (c := c) (by simp [hk'])
        rw [hk', kindWords, List.mem_singleton] at hp
        subst hp
        exact (C65_is_prefix _ _).1 h4
      case reset => simp at hk
      case fixities => cases h; exact absurd rfl hne
      case info => obtain ⟨p, _, rest, _, _, e⟩ := cmdInfo_eq (s := s) hl hk'; rw [e] at h; cases h; exact absurd rfl hne
      case load => simp at hk
      case shell => obtain ⟨fx', e⟩ := cmdShell_quiet (w := w) (s := s) hl hk'; rw [e] at h; cases h; exact absurd rfl hne
      case unknown => cases h; exact absurd rfl hne
    · exact absurd h3 hne
    · exact absurd h3 hne
    · exact absurd h3 hne
  · rw [step_says w s hs, if_pos (startsWith_iff.2 hc), if_neg hb] at h
    cases h
    exact ⟨rfl, rfl, fun hne => absurd rfl hne⟩

end

section
attribute [local instance] asciiTables asciiTables_lawful

/-- C54: a command that does change the fixities. -/
example : (step ⟨fun _ => .error [], fun _ => .ok (), fun _ _ => .ok []⟩
    { exPending with buffer := [] } t!":r").toOption.map (·.2.1.resolver.fixities) = some [] := by
  decide

end
end Pemdas
