import Verif.Spec.Desk
/-
Lemmas for C158: sessions and the specification of what lines do.
-/
set_option linter.unusedSectionVars false
namespace Pemdas
open Session Resolver

section
variable [CharTables]

/-- What a session has. -/
def Session.desk (s : Session) : Desk := ⟨s.resolver.fixities, s.buffer, s.prompt, s.historyPath⟩

/-- Sessions as they are between lines. -/
def Session.Neat (s : Session) : Prop := s.resolver.errors = [] ∧ s.resolver.fixities.Wf

theorem Session.Neat.resolver {s : Session} (h : s.Neat) :
    s.resolver = ⟨s.resolver.fixities, []⟩ := by
  obtain ⟨⟨m, e⟩, b, p, hp⟩ := s
  have : e = [] := h.1
  subst this; rfl

theorem neat_of_history {s : Session} {log : List Event} (h : History s log) : s.Neat :=
  ⟨C14_no_pending_error h, (history_books h).1⟩

theorem complains_iff {e : ParseError} {short long : Text} :
    Complains e short long ↔ e.textWithoutLoc = .ok short ∧ e.text = .ok long := by
  constructor
  · rintro (h | ⟨h, h'⟩)
    · simp [ParseError.text, ParseError.textWithoutLoc, bind, Except.bind, h, shown_eq]
    · simp [ParseError.text, ParseError.textWithoutLoc, bind, Except.bind, h, h', shown_eq]
  · rintro ⟨h1, h2⟩
    cases e with
    | unexpected f loc =>
      cases hf : f.text with
      | error => simp [ParseError.text, bind, Except.bind, hf] at h2
      | ok ft =>
        simp only [ParseError.text, ParseError.textWithoutLoc, bind, Except.bind, hf, Except.ok.injEq,
          ← shown_eq] at h1 h2
        subst h1 h2
        exact .unexpected hf
    | expected t loc f =>
      cases ht : t.text with
      | error => simp [ParseError.text, bind, Except.bind, ht] at h2
      | ok tt =>
        cases hf : f.text with
        | error => simp [ParseError.text, bind, Except.bind, ht, hf] at h2
        | ok ft =>
          simp only [ParseError.text, ParseError.textWithoutLoc, bind, Except.bind, ht, hf,
            Except.ok.injEq, ← shown_eq] at h1 h2
          subst h1 h2
          exact .expected ht hf

theorem complains_exists {e : ParseError}
    (h : (∃ t, e.text = .ok t) ∨ ∃ t, e.textWithoutLoc = .ok t) :
    ∃ short long, Complains e short long := by
  cases e with
  | unexpected f loc =>
    cases hf : f.text with
    | error => simp [ParseError.text, ParseError.textWithoutLoc, bind, Except.bind, hf] at h
    | ok ft => exact ⟨_, _, .unexpected hf⟩
  | expected t loc f =>
    cases ht : t.text with
    | error => simp [ParseError.text, ParseError.textWithoutLoc, bind, Except.bind, ht] at h
    | ok tt =>
      cases hf : f.text with
      | error => simp [ParseError.text, ParseError.textWithoutLoc, bind, Except.bind, ht, hf] at h
      | ok ft => exact ⟨_, _, .expected ht hf⟩

/-- What resolving an input does to a session. -/
theorem resolved {s : Session} (hn : s.Neat) (ast : Ast) :
    ∃ xs es l, (∀ g gs f,
        TurnAll (Ledger.enterAll s.resolver.fixities (declared ast.infxs)) ast.exprs g gs f ↔
          g = xs ∧ gs = es ∧ f = l) ∧ Fixities.Wf l ∧
      (s.resolver.loadFixities ast).resolveAst ast =
        .ok (⟨l, []⟩, { ast with exprs := xs }, firstOfEach es) := by
  have e : s.resolver.loadFixities ast = ⟨loadDecls s.resolver.fixities ast.infxs, []⟩ := by
    rw [loadFixities, hn.1]
  rw [e]
  have w1 := wf_loadDecls hn.2 ast.infxs
  obtain ⟨xs, gs, l', hb, w', h4⟩ := C157_input w1 ast
  rw [declared_eq, Ledger.enterAll_loadDecls w1, loadDecls_twice hn.2,
    ← Ledger.enterAll_loadDecls hn.2, ← declared_eq] at hb
  exact ⟨xs, gs, l', hb, w', h4⟩

theorem process_session {s s' : Session} {b : Bool} {fx : List Effect}
    (h : process s = .ok (b, s', fx)) :
    b = true ∧ s.readBuffer = .ok (s', fx) ∧ s' = { s with buffer := [], resolver := s'.resolver } := by
  unfold process at h
  cases hr : s.readBuffer with
  | error e => rw [hr] at h; cases h
  | ok x =>
    rw [hr] at h
    obtain ⟨s1, fx1⟩ := x
    cases h
    refine ⟨rfl, rfl, ?_⟩
    obtain ⟨res, h1, -⟩ := readBuffer_session hr
    rcases feedInput_session h1 with ⟨e, l, -, rfl, -⟩ | ⟨ast, l, r, a, es, -, -, rfl, -⟩ <;> rfl

variable [LawfulTables]

theorem replies_step (w : World) {s : Session} (hn : s.Neat) {line src : Text} {p : LinePrompt}
    (hc : Completes s line src)
    (hp : step w s line = process { s with buffer := src, prompt := p })
    {fx : List Effect} {l : Ledger} (h : Replies s.resolver.fixities src fx l) :
    step w s line = .ok (true, { s with buffer := [], prompt := p, resolver := ⟨l, []⟩ }, fx) ∧
      Fixities.Wf l := by
  have key : ∀ {s' : Session}, step w s line = .ok (true, s', fx) → s'.resolver = ⟨l, []⟩ →
      step w s line = .ok (true, { s with buffer := [], prompt := p, resolver := ⟨l, []⟩ }, fx) := by
    intro s' h1 h2
    have h3 := h1
    rw [hp] at h3
    have := (process_session h3).2.2
    rw [h2] at this
    rw [h1, this]
  cases h with
  | wrong h1 h2 =>
    obtain ⟨p', h3⟩ := (C130_reported_partial w hc).1 _ _ _ h1 (complains_iff.1 h2).2
    refine ⟨key (s' := { s with buffer := [], prompt := p' }) h3 hn.resolver, hn.2⟩
  | @input ast lx xs es l' h1 h2 =>
    obtain ⟨xs', es', l', hb, hw, h3⟩ := resolved hn ast
    obtain ⟨rfl, rfl, rfl⟩ := (hb _ _ _).1 h2
    obtain ⟨s', h4, -, h5⟩ := answer_step w hc h1 h3
    exact ⟨key h4 h5, hw⟩

theorem replies_exist {s s' : Session} (hn : s.Neat) {src : Text} {p : LinePrompt} {b : Bool}
    {fx : List Effect} (h : process { s with buffer := src, prompt := p } = .ok (b, s', fx)) :
    ∃ fx l, Replies s.resolver.fixities src fx l := by
  obtain ⟨res, h1, h2⟩ := readBuffer_session (process_session h).2.1
  rcases feedInput_session h1 with ⟨e, l, h3, -, h5⟩ | ⟨ast, l, r, a, es, h3, -⟩
  · rcases h2 with ⟨_, h2, -⟩ | ⟨e', t, h2, h4, -⟩
    · rw [h5] at h2; cases h2
    · rw [h5] at h2
      cases h2
      have : ∃ t, e.text = .ok t := by
        cases he : e.text with
        | ok t => exact ⟨t, rfl⟩
        | error p => simp [SessionError.text, bind, Except.bind, he] at h4
      obtain ⟨short, long, hc⟩ := complains_exists (.inl this)
      exact ⟨_, _, .wrong h3 hc⟩
  · obtain ⟨xs, es, l, hb, -, -⟩ := resolved hn ast
    exact ⟨_, _, .input h3 ((hb _ _ _).2 ⟨rfl, rfl, rfl⟩)⟩

/-! ### files -/

theorem file_step {w : World} {s : Session} (hn : s.Neat) {word : Text} {fx : List Effect}
    {l : Ledger} (h : RepliesFile w s.resolver.fixities word fx l) :
    ∃ p, unquote word = .ok p ∧ readFile w s p = .ok ({ s with resolver := ⟨l, []⟩ }, fx) ∧
      Fixities.Wf l := by
  have tag : SessionError.tag = painted t!"31" t!"[Error]:" ++ t!" " := by decide
  have blue : ∀ t, (Style.ansi .blue t).display = painted t!"34" t := by
    intro t
    have : ∀ t : Text, (Style.ansi .blue t).display = t!"\x1b[34m" ++ t ++ t!"\x1b[0m" := by
      intro t; rfl
    rw [this]; rfl
  cases h with
  | missing h1 h2 =>
    refine ⟨_, unquote_opens.2 h1, ?_, hn.2⟩
    rw [← hn.resolver]
    simp only [readFile, h2]
  | @wrong p content t e lx short long h1 h2 h3 h4 h5 =>
    refine ⟨_, unquote_opens.2 h1, ?_, hn.2⟩
    rw [← hn.resolver]
    rw [fileText_iff] at h3
    subst h3
    simp only [readFile, h2, feedInput_err s h4, SessionError.textWithPath, bind, Except.bind,
      (complains_iff.1 h5).1, tag, blue]
    simp
  | @accepted p content t ast lx xs l' h1 h2 h3 h4 h5 =>
    obtain ⟨xs', es', l', hb, hw, hr⟩ := resolved hn ast
    obtain ⟨rfl, rfl, rfl⟩ := (hb _ _ _).1 h5
    refine ⟨_, unquote_opens.2 h1, ?_, hw⟩
    rw [fileText_iff] at h3
    subst h3
    have hf : feedInput s (fileInput p content) =
        .ok (.ok { ast with exprs := xs }, { s with resolver := ⟨l, []⟩ }) := by
      unfold feedInput
      rw [h4]
      simp only [hr, firstOfEach]
    simp only [readFile, h2, hf, C49_sent]
    rfl
  | @ambiguous p content t ast lx xs es l' h1 h2 h3 h4 h5 h6 =>
    obtain ⟨xs', es', l', hb, hw, hr⟩ := resolved hn ast
    obtain ⟨rfl, rfl, rfl⟩ := (hb _ _ _).1 h5
    refine ⟨_, unquote_opens.2 h1, ?_, hw⟩
    rw [fileText_iff] at h3
    subst h3
    have hf : feedInput s (fileInput p content) =
        .ok (.error (.resolver (firstOfEach es)), { s with resolver := ⟨l, []⟩ }) := by
      unfold feedInput
      rw [h4]
      simp only [hr]
      cases es with
      | nil => exact absurd rfl h6
      | cons e es => simp only [firstOfEach]
    simp only [readFile, h2, hf, SessionError.textWithPath, tag, blue, SessionError.lines,
      C130_ambiguous]
    simp [List.flatMap_def]

theorem file_exists {w : World} {s s' : Session} (hn : s.Neat) {word p : Text} {fx : List Effect}
    (ho : Opens word p) (h : readFile w s p = .ok (s', fx)) :
    ∃ fx l, RepliesFile w s.resolver.fixities word fx l := by
  cases hw : w.readFile p with
  | error k => exact ⟨_, _, .missing ho hw⟩
  | ok content =>
    have ht : FileText p content (fileInput p content) := fileText_iff.2 rfl
    unfold readFile at h
    rw [hw] at h
    simp only at h
    cases hp : parse (fileInput p content) with
    | ok ast lx =>
      obtain ⟨xs, es, l, hb, -, -⟩ := resolved hn ast
      have := (hb _ _ _).2 ⟨rfl, rfl, rfl⟩
      by_cases he : es = []
      · subst he; exact ⟨_, _, .accepted ho hw ht hp this⟩
      · exact ⟨_, _, .ambiguous ho hw ht hp this he⟩
    | err e lx =>
      rw [feedInput_err s hp] at h
      simp only at h
      have : ∃ t, e.textWithoutLoc = .ok t := by
        cases he : e.textWithoutLoc with
        | ok t => exact ⟨t, rfl⟩
        | error q => simp [SessionError.textWithPath, bind, Except.bind, he] at h
      obtain ⟨short, long, hc⟩ := complains_exists (.inr this)
      exact ⟨_, _, .wrong ho hw ht hp hc⟩
    | panic q => rw [feedInput_panic s hp] at h; cases h
    | fuel => exact absurd hp (C37_terminates _).1

theorem files_step {w : World} {ws : List Text} {s : Session} (hn : s.Neat) {fx : List Effect}
    {l : Ledger} (h : RepliesFiles w s.resolver.fixities ws fx l) :
    loadPaths w s ws = .ok ({ s with resolver := ⟨l, []⟩ }, fx) ∧ Fixities.Wf l := by
  induction ws generalizing s fx with
  | nil =>
    cases h
    rw [← hn.resolver]
    exact ⟨rfl, hn.2⟩
  | cons word ws ih =>
    cases h with
    | @cons _ _ _ fx1 fx2 l1 _ h1 h2 =>
      obtain ⟨p, e1, e2, hw⟩ := file_step hn h1
      obtain ⟨e3, hw'⟩ := ih (s := { s with resolver := ⟨l1, []⟩ }) ⟨rfl, hw⟩ h2
      refine ⟨?_, hw'⟩
      simp only [loadPaths, e1, e2, e3, bind, Except.bind]

theorem files_exist {w : World} {ws : List Text} {s s' : Session} (hn : s.Neat) {fx : List Effect}
    (h : loadPaths w s ws = .ok (s', fx)) :
    ∃ fx l, RepliesFiles w s.resolver.fixities ws fx l := by
  induction ws generalizing s s' fx with
  | nil => exact ⟨_, _, .nil⟩
  | cons word ws ih =>
    obtain ⟨p, hp⟩ := unquote_ok word
    simp only [loadPaths, hp, bind, Except.bind] at h
    cases hr : readFile w s p with
    | error e => rw [hr] at h; cases h
    | ok x =>
      rw [hr] at h
      obtain ⟨s1, fx1⟩ := x
      simp only at h
      obtain ⟨fx', l', h1⟩ := file_exists hn (unquote_opens.1 hp) hr
      obtain ⟨p', e1, e2, hw⟩ := file_step hn h1
      rw [hp] at e1
      cases e1
      rw [hr] at e2
      cases e2
      cases hl : loadPaths w { s with resolver := ⟨l', []⟩ } ws with
      | error e => rw [hl] at h; cases h
      | ok y =>
        obtain ⟨s2, fx2⟩ := y
        obtain ⟨_, _, h2⟩ := ih (s := { s with resolver := ⟨l', []⟩ }) ⟨rfl, hw⟩ hl
        exact ⟨_, _, .cons h1 h2⟩

/-! ### commands with arguments -/

omit [CharTables] [LawfulTables] in
theorem asks_iff {line word o : Text} :
    Asks line word o ↔ ∃ rest, Says line (word ++ rest) ∧
      (∀ x, rest.head? = some x → isWhitespace x = true) ∧ trim rest = o := by
  unfold Asks
  rw [saysWith_iff]
  constructor
  · rintro (⟨rest, h2, h3, h4, -⟩ | ⟨h2, rfl⟩)
    · exact ⟨rest, h2, h3, h4⟩
    · exact ⟨[], by simpa using h2, by simp, rfl⟩
  · rintro ⟨rest, h2, h3, rfl⟩
    by_cases hr : trim rest = []
    · have hb := trim_eq_nil.1 hr
      have : rest = [] := by
        obtain ⟨_, _, _, _, _, _, ht⟩ := h2
        rcases List.eq_nil_or_concat rest with rfl | ⟨r, c, rfl⟩
        · rfl
        · obtain ⟨r', c', e, hc⟩ := ht
          rw [List.concat_eq_append, ← List.append_assoc] at e
          have : c' = c := by
            have := congrArg List.getLast? e
            simpa using this.symm
          subst this
          rw [hb c' (by simp)] at hc
          cases hc
      subst this
      exact .inr ⟨by simpa using h2, hr⟩
    · exact .inl ⟨rest, h2, h3, rfl, hr⟩

/-- What the commands with arguments compute from their argument. -/
def obey (w : World) (s : Session) (k : Kind) (o : Text) : Except Stop (Session × List Effect) :=
  match k with
  | .cd => .ok (s, if o = [] then [errLine t!"no directory provided to `:cd` command"]
      else match w.chdir o with
        | .ok () => [.chdir o]
        | .error k =>
          [.chdir o, errLine (t!"could not change current directory to `" ++ o ++ t!"`: " ++ k)])
  | .clear => .ok (clearOpt s o)
  | .history => historyOpt s o
  | .load => loadArg w s o
  | .shell => .ok (s, match splitWhitespace o with
    | prog :: args =>
      match w.spawn prog args with
      | .ok bs => [.spawn prog args, .bytes bs]
      | .error k => [.spawn prog args, errLine k]
    | [] =>
      [errLine t!"no command provided to `:shell/:sh` command",
       errLine t!"USAGE: :shell CMD <ARG>*"])
  | _ => .ok (s, [])

/-- The kinds of the commands with arguments. -/
def argumentKind (word : Text) : Kind :=
  if word = t!":cd" then .cd else if word = t!":clear" then .clear
  else if word = t!":history" then .history else if word = t!":load" then .load else .shell

theorem obey_rest (w : World) {s : Session} {line word rest : Text} (hb : s.buffer = [])
    (hw : word ∈ argumentWords) (h1 : Says line (word ++ rest))
    (h2 : ∀ x, rest.head? = some x → isWhitespace x = true) :
    step w s line = (obey w s (argumentKind word) (trim rest)).map (true, ·) := by
  have hn : NoLead (word ++ rest) := says_lead h1
  simp only [argumentWords, List.mem_cons, List.not_mem_nil, or_false] at hw
  rcases hw with rfl | rfl | rfl | rfl | rfl
  · have hk : kind (t!":cd" ++ rest) = .cd :=
      (kind_of_word (isPrefix_of_rest (by decide) (by decide) h2)).1 rfl
    rw [step_cmd w h1 ⟨_, rfl⟩ hb, hk]
    simp only [byKind, cmdCd, sliceFrom_ok, bind, Except.bind]
    rfl
  · have hk : kind (t!":clear" ++ rest) = .clear :=
      (kind_of_word (isPrefix_of_rest (by decide) (by decide) h2)).2.2.1 rfl
    rw [step_cmd w h1 ⟨_, rfl⟩ hb, hk]
    simp only [byKind, cmdClear, sliceFrom_ok, bind, Except.bind]
    rfl
  · have hk : kind (t!":history" ++ rest) = .history :=
      (kind_of_word (isPrefix_of_rest (by decide) (by decide) h2)).2.2.2.1 rfl
    rw [step_cmd w h1 ⟨_, rfl⟩ hb, hk]
    simp only [byKind, cmdHistory, sliceFrom_ok, bind, Except.bind]
    show _ = (historyOpt s (trim rest)).map (true, ·)
    cases historyOpt s (trim rest) <;> rfl
  · have hk : kind (t!":load" ++ rest) = .load :=
      (kind_of_word (isPrefix_of_rest (by decide) (by decide) h2)).2.2.2.2.1 rfl
    rw [step_cmd w h1 ⟨_, rfl⟩ hb, hk]
    simp only [byKind, cmdLoad, sliceFrom_ok, bind, Except.bind]
    show _ = (loadArg w s (trim rest)).map (true, ·)
    cases loadArg w s (trim rest) <;> rfl
  · have hk : kind (t!":shell" ++ rest) = .shell :=
      (kind_of_word (isPrefix_of_rest (by decide) (by decide) h2)).2.2.2.2.2.1 rfl
    have hs : splitWhitespace (trim rest) = splitWhitespace rest := by
      rw [splitWhitespace_iff, Words.trim, ← splitWhitespace_iff]
    rw [step_cmd w h1 ⟨_, rfl⟩ hb, hk]
    simp only [byKind, cmdShell, sliceFrom_ok, bind, Except.bind]
    show _ = Except.ok _
    simp only [hs]
    cases splitWhitespace rest with
    | nil => rfl
    | cons prog args => rfl

omit [CharTables] [LawfulTables] in
theorem obeys_word [CharTables] {w : World} {d d' : Desk} {word o : Text} {fx : List Effect} (h : Obeys w d word o d' fx) :
    word ∈ argumentWords := by
  cases h <;> decide

theorem obey_eq (w : World) {s : Session} {line word o : Text} (hb : s.buffer = [])
    (hw : word ∈ argumentWords) (h : Asks line word o) :
    step w s line = (obey w s (argumentKind word) o).map (true, ·) := by
  obtain ⟨rest, h1, h2, rfl⟩ := asks_iff.1 h
  exact obey_rest w hb hw h1 h2

/-- Arguments begin and end with characters that are not whitespace. -/
theorem asks_trim {line word o : Text} (h : Asks line word o) :
    o = [] ∨ NoLead o ∧ NoTrail o := by
  obtain ⟨rest, h1, h2, rfl⟩ := asks_iff.1 h
  by_cases hr : trim rest = []
  · exact .inl hr
  · obtain ⟨_, _, _, _, _, h3, h4⟩ := says_trim (fun hb => hr (trim_eq_nil.2 hb))
    exact .inr ⟨h3, h4⟩

theorem obeys_step {w : World} {s : Session} (hn : s.Neat) {word o : Text} {d : Desk}
    {fx : List Effect} (h : Obeys w s.desk word o d fx) (ho : o = [] ∨ NoLead o ∧ NoTrail o) :
    ∃ s', obey w s (argumentKind word) o = .ok (s', fx) ∧ s'.desk = d ∧ s'.Neat := by
  cases h with
  | cd h1 h2 => exact ⟨s, by simp [obey, argumentKind, h1, h2], rfl, hn⟩
  | cdFails h1 h2 => exact ⟨s, by simp [obey, argumentKind, h1, h2, errLine], rfl, hn⟩
  | cdNowhere => exact ⟨s, rfl, rfl, hn⟩
  | clearHistory => exact ⟨s, rfl, rfl, hn⟩
  | clearFixities =>
    refine ⟨{ s with resolver := { s.resolver with fixities := [] } }, ?_, rfl, hn.1, List.nodup_nil⟩
    show Except.ok (_, [sayLine (decText (List.length s.resolver.fixities) ++ _)]) = _
    simp [sayLine, desk]
  | clearSession h =>
    simp only [List.mem_cons, List.not_mem_nil, or_false] at h
    refine ⟨{ s with resolver := { s.resolver with fixities := [] } }, ?_, rfl, hn.1, List.nodup_nil⟩
    have e : ∀ x : Text, decText (List.length s.resolver.fixities) ++ x ++ t!"\n" =
        decText (List.length s.resolver.fixities) ++ (x ++ t!"\n") := fun _ => List.append_assoc _ _ _
    rcases h with rfl | rfl | rfl <;>
      show Except.ok (_, [_, sayLine (decText (List.length s.resolver.fixities) ++ _)]) = _ <;>
      simp only [sayLine, desk, e] <;> rfl
  | clearOther h =>
    refine ⟨s, ?_, rfl, hn⟩
    simp only [clearingOptions, List.mem_cons, List.not_mem_nil, or_false, not_or] at h
    show Except.ok (clearOpt s o) = _
    unfold clearOpt
    rw [if_neg h.1, if_neg h.2.1, if_neg (by simp [h])]
    simp [errLine]
  | forget => exact ⟨s, rfl, rfl, hn⟩
  | forgetFile => exact ⟨s, rfl, rfl, hn⟩
  | setNothing => exact ⟨s, rfl, rfl, hn⟩
  | @set b p h1 h2 =>
    have hp : p ≠ [] := by obtain ⟨c, r, rfl, -⟩ := h2; simp
    have h3 : NoTrail p := by
      rcases ho with ho | ⟨-, ho⟩
      · simp at ho
      · exact noTrail_append ho hp
    refine ⟨{ s with historyPath := p }, ?_, rfl, hn⟩
    show historyOpt s _ = _
    unfold historyOpt
    rw [if_neg, if_neg, if_pos]
    · unfold historySet
      rw [List.append_assoc, sliceFrom_ok]
      simp only [bind, Except.bind, trim_of_arg h1 h2 h3, if_neg hp]
      simp [sayLine]
    · rw [startsWith_iff]; exact ⟨b ++ p, by simp⟩
    · simp
    · simp
  | save =>
    refine ⟨s, ?_, rfl, hn⟩
    have : historyOpt s t!"--save" = historySave s t!"--save" := by
      unfold historyOpt
      rw [if_neg (by decide), if_neg (by decide), if_neg (by decide), if_pos (by decide)]
    show historyOpt s _ = _
    rw [this]
    unfold historySave
    simp [sayLine, desk]
  | @saveTo b p h1 h0 h2 =>
    have hp : p ≠ [] := by obtain ⟨c, r, rfl, -⟩ := h2; simp
    have h3 : NoTrail p := by
      rcases ho with ho | ⟨-, ho⟩
      · simp at ho
      · exact noTrail_append ho hp
    refine ⟨s, ?_, rfl, hn⟩
    show historyOpt s _ = _
    have e : historyOpt s (t!"--save" ++ b ++ p) = historySave s (t!"--save" ++ b ++ p) := by
      unfold historyOpt
      rw [if_neg, if_neg, if_neg, if_pos]
      · rw [List.append_assoc]
        refine isPrefix_of_rest (by decide) (by decide) ?_
        cases b with
        | nil => exact absurd rfl h0
        | cons c r =>
          intro x hx
          simp only [List.cons_append, List.head?_cons, Option.some.injEq] at hx
          exact hx ▸ h1 c (by simp)
      · rw [startsWith_iff]
        rintro ⟨t, ht⟩
        simp at ht
      · simp
      · simp
    have hl : utf8Len (t!"--save" ++ b ++ p) ≠ utf8Len t!"--save" := by
      have : 0 < utf8Len b := by
        cases b with
        | nil => exact absurd rfl h0
        | cons c r =>
          have := Char.utf8Size_pos c
          rw [utf8Len_cons]; omega
      rw [List.append_assoc, utf8Len_append, utf8Len_append]
      omega
    rw [e]
    unfold historySave
    rw [List.append_assoc] at hl ⊢
    simp only [if_neg hl, sliceFrom_ok, bind, Except.bind, trim_of_arg h1 h2 h3]
    simp [sayLine, desk]
  | historyOther h1 h2 h3 =>
    refine ⟨s, ?_, rfl, hn⟩
    simp only [List.mem_cons, List.not_mem_nil, or_false, not_or] at h1
    show historyOpt s o = _
    unfold historyOpt
    rw [if_neg h1.1, if_neg h1.2, if_neg (by rw [startsWith_iff]; exact h2),
      if_neg (by rw [C65_is_prefix]; exact h3)]
    simp [errLine]
  | loadNothing => exact ⟨s, rfl, rfl, hn⟩
  | math =>
    refine ⟨{ s with resolver := s.resolver.loadArithmetic.2 }, rfl, ?_,
      (loadArithmetic_errors _).trans hn.1, ?_⟩
    · simp only [desk, enterAll_math hn.2]
    · rw [← enterAll_math hn.2]; exact (entered hn.2 _).2
  | prelude =>
    refine ⟨{ s with resolver := s.resolver.loadHsPrelude.2 }, rfl, ?_,
      (loadHsPrelude_errors _).trans hn.1, wf_prelude hn.2⟩
    simp only [desk, enterAll_prelude hn.2]
  | files h1 h2 h3 =>
    simp only [List.mem_cons, List.not_mem_nil, or_false, not_or] at h1
    obtain ⟨h4, hw⟩ := files_step hn h3
    have h5 : loadArg w s o = loadPaths w s (splitWhitespace o) := by
      simp only [loadArg, if_neg h1.1, if_neg h1.2.1, if_neg h1.2.2]
    rw [splitWhitespace_iff.2 h2, h4] at h5
    exact ⟨_, h5, rfl, rfl, hw⟩
  | shell h1 h2 =>
    refine ⟨s, ?_, rfl, hn⟩
    show Except.ok _ = _
    simp only [splitWhitespace_iff.2 h1, h2]
  | shellFails h1 h2 =>
    refine ⟨s, ?_, rfl, hn⟩
    show Except.ok _ = _
    simp only [splitWhitespace_iff.2 h1, h2]
    rfl
  | shellNothing => exact ⟨s, rfl, rfl, hn⟩

theorem obeys_exists {w : World} {s s' : Session} (hn : s.Neat) {word o : Text} {fx : List Effect}
    (hw : word ∈ argumentWords) (ho : o = [] ∨ NoLead o ∧ NoTrail o)
    (h : obey w s (argumentKind word) o = .ok (s', fx)) : ∃ d fx, Obeys w s.desk word o d fx := by
  simp only [argumentWords, List.mem_cons, List.not_mem_nil, or_false] at hw
  rcases hw with rfl | rfl | rfl | rfl | rfl
  · by_cases h0 : o = []
    · subst h0; exact ⟨_, _, .cdNowhere⟩
    · cases hc : w.chdir o with
      | ok u => exact ⟨_, _, .cd h0 hc⟩
      | error k => exact ⟨_, _, .cdFails h0 hc⟩
  · by_cases h1 : o ∈ t!"--history" :: clearingOptions
    · simp only [clearingOptions, List.mem_cons, List.not_mem_nil, or_false] at h1
      rcases h1 with rfl | rfl | h1
      · exact ⟨_, _, .clearHistory⟩
      · exact ⟨_, _, .clearFixities⟩
      · exact ⟨_, _, .clearSession (by simpa using h1)⟩
    · exact ⟨_, _, .clearOther h1⟩
  · by_cases h1 : o ∈ [t!"--clear", t!"--clear --file"]
    · simp only [List.mem_cons, List.not_mem_nil, or_false] at h1
      rcases h1 with rfl | rfl
      · exact ⟨_, _, .forget⟩
      · exact ⟨_, _, .forgetFile⟩
    · by_cases h2 : t!"--set" <+: o
      · obtain ⟨rest, rfl⟩ := h2
        by_cases hr : trim rest = []
        · have : rest = [] := by
            rcases ho with ho | ⟨-, ho⟩
            · simp at ho
            · exact Decidable.byContradiction fun h0 => by
                obtain ⟨r, c, e, hc⟩ := noTrail_append ho h0
                rw [trim_eq_nil.1 hr c (by rw [e]; simp)] at hc
                cases hc
          subst this
          exact ⟨_, _, .setNothing⟩
        · obtain ⟨a, b, e, ha, hb, hl, ht⟩ := says_trim (fun hb => hr (trim_eq_nil.2 hb))
          have hb0 : b = [] := by
            rcases ho with ho | ⟨-, ho⟩
            · simp at ho
            · exact Decidable.byContradiction fun h0 => by
                rw [e, ← List.append_assoc] at ho
                obtain ⟨r, c, e', hc⟩ := noTrail_append ho h0
                rw [hb c (by rw [e']; simp)] at hc
                cases hc
          rw [hb0, List.append_nil] at e
          generalize trim rest = p at *
          subst e
          rw [← List.append_assoc]
          exact ⟨_, _, .set ha hl⟩
      · by_cases h3 : FirstWord t!"--save" o
        · obtain ⟨-, -, pre, rest, e, h4, h5⟩ := h3
          have : pre = [] := by
            rcases ho with ho | ⟨⟨c, r, ho, hc⟩, -⟩
            · rw [ho] at e; simp at e
            · cases pre with
              | nil => rfl
              | cons x pre =>
                rw [ho] at e
                simp only [List.cons_append, List.cons.injEq] at e
                rw [e.1, h4 x (by simp)] at hc
                cases hc
          subst this
          simp only [List.nil_append] at e
          subst e
          by_cases h0 : rest = []
          · subst h0; exact ⟨_, _, .save⟩
          · have hr : trim rest ≠ [] := by
              rcases ho with ho | ⟨-, ho⟩
              · simp at ho
              · obtain ⟨r, c, e, hc⟩ := noTrail_append ho h0
                intro hr
                rw [trim_eq_nil.1 hr c (by rw [e]; simp)] at hc
                cases hc
            obtain ⟨a, b, e, ha, hb, hl, ht⟩ := says_trim (fun hb => hr (trim_eq_nil.2 hb))
            have hb0 : b = [] := by
              rcases ho with ho | ⟨-, ho⟩
              · simp at ho
              · exact Decidable.byContradiction fun h0 => by
                  rw [e, ← List.append_assoc] at ho
                  obtain ⟨r, c, e', hc⟩ := noTrail_append ho h0
                  rw [hb c (by rw [e']; simp)] at hc
                  cases hc
            rw [hb0, List.append_nil] at e
            generalize trim rest = p at *
            subst e
            have ha0 : a ≠ [] := by
              rintro rfl
              obtain ⟨c, r, rfl, hc⟩ := hl
              rw [h5 c rfl] at hc
              cases hc
            rw [← List.append_assoc]
            exact ⟨_, _, .saveTo ha ha0 hl⟩
        · exact ⟨_, _, .historyOther h1 h2 h3⟩
  · by_cases h1 : o ∈ [[], t!"--math", t!"--prelude"]
    · simp only [List.mem_cons, List.not_mem_nil, or_false] at h1
      rcases h1 with rfl | rfl | rfl
      · exact ⟨_, _, .loadNothing⟩
      · exact ⟨_, _, .math⟩
      · exact ⟨_, _, .prelude⟩
    · have h1' := h1
      simp only [List.mem_cons, List.not_mem_nil, or_false, not_or] at h1'
      change loadArg w s o = _ at h
      simp only [loadArg, if_neg h1'.1, if_neg h1'.2.1, if_neg h1'.2.2] at h
      obtain ⟨_, _, hf⟩ := files_exist hn h
      exact ⟨_, _, .files h1 (splitWhitespace_iff.1 rfl) hf⟩
  · cases hs : splitWhitespace o with
    | nil =>
      have : o = [] := by
        rcases ho with ho | ⟨⟨c, r, e, hc⟩, -⟩
        · exact ho
        · have := splitWhitespace_iff.1 hs
          generalize hx : ([] : List Text) = x at this
          cases this with
          | nil hb => rw [e] at hb; rw [hb c (by simp)] at hc; cases hc
          | cons => cases hx
      subst this
      exact ⟨_, _, .shellNothing⟩
    | cons prog args =>
      have := splitWhitespace_iff.1 hs
      cases hc : w.spawn prog args with
      | ok bs => exact ⟨_, _, .shell this hc⟩
      | error k => exact ⟨_, _, .shellFails this hc⟩

end
end Pemdas
