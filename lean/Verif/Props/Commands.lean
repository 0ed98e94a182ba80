import Verif.Props.SessionMore
/-
C126–C129: what the commands `:cd`, `:shell`, `:help`, `:load` and `:clear` do and say.
-/
set_option linter.unusedSectionVars false
namespace Pemdas
open Session Resolver

section
variable [CharTables]

/-! ### C126 -/

private theorem cd_eq (w : World) {s : Session} {line p : Text} (hb : s.buffer = [])
    (h : SaysWith line t!":cd" p) :
    step w s line = .ok (true, s, match w.chdir p with
      | .ok () => [.chdir p]
      | .error k => [.chdir p,
          errLine (t!"could not change current directory to `" ++ p ++ t!"`: " ++ k)]) := by
  obtain ⟨rest, h1, h2, h3, h4⟩ := saysWith_iff.1 h
  have hk : kind (t!":cd" ++ rest) = .cd :=
    (kind_of_word (isPrefix_of_rest (by decide) (by decide) h2)).1 rfl
  rw [step_cmd w h1 ⟨_, rfl⟩ hb, hk]
  simp only [byKind, cmdCd, sliceFrom_ok, bind, Except.bind, h3, if_neg h4]
  cases w.chdir p <;> rfl

private theorem shell_eq (w : World) {s : Session} {line o : Text} {prog : Text} {args : List Text}
    (hb : s.buffer = []) (h : SaysWith line t!":shell" o) (hw : Words o (prog :: args)) :
    step w s line = .ok (true, s, match w.spawn prog args with
      | .ok bs => [.spawn prog args, .bytes bs]
      | .error k => [.spawn prog args, errLine k]) := by
  obtain ⟨rest, h1, h2, h3, h4⟩ := saysWith_iff.1 h
  have hk : kind (t!":shell" ++ rest) = .shell :=
    (kind_of_word (isPrefix_of_rest (by decide) (by decide) h2)).2.2.2.2.2.1 rfl
  have hs : splitWhitespace rest = prog :: args := by
    rw [splitWhitespace_iff, ← Words.trim, h3]; exact hw
  rw [step_cmd w h1 ⟨_, rfl⟩ hb, hk]
  simp only [byKind, cmdShell, sliceFrom_ok, bind, Except.bind, hs]
  cases w.spawn prog args <;> rfl

/-- **C126** `:cd` with a path asks for exactly that path (blanks inside it included) and reports a
failure with the path and the reason; without a path it does nothing. -/
theorem C126_cd (w : World) {s : Session} {line : Text} (hb : s.buffer = []) :
    (∀ p, SaysWith line t!":cd" p → w.chdir p = .ok () → step w s line = .ok (true, s, [.chdir p])) ∧
    (∀ p k, SaysWith line t!":cd" p → w.chdir p = .error k → step w s line = .ok (true, s, [.chdir p,
      .err (t!"could not change current directory to `" ++ p ++ t!"`: " ++ k ++ t!"\n")])) ∧
    (Says line t!":cd" →
      step w s line = .ok (true, s, [.err t!"no directory provided to `:cd` command\n"])) := by
  refine ⟨fun p h hd => ?_, fun p k h hd => ?_, fun h => ?_⟩
  · rw [cd_eq w hb h, hd]
  · rw [cd_eq w hb h, hd]; rfl
  · rw [step_cmd w h ⟨_, rfl⟩ hb]; rfl

/-- **C126** `:shell` starts the program named by the first word with the other words as arguments,
and passes its output on; without a program it does nothing. -/
theorem C126_shell (w : World) {s : Session} {line : Text} (hb : s.buffer = []) :
    (∀ o prog args bs, SaysWith line t!":shell" o → Words o (prog :: args) →
      w.spawn prog args = .ok bs →
      step w s line = .ok (true, s, [.spawn prog args, .bytes bs])) ∧
    (∀ o prog args k, SaysWith line t!":shell" o → Words o (prog :: args) →
      w.spawn prog args = .error k →
      step w s line = .ok (true, s, [.spawn prog args, .err (k ++ t!"\n")])) ∧
    (Says line t!":shell" → step w s line = .ok (true, s,
      [.err t!"no command provided to `:shell/:sh` command\n", .err t!"USAGE: :shell CMD <ARG>*\n"])) := by
  refine ⟨fun o prog args bs h hw hd => ?_, fun o prog args k h hw hd => ?_, fun h => ?_⟩
  · rw [shell_eq w hb h hw, hd]
  · rw [shell_eq w hb h hw, hd]; rfl
  · rw [step_cmd w h ⟨_, rfl⟩ hb]; rfl

/-- **C126, the message is wrong**: it offers `:sh`, which is not a command. -/
theorem C126_sh_wrong (w : World) {s : Session} {line : Text} (hb : s.buffer = [])
    (h : Says line t!":sh") :
    step w s line = .ok (true, s, [.err t!"unknown command: `:sh`\n"]) := by
  rw [step_cmd w h ⟨_, rfl⟩ hb]
  have : ({ s with buffer := [] } : Session) = s := by cases s; simp only at hb; rw [hb]
  show Except.ok (true, ({ s with buffer := [] } : Session), _) = _
  rw [this]; rfl

/-! ### C127 -/

private theorem clear_eq (w : World) {s : Session} {line o : Text} (hb : s.buffer = [])
    (h : SaysWith line t!":clear" o) : step w s line = .ok (true, clearOpt s o) := by
  obtain ⟨rest, h1, h2, h3, h4⟩ := saysWith_iff.1 h
  have hk : kind (t!":clear" ++ rest) = .clear :=
    (kind_of_word (isPrefix_of_rest (by decide) (by decide) h2)).2.2.1 rfl
  obtain ⟨rest', e1, e2, e3⟩ := cmdClear_eq (s := s) (says_lead h1) hk
  have : rest' = rest := List.append_cancel_left e1.symm
  subst this
  rw [step_cmd w h1 ⟨_, rfl⟩ hb, hk]
  simp only [byKind, e3, h3]

/-- The commands announced by the lines of a help text: the words starting with a colon in the
lines that are indented by four blanks, without a comma. -/
def announced (ls : List Text) : List Text :=
  (ls.filter fun l => startsWith l t!"    :").flatMap fun l =>
    ((splitWhitespace l).filter fun u => startsWith u t!":").map fun u => u.filter (· ≠ ',')

/-- **C127** `:help`, `:h` and `:?` print the help text and change nothing. -/
theorem C127_help (w : World) {s : Session} {line c : Text} (hb : s.buffer = [])
    (hc : c ∈ [t!":help", t!":h", t!":?"]) (h : Says line c) :
    step w s line = .ok (true, s, [.out (helpMsg ++ t!"\n")]) := by
  have hk : kind c = .help ∧ t!":" <+: c := by
    simp only [List.mem_cons, List.not_mem_nil, or_false] at hc
    rcases hc with rfl | rfl | rfl <;> decide
  rw [step_cmd w h hk.2 hb, hk.1]; rfl

/-- **C127** (partial) The help text announces all commands. Missing: that it announces nothing
else; it also announces `:save`, see below. -/
theorem C127_announced_partial :
    ∃ ls, LinesOf ls helpMsg ∧ (∀ c, c ∈ announced ls ↔ c ∈ commandWords ∨ c = t!":save") := by
  refine ⟨helpLines ++ [[]], ⟨by decide +kernel, by decide +kernel⟩, ?_⟩
  have h1 : ∀ c ∈ announced (helpLines ++ [[]]), c ∈ commandWords ++ [t!":save"] := by
    decide +kernel
  have h2 : ∀ c ∈ commandWords ++ [t!":save"], c ∈ announced (helpLines ++ [[]]) := by
    decide +kernel
  exact fun c => ⟨fun h => by simpa using h1 c h, fun h => h2 c (by simpa using h)⟩

/-- **C127 fails**: `:save`, which the help text announces, is not a command, and
`--fixities history`, which it announces as a way to write `--session`, is refused. -/
theorem C127_announced_wrong [LawfulTables] (w : World) {s : Session} {line : Text} (hb : s.buffer = []) :
    (∀ p, SaysWith line t!":save" p → ∃ c, Says line c ∧
      step w s line = .ok (true, s, [.err (t!"unknown command: `" ++ c ++ t!"`\n")])) ∧
    (SaysWith line t!":clear" t!"--fixities history" →
      step w s line = .ok (true, s,
        [.err t!"unknown option(s) passed to command `:clear`: --fixities history\n"])) ∧
    (∃ ls, LinesOf ls helpMsg ∧
      t!"                            `--fixities history` or `--history --fixities`)" ∈ ls) := by
  refine ⟨fun p h => ?_, fun h => ?_, helpLines ++ [[]], ⟨by decide +kernel, by decide +kernel⟩,
    by decide +kernel⟩
  · obtain ⟨rest, h1, h2, -, -⟩ := saysWith_iff.1 h
    refine ⟨_, h1, C77_unknown_command w hb h1 ⟨_, rfl⟩ fun q hq hf => ?_⟩
    have hp : isPrefix t!":save" (t!":save" ++ rest) = true :=
      isPrefix_of_rest (by decide) (by decide) h2
    have := (C65_is_prefix _ _).2 hf
    rw [isPrefix_other hp, decide_eq_true_eq] at this
    subst this
    exact absurd hq (by decide)
  · rw [clear_eq w hb h]; rfl

/-! ### C128 -/

private theorem load_eq (w : World) {s : Session} {line o : Text} (hb : s.buffer = [])
    (h : SaysWith line t!":load" o) : step w s line = (loadArg w s o).map (true, ·) := by
  obtain ⟨rest, h1, h2, h3, h4⟩ := saysWith_iff.1 h
  have hk : kind (t!":load" ++ rest) = .load :=
    (kind_of_word (isPrefix_of_rest (by decide) (by decide) h2)).2.2.2.2.1 rfl
  obtain ⟨rest', e1, e2, e3⟩ := cmdLoad_eq (w := w) (s := s) (says_lead h1) hk
  have : rest' = rest := List.append_cancel_left e1.symm
  subst this
  rw [step_cmd w h1 ⟨_, rfl⟩ hb, hk]
  simp only [byKind, e3, h3]

/-- **C128** Loading built-in fixities reports a number of fixities and gives the listed operators
their fixities; `:load` without argument does nothing. (The numbers: 8 operators are listed for
arithmetic, but 24 for the prelude, see C19.) -/
theorem C128_builtin (w : World) {s : Session} {line : Text} (hb : s.buffer = []) :
    (SaysWith line t!":load" t!"--prelude" → ∃ r, step w s line = .ok (true, { s with resolver := r },
        [.out t!"loaded 23 fixities from Haskell prelude\n"]) ∧
      r.errors = s.resolver.errors ∧
      ∀ op, r.fixities.getDefined op =
        (haskellFixities.lookup op.symbol).or (s.resolver.fixities.getDefined op)) ∧
    (SaysWith line t!":load" t!"--math" → ∃ r, step w s line = .ok (true, { s with resolver := r },
        [.out t!"loaded 8 fixities for arithmetic operators\n"]) ∧
      r.errors = s.resolver.errors ∧
      ∀ op, r.fixities.getDefined op =
        if op.symbol ∈ [t!"^", t!"^^", t!"**"] then some ⟨8, .right⟩
        else if op.symbol ∈ [t!"+", t!"-", t!"*", t!"/", t!"%"] then some ⟨6, .left⟩
        else s.resolver.fixities.getDefined op) ∧
    (Says line t!":load" → step w s line = .ok (true, s,
      [.err t!"`:load` command missing option/argument\n"])) := by
  refine ⟨fun h => ⟨_, load_eq w hb h, loadHsPrelude_errors _, C19_prelude_fixities _⟩,
    fun h => ⟨_, load_eq w hb h, loadArithmetic_errors _, C18_math_partial _⟩, fun h => ?_⟩
  · rw [step_cmd w h ⟨_, rfl⟩ hb]; rfl

/-- One file to load. -/
private theorem load_one (w : World) {s : Session} {line word p : Text} (hb : s.buffer = [])
    (h : SaysWith line t!":load" word) (hw : ∀ c ∈ word, isWhitespace c = false)
    (h1 : word ≠ t!"--math") (h2 : word ≠ t!"--prelude") (ho : Opens word p) :
    step w s line = (readFile w s p).map (true, ·) := by
  have h4 : word ≠ [] := (saysWith_iff.1 h).elim fun _ h => h.2.2.2
  have hws : splitWhitespace word = [word] := by
    rw [splitWhitespace_iff]
    simpa using Words.cons (a := []) (rest := []) (ws := []) (by simp [Blank]) h4 hw (by simp)
      (.nil (by simp [Blank]))
  rw [load_eq w hb h]
  simp only [loadArg, if_neg h4, if_neg h1, if_neg h2, hws, loadPaths, unquote_opens.2 ho, bind,
    Except.bind]
  cases readFile w s p with
  | error e => rfl
  | ok x => simp [Except.map]

/-- **C128** Loading a file that cannot be read reports its path and the reason, and changes
nothing. -/
theorem C128_unreadable (w : World) {s : Session} {line word p k : Text} (hb : s.buffer = [])
    (h : SaysWith line t!":load" word) (hw : ∀ c ∈ word, isWhitespace c = false)
    (h1 : word ≠ t!"--math") (h2 : word ≠ t!"--prelude") (ho : Opens word p)
    (hr : w.readFile p = .error k) :
    step w s line = .ok (true, s, [.read p, .err (t!"unable to read `" ++ p ++ t!"`\n"),
      .err (k ++ t!"\n")]) := by
  rw [load_one w hb h hw h1 h2 ho]
  simp only [readFile, hr]; rfl

/-- **C128** Loading a file that is accepted reports how many declarations of fixities it has and
lists what they declare. -/
theorem C128_file [LawfulTables] (w : World) {s : Session} {line word p content t : Text} {ast a : Ast}
    {l : Lexer} {r : Resolver} (hb : s.buffer = [])
    (h : SaysWith line t!":load" word) (hw : ∀ c ∈ word, isWhitespace c = false)
    (h1 : word ≠ t!"--math") (h2 : word ≠ t!"--prelude") (ho : Opens word p)
    (hr : w.readFile p = .ok content) (ht : FileText p content t) (hp : parse t = .ok ast l)
    (hres : (s.resolver.loadFixities ast).resolveAst ast = .ok (r, a, [])) :
    ∃ text, step w s line = .ok (true, { s with resolver := r }, [.read p,
        .out (decText ast.infxs.length ++ t!" fixities read from `" ++ p ++ t!"`\n"),
        .out (text ++ t!"\n")]) ∧
      text = listingSent (declared ast.infxs) ∧
      ((∀ e ∈ declared ast.infxs, '\x1b' ∉ e.1.text) →
        Term.visible text = listing (declared ast.infxs)) := by
  rw [load_one w hb h hw h1 h2 ho]
  rw [fileText_iff] at ht
  subst ht
  have hi : a.infxs = ast.infxs := (resolveAst_shape hres).2.1
  refine ⟨Printer.writeFixities (declared ast.infxs), ?_, C49_sent _, C49_listing _⟩
  simp only [readFile, hr, feedInput, hp, hres, hi]
  rfl

private theorem tag_eq : SessionError.tag = t!"\x1b[31m[Error]:\x1b[0m " := by decide

private theorem blue_eq (t : Text) :
    (Style.ansi .blue t).display = t!"\x1b[34m" ++ t ++ t!"\x1b[0m" := by
  have e1 : (Style.ansi .blue []).config.writeStart = t!"\x1b[34m" := by decide
  have e2 : (Style.ansi .blue []).config.writeEnd = t!"\x1b[0m" := by decide
  rw [← e1, ← e2]; rfl

/-- **C128** Loading a file that is rejected reports why, with the path of the file, on the standard
output. -/
theorem C128_rejected (w : World) {s : Session} {line word p content t : Text} (hb : s.buffer = [])
    (h : SaysWith line t!":load" word) (hw : ∀ c ∈ word, isWhitespace c = false)
    (h1 : word ≠ t!"--math") (h2 : word ≠ t!"--prelude") (ho : Opens word p)
    (hr : w.readFile p = .ok content) (ht : FileText p content t) :
    (∀ e l m, parse t = .err e l → e.textWithoutLoc = .ok m → step w s line = .ok (true, s, [.read p,
      .out (t!"\x1b[31m[Error]:\x1b[0m  \x1b[34m(" ++ p ++ t!":" ++ decText e.loc.line ++ t!":" ++
        decText e.loc.col ++ t!") \x1b[0m" ++ m ++ t!"\n")])) ∧
    (∀ ast a l r es, parse t = .ok ast l →
      (s.resolver.loadFixities ast).resolveAst ast = .ok (r, a, es) → es ≠ [] →
      step w s line = .ok (true, { s with resolver := r }, [.read p,
        .out (t!"\x1b[31m[Error]:\x1b[0m \x1b[34m(" ++ p ++ t!")\x1b[0m" ++
          (es.map fun e => t!"\n  " ++ e.text).flatten ++ t!"\n")])) := by
  rw [load_one w hb h hw h1 h2 ho]
  rw [fileText_iff] at ht
  subst ht
  constructor
  · intro e l m hp hm
    simp only [readFile, hr, feedInput, hp, SessionError.textWithPath, hm, bind, Except.bind,
      Except.map, tag_eq, blue_eq, List.append_assoc, List.cons_append, List.nil_append]
  · intro ast a l r es hp hres hes
    cases es with
    | nil => exact absurd rfl hes
    | cons e es =>
      simp only [readFile, hr, feedInput, hp, hres, SessionError.textWithPath, Except.map, tag_eq, blue_eq,
        SessionError.lines, List.append_assoc, List.cons_append, List.nil_append]

/-! ### C129 -/

/-- **C129** (partial) `:clear` and `:history` refuse what they do not know: nothing is changed,
and the option is reported. `:clear --history` only forgets the history. Missing: the unknown
options of `:history` that begin with `--set`, which are not refused (`C129_set_wrong`). -/
theorem C129_options_partial [LawfulTables] (w : World) {s : Session} {line : Text} (hb : s.buffer = []) :
    (SaysWith line t!":clear" t!"--history" →
      step w s line = .ok (true, s, [.clearHistory, .out t!"session history cleared\n"])) ∧
    (∀ o, SaysWith line t!":clear" o → o ∉ t!"--history" :: clearingOptions →
      step w s line = .ok (true, s,
        [.err (t!"unknown option(s) passed to command `:clear`: " ++ o ++ t!"\n")])) ∧
    (Says line t!":clear" →
      step w s line = .ok (true, s, [.err t!"unknown option(s) passed to command `:clear`: \n"])) ∧
    (∀ o, SaysWith line t!":history" o → o ∉ [t!"--clear", t!"--clear --file"] →
      ¬ t!"--set" <+: o → ¬ FirstWord t!"--save" o →
      step w s line = .ok (true, s,
        [.err (t!"invalid option/argument to `:history` command: `" ++ o ++ t!"`\n"),
         .err t!"USAGE:\n  :history --clear\n  :history --set <path>\n  :history --save [<path>]\n"])) ∧
    (Says line t!":history" → step w s line = .ok (true, s,
        [.err t!"invalid option/argument to `:history` command: ``\n",
         .err t!"USAGE:\n  :history --clear\n  :history --set <path>\n  :history --save [<path>]\n"])) ∧
    (SaysWith line t!":history" t!"--set" → step w s line = .ok (true, s,
        [.err t!"no filepath provided for command `:history --set`\n"])) := by
  refine ⟨fun h => ?_, fun o h ho => ?_, fun h => ?_, fun o h ho h1 h2 => ?_, fun h => ?_, fun h => ?_⟩
  · rw [clear_eq w hb h]; rfl
  · rw [clear_eq w hb h]
    simp only [clearingOptions, List.mem_cons, List.not_mem_nil, or_false, not_or] at ho
    unfold clearOpt
    rw [if_neg ho.1, if_neg ho.2.1, if_neg (by simpa using ho.2.2)]
    rfl
  · rw [step_cmd w h ⟨_, rfl⟩ hb]; rfl
  · rw [history_eq w hb h]
    simp only [List.mem_cons, List.not_mem_nil, or_false, not_or] at ho
    unfold historyOpt
    rw [if_neg ho.1, if_neg ho.2, if_neg (fun h => h1 (startsWith_iff.1 h)),
      if_neg (fun h => h2 ((C65_is_prefix _ _).1 h))]
    simp only [Except.map, errLine, List.append_assoc]
    rfl
  · rw [step_cmd w h ⟨_, rfl⟩ hb]; rfl
  · rw [history_eq w hb h]; rfl

/-! ### C132 -/

/-- **C132** A line that cannot be read is reported, and the session goes on as if it had not been
there. -/
theorem C132_reading_error (w : World) (s : Session) (e : Text) (ins : List (World × Input)) :
    run s ((w, .error e) :: ins) =
      (run s ins).map fun x => (x.1, x.2.1, .err (t!"Error: " ++ e ++ t!"\n") :: x.2.2) := by
  show (run s ins >>= fun x => _) = _
  cases run s ins <;> rfl

end

/-- **C132** Starting a session complains exactly when the directory for the history cannot be where it
should: the variable `HOME` is not set, or there is something else in the place of the directory. -/
theorem C132_start_warnings (fs : FileSystem) (home : Option Text) :
    (Session.new fs home).2 = match home with
      | none => [.err t!"environment variable HOME is not set\n",
          .err t!"defaulting to current directory\n"]
      | some h =>
        if fs.exists_ (pathJoin h t!".pemdas") = true ∧ fs.isDir (pathJoin h t!".pemdas") = false then
          [.err t!"`/.pemdas` exists but is not a directory!\n",
            .err t!"defaulting to current directory\n"]
        else [] := by
  have key : (Session.new fs home).2 = (tryCfgDir fs home).2 := by
    unfold Session.new tryHistoryPath
    rcases tryCfgDir fs home with ⟨_ | d, fx⟩
    · rfl
    · simp only
      split
      · rfl
      · split <;> rfl
  rw [key]
  cases home with
  | none => rfl
  | some h =>
    simp only [tryCfgDir]
    cases h1 : fs.exists_ (pathJoin h t!".pemdas") <;> cases h2 : fs.isDir (pathJoin h t!".pemdas") <;>
      cases h3 : fs.createDir (pathJoin h t!".pemdas") <;> simp [errLine]

end Pemdas
