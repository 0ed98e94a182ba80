import Verif.Props.SessionCmds
/-
C75–C80: leaving, the history, unknown commands, the prompt, the start, and what holds of the
fixities of every session.
-/
set_option linter.unusedSectionVars false
namespace Pemdas
open Session Resolver

section
variable [CharTables] [LawfulTables]

/-! ### C75 -/

/-- **C75** A quit command saves the history to the session's path and says goodbye; with
`--no-history` it only says goodbye. -/
theorem C75_quit_saves (w : World) {s : Session} {line c : Text} (hb : s.buffer = [])
    (h : Says line c) :
    (c ∈ [t!":q", t!":quit"] →
      step w s line = .ok (false, s, [.saveHistory s.historyPath, .out t!"exiting Pemdas REPL\n"])) ∧
    (c ∈ [t!":q --no-history", t!":quit --no-history"] →
      step w s line = .ok (false, s, [.out t!"exiting Pemdas REPL\n"])) := by
  constructor <;> intro hc <;> simp only [List.mem_cons, List.not_mem_nil, or_false] at hc
  · rw [step_quit w hb (by rcases hc with rfl | rfl <;> decide) h]
    rcases hc with rfl | rfl <;> rfl
  · rw [step_quit w hb (by rcases hc with rfl | rfl <;> decide) h]
    rcases hc with rfl | rfl <;> rfl

/-- **C75 does not extend** to leaving with the end of input or an interrupt: the history is not
saved then. -/
theorem C75_eof_does_not_save (w : World) (s : Session) (ins : List (World × Input)) :
    run s ((w, .eof) :: ins) = .ok (false, s, []) ∧
    run s ((w, .interrupted) :: ins) = .ok (false, s, []) := ⟨rfl, rfl⟩

/-! ### C76 -/

theorem history_eq (w : World) {s : Session} {line o : Text} (hb : s.buffer = [])
    (h : SaysWith line t!":history" o) :
    step w s line = (historyOpt s o).map (true, ·) := by
  obtain ⟨rest, h1, h2, h3, h4⟩ := saysWith_iff.1 h
  have hk : kind (t!":history" ++ rest) = .history :=
    (kind_of_word (isPrefix_of_rest (by decide) (by decide) h2)).2.2.2.1 rfl
  obtain ⟨rest', e1, e2, e3⟩ := cmdHistory_eq (s := s) (says_lead h1) hk
  have : rest' = rest := List.append_cancel_left e1.symm
  subst this
  rw [step_cmd w h1 ⟨_, rfl⟩ hb, hk]
  simp only [byKind, e3, h3]

theorem trim_of_arg {b p : Text} (hb : Blank b) (h1 : NoLead p) (h2 : NoTrail p) : trim (b ++ p) = p :=
  Says.trim ⟨b, [], by simp, hb, by simp [Blank], h1, h2⟩

/-- **C76** `:history --clear` forgets the history; with `--file` it also overwrites the history
file. -/
theorem C76_clear (w : World) {s : Session} {line : Text} (hb : s.buffer = []) :
    (SaysWith line t!":history" t!"--clear" →
      step w s line = .ok (true, s, [.clearHistory, .out t!"session history cleared\n"])) ∧
    (SaysWith line t!":history" t!"--clear --file" →
      step w s line = .ok (true, s, [.clearHistory, .saveHistory s.historyPath,
        .out t!"session history and file cleared\n"])) := by
  constructor <;> intro h <;> rw [history_eq w hb h] <;> rfl

/-- **C76** `:history --set <path>` makes later saves go to that path. -/
theorem C76_set (w : World) {s : Session} {line b p : Text} (hb : s.buffer = [])
    (h : SaysWith line t!":history" (t!"--set" ++ b ++ p)) (h1 : Blank b) (h2 : NoLead p) :
    step w s line = .ok (true, { s with historyPath := p },
      [.out (t!"session history filepath changed to\n  " ++ p ++ t!"\n")]) := by
  have h3 : NoTrail p := by
    obtain ⟨b', hs, -⟩ := h
    obtain ⟨_, _, _, _, _, _, ht⟩ := hs
    rw [← List.append_assoc] at ht
    exact noTrail_append ht (by obtain ⟨c, r, rfl, -⟩ := h2; simp)
  have hp : p ≠ [] := by obtain ⟨c, r, rfl, -⟩ := h2; simp
  rw [history_eq w hb h]
  unfold historyOpt
  rw [if_neg, if_neg, if_pos]
  · unfold historySet
    rw [List.append_assoc, sliceFrom_ok]
    simp only [bind, Except.bind, trim_of_arg h1 h2 h3, if_neg hp]
    simp [Except.map, sayLine]
  · rw [startsWith_iff]; exact ⟨b ++ p, by simp⟩
  · simp
  · simp

/-- **C76** `:history --save` writes the history to the session's path. -/
theorem C76_save_partial (w : World) {s : Session} {line : Text} (hb : s.buffer = [])
    (h : SaysWith line t!":history" t!"--save") :
    step w s line = .ok (true, s, [.saveHistory s.historyPath,
      .out (t!"session history written to file located at\n  " ++ s.historyPath ++ t!"\n")]) := by
  rw [history_eq w hb h]
  have : historyOpt s t!"--save" = historySave s t!"--save" := by
    unfold historyOpt
    rw [if_neg (by decide), if_neg (by decide), if_neg (by decide), if_pos (by decide)]
  rw [this]
  unfold historySave
  simp [Except.map, sayLine]

/-- **C76 is false**: `:history --save <path>` writes the history to the path, but reports that it
was written to the session's path. -/
theorem C76_save_to_wrong (w : World) {s : Session} {line b p : Text} (hb : s.buffer = [])
    (h : SaysWith line t!":history" (t!"--save" ++ b ++ p)) (h1 : Blank b) (h0 : b ≠ []) (h2 : NoLead p) :
    step w s line = .ok (true, s, [.saveHistory p,
      .out (t!"session history written to file located at\n  " ++ s.historyPath ++ t!"\n")]) := by
  have h3 : NoTrail p := by
    obtain ⟨b', hs, -⟩ := h
    obtain ⟨_, _, _, _, _, _, ht⟩ := hs
    rw [← List.append_assoc] at ht
    exact noTrail_append ht (by obtain ⟨c, r, rfl, -⟩ := h2; simp)
  have hp : p ≠ [] := by obtain ⟨c, r, rfl, -⟩ := h2; simp
  rw [history_eq w hb h]
  have e : historyOpt s (t!"--save" ++ b ++ p) = historySave s (t!"--save" ++ b ++ p) := by
    unfold historyOpt
    rw [if_neg, if_neg, if_neg, if_pos]
    · rw [List.append_assoc]
      refine isPrefix_of_rest (by decide) (by decide) ?_
      cases b with
      | nil => exact absurd rfl h0
      | cons c r =>
        intro x hx
        simp only [List.cons_append, List.head?_cons, Option.some.injEq] at hx
        exact hx ▸ h1 c (by simp)
    · rw [startsWith_iff]
      rintro ⟨t, ht⟩
      simp at ht
    · simp
    · simp
  have hl : utf8Len (t!"--save" ++ b ++ p) ≠ utf8Len t!"--save" := by
    have : 0 < utf8Len b := by
      cases b with
      | nil => exact absurd rfl h0
      | cons c r =>
        have := Char.utf8Size_pos c
        rw [utf8Len_cons]; omega
    rw [List.append_assoc, utf8Len_append, utf8Len_append]
    omega
  rw [e]
  unfold historySave
  rw [List.append_assoc] at hl ⊢
  simp only [if_neg hl, sliceFrom_ok, bind, Except.bind, trim_of_arg h1 h2 h3]
  simp [Except.map, sayLine]

/-! ### C77 -/

/-- The first words of commands. -/
def commandWords : List Text :=
  [t!":cd", t!":help", t!":h", t!":?", t!":q", t!":quit", t!":clear", t!":history", t!":reset", t!":r",
   t!":info", t!":i", t!":fixities", t!":load", t!":shell"]

/-- **C77** A line starting with a colon whose first word is no command changes nothing and is
reported. -/
theorem C77_unknown_command (w : World) {s : Session} {line c : Text} (hb : s.buffer = [])
    (h : Says line c) (hc : t!":" <+: c) (hw : ∀ p ∈ commandWords, ¬ FirstWord p c) :
    step w s line = .ok (true, s, [.err (t!"unknown command: `" ++ c ++ t!"`\n")]) := by
  have hk : kind c = .unknown := Decidable.byContradiction fun hk => by
    obtain ⟨⟨p, hp, h1⟩, -⟩ := kind_word hk
    refine hw p ?_ ((C65_is_prefix _ _).1 h1)
    have : ∀ k, ∀ q ∈ kindWords k, q ∈ commandWords := by intro k; cases k <;> decide
    exact this _ _ hp
  rw [step_cmd w h hc hb, hk]
  have : ({ s with buffer := [] } : Session) = s := by cases s; simp only at hb; rw [hb]
  simp only [byKind, this, errLine]
  simp

/-! ### C78 -/

/-- **C78** (partial) What a line does to the prompt: an opening brace (without closing brace)
switches to the continuation prompt, a line that is to be continued or that ends an input switches
back, all others keep it. Missing: that the continuation prompt is shown exactly while input is
pending, which is false, see below. -/
theorem C78_prompt_partial {w : World} {s s' : Session} {line : Text} {b : Bool} {fx : List Effect}
    (h : step w s line = .ok (b, s', fx)) :
    ((∃ n body, Says line (List.replicate (n + 1) '{' ++ body) ∧ ¬ t!"{" <+: body ∧
        ¬ t!"}" <:+ body ∧ ¬ t!"\\" <:+ body) → s'.prompt = .continued) ∧
    (((∃ add, Continues line add) ∨ ∃ body, Ends line body) → s'.prompt = .initial) ∧
    ((Blank line ∨ (∃ c, Says line c ∧ t!":" <+: c) ∨ ∃ body, Block line body) →
      s'.prompt = s.prompt) := by
  refine ⟨?_, ?_, ?_⟩
  · rintro ⟨n, body, h1, h2, h3, h4⟩
    rw [step_open w s h1 h2 h3 h4] at h
    cases h; rfl
  · rintro (⟨add, ha⟩ | ⟨body, hb⟩)
    · rw [step_continues w s ha] at h; cases h; rfl
    · rw [step_plain w s hb] at h
      rw [(process_applies h).2.2.1]
      simp only
      cases s.prompt <;> rfl
  · rintro (hb | ⟨c, hs, hc⟩ | ⟨body, hb⟩)
    · rw [step_blank w s hb] at h; cases h; rfl
    · by_cases hbuf : s.buffer = []
      · rw [step_cmd w hs hc hbuf] at h
        exact (command_applies hs hbuf h).2.1
      · rw [step_says w s hs, if_pos (startsWith_iff.2 hc), if_neg hbuf] at h
        cases h; rfl
    · rw [step_block w s hb] at h
      exact (process_applies h).2.2.1

/-- Every line is of one of these kinds. -/
theorem C78_kinds_of_lines (line : Text) :
    (∃ n body, Says line (List.replicate (n + 1) '{' ++ body) ∧ ¬ t!"{" <+: body ∧
        ¬ t!"}" <:+ body ∧ ¬ t!"\\" <:+ body) ∨
    ((∃ add, Continues line add) ∨ ∃ body, Ends line body) ∨
    (Blank line ∨ (∃ c, Says line c ∧ t!":" <+: c) ∨ ∃ body, Block line body) := by
  rcases line_cases line with h | h | h | h | h | h
  · exact .inr (.inr (.inl h))
  · exact .inr (.inr (.inr (.inl h)))
  · exact .inr (.inl (.inl h))
  · exact .inr (.inl (.inr h))
  · exact .inr (.inr (.inr (.inr h)))
  · exact .inl h

/-! ### C79 -/

/-- The directory for the history file, if there is one. -/
inductive CfgDir (fs : FileSystem) : Option Text → Text → Prop where
  | home {h} : (fs.exists_ (pathJoin h t!".pemdas") = true → fs.isDir (pathJoin h t!".pemdas") = true) →
      (fs.exists_ (pathJoin h t!".pemdas") = false → fs.createDir (pathJoin h t!".pemdas") = true) →
      CfgDir fs (some h) (pathJoin h t!".pemdas")
  | noDir {h} : fs.exists_ (pathJoin h t!".pemdas") = true →
      fs.isDir (pathJoin h t!".pemdas") = false → CfgDir fs (some h) t!"."
  | noHome : CfgDir fs none t!"."

/-- **C79** A session can always be started, with nothing declared and nothing pending. Its history
goes to `.history` in the directory `.pemdas` of the home directory, or in the current directory if
there is no home directory or `.pemdas` is not a directory; the path is empty iff that directory or
the file cannot be created. -/
theorem C79_start (fs : FileSystem) (home : Option Text) :
    (Session.new fs home).1.resolver = ⟨[], []⟩ ∧ (Session.new fs home).1.buffer = [] ∧
    (Session.new fs home).1.prompt = .initial ∧
    ((∃ d, CfgDir fs home d ∧ (Session.new fs home).1.historyPath = d ++ t!"/.history" ∧
        (fs.exists_ (d ++ t!"/.history") = true ∨ fs.createFile (d ++ t!"/.history") = true)) ∨
     ((Session.new fs home).1.historyPath = [] ∧
        ((∀ d, ¬ CfgDir fs home d) ∨ ∃ d, CfgDir fs home d ∧ fs.exists_ (d ++ t!"/.history") = false ∧
          fs.createFile (d ++ t!"/.history") = false))) := by
  refine ⟨rfl, rfl, rfl, ?_⟩
  have hj : ∀ h : Text, pathJoin (pathJoin h t!".pemdas") t!".history" =
      pathJoin h t!".pemdas" ++ t!"/.history" := by
    intro h
    have h1 : (pathJoin h t!".pemdas").getLast? = some 's' := by
      unfold pathJoin
      split
      · rfl
      · split
        · rw [List.getLast?_append]; rfl
        · rw [List.getLast?_append]; rfl
    have h2 : pathJoin h t!".pemdas" ≠ [] := by intro h; rw [h] at h1; cases h1
    rw [pathJoin, if_neg h2, if_neg (by rw [h1]; decide), List.append_assoc]
    rfl
  have key : ∀ d, tryCfgDir fs home = (some d, (tryCfgDir fs home).2) →
      pathJoin d t!".history" = d ++ t!"/.history" → CfgDir fs home d →
      ((∃ d, CfgDir fs home d ∧ (Session.new fs home).1.historyPath = d ++ t!"/.history" ∧
        (fs.exists_ (d ++ t!"/.history") = true ∨ fs.createFile (d ++ t!"/.history") = true)) ∨
       ((Session.new fs home).1.historyPath = [] ∧
        ((∀ d, ¬ CfgDir fs home d) ∨ ∃ d, CfgDir fs home d ∧ fs.exists_ (d ++ t!"/.history") = false ∧
          fs.createFile (d ++ t!"/.history") = false))) := by
    intro d h1 h2 h3
    unfold Session.new tryHistoryPath
    rw [h1]
    simp only [h2]
    by_cases hx : fs.exists_ (d ++ t!"/.history") = true
    · rw [if_pos hx]; exact .inl ⟨d, h3, rfl, .inl hx⟩
    · rw [if_neg hx]
      by_cases hy : fs.createFile (d ++ t!"/.history") = true
      · rw [if_pos hy]; exact .inl ⟨d, h3, rfl, .inr hy⟩
      · rw [if_neg hy]
        exact .inr ⟨rfl, .inr ⟨d, h3, by simpa using hx, by simpa using hy⟩⟩
  cases home with
  | none => exact key t!"." rfl rfl .noHome
  | some h =>
    by_cases h1 : fs.exists_ (pathJoin h t!".pemdas") = true
    · by_cases h2 : fs.isDir (pathJoin h t!".pemdas") = true
      · refine key _ ?_ (hj h) (.home (fun _ => h2) (fun h' => by rw [h1] at h'; cases h'))
        unfold tryCfgDir; simp only [if_pos h1, if_pos h2]
      · refine key t!"." ?_ rfl (.noDir h1 (by simpa using h2))
        unfold tryCfgDir; simp only [if_pos h1, if_neg h2]
    · by_cases h2 : fs.createDir (pathJoin h t!".pemdas") = true
      · refine key _ ?_ (hj h) (.home (fun h' => absurd h' h1) (fun _ => h2))
        unfold tryCfgDir; simp only [if_neg h1, if_pos h2]
      · right
        refine ⟨?_, .inl ?_⟩
        · unfold Session.new tryHistoryPath tryCfgDir
          simp only [if_neg h1, if_neg h2]
          rfl
        · intro d hd
          cases hd with
          | home _ h4 => exact h2 (h4 (by simpa using h1))
          | noDir h3 => exact h1 h3

/-! ### C80 -/

/-- No operator has two entries and the precedences are from 0 to 9. -/
def GoodTable (m : Fixities) : Prop :=
  m.Pairwise (fun a b => a.1.symbol ≠ b.1.symbol) ∧ ∀ e ∈ m, e.2.prec ≤ 9

theorem good_insert {m : Fixities} (h : ∀ e ∈ m, e.2.prec ≤ 9) (op : Infix) {fx : Fixity} (hfx : fx.prec ≤ 9) :
    (∀ e ∈ (m.insert op fx).2, e.2.prec ≤ 9) ∧ ∀ v, (m.insert op fx).1 = some v → v.prec ≤ 9 := by
  induction m with
  | nil =>
    refine ⟨?_, fun v hv => by cases hv⟩
    intro e he
    simp only [Fixities.insert, List.mem_singleton] at he
    rw [he]; exact hfx
  | cons x m ih =>
    obtain ⟨k, v⟩ := x
    obtain ⟨i1, i2⟩ := ih fun e he => h e (by simp [he])
    unfold Fixities.insert
    by_cases hk : k.symbol = op.symbol
    · rw [if_pos hk]
      refine ⟨?_, ?_⟩
      · intro e he
        rcases List.mem_cons.1 he with rfl | he
        · exact hfx
        · exact h e (by simp [he])
      · intro v' hv
        simp only [Option.some.injEq] at hv
        exact hv ▸ h (k, v) (by simp)
    · rw [if_neg hk]
      refine ⟨?_, i2⟩
      intro e he
      rcases List.mem_cons.1 he with rfl | he
      · exact h (k, v) (by simp)
      · exact i1 e he

theorem good_remove {m : Fixities} (h : ∀ e ∈ m, e.2.prec ≤ 9) (op : Infix) :
    ∀ e ∈ (m.remove op).2, e.2.prec ≤ 9 := by
  induction m with
  | nil => intro e he; cases he
  | cons x m ih =>
    obtain ⟨k, v⟩ := x
    unfold Fixities.remove
    by_cases hk : k.symbol = op.symbol
    · rw [if_pos hk]; exact fun e he => h e (by simp [he])
    · rw [if_neg hk]
      intro e he
      rcases List.mem_cons.1 he with rfl | he
      · exact h (k, v) (by simp)
      · exact ih (fun e he => h e (by simp [he])) e he

theorem good_insertMany {m : Fixities} (h : ∀ e ∈ m, e.2.prec ≤ 9) {fx : Fixity} (hfx : fx.prec ≤ 9)
    (ops : List Infix) : ∀ e ∈ m.insertMany fx ops, e.2.prec ≤ 9 := by
  induction ops generalizing m with
  | nil => exact h
  | cons op ops ih => exact ih (good_insert h op hfx).1

theorem good_insertLocal {m : Fixities} (h : ∀ e ∈ m, e.2.prec ≤ 9) {fx : Fixity} (hfx : fx.prec ≤ 9)
    (ops : List Infix) : ∀ x ∈ (insertLocal fx ops m).1, ∀ v, x.2 = some v → v.prec ≤ 9 := by
  induction ops generalizing m with
  | nil => intro x hx; cases hx
  | cons op ops ih =>
    intro x hx
    simp only [insertLocal] at hx
    rcases List.mem_cons.1 hx with rfl | hx
    · exact (good_insert h op hfx).2
    · exact ih (good_insert h op hfx).1 x hx

theorem good_restore {m : Fixities} (h : ∀ e ∈ m, e.2.prec ≤ 9) (olds : List (Infix × Option Fixity))
    (ho : ∀ x ∈ olds, ∀ v, x.2 = some v → v.prec ≤ 9) : ∀ e ∈ restore olds m, e.2.prec ≤ 9 := by
  induction olds generalizing m with
  | nil => exact h
  | cons x olds ih =>
    obtain ⟨op, old⟩ := x
    cases old with
    | none => exact ih (good_remove h op) fun x hx => ho x (by simp [hx])
    | some v =>
      exact ih (good_insert h op (ho _ (List.mem_cons_self ..) v rfl)).1 fun x hx => ho x (by simp [hx])

theorem lets_toExpr (t : OpTree) (d : InfixDecl) : d ∈ t.toExpr.lets ↔ ∃ x ∈ t.operands, d ∈ x.lets := by
  induction t with
  | leaf e => simp [OpTree.toExpr, OpTree.operands]
  | node l op r ihl ihr =>
    simp only [OpTree.toExpr, Expr.lets, List.mem_append, ihl, ihr, OpTree.operands]
    constructor
    · rintro (⟨x, h1, h2⟩ | ⟨x, h1, h2⟩)
      · exact ⟨x, .inl h1, h2⟩
      · exact ⟨x, .inr h1, h2⟩
    · rintro ⟨x, h1 | h1, h2⟩
      · exact .inl ⟨x, h1, h2⟩
      · exact .inr ⟨x, h1, h2⟩

theorem lets_chain (e : Expr) (d : InfixDecl) : d ∈ e.lets ↔ ∃ x ∈ e.chainOperands, d ∈ x.lets := by
  fun_induction Expr.chainOperands e with
  | case1 l op r ih => simp [Expr.lets, ih]
  | case2 e h => simp

theorem rewrite_lets {m : Fixities} {e e' : Expr} (h : m.rewrite e = .ok (.ok e')) (d : InfixDecl) :
    d ∈ e'.lets ↔ d ∈ e.lets := by
  obtain ⟨t, rfl, hg, _⟩ := rewrite_ok_grouping h
  rw [lets_toExpr, lets_chain e, hg.1]

/-- The precedences of the declarations of `let`s are from 0 to 9. -/
def LetPrecs (ds : List InfixDecl) : Prop := ∀ d ∈ ds, d.fixity.prec ≤ 9

theorem visit_good_table : ∀ e r r' e', visit r e = .ok (r', e') → LetPrecs e.lets →
    (r.fixities.Wf ∧ ∀ x ∈ r.fixities, x.2.prec ≤ 9) →
    (r'.fixities.Wf ∧ ∀ x ∈ r'.fixities, x.2.prec ≤ 9) := by
  have thread : ∀ {r es r' es'},
      Thread (fun r e r' _ => LetPrecs e.lets → (r.fixities.Wf ∧ ∀ x ∈ r.fixities, x.2.prec ≤ 9) →
        (r'.fixities.Wf ∧ ∀ x ∈ r'.fixities, x.2.prec ≤ 9)) r es r' es' →
      LetPrecs (Expr.letsList es) → (r.fixities.Wf ∧ ∀ x ∈ r.fixities, x.2.prec ≤ 9) →
        (r'.fixities.Wf ∧ ∀ x ∈ r'.fixities, x.2.prec ≤ 9) := by
    intro r es r' es' h
    induction h with
    | nil => exact fun _ h => h
    | cons hp _ ih =>
      intro hl hr
      exact ih (fun d hd => hl d (by simp [Expr.letsList, hd]))
        (hp (fun d hd => hl d (by simp [Expr.letsList, hd])) hr)
  apply visit_induct (P := fun r e r' _ => LetPrecs e.lets →
    (r.fixities.Wf ∧ ∀ x ∈ r.fixities, x.2.prec ≤ 9) →
    (r'.fixities.Wf ∧ ∀ x ∈ r'.fixities, x.2.prec ≤ 9))
  case bin =>
    intro r a op b a₁ op₁ b₁ r₁ a₂ r₂ b₂ hr h1 h2 hl hw
    have hl' : ∀ d, d ∈ a₁.lets ++ b₁.lets → d.fixity.prec ≤ 9 := fun d hd =>
      hl d ((rewrite_lets hr d).1 hd)
    exact h2 (fun d hd => hl' d (by simp [hd])) (h1 (fun d hd => hl' d (by simp [hd])) hw)
  case bad => intro r a op b err _ _ hw; rw [storeError_fixities]; exact hw
  case tup => intro r es r₁ es' h; exact thread h
  case list => intro r es r₁ es' h; exact thread h
  case let_ =>
    intro r d b r₁ b' h hl hw
    have hd : d.fixity.prec ≤ 9 := hl d (by simp [Expr.lets])
    have := h (fun x hx => hl x (by simp [Expr.lets, hx])) (by
      simp only [insertLocal_snd]
      exact ⟨Fixities.wf_insertMany hw.1 _ _, good_insertMany hw.2 hd _⟩)
    exact ⟨wf_restore this.1 _, good_restore this.2 _ (good_insertLocal hw.2 hd _)⟩
  case app =>
    intro r f x r₁ f' r₂ x' h1 h2 hl hw
    exact h2 (fun d hd => hl d (by simp [Expr.lets, hd])) (h1 (fun d hd => hl d (by simp [Expr.lets, hd])) hw)
  case lam => intro r p b r₁ b' h; exact h
  case grp => intro r b r₁ b' h; exact h
  case neg => intro r b r₁ b' h; exact h
  all_goals intros; assumption

theorem good_loadDecls {m : Fixities} (h : ∀ e ∈ m, e.2.prec ≤ 9) {ds : List InfixDecl}
    (hd : LetPrecs ds) : ∀ e ∈ loadDecls m ds, e.2.prec ≤ 9 := by
  induction ds generalizing m with
  | nil => exact h
  | cons d ds ih =>
    exact ih (good_insertMany h (hd d (by simp)) _) fun x hx => hd x (by simp [hx])

theorem resolveAst_good {r r' : Resolver} {ast a : Ast} {es : List AssocError}
    (h : resolveAst r ast = .ok (r', a, es)) (hd : LetPrecs ast.allDecls)
    (hr : r.fixities.Wf ∧ ∀ x ∈ r.fixities, x.2.prec ≤ 9) :
    r'.fixities.Wf ∧ ∀ x ∈ r'.fixities, x.2.prec ≤ 9 := by
  unfold resolveAst visitAst at h
  simp only [bind, Except.bind] at h
  have h0 : LetPrecs ast.infxs := fun d h => hd d (by simp [Ast.allDecls, h])
  have h1 : LetPrecs (Expr.letsList ast.exprs) := fun d h => hd d (by simp [Ast.allDecls, h])
  have key : ∀ (es : List Expr) (r r' : Resolver) es', walkList visit r es = .ok (r', es') →
      LetPrecs (Expr.letsList es) → (r.fixities.Wf ∧ ∀ x ∈ r.fixities, x.2.prec ≤ 9) →
      r'.fixities.Wf ∧ ∀ x ∈ r'.fixities, x.2.prec ≤ 9 := by
    intro es
    induction es with
    | nil => intro r r' es' h _ hr; cases h; exact hr
    | cons e es ih =>
      intro r r' es' h hl hr
      simp only [walkList, bind, Except.bind] at h
      cases hv : visit r e with
      | error e => rw [hv] at h; cases h
      | ok x =>
        rw [hv] at h
        simp only at h
        cases hw : walkList visit x.1 es with
        | error e => rw [hw] at h; cases h
        | ok y =>
          rw [hw] at h
          simp only [Except.ok.injEq, Prod.mk.injEq] at h
          rw [← h.1]
          exact ih x.1 y.1 y.2 hw (fun d hd => hl d (by simp [Expr.letsList, hd]))
            (visit_good_table e r x.1 x.2 hv (fun d hd => hl d (by simp [Expr.letsList, hd])) hr)
  cases hw : walkList visit { r with fixities := loadDecls r.fixities ast.infxs } ast.exprs with
  | error e => rw [hw] at h; cases h
  | ok x =>
    rw [hw] at h
    have := key _ _ x.1 x.2 hw h1 ⟨wf_loadDecls hr.1 _, good_loadDecls hr.2 h0⟩
    simp only at h
    split at h <;> simp only [Except.ok.injEq, Prod.mk.injEq] at h <;> rw [← h.1]
    · exact this
    · exact this

theorem load_inv {I : Fixities → Prop}
    (h1 : ∀ m op fx, fx.prec ≤ 9 → I m → I (Fixities.insert m op fx).2) (r : Resolver)
    (h : I r.fixities) : I r.loadArithmetic.2.fixities ∧ I r.loadHsPrelude.2.fixities := by
  have h2 : ∀ (fx : Fixity) (ops : List Infix), fx.prec ≤ 9 → ∀ m, I m → I (m.insertMany fx ops) := by
    intro fx ops hf
    induction ops with
    | nil => exact fun m h => h
    | cons op ops ih => exact fun m h => ih _ (h1 _ _ _ hf h)
  constructor
  · exact h2 Fixity.pow _ (by decide) _ (h2 Fixity.plusMinus _ (by decide) _ (h2 Fixity.plusMinus _ (by decide) _ h))
  · unfold loadHsPrelude
    simp only
    have p0 := h1 r.fixities (.standard t!"$") ⟨0, .right⟩ (by decide) h
    generalize (r.fixities.insert (.standard t!"$") ⟨0, .right⟩).2 = m at p0 ⊢
    replace p0 := h2 ⟨1, .left⟩ [.standard t!">>=", .standard t!">>"] (by decide) m p0
    generalize m.insertMany ⟨1, .left⟩ _ = m at p0 ⊢
    replace p0 := h1 m (.standard t!"=<<") ⟨1, .right⟩ (by decide) p0
    generalize (m.insert (.standard t!"=<<") ⟨1, .right⟩).2 = m at p0 ⊢
    replace p0 := h1 m (.standard t!"||") ⟨2, .right⟩ (by decide) p0
    generalize (m.insert (.standard t!"||") ⟨2, .right⟩).2 = m at p0 ⊢
    replace p0 := h1 m (.standard t!"&&") ⟨3, .right⟩ (by decide) p0
    generalize (m.insert (.standard t!"&&") ⟨3, .right⟩).2 = m at p0 ⊢
    replace p0 := h2 ⟨4, .neither⟩ [.standard t!"==", .standard t!"/=", .standard t!"<", .standard t!"<=",
      .standard t!">", .standard t!">=", .promoted t!"elem"] (by decide) m p0
    generalize m.insertMany ⟨4, .neither⟩ _ = m at p0 ⊢
    replace p0 := h2 Fixity.cons [.standard t!":", .standard t!"++"] (by decide) m p0
    generalize m.insertMany Fixity.cons _ = m at p0 ⊢
    replace p0 := h1 m (.standard t!"<>") ⟨6, .right⟩ (by decide) p0
    generalize (m.insert (.standard t!"<>") ⟨6, .right⟩).2 = m at p0 ⊢
    replace p0 := h2 Fixity.plusMinus [.standard t!"+", .standard t!"-"] (by decide) m p0
    generalize m.insertMany Fixity.plusMinus _ = m at p0 ⊢
    replace p0 := h2 Fixity.multDivRem [.standard t!"*", .standard t!"/", .standard t!"%"] (by decide) m p0
    generalize m.insertMany Fixity.multDivRem _ = m at p0 ⊢
    replace p0 := h2 Fixity.pow [.standard t!"^", .standard t!"^^", .standard t!"**"] (by decide) m p0
    generalize m.insertMany Fixity.pow _ = m at p0 ⊢
    exact p0

theorem applies_good {r r' : Resolver} {evs : List Event} (h : Applies r evs r')
    (hr : r.fixities.Wf ∧ ∀ x ∈ r.fixities, x.2.prec ≤ 9) :
    r'.fixities.Wf ∧ ∀ x ∈ r'.fixities, x.2.prec ≤ 9 := by
  induction h with
  | nil => exact hr
  | bad _ _ ih => exact ih hr
  | good hp h1 _ ih =>
    have hd : LetPrecs _ := fun d hd => (C38_declarations hp hd).2.1
    refine ih (resolveAst_good h1 hd ⟨wf_loadDecls hr.1 _, good_loadDecls hr.2 fun d h => hd d ?_⟩)
    simp [Ast.allDecls, h]
  | clear _ ih => exact ih ⟨by unfold Fixities.Wf Resolver.clear; simp [Fixities.keys], by simp [Resolver.clear]⟩
  | math _ ih =>
    exact ih (load_inv (I := fun m => m.Wf ∧ ∀ x ∈ m, x.2.prec ≤ 9)
      (fun m op fx hf h => ⟨Fixities.wf_insert h.1 _ _, (good_insert h.2 op hf).1⟩) _ hr).1
  | prelude _ ih =>
    exact ih (load_inv (I := fun m => m.Wf ∧ ∀ x ∈ m, x.2.prec ≤ 9)
      (fun m op fx hf h => ⟨Fixities.wf_insert h.1 _ _, (good_insert h.2 op hf).1⟩) _ hr).2

/-- **C80** In every session that can be reached no operator has two entries in the fixity table,
all precedences are from 0 to 9, and no error is pending. -/
theorem C80_reachable {s : Session} {log : List Event} (h : History s log) :
    GoodTable s.resolver.fixities ∧ s.resolver.errors = [] := by
  refine ⟨?_, C14_no_pending_error h⟩
  have : s.resolver.fixities.Wf ∧ ∀ x ∈ s.resolver.fixities, x.2.prec ≤ 9 := by
    induction h with
    | start => exact ⟨by unfold Fixities.Wf; simp [Session.new, Resolver.new, Fixities.keys], by simp [Session.new, Resolver.new]⟩
    | reads _ hr hs ih => exact applies_good (reads_step hr hs) ih
    | quiet _ hr hs ih => rw [quiet_step hr hs]; exact ih
  refine ⟨?_, this.2⟩
  have h2 := this.1
  unfold Fixities.Wf Fixities.keys List.Nodup at h2
  exact List.pairwise_map.1 h2

end
section
attribute [local instance] asciiTables asciiTables_lawful

/-- C75 -/
example : (exRun [t!" :q "]).map (·.2) =
    some [.saveHistory t!"/home/u/.pemdas/.history", .out t!"exiting Pemdas REPL\n"] := by decide +kernel

/-- C76 -/
example : (exRun [t!":history --set  /tmp/h", t!":q"]).map (·.2) =
    some [.out t!"session history filepath changed to\n  /tmp/h\n",
      .saveHistory t!"/tmp/h", .out t!"exiting Pemdas REPL\n"] := by decide +kernel

/-- C76: the report of `:history --save /tmp/x` names another file. -/
example : (exRun [t!":history --save /tmp/x"]).map (·.2) =
    some [.saveHistory t!"/tmp/x",
      .out t!"session history written to file located at\n  /home/u/.pemdas/.history\n"] := by
  decide +kernel

example : SaysWith t!":history --save /tmp/x" t!":history" (t!"--save" ++ t!" " ++ t!"/tmp/x") :=
  ⟨t!" ", (says_iff (by decide)).2 (by decide), by unfold Blank; decide, by decide, ⟨_, _, rfl, by decide⟩⟩

/-- C76: no blank is needed after `--set`. -/
theorem C76_set_prefix_wrong : (exRun [t!":history --settings x"]).map (·.1.historyPath) =
    some t!"tings x" := by decide +kernel

/-- C77 -/
example : t!":" <+: t!":save f" ∧ ∀ p ∈ commandWords, ¬ FirstWord p t!":save f" := by
  refine ⟨by decide, fun p hp h => ?_⟩
  have h1 := (C65_is_prefix _ _).2 h
  have : ∀ p ∈ commandWords, isPrefix p t!":save f" = false := by decide
  rw [this p hp] at h1
  cases h1

/-- **C78 is false** in both directions: after `a \` there is input pending but the prompt is the
initial one; after `{` and after `{a` and `{b}` nothing is pending but the prompt is the
continuation prompt. -/
theorem C78_prompt_wrong :
    ((exRun [t!"a \\"]).map fun x => (x.1.prompt, x.1.buffer)) = some (.initial, t!"a \n ") ∧
    ((exRun [t!"{"]).map fun x => (x.1.prompt, x.1.buffer)) = some (.continued, []) ∧
    ((exRun [t!"{a", t!"{b}"]).map fun x => (x.1.prompt, x.1.buffer)) = some (.continued, []) := by
  decide +kernel

/-- C79: nothing can be created. -/
example : (Session.new ⟨fun _ => false, fun _ => false, fun _ => false, fun _ => false⟩
    (some t!"/home/u")).1.historyPath = [] ∧
    (Session.new ⟨fun _ => false, fun _ => false, fun _ => false, fun _ => true⟩ none).1.historyPath =
      t!"./.history" := by decide

/-- C80: a session that declared and redeclared operators. -/
example : ((exRun [t!"infixl 6 +", t!":load --prelude", t!"infixr 0 +"]).map
    fun x => (x.1.resolver.fixities.length, x.1.resolver.fixities.getDefined opPlus)) =
    some (24, some ⟨0, .right⟩) := by decide +kernel

end

end Pemdas
