import Verif.Props.Session
/-
C14, C15, C20: the fixities of a session.
-/
set_option linter.unusedSectionVars false
namespace Pemdas
open Session Resolver

section
variable [CharTables]

/-! ### C14 -/

theorem applies_nil {r r' : Resolver} (h : Applies r [] r') : r' = r := by cases h; rfl

theorem loadArithmetic_errors (r : Resolver) : r.loadArithmetic.2.errors = r.errors := by
  simp only [loadArithmetic]

theorem loadHsPrelude_errors (r : Resolver) : r.loadHsPrelude.2.errors = r.errors := by
  simp only [loadHsPrelude]

/-- **C14** An input (typed or in a file) that does not parse leaves the fixities and everything
else of the resolver as they were. -/
theorem C14_unparsable_input_changes_nothing {w : World} {s s' : Session} {line : Text} {b : Bool}
    {fx : List Effect} {t : Text} {e : ParseError} {l : Lexer}
    (hr : Reads w s.buffer line [.text t]) (hp : parse t = .err e l)
    (h : step w s line = .ok (b, s', fx)) : s'.resolver = s.resolver := by
  have ha := reads_step hr h
  cases ha with
  | bad _ ha => exact applies_nil ha
  | good h1 => rw [hp] at h1; cases h1

theorem resolveAst_errors {r r' : Resolver} {ast a : Ast} {es : List AssocError}
    (h : resolveAst r ast = .ok (r', a, es)) : r'.errors = [] := by
  unfold resolveAst at h
  cases hv : visitAst r ast with
  | error e => rw [hv] at h; cases h
  | ok x =>
    rw [hv] at h
    simp only [bind, Except.bind] at h
    split at h
    · rename_i he
      simp only [Except.ok.injEq, Prod.mk.injEq] at h
      rw [← h.1]; exact he
    · simp only [Except.ok.injEq, Prod.mk.injEq] at h
      rw [← h.1]; rfl

theorem applies_errors {r r' : Resolver} {evs : List Event} (h : Applies r evs r')
    (hr : r.errors = []) : r'.errors = [] := by
  induction h with
  | nil => exact hr
  | bad _ _ ih => exact ih hr
  | good _ h1 _ ih => exact ih (resolveAst_errors h1)
  | clear _ ih => exact ih hr
  | math _ ih => exact ih ((loadArithmetic_errors _).trans hr)
  | prelude _ ih => exact ih ((loadHsPrelude_errors _).trans hr)

/-- **C14** Whatever was typed, no error is pending after a line. -/
theorem C14_no_pending_error {s : Session} {log : List Event} (h : History s log) :
    s.resolver.errors = [] := by
  induction h with
  | start => rfl
  | reads _ hr hs ih => exact applies_errors (reads_step hr hs) ih
  | quiet _ hr hs ih => rw [quiet_step hr hs]; exact ih

/-- **C14** (partial) After an input that parses, whether its expressions are accepted or not, the
fixities are the former ones with the input's declarations. Missing: inputs with a `let` that
declares an operator twice (for which this is false, see below). -/
theorem C14_after_input_partial {w : World} {s s' : Session} {line : Text} {b : Bool}
    {fx : List Effect} {t : Text} {ast : Ast} {l : Lexer} {log : List Event} (hh : History s log)
    (hr : Reads w s.buffer line [.text t]) (hp : parse t = .ok ast l)
    (hl : ∀ e ∈ ast.exprs, e.LetsDistinct) (h : step w s line = .ok (b, s', fx)) :
    s'.resolver.errors = [] ∧ s'.resolver.fixities.get = innermost s.resolver.fixities.get ast.infxs := by
  have ha := reads_step hr h
  have he := C14_no_pending_error hh
  refine ⟨applies_errors ha he, ?_⟩
  cases ha with
  | bad h1 => rw [hp] at h1; cases h1
  | @good _ ast' _ _ r₁ a es _ _ h1 h2 h3 =>
    rw [hp] at h1; cases h1
    rw [applies_nil h3]
    have : s.resolver.loadFixities ast = ⟨loadDecls s.resolver.fixities ast.infxs, []⟩ := by
      rw [loadFixities, he]
    rw [this] at h2
    rw [C14_resolver_state_partial _ _ _ _ _ hl h2, C13_last_declaration_wins]
    funext op
    rw [C13_last_declaration_wins]
    unfold innermost
    cases ast.infxs.reverse.find? (fun d => decide (op.symbol ∈ d.infixes.map Infix.symbol)) <;> rfl

/-! ### C15 -/

/-- One entry of the log, applied. -/
def Write.on (op : Infix) (base : Option Fixity) : Write → Option Fixity
  | .decl o fx => if o.symbol = op.symbol then some fx else base
  | .clear => none

theorem lastWrite_eq (log : List Write) (op : Infix) :
    lastWrite log op = log.foldl (Write.on op) none := by
  have : ∀ l : List Write, lastWrite.go op l = l.foldr (fun x b => Write.on op b x) none := by
    intro l
    induction l with
    | nil => rfl
    | cons x l ih =>
      cases x with
      | clear => rfl
      | decl o fx => simp only [lastWrite.go, List.foldr_cons, Write.on, ih]
  rw [lastWrite, this, List.foldr_reverse]

theorem foldl_ops (op : Infix) (fx : Fixity) (ops : List Infix) (base : Option Fixity) :
    (ops.map fun o => Write.decl o fx).foldl (Write.on op) base =
      if op.symbol ∈ ops.map Infix.symbol then some fx else base := by
  induction ops generalizing base with
  | nil => simp
  | cons o ops ih =>
    simp only [List.map_cons, List.foldl_cons, ih, Write.on, List.mem_cons]
    by_cases h1 : op.symbol ∈ ops.map Infix.symbol
    · simp [h1]
    · by_cases h2 : o.symbol = op.symbol
      · simp [h1, h2]
      · have : ¬ op.symbol = o.symbol := fun e => h2 e.symm
        simp [h1, h2, this]

theorem foldl_declared (op : Infix) (m : Fixities) (ds : List InfixDecl) :
    ((declared ds).map fun d => Write.decl d.1 d.2).foldl (Write.on op) (m.getDefined op) =
      (loadDecls m ds).getDefined op := by
  induction ds generalizing m with
  | nil => rfl
  | cons d ds ih =>
    have e : (declared (d :: ds)).map (fun d => Write.decl d.1 d.2) =
        (d.infixes.map fun o => Write.decl o d.fixity) ++
          (declared ds).map (fun d => Write.decl d.1 d.2) := by
      simp [declared, Function.comp_def]
    rw [e, List.foldl_append, foldl_ops, ← Fixities.getDefined_insertMany, ih]
    rfl

theorem foldl_table (op : Infix) (tbl : List (Text × Fixity)) (base : Option Fixity)
    (hn : (tbl.map (·.1)).Nodup) :
    (tbl.map fun d => Write.decl (.standard d.1) d.2).foldl (Write.on op) base =
      (tbl.lookup op.symbol).or base := by
  induction tbl generalizing base with
  | nil => rfl
  | cons d tbl ih =>
    obtain ⟨t, fx⟩ := d
    rw [List.map_cons, List.nodup_cons] at hn
    simp only [List.map_cons, List.foldl_cons, ih _ hn.2, List.lookup_cons, Write.on]
    have hs : (Infix.standard t).symbol = t := rfl
    rw [hs]
    by_cases h : t = op.symbol
    · subst h
      have hl : tbl.lookup op.symbol = none := by
        rw [List.lookup_eq_none_iff]
        intro p hp
        simp only [bne_iff_ne, ne_eq]
        intro e
        exact hn.1 (List.mem_map.2 ⟨p, hp, e.symm⟩)
      simp [hl]
    · have h' : (op.symbol == t) = false := by simp [Ne.symm h]
      simp [h, h']

theorem applies_log {r r' : Resolver} {evs : List Event} (h : Applies r evs r')
    (hr : r.errors = []) (hn : ∀ ev ∈ evs, ev.NoDup) (op : Infix) :
    r'.fixities.getDefined op =
      (evs.flatMap Event.log).foldl (Write.on op) (r.fixities.getDefined op) := by
  induction h with
  | nil => rfl
  | @bad t e l r r' evs h1 _ ih =>
    rw [ih hr fun ev hev => hn ev (by simp [hev])]
    simp [List.flatMap_cons, Event.log, h1]
  | @good t ast l r r₁ a es r' evs h1 h2 _ ih =>
    have hd := hn (.text t) (by simp) ast l h1
    have e : r.loadFixities ast = ⟨loadDecls r.fixities ast.infxs, []⟩ := by rw [loadFixities, hr]
    rw [e] at h2
    have h3 := C14_resolver_state_partial _ _ _ _ _ hd h2
    have h4 : ∀ o, (loadDecls (loadDecls r.fixities ast.infxs) ast.infxs).getDefined o =
        (loadDecls r.fixities ast.infxs).getDefined o := by
      intro o
      rw [getDefined_loadDecls, getDefined_loadDecls]
      cases ast.infxs.reverse.find? (fun d => decide (o.symbol ∈ d.infixes.map Infix.symbol)) <;> rfl
    rw [ih (by rw [h3]) fun ev hev => hn ev (by simp [hev])]
    simp only [List.flatMap_cons, List.foldl_append, Event.log, h1, foldl_declared, h3, h4]
  | clear _ ih => rw [ih hr fun ev hev => hn ev (by simp [hev])]; rfl
  | @math r r' evs _ ih =>
    rw [ih ((loadArithmetic_errors _).trans hr) fun ev hev => hn ev (by simp [hev]), List.flatMap_cons, List.foldl_append]
    congr 1
    rw [Event.log, foldl_table _ _ _ (by decide), C18_math_partial]
    generalize op.symbol = s
    by_cases hm : s ∈ mathFixities.map (·.1)
    · simp only [mathFixities, List.map_cons, List.map_nil, List.mem_cons, List.not_mem_nil,
        or_false] at hm
      rcases hm with h | h | h | h | h | h | h | h <;> subst h <;> rfl
    · simp only [mathFixities, List.map_cons, List.map_nil, List.mem_cons, List.not_mem_nil,
        or_false, not_or] at hm
      obtain ⟨h1, h2, h3, h4, h5, h6, h7, h8⟩ := hm
      have b : ∀ t, ¬ s = t → (s == t) = false := fun t h => by simpa using h
      simp [mathFixities, List.lookup_cons, h1, h2, h3, h4, h5, h6, h7, h8, b]
  | @prelude r r' evs _ ih =>
    rw [ih ((loadHsPrelude_errors _).trans hr) fun ev hev => hn ev (by simp [hev]), List.flatMap_cons, List.foldl_append,
      Event.log, foldl_table _ _ _ (by decide), ← C19_prelude_fixities]

/-- **C15** (partial) After any history of lines, the fixity of an operator is that of its last
declaration (in an input that parses, a loaded file, `:load --math` or `:load --prelude`) after the
last clear, and it has none if there is no such declaration. Missing: inputs with a `let` that
declares an operator twice (for which this is false, see below). -/
theorem C15_last_writer_wins_partial {s : Session} {log : List Event} (h : History s log)
    (hn : ∀ ev ∈ log, ev.NoDup) (op : Infix) :
    s.resolver.fixities.getDefined op = lastWrite (log.flatMap Event.log) op := by
  rw [lastWrite_eq]
  induction h with
  | start => rfl
  | @reads w s s' line b fx log evs hh hr hs ih =>
    rw [applies_log (reads_step hr hs) (C14_no_pending_error hh) (fun ev hev => hn ev (by simp [hev])) op,
      List.flatMap_append, List.foldl_append, ih fun ev hev => hn ev (by simp [hev])]
  | quiet _ hr hs ih => rw [quiet_step hr hs]; exact ih hn

/-- **C15** Every session reached by running lines has such a history. -/
theorem C15_every_run_has_history {s : Session} {log : List Event} (h : History s log)
    (ins : List (World × Input)) {b : Bool} {s' : Session} {fx : List Effect}
    (hr : run s ins = .ok (b, s', fx)) : ∃ log', History s' (log ++ log') := by
  induction ins generalizing s log b s' fx with
  | nil => cases hr; exact ⟨[], by simpa using h⟩
  | cons x ins ih =>
    obtain ⟨w, i⟩ := x
    cases i with
    | eof => cases hr; exact ⟨[], by simpa using h⟩
    | interrupted => cases hr; exact ⟨[], by simpa using h⟩
    | error e =>
      unfold run at hr
      cases hr' : run s ins with
      | error e => rw [hr'] at hr; cases hr
      | ok y =>
        rw [hr'] at hr
        simp only [bind, Except.bind, Except.ok.injEq, Prod.mk.injEq] at hr
        obtain ⟨rfl, rfl, -⟩ := hr
        exact ih h hr'
    | line l =>
      unfold run at hr
      cases hs : step w s l with
      | error e => rw [hs] at hr; cases hr
      | ok y =>
        obtain ⟨b1, s1, fx1⟩ := y
        rw [hs] at hr
        have h1 : ∃ log₁, History s1 (log ++ log₁) := by
          rcases Classical.em (∃ evs, Reads w s.buffer l evs) with ⟨evs, he⟩ | he
          · exact ⟨evs, .reads h he hs⟩
          · exact ⟨[], by simpa using History.quiet h he hs⟩
        obtain ⟨log₁, h1⟩ := h1
        simp only [bind, Except.bind] at hr
        cases b1 with
        | false => cases hr; exact ⟨log₁, h1⟩
        | true =>
          simp only [if_true] at hr
          cases hr' : run s1 ins with
          | error e => rw [hr'] at hr; cases hr
          | ok y =>
            rw [hr'] at hr
            simp only [Except.ok.injEq, Prod.mk.injEq] at hr
            obtain ⟨rfl, rfl, -⟩ := hr
            obtain ⟨log₂, h2⟩ := ih h1 hr'
            exact ⟨log₁ ++ log₂, by rw [← List.append_assoc]; exact h2⟩

/-- **C15** The log of a line is determined by the line, what is pending and the files. -/
theorem C15_log_determined {w : World} {buffer line : Text} {evs evs' : List Event}
    (h : Reads w buffer line evs) (h' : Reads w buffer line evs') : evs = evs' := by
  have noEnds : ∀ {body c : Text}, Ends line body → Says line c → c = body ∧ ¬ t!":" <+: body ∧ ¬ t!"{" <+: body := by
    intro body c h1 h2
    cases h1 with
    | plain a b c' => exact ⟨says_unique h2 a, b, c'⟩
  have noBlock : ∀ {body c : Text}, Block line body → Says line c → t!"{" <+: c ∧ ¬ t!":" <+: c := by
    intro body c h1 h2
    obtain ⟨n, m, h3, -⟩ := h1
    rw [says_unique h2 h3]
    refine ⟨⟨List.replicate n '{' ++ body ++ List.replicate (m + 1) '}', by simp [List.replicate_succ]⟩, ?_⟩
    rintro ⟨t, ht⟩
    simp [List.replicate_succ] at ht
  have withSays : ∀ {word o : Text}, SaysWith line word o → ∃ r, Says line (word ++ r) ∧ trim r = o ∧
      ∀ x, r.head? = some x → isWhitespace x = true := by
    intro word o h
    obtain ⟨r, h1, h2, h3, -⟩ := saysWith_iff.1 h
    exact ⟨r, h1, h3, h2⟩
  have kinds : ∀ {buf line evs}, Reads w buf line evs →
      (∃ body, Ends line body ∧ evs = [.text (buf ++ body)]) ∨
      (∃ body, Block line body ∧ evs = [.text (buf ++ body)]) ∨
      (∃ c, Says line c ∧ kind c = .reset ∧ t!":" <+: c ∧ evs = [.clear]) ∨
      (∃ r, Says line (t!":clear" ++ r) ∧ kind (t!":clear" ++ r) = .clear ∧ evs = [.clear]) ∨
      (∃ r, Says line (t!":load" ++ r) ∧ kind (t!":load" ++ r) = .load ∧
        ((trim r = t!"--math" ∧ evs = [.math]) ∨ (trim r = t!"--prelude" ∧ evs = [.prelude]) ∨
         (trim r ≠ t!"--math" ∧ trim r ≠ t!"--prelude" ∧ Loads w (splitWhitespace (trim r)) evs))) := by
    intro buf line evs h
    have lk : ∀ {r : Text}, (∀ x, r.head? = some x → isWhitespace x = true) →
        kind (t!":load" ++ r) = .load := fun hr =>
      (kind_of_word (isPrefix_of_rest (by decide) (by decide) hr)).2.2.2.2.1 rfl
    cases h with
    | plain h => exact .inl ⟨_, h, rfl⟩
    | block h => exact .inr (.inl ⟨_, h, rfl⟩)
    | @reset c hb hs hc =>
      refine .inr (.inr (.inl ⟨c, hs, ?_, ?_, rfl⟩))
      · simp only [List.mem_cons, List.not_mem_nil, or_false] at hc
        rcases hc with rfl | rfl <;> decide
      · simp only [List.mem_cons, List.not_mem_nil, or_false] at hc
        rcases hc with rfl | rfl <;> exact ⟨_, rfl⟩
    | clear hb hw ho =>
      obtain ⟨r, h1, h2, h3, -⟩ := saysWith_iff.1 hw
      exact .inr (.inr (.inr (.inl ⟨r, h1, (kind_of_word (isPrefix_of_rest (by decide) (by decide) h2)).2.2.1 rfl, rfl⟩)))
    | math hb hw =>
      obtain ⟨r, h1, h2, h3, -⟩ := saysWith_iff.1 hw
      exact .inr (.inr (.inr (.inr ⟨r, h1, lk h2, .inl ⟨h3, rfl⟩⟩)))
    | prelude hb hw =>
      obtain ⟨r, h1, h2, h3, -⟩ := saysWith_iff.1 hw
      exact .inr (.inr (.inr (.inr ⟨r, h1, lk h2, .inr (.inl ⟨h3, rfl⟩)⟩)))
    | files hb hw n1 n2 hws hl =>
      obtain ⟨r, h1, h2, h3, -⟩ := saysWith_iff.1 hw
      refine .inr (.inr (.inr (.inr ⟨r, h1, lk h2, .inr (.inr ⟨by rw [h3]; exact n1, by rw [h3]; exact n2, ?_⟩)⟩)))
      rw [h3, splitWhitespace_iff.2 hws]; exact hl
  have col : ∀ r : Text, t!":" <+: t!":clear" ++ r ∧ t!":" <+: t!":load" ++ r := fun r => ⟨⟨_, rfl⟩, ⟨_, rfl⟩⟩
  have noC : ∀ {evs body}, Ends line body → Reads w buffer line evs → ∃ body', Ends line body' ∧ evs = [.text (buffer ++ body')] := by
    intro evs body he hr
    rcases kinds hr with h | ⟨b, h, -⟩ | ⟨c, h1, -, h2, -⟩ | ⟨r, h1, -⟩ | ⟨r, h1, -⟩
    · exact h
    · obtain ⟨n, m, h3, -⟩ := id h
      have := noEnds he h3
      exact absurd (this.1 ▸ (noBlock h h3).1) this.2.2
    · have := noEnds he h1; exact absurd (this.1 ▸ h2) this.2.1
    · have := noEnds he h1; exact absurd (this.1 ▸ (col r).1) this.2.1
    · have := noEnds he h1; exact absurd (this.1 ▸ (col r).2) this.2.1
  have noB : ∀ {evs body}, Block line body → Reads w buffer line evs → ∃ body', Block line body' ∧ evs = [.text (buffer ++ body')] := by
    intro evs body he hr
    rcases kinds hr with ⟨b, h, -⟩ | h | ⟨c, h1, -, h2, -⟩ | ⟨r, h1, -⟩ | ⟨r, h1, -⟩
    · obtain ⟨n, m, h3, -⟩ := id he
      have := noEnds h h3
      exact absurd (this.1 ▸ (noBlock he h3).1) this.2.2
    · exact h
    · exact absurd h2 (noBlock he h1).2
    · exact absurd (col r).1 (noBlock he h1).2
    · exact absurd (col r).2 (noBlock he h1).2
  rcases kinds h with ⟨b, h1, rfl⟩ | ⟨b, h1, rfl⟩ | ⟨c, h1, hk, hc, rfl⟩ | ⟨r, h1, hk, rfl⟩ | ⟨r, h1, hk, h2⟩
  · obtain ⟨b', h2, rfl⟩ := noC h1 h'
    cases h1 with
    | plain a _ _ _ =>
      cases h2 with
      | plain a' _ _ _ => rw [says_unique a a']
  · obtain ⟨b', h2, rfl⟩ := noB h1 h'
    have e1 := step_block w ⟨⟨[], []⟩, [], .initial, []⟩ h1
    obtain ⟨n, m, p1, p2, p3⟩ := h1
    obtain ⟨n', m', q1, q2, q3⟩ := h2
    have e := says_unique p1 q1
    have nb : ∀ {body : Text} {m : Nat}, ¬ t!"{" <+: body → ¬ t!"{" <+: body ++ List.replicate (m + 1) '}' := by
      intro body m h2 h
      cases body with
      | nil => simp [List.replicate_succ] at h
      | cons c body =>
        refine h2 ?_
        simp only [List.cons_append, List.cons_prefix_cons, List.nil_prefix, and_true] at h ⊢
        exact h
    have e2 := congrArg (trimStartMatches '{') e
    rw [List.append_assoc, List.append_assoc, trimStart_braces _ (nb p2), trimStart_braces _ (nb q2)] at e2
    have e3 := congrArg (trimEndMatches '}') e2
    rw [trimEnd_braces _ p3, trimEnd_braces _ q3] at e3
    rw [e3]
  all_goals
    have colon : ∃ c, Says line c ∧ t!":" <+: c := by
      first
      | exact ⟨_, h1, hc⟩
      | exact ⟨_, h1, (col r).1⟩
      | exact ⟨_, h1, (col r).2⟩
    obtain ⟨c₀, hc₀, hc₁⟩ := colon
    rcases kinds h' with ⟨b, g1, rfl⟩ | ⟨b, g1, rfl⟩ | ⟨c', g1, gk, -, rfl⟩ | ⟨r', g1, gk, rfl⟩ | ⟨r', g1, gk, g2⟩
    · have q := noEnds g1 hc₀
      exact absurd (q.1 ▸ hc₁) q.2.1
    · exact absurd hc₁ (noBlock g1 hc₀).2
    · first
      | rfl
      | (rw [says_unique g1 h1, hk] at gk; cases gk)
    · first
      | rfl
      | (rw [says_unique g1 h1, hk] at gk; cases gk)
    try (rw [says_unique g1 h1, hk] at gk; cases gk; done)
  have er : r' = r := List.append_cancel_left (says_unique g1 h1)
  subst er
  rcases h2 with ⟨a1, rfl⟩ | ⟨a1, rfl⟩ | ⟨a1, a2, a3⟩ <;>
  rcases g2 with ⟨b1, rfl⟩ | ⟨b1, rfl⟩ | ⟨b1, b2, b3⟩ <;>
  first
  | rfl
  | exact absurd b1 a1
  | exact absurd b1 a2
  | exact absurd a1 b1
  | exact absurd a1 b2
  | exact loads_unique a3 b3
  | (rw [a1] at b1; exact absurd b1 (by decide))

/-! ### C20 -/

/-- **C20** `:clear` with an option that clears fixities leaves no operator declared and reports how
many were declared. -/
theorem C20_clear_partial (w : World) (s : Session) {line o : Text} (hb : s.buffer = [])
    (h : SaysWith line t!":clear" o) (ho : o ∈ clearingOptions) :
    ∃ s' fx, step w s line = .ok (true, s', fx) ∧ (∀ op, s'.resolver.fixities.getDefined op = none) ∧
      fx.getLast? = some (.out (decText s.resolver.fixities.length ++
        (if o = t!"--fixities" then t!" fixities cleared\n"
         else t!" fixities cleared, session history cleared\n"))) ∧
      (.clearHistory ∈ fx ↔ o ≠ t!"--fixities") := by
  obtain ⟨rest, h1, h2, h3, h4⟩ := saysWith_iff.1 h
  have hk : kind (t!":clear" ++ rest) = .clear :=
    (kind_of_word (isPrefix_of_rest (by decide) (by decide) h2)).2.2.1 rfl
  obtain ⟨rest', e1, e2, e3⟩ := cmdClear_eq (s := s) (says_lead h1) hk
  have : rest' = rest := List.append_cancel_left e1.symm
  subst this
  rw [step_cmd w h1 ⟨_, rfl⟩ hb, hk]
  simp only [byKind, e3, h3]
  refine ⟨(clearOpt s o).1, (clearOpt s o).2, rfl, ?_⟩
  have c1 : clearOpt s t!"--fixities" = ({ s with resolver := s.resolver.clear.2 },
      [.out (decText s.resolver.fixities.length ++ t!" fixities cleared" ++ t!"\n")]) := rfl
  have c2 : ∀ o ∈ [t!"--session", t!"--history --fixities", t!"--fixities --history"],
      clearOpt s o = ({ s with resolver := s.resolver.clear.2 },
        [.clearHistory, .out (decText s.resolver.fixities.length ++
          t!" fixities cleared, session history cleared" ++ t!"\n")]) := by
    intro o ho
    simp only [List.mem_cons, List.not_mem_nil, or_false] at ho
    rcases ho with rfl | rfl | rfl <;> rfl
  by_cases hf : o = t!"--fixities"
  · subst hf
    rw [c1]
    exact ⟨fun _ => rfl, by simp, by simp⟩
  · have ho' : o ∈ [t!"--session", t!"--history --fixities", t!"--fixities --history"] := by
      unfold clearingOptions at ho
      rcases List.mem_cons.1 ho with ho | ho
      · exact absurd ho hf
      · exact ho
    rw [c2 o ho', if_neg hf]
    exact ⟨fun _ => rfl, by simp, by simp [hf]⟩

/-- **C20** `:reset` leaves no operator declared, but **reports one less** than were declared. -/
theorem C20_reset_count_wrong (w : World) (s : Session) {line c : Text} (hb : s.buffer = [])
    (h : Says line c) (hc : c = t!":reset" ∨ c = t!":r") :
    step w s line = .ok (true, { s with resolver := { s.resolver with fixities := [] } },
      [.out (decText (s.resolver.fixities.length - 1) ++ t!" fixities removed\n")]) := by
  have hk : kind c = .reset ∧ t!":" <+: c := by rcases hc with rfl | rfl <;> decide
  rw [step_cmd w h hk.2 hb, hk.1]
  simp [byKind, cmdReset, Resolver.clear, sayLine]

end

/-! ### concrete cases -/

section
attribute [local instance] asciiTables asciiTables_lawful

/-- A world without files. -/
def exWorld : World := ⟨fun _ => .error t!"no file", fun _ => .ok (), fun _ _ => .ok []⟩

/-- A file system in which nothing is wrong. -/
def exFs : FileSystem := ⟨fun _ => true, fun _ => true, fun _ => true, fun _ => true⟩

def exStart : Session := (Session.new exFs (some t!"/home/u")).1

/-- Session and output after lines. -/
def exRun (lines : List Text) : Option (Session × List Effect) :=
  (run exStart (lines.map fun l => (exWorld, .line l))).toOption.map (·.2)

/-- C14, C15: a history with a declaration, a rejected input, an input that does not parse, a
declaration that overrides, and a clear. -/
example : ((exRun [t!"infixl 6 +", t!"infixr 5 + a + b", t!"infix 3 "]).map (·.1.resolver)) =
    some ⟨[(opPlus, ⟨5, .right⟩)], []⟩ := by decide +kernel

example : ((exRun [t!"infixl 6 +", t!"infixr 5 +", t!":r", t!"infix 3 *"]).map (·.1.resolver)) =
    some ⟨[(opMul, ⟨3, .neither⟩)], []⟩ := by decide +kernel

/-- C14: an input that is rejected because of an ambiguity, with its declaration loaded. -/
example : ((exRun [t!"infix 4 = a = b = c"]).map fun x => (x.1.resolver, x.2.length)) =
    some (⟨[(.standard t!"=", ⟨4, .neither⟩)], []⟩, 1) := by decide +kernel

/-- **C14 and C15 fail in general**: after the input `let infixl 4 +, + in a` the operator `+` has a
fixity in the session although no input declared one at the top level. -/
theorem C14_C15_fail_after_duplicate_let :
    ((exRun [t!"let infixl 4 +, + in a"]).map (·.1.resolver)) = some ⟨[(opPlus, ⟨4, .left⟩)], []⟩ ∧
    (Event.text t!"let infixl 4 +, + in a").log = [] := by decide +kernel

/-- C20: `:reset` with one operator declared reports 0. -/
example : ((exRun [t!"infixl 6 +", t!":reset"]).map (·.2)) = some [.out t!"0 fixities removed\n"] := by
  decide +kernel

example : SaysWith t!":clear  --fixities" t!":clear" t!"--fixities" ∧ t!"--fixities" ∈ clearingOptions :=
  ⟨⟨t!"  ", (says_iff (by decide)).2 (by decide), by unfold Blank; decide, by decide, ⟨_, _, rfl, by decide⟩⟩,
    by decide⟩

end
end Pemdas
