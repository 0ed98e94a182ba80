import Verif.Props.SessionFix
/-
C55–C59: what is printed for an input, blocks in braces, loading files, `:info`.
-/
set_option linter.unusedSectionVars false
namespace Pemdas
open Session Resolver

section
variable [CharTables]

/-! ### C55 -/

theorem thread_length {P : Resolver → Expr → Resolver → Expr → Prop} {r r' es es'}
    (h : Thread P r es r' es') : es'.length = es.length := by
  induction h with
  | nil => rfl
  | cons _ _ ih => simp [ih]

theorem resolveAst_shape {r r' : Resolver} {ast a : Ast} {es : List AssocError}
    (h : resolveAst r ast = .ok (r', a, es)) :
    a.kinds = ast.kinds ∧ a.infxs = ast.infxs ∧ a.exprs.length = ast.exprs.length := by
  unfold resolveAst visitAst at h
  simp only [bind, Except.bind] at h
  cases hw : walkList visit { r with fixities := loadDecls r.fixities ast.infxs } ast.exprs with
  | error e => rw [hw] at h; cases h
  | ok x =>
    obtain ⟨r1, xs⟩ := x
    rw [hw] at h
    have hl := thread_length (walkList_thread (P := fun _ _ _ _ => True) (fun _ _ _ _ _ _ => trivial) _ _ _ hw)
    simp only at h
    split at h <;> simp only [Except.ok.injEq, Prod.mk.injEq] at h <;> obtain ⟨-, rfl, -⟩ := h <;>
      exact ⟨rfl, rfl, hl⟩

/-- The declarations with other expressions. -/
theorem rebuild (ds : List Decl) (xs : List Expr)
    (h : xs.length = (ds.filterMap Decl.asExpr?).length) :
    ∃ ds' : List Decl, ds'.map Decl.kind = ds.map Decl.kind ∧
      ds'.filterMap Decl.asInfix? = ds.filterMap Decl.asInfix? ∧ ds'.filterMap Decl.asExpr? = xs := by
  induction ds generalizing xs with
  | nil =>
    cases xs with
    | nil => exact ⟨[], rfl, rfl, rfl⟩
    | cons x xs => simp at h
  | cons d ds ih =>
    cases d with
    | infix_ d =>
      obtain ⟨ds', h1, h2, h3⟩ := ih xs (by simpa [Decl.asExpr?, List.filterMap_cons] using h)
      exact ⟨.infix_ d :: ds', by simp [h1], by simp [Decl.asInfix?, h2],
        by simp [List.filterMap_cons, Decl.asExpr?, h3]⟩
    | expr e =>
      cases xs with
      | nil => simp [Decl.asExpr?] at h
      | cons x xs =>
        obtain ⟨ds', h1, h2, h3⟩ := ih xs (by simpa [Decl.asExpr?, List.filterMap_cons] using h)
        exact ⟨.expr x :: ds', by simp [h1, Decl.kind], by simp [List.filterMap_cons, Decl.asInfix?, h2],
          by simp [Decl.asExpr?, h3]⟩

/-- The text `t` is the input completed by the line. -/
def Completes (s : Session) (line t : Text) : Prop :=
  ∃ body, (Ends line body ∨ Block line body) ∧ t = s.buffer ++ body

theorem step_completes {w : World} {s : Session} {line t : Text} (h : Completes s line t) :
    ∃ p, step w s line = process { s with buffer := t, prompt := p } := by
  obtain ⟨body, h | h, rfl⟩ := h
  · exact ⟨_, step_plain w s h⟩
  · exact ⟨s.prompt, step_block w s h⟩

variable [LawfulTables]

/-- **C55** When an input is accepted, what is printed is the resolved form of its first
declaration, if that is an expression, and nothing otherwise. The resolved input `a` has the same
declarations as the input, except for the grouping of its expressions. -/
theorem C55_first_echoed (w : World) {s : Session} {line t : Text} {ast a : Ast} {l : Lexer}
    {r : Resolver} (hc : Completes s line t) (hp : parse t = .ok ast l)
    (hr : (s.resolver.loadFixities ast).resolveAst ast = .ok (r, a, [])) :
    ∃ ds ds' s' fx, ast = Ast.ofDecls ds ∧ a = Ast.ofDecls ds' ∧
      ds'.map Decl.kind = ds.map Decl.kind ∧
      ds'.filterMap Decl.asInfix? = ds.filterMap Decl.asInfix? ∧
      step w s line = .ok (true, s', fx) ∧ s'.resolver = r ∧
      ((∃ e rest, ds' = .expr e :: rest ∧ ∀ m, ∃ p, Printer.writeExpr m e = .ok p ∧
          fx = [.out (t!"  " ++ p ++ t!"\n")]) ∨
       ((∀ e rest, ds' ≠ .expr e :: rest) ∧ fx = [])) := by
  obtain ⟨xs, ds, -, -, hds⟩ := C73_program hp
  have hds' : ast = Ast.ofDecls ds := hds
  obtain ⟨k1, k2, k3⟩ := resolveAst_shape hr
  rw [hds', Ast.ofDecls_eq] at k1 k2 k3
  simp only at k1 k2 k3
  obtain ⟨ds', e1, e2, e3⟩ := rebuild ds a.exprs k3
  have ha : a = Ast.ofDecls ds' := by
    rw [Ast.ofDecls_eq, e1, e2, e3, ← k1, ← k2]
  obtain ⟨p, hstep⟩ := step_completes (w := w) hc
  have hf : feedInput { s with buffer := [], prompt := p } t =
      .ok (.ok a, { s with buffer := [], prompt := p, resolver := r }) := by
    unfold feedInput; rw [hp]; simp only [hr]
  have hd : (AstIter.new a).next.1 = ds'.head? := by
    refine (AstIter.rep_next (ds := ds') ?_).1
    rw [ha, Ast.ofDecls_eq]; exact ⟨rfl, rfl, rfl⟩
  have hstep' : ∀ fx, echo { s with buffer := [], prompt := p, resolver := r } a = .ok fx →
      step w s line = .ok (true, { s with buffer := [], prompt := p, resolver := r }, fx) := by
    intro fx hfx
    rw [hstep]
    simp only [process, readBuffer, hf, hfx, bind, Except.bind]
  have he : echo { s with buffer := [], prompt := p, resolver := r } a =
      match ds'.head? with
      | some (.expr e) =>
        match Printer.printExpr r.fixities e with
        | .ok t => .ok [.out t]
        | .error p => .error (.panic p)
      | _ => .ok [] := by unfold echo; rw [hd]; rfl
  refine ⟨ds, ds', { s with buffer := [], prompt := p, resolver := r }, ?_⟩
  cases ds' with
  | nil => exact ⟨[], hds', ha, e1, e2, hstep' _ he, rfl, .inr ⟨by simp, rfl⟩⟩
  | cons d rest =>
    cases d with
    | infix_ d => exact ⟨[], hds', ha, e1, e2, hstep' _ he, rfl, .inr ⟨by simp, rfl⟩⟩
    | expr e =>
      have hm : e ∈ a.exprs := by rw [← e3]; simp [Decl.asExpr?]
      obtain ⟨q, hq⟩ := (C45_printing_succeeds hp hr r.fixities).2 e hm
      have he' : echo { s with buffer := [], prompt := p, resolver := r } a =
          .ok [.out (t!"  " ++ q ++ t!"\n")] := by
        rw [he]
        simp only [List.head?_cons, Printer.printExpr, hq, bind, Except.bind]
      refine ⟨_, hds', ha, e1, e2, hstep' _ he', rfl, .inl ⟨e, rest, rfl, fun m => ⟨q, ?_, rfl⟩⟩⟩
      rw [(C44_table_irrelevant m r.fixities e).1, hq]

/-- **C55** When an input does not parse or is ambiguous, no expression is printed, only an error
(on stderr). -/
theorem C55_rejected_not_echoed {w : World} {s s' : Session} {line t : Text} {b : Bool}
    {fx : List Effect} (hc : Completes s line t)
    (hr : (∃ e l, parse t = .err e l) ∨ ∃ ast l r a e es, parse t = .ok ast l ∧
      (s.resolver.loadFixities ast).resolveAst ast = .ok (r, a, e :: es))
    (h : step w s line = .ok (b, s', fx)) : ∃ m, fx = [.err m] := by
  obtain ⟨p, hstep⟩ := step_completes (w := w) hc
  rw [hstep] at h
  unfold process at h
  cases hb : readBuffer { s with buffer := t, prompt := p } with
  | error e => rw [hb] at h; cases h
  | ok x =>
    obtain ⟨s1, fx1⟩ := x
    rw [hb] at h
    simp only [bind, Except.bind, Except.ok.injEq, Prod.mk.injEq] at h
    obtain ⟨-, -, rfl⟩ := h
    obtain ⟨res, h1, h2⟩ := readBuffer_session hb
    rcases h2 with ⟨ast', rfl, -⟩ | ⟨e, m, -, -, rfl⟩
    · exfalso
      rcases feedInput_session h1 with ⟨e, l, h3, -, h4⟩ | ⟨ast, l, r, a, es, h3, h4, -, h5⟩
      · cases h4
      · rcases hr with ⟨e, l, hr⟩ | ⟨ast2, l2, r2, a2, e2, es2, hr1, hr2⟩
        · simp only at h3; rw [hr] at h3; cases h3
        · simp only at h3 h4; rw [hr1] at h3; cases h3
          rw [hr2] at h4
          simp only [Except.ok.injEq, Prod.mk.injEq] at h4
          rw [← h4.2.2] at h5
          cases h5
    · exact ⟨_, rfl⟩

/-! ### C56 -/

/-- **C56** (partial) A block within one line is processed without its braces, after what is
pending. Missing: blocks of several lines, for which it is false, see below. -/
theorem C56_one_line_partial (w : World) (s : Session) {line body : Text} (h : Block line body) :
    step w s line = (do
      let r ← readBuffer { s with buffer := s.buffer ++ body }
      .ok (true, r)) := step_block w s h

/-- **C56 is false**: after a line that opens a block (and does not close it), *any* line that is
not a command, a continuation or another opening brace ends the input, and its closing braces, if
any, are part of the input. -/
theorem C56_not_until_brace (w w' : World) (s : Session) {line line' body body' : Text} {n : Nat}
    (h : Says line (List.replicate (n + 1) '{' ++ body)) (h1 : ¬ t!"{" <+: body)
    (h2 : ¬ t!"}" <:+ body) (h3 : ¬ t!"\\" <:+ body) (h' : Ends line' body') :
    ∃ s', step w s line = .ok (true, s', []) ∧
      step w' s' line' = (do
        let r ← readBuffer { s with buffer := s.buffer ++ body ++ body', prompt := .initial }
        .ok (true, r)) := by
  refine ⟨_, step_open w s h h1 h2 h3, ?_⟩
  rw [step_plain w' _ h']
  rfl

/-! ### C57 -/

/-- The lines of a text that, trimmed, start with `infix`, trimmed. -/
def infixLines (ls : List Text) : List Text :=
  (ls.map trim).filter fun l => decide (t!"infix" <+: l)

/-- **C57** (partial) Loading a Haskell file processes its lines that start with `infix` as one
input, one directly after the other. Missing: that they are separate declarations, which is false
in general, see below. If there is one such line only, it is the input. -/
theorem C57_haskell_file_partial {w : World} {s s' : Session} {line p content : Text}
    {ls : List Text} {b : Bool} {fx : List Effect} (hb : s.buffer = [])
    (hl : SaysWith line t!":load" p) (hp : HsPath p) (hw : ∀ c ∈ p, isWhitespace c = false)
    (hq : ¬ t!"\"" <+: p) (hc : w.readFile p = .ok content) (hls : LinesOf ls content)
    (h : step w s line = .ok (b, s', fx)) :
    (∃ res, feedInput s (infixLines ls).flatten = .ok (res, s')) ∧
    (∀ d, infixLines ls = [d] → (infixLines ls).flatten = d) ∧ fx.head? = some (.read p) := by
  obtain ⟨rest, h1, h2, h3, h4⟩ := saysWith_iff.1 hl
  have hk : kind (t!":load" ++ rest) = .load :=
    (kind_of_word (isPrefix_of_rest (by decide) (by decide) h2)).2.2.2.2.1 rfl
  obtain ⟨rest', e1, e2, e3⟩ := cmdLoad_eq (w := w) (s := s) (says_lead h1) hk
  have : rest' = rest := List.append_cancel_left e1.symm
  subst this
  have hne : p ≠ t!"--prelude" ∧ p ≠ t!"--math" := by
    constructor <;> rintro rfl <;> exact absurd ((pathExtension_hs _).2 hp) (by decide)
  rw [step_cmd w h1 ⟨_, rfl⟩ hb, hk] at h
  simp only [byKind, e3, h3, loadArg, if_neg h4, if_neg hne.1, if_neg hne.2] at h
  have hws : splitWhitespace p = [p] := by
    rw [splitWhitespace_iff]
    simpa using Words.cons (a := []) (rest := []) (ws := []) (by simp [Blank]) h4 hw (by simp)
      (.nil (by simp [Blank]))
  have hu : unquote p = .ok p := unquote_opens.2 (by
    unfold Opens; rw [if_neg fun h => hq h.1])
  rw [hws] at h
  simp only [loadPaths, hu, bind, Except.bind] at h
  cases hr : readFile w s p with
  | error e => rw [hr] at h; cases h
  | ok x =>
    obtain ⟨s1, fx1⟩ := x
    rw [hr] at h
    simp only [Except.map, Except.ok.injEq, Prod.mk.injEq, List.append_nil] at h
    obtain ⟨-, rfl, rfl⟩ := h
    refine ⟨?_, fun d hd => by rw [hd]; simp, ?_⟩
    · rcases readFile_session hr with ⟨-, k, hk⟩ | ⟨content', res, hc', hf⟩
      · rw [hc] at hk; cases hk
      · rw [hc] at hc'; cases hc'
        rw [fileInput_hs hp hls] at hf
        exact ⟨res, hf⟩
    · unfold readFile at hr
      rw [hc] at hr
      simp only at hr
      split at hr
      · cases hr
      · cases hr; rfl
      · split at hr
        · cases hr; rfl
        · cases hr

/-! ### C58 -/

/-- The files that were read. -/
def filesRead (fx : List Effect) : List Text :=
  fx.filterMap fun
    | .read p => some p
    | _ => none

/-- The file read for an argument of `:load`. -/
def opened (word : Text) : Text :=
  if t!"\"" <+: word ∧ t!"\"" <:+ word then word.tail else word

theorem unquote_opened (word : Text) : unquote word = .ok (opened word) := by
  rw [unquote_opens]
  unfold Opens opened
  by_cases h : t!"\"" <+: word ∧ t!"\"" <:+ word
  · rw [if_pos h, if_pos h]
    obtain ⟨r, rfl⟩ := h.1
    rfl
  · rw [if_neg h, if_neg h]

theorem readFile_reads {w : World} {s s' : Session} {p : Text} {fx : List Effect}
    (h : readFile w s p = .ok (s', fx)) : filesRead fx = [p] := by
  unfold readFile at h
  split at h
  · cases h; rfl
  · split at h
    · cases h
    · cases h; rfl
    · split at h
      · cases h; rfl
      · cases h

theorem loadPaths_reads {w : World} {s s' : Session} {ws : List Text} {fx : List Effect}
    (h : loadPaths w s ws = .ok (s', fx)) : filesRead fx = ws.map opened := by
  induction ws generalizing s fx with
  | nil => cases h; rfl
  | cons p ws ih =>
    simp only [loadPaths, unquote_opened, bind, Except.bind] at h
    cases hr : readFile w s (opened p) with
    | error e => rw [hr] at h; cases h
    | ok x =>
      rw [hr] at h
      simp only at h
      cases hl : loadPaths w x.1 ws with
      | error e => rw [hl] at h; cases h
      | ok y =>
        rw [hl] at h
        simp only [Except.ok.injEq, Prod.mk.injEq] at h
        obtain ⟨hs, rfl⟩ := h
        simp only [filesRead, List.filterMap_append, List.map_cons]
        have h1 := readFile_reads (fx := x.2) hr
        have h2 := ih (s := x.1) (fx := y.2) (by rw [hl, ← hs])
        simp only [filesRead] at h1 h2
        rw [h1, h2]; rfl

/-- The files read by `:load` with the arguments `ws`. -/
theorem load_reads {w : World} {s s' : Session} {line o : Text} {ws : List Text} {b : Bool}
    {fx : List Effect} (hb : s.buffer = []) (hl : SaysWith line t!":load" o)
    (h1 : o ≠ t!"--math") (h2 : o ≠ t!"--prelude") (hw : Words o ws)
    (h : step w s line = .ok (b, s', fx)) : filesRead fx = ws.map opened := by
  obtain ⟨rest, e1, e2, e3, e4⟩ := saysWith_iff.1 hl
  have hk : kind (t!":load" ++ rest) = .load :=
    (kind_of_word (isPrefix_of_rest (by decide) (by decide) e2)).2.2.2.2.1 rfl
  obtain ⟨rest', e5, -, e6⟩ := cmdLoad_eq (w := w) (s := s) (says_lead e1) hk
  have : rest' = rest := List.append_cancel_left e5.symm
  subst this
  rw [step_cmd w e1 ⟨_, rfl⟩ hb, hk] at h
  simp only [byKind, e6, e3, loadArg, if_neg e4, if_neg h1, if_neg h2, splitWhitespace_iff.2 hw] at h
  cases hp : loadPaths w s ws with
  | error e => rw [hp] at h; cases h
  | ok x =>
    rw [hp] at h
    simp only [Except.map, Except.ok.injEq, Prod.mk.injEq] at h
    obtain ⟨-, rfl⟩ := h
    exact loadPaths_reads hp

/-- **C58** (partial) Arguments of `:load` without double quotes around them are opened as they
are, all of them, in order. Missing: quoted arguments, see the next theorem. -/
theorem C58_unquoted_partial {w : World} {s s' : Session} {line o : Text} {ws : List Text} {b : Bool}
    {fx : List Effect} (hb : s.buffer = []) (hl : SaysWith line t!":load" o)
    (h1 : o ≠ t!"--math") (h2 : o ≠ t!"--prelude") (hw : Words o ws)
    (hq : ∀ p ∈ ws, ¬ (t!"\"" <+: p ∧ t!"\"" <:+ p))
    (h : step w s line = .ok (b, s', fx)) : filesRead fx = ws := by
  rw [load_reads hb hl h1 h2 hw h]
  have : ∀ l : List Text, (∀ p ∈ l, ¬ (t!"\"" <+: p ∧ t!"\"" <:+ p)) → l.map opened = l := by
    intro l
    induction l with
    | nil => intro _; rfl
    | cons p l ih =>
      intro hl
      rw [List.map_cons, ih fun q hq => hl q (by simp [hq]), opened, if_neg (hl p (by simp))]
  exact this ws hq

/-- **C58 is false**: for a path in double quotes, the file opened is the path *with its closing
quote*, and nothing else is opened. -/
theorem C58_quoted_wrong {w : World} {s s' : Session} {line p : Text} {b : Bool}
    {fx : List Effect} (hb : s.buffer = []) (hl : SaysWith line t!":load" (t!"\"" ++ p ++ t!"\""))
    (hw : ∀ c ∈ p, isWhitespace c = false)
    (h : step w s line = .ok (b, s', fx)) : filesRead fx = [p ++ t!"\""] := by
  have hq : isWhitespace '"' = false := by decide
  rw [load_reads hb hl (by simp) (by simp) (ws := [t!"\"" ++ p ++ t!"\""]) ?_ h]
  · have : t!"\"" <+: t!"\"" ++ p ++ t!"\"" ∧ t!"\"" <:+ t!"\"" ++ p ++ t!"\"" :=
      ⟨⟨p ++ t!"\"", by simp⟩, ⟨_, rfl⟩⟩
    simp only [List.map_cons, List.map_nil, opened, if_pos this]
    rfl
  · have := Words.cons (a := []) (w := t!"\"" ++ p ++ t!"\"") (rest := []) (ws := [])
      (by simp [Blank]) (by simp) (by
        intro c hc
        simp only [List.mem_append, List.mem_singleton] at hc
        rcases hc with (rfl | hc) | rfl
        · exact hq
        · exact hw c hc
        · exact hq) (by simp) (.nil (by simp [Blank]))
    simpa using this

/-! ### C59 -/

/-- The table has an entry for the name. -/
def Declared (m : Fixities) (name : Text) : Prop := ∃ e ∈ m, e.1.symbol = name

theorem declared_iff (m : Fixities) (op : Infix) : m.has op = true ↔ Declared m op.symbol := by
  unfold Fixities.has Declared
  induction m with
  | nil => simp [Fixities.getDefined]
  | cons x m ih =>
    obtain ⟨k, v⟩ := x
    simp only [Fixities.getDefined]
    by_cases h : k.symbol = op.symbol
    · simp [h]
    · rw [if_neg h, ih]
      simp only [List.mem_cons, or_and_right, exists_or, exists_eq_left, h, false_or]

instance (m : Fixities) (name : Text) : Decidable (Declared m name) := by
  unfold Declared; infer_instance

theorem infoOp_symbol (word : Text) : (infoOp word).symbol = word := by
  unfold infoOp
  cases word with
  | nil => rfl
  | cons c r =>
    simp only
    split <;> rfl

theorem entriesFor_spec (r : Resolver) (ops : List Infix) (h : ∀ op ∈ ops, r.fixities.has op = true) :
    (r.entriesFor ops).map (·.1.symbol) = ops.map Infix.symbol ∧
    ∀ e ∈ r.entriesFor ops, e ∈ r.fixities ∧ r.fixities.getDefined e.1 = some e.2 := by
  unfold entriesFor
  induction ops with
  | nil => simp
  | cons op ops ih =>
    obtain ⟨i1, i2⟩ := ih fun o ho => h o (by simp [ho])
    obtain ⟨k1, k2⟩ := C17_key_value r.fixities op
    have hop := h op (by simp)
    unfold Fixities.has at hop
    rw [← k1] at hop
    cases hk : r.fixities.getKeyValue op with
    | none => rw [hk] at hop; cases hop
    | some x =>
      obtain ⟨k3, k4⟩ := k2 x hk
      rw [List.filterMap_cons, hk]
      refine ⟨by simp [i1, k4], ?_⟩
      intro e he
      rcases List.mem_cons.1 he with rfl | he
      · refine ⟨k3, ?_⟩
        have : ∀ (m : Fixities) (a b : Infix), a.symbol = b.symbol → m.getDefined a = m.getDefined b := by
          intro m a b hab
          induction m with
          | nil => rfl
          | cons y m ih => simp only [Fixities.getDefined, hab, ih]
        rw [this _ _ _ k4, ← k1, hk]; rfl
      · exact i2 e he

theorem Words.blank_append {b t : Text} {ws : List Text} (hb : Blank b) (h : Words t ws) :
    Words (b ++ t) ws := by
  have app : ∀ {a : Text}, Blank a → Blank (b ++ a) := fun ha c hc =>
    (List.mem_append.1 hc).elim (hb c) (ha c)
  cases h with
  | nil ht => exact .nil (app ht)
  | cons ha h1 h2 h3 h4 =>
    have := Words.cons (app ha) h1 h2 h3 h4
    simpa using this

/-- **C59** `:info` with names (in parentheses or not) prints the listing of the session's entries
for exactly those names that are declared, in order, and then, if there are any, exactly those
names that are not. A name starting with a letter or an underscore is shown as a promoted
operator. -/
theorem C59_info (w : World) {s : Session} {line word arg : Text} {ws : List Text}
    (hb : s.buffer = []) (hw : word = t!":info" ∨ word = t!":i") (hl : SaysWith line word arg)
    (hws : Words (arg.filter fun c => !(c == '(' || c == ')')) ws) :
    ∃ (es : List (Infix × Fixity)) (us : List Infix) (p : Text) (fx : List Effect),
      step w s line = .ok (true, s, .out (p ++ t!"\n") :: fx) ∧
      es.map (·.1.symbol) = ws.filter (fun n => decide (Declared s.resolver.fixities n)) ∧
      (∀ e ∈ es, s.resolver.fixities.getDefined e.1 = some e.2) ∧
      us.map Infix.symbol = ws.filter (fun n => !decide (Declared s.resolver.fixities n)) ∧
      (∀ op ∈ us, op = .promoted op.symbol ↔ ∃ c r, op.symbol = c :: r ∧ (isAlphabetic c = true ∨ c = '_')) ∧
      p = listingSent es ∧
      ((∀ e ∈ s.resolver.fixities, '\x1b' ∉ e.1.text) → Term.visible p = listing es) ∧
      ((us = [] ∧ fx = []) ∨ (us ≠ [] ∧ fx = [.out (t!"the following were not defined: " ++
        List.intercalate t!", " (us.map Infix.text))])) := by
  obtain ⟨bl, h1, h2, h3, h4⟩ := hl
  rw [List.append_assoc] at h1
  have hr : ∀ x, (bl ++ arg).head? = some x → isWhitespace x = true := by
    cases bl with
    | nil => exact absurd rfl h3
    | cons c r =>
      intro x hx
      simp only [List.cons_append, List.head?_cons, Option.some.injEq] at hx
      exact hx ▸ h2 c (by simp)
  have hpre : isPrefix word (word ++ (bl ++ arg)) = true := by
    rcases hw with rfl | rfl <;> exact isPrefix_of_rest (by decide) (by decide) hr
  have hk : kind (word ++ (bl ++ arg)) = .info :=
    (kind_of_word hpre).2.2.2.2.2.2 hw (by simp [h3])
  have hcol : t!":" <+: word ++ (bl ++ arg) := by rcases hw with rfl | rfl <;> exact ⟨_, rfl⟩
  have hcmd : cmdInfo s (word ++ (bl ++ arg)) = .ok (true, s, infoArg s (bl ++ arg)) := by
    unfold cmdInfo
    rw [isPrefix_other hpre]
    rcases hw with rfl | rfl
    · rw [if_pos (by decide), sliceFrom_ok]; rfl
    · rw [if_neg (by decide), sliceFrom_ok]; rfl
  have hsplit : splitWhitespace ((bl ++ arg).filter fun c => !(c == '(' || c == ')')) = ws := by
    rw [splitWhitespace_iff, List.filter_append, List.filter_eq_self.2]
    · exact hws.blank_append h2
    · intro c hc
      have := h2 c hc
      by_cases h5 : c = '('
      · subst h5; exact absurd this (by decide)
      · by_cases h6 : c = ')'
        · subst h6; exact absurd this (by decide)
        · simp [h5, h6]
  rw [step_cmd w h1 hcol hb, hk]
  simp only [byKind, hcmd, infoArg, hsplit]
  have hdef : ∀ n, s.resolver.fixities.has (infoOp n) = decide (Declared s.resolver.fixities n) := by
    intro n
    have := declared_iff s.resolver.fixities (infoOp n)
    rw [infoOp_symbol] at this
    by_cases h : Declared s.resolver.fixities n
    · rw [decide_eq_true h]; exact this.2 h
    · rw [decide_eq_false h]
      cases hh : s.resolver.fixities.has (infoOp n)
      · rfl
      · exact absurd (this.1 hh) h
  have hsym : ∀ l : List Text, (l.map infoOp).map Infix.symbol = l := by
    intro l
    rw [List.map_map, List.map_congr_left (g := id), List.map_id]
    intro n _; exact infoOp_symbol n
  have hf1 : (ws.map infoOp).filter s.resolver.fixities.has =
      (ws.filter fun n => decide (Declared s.resolver.fixities n)).map infoOp := by
    rw [List.filter_map]
    congr 1
    exact List.filter_congr fun n _ => hdef n
  have hf2 : ((ws.map infoOp).filter fun op => !s.resolver.fixities.has op) =
      (ws.filter fun n => !decide (Declared s.resolver.fixities n)).map infoOp := by
    rw [List.filter_map]
    congr 1
    exact List.filter_congr fun n _ => by simp only [Function.comp_apply, hdef n]
  obtain ⟨g1, g2⟩ := entriesFor_spec s.resolver ((ws.map infoOp).filter s.resolver.fixities.has)
    fun op hop => (List.mem_filter.1 hop).2
  refine ⟨s.resolver.entriesFor ((ws.map infoOp).filter s.resolver.fixities.has),
    (ws.map infoOp).filter fun op => !s.resolver.fixities.has op,
    Printer.writeFixities (s.resolver.entriesFor ((ws.map infoOp).filter s.resolver.fixities.has)),
    _, rfl, ?_, fun e he => (g2 e he).2, ?_, ?_, C49_sent _, ?_, ?_⟩
  · rw [g1, hf1, hsym]
  · rw [hf2, hsym]
  · intro op hop
    obtain ⟨n, -, rfl⟩ := List.mem_map.1 (List.mem_filter.1 hop).1
    rw [infoOp_symbol]
    unfold infoOp
    cases n with
    | nil => simp
    | cons c r =>
      simp only [List.cons.injEq]
      by_cases h : (isAlphabetic c || c == '_') = true
      · rw [if_pos h]
        simp only [Bool.or_eq_true, beq_iff_eq] at h
        exact ⟨fun _ => ⟨c, r, ⟨rfl, rfl⟩, h⟩, fun _ => rfl⟩
      · rw [if_neg h]
        simp only [Bool.or_eq_true, beq_iff_eq] at h
        constructor
        · intro h'; cases h'
        · rintro ⟨c', r', ⟨rfl, rfl⟩, h'⟩; exact absurd h' h
  · exact fun hesc => C49_listing _ fun e he => hesc e (g2 e he).1
  · generalize (ws.map infoOp).filter (fun op => !s.resolver.fixities.has op) = us
    cases us with
    | nil => exact .inl ⟨rfl, rfl⟩
    | cons op ops =>
      refine .inr ⟨by simp, ?_⟩
      have : op.text ++ (ops.map fun o => t!", " ++ o.text).flatten =
          List.intercalate t!", " ((op :: ops).map Infix.text) := by
        induction ops generalizing op with
        | nil => simp [List.intercalate]
        | cons o ops ih =>
          rw [List.map_cons, List.map_cons, List.map_cons, List.intercalate_cons_cons, ← List.map_cons, ← ih]
          simp
      rw [← this, ← List.append_assoc]
      rfl

end
section
attribute [local instance] asciiTables asciiTables_lawful

/-- C55: an accepted input with two expressions; only the first is printed. -/
example : (exRun [t!"a + b; c"]).map (·.2) = some [.out t!"  a + b\n"] := by decide +kernel

/-- C55: nothing is printed when the first declaration is no expression. -/
example : (exRun [t!"infixl 6 + a + b"]).map (·.2) = some [] := by decide +kernel

example : Completes exStart t!" a + b; c" t!"a + b; c" :=
  ⟨t!"a + b; c", .inl (.plain ((says_iff (by decide)).2 (by decide)) (by decide) (by decide)
    (by decide)), rfl⟩

example : Completes exPending t!"{a}" (exPending.buffer ++ t!"a") :=
  ⟨t!"a", .inr ⟨0, 0, (says_iff (by decide)).2 (by decide), by decide, by decide⟩, rfl⟩

/-- C55: rejected inputs. -/
example : ((exRun [t!"a +"]).map (·.2.length), (exRun [t!"infix 4 = a = b = c"]).map (·.2.length)) =
    (some 1, some 1) := by decide +kernel

example : Block t!"{{a + b}" t!"a + b" :=
  ⟨1, 0, (says_iff (by decide)).2 (by decide), by decide, by decide⟩

/-- **C56 is false**: the block `{a` … `+ b}` is processed with its closing brace, which is a syntax
error; and a line without a brace ends a block. -/
theorem C56_closing_brace_wrong :
    (exRun [t!"{a", t!"+ b}"]).map (·.2) =
      some [.err t!"\x1b[0m\x1b[31m[Error]:\x1b[0m \x1b[0munexpected token `}` found at [5]:1:6\n"] ∧
    (exRun [t!"{a", t!"+ b"]).map (·.2) = some [.out t!"  a + b\n"] := by decide +kernel

/-- C56: a block of one line. -/
example : (exRun [t!"{a + b}"]).map (·.2) = some [.out t!"  a + b\n"] := by decide +kernel

/-- A world with a Haskell file. -/
def exHsWorld : World :=
  { exWorld with readFile := fun _ => .ok t!"infixl 4 'elem\ninfixr 5 ++\n" }

/-- **C57 is false**: a Haskell file with the lines `infixl 4 'elem` and `infixr 5 ++`, each of which
is a declaration, is rejected, and no fixity is loaded. -/
theorem C57_separate_wrong :
    ((step exHsWorld exStart t!":load a.hs").toOption.map fun x => x.2.1.resolver) = some ⟨[], []⟩ ∧
    ((exRun [t!"infixl 4 'elem", t!"infixr 5 ++"]).map (·.1.resolver)) =
      some ⟨[(.promoted t!"elem", ⟨4, .left⟩), (.standard t!"++", ⟨5, .right⟩)], []⟩ := by
  decide +kernel

/-- C57: the hypotheses can be met, and two declarations that happen to be separated by their
characters are loaded. -/
example : HsPath t!"src/a.hs" :=
  ⟨t!"src/", t!"a", [], by decide, by decide, by decide, .inr ⟨t!"src", rfl⟩, by simp⟩

example : infixLines [t!"module A where", t!" infixl 6 +", t!"", t!"infixr 5 ++"] =
    [t!"infixl 6 +", t!"infixr 5 ++"] ∧
    LinesOf [t!"module A where", t!" infixl 6 +", t!"", t!"infixr 5 ++"]
      t!"module A where\n infixl 6 +\n\ninfixr 5 ++" := by
  unfold LinesOf infixLines; decide

example : ((step { exWorld with readFile := fun _ => .ok t!"x\ninfixl 6 +\ninfixr 5 ++\n" }
    exStart t!":load a.hs").toOption.map fun x => x.2.1.resolver.fixities) =
    some [(opPlus, ⟨6, .left⟩), (.standard t!"++", ⟨5, .right⟩)] := by decide +kernel

/-- C58: quoted and unquoted arguments. -/
example : SaysWith t!":load \"a.hs\"" t!":load" (t!"\"" ++ t!"a.hs" ++ t!"\"") :=
  ⟨t!" ", (says_iff (by decide)).2 (by decide), by unfold Blank; decide, by decide,
    ⟨_, _, rfl, by decide⟩⟩

example : ((step exWorld exStart t!":load \"a.hs\"").toOption.map fun x => filesRead x.2.2) =
    some [t!"a.hs\""] := by decide +kernel

example : ((step exWorld exStart t!":load a b").toOption.map fun x => filesRead x.2.2) =
    some [t!"a", t!"b"] := by decide +kernel

/-- C59: one name is declared, one is not. -/
example : (exRun [t!"infixl 6 +", t!":info (+) elem"]).map (·.2) =
    some [.out (Printer.writeFixities [(opPlus, ⟨6, .left⟩)] ++ t!"\n"),
      .out t!"the following were not defined: 'elem"] := by decide +kernel

end
end Pemdas
