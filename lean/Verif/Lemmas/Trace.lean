import Verif.Spec.Trace
import Verif.Model.Trace
import Verif.Props.Desk
/-
Lemmas for C159: what has been done when a session crashes.
-/
set_option linter.unusedSectionVars false
namespace Pemdas
open Session Resolver

/-- A traced operation does the same as one that forgets what it did before a panic. -/
structure Agrees {α : Type} (x : Traced α) (y : Except Stop (α × List Effect)) : Prop where
  ok : ∀ {a fx}, y = .ok (a, fx) → x = ⟨fx, .ok a⟩
  error : ∀ {e}, y = .error e → ∃ fx, x = ⟨fx, .error e⟩

/-- The same for lines. -/
structure AgreesLine (x : Traced (Bool × Session)) (y : Cmd) : Prop where
  ok : ∀ {b s fx}, y = .ok (b, s, fx) → x = ⟨fx, .ok (b, s)⟩
  error : ∀ {e}, y = .error e → ∃ fx, x = ⟨fx, .error e⟩

theorem Agrees.back {α : Type} {x : Traced α} {y : Except Stop (α × List Effect)} (h : Agrees x y)
    {fx : List Effect} {e : Stop} (hx : x = ⟨fx, .error e⟩) : y = .error e := by
  cases hy : y with
  | ok z =>
    obtain ⟨a, fx'⟩ := z
    rw [h.ok hy] at hx; cases hx
  | error e' =>
    obtain ⟨fx', h'⟩ := h.error hy
    rw [h'] at hx; cases hx; rfl

theorem AgreesLine.back {x : Traced (Bool × Session)} {y : Cmd} (h : AgreesLine x y)
    {fx : List Effect} {e : Stop} (hx : x = ⟨fx, .error e⟩) : y = .error e := by
  cases hy : y with
  | ok z =>
    obtain ⟨b, s, fx'⟩ := z
    rw [h.ok hy] at hx; cases hx
  | error e' =>
    obtain ⟨fx', h'⟩ := h.error hy
    rw [h'] at hx; cases hx; rfl

theorem AgreesLine.back_ok {x : Traced (Bool × Session)} {y : Cmd} (h : AgreesLine x y)
    {fx : List Effect} {b : Bool} {s : Session} (hx : x = ⟨fx, .ok (b, s)⟩) : y = .ok (b, s, fx) := by
  cases hy : y with
  | ok z =>
    obtain ⟨b, s, fx'⟩ := z
    rw [h.ok hy] at hx; cases hx; rfl
  | error e' =>
    obtain ⟨fx', h'⟩ := h.error hy
    rw [h'] at hx; cases hx

theorem agrees_traced (y : Cmd) : AgreesLine y.traced y := by
  constructor
  · rintro b s fx rfl; rfl
  · rintro e rfl; exact ⟨[], rfl⟩

/-- An operation with nothing to be said after it. -/
theorem agrees_line {x : Traced Session} {y : Except Stop (Session × List Effect)} (h : Agrees x y) :
    AgreesLine (x.bind fun s => ⟨[], .ok (true, s)⟩) (y.map (true, ·)) := by
  cases hy : y with
  | ok z =>
    obtain ⟨s, fx⟩ := z
    rw [h.ok hy]
    constructor
    · intro b s' fx' h'; cases h'; simp [Traced.bind]
    · intro e h'; cases h'
  | error e =>
    obtain ⟨fx, h'⟩ := h.error hy
    rw [h']
    constructor
    · intro b s' fx' h'; cases h'
    · intro e' h'; cases h'; exact ⟨fx, rfl⟩

section
variable [CharTables]

theorem writeParts_text (e : ParseError) :
    (∀ {t}, e.text = .ok t → writeParts e.partsWithLoc = (t, none)) ∧
    (∀ {p}, e.text = .error p → (writeParts e.partsWithLoc).2 = some p) ∧
    (∀ {t}, e.textWithoutLoc = .ok t → writeParts e.parts = (t, none)) ∧
    ∀ {p}, e.textWithoutLoc = .error p → (writeParts e.parts).2 = some p := by
  cases e with
  | unexpected f loc =>
    cases hf : f.text <;>
      simp [ParseError.text, ParseError.textWithoutLoc, ParseError.parts, ParseError.partsWithLoc,
        bind, Except.bind, hf, writeParts]
  | expected t loc f =>
    cases ht : t.text <;> cases hf : f.text <;>
      simp [ParseError.text, ParseError.textWithoutLoc, ParseError.parts, ParseError.partsWithLoc,
        bind, Except.bind, ht, hf, writeParts]

theorem writeParts_begun {e : ParseError} {m : Text} (h : Begun e m) :
    writeParts e.partsWithLoc = (m, some .emptyCharTodo) ∧
    writeParts e.parts = (m, some .emptyCharTodo) := by
  cases h with
  | unexpected => exact ⟨rfl, rfl⟩
  | @expected t tt a b loc h =>
    have : Token.text (.error (.emptyChar a b)) = .error .emptyCharTodo := rfl
    simp [ParseError.parts, ParseError.partsWithLoc, writeParts, h, this]

/-- What printing a message is, if it is forgotten what was written before a panic. -/
def printed (mk : Text → Effect) (s : Session) :
    Except Panic Text → Except Stop (Session × List Effect)
  | .ok t => .ok (s, [mk (t ++ t!"\n")])
  | .error p => .error (.panic p)

theorem agrees_print {mk : Text → Effect} {ps : List (Except Panic Text)} {s : Session}
    {y : Except Panic Text} (h1 : ∀ {t}, y = .ok t → writeParts ps = (t, none))
    (h2 : ∀ {p}, y = .error p → (writeParts ps).2 = some p) :
    Agrees ((printParts mk ps).bind fun _ => ⟨[], .ok s⟩) (printed mk s y) := by
  cases y with
  | ok t =>
    constructor
    · intro a fx h; cases h
      simp [printParts, h1 rfl, Traced.bind]
    · intro e h; cases h
  | error p =>
    constructor
    · intro a fx h; cases h
    · intro e h
      cases h
      refine ⟨[mk (writeParts ps).1], ?_⟩
      have : writeParts ps = ((writeParts ps).1, some p) := by rw [← h2 rfl]
      unfold printParts
      rw [this]
      rfl

theorem agrees_readBuffer (s : Session) : Agrees s.readBufferT s.readBuffer := by
  unfold readBufferT readBuffer
  cases feedInput { s with buffer := [] } s.buffer with
  | error e => exact ⟨fun h => (by cases h), fun h => (by cases h; exact ⟨[], rfl⟩)⟩
  | ok y =>
    obtain ⟨r, s'⟩ := y
    cases r with
    | ok ast =>
      simp only
      cases echo s' ast with
      | ok fx => exact ⟨fun h => (by cases h; rfl), fun h => (by cases h)⟩
      | error e => exact ⟨fun h => (by cases h), fun h => (by cases h; exact ⟨[], rfl⟩)⟩
    | error e =>
      simp only
      have := agrees_print (mk := .err) (s := s') (ps := e.parts) (y := e.text)
      have hp : (∀ {t}, e.text = .ok t → writeParts e.parts = (t, none)) ∧
          (∀ {p}, e.text = .error p → (writeParts e.parts).2 = some p) := by
        cases e with
        | parser e =>
          have hw := writeParts_text e
          cases he : e.text with
          | ok t => simp [SessionError.text, SessionError.parts, bind, Except.bind, he, writeParts, hw.1 he]
          | error p =>
            simp [SessionError.text, SessionError.parts, bind, Except.bind, he, writeParts, hw.2.1 he]
        | resolver es =>
          match es with
          | [] => simp [SessionError.text, SessionError.parts, writeParts]
          | [e] => simp [SessionError.text, SessionError.parts, writeParts]
          | e :: e' :: es => simp [SessionError.text, SessionError.parts, writeParts]
      have := this hp.1 hp.2
      cases hy : e.text with
      | ok t => rw [hy] at this; exact this
      | error q => rw [hy] at this; exact this

theorem agrees_readFile (w : World) (s : Session) (p : Text) :
    Agrees (readFileT w s p) (readFile w s p) := by
  unfold readFileT readFile
  cases w.readFile p with
  | error k => exact ⟨fun h => (by cases h; rfl), fun h => (by cases h)⟩
  | ok content =>
    simp only
    cases feedInput s (fileInput p content) with
    | error e => exact ⟨fun h => (by cases h), fun h => (by cases h; exact ⟨_, rfl⟩)⟩
    | ok y =>
      obtain ⟨r, s'⟩ := y
      cases r with
      | ok ast => exact ⟨fun h => (by cases h; rfl), fun h => (by cases h)⟩
      | error e =>
        simp only
        have hp : (∀ {t}, e.textWithPath p = .ok t → writeParts (e.partsWithPath p) = (t, none)) ∧
            (∀ {q}, e.textWithPath p = .error q → (writeParts (e.partsWithPath p)).2 = some q) := by
          cases e with
          | parser e =>
            have hw := writeParts_text e
            cases he : e.textWithoutLoc with
            | ok t => simp [SessionError.textWithPath, SessionError.partsWithPath, bind, Except.bind, he,
                writeParts, hw.2.2.1 he]
            | error q => simp [SessionError.textWithPath, SessionError.partsWithPath, bind, Except.bind, he,
                writeParts, hw.2.2.2 he]
          | resolver es => simp [SessionError.textWithPath, SessionError.partsWithPath, writeParts]
        have := agrees_print (mk := .out) (s := s') (ps := e.partsWithPath p) (y := e.textWithPath p)
          hp.1 hp.2
        cases hy : e.textWithPath p with
        | ok t =>
          rw [hy] at this
          have := this.ok rfl
          rw [this]
          exact ⟨fun h => (by cases h; rfl), fun h => (by cases h)⟩
        | error q =>
          rw [hy] at this
          obtain ⟨fx, this⟩ := this.error rfl
          rw [this]
          exact ⟨fun h => (by cases h), fun h => (by cases h; exact ⟨_, rfl⟩)⟩

theorem agrees_loadPaths (w : World) (s : Session) (ws : List Text) :
    Agrees (loadPathsT w s ws) (loadPaths w s ws) := by
  induction ws generalizing s with
  | nil => exact ⟨fun h => (by cases h; rfl), fun h => (by cases h)⟩
  | cons word ws ih =>
    unfold loadPathsT loadPaths
    cases unquote word with
    | error e => exact ⟨fun h => (by cases h), fun h => (by cases h; exact ⟨_, rfl⟩)⟩
    | ok p =>
      simp only [bind, Except.bind]
      cases hr : readFile w s p with
      | error e =>
        obtain ⟨fx, h⟩ := (agrees_readFile w s p).error hr
        rw [h]
        exact ⟨fun h => (by cases h), fun h => (by cases h; exact ⟨_, rfl⟩)⟩
      | ok y =>
        obtain ⟨s1, fx1⟩ := y
        rw [(agrees_readFile w s p).ok hr]
        simp only [Traced.bind]
        cases hl : loadPaths w s1 ws with
        | error e =>
          obtain ⟨fx, h⟩ := (ih s1).error hl
          rw [h]
          exact ⟨fun h => (by cases h), fun h => (by cases h; exact ⟨_, rfl⟩)⟩
        | ok z =>
          obtain ⟨s2, fx2⟩ := z
          rw [(ih s1).ok hl]
          exact ⟨fun h => (by cases h; rfl), fun h => (by cases h)⟩

/-- The argument of `:load`. -/
def loadArgT (w : World) (s : Session) (o : Text) : Traced Session :=
  if o = [] ∨ o = t!"--prelude" ∨ o = t!"--math" then Traced.of (loadArg w s o)
  else loadPathsT w s (splitWhitespace o)

theorem agrees_loadArg (w : World) (s : Session) (o : Text) :
    Agrees (loadArgT w s o) (loadArg w s o) := by
  unfold loadArgT
  by_cases h : o = [] ∨ o = t!"--prelude" ∨ o = t!"--math"
  · rw [if_pos h]
    exact ⟨fun h => (by rw [h]; rfl), fun h => (by rw [h]; exact ⟨_, rfl⟩)⟩
  · rw [if_neg h]
    simp only [not_or] at h
    have : loadArg w s o = loadPaths w s (splitWhitespace o) := by
      rw [loadArg, if_neg h.1, if_neg h.2.1, if_neg h.2.2]
    rw [this]
    exact agrees_loadPaths w s _

/-- What `commandT` does for each kind. -/
def byKindT (w : World) (s : Session) (c : Text) (k : Kind) : Traced (Bool × Session) :=
  if k = .load then cmdLoadT w s c else (byKind w s c k).traced

theorem commandT_eq (w : World) (s : Session) (c : Text) :
    commandT w s c = byKindT w s c (kind c) :=
  ite_map _ rfl (ite_map _ rfl (ite_map _ rfl (ite_map _ rfl (ite_map _ rfl (ite_map _ rfl
    (ite_map _ rfl (ite_map _ rfl (ite_map _ rfl (ite_map _ rfl rfl)))))))))

theorem agrees_cmdLoad (w : World) (s : Session) (c : Text) :
    AgreesLine (cmdLoadT w s c) (cmdLoad w s c) := by
  unfold cmdLoadT cmdLoad
  cases sliceFrom c (utf8Len t!":load") with
  | error e => exact ⟨fun h => (by cases h), fun h => (by cases h; exact ⟨_, rfl⟩)⟩
  | ok o =>
    have := agrees_line (agrees_loadArg w s (trim o))
    change AgreesLine ((loadArgT w s (trim o)).bind fun s => ⟨[], .ok (true, s)⟩)
      (loadArg w s (trim o) >>= fun r => .ok (true, r))
    cases hl : loadArg w s (trim o) with
    | error e => rw [hl] at this; exact this
    | ok y => rw [hl] at this; exact this

theorem agrees_command (w : World) (s : Session) (c : Text) :
    AgreesLine (commandT w s c) (command w s c) := by
  rw [commandT_eq, command_eq]
  unfold byKindT
  by_cases hk : kind c = .load
  · rw [if_pos hk, hk]; exact agrees_cmdLoad w s c
  · rw [if_neg hk]; exact agrees_traced _

theorem agrees_process (s : Session) : AgreesLine (processT s) (process s) := by
  have := agrees_line (agrees_readBuffer s)
  unfold process
  cases hr : s.readBuffer with
  | error e => rw [hr] at this; exact this
  | ok y => rw [hr] at this; exact this

theorem agrees_ite {p : Prop} [Decidable p] {x x' : Traced (Bool × Session)} {y y' : Cmd}
    (h : AgreesLine x y) (h' : AgreesLine x' y') :
    AgreesLine (if p then x else x') (if p then y else y') := by
  by_cases hp : p <;> simp only [hp, if_true, if_false] <;> assumption

theorem agrees_ok (b : Bool) (s : Session) (fx : List Effect) :
    AgreesLine ⟨fx, .ok (b, s)⟩ (.ok (b, s, fx)) := agrees_traced (.ok (b, s, fx))

theorem agrees_step (w : World) (s : Session) (line : Text) :
    AgreesLine (stepT w s line) (step w s line) := by
  unfold stepT step
  refine agrees_ite (agrees_ok _ _ _) (agrees_ite (agrees_ite (agrees_command _ _ _) (agrees_ok _ _ _))
    (agrees_ite (agrees_traced _) (agrees_ite (agrees_traced _) (agrees_ite ?_ (agrees_process _)))))
  exact agrees_ite (agrees_ok _ _ _) (agrees_process _)

theorem agrees_run (s : Session) (ins : List (World × Input)) :
    AgreesLine (runT s ins) (run s ins) := by
  induction ins generalizing s with
  | nil => exact agrees_ok _ _ _
  | cons x ins ih =>
    obtain ⟨w, i⟩ := x
    cases i with
    | eof => exact agrees_ok _ _ _
    | interrupted => exact agrees_ok _ _ _
    | error m =>
      unfold runT run
      cases hr : run s ins with
      | error e =>
        obtain ⟨fx, h⟩ := (ih s).error hr
        rw [h]
        exact ⟨fun h => (by cases h), fun h => (by cases h; exact ⟨_, rfl⟩)⟩
      | ok y =>
        obtain ⟨b, s', fx⟩ := y
        rw [(ih s).ok hr]
        exact agrees_ok _ _ _
    | line l =>
      unfold runT run
      cases hs : step w s l with
      | error e =>
        obtain ⟨fx, h⟩ := (agrees_step w s l).error hs
        rw [h]
        exact ⟨fun h => (by cases h), fun h => (by cases h; exact ⟨_, rfl⟩)⟩
      | ok y =>
        obtain ⟨b, s', fx⟩ := y
        rw [(agrees_step w s l).ok hs]
        cases b with
        | false =>
          have := agrees_ok false s' (fx ++ [])
          rw [List.append_nil] at this
          simpa [Traced.bind, bind, Except.bind] using this
        | true =>
          simp only [Traced.bind, bind, Except.bind, if_true]
          cases hr : run s' ins with
          | error e =>
            obtain ⟨fx', h⟩ := (ih s').error hr
            rw [h]
            exact ⟨fun h => (by cases h), fun h => (by cases h; exact ⟨_, rfl⟩)⟩
          | ok z =>
            obtain ⟨b2, s2, fx2⟩ := z
            rw [(ih s').ok hr]
            exact agrees_ok _ _ _

theorem agrees_runRepl (fs : FileSystem) (home : Option Text) (ins : List (World × Input)) :
    AgreesLine (runReplT fs home ins) (runRepl fs home ins) := by
  unfold runReplT runRepl
  cases hn : Session.new fs home with
  | mk s fx =>
    simp only
    cases hr : run s ins with
    | error e =>
      obtain ⟨fx', h⟩ := (agrees_run s ins).error hr
      rw [h]
      exact ⟨fun h => (by cases h), fun h => (by cases h; exact ⟨_, rfl⟩)⟩
    | ok y =>
      obtain ⟨b, s', fx'⟩ := y
      rw [(agrees_run s ins).ok hr]
      exact agrees_ok _ _ _

/-! ### lines -/

theorem stepT_says (w : World) (s : Session) {line c : Text} (h : Says line c) :
    stepT w s line =
      if startsWith c t!":" then
        if s.buffer = [] then commandT w s c
        else ⟨[errLine t!"cannot call a command in multiline mode!"], .ok (true, s)⟩
      else if contInfix c then (contLine s c (utf8Len t!" \\") t!"\n").traced
      else if endsWith c t!"\\" then (contLine s c (utf8Len t!"\\") t!"\n ").traced
      else if startsWith c t!"{" then
        if !endsWith (trimStartMatches '{' c) t!"}" then
          ⟨[], .ok (true, { s with prompt := .continued, buffer := s.buffer ++ trimStartMatches '{' c })⟩
        else processT { s with buffer := s.buffer ++ trimEndMatches '}' (trimStartMatches '{' c) }
      else processT { s with
        buffer := s.buffer ++ c
        prompt := if s.prompt = .continued then .initial else s.prompt } := by
  unfold stepT
  simp only [h.trim, h.self.trim, h.ne_nil, if_false]

theorem stepT_plain (w : World) (s : Session) {line body : Text} (h : Ends line body) :
    stepT w s line = processT { s with
      buffer := s.buffer ++ body
      prompt := if s.prompt = .continued then .initial else s.prompt } := by
  cases h with
  | plain h1 h2 h3 h4 =>
    rw [stepT_says w s h1, if_neg (by rw [startsWith_iff]; exact h2), if_neg, if_neg, if_neg]
    · rw [startsWith_iff]; exact h3
    · rw [endsWith_iff]; exact h4
    · rw [contInfix_iff]
      rintro ⟨b, rfl, -⟩
      exact h4 ⟨b ++ t!" ", by simp⟩

theorem stepT_block (w : World) (s : Session) {line body : Text} (h : Block line body) :
    stepT w s line = processT { s with buffer := s.buffer ++ body } := by
  obtain ⟨n, m, h1, h2, h3⟩ := h
  have hrep : ∀ k, List.replicate (k + 1) '}' = List.replicate k '}' ++ t!"}" := by
    intro k
    rw [List.replicate_succ']
  have hb : ¬ t!"{" <+: body ++ List.replicate (m + 1) '}' := by
    intro h
    cases body with
    | nil => simp [List.replicate_succ] at h
    | cons c body =>
      refine h2 ?_
      simp only [List.cons_append, List.cons_prefix_cons, List.nil_prefix, and_true] at h ⊢
      exact h
  rw [stepT_says w s h1, if_neg, if_neg, if_neg, if_pos]
  · rw [List.append_assoc, trimStart_braces _ hb, if_neg, trimEnd_braces _ h3]
    rw [Bool.not_eq_true', Bool.not_eq_false, endsWith_iff, hrep]
    exact ⟨_, List.append_assoc ..⟩
  · rw [startsWith_iff]
    exact ⟨List.replicate n '{' ++ body ++ List.replicate (m + 1) '}', by simp [List.replicate_succ]⟩
  · rw [endsWith_iff, hrep]
    rintro ⟨t, ht⟩
    have := congrArg List.getLast? ht
    simp at this
  · rw [contInfix_iff]
    rintro ⟨b, hb, hi⟩
    have := congrArg List.getLast? hb
    rw [hrep] at this
    simp at this
  · rw [startsWith_iff]
    rintro ⟨t, ht⟩
    simp [List.replicate_succ] at ht

variable [LawfulTables]

theorem stepT_load (w : World) {s : Session} (hb : s.buffer = []) {line o : Text}
    (hw : SaysWith line t!":load" o) (hn : o ∉ [t!"--math", t!"--prelude"]) :
    stepT w s line =
      (loadPathsT w s (splitWhitespace o)).bind fun s => ⟨[], .ok (true, s)⟩ := by
  obtain ⟨rest, h1, h2, h3, h4⟩ := saysWith_iff.1 hw
  have hk : kind (t!":load" ++ rest) = .load :=
    (kind_of_word (isPrefix_of_rest (by decide) (by decide) h2)).2.2.2.2.1 rfl
  simp only [List.mem_cons, List.not_mem_nil, or_false, not_or] at hn
  have hc : t!":" <+: t!":load" ++ rest := ⟨_, rfl⟩
  rw [stepT_says w s h1, if_pos (startsWith_iff.2 hc), if_pos hb, commandT_eq, hk, byKindT,
    if_pos rfl, cmdLoadT, sliceFrom_ok]
  simp only [h3]
  rw [if_neg (by simp [h4, hn])]

/-! ### what is done before a panic -/

theorem begun_exists {src : Text} {e : ParseError} {l : Lexer} {p : Panic}
    (h : parse src = .err e l) (ht : e.text = .error p) : p = .emptyCharTodo ∧ ∃ m, Begun e m := by
  have hx := C68_exactly (.inl h)
  obtain ⟨rfl, a, b, hc⟩ := (hx.1 p).1 ht
  refine ⟨rfl, ?_⟩
  cases e with
  | unexpected f loc =>
    have hc : f = .error (.emptyChar a b) := hc
    subst hc
    exact ⟨_, .unexpected⟩
  | expected t loc f =>
    have hc : f = .error (.emptyChar a b) := hc
    subst hc
    have hp : ErrAt (Lexer.new src) (.expected t loc (.error (.emptyChar a b))) l := by
      have := parse_run src; rw [h] at this; exact this
    obtain ⟨t1, loc1, h1, -⟩ := hp.token
    rcases h1 with h1 | ⟨t', h6, h1⟩
    · cases h1
    · cases h1
      obtain ⟨tt, htt⟩ : ∃ s, t.text = .ok s := by
        apply token_text_ok
        cases t <;> first | rfl | exact absurd rfl (wanted_ne h6 _)
      exact ⟨_, .expected htt⟩

theorem begun_text {e : ParseError} {m : Text} (h : Begun e m) :
    e.text = .error .emptyCharTodo ∧ e.textWithoutLoc = .error .emptyCharTodo := by
  cases h with
  | unexpected => exact ⟨rfl, rfl⟩
  | @expected t tt a b loc h =>
    have : Token.text (.error (.emptyChar a b)) = .error .emptyCharTodo := rfl
    simp [ParseError.text, ParseError.textWithoutLoc, bind, Except.bind, h, this]

theorem begun_one {e : ParseError} {m m' : Text} (h : Begun e m) (h' : Begun e m') : m = m' := by
  have := (writeParts_begun h).1
  rw [(writeParts_begun h').1] at this
  cases this; rfl

theorem snaps_readBuffer {s : Session} {fx : List Effect} {p : Panic} (h : Snaps s.buffer fx p) :
    s.readBufferT = ⟨fx, .error (.panic p)⟩ := by
  cases h with
  | silently h => unfold readBufferT; rw [feedInput_panic _ h]
  | @speaking e lx m h hm =>
    unfold readBufferT
    rw [feedInput_err _ h]
    have : (Style.new SessionError.tag).display = painted t!"0" (painted t!"31" t!"[Error]:" ++ t!" ") := by
      decide
    simp [SessionError.parts, printParts, writeParts, (writeParts_begun hm).1, Traced.bind, this]

theorem snaps_process {s : Session} {fx : List Effect} {e : Stop} :
    processT s = ⟨fx, .error e⟩ ↔ ∃ p, e = .panic p ∧ Snaps s.buffer fx p := by
  have back : ∀ {fx p}, Snaps s.buffer fx p → processT s = ⟨fx, .error (.panic p)⟩ := by
    intro fx p h
    unfold processT
    rw [snaps_readBuffer h]
    rfl
  constructor
  · intro h
    obtain ⟨p, rfl, hc⟩ := process_stop_iff.1 ((agrees_process s).back h)
    refine ⟨p, rfl, ?_⟩
    obtain ⟨fx', p', hs⟩ : ∃ fx p, Snaps s.buffer fx p := by
      rcases crashes_err hc with hc | ⟨e, l, he, ht, -⟩
      · exact ⟨_, _, .silently hc⟩
      · obtain ⟨-, m, hm⟩ := begun_exists he ht
        exact ⟨_, _, .speaking he hm⟩
    have := back hs
    rw [h] at this
    cases this
    exact hs
  · rintro ⟨p, rfl, h⟩
    exact back h

theorem snaps_readFile {w : World} {s : Session} {word : Text} {fx : List Effect} {q : Panic}
    (h : SnapsFile w word fx q) :
    ∃ p, unquote word = .ok p ∧ readFileT w s p = ⟨fx, .error (.panic q)⟩ := by
  cases h with
  | @silently p content t q h1 h2 h3 h4 =>
    refine ⟨p, unquote_opens.2 h1, ?_⟩
    rw [fileText_iff] at h3
    subst h3
    simp [readFileT, h2, feedInput_panic s h4, Traced.bind]
  | @speaking p content t e lx m h1 h2 h3 h4 h5 =>
    refine ⟨p, unquote_opens.2 h1, ?_⟩
    rw [fileText_iff] at h3
    subst h3
    have tag : SessionError.tag = painted t!"31" t!"[Error]:" ++ t!" " := by decide
    have blue : ∀ t, (Style.ansi .blue t).display = painted t!"34" t := by
      intro t
      have : ∀ t : Text, (Style.ansi .blue t).display = t!"\x1b[34m" ++ t ++ t!"\x1b[0m" := by
        intro t; rfl
      rw [this]; rfl
    simp [readFileT, h2, feedInput_err s h4, Traced.bind, SessionError.partsWithPath, printParts,
      writeParts, (writeParts_begun h5).2, tag, blue]

theorem snaps_file_exists {w : World} {s : Session} {word p : Text} {e : Stop} (ho : Opens word p)
    (h : readFile w s p = .error e) : ∃ fx q, SnapsFile w word fx q := by
  cases hw : w.readFile p with
  | error k => simp only [readFile, hw] at h; cases h
  | ok content =>
    obtain ⟨q, rfl, hc⟩ := (readFile_stop_iff hw).1 h
    have ht : FileText p content (fileInput p content) := fileText_iff.2 rfl
    rcases crashes_err hc with hc | ⟨e, l, he, h1, -⟩
    · exact ⟨_, _, .silently ho hw ht hc⟩
    · obtain ⟨-, m, hm⟩ := begun_exists he h1
      exact ⟨_, _, .speaking ho hw ht he hm⟩

theorem snaps_files {w : World} {ws : List Text} {s : Session} (hn : s.Neat) {fx : List Effect}
    {e : Stop} : loadPathsT w s ws = ⟨fx, .error e⟩ ↔
      ∃ before word after fx₁ l fx₂ p, ws = before ++ word :: after ∧
        RepliesFiles w s.resolver.fixities before fx₁ l ∧ SnapsFile w word fx₂ p ∧
        fx = fx₁ ++ fx₂ ∧ e = .panic p := by
  induction ws generalizing s fx with
  | nil =>
    constructor
    · intro h; cases h
    · rintro ⟨before, word, after, _, _, _, _, h, -⟩; simp at h
  | cons word ws ih =>
    obtain ⟨p, hp⟩ := unquote_ok word
    have hl : loadPathsT w s (word :: ws) = (readFileT w s p).bind fun s => loadPathsT w s ws := by
      rw [loadPathsT, hp]
    rw [hl]
    cases hr : readFile w s p with
    | error e' =>
      obtain ⟨fx', q, hs⟩ := snaps_file_exists (unquote_opens.1 hp) hr
      obtain ⟨p', h1, h2⟩ := snaps_readFile (s := s) hs
      rw [hp] at h1; cases h1
      rw [h2]
      simp only [Traced.bind]
      constructor
      · intro h; cases h
        exact ⟨[], word, ws, [], _, _, q, rfl, .nil, hs, rfl, rfl⟩
      · rintro ⟨before, word', after, fx₁, l, fx₂, q', h1, h3, h4, rfl, rfl⟩
        cases before with
        | nil =>
          cases h1; cases h3
          obtain ⟨p', h5, h6⟩ := snaps_readFile (s := s) h4
          rw [hp] at h5; cases h5
          rw [h2] at h6; cases h6
          rfl
        | cons x before =>
          cases h1
          cases h3 with
          | cons h3 _ =>
            obtain ⟨p', h5, h6, -⟩ := file_step hn h3
            rw [hp] at h5; cases h5
            rw [hr] at h6; cases h6
    | ok y =>
      obtain ⟨s1, fx1⟩ := y
      obtain ⟨fx', l', hf⟩ := file_exists hn (unquote_opens.1 hp) hr
      obtain ⟨p', e1, e2, hw⟩ := file_step hn hf
      rw [hp] at e1; cases e1
      rw [hr] at e2; cases e2
      rw [(agrees_readFile w s p).ok hr]
      simp only [Traced.bind]
      have ih := fun fx => ih (s := { s with resolver := ⟨l', []⟩ }) ⟨rfl, hw⟩ (fx := fx)
      constructor
      · intro h
        simp only [Traced.mk.injEq] at h
        obtain ⟨rfl, h⟩ := h
        obtain ⟨before, word', after, fx₁, l, fx₂, q, rfl, h2, h3, h4, rfl⟩ :=
          (ih (loadPathsT w { s with resolver := ⟨l', []⟩ } ws).done).1 (by rw [← h])
        exact ⟨word :: before, word', after, fx1 ++ fx₁, l, fx₂, q, rfl, .cons hf h2, h3,
          by rw [h4, List.append_assoc], rfl⟩
      · rintro ⟨before, word', after, fx₁, l, fx₂, q, h1, h2, h3, rfl, rfl⟩
        cases before with
        | nil =>
          cases h1
          obtain ⟨p', h5, h6⟩ := snaps_readFile (s := s) h3
          rw [hp] at h5; cases h5
          rw [(agrees_readFile w s p).ok hr] at h6; cases h6
        | cons x before =>
          cases h1
          cases h2 with
          | @cons _ _ _ fxa fxb l1 _ h2 h2' =>
            obtain ⟨p', h5, h6, -⟩ := file_step hn h2
            rw [hp] at h5; cases h5
            rw [hr] at h6
            simp only [Except.ok.injEq, Prod.mk.injEq, Session.mk.injEq, Resolver.mk.injEq, and_true] at h6
            obtain ⟨rfl, rfl⟩ := h6
            have := (ih (fxb ++ fx₂)).2 ⟨before, word', after, fxb, l, fx₂, q, rfl, h2', h3, rfl, rfl⟩
            rw [this, List.append_assoc]

theorem bind_error {α β : Type} {x : Traced α} {f : α → β} {fx : List Effect} {e : Stop} :
    (x.bind fun a => (⟨[], .ok (f a)⟩ : Traced β)) = ⟨fx, .error e⟩ ↔ x = ⟨fx, .error e⟩ := by
  obtain ⟨d, r⟩ := x
  cases r <;> simp [Traced.bind]

theorem falls_iff {w : World} {s : Session} (hn : s.Neat) {line : Text} {fx : List Effect} {e : Stop} :
    stepT w s line = ⟨fx, .error e⟩ ↔ ∃ p, e = .panic p ∧ Falls w s.desk line fx p := by
  constructor
  · intro h
    obtain ⟨pre, t, post, p, hr, -⟩ := (C155_session w s line e).1 ((agrees_step w s line).back h)
    generalize hevs : pre ++ Event.text t :: post = evs at hr
    have hmem : Event.text t ∈ evs := by rw [← hevs]; simp
    clear hevs
    cases hr with
    | plain hl =>
      rw [stepT_plain w s hl, snaps_process] at h
      obtain ⟨p, h1, h2⟩ := h
      exact ⟨p, h1, .ends hl h2⟩
    | block hl =>
      rw [stepT_block w s hl, snaps_process] at h
      obtain ⟨p, h1, h2⟩ := h
      exact ⟨p, h1, .block hl h2⟩
    | reset => simp at hmem
    | clear => simp at hmem
    | math => simp at hmem
    | prelude => simp at hmem
    | @files o ws _ hb hw n1 n2 hws hld =>
      have ho : o ∉ [t!"--math", t!"--prelude"] := by
        simp only [List.mem_cons, List.not_mem_nil, or_false, not_or]
        first | exact ⟨n1, n2⟩ | exact ⟨n2, n1⟩
      rw [stepT_load w hb hw ho, bind_error, snaps_files hn, splitWhitespace_iff.2 hws] at h
      obtain ⟨before, word, after, fx₁, l, fx₂, p, rfl, h2, h3, rfl, rfl⟩ := h
      exact ⟨p, rfl, .files hb hw ho hws h2 h3⟩
  · rintro ⟨p, rfl, h⟩
    cases h with
    | ends hl h => rw [stepT_plain w s hl]; exact snaps_process.2 ⟨p, rfl, h⟩
    | block hl h => rw [stepT_block w s hl]; exact snaps_process.2 ⟨p, rfl, h⟩
    | @files o before word after fx₁ l fx₂ p hb hw ho hws h1 h2 =>
      rw [stepT_load w hb hw ho, bind_error, snaps_files hn, splitWhitespace_iff.2 hws]
      exact ⟨before, word, after, fx₁, l, fx₂, p, rfl, h1, h2, rfl, rfl⟩

theorem runT_falls {s : Session} (hn : s.Neat) {ins : List (World × Input)} {fx : List Effect}
    {e : Stop} : runT s ins = ⟨fx, .error e⟩ ↔ ∃ before w line after d fx₁ fx₂ p,
      ins = before ++ (w, .line line) :: after ∧ Sits s.desk before true d fx₁ ∧
      Falls w d line fx₂ p ∧ fx = fx₁ ++ fx₂ ∧ e = .panic p := by
  induction ins generalizing s fx with
  | nil =>
    constructor
    · intro h; cases h
    · rintro ⟨before, w, line, after, _, _, _, _, h, -⟩; simp at h
  | cons x ins ih =>
    obtain ⟨w, i⟩ := x
    cases i with
    | eof =>
      constructor
      · intro h; cases h
      · rintro ⟨before, w', line, after, d, fx₁, fx₂, p, h1, h2, -⟩
        cases before with
        | nil => cases h1
        | cons y before => cases h1; cases h2
    | interrupted =>
      constructor
      · intro h; cases h
      · rintro ⟨before, w', line, after, d, fx₁, fx₂, p, h1, h2, -⟩
        cases before with
        | nil => cases h1
        | cons y before => cases h1; cases h2
    | error m =>
      rw [runT]
      constructor
      · intro h
        simp only [Traced.bind, Traced.mk.injEq] at h
        obtain ⟨rfl, h⟩ := h
        obtain ⟨before, w', line, after, d, fx₁, fx₂, p, rfl, h2, h3, h4, rfl⟩ :=
          (ih hn (fx := (runT s ins).done)).1 (by rw [← h])
        exact ⟨(w, .error m) :: before, w', line, after, d, _, fx₂, p, rfl, .error h2, h3,
          by rw [h4]; simp [errLine], rfl⟩
      · rintro ⟨before, w', line, after, d, fx₁, fx₂, p, h1, h2, h3, rfl, rfl⟩
        cases before with
        | nil => cases h1
        | cons y before =>
          cases h1
          cases h2 with
          | error h2 =>
            rw [(ih hn).2 ⟨before, w', line, after, d, _, fx₂, p, rfl, h2, h3, rfl, rfl⟩]
            simp [Traced.bind, errLine]
    | line l =>
      rw [runT]
      cases hs : step w s l with
      | error e' =>
        obtain ⟨fx', hx⟩ := (agrees_step w s l).error hs
        obtain ⟨p, rfl, hf⟩ := (falls_iff hn).1 hx
        rw [hx]
        simp only [Traced.bind]
        constructor
        · intro h; cases h
          exact ⟨[], w, l, ins, _, [], _, p, rfl, .nothing, hf, rfl, rfl⟩
        · rintro ⟨before, w', line, after, d, fx₁, fx₂, p', h1, h2, h3, rfl, rfl⟩
          cases before with
          | nil =>
            cases h1; cases h2
            have := (falls_iff hn).2 ⟨p', rfl, h3⟩
            rw [hx] at this; cases this; rfl
          | cons y before =>
            cases h1
            cases h2 with
            | line h2 =>
              obtain ⟨_, h4, -⟩ := does_step hn h2
              rw [hs] at h4; cases h4
      | ok y =>
        obtain ⟨b, s1, fx1⟩ := y
        rw [(agrees_step w s l).ok hs]
        obtain ⟨go', d', fx', h1⟩ := does_exists hn hs
        obtain ⟨s', h2, h3, h4⟩ := does_step hn h1
        rw [hs] at h2; cases h2
        subst h3
        have no : ∀ {fx p}, ¬ Falls w s.desk l fx p := by
          intro fx p hf
          have := (falls_iff hn).2 ⟨p, rfl, hf⟩
          rw [(agrees_step w s l).ok hs] at this; cases this
        cases b with
        | false =>
          simp only [Traced.bind, Bool.false_eq_true, if_false]
          constructor
          · intro h; cases h
          · rintro ⟨before, w', line, after, d, fx₁, fx₂, p', h5, h6, h7, rfl, rfl⟩
            cases before with
            | nil => cases h5; cases h6; exact absurd h7 no
            | cons y before =>
              cases h5
              cases h6 with
              | line h6 =>
                obtain ⟨_, h4, -⟩ := does_step hn h6
                rw [hs] at h4; cases h4
        | true =>
          simp only [Traced.bind, if_true]
          constructor
          · intro h
            simp only [Traced.mk.injEq] at h
            obtain ⟨rfl, h⟩ := h
            obtain ⟨before, w', line, after, d, fx₁, fx₂, p, rfl, h6, h7, h8, rfl⟩ :=
              (ih h4 (fx := (runT s1 ins).done)).1 (by rw [← h])
            exact ⟨(w, .line l) :: before, w', line, after, d, _, fx₂, p, rfl, .line h1 h6, h7,
              by rw [h8, List.append_assoc], rfl⟩
          · rintro ⟨before, w', line, after, d, fx₁, fx₂, p', h5, h6, h7, rfl, rfl⟩
            cases before with
            | nil => cases h5; cases h6; exact absurd h7 no
            | cons y before =>
              cases h5
              cases h6 with
              | line h6 h8 =>
                obtain ⟨s', h9, h10, -⟩ := does_step hn h6
                rw [hs] at h9; cases h9
                subst h10
                rw [(ih h4).2 ⟨before, w', line, after, d, _, fx₂, p', rfl, h8, h7, rfl, rfl⟩,
                  List.append_assoc]

end
end Pemdas
