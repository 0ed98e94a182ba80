import Verif.Lemmas.Session
import Verif.Props.Printer
/-
What one round of the loop does, case by case.
-/
set_option linter.unusedSectionVars false
namespace Pemdas
namespace Session

section
variable [CharTables]

/-! ### the cases of `step` -/

theorem step_blank (w : World) (s : Session) {line : Text} (h : Blank line) :
    step w s line = .ok (true, s, []) := by
  unfold step; simp only; rw [if_pos (trim_eq_nil.2 h)]

/-- Lines that are not blank. -/
theorem step_says (w : World) (s : Session) {line c : Text} (h : Says line c) :
    step w s line =
      if startsWith c t!":" then
        if s.buffer = [] then command w s c
        else .ok (true, s, [errLine t!"cannot call a command in multiline mode!"])
      else if contInfix c then contLine s c (utf8Len t!" \\") t!"\n"
      else if endsWith c t!"\\" then contLine s c (utf8Len t!"\\") t!"\n "
      else if startsWith c t!"{" then braceLine s c
      else plainLine s c := by
  unfold step readCommand
  simp only [h.trim, h.self.trim, h.ne_nil, if_false]

theorem blank_or_says (line : Text) : Blank line ∨ ∃ c, Says line c := by
  by_cases h : ∀ c ∈ line, isWhitespace c = true
  · exact .inl h
  · exact .inr ⟨_, says_trim h⟩

theorem contLine_eq (s : Session) (body b nl : Text) :
    contLine s (body ++ b) (utf8Len b) nl =
      .ok (true, { s with buffer := s.buffer ++ body ++ nl, prompt := .initial }, []) := by
  unfold contLine
  rw [byteSlice!_take]
  rfl

theorem contInfix_iff {c : Text} :
    contInfix c = true ↔ ∃ body, c = body ++ t!" \\" ∧ t!"infix" <+: body := by
  unfold contInfix
  simp only [Bool.and_eq_true, Bool.or_eq_true, startsWith_iff, endsWith_iff]
  constructor
  · rintro ⟨h1, body, rfl⟩
    refine ⟨body, rfl, ?_⟩
    have h1 : t!"infix" <+: body ++ t!" \\" := by
      rcases h1 with (h1 | h1) | h1
      · exact h1
      · exact List.IsPrefix.trans ⟨t!"l", rfl⟩ h1
      · exact List.IsPrefix.trans ⟨t!"r", rfl⟩ h1
    rcases body with _ | ⟨a, _ | ⟨b, _ | ⟨c, _ | ⟨d, _ | ⟨e, body⟩⟩⟩⟩⟩
    iterate 5 exact absurd h1 (by simp [List.cons_prefix_cons])
    simpa [List.cons_prefix_cons] using h1
  · rintro ⟨body, rfl, h⟩
    exact ⟨.inl (.inl (h.trans ⟨_, rfl⟩)), ⟨body, rfl⟩⟩

/-! ### `feedInput` and what uses it -/

open Resolver

/-- The outcome of resolution as the outcome of an input. -/
def outcome (a : Ast) (es : List AssocError) : Except SessionError Ast :=
  if es = [] then .ok a else .error (.resolver es)

theorem outcome_cases (a : Ast) (es : List AssocError) :
    (es = [] ∧ outcome a es = .ok a) ∨ (es ≠ [] ∧ outcome a es = .error (.resolver es)) := by
  unfold outcome
  by_cases h : es = []
  · exact .inl ⟨h, if_pos h⟩
  · exact .inr ⟨h, if_neg h⟩

theorem feedInput_ok (s : Session) {src : Text} {ast : Ast} {l : Lexer} (h : parse src = .ok ast l) :
    ∃ r a es, (s.resolver.loadFixities ast).resolveAst ast = .ok (r, a, es) ∧
      feedInput s src = .ok (outcome a es, { s with resolver := r }) := by
  obtain ⟨⟨r, a, es⟩, hx⟩ := C04_resolveAst_never_panics (s.resolver.loadFixities ast) ast
  refine ⟨r, a, es, hx, ?_⟩
  unfold feedInput
  rw [h]
  simp only [hx, outcome]
  cases es with
  | nil => rfl
  | cons e es => simp

theorem feedInput_err (s : Session) {src : Text} {e : ParseError} {l : Lexer} (h : parse src = .err e l) :
    feedInput s src = .ok (.error (.parser e), s) := by
  unfold feedInput; rw [h]

theorem feedInput_panic (s : Session) {src : Text} {p : Panic} (h : parse src = .panic p) :
    feedInput s src = .error (.panic p) := by
  unfold feedInput; rw [h]

/-- Only the resolver of the session changes, and only by resolving what was parsed. -/
theorem feedInput_session {s s' : Session} {src : Text} {res : Except SessionError Ast}
    (h : feedInput s src = .ok (res, s')) :
    (∃ e l, parse src = .err e l ∧ s' = s ∧ res = .error (.parser e)) ∨
    (∃ ast l r a es, parse src = .ok ast l ∧
      (s.resolver.loadFixities ast).resolveAst ast = .ok (r, a, es) ∧
      s' = { s with resolver := r } ∧ res = outcome a es) := by
  cases hp : parse src with
  | ok ast l =>
    obtain ⟨r, a, es, h1, h2⟩ := feedInput_ok s hp
    rw [h2] at h
    simp only [Except.ok.injEq, Prod.mk.injEq] at h
    exact .inr ⟨ast, l, r, a, es, rfl, h1, h.2.symm, h.1.symm⟩
  | err e l =>
    rw [feedInput_err s hp] at h
    simp only [Except.ok.injEq, Prod.mk.injEq] at h
    exact .inl ⟨e, l, rfl, h.2.symm, h.1.symm⟩
  | panic p => rw [feedInput_panic s hp] at h; cases h
  | fuel => unfold feedInput at h; rw [hp] at h; cases h

theorem resolver_text_ok (es : List AssocError) : ∃ t, (SessionError.resolver es).text = .ok t := by
  cases es with
  | nil => exact ⟨_, rfl⟩
  | cons e es =>
    cases es with
    | nil => exact ⟨_, rfl⟩
    | cons e' es => exact ⟨_, rfl⟩

theorem readBuffer_session {s s' : Session} {fx : List Effect} (h : s.readBuffer = .ok (s', fx)) :
    ∃ res, feedInput { s with buffer := [] } s.buffer = .ok (res, s') ∧
      ((∃ ast, res = .ok ast ∧ echo s' ast = .ok fx) ∨
       (∃ e t, res = .error e ∧ e.text = .ok t ∧ fx = [.err (t ++ t!"\n")])) := by
  unfold readBuffer at h
  cases hf : feedInput { s with buffer := [] } s.buffer with
  | error e => rw [hf] at h; cases h
  | ok x =>
    obtain ⟨res, s1⟩ := x
    rw [hf] at h
    cases res with
    | ok ast =>
      simp only at h
      cases he : echo s1 ast with
      | error e => rw [he] at h; cases h
      | ok fx' =>
        rw [he] at h
        simp only [Except.ok.injEq, Prod.mk.injEq] at h
        obtain ⟨rfl, rfl⟩ := h
        exact ⟨_, rfl, .inl ⟨ast, rfl, he⟩⟩
    | error e =>
      simp only at h
      cases he : e.text with
      | error e => rw [he] at h; cases h
      | ok t =>
        rw [he] at h
        simp only [Except.ok.injEq, Prod.mk.injEq] at h
        obtain ⟨rfl, rfl⟩ := h
        exact ⟨_, rfl, .inr ⟨e, t, rfl, he, rfl⟩⟩

theorem readFile_session {w : World} {s s' : Session} {p : Text} {fx : List Effect}
    (h : readFile w s p = .ok (s', fx)) :
    (s' = s ∧ ∃ k, w.readFile p = .error k) ∨
    ∃ content res, w.readFile p = .ok content ∧
      feedInput s (fileInput p content) = .ok (res, s') := by
  unfold readFile at h
  cases hw : w.readFile p with
  | error k =>
    rw [hw] at h
    simp only [Except.ok.injEq, Prod.mk.injEq] at h
    exact .inl ⟨h.1.symm, k, rfl⟩
  | ok content =>
    rw [hw] at h
    simp only at h
    cases hf : feedInput s (fileInput p content) with
    | error e => rw [hf] at h; cases h
    | ok x =>
      obtain ⟨res, s1⟩ := x
      rw [hf] at h
      cases res with
      | ok ast =>
        simp only [Except.ok.injEq, Prod.mk.injEq] at h
        obtain ⟨rfl, rfl⟩ := h
        exact .inr ⟨content, _, rfl, hf⟩
      | error e =>
        simp only at h
        cases he : e.textWithPath p with
        | error e => rw [he] at h; cases h
        | ok t =>
          rw [he] at h
          simp only [Except.ok.injEq, Prod.mk.injEq] at h
          obtain ⟨rfl, rfl⟩ := h
          exact .inr ⟨content, _, rfl, hf⟩

theorem unquote_ok (p : Text) : ∃ q, unquote p = .ok q := by
  unfold unquote
  split
  · rename_i h
    obtain ⟨r, rfl⟩ := startsWith_iff.1 h.1
    exact ⟨r, by rw [byteSlice!_drop]; rfl⟩
  · exact ⟨p, rfl⟩

/-! ### where a session stops abnormally -/

/-- The ways in which processing the text of an input crashes. -/
def Crashes (src : Text) (p : Panic) : Prop :=
  parse src = .panic p ∨
  (∃ e l, parse src = .err e l ∧ (e.text = .error p ∨ e.textWithoutLoc = .error p))

variable [LawfulTables]

theorem feedInput_stop {s : Session} {src : Text} {e : Stop} (h : feedInput s src = .error e) :
    ∃ p, e = .panic p ∧ parse src = .panic p := by
  cases hp : parse src with
  | ok ast l =>
    obtain ⟨r, a, es, h1, h2⟩ := feedInput_ok s hp
    rw [h2] at h; cases h
  | err e l => rw [feedInput_err s hp] at h; cases h
  | panic p =>
    rw [feedInput_panic s hp] at h
    cases h
    exact ⟨p, rfl, rfl⟩
  | fuel => exact absurd hp (C37_terminates src).1

theorem echo_ok {s : Session} {src : Text} {ast : Ast} {l : Lexer} (hp : parse src = .ok ast l)
    {r r' : Resolver} {a : Ast} {es : List AssocError} (hr : resolveAst r ast = .ok (r', a, es)) :
    ∃ fx, echo s a = .ok fx := by
  have hs := C45_printing_succeeds hp hr s.resolver.fixities
  unfold echo
  split
  · rename_i e he
    have hm : e ∈ a.exprs := by
      unfold AstIter.new AstIter.next at he
      simp only at he
      cases hk : a.kinds with
      | nil => rw [hk] at he; simp [popFront] at he
      | cons k ks =>
        rw [hk] at he
        cases k with
        | infix_ =>
          simp only [popFront] at he
          cases hi : a.infxs with
          | nil => rw [hi] at he; cases he
          | cons d ds => rw [hi] at he; cases he
        | expr =>
          simp only [popFront] at he
          cases hi : a.exprs with
          | nil => rw [hi] at he; cases he
          | cons d ds => rw [hi] at he; cases he; simp
    obtain ⟨t, ht⟩ := hs.2 e hm
    simp only [Printer.printExpr, ht, bind, Except.bind]
    exact ⟨_, rfl⟩
  · exact ⟨_, rfl⟩

theorem readBuffer_stop {s : Session} {e : Stop} (h : s.readBuffer = .error e) :
    ∃ p, e = .panic p ∧ Crashes s.buffer p := by
  unfold readBuffer at h
  cases hf : feedInput { s with buffer := [] } s.buffer with
  | error e' =>
    rw [hf] at h
    cases h
    obtain ⟨p, h1, h2⟩ := feedInput_stop hf
    exact ⟨p, h1, .inl h2⟩
  | ok x =>
    obtain ⟨res, s1⟩ := x
    rw [hf] at h
    rcases feedInput_session hf with ⟨pe, l, h1, h2, rfl⟩ | ⟨ast, l, r, a, es, h1, h2, h3, rfl⟩
    · simp only [SessionError.text, bind, Except.bind] at h
      cases he : pe.text with
      | ok t => rw [he] at h; cases h
      | error p => rw [he] at h; cases h; exact ⟨p, rfl, .inr ⟨pe, l, h1, .inl he⟩⟩
    · rcases outcome_cases a es with ⟨-, ho⟩ | ⟨-, ho⟩ <;> rw [ho] at h <;> simp only at h
      · obtain ⟨fx, hfx⟩ := echo_ok (s := s1) h1 h2
        simp only [hfx] at h
        cases h
      · obtain ⟨t, ht⟩ := resolver_text_ok es
        simp only [ht] at h
        cases h

theorem readFile_stop {w : World} {s : Session} {p : Text} {e : Stop}
    (h : readFile w s p = .error e) :
    ∃ q content, e = .panic q ∧ w.readFile p = .ok content ∧ Crashes (fileInput p content) q := by
  unfold readFile at h
  cases hw : w.readFile p with
  | error k => rw [hw] at h; cases h
  | ok content =>
    rw [hw] at h
    simp only at h
    cases hf : feedInput s (fileInput p content) with
    | error e' =>
      rw [hf] at h; cases h
      obtain ⟨q, h1, h2⟩ := feedInput_stop hf
      exact ⟨q, content, h1, rfl, .inl h2⟩
    | ok x =>
      obtain ⟨res, s1⟩ := x
      rw [hf] at h
      rcases feedInput_session hf with ⟨pe, l, h1, h2, rfl⟩ | ⟨ast, l, r, a, es, h1, h2, h3, rfl⟩
      · simp only [SessionError.textWithPath, bind, Except.bind] at h
        cases he : pe.textWithoutLoc with
        | ok t => rw [he] at h; cases h
        | error q => rw [he] at h; cases h; exact ⟨q, content, rfl, rfl, .inr ⟨pe, l, h1, .inr he⟩⟩
      · rcases outcome_cases a es with ⟨-, ho⟩ | ⟨-, ho⟩ <;> rw [ho] at h <;> simp only at h
        · cases h
        · simp only [SessionError.textWithPath] at h
          cases h

/-- The texts that are fed by loading paths. -/
theorem loadPaths_stop {w : World} {s : Session} {ps : List Text} {e : Stop}
    (h : loadPaths w s ps = .error e) :
    ∃ q p content, e = .panic q ∧ w.readFile p = .ok content ∧ Crashes (fileInput p content) q := by
  induction ps generalizing s with
  | nil => cases h
  | cons p ps ih =>
    obtain ⟨p', hp'⟩ := unquote_ok p
    unfold loadPaths at h
    simp only [hp', bind, Except.bind] at h
    cases hr : readFile w s p' with
    | error e' =>
      rw [hr] at h; cases h
      obtain ⟨q, c, h1⟩ := readFile_stop hr
      exact ⟨q, p', c, h1⟩
    | ok x =>
      rw [hr] at h
      simp only at h
      cases hl : loadPaths w x.1 ps with
      | error e' => rw [hl] at h; cases h; exact ih hl
      | ok y => rw [hl] at h; cases h

theorem crashes_panics {src : Text} {p : Panic} (h : Crashes src p) :
    p = .badSlice ∨ p = .identAssert ∨ p = .hexExpect ∨ p = .precTodo ∨ p = .emptyCharTodo := by
  rcases h with h | ⟨e, l, -, h⟩
  · rcases C43_panics (.inl h) with ⟨h1 | h1 | h1, -⟩ | ⟨h1, -⟩ <;> simp [h1]
  · have ht : ∀ (t : Token) {q}, t.text = .error q → q = .emptyCharTodo := by
      intro t q hq
      cases hE : t.isEmptyChar with
      | false => obtain ⟨s, hs⟩ := token_text_ok hE; rw [hs] at hq; cases hq
      | true =>
        cases t with
        | error e => cases e <;> first | (cases hq; rfl) | exact absurd hE (by simp [Token.isEmptyChar])
        | _ => cases hE
    have : p = .emptyCharTodo := by
      cases e with
      | unexpected t loc =>
        simp only [ParseError.text, ParseError.textWithoutLoc, bind, Except.bind] at h
        cases hx : t.text with
        | ok s => rw [hx] at h; rcases h with h | h <;> cases h
        | error q => rw [hx] at h; rw [ht t hx] at h; rcases h with h | h <;> cases h <;> rfl
      | expected t loc f =>
        simp only [ParseError.text, ParseError.textWithoutLoc, bind, Except.bind] at h
        cases hx : t.text with
        | error q => rw [hx] at h; rw [ht t hx] at h; rcases h with h | h <;> cases h <;> rfl
        | ok s =>
          rw [hx] at h
          cases hy : f.text with
          | ok s => rw [hy] at h; rcases h with h | h <;> cases h
          | error q => rw [hy] at h; rw [ht f hy] at h; rcases h with h | h <;> cases h <;> rfl
    simp [this]

end
end Session
end Pemdas
