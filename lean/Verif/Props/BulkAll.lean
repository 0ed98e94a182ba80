import Verif.Lemmas.Message
import Verif.Props.Bulk
import Verif.Props.Messages
/-
C173, continued: how long answers to inputs that cannot be parsed are.
-/
namespace Pemdas
open Session

section
variable [CharTables] [LawfulTables]

/-- **C173** The message about an input that cannot be parsed is at most seven times as long as the input, and
177 bytes, colours included. (It quotes one token of the input, where each character may be shown as an
escape sequence, and up to two positions in it.) -/
theorem C173_refused (w : World) {s : Session} {line src : Text} (hc : Completes s line src) {e : ParseError}
    {l : Lexer} (hp : parse src = .err e l) {b : Bool} {s' : Session} {fx : List Effect}
    (h : step w s line = .ok (b, s', fx)) : (fx.map Effect.sent).sum ≤ 7 * utf8Len src + 177 := by
  cases hm : e.text with
  | ok m =>
    obtain ⟨p, h1⟩ := (C130_reported_partial w hc).1 e l m hp hm
    rw [h1] at h
    cases h
    have h2 := message_room hp hm
    have e1 : utf8Len t!"\x1b[0m\x1b[31m[Error]:\x1b[0m \x1b[0m" = 26 := by decide
    have e2 : utf8Len t!"\n" = 1 := rfl
    simp only [List.map_cons, List.map_nil, List.sum_cons, List.sum_nil, Effect.sent, utf8Len_append, e1, e2]
    omega
  | error p =>
    obtain ⟨q, h1⟩ := step_completes (w := w) hc
    rw [h1] at h
    simp only [process, readBuffer, feedInput, hp, SessionError.text, hm, bind, Except.bind] at h
    cases h

/-- **C173** Every input that a line completes, after every history: if the session goes on, then what is sent
to the terminal, colours included, is at most fifty times as long as the input, and 177 bytes. -/
theorem C173_every (w : World) {s : Session} {log : List Event} (hh : History s log) {line src : Text}
    (hc : Completes s line src) {b : Bool} {s' : Session} {fx : List Effect}
    (h : step w s line = .ok (b, s', fx)) : (fx.map Effect.sent).sum ≤ 50 * utf8Len src + 177 := by
  cases hp : parse src with
  | ok ast l =>
    obtain ⟨s₁, fx₁, h1, h2⟩ := C173_sent w hh hc hp
    rw [h1] at h
    cases h
    omega
  | err e l =>
    have := C173_refused w hc hp h
    omega
  | panic p =>
    obtain ⟨q, h1⟩ := step_completes (w := w) hc
    rw [h1] at h
    simp only [process, readBuffer, feedInput, hp, bind, Except.bind] at h
    cases h
  | fuel =>
    obtain ⟨q, h1⟩ := step_completes (w := w) hc
    rw [h1] at h
    simp only [process, readBuffer, feedInput, hp, bind, Except.bind] at h
    cases h

end

section
attribute [local instance] asciiTables asciiTables_lawful

/-- C173: the message about a string literal in a fixity declaration quotes it with escape sequences. -/
example : (exRun [t!"infix \"\x7f\x7f\x7f\x7f\""]).map (fun x => (x.2, (x.2.map Effect.sent).sum)) =
    some ([.err t!"\x1b[0m\x1b[31m[Error]:\x1b[0m \x1b[0munexpected token `\"\\u{7f}\\u{7f}\\u{7f}\\u{7f}\"` found at [5]:1:6\n"],
      89) := by decide +kernel

end
end Pemdas
