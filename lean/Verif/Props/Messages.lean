import Verif.Props.Commands
import Verif.Props.Spans
import Verif.Spec.Wording
/-
C130 what is reported for rejected inputs, C131 the messages of lexical errors.
-/
set_option linter.unusedSectionVars false
namespace Pemdas
open Session Resolver

theorem shown_eq (l : Loc) : l.shown.toList = l.text := by
  simp [Loc.shown, Loc.text, toString, decText]

/-- **C118** How positions and spans are displayed. -/
theorem C118_shown :
    (∀ l : Loc, l.text = s!"[{l.pos}]:{l.line}:{l.col}".toList) ∧
    (∀ l : Loc, l.lncol = s!"{l.line}:{l.col}".toList) ∧
    (∀ s : Span, s.text = s!"{s.lo}:{s.hi}".toList) ∧
    (∀ s : LocSpan, s.text = s!"{s.lo.shown}-{s.hi.shown}".toList) := by
  refine ⟨fun l => (shown_eq l).symm, fun l => ?_, fun s => ?_, fun s => ?_⟩
  · simp [Loc.lncol, toString, decText]
  · simp [Span.text, toString, decText]
  · simp [LocSpan.text, toString, shown_eq]

/-! ### C131 -/

/-- **C131** The messages of lexical errors. An empty character literal has none (showing it
panics). -/
theorem C131_wording (e : LexError) :
    e.text = match e.wording with
      | some s => .ok s.toList
      | none => .error .emptyCharTodo := by
  cases e with
  | emptyChar a b => rfl
  | invalidEscape c a b => simp [LexError.text, LexError.wording, toString]
  | invalidInt l e =>
    cases e <;> simp [LexError.text, LexError.wording, IntError.text, toString, shown_eq]
  | invalidPromotedInfix l s => simp [LexError.text, LexError.wording, toString, shown_eq]
  | unterminatedChar a b => simp [LexError.text, LexError.wording, toString, shown_eq]
  | unterminatedString a => simp [LexError.text, LexError.wording, toString, shown_eq]
  | unterminatedComment a b => simp [LexError.text, LexError.wording, toString, decText]
  | invalidUnicode l k =>
    cases k <;> simp [LexError.text, LexError.wording, toString, shown_eq, decText]
  | unknown => simp [LexError.text, LexError.wording]

private theorem split_last {c : Char} {x y a b : Text} (ha : c ∉ a) (hb : c ∉ b)
    (h : x ++ c :: a = y ++ c :: b) : x = y ∧ a = b := by
  rcases List.append_eq_append_iff.1 h with ⟨z, h1, h2⟩ | ⟨z, h1, h2⟩
  · cases z with
    | nil => simp at h1 h2; exact ⟨h1.symm, h2⟩
    | cons d z =>
      injection h2 with h3 h4
      exact absurd (by rw [h4]; simp) ha
  · cases z with
    | nil => simp at h1 h2; exact ⟨h1, h2.symm⟩
    | cons d z =>
      injection h2 with h3 h4
      exact absurd (by rw [h4]; simp) hb

private theorem decText_inj {a b : Nat} (h : decText a = decText b) : a = b := by
  have := congrArg (fun s => Nat.ofDigitChars 10 s 0) h
  simpa only [decText, Nat.ofDigitChars_ten_toDigits] using this

private theorem no_backquote (l : Loc) : '`' ∉ l.text := by
  have hd : ∀ n, '`' ∉ decText n := fun n h => by
    have : ('`').isDigit = true := Nat.isDigit_of_mem_toDigits (by decide) (by decide) h
    exact absurd this (by decide)
  simp [Loc.text, hd]

private theorem loc_inj {a b : Loc} (h : a.text = b.text) : a = b :=
  (C118_location (r := []) (s := []) (by simp) (by simp) (by simpa using h)).1

private theorem loc_stop {a b : Loc} {r s : Text} (hr : r.head? = some ' ') (hs : s.head? = some ' ')
    (h : a.text ++ r = b.text ++ s) : a = b ∧ r = s :=
  C118_location (by rw [hr]; decide) (by rw [hs]; decide) h

set_option maxHeartbeats 1000000 in
/-- **C131** A message tells what the error is about: two lexical errors with the same message are
of the same kind and about the same place, name, character or number. -/
theorem C131_unambiguous {e e' : LexError} {m : Text} (h : e.text = .ok m) (h' : e'.text = .ok m) :
    e.topic = e'.topic := by
  have h := h.trans h'.symm
  rcases e with ⟨a, b⟩ | ⟨c, a, b⟩ | ⟨l, _ | _ | _ | _⟩ | ⟨l, n⟩ | ⟨a, b⟩ | a | ⟨a, b⟩ |
    ⟨l, _ | c | n | ⟨n, k⟩⟩ | _ <;>
  rcases e' with ⟨a', b'⟩ | ⟨c', a', b'⟩ | ⟨l', _ | _ | _ | _⟩ | ⟨l', n'⟩ | ⟨a', b'⟩ | a' | ⟨a', b'⟩ |
    ⟨l', _ | c' | n' | ⟨n', k'⟩⟩ | _ <;>
  first
  | rfl
  | (exfalso; simp [LexError.text, IntError.text] at h; done)
  | skip
  all_goals simp only [LexError.topic, Option.some.injEq]
  all_goals simp [LexError.text, IntError.text] at h
  · rw [h]
  · rw [loc_inj h]
  · rw [loc_inj h]
  · rw [loc_inj h]
  · have := (loc_stop rfl rfl h).2
    simp at this
  · have := (loc_stop rfl rfl h).2
    simp at this
  · rw [loc_inj h]
  · obtain ⟨rfl, h2⟩ := split_last (by simp [no_backquote]) (by simp [no_backquote]) h
    simp at h2
    rw [loc_inj h2]
  · rw [loc_inj h]
  · rw [loc_inj h]
  · rw [← List.cons_append, ← List.append_assoc, ← List.cons_append, ← List.append_assoc] at h
    obtain ⟨h1, h2⟩ := C118_line_column (a := a) (b := a') (by
      simpa [Loc.lncol] using List.append_cancel_right h)
    rw [h1, h2]
  · rw [loc_inj h]
  · rw [h]
  · rw [h]
  · have h1 : n ++ '`' :: (t!" (" ++ decText k) = n' ++ '`' :: (t!" (" ++ decText k') := by
      refine List.append_cancel_right (bs := t!") is out of the range for valid character values") ?_
      simpa using h
    have hd : ∀ n, '`' ∉ t!" (" ++ decText n := fun n h => by
      have h : '`' ∈ decText n := by simpa using h
      have : ('`').isDigit = true := Nat.isDigit_of_mem_toDigits (by decide) (by decide) h
      exact absurd this (by decide)
    obtain ⟨rfl, h2⟩ := split_last (hd k) (hd k') h1
    rw [decText_inj (List.append_cancel_left h2)]

/-- Errors meet the hypotheses, and different ones are told apart. -/
example : (LexError.invalidInt ⟨1, 2, 1⟩ .posOverflow).text =
      .ok t!"the token at [1]:1:2 is too large to be correctly parsed into an integer" ∧
    (LexError.unterminatedString ⟨1, 2, 1⟩).topic ≠ (LexError.unterminatedString ⟨2, 1, 1⟩).topic := by
  decide

/-! ### C130 -/

section
variable [CharTables]

/-- **C130** The message about an ambiguous chain names the two operators in the order in which they
are written, each with its associativity. -/
theorem C130_ambiguous (e : AssocError) : e.text = e.wording.toList := by
  rcases e with ⟨⟨o, p, _ | _ | _⟩, ⟨o', p', _ | _ | _⟩⟩ <;>
    simp [AssocError.text, AssocError.wording, Assoc.adjective, toString]

/-- **C130** The message about a token names the token that was found, the token that was expected if
there is one, and (in the long form) the place. -/
theorem C130_token {t f : Token} {tt ft : Text} (loc : Loc) (ht : t.text = .ok tt)
    (hf : f.text = .ok ft) :
    (ParseError.unexpected f loc).text =
      .ok s!"unexpected token `{str ft}` found at {loc.shown}".toList ∧
    (ParseError.expected t loc f).text =
      .ok s!"expected `{str tt}`, but found `{str ft}` at {loc.shown}".toList ∧
    (ParseError.unexpected f loc).textWithoutLoc = .ok s!"unexpected token `{str ft}`".toList ∧
    (ParseError.expected t loc f).textWithoutLoc =
      .ok s!"expected `{str tt}`, but found `{str ft}`".toList ∧
    (∀ p, (ParseError.unexpected f loc).textWithPath p =
      .ok s!"unexpected token `{str ft}`\n @ {str p}:{loc.line}:{loc.col}".toList) ∧
    (∀ p, (ParseError.expected t loc f).textWithPath p =
      .ok s!"expected `{str tt}`, but found `{str ft}`\n @ {str p}:{loc.line}:{loc.col}".toList) := by
  simp [ParseError.text, ParseError.textWithoutLoc, ParseError.textWithPath, ParseError.loc, ht, hf,
    bind, Except.bind, toString, shown_eq, decText]

/-- **C130** (partial) An input that does not parse is reported on stderr with the message about the
token; the fixities do not change. An ambiguous input is reported with the messages about its chains:
behind the mark if there is one, else each on its own line. Missing: inputs whose message cannot be
displayed, which crash the program (`C130_empty_wrong`; exactly which these are is C68). -/
theorem C130_reported_partial [LawfulTables] (w : World) {s : Session} {line t : Text}
    (hc : Completes s line t) :
    (∀ e l m, parse t = .err e l → e.text = .ok m → ∃ p, step w s line =
      .ok (true, { s with buffer := [], prompt := p },
        [.err (t!"\x1b[0m\x1b[31m[Error]:\x1b[0m \x1b[0m" ++ m ++ t!"\n")])) ∧
    (∀ ast a l r es, parse t = .ok ast l →
      (s.resolver.loadFixities ast).resolveAst ast = .ok (r, a, es) → es ≠ [] →
      ∃ p, step w s line = .ok (true, { s with buffer := [], prompt := p, resolver := r },
        [.err (t!"\x1b[0m\x1b[31m[Error]:\x1b[0m \x1b[0m" ++ (match es with
          | [e] => e.text
          | _ => (es.map fun e => t!"\n  " ++ e.text).flatten) ++ t!"\n")])) := by
  have tag : (Style.new SessionError.tag).display = t!"\x1b[0m\x1b[31m[Error]:\x1b[0m \x1b[0m" := by
    decide
  obtain ⟨p, hp⟩ := step_completes (w := w) hc
  constructor
  · intro e l m h hm
    refine ⟨p, ?_⟩
    rw [hp]
    simp only [process, readBuffer, feedInput, h, SessionError.text, hm, bind, Except.bind, tag]
  · intro ast a l r es h hr hes
    refine ⟨p, ?_⟩
    rw [hp]
    match es, hes with
    | [e], _ => simp only [process, readBuffer, feedInput, h, hr, SessionError.text, bind, Except.bind, tag]
    | e :: e' :: es, _ =>
      simp only [process, readBuffer, feedInput, h, hr, SessionError.text, bind, Except.bind, tag,
        SessionError.lines]

end

/-! ### concrete cases -/

section
attribute [local instance] asciiTables asciiTables_lawful

/-- C130: two ambiguous chains in one input. -/
example : (exRun [t!"infix 4 = (a = b = c) (a = d = e)"]).map (·.2.length) = some 1 := by
  decide +kernel

/-- C126: blanks in the path of `:cd`, the words of `:shell`. -/
example : SaysWith t!" :cd  a b " t!":cd" t!"a b" ∧ Words t!"ls  -l" [t!"ls", t!"-l"] ∧
    (exRun [t!":cd  a b ", t!":shell ls  -l"]).map (·.2) =
      some [.chdir t!"a b", .spawn t!"ls" [t!"-l"], .bytes []] :=
  ⟨⟨t!"  ", (says_iff (by decide)).2 (by decide), by unfold Blank; decide, by decide, 'a', t!" b", rfl,
    by decide⟩, splitWhitespace_iff.1 (by decide), by decide +kernel⟩

/-- A world with one file. -/
private def oneFile : World := { exWorld with readFile := fun _ => .ok t!"infixl 6 +, -; a + b" }

/-- **C128 fails on the count**: the file declares two operators, but one fixity is reported. -/
theorem C128_count_wrong :
    ((step oneFile exStart t!":load f").toOption.map fun x =>
      (x.2.2.take 2, x.2.1.resolver.fixities.length)) =
    some ([.read t!"f", .out t!"1 fixities read from `f`\n"], 2) := by decide +kernel

/-- C128: a file that cannot be read, one that does not parse, one that is ambiguous. -/
example : ((step exWorld exStart t!":load f").toOption.map (·.2.2)) =
      some [.read t!"f", .err t!"unable to read `f`\n", .err t!"no file\n"] ∧
    ((step { exWorld with readFile := fun _ => .ok t!"infixl 6 )" } exStart t!":load f").toOption.map
      (·.2.2)) = some [.read t!"f",
        .out t!"\x1b[31m[Error]:\x1b[0m  \x1b[34m(f:1:9) \x1b[0munexpected token `)`\n"] := by
  decide +kernel

/-- C129: options that are not known. -/
example : SaysWith t!":clear all" t!":clear" t!"all" ∧ t!"all" ∉ t!"--history" :: clearingOptions ∧
    SaysWith t!":history x" t!":history" t!"x" :=
  ⟨⟨t!" ", (says_iff (by decide)).2 (by decide), by unfold Blank; decide, by decide, 'a', t!"ll", rfl,
    by decide⟩, by decide, ⟨t!" ", (says_iff (by decide)).2 (by decide), by unfold Blank; decide,
    by decide, 'x', [], rfl, by decide⟩⟩

/-- **C130 is false** for `''`: it does not parse, and the program crashes where it should say so. -/
theorem C130_empty_wrong : (parse t!"''").error? =
      some (.unexpected (.error (.emptyChar ⟨1, 1, 0⟩ ⟨1, 1, 0⟩)) ⟨1, 3, 2⟩) ∧
    (match step exWorld exStart t!"''" with
      | .error (.panic .emptyCharTodo) => true
      | _ => false) = true := by decide +kernel

/-- **C129 is false** for an unknown option that begins with `--set`: it is not reported, and the
session changes. -/
theorem C129_set_wrong :
    SaysWith t!":history --settings" t!":history" t!"--settings" ∧
    (step exWorld exStart t!":history --settings").toOption.map (fun r => (r.2.1.historyPath, r.2.2)) =
      some (t!"tings", [.out t!"session history filepath changed to\n  tings\n"]) :=
  ⟨⟨t!" ", (says_iff (by decide)).2 (by decide), by unfold Blank; decide, by decide, '-', _, rfl,
    by decide⟩, by decide +kernel⟩

end

end Pemdas
