import Verif.Model.Session
/-
What has been done when a session crashes.

`Model/Session.lean` forgets what a line did before it made the program panic. Here everything that was
done is kept. A panic unwinds to `main`, and what was written to stdout is flushed when the process
ends, so that also the beginning of a message that could not be written to its end is seen. The report
of the panic itself, which the standard library writes to stderr, is not modelled.
-/
namespace Pemdas

/-- What was done, and how it ended. -/
structure Traced (α : Type) where
  done : List Effect
  result : Except Stop α

/-- An operation that panics, if at all, before it does something. -/
def Traced.of {α : Type} : Except Stop (α × List Effect) → Traced α
  | .ok (a, fx) => ⟨fx, .ok a⟩
  | .error e => ⟨[], .error e⟩

/-- One operation after another. -/
def Traced.bind {α β : Type} (x : Traced α) (f : α → Traced β) : Traced β :=
  match x.result with
  | .ok a => ⟨x.done ++ (f a).done, (f a).result⟩
  | .error e => ⟨x.done, .error e⟩

/-- Writing the parts of a message: what is written, and the panic of a part. -/
def writeParts : List (Except Panic Text) → Text × Option Panic
  | [] => ([], none)
  | .ok t :: ps => (t ++ (writeParts ps).1, (writeParts ps).2)
  | .error p :: _ => ([], some p)

/-- `println!`, `eprintln!`: `mk` is the stream. -/
def printParts (mk : Text → Effect) (ps : List (Except Panic Text)) : Traced Unit :=
  match writeParts ps with
  | (t, none) => ⟨[mk (t ++ t!"\n")], .ok ()⟩
  | (t, some p) => ⟨[mk t], .error (.panic p)⟩

section
variable [CharTables]

/-- The parts of `parser::Error::write_without_loc` (parser.rs:26-35). `Token` writes nothing before it
panics (token.rs:301,322). -/
def ParseError.parts : ParseError → List (Except Panic Text)
  | .expected t _ found => [.ok t!"expected `", t.text, .ok t!"`, but found `", found.text, .ok t!"`"]
  | .unexpected t _ => [.ok t!"unexpected token `", t.text, .ok t!"`"]

/-- The parts of `impl Display for Error` (parser.rs:54-64). -/
def ParseError.partsWithLoc : ParseError → List (Except Panic Text)
  | .expected t loc found => [.ok t!"expected `", t.text, .ok t!"`, but found `", found.text,
      .ok t!"` at ", .ok loc.text]
  | .unexpected t loc => [.ok t!"unexpected token `", t.text, .ok t!"` found at ", .ok loc.text]

namespace SessionError

/-- The parts of `impl Display for Error` (session.rs:64-89). -/
def parts : SessionError → List (Except Panic Text)
  | .parser e => .ok (Style.new tag).display :: e.partsWithLoc
  | .resolver [] => [.ok (Style.new tag).display]
  | .resolver [e] => [.ok (Style.new tag).display, .ok e.text]
  | .resolver es => [.ok (Style.new tag).display, .ok (lines es)]

/-- The parts of `Error::write_with_path` (session.rs:33-61). -/
def partsWithPath (p : Text) : SessionError → List (Except Panic Text)
  | .parser e => [.ok tag, .ok t!" ", .ok (Style.ansi .blue (t!"(" ++ p ++ t!":" ++
      decText e.loc.line ++ t!":" ++ decText e.loc.col ++ t!") ")).display] ++ e.parts
  | .resolver es => [.ok tag, .ok (Style.ansi .blue (t!"(" ++ p ++ t!")")).display, .ok (lines es)]

end SessionError

namespace Session

/-- `ReplSession::read_buffer` (session.rs:181-195). That printing the expression panics before it
writes something is of no importance: it does not panic. -/
def readBufferT (s : Session) : Traced Session :=
  match feedInput { s with buffer := [] } s.buffer with
  | .error e => ⟨[], .error e⟩
  | .ok (.ok ast, s) =>
    match echo s ast with
    | .ok fx => ⟨fx, .ok s⟩
    | .error e => ⟨[], .error e⟩
  | .ok (.error e, s) => (printParts .err e.parts).bind fun _ => ⟨[], .ok s⟩

/-- `ReplSession::read_file` (session.rs:197-235). -/
def readFileT (w : World) (s : Session) (p : Text) : Traced Session :=
  match w.readFile p with
  | .error k =>
    ⟨[.read p, .err (t!"unable to read `" ++ p ++ t!"`\n"), .err (k ++ t!"\n")], .ok s⟩
  | .ok content =>
    (⟨[.read p], .ok ()⟩ : Traced Unit).bind fun _ =>
      match feedInput s (fileInput p content) with
      | .error e => ⟨[], .error e⟩
      | .ok (.ok ast, s) =>
        ⟨[.out (decText ast.infxs.length ++ t!" fixities read from `" ++ p ++ t!"`\n"),
          .out (Printer.writeFixities (declEntries ast.infxs) ++ t!"\n")], .ok s⟩
      | .ok (.error e, s) => (printParts .out (e.partsWithPath p)).bind fun _ => ⟨[], .ok s⟩

/-- The `for_each` over the arguments of `:load` (session.rs:524-531). -/
def loadPathsT (w : World) : Session → List Text → Traced Session
  | s, [] => ⟨[], .ok s⟩
  | s, p :: ps =>
    match unquote p with
    | .error e => ⟨[], .error e⟩
    | .ok p => (readFileT w s p).bind fun s => loadPathsT w s ps

/-- `:load` (session.rs:512-532). -/
def cmdLoadT (w : World) (s : Session) (input : Text) : Traced (Bool × Session) :=
  match sliceFrom input (utf8Len t!":load") with
  | .error e => ⟨[], .error e⟩
  | .ok o =>
    let o := trim o
    (if o = [] ∨ o = t!"--prelude" ∨ o = t!"--math" then Traced.of (loadArg w s o)
      else loadPathsT w s (splitWhitespace o)).bind fun s => ⟨[], .ok (true, s)⟩

/-- The outcome of a command that panics, if at all, before it does something. -/
def Cmd.traced : Cmd → Traced (Bool × Session)
  | .ok (b, s, fx) => ⟨fx, .ok (b, s)⟩
  | .error e => ⟨[], .error e⟩

/-- `read_command` (session.rs:378-569) for the trimmed line `c`: only `:load` does something before it
may panic. -/
def commandT (w : World) (s : Session) (c : Text) : Traced (Bool × Session) :=
  if isPrefix t!":cd" c then (cmdCd w s c).traced
  else if c = t!":help" ∨ c = t!":h" ∨ c = t!":?" then ⟨[sayLine helpMsg], .ok (true, s)⟩
  else if isPrefix t!":q" c ∨ isPrefix t!":quit" c then (cmdQuit s c).traced
  else if isPrefix t!":clear" c then (cmdClear s c).traced
  else if isPrefix t!":history" c then (cmdHistory s c).traced
  else if c = t!":reset" ∨ c = t!":r" then (cmdReset s).traced
  else if c = t!":info" ∨ c = t!":i" ∨ c = t!":fixities" then (cmdFixities s).traced
  else if isPrefix t!":info" c ∨ isPrefix t!":i" c then (cmdInfo s c).traced
  else if isPrefix t!":load" c then cmdLoadT w s c
  else if isPrefix t!":shell" c then (cmdShell w s c).traced
  else ⟨[errLine (t!"unknown command: `" ++ c ++ t!"`")], .ok (true, { s with buffer := [] })⟩

/-- `sess.read_buffer()` at the end of a round (session.rs:319). -/
def processT (s : Session) : Traced (Bool × Session) :=
  s.readBufferT.bind fun s => ⟨[], .ok (true, s)⟩

/-- One line of `run_repl` (session.rs:268-320). -/
def stepT (w : World) (sess : Session) (line : Text) : Traced (Bool × Session) :=
  let s := trim line
  if s = [] then ⟨[], .ok (true, sess)⟩
  else if startsWith (trim s) t!":" then
    if sess.buffer = [] then commandT w sess (trim s)
    else ⟨[errLine t!"cannot call a command in multiline mode!"], .ok (true, sess)⟩
  else if contInfix (trim s) then (contLine sess s (utf8Len t!" \\") t!"\n").traced
  else if endsWith s t!"\\" then (contLine sess s (utf8Len t!"\\") t!"\n ").traced
  else if startsWith s t!"{" then
    let s := trimStartMatches '{' s
    if !endsWith s t!"}" then
      ⟨[], .ok (true, { sess with prompt := .continued, buffer := sess.buffer ++ s })⟩
    else processT { sess with buffer := sess.buffer ++ trimEndMatches '}' s }
  else processT { sess with
    buffer := sess.buffer ++ s
    prompt := if sess.prompt = .continued then .initial else sess.prompt }

/-- The loop of `run_repl` (session.rs:262-322). -/
def runT : Session → List (World × Input) → Traced (Bool × Session)
  | s, [] => ⟨[], .ok (true, s)⟩
  | s, (_, .eof) :: _ => ⟨[], .ok (false, s)⟩
  | s, (_, .interrupted) :: _ => ⟨[], .ok (false, s)⟩
  | s, (_, .error e) :: rest =>
    (⟨[errLine (t!"Error: " ++ e)], .ok ()⟩ : Traced Unit).bind fun _ => runT s rest
  | s, (w, .line l) :: rest =>
    (stepT w s l).bind fun (b, s) => if b then runT s rest else ⟨[], .ok (false, s)⟩

end Session

/-- `run_repl` (session.rs:250-323), without loading the history. -/
def runReplT (fs : FileSystem) (home : Option Text) (inputs : List (World × Session.Input)) :
    Traced (Bool × Session) :=
  let (s, fx) := Session.new fs home
  (⟨fx ++ s.initMsg, .ok ()⟩ : Traced Unit).bind fun _ => s.runT inputs

end
end Pemdas
