import Verif.Model.Parser
import Verif.Model.Printer
/-
Model of `src/repl/session.rs` and `src/repl/setup.rs`.

What the session does to the outside world is a list of `Effect`s; what the outside world answers
is a `World`.  Paths are texts.  The line editor (rustyline) is not modelled beyond the lines it
returns and the two operations on its history, nor is the history itself.  Not modelled:
a failing write to stdout (`println!` would panic), paths that are not UTF-8, Windows paths.
`uninstall_artifacts` (setup.rs:53-92, not called) is in `Model/Setup.lean`.
-/
namespace Pemdas

/-- What the session does to the outside world. -/
inductive Effect where
  /-- `print!`/`println!` -/
  | out (t : Text)
  /-- `eprintln!` -/
  | err (t : Text)
  /-- `stdout.write_all` of what a child process wrote (session.rs:549) -/
  | bytes (bs : List UInt8)
  /-- `std::fs::read_to_string(p)` (session.rs:200) -/
  | read (p : Text)
  /-- `std::env::set_current_dir(p)` (session.rs:385) -/
  | chdir (p : Text)
  /-- `Command::new(prog).args(args).spawn()` (session.rs:538-543) -/
  | spawn (prog : Text) (args : List Text)
  /-- `rl.clear_history()` -/
  | clearHistory
  /-- `rl.save_history(p)`; its result is ignored -/
  | saveHistory (p : Text)
  deriving DecidableEq, Repr

/-- What the outside world answers while one line is processed; an error is the text that is
displayed for it. -/
structure World where
  /-- `std::fs::read_to_string` -/
  readFile : Text → Except Text Text
  /-- `std::env::set_current_dir` -/
  chdir : Text → Except Text Unit
  /-- spawning a process and waiting for it: what it wrote to stdout -/
  spawn : Text → List Text → Except Text (List UInt8)

/-- `LinePrompt` (session.rs:95-100). -/
inductive LinePrompt where
  | initial | continued
  deriving DecidableEq, Repr

/-- `LinePrompt::as_str` (session.rs:92-93,118-124). -/
def LinePrompt.text : LinePrompt → Text
  | .initial => t!"\x1b[32m> \x1b[0m"
  | .continued => t!"\x1b[34m |  \x1b[0m"

/-- `ReplSession` (session.rs:127-132). -/
structure Session where
  resolver : Resolver
  buffer : Text
  prompt : LinePrompt
  historyPath : Text
  deriving DecidableEq, Repr

/-- `Error` (session.rs:15-19). -/
inductive SessionError where
  | parser (e : ParseError)
  | resolver (es : List AssocError)
  deriving DecidableEq, Repr

/-- A panic stops the process. -/
def orStop {α : Type} : Except Panic α → Except Stop α
  | .ok a => .ok a
  | .error p => .error (.panic p)

section
variable [CharTables]

/-- `parser::Error::write_without_loc` (parser.rs:26-35). -/
def ParseError.textWithoutLoc : ParseError → Except Panic Text
  | .expected t _ found => do
    let t ← t.text
    let found ← found.text
    .ok (t!"expected `" ++ t ++ t!"`, but found `" ++ found ++ t!"`")
  | .unexpected t _ => do
    let t ← t.text
    .ok (t!"unexpected token `" ++ t ++ t!"`")

/-- `parser::Error::write_with_path` (parser.rs:37-51; not called by the program). -/
def ParseError.textWithPath (p : Text) (e : ParseError) : Except Panic Text := do
  let t ← e.textWithoutLoc
  .ok (t ++ t!"\n @ " ++ p ++ t!":" ++ decText e.loc.line ++ t!":" ++ decText e.loc.col)

namespace SessionError

/-- `"[Error]:"` in red, then a blank (session.rs:38, 66-68). -/
def tag : Text := (Style.ansi .red t!"[Error]:").thenText t!" "

/-- One error per line (session.rs:55-57, 80-82). -/
def lines (es : List AssocError) : Text := (es.map fun e => t!"\n  " ++ e.text).flatten

/-- `impl Display for Error` (session.rs:64-89). -/
def text : SessionError → Except Panic Text
  | .parser e => do
    let t ← e.text
    .ok ((Style.new tag).display ++ t)
  | .resolver [] => .ok (Style.new tag).display
  | .resolver [e] => .ok ((Style.new tag).display ++ e.text)
  | .resolver es => .ok ((Style.new tag).display ++ lines es)

/-- `Error::write_with_path` (session.rs:33-61). -/
def textWithPath (p : Text) : SessionError → Except Panic Text
  | .parser e => do
    let t ← e.textWithoutLoc
    .ok (tag ++ t!" " ++
      (Style.ansi .blue (t!"(" ++ p ++ t!":" ++ decText e.loc.line ++ t!":" ++ decText e.loc.col ++
        t!") ")).display ++ t)
  | .resolver es => .ok (tag ++ (Style.ansi .blue (t!"(" ++ p ++ t!")")).display ++ lines es)

end SessionError

/-! ### std -/

/-- Worker of `strLines`; `cur` is the line being read. -/
def strLinesGo : Text → Text → List Text
  | [], cur => if cur = [] then [] else [cur]
  | c :: cs, cur =>
    if c = '\n' then
      (if cur.getLast? = some '\r' then cur.dropLast else cur) :: strLinesGo cs []
    else strLinesGo cs (cur ++ [c])

/-- `str::lines`. -/
def strLines (s : Text) : List Text := strLinesGo s []

/-- Worker of `splitSlash`; `cur` is the component being read. -/
def splitSlashGo : Text → Text → List Text
  | [], cur => [cur]
  | c :: cs, cur => if c = '/' then cur :: splitSlashGo cs [] else splitSlashGo cs (cur ++ [c])

/-- `Path::file_name` on Unix: the last component that is not empty and not `.`, unless it is
`..`. -/
def pathFileName (p : Text) : Option Text :=
  match ((splitSlashGo p []).filter fun c => c ≠ [] ∧ c ≠ t!".").getLast? with
  | none => none
  | some c => if c = t!".." then none else some c

/-- What follows the last dot, and whether something precedes it. -/
def afterLastDot (s : Text) : Option (Bool × Text) :=
  if '.' ∈ s then
    some (!((s.reverse.dropWhile (· ≠ '.')).drop 1).isEmpty,
      (s.reverse.takeWhile (· ≠ '.')).reverse)
  else none

/-- `Path::extension`: what follows the last dot of the file name, if something precedes that
dot. -/
def pathExtension (p : Text) : Option Text :=
  match pathFileName p with
  | none => none
  | some f =>
    match afterLastDot f with
    | some (true, e) => some e
    | _ => none

namespace Session

/-! ### inputs -/

/-- `ReplSession::feed_input` (session.rs:169-179). -/
def feedInput (s : Session) (input : Text) : Except Stop (Except SessionError Ast × Session) :=
  match parse input with
  | .ok ast _ =>
    match (s.resolver.loadFixities ast).resolveAst ast with
    | .ok (r, ast, []) => .ok (.ok ast, { s with resolver := r })
    | .ok (r, _, es) => .ok (.error (.resolver es), { s with resolver := r })
    | .error e => .error e
  | .err e _ => .ok (.error (.parser e), s)
  | .panic p => .error (.panic p)
  | .fuel => .error .fuel

/-- The first declaration of an accepted input (session.rs:184-192): what is printed. -/
def echo (s : Session) (ast : Ast) : Except Stop (List Effect) :=
  match (AstIter.new ast).next.1 with
  | some (.expr e) =>
    match Printer.printExpr s.resolver.fixities e with
    | .ok t => .ok [.out t]
    | .error p => .error (.panic p)
  | _ => .ok []

/-- `ReplSession::read_buffer` (session.rs:181-195) with `take_buffer` (session.rs:245-247). -/
def readBuffer (s : Session) : Except Stop (Session × List Effect) :=
  match feedInput { s with buffer := [] } s.buffer with
  | .error e => .error e
  | .ok (.ok ast, s) =>
    match echo s ast with
    | .ok fx => .ok (s, fx)
    | .error e => .error e
  | .ok (.error e, s) =>
    match e.text with
    | .ok t => .ok (s, [.err (t ++ t!"\n")])
    | .error p => .error (.panic p)

/-- What `read_file` feeds (session.rs:203-216). -/
def fileInput (p content : Text) : Text :=
  if pathExtension p = some t!"hs" then
    ((strLines content).filterMap fun line =>
      if startsWith (trim line) t!"infix" then some (trim line) else none).flatten
  else content

/-- The declared operators with their fixities (session.rs:220-224). -/
def declEntries (ds : List InfixDecl) : List (Infix × Fixity) :=
  (ds.map fun d => d.infixes.map fun op => (op, d.fixity)).flatten

/-- `ReplSession::read_file` (session.rs:197-235). -/
def readFile (w : World) (s : Session) (p : Text) : Except Stop (Session × List Effect) :=
  match w.readFile p with
  | .error k =>
    .ok (s, [.read p, .err (t!"unable to read `" ++ p ++ t!"`\n"), .err (k ++ t!"\n")])
  | .ok content =>
    match feedInput s (fileInput p content) with
    | .error e => .error e
    | .ok (.ok ast, s) =>
      .ok (s, [.read p,
        .out (decText ast.infxs.length ++ t!" fixities read from `" ++ p ++ t!"`\n"),
        .out (Printer.writeFixities (declEntries ast.infxs) ++ t!"\n")])
    | .ok (.error e, s) =>
      match e.textWithPath p with
      | .ok t => .ok (s, [.read p, .out (t ++ t!"\n")])
      | .error q => .error (.panic q)

/-! ### commands -/

/-- Outcome of a command: does the session go on, the session afterwards, and the effects. -/
abbrev Cmd := Except Stop (Bool × Session × List Effect)

/-- `println!("{t}")`. -/
def sayLine (t : Text) : Effect := .out (t ++ t!"\n")
/-- `eprintln!("{t}")`. -/
def errLine (t : Text) : Effect := .err (t ++ t!"\n")

/-- The lines of `HELP_MSG` (session.rs:325-376). -/
def helpLines : List Text :=
  [t!"Pemdas commands:",
   t!"    :cd <path>?             change the current working directory to the",
   t!"                            given path",
   t!"    :clear",
   t!"        --fixities          clear all fixities for the current session",
   t!"        --history           clear the history for the current session",
   t!"        --session           clear all fixities and history for the current",
   t!"                            session (equivalent to using the options",
   t!"                            `--fixities history` or `--history --fixities`)",
   t!"    :fixities               display the fixities of infixes defined in session",
   t!"    :help, :h, :?           display this list of commands",
   t!"    :history",
   t!"        --clear             clear the history for the current session",
   t!"        --clear --file      clear the history along with the contents of the",
   t!"                            history file for the current session",
   t!"        --set <path>        set the path to which this session's history will",
   t!"                            be saved (non-existent files will be created)",
   t!"        --save [<path>]     saves the current session history in the file",
   t!"                            located at <path>",
   t!"    :info, :i [<infix>]     display the fixity of the given infixes",
   t!"                            (same as `:fixities` if no infixes are provided)",
   t!"                            * note that as inputs, promoted infixes",
   t!"                              should not contain the apostrophe prefix or",
   t!"                              backtick circumfix even though the printed",
   t!"                              outputs may contain them",
   t!"    :load",
   t!"        --prelude           load the same fixities as those defined in the",
   t!"                            Haskell prelude",
   t!"        --math              load the fixities for the arithmetic operators",
   t!"                            +, -, *, /, %, ^, ^^, and **",
   t!"        <path>+             load and process the file associated with the",
   t!"                            given path(s), bringing in to scope any defined",
   t!"                            fixities",
   t!"                            * files may end in any file-extension",
   t!"                            * if any file is a Haskell module (i.e., has a",
   t!"                              `.hs` file extension), then only fixities that",
   t!"                              were declared at the top-level are processed",
   t!"                              (e.g., imports and fixity declarations in class",
   t!"                              declarations or in let-expressions may be",
   t!"                              ignored)",
   t!"    :quit, :q               exit Pemdas",
   t!"        --no-history        exit Pemdas without saving history",
   t!"    :reset, :r              shortcut for `:clear --fixities`: reset the",
   t!"                            fixities defined in the current session",
   t!"    :save <path>            save the fixities of this session as a list of",
   t!"                            fixity declarations to the file located at <path>",
   t!"        --append            * append declarations to file instead of",
   t!"                              overwriting file if file at <path> exists",
   t!"    :shell",
   t!"        <program> <args>*   spawn a child process and run the given input",
   t!"                            as the program"]

/-- `HELP_MSG` (session.rs:325-376); every line ends in a line break. -/
def helpMsg : Text := (helpLines.map (· ++ t!"\n")).flatten

/-- `&s[n..]`. -/
def sliceFrom (s : Text) (n : Nat) : Except Stop Text := orStop (byteSlice! s n (utf8Len s))

/-- `:cd` (session.rs:380-393). -/
def cmdCd (w : World) (s : Session) (input : Text) : Cmd := do
  let p ← sliceFrom input (utf8Len t!":cd")
  let p := trim p
  .ok (true, s,
    if p = [] then [errLine t!"no directory provided to `:cd` command"]
    else
      match w.chdir p with
      | .ok () => [.chdir p]
      | .error k =>
        [.chdir p, errLine (t!"could not change current directory to `" ++ p ++ t!"`: " ++ k)])

/-- `:quit`, `:q` (session.rs:397-411). -/
def cmdQuit (s : Session) (input : Text) : Cmd :=
  if input = t!":quit" ∨ input = t!":q" then
    .ok (false, s, [.saveHistory s.historyPath, sayLine t!"exiting Pemdas REPL"])
  else if input = t!":quit --no-history" ∨ input = t!":q --no-history" then
    .ok (false, s, [sayLine t!"exiting Pemdas REPL"])
  else .ok (true, s, [errLine (t!"unknown command: `" ++ input ++ t!"`")])

/-- The options of `:clear` (session.rs:414-430). -/
def clearOpt (s : Session) (o : Text) : Session × List Effect :=
  if o = t!"--history" then (s, [.clearHistory, sayLine t!"session history cleared"])
  else if o = t!"--fixities" then
    let (k, r) := s.resolver.clear
    ({ s with resolver := r }, [sayLine (decText k ++ t!" fixities cleared")])
  else if o = t!"--session" ∨ o = t!"--history --fixities" ∨ o = t!"--fixities --history" then
    let (k, r) := s.resolver.clear
    ({ s with resolver := r },
      [.clearHistory, sayLine (decText k ++ t!" fixities cleared, session history cleared")])
  else (s, [errLine (t!"unknown option(s) passed to command `:clear`: " ++ o)])

/-- `:clear` (session.rs:412-431). -/
def cmdClear (s : Session) (input : Text) : Cmd := do
  let o ← sliceFrom input (utf8Len t!":clear")
  .ok (true, clearOpt s (trim o))

/-- `:history --set` (session.rs:444-455). -/
def historySet (s : Session) (o : Text) : Except Stop (Session × List Effect) := do
  let p ← sliceFrom o (utf8Len t!"--set")
  let p := trim p
  .ok (if p = [] then (s, [errLine t!"no filepath provided for command `:history --set`"])
    else ({ s with historyPath := p },
      [sayLine (t!"session history filepath changed to\n  " ++ p)]))

/-- `:history --save` (session.rs:456-469). -/
def historySave (s : Session) (o : Text) : Except Stop (Session × List Effect) := do
  let said := sayLine (t!"session history written to file located at\n  " ++ s.historyPath)
  if utf8Len o = utf8Len t!"--save" then .ok (s, [.saveHistory s.historyPath, said])
  else
    let p ← sliceFrom o (utf8Len t!"--save")
    .ok (s, [.saveHistory (trim p), said])

/-- The options of `:history` (session.rs:434-474). -/
def historyOpt (s : Session) (o : Text) : Except Stop (Session × List Effect) :=
  if o = t!"--clear" then .ok (s, [.clearHistory, sayLine t!"session history cleared"])
  else if o = t!"--clear --file" then
    .ok (s, [.clearHistory, .saveHistory s.historyPath,
      sayLine t!"session history and file cleared"])
  else if startsWith o t!"--set" then historySet s o
  else if isPrefix t!"--save" o then historySave s o
  else .ok (s, [errLine (t!"invalid option/argument to `:history` command: `" ++ o ++ t!"`"),
    errLine (t!"USAGE:\n  :history --clear\n  :history --set <path>\n" ++
      t!"  :history --save [<path>]")])

/-- `:history` (session.rs:432-475). -/
def cmdHistory (s : Session) (input : Text) : Cmd := do
  let o ← sliceFrom input (utf8Len t!":history")
  let r ← historyOpt s (trim o)
  .ok (true, r)

/-- `:reset`, `:r` (session.rs:476-479). Subtraction on `Nat` is `saturating_sub`. -/
def cmdReset (s : Session) : Cmd :=
  let (k, r) := s.resolver.clear
  .ok (true, { s with resolver := r }, [sayLine (decText (k - 1) ++ t!" fixities removed")])

/-- `:info`, `:i`, `:fixities` without arguments (session.rs:480-482). -/
def cmdFixities (s : Session) : Cmd :=
  .ok (true, s, [sayLine (Printer.writeFixities s.resolver.fixities)])

/-- The operator a word of `:info` stands for (session.rs:495-499). -/
def infoOp (word : Text) : Infix :=
  match word with
  | c :: _ => if isAlphabetic c || c == '_' then .promoted word else .standard word
  | [] => .standard word

/-- The operators that `:info` finds no fixity for (session.rs:505-510). -/
def notDefined : List Infix → List Effect
  | [] => []
  | op :: ops =>
    [.out (t!"the following were not defined: " ++ op.text ++
      (ops.map fun o => t!", " ++ o.text).flatten)]

/-- `:info` with operators (session.rs:489-510); `arg` is what follows the command. -/
def infoArg (s : Session) (arg : Text) : List Effect :=
  let ops := (splitWhitespace (arg.filter fun c => !(c == '(' || c == ')'))).map infoOp
  let defined := ops.filter s.resolver.fixities.has
  let undefined := ops.filter fun op => !s.resolver.fixities.has op
  sayLine (Printer.writeFixities (s.resolver.entriesFor defined)) :: notDefined undefined

/-- `:info`, `:i` with operators (session.rs:483-511). -/
def cmdInfo (s : Session) (input : Text) : Cmd := do
  let arg ← sliceFrom input (if isPrefix t!":info" input then utf8Len t!":info" else utf8Len t!":i")
  .ok (true, s, infoArg s arg)

/-- The path of one argument of `:load` (session.rs:525-529). -/
def unquote (p : Text) : Except Stop Text :=
  if startsWith p t!"\"" ∧ endsWith p t!"\"" then
    orStop (byteSlice! p (utf8Len t!"\"") (utf8Len p))
  else .ok p

/-- The `for_each` over the arguments of `:load` (session.rs:524-531). -/
def loadPaths (w : World) : Session → List Text → Except Stop (Session × List Effect)
  | s, [] => .ok (s, [])
  | s, p :: ps => do
    let p ← unquote p
    let (s, fx) ← readFile w s p
    let (s, fx') ← loadPaths w s ps
    .ok (s, fx ++ fx')

/-- The argument of `:load` (session.rs:512-532). -/
def loadArg (w : World) (s : Session) (o : Text) : Except Stop (Session × List Effect) :=
  if o = [] then .ok (s, [errLine t!"`:load` command missing option/argument"])
  else if o = t!"--prelude" then
    let (k, r) := s.resolver.loadHsPrelude
    .ok ({ s with resolver := r },
      [sayLine (t!"loaded " ++ decText k ++ t!" fixities from Haskell prelude")])
  else if o = t!"--math" then
    let (k, r) := s.resolver.loadArithmetic
    .ok ({ s with resolver := r },
      [sayLine (t!"loaded " ++ decText k ++ t!" fixities for arithmetic operators")])
  else loadPaths w s (splitWhitespace o)

/-- `:load` (session.rs:512-532). -/
def cmdLoad (w : World) (s : Session) (input : Text) : Cmd := do
  let o ← sliceFrom input (utf8Len t!":load")
  let r ← loadArg w s (trim o)
  .ok (true, r)

/-- `:shell` (session.rs:534-561). -/
def cmdShell (w : World) (s : Session) (input : Text) : Cmd := do
  let o ← sliceFrom input (utf8Len t!":shell")
  .ok (true, s,
    match splitWhitespace o with
    | prog :: args =>
      match w.spawn prog args with
      | .ok bs => [.spawn prog args, .bytes bs]
      | .error k => [.spawn prog args, errLine k]
    | [] =>
      [errLine t!"no command provided to `:shell/:sh` command",
       errLine t!"USAGE: :shell CMD <ARG>*"])

/-- `read_command` (session.rs:378-569) for the trimmed line `c`. -/
def command (w : World) (s : Session) (c : Text) : Cmd :=
  if isPrefix t!":cd" c then cmdCd w s c
  else if c = t!":help" ∨ c = t!":h" ∨ c = t!":?" then .ok (true, s, [sayLine helpMsg])
  else if isPrefix t!":q" c ∨ isPrefix t!":quit" c then cmdQuit s c
  else if isPrefix t!":clear" c then cmdClear s c
  else if isPrefix t!":history" c then cmdHistory s c
  else if c = t!":reset" ∨ c = t!":r" then cmdReset s
  else if c = t!":info" ∨ c = t!":i" ∨ c = t!":fixities" then cmdFixities s
  else if isPrefix t!":info" c ∨ isPrefix t!":i" c then cmdInfo s c
  else if isPrefix t!":load" c then cmdLoad w s c
  else if isPrefix t!":shell" c then cmdShell w s c
  else .ok (true, { s with buffer := [] }, [errLine (t!"unknown command: `" ++ c ++ t!"`")])

/-- `read_command` (session.rs:378-569). -/
def readCommand (w : World) (s : Session) (input : Text) : Cmd := command w s (trim input)

/-! ### the loop -/

/-- `sess.read_buffer()` at the end of a round (session.rs:319). -/
def process (s : Session) : Cmd := do
  let r ← s.readBuffer
  .ok (true, r)

/-- Does the line (trimmed) continue a fixity declaration (session.rs:283-289)? -/
def contInfix (s : Text) : Bool :=
  (startsWith s t!"infix" || startsWith s t!"infixl" || startsWith s t!"infixr") &&
    endsWith s t!" \\"

/-- A line ending in a backslash (session.rs:291-294, 297-300): `n` bytes are dropped and `nl`
added. -/
def contLine (sess : Session) (s : Text) (n : Nat) (nl : Text) : Cmd := do
  let t ← orStop (byteSlice! s 0 (utf8Len s - n))
  .ok (true, { sess with buffer := sess.buffer ++ t ++ nl, prompt := .initial }, [])

/-- A line starting with a brace (session.rs:303-309). -/
def braceLine (sess : Session) (s : Text) : Cmd :=
  let s := trimStartMatches '{' s
  if !endsWith s t!"}" then
    .ok (true, { sess with prompt := .continued, buffer := sess.buffer ++ s }, [])
  else process { sess with buffer := sess.buffer ++ trimEndMatches '}' s }

/-- Any other line (session.rs:312-315). -/
def plainLine (sess : Session) (s : Text) : Cmd :=
  process { sess with
    buffer := sess.buffer ++ s
    prompt := if sess.prompt = .continued then .initial else sess.prompt }

/-- One line of `run_repl` (session.rs:268-320). -/
def step (w : World) (sess : Session) (line : Text) : Cmd :=
  let s := trim line
  if s = [] then .ok (true, sess, [])
  else if startsWith (trim s) t!":" then
    if sess.buffer = [] then readCommand w sess s
    else .ok (true, sess, [errLine t!"cannot call a command in multiline mode!"])
  else if contInfix (trim s) then contLine sess s (utf8Len t!" \\") t!"\n"
  else if endsWith s t!"\\" then contLine sess s (utf8Len t!"\\") t!"\n "
  else if startsWith s t!"{" then braceLine sess s
  else plainLine sess s

/-- What `rl.readline` returns (session.rs:263-267). -/
inductive Input where
  | line (t : Text)
  | eof
  | interrupted
  | error (t : Text)
  deriving DecidableEq, Repr

/-- The loop of `run_repl` (session.rs:262-322) on the inputs read, each with what the world
answers during that round. The result says whether the loop was left. -/
def run : Session → List (World × Input) → Cmd
  | s, [] => .ok (true, s, [])
  | s, (_, .eof) :: _ => .ok (false, s, [])
  | s, (_, .interrupted) :: _ => .ok (false, s, [])
  | s, (_, .error e) :: rest => do
    let (b, s, fx) ← run s rest
    .ok (b, s, errLine (t!"Error: " ++ e) :: fx)
  | s, (w, .line l) :: rest => do
    let (b, s, fx) ← step w s l
    if b then
      let (b, s, fx') ← run s rest
      .ok (b, s, fx ++ fx')
    else .ok (false, s, fx)

/-- `ReplSession::print_init_msg` (session.rs:13,150-163). -/
def initMsg (s : Session) : List Effect :=
  [sayLine t!"Pemdas, version 0.1.0",
   sayLine (t!"history stored at \"" ++ s.historyPath ++ t!"\""),
   sayLine ("    :quit, :q               exit REPL
    :fixities               display the fixities of infixes defined in session
    :help, :h               display list of REPL commands".toList)]

end Session

/-! ### setup.rs -/

/-- The file system as far as setup.rs asks. -/
structure FileSystem where
  /-- `Path::exists` -/
  exists_ : Text → Bool
  /-- `Path::is_dir` -/
  isDir : Text → Bool
  /-- `fs::create_dir` succeeds -/
  createDir : Text → Bool
  /-- creating, opening and syncing a file succeeds -/
  createFile : Text → Bool

/-- `Path::join` on Unix, for a relative second part. -/
def pathJoin (p q : Text) : Text :=
  if p = [] then q else if p.getLast? = some '/' then p ++ q else p ++ t!"/" ++ q

/-- `try_cfg_dir` (setup.rs:9-30); `home` is `HOME` when the program was compiled. `none` is an
error. -/
def tryCfgDir (fs : FileSystem) (home : Option Text) : Option Text × List Effect :=
  match home with
  | some home =>
    let dir := pathJoin home t!".pemdas"
    if fs.exists_ dir then
      if fs.isDir dir then (some dir, [])
      else (some t!".", [Session.errLine t!"`/.pemdas` exists but is not a directory!",
        Session.errLine t!"defaulting to current directory"])
    else if fs.createDir dir then (some dir, [])
    else (none, [])
  | none => (some t!".", [Session.errLine t!"environment variable HOME is not set",
      Session.errLine t!"defaulting to current directory"])

/-- `try_history_path` (setup.rs:34-51). -/
def tryHistoryPath (fs : FileSystem) (home : Option Text) : Option Text × List Effect :=
  match tryCfgDir fs home with
  | (some dir, fx) =>
    let p := pathJoin dir t!".history"
    if fs.exists_ p then (some p, fx)
    else if fs.createFile p then (some p, fx)
    else (none, fx)
  | (none, fx) => (none, fx)

/-- `ReplSession::new` (session.rs:134-148): the default path is empty. -/
def Session.new (fs : FileSystem) (home : Option Text) : Session × List Effect :=
  let (p, fx) := tryHistoryPath fs home
  (⟨Resolver.new, [], .initial, p.getD []⟩, fx)

/-- `run_repl` (session.rs:250-323), without loading the history. -/
def runRepl (fs : FileSystem) (home : Option Text) (inputs : List (World × Session.Input)) :
    Session.Cmd := do
  let (s, fx) := Session.new fs home
  let (b, s', fx') ← s.run inputs
  .ok (b, s', fx ++ s.initMsg ++ fx')

end
end Pemdas
