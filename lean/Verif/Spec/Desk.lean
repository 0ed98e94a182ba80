import Verif.Props.Ledger
import Verif.Props.Messages
/-
Specification of whole sessions: for every line that can be typed, what happens. Nothing here refers
to the loop, the commands or the resolver; inputs are read with `parse`, whose grammar is specified in
`Spec/Grammar` and `Spec/LexGrammar`.
-/
namespace Pemdas

section
variable [CharTables]

/-- What a session has: the fixities it knows, the text that is to be continued, the prompt that it
shows next, and the path of its history file. -/
structure Desk where
  ledger : Ledger
  pending : Text
  prompt : LinePrompt
  history : Text

/-- The session that has just that. -/
def Desk.session (d : Desk) : Session := ⟨⟨d.ledger, []⟩, d.pending, d.prompt, d.history⟩

/-- The message about an input that cannot be parsed, without and with the place. -/
inductive Complains : ParseError → Text → Text → Prop where
  | unexpected {f ft loc} : f.text = .ok ft →
      Complains (.unexpected f loc) (t!"unexpected token `" ++ ft ++ t!"`")
        (t!"unexpected token `" ++ ft ++ t!"` found at " ++ loc.shown.toList)
  | expected {t tt f ft loc} : t.text = .ok tt → f.text = .ok ft →
      Complains (.expected t loc f) (t!"expected `" ++ tt ++ t!"`, but found `" ++ ft ++ t!"`")
        (t!"expected `" ++ tt ++ t!"`, but found `" ++ ft ++ t!"` at " ++ loc.shown.toList)

/-- `Replies l src fx l'`: with the ledger `l` the input `src` is answered with `fx`, and `l'` is
left. -/
inductive Replies (l : Ledger) (src : Text) : List Effect → Ledger → Prop where
  | wrong {e lx short long} : parse src = .err e lx → Complains e short long →
      Replies l src [.err (painted t!"0" (painted t!"31" t!"[Error]:" ++ t!" ") ++ long ++ t!"\n")] l
  | input {ast lx xs es l'} : parse src = .ok ast lx →
      TurnAll (l.enterAll (declared ast.infxs)) ast.exprs xs es l' →
      Replies l src (answer ast.kinds xs es) l'

/-- The same for a file named by an argument of `:load`. -/
inductive RepliesFile (w : World) (l : Ledger) (word : Text) : List Effect → Ledger → Prop where
  | missing {p k} : Opens word p → w.readFile p = .error k →
      RepliesFile w l word
        [.read p, .err (t!"unable to read `" ++ p ++ t!"`\n"), .err (k ++ t!"\n")] l
  | wrong {p content t e lx short long} : Opens word p → w.readFile p = .ok content →
      FileText p content t → parse t = .err e lx → Complains e short long →
      RepliesFile w l word [.read p, .out (painted t!"31" t!"[Error]:" ++ t!"  " ++
        painted t!"34" (t!"(" ++ p ++ t!":" ++ decText e.loc.line ++ t!":" ++ decText e.loc.col ++
          t!") ") ++ short ++ t!"\n")] l
  | accepted {p content t ast lx xs l'} : Opens word p → w.readFile p = .ok content →
      FileText p content t → parse t = .ok ast lx →
      TurnAll (l.enterAll (declared ast.infxs)) ast.exprs xs [] l' →
      RepliesFile w l word [.read p,
        .out (decText ast.infxs.length ++ t!" fixities read from `" ++ p ++ t!"`\n"),
        .out (listingSent (declared ast.infxs) ++ t!"\n")] l'
  | ambiguous {p content t ast lx xs es l'} : Opens word p → w.readFile p = .ok content →
      FileText p content t → parse t = .ok ast lx →
      TurnAll (l.enterAll (declared ast.infxs)) ast.exprs xs es l' → es ≠ [] →
      RepliesFile w l word [.read p, .out (painted t!"31" t!"[Error]:" ++ t!" " ++
        painted t!"34" (t!"(" ++ p ++ t!")") ++
        ((firstOfEach es).flatMap fun e => t!"\n  " ++ e.wording.toList) ++ t!"\n")] l'

/-- The same for files one after the other. -/
inductive RepliesFiles (w : World) : Ledger → List Text → List Effect → Ledger → Prop where
  | nil {l} : RepliesFiles w l [] [] l
  | cons {l word ws fx fx' l₁ l₂} : RepliesFile w l word fx l₁ → RepliesFiles w l₁ ws fx' l₂ →
      RepliesFiles w l (word :: ws) (fx ++ fx') l₂

/-- The line says the command `word` with the argument `o`, or without argument if `o` is empty. -/
def Asks (line word o : Text) : Prop := SaysWith line word o ∨ (Says line word ∧ o = [])

/-- The commands that take an argument, `:info` aside. -/
def argumentWords : List Text := [t!":cd", t!":clear", t!":history", t!":load", t!":shell"]

/-- The other commands. -/
def plainWords : List Text := [t!":help", t!":h", t!":?", t!":reset", t!":r", t!":fixities"]

/-- `Obeys w d word o d' fx`: what the command `word` with argument `o` does. -/
inductive Obeys (w : World) (d : Desk) : Text → Text → Desk → List Effect → Prop where
  | cd {p} : p ≠ [] → w.chdir p = .ok () → Obeys w d t!":cd" p d [.chdir p]
  | cdFails {p k} : p ≠ [] → w.chdir p = .error k → Obeys w d t!":cd" p d [.chdir p,
      .err (t!"could not change current directory to `" ++ p ++ t!"`: " ++ k ++ t!"\n")]
  | cdNowhere : Obeys w d t!":cd" [] d [.err t!"no directory provided to `:cd` command\n"]
  | clearHistory : Obeys w d t!":clear" t!"--history" d
      [.clearHistory, .out t!"session history cleared\n"]
  | clearFixities : Obeys w d t!":clear" t!"--fixities" { d with ledger := [] }
      [.out (decText d.ledger.length ++ t!" fixities cleared\n")]
  | clearSession {o} : o ∈ [t!"--session", t!"--history --fixities", t!"--fixities --history"] →
      Obeys w d t!":clear" o { d with ledger := [] }
        [.clearHistory, .out (decText d.ledger.length ++ t!" fixities cleared, session history cleared\n")]
  | clearOther {o} : o ∉ t!"--history" :: clearingOptions → Obeys w d t!":clear" o d
      [.err (t!"unknown option(s) passed to command `:clear`: " ++ o ++ t!"\n")]
  | forget : Obeys w d t!":history" t!"--clear" d
      [.clearHistory, .out t!"session history cleared\n"]
  | forgetFile : Obeys w d t!":history" t!"--clear --file" d
      [.clearHistory, .saveHistory d.history, .out t!"session history and file cleared\n"]
  | setNothing : Obeys w d t!":history" t!"--set" d
      [.err t!"no filepath provided for command `:history --set`\n"]
  | set {b p} : Blank b → NoLead p → Obeys w d t!":history" (t!"--set" ++ b ++ p)
      { d with history := p } [.out (t!"session history filepath changed to\n  " ++ p ++ t!"\n")]
  | save : Obeys w d t!":history" t!"--save" d [.saveHistory d.history,
      .out (t!"session history written to file located at\n  " ++ d.history ++ t!"\n")]
  | saveTo {b p} : Blank b → b ≠ [] → NoLead p → Obeys w d t!":history" (t!"--save" ++ b ++ p) d
      [.saveHistory p,
        .out (t!"session history written to file located at\n  " ++ d.history ++ t!"\n")]
  | historyOther {o} : o ∉ [t!"--clear", t!"--clear --file"] → ¬ t!"--set" <+: o →
      ¬ FirstWord t!"--save" o → Obeys w d t!":history" o d
        [.err (t!"invalid option/argument to `:history` command: `" ++ o ++ t!"`\n"),
         .err t!"USAGE:\n  :history --clear\n  :history --set <path>\n  :history --save [<path>]\n"]
  | loadNothing : Obeys w d t!":load" [] d [.err t!"`:load` command missing option/argument\n"]
  | math : Obeys w d t!":load" t!"--math" { d with ledger := d.ledger.enterAll mathEntries }
      [.out t!"loaded 8 fixities for arithmetic operators\n"]
  | prelude : Obeys w d t!":load" t!"--prelude" { d with ledger := d.ledger.enterAll preludeEntries }
      [.out t!"loaded 23 fixities from Haskell prelude\n"]
  | files {o ws fx l} : o ∉ [[], t!"--math", t!"--prelude"] → Words o ws →
      RepliesFiles w d.ledger ws fx l → Obeys w d t!":load" o { d with ledger := l } fx
  | shell {o prog args bs} : Words o (prog :: args) → w.spawn prog args = .ok bs →
      Obeys w d t!":shell" o d [.spawn prog args, .bytes bs]
  | shellFails {o prog args k} : Words o (prog :: args) → w.spawn prog args = .error k →
      Obeys w d t!":shell" o d [.spawn prog args, .err (k ++ t!"\n")]
  | shellNothing : Obeys w d t!":shell" [] d
      [.err t!"no command provided to `:shell/:sh` command\n", .err t!"USAGE: :shell CMD <ARG>*\n"]

/-- The operator that a word of `:info` is shown as if it has no fixity. -/
def asked (word : Text) : Infix :=
  if word.head?.any fun c => isAlphabetic c || c == '_' then .promoted word else .standard word

/-- `Does w d line go d' fx`: a line typed at the desk `d` leaves the desk `d'`, with the effects `fx`,
and the session goes on if `go`. -/
inductive Does (w : World) (d : Desk) (line : Text) : Bool → Desk → List Effect → Prop where
  | blank : Blank line → Does w d line true d []
  | busy {c} : Says line c → t!":" <+: c → d.pending ≠ [] →
      Does w d line true d [.err t!"cannot call a command in multiline mode!\n"]
  | continues {add} : Continues line add →
      Does w d line true { d with pending := d.pending ++ add, prompt := .initial } []
  | opens {n body} : Says line (List.replicate (n + 1) '{' ++ body) → ¬ t!"{" <+: body →
      ¬ t!"}" <:+ body → ¬ t!"\\" <:+ body →
      Does w d line true { d with pending := d.pending ++ body, prompt := .continued } []
  | ends {body fx l} : Ends line body → Replies d.ledger (d.pending ++ body) fx l →
      Does w d line true { d with ledger := l, pending := [], prompt := .initial } fx
  | block {body fx l} : Block line body → Replies d.ledger (d.pending ++ body) fx l →
      Does w d line true { d with ledger := l, pending := [] } fx
  | help {c} : d.pending = [] → Says line c → c ∈ [t!":help", t!":h", t!":?"] →
      Does w d line true d [.out (Session.helpMsg ++ t!"\n")]
  | quit {c} : d.pending = [] → Says line c → c ∈ [t!":q", t!":quit"] →
      Does w d line false d [.saveHistory d.history, .out t!"exiting Pemdas REPL\n"]
  | quitOnly {c} : d.pending = [] → Says line c → c ∈ [t!":q --no-history", t!":quit --no-history"] →
      Does w d line false d [.out t!"exiting Pemdas REPL\n"]
  | reset {c} : d.pending = [] → Says line c → c ∈ [t!":reset", t!":r"] →
      Does w d line true { d with ledger := [] }
        [.out (decText (d.ledger.length - 1) ++ t!" fixities removed\n")]
  | fixities {c} : d.pending = [] → Says line c → c ∈ [t!":fixities", t!":info", t!":i"] →
      Does w d line true d [.out (listingSent d.ledger ++ t!"\n")]
  | info {c arg ws} : d.pending = [] → c ∈ [t!":info", t!":i"] → SaysWith line c arg →
      Words (arg.filter fun c => !(c == '(' || c == ')')) ws → (∀ n ∈ ws, (d.ledger.entry n).isSome) →
      Does w d line true d [.out (listingSent (ws.filterMap d.ledger.entry) ++ t!"\n")]
  | infoPartly {c arg ws} : d.pending = [] → c ∈ [t!":info", t!":i"] → SaysWith line c arg →
      Words (arg.filter fun c => !(c == '(' || c == ')')) ws → (∃ n ∈ ws, d.ledger.entry n = none) →
      Does w d line true d [.out (listingSent (ws.filterMap d.ledger.entry) ++ t!"\n"),
        .out (t!"the following were not defined: " ++ List.intercalate t!", "
          ((ws.filter fun n => (d.ledger.entry n).isNone).map fun n => (asked n).text))]
  | obeys {word o d' fx} : d.pending = [] → Asks line word o → Obeys w d word o d' fx →
      Does w d line true d' fx
  | unknown {c} : d.pending = [] → Says line c → t!":" <+: c → c ∉ plainWords ++ quitForms →
      (∀ p ∈ [t!":info", t!":i"] ++ argumentWords, ¬ FirstWord p c) →
      Does w d line true d [.err (t!"unknown command: `" ++ c ++ t!"`\n")]

/-- `Sits d ins go d' fx`: the same for all that the line editor returns, one after the other, each
with the world at that time; `go` says whether the session still goes on. -/
inductive Sits : Desk → List (World × Session.Input) → Bool → Desk → List Effect → Prop where
  | nothing {d} : Sits d [] true d []
  | eof {d w ins} : Sits d ((w, .eof) :: ins) false d []
  | interrupted {d w ins} : Sits d ((w, .interrupted) :: ins) false d []
  | error {d w e ins go d' fx} : Sits d ins go d' fx →
      Sits d ((w, .error e) :: ins) go d' (.err (t!"Error: " ++ e ++ t!"\n") :: fx)
  | quits {d w line ins d' fx} : Does w d line false d' fx → Sits d ((w, .line line) :: ins) false d' fx
  | line {d w line ins d' fx go d'' fx'} : Does w d line true d' fx → Sits d' ins go d'' fx' →
      Sits d ((w, .line line) :: ins) go d'' (fx ++ fx')

/-- `Housed fs home dir fx`: the directory for the history, if there is one, and what is said about
it. -/
inductive Housed (fs : FileSystem) : Option Text → Option Text → List Effect → Prop where
  | found {h} : fs.exists_ (pathJoin h t!".pemdas") = true → fs.isDir (pathJoin h t!".pemdas") = true →
      Housed fs (some h) (some (pathJoin h t!".pemdas")) []
  | file {h} : fs.exists_ (pathJoin h t!".pemdas") = true → fs.isDir (pathJoin h t!".pemdas") = false →
      Housed fs (some h) (some t!".") [.err t!"`/.pemdas` exists but is not a directory!\n",
        .err t!"defaulting to current directory\n"]
  | made {h} : fs.exists_ (pathJoin h t!".pemdas") = false →
      fs.createDir (pathJoin h t!".pemdas") = true →
      Housed fs (some h) (some (pathJoin h t!".pemdas")) []
  | fails {h} : fs.exists_ (pathJoin h t!".pemdas") = false →
      fs.createDir (pathJoin h t!".pemdas") = false → Housed fs (some h) none []
  | homeless : Housed fs none (some t!".") [.err t!"environment variable HOME is not set\n",
      .err t!"defaulting to current directory\n"]

/-- `Keeps fs home path fx`: the path of the history file, empty if there is none, and what is said
about it. -/
inductive Keeps (fs : FileSystem) (home : Option Text) : Text → List Effect → Prop where
  | kept {dir fx} : Housed fs home (some dir) fx →
      fs.exists_ (dir ++ t!"/.history") = true ∨ fs.createFile (dir ++ t!"/.history") = true →
      Keeps fs home (dir ++ t!"/.history") fx
  | noFile {dir fx} : Housed fs home (some dir) fx → fs.exists_ (dir ++ t!"/.history") = false →
      fs.createFile (dir ++ t!"/.history") = false → Keeps fs home [] fx
  | noDir {fx} : Housed fs home none fx → Keeps fs home [] fx

/-- What is said when a session starts. -/
def greeting (path : Text) : List Effect :=
  [.out t!"Pemdas, version 0.1.0\n", .out (t!"history stored at \"" ++ path ++ t!"\"\n"),
   .out ("    :quit, :q               exit REPL
    :fixities               display the fixities of infixes defined in session
    :help, :h               display list of REPL commands".toList ++ t!"\n")]

end
end Pemdas
