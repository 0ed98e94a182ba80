import Verif.Model.Session
import Verif.Props.Table
import Verif.Spec.Resolve
/-
Vocabulary for what is typed in a session.  Nothing here refers to the loop or the commands.
-/
namespace Pemdas

/-- Only whitespace. -/
def Blank (t : Text) : Prop := ∀ c ∈ t, isWhitespace c = true

/-- Begins with a character that is not whitespace. -/
def NoLead (t : Text) : Prop := ∃ c r, t = c :: r ∧ isWhitespace c = false

/-- Ends with a character that is not whitespace. -/
def NoTrail (t : Text) : Prop := ∃ r c, t = r ++ [c] ∧ isWhitespace c = false

/-- The line consists of the text `c` and whitespace around it. -/
def Says (line c : Text) : Prop :=
  ∃ a b, line = a ++ c ++ b ∧ Blank a ∧ Blank b ∧ NoLead c ∧ NoTrail c

/-- The ways to quit. -/
def quitForms : List Text := [t!":q", t!":quit", t!":q --no-history", t!":quit --no-history"]

/-- The line is to be continued, and adds the second text to the input: the line without its
final backslash, and a line break (followed by a blank, unless the line is a fixity declaration
whose backslash follows a blank). -/
inductive Continues : Text → Text → Prop where
  | decl {line body} : Says line (body ++ t!" \\") → t!"infix" <+: body →
      Continues line (body ++ t!"\n")
  | other {line body} : Says line (body ++ t!"\\") → ¬ t!":" <+: body ++ t!"\\" →
      ¬ (t!"infix" <+: body ∧ t!" " <:+ body) → Continues line (body ++ t!"\n ")

/-- The line ends an input, and adds the second text to it. -/
inductive Ends : Text → Text → Prop where
  | plain {line body} : Says line body → ¬ t!":" <+: body → ¬ t!"{" <+: body →
      ¬ t!"\\" <:+ body → Ends line body

/-- A line that is a block of its own: its outer braces are dropped. -/
def Block (line body : Text) : Prop :=
  ∃ n m, Says line (List.replicate (n + 1) '{' ++ body ++ List.replicate (m + 1) '}') ∧
    ¬ t!"{" <+: body ∧ ¬ t!"}" <:+ body

/-- The words of a text. -/
inductive Words : Text → List Text → Prop where
  | nil {t} : Blank t → Words t []
  | cons {a w rest ws} : Blank a → w ≠ [] → (∀ c ∈ w, isWhitespace c = false) →
      (∀ c, rest.head? = some c → isWhitespace c = true) → Words rest ws →
      Words (a ++ w ++ rest) (w :: ws)

/-- The line says the command `word` with the argument `arg`. -/
def SaysWith (line word arg : Text) : Prop :=
  ∃ b, Says line (word ++ b ++ arg) ∧ Blank b ∧ b ≠ [] ∧ NoLead arg

/-- The options that clear fixities. -/
def clearingOptions : List Text :=
  [t!"--fixities", t!"--session", t!"--history --fixities", t!"--fixities --history"]

/-- The file that is opened for an argument of `:load`: an argument in double quotes loses the
opening quote only (see C58). -/
def Opens (word path : Text) : Prop :=
  if t!"\"" <+: word ∧ t!"\"" <:+ word then word = '"' :: path else path = word

/-- Paths of Haskell files: the last component ends in `.hs` and has something before that.
Components that are empty or `.` do not count. -/
def HsPath (p : Text) : Prop :=
  ∃ dir name : Text, ∃ rest : List Text, p = dir ++ name ++ t!".hs" ++ (rest.map ('/' :: ·)).flatten ∧
    name ≠ [] ∧ '/' ∉ name ∧ (dir = [] ∨ ∃ d, dir = d ++ t!"/") ∧ ∀ r ∈ rest, r = [] ∨ r = t!"."

/-- The lines of a text: `ls` joined by line breaks. -/
def LinesOf (ls : List Text) (t : Text) : Prop :=
  (∀ l ∈ ls, '\n' ∉ l) ∧ t = (t!"\n").intercalate ls

/-- The text that is processed for a file: of a Haskell file, the trimmed lines starting with
`infix`, one after the other (see C57). -/
inductive FileText (p content : Text) : Text → Prop where
  | plain : ¬ HsPath p → FileText p content content
  | haskell {ls} : HsPath p → LinesOf ls content →
      FileText p content ((ls.map trim).filter fun l => decide (t!"infix" <+: l)).flatten

/-- What a line makes happen to the fixities. -/
inductive Event where
  /-- this text is processed as an input -/
  | text (t : Text)
  | clear | math | prelude
  deriving DecidableEq, Repr

/-- The files loaded for arguments, with what the world has in them. -/
inductive Loads (w : World) : List Text → List Event → Prop where
  | nil : Loads w [] []
  | missing {word path k ws evs} : Opens word path → w.readFile path = .error k → Loads w ws evs →
      Loads w (word :: ws) evs
  | file {word path content t ws evs} : Opens word path → w.readFile path = .ok content →
      FileText path content t → Loads w ws evs → Loads w (word :: ws) (.text t :: evs)

/-- The lines that can affect fixities, with what they do. -/
inductive Reads (w : World) (buffer : Text) : Text → List Event → Prop where
  | plain {line body} : Ends line body → Reads w buffer line [.text (buffer ++ body)]
  | block {line body} : Block line body → Reads w buffer line [.text (buffer ++ body)]
  | reset {line c} : buffer = [] → Says line c → c ∈ [t!":reset", t!":r"] →
      Reads w buffer line [.clear]
  | clear {line o} : buffer = [] → SaysWith line t!":clear" o → o ∈ clearingOptions →
      Reads w buffer line [.clear]
  | math {line} : buffer = [] → SaysWith line t!":load" t!"--math" → Reads w buffer line [.math]
  | prelude {line} : buffer = [] → SaysWith line t!":load" t!"--prelude" →
      Reads w buffer line [.prelude]
  | files {line o ws evs} : buffer = [] → SaysWith line t!":load" o → o ≠ t!"--math" →
      o ≠ t!"--prelude" → Words o ws → Loads w ws evs → Reads w buffer line evs

/-- The operators declared by declarations, with their fixities, in order. -/
def declared (ds : List InfixDecl) : List (Infix × Fixity) :=
  (ds.map fun d => d.infixes.map fun op => (op, d.fixity)).flatten

section
variable [CharTables]

/-- An entry of the log of a session. -/
inductive Write where
  | decl (op : Infix) (fx : Fixity)
  | clear
  deriving DecidableEq, Repr

/-- The fixity an operator has after the log: that of its last declaration after the last clear. -/
def lastWrite (log : List Write) (op : Infix) : Option Fixity :=
  go log.reverse
where
  /-- Latest entry first. -/
  go : List Write → Option Fixity
  | [] => none
  | .clear :: _ => none
  | .decl o fx :: rest => if o.symbol = op.symbol then some fx else go rest

/-- What is declared by `:load --math`: `*`, `/`, `%` are `infixl 6` (see C18). -/
def mathFixities : List (Text × Fixity) :=
  [(t!"^", ⟨8, .right⟩), (t!"^^", ⟨8, .right⟩), (t!"**", ⟨8, .right⟩),
   (t!"*", ⟨6, .left⟩), (t!"/", ⟨6, .left⟩), (t!"%", ⟨6, .left⟩),
   (t!"+", ⟨6, .left⟩), (t!"-", ⟨6, .left⟩)]

/-- What an event adds to the log. -/
def Event.log : Event → List Write
  | .text t =>
    match parse t with
    | .ok ast _ => (declared ast.infxs).map fun d => .decl d.1 d.2
    | _ => []
  | .clear => [.clear]
  | .math => mathFixities.map fun d => .decl (.standard d.1) d.2
  | .prelude => haskellFixities.map fun d => .decl (.standard d.1) d.2

/-- The inputs among the events declare no operator twice in one `let`. -/
def Event.NoDup : Event → Prop
  | .text t => ∀ ast l, parse t = .ok ast l → ∀ e ∈ ast.exprs, e.LetsDistinct
  | _ => True

/-- The sessions that can be reached, each with what happened to its fixities. -/
inductive History : Session → List Event → Prop where
  | start (fs home) : History (Session.new fs home).1 []
  | reads {w s s' line b fx log evs} : History s log → Reads w s.buffer line evs →
      Session.step w s line = .ok (b, s', fx) → History s' (log ++ evs)
  | quiet {w s s' line b fx log} : History s log → (¬ ∃ evs, Reads w s.buffer line evs) →
      Session.step w s line = .ok (b, s', fx) → History s' log

end
end Pemdas
