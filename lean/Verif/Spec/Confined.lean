import Verif.Spec.Trace
/-
Specification of what a session may do to the system it runs on: only what a line that was typed says.
-/
namespace Pemdas

section
variable [CharTables]

/-- The lines that were typed. -/
def typed (ins : List (World × Session.Input)) : List Text :=
  ins.filterMap fun x => match x.2 with
    | .line t => some t
    | _ => none

/-- `Granted path lines x`: the effect `x` is allowed if `lines` were typed in a session that keeps its
history at `path`. Writing to the screen is always allowed. -/
inductive Granted (path : Text) (lines : List Text) : Effect → Prop where
  | out {t} : Granted path lines (.out t)
  | err {t} : Granted path lines (.err t)
  /-- A program is started if a line says `:shell` with just its name and arguments. -/
  | spawn {line o prog args} : line ∈ lines → SaysWith line t!":shell" o → Words o (prog :: args) →
      Granted path lines (.spawn prog args)
  /-- Bytes are passed on if a line says `:shell`. -/
  | bytes {line o bs} : line ∈ lines → SaysWith line t!":shell" o → Granted path lines (.bytes bs)
  /-- The directory is changed to one that a line names. -/
  | chdir {line p} : line ∈ lines → SaysWith line t!":cd" p → Granted path lines (.chdir p)
  /-- Files are read that a line names. -/
  | read {line o ws word p} : line ∈ lines → SaysWith line t!":load" o → Words o ws → word ∈ ws →
      Opens word p → Granted path lines (.read p)
  /-- The history is cleared if a line says that. -/
  | clear {line o} : line ∈ lines → SaysWith line t!":clear" o →
      o ∈ [t!"--history", t!"--session", t!"--history --fixities", t!"--fixities --history"] →
      Granted path lines .clearHistory
  | forget {line o} : line ∈ lines → SaysWith line t!":history" o →
      o ∈ [t!"--clear", t!"--clear --file"] → Granted path lines .clearHistory
  /-- The history is written to a file that a line names for that. -/
  | saveTo {line b p} : line ∈ lines → SaysWith line t!":history" (t!"--save" ++ b ++ p) → Blank b →
      NoLead p → Granted path lines (.saveHistory p)
  /-- The history is written to the file of the session if a line says that, which includes the lines
  that quit. That file is the one of the beginning, or was named by a line. -/
  | save {line p} : line ∈ lines →
      Says line t!":q" ∨ Says line t!":quit" ∨ SaysWith line t!":history" t!"--save" ∨
        SaysWith line t!":history" t!"--clear --file" →
      p = path ∨ (∃ line' ∈ lines, ∃ b, SaysWith line' t!":history" (t!"--set" ++ b ++ p) ∧ Blank b) →
      Granted path lines (.saveHistory p)

end
end Pemdas
