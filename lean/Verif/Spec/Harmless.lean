import Verif.Spec.Confined
/-
What is sent to the terminal and leaves it as it was, and the sessions in which no escape character
comes from outside, except inside sources.
-/
namespace Pemdas

/-- A terminal in its usual state (in no escape sequence, with the default pen) that receives the text
is in that state again afterwards. -/
def Harmless (t : Text) : Prop :=
  ∀ sc, ∃ sc', Term.run ⟨.ground, Pen.default, sc⟩ t = ⟨.ground, Pen.default, sc'⟩

/-- The error is about what stands between backticks (or after a backtick). -/
inductive ParseError.AboutPromotion : ParseError → Prop where
  | unexpected {a n loc} : AboutPromotion (.unexpected (.error (.invalidPromotedInfix a n)) loc)
  | expected {t a n loc} : AboutPromotion (.expected t loc (.error (.invalidPromotedInfix a n)))

section
variable [CharTables]

/-- Sources that have no escape character; and those that have no "\n\r" and are not rejected because
of what stands between backticks. -/
def Docile (src : Text) : Prop :=
  '\x1b' ∉ src ∨ (NoLFCR src ∧ ∀ e lx, parse src = .err e lx → ¬ e.AboutPromotion)

/-- What the system says has no escape character, and the files are `Docile`. -/
structure Calm (w : World) : Prop where
  chdir : ∀ p k, w.chdir p = .error k → '\x1b' ∉ k
  spawn : ∀ p args k, w.spawn p args = .error k → '\x1b' ∉ k
  unread : ∀ p k, w.readFile p = .error k → '\x1b' ∉ k
  files : ∀ p content t, w.readFile p = .ok content → FileText p content t → Docile t

/-- No escape character is typed, or comes from the system (except in files). -/
structure Unescaped (home : Option Text) (ins : List (World × Session.Input)) : Prop where
  home : ∀ h, home = some h → '\x1b' ∉ h
  lines : ∀ line ∈ typed ins, '\x1b' ∉ line
  errors : ∀ w e, (w, Session.Input.error e) ∈ ins → '\x1b' ∉ e
  worlds : ∀ w i, (w, i) ∈ ins → Calm w

/-- The effect does not write to the terminal, or what it writes is harmless. (What a program started
with `:shell` writes, `Effect.bytes`, is its own affair.) -/
def Effect.Harmless : Effect → Prop
  | .out t | .err t => Pemdas.Harmless t
  | _ => True

end
end Pemdas
