import Verif.Lemmas.AnySource
import Verif.Props.Format
import Verif.Props.Spellings
/-
C95 and C96 for all sources, also those in which a carriage return follows a line feed.
-/
namespace Pemdas
open Lexer

section
variable [CharTables] [LawfulTables]

/-- C95 for all sources: the tokens, and the columns at which they end, are read without a panic and
without an error exactly if the text without the carriage returns that follow line feeds is derived
by the grammar; the text of a token is what the source has at the offset the token would have without
these carriage returns. -/
theorem C95_every_source (src : Text) (cs : List CTok) :
    (Lexes src cs ∧ ∀ e, .error e ∉ cs.map (·.1)) ↔ Reading src [] (unCR src) cs :=
  lexes_iff_reading src cs

/-- C95: the grammar for all sources is unambiguous. -/
theorem C95_every_source_unambiguous {src : Text} {cs cs' : List CTok}
    (h : Reading src [] (unCR src) cs) (h' : Reading src [] (unCR src) cs') : cs = cs' :=
  ((C95_every_source src cs).2 h).1.unique ((C95_every_source src cs').2 h').1

/-- C95: where no carriage return follows a line feed, this is the grammar that does not tell what is
read from what is found. -/
theorem C95_agrees {src : Text} (hc : NoLFCR src) (cs : List CTok) :
    Reading src [] (unCR src) cs ↔ Placed [] src cs := by
  rw [← C95_every_source, lexes_iff_placed hc]

/-- C96 for all sources: a text is a program exactly if it is derived by the lexical grammar for
tokens that the grammar of programs derives. -/
theorem C96_every_source (src : Text) (ast : Ast) :
    (∃ l', parse src = .ok ast l') ↔
      ∃ cs ds, Reading src [] (unCR src) cs ∧ WrittenProg ds cs ∧ ast = Ast.ofDecls ds := by
  rw [C81_program]
  constructor
  · rintro ⟨cs, ds, h1, h2, h3⟩
    exact ⟨cs, ds, (C95_every_source src cs).1 ⟨h1, fun e hm => h2.sound _ hm e rfl⟩, h2, h3⟩
  · rintro ⟨cs, ds, h1, h2, h3⟩
    exact ⟨cs, ds, ((C95_every_source src cs).2 h1).1, h2, h3⟩

end

section
attribute [local instance] asciiTables asciiTables_lawful

theorem exReading {src : Text} {cs : List CTok} (xs : List (Token × LocSpan)) (n : Nat)
    (h : items n (Lexer.new src) = .ok xs) (hn : xs.length < n)
    (hc : cs = xs.map fun x => (x.1, x.2.hi.col)) (he : ∀ e, .error e ∉ cs.map (·.1)) :
    Reading src [] (unCR src) cs :=
  (C95_every_source src cs).1 ⟨⟨xs, n, hn, h, hc⟩, he⟩

/-- A carriage return after a line feed makes the name after it another one. -/
theorem ex_reading_name : Reading t!"a\n\rb" [] t!"a\nb" [(.lower t!"a", 2), (.lower t!"\r", 2)] :=
  exReading (src := t!"a\n\rb") [(.lower t!"a", ⟨⟨1, 1, 0⟩, ⟨1, 2, 1⟩⟩),
    (.lower t!"\r", ⟨⟨2, 1, 2⟩, ⟨2, 2, 3⟩⟩)] 3 (by decide +kernel) (by decide) rfl (by simp)

/-- After a comment with a carriage return after a line feed in it, the letters `etx` are read as the
word `let`. -/
theorem ex_reading_let : Reading t!"~{\n\r}~letx" [] t!"~{\n}~letx" [(.let_, 7)] :=
  exReading (src := t!"~{\n\r}~letx") [(.let_, ⟨⟨2, 4, 6⟩, ⟨2, 7, 9⟩⟩)] 2 (by decide +kernel)
    (by decide) rfl (by simp)

/-- The digits `12` are read as the number of the text `+1`. -/
theorem ex_reading_plus : Reading t!"\n\r+12" [] t!"\n+12" [(.affix t!"\r" false, 2), (.lit (.int 1), 4)] :=
  exReading (src := t!"\n\r+12") [(.affix t!"\r" false, ⟨⟨2, 1, 1⟩, ⟨2, 2, 2⟩⟩),
    (.lit (.int 1), ⟨⟨2, 2, 2⟩, ⟨2, 4, 4⟩⟩)] 3 (by decide +kernel) (by decide) rfl (by simp)

/-- C96 is about programs such as this one, which means something else without its carriage
return. -/
example : (∃ l', parse t!"a;\n\rbc" =
      .ok (Ast.ofDecls [.expr (.var (.lower t!"a")), .expr (.var (.lower t!"\rb"))]) l') ∧
    ∃ l', parse t!"a;\nbc" =
      .ok (Ast.ofDecls [.expr (.var (.lower t!"a")), .expr (.var (.lower t!"bc"))]) l' :=
  ⟨of_value (by decide +kernel), of_value (by decide +kernel)⟩

end
end Pemdas
