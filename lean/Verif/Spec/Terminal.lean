import Verif.Model.Basic
/-
Specification: what a terminal does with styled output (ECMA-48 SGR sequences).
Independent of the code under verification.
-/
namespace Pemdas

/-- A colour of the terminal's pen. -/
inductive PenColor where
  /-- one of the 16 palette colours, by its foreground code (30–37, 90–97) -/
  | palette (code : Nat)
  | rgb (r g b : Nat)
  deriving DecidableEq, Repr

/-- The terminal's pen: active attributes (SGR 1–9) and colours. -/
structure Pen where
  attrs : List Nat
  fg : Option PenColor
  bg : Option PenColor
  deriving DecidableEq, Repr

/-- The pen after a reset. -/
def Pen.default : Pen := ⟨[], none, none⟩

/-- Effect of the parameters of one `CSI … m` sequence, left to right. -/
def Pen.apply : List Nat → Pen → Pen
  | 38 :: 2 :: r :: g :: b :: ps, p => Pen.apply ps { p with fg := some (.rgb r g b) }
  | 48 :: 2 :: r :: g :: b :: ps, p => Pen.apply ps { p with bg := some (.rgb r g b) }
  | n :: ps, p =>
    Pen.apply ps
      (if n = 0 then Pen.default
       else if n ≤ 9 then { p with attrs := p.attrs ++ [n] }
       else if (30 ≤ n ∧ n ≤ 37) ∨ (90 ≤ n ∧ n ≤ 97) then { p with fg := some (.palette n) }
       else if (40 ≤ n ∧ n ≤ 47) ∨ (100 ≤ n ∧ n ≤ 107) then
         { p with bg := some (.palette (n - 10)) }
       else p)
  | [], p => p

/-- State of the escape sequence parser. -/
inductive TermMode where
  | ground
  | escape
  | csi (params : List Nat) (cur : Nat)
  deriving DecidableEq, Repr

/-- A terminal. -/
structure Term where
  mode : TermMode
  pen : Pen
  /-- what has been shown: characters with the pen they were drawn with -/
  screen : List (Char × Pen)
  deriving DecidableEq, Repr

/-- A fresh terminal. -/
def Term.start : Term := ⟨.ground, Pen.default, []⟩

/-- Process one character. -/
def Term.step (t : Term) (c : Char) : Term :=
  match t.mode with
  | .ground =>
    if c = '\x1b' then { t with mode := .escape }
    else { t with screen := t.screen ++ [(c, t.pen)] }
  | .escape => { t with mode := if c = '[' then .csi [] 0 else .ground }
  | .csi ps n =>
    if c.isDigit then { t with mode := .csi ps (n * 10 + (c.toNat - '0'.toNat)) }
    else if c = ';' then { t with mode := .csi (ps ++ [n]) 0 }
    else if c = 'm' then { t with mode := .ground, pen := Pen.apply (ps ++ [n]) t.pen }
    else { t with mode := .ground }

/-- Process a text. -/
def Term.run (t : Term) (s : Text) : Term := s.foldl Term.step t

/-- Text with the escape sequences removed. -/
def Term.visible (s : Text) : Text := (Term.start.run s).screen.map (·.1)

end Pemdas
