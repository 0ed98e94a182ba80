import Verif.Spec.Terminal
/-
Specification of what chains of styling methods show, read off the names of the methods. Nothing here
refers to the code.
-/
namespace Pemdas

/-- The attributes a terminal knows, with their codes (ECMA-48). -/
def emphases : List (Text × Nat) :=
  [(t!"bold", 1), (t!"dim", 2), (t!"italic", 3), (t!"underlined", 4), (t!"blinking", 5),
   (t!"inverted", 7), (t!"hidden", 8), (t!"strikethrough", 9)]

/-- The names of the colours of the palette, in the order of their codes. -/
def hues : List Text :=
  [t!"black", t!"red", t!"green", t!"yellow", t!"blue", t!"magenta", t!"cyan", t!"white"]

/-- The colour of a name. -/
def namedColor (name : Text) : Option PenColor :=
  match hues.idxOf? name, hues.idxOf? (name.drop 6) with
  | some i, _ => some (.palette (30 + i))
  | none, some i => if name.take 6 = t!"light_" then some (.palette (90 + i)) else none
  | none, none =>
    [(t!"maroon", PenColor.rgb 128 0 0), (t!"orange", .rgb 255 128 0), (t!"crimson", .rgb 220 20 60),
     (t!"teal", .rgb 0 128 128), (t!"azure", .rgb 0 128 255), (t!"purple", .rgb 128 0 128),
     (t!"indigo", .rgb 75 0 130), (t!"violet", .rgb 238 130 238)].lookup name

/-- All names of colours. -/
def colorNames : List Text :=
  hues ++ hues.map (t!"light_" ++ ·) ++
    [t!"maroon", t!"orange", t!"crimson", t!"teal", t!"azure", t!"purple", t!"indigo", t!"violet"]

/-- Whether an attribute is on after a method, if it was as `on` says before. -/
def turned (what : Text) (on : Bool) (name : Text) : Bool :=
  if name = t!"set_" ++ what then true
  else if name = t!"unset_" ++ what then false
  else if name = t!"toggle_" ++ what then !on
  else on

/-- The colour of the ground `fg` or `bg` after a method: `none` if there is none to be set,
`some none` if it is to be reset. -/
def recolored (ground : Text) (color : Option (Option PenColor)) (name : Text) :
    Option (Option PenColor) :=
  if name = t!"reset_colors" then none
  else if name = t!"reset_" ++ ground then some none
  else if name.take 7 = t!"set_" ++ ground ++ t!"_" then some (namedColor (name.drop 7))
  else color

/-- The attributes on after methods called one after the other. -/
def attributes (names : List Text) : List Nat :=
  (emphases.filter fun e => names.foldl (turned e.1) false).map (·.2)

/-- The colour after methods called one after the other. -/
def groundColor (ground : Text) (names : List Text) : Option (Option PenColor) :=
  names.foldl (recolored ground) none

/-- How a text looks that is styled by methods called one after the other. -/
def wantedPen (names : List Text) : Pen :=
  ⟨attributes names, (groundColor t!"fg" names).join, (groundColor t!"bg" names).join⟩

end Pemdas
