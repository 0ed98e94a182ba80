import Verif.Model.Color
/-
Model of `src/text/style.rs`.  A value that is displayed is modelled by the text its `Display`
writes, so `Style<S>` is a text with a `Config`; values composed of others are in
`Model/Compose.lean`, formatter options, failing items and failing writers in `Model/Format.lean`.
The colour setters generated by `style_setters!` (style.rs:559-766) are `setFg`/`setBg` with the
colour named.
The `Paint` trait is in `Model/Paint.lean`.
Not modelled: `map`, `map_ref`, `lift`, the `Show!` macro, the unit structs per format
(style.rs:74-135).
-/
namespace Pemdas

/-- `AnsiFormat` (style.rs:250-300). -/
inductive AnsiFormat where
  | reset | bold | dim | italic | underlined | blinking | inverted | hidden | strikethrough
  deriving DecidableEq, Repr

/-- The discriminants, i.e. `BYTE` (style.rs:85, 259-298). -/
def AnsiFormat.byte : AnsiFormat → UInt8
  | .reset => 0
  | .bold => 1
  | .dim => 2
  | .italic => 3
  | .underlined => 4
  | .blinking => 5
  | .inverted => 7
  | .hidden => 8
  | .strikethrough => 9

/-- `Config` (style.rs:137-142). `Option` of a unit struct is a `Bool`. -/
structure Config where
  resetPrev : Bool
  bold : Bool
  dim : Bool
  italic : Bool
  underlined : Bool
  blinking : Bool
  invert : Bool
  hidden : Bool
  strikethrough : Bool
  fgColor : Option Color
  bgColor : Option Color
  deriving DecidableEq, Repr

namespace Config

/-- `Config::DEFAULT` (style.rs:151-155). -/
def default : Config := ⟨false, false, false, false, false, false, false, false, false, none, none⟩

/-- `Config::set_format` through the generated setters (style.rs:162-166, 215-220). -/
def setFormat (c : Config) : AnsiFormat → Config
  | .reset => { c with resetPrev := true }
  | .bold => { c with bold := true }
  | .dim => { c with dim := true }
  | .italic => { c with italic := true }
  | .underlined => { c with underlined := true }
  | .blinking => { c with blinking := true }
  | .inverted => { c with invert := true }
  | .hidden => { c with hidden := true }
  | .strikethrough => { c with strikethrough := true }

/-- `Config::reset_format` (style.rs:168-175). -/
def resetFormat (c : Config) : AnsiFormat → Config
  | .reset => { c with resetPrev := false }
  | .bold => { c with bold := false }
  | .dim => { c with dim := false }
  | .italic => { c with italic := false }
  | .underlined => { c with underlined := false }
  | .blinking => { c with blinking := false }
  | .inverted => { c with invert := false }
  | .hidden => { c with hidden := false }
  | .strikethrough => { c with strikethrough := false }

/-- `Config::toggle_format` (style.rs:177-187). -/
def toggleFormat (c : Config) : AnsiFormat → Config
  | .reset => { c with resetPrev := !c.resetPrev }
  | .bold => { c with bold := !c.bold }
  | .dim => { c with dim := !c.dim }
  | .italic => { c with italic := !c.italic }
  | .underlined => { c with underlined := !c.underlined }
  | .blinking => { c with blinking := !c.blinking }
  | .inverted => { c with invert := !c.invert }
  | .hidden => { c with hidden := !c.hidden }
  | .strikethrough => { c with strikethrough := !c.strikethrough }

/-- The generated predicates `is_bold` etc. (style.rs:222-226). -/
def has (c : Config) : AnsiFormat → Bool
  | .reset => c.resetPrev
  | .bold => c.bold
  | .dim => c.dim
  | .italic => c.italic
  | .underlined => c.underlined
  | .blinking => c.blinking
  | .inverted => c.invert
  | .hidden => c.hidden
  | .strikethrough => c.strikethrough

/-- `Config::set_fg_color` (style.rs:303-308). -/
def setFgColor (c : Config) (col : Color) : Config := { c with fgColor := some col }
/-- `Config::set_bg_color` (style.rs:310-315). -/
def setBgColor (c : Config) (col : Color) : Config := { c with bgColor := some col }
/-- `Config::reset_colors` (style.rs:317-321). -/
def resetColors (c : Config) : Config := { c with fgColor := none, bgColor := none }

/-- `Config::non_color_bytes` (style.rs:195-199). -/
def nonColorBytes (c : Config) : List UInt8 :=
  [if c.resetPrev then some AnsiFormat.reset.byte else none,
   if c.bold then some AnsiFormat.bold.byte else none,
   if c.dim then some AnsiFormat.dim.byte else none,
   if c.italic then some AnsiFormat.italic.byte else none,
   if c.underlined then some AnsiFormat.underlined.byte else none,
   if c.blinking then some AnsiFormat.blinking.byte else none,
   if c.invert then some AnsiFormat.inverted.byte else none,
   if c.hidden then some AnsiFormat.hidden.byte else none,
   if c.strikethrough then some AnsiFormat.strikethrough.byte else none].filterMap id

/-- `Config::color_bytes` (style.rs:201-209). -/
def colorBytes (c : Config) : List UInt8 :=
  (match c.fgColor with | some x => x.fgBytes | none => []) ++
  (match c.bgColor with | some x => x.bgBytes | none => [])

/-- `Config::bytes` (style.rs:189-193). -/
def bytes (c : Config) : List UInt8 := c.nonColorBytes ++ c.colorBytes

/-- `Config::write_start` (style.rs:323-340). -/
def writeStart (c : Config) : Text :=
  t!"\x1b[" ++
  (match c.bytes with
   | [] => t!"0"
   | n :: bs => decText n.toNat ++ (bs.map (fun e => t!";" ++ decText e.toNat)).flatten) ++
  t!"m"

/-- `Config::write_end` (style.rs:342-344). -/
def writeEnd (_ : Config) : Text := t!"\x1b[0m"

/-- `Config::style_str_start` (style.rs:347-364). -/
def styleStrStart (c : Config) : Text :=
  let buf := t!"\x1b["
  let len := utf8Len buf
  let buf := match c.bytes with
    | [] => buf
    | b :: bs => bs.foldl (fun buf s => buf ++ t!";" ++ decText s.toNat) (buf ++ decText b.toNat)
  let buf := if utf8Len buf = len then buf ++ t!"0" else buf
  buf ++ t!"m"

end Config

/-- `Style<S>` (style.rs:387), with what `S` displays as. -/
structure Style where
  item : Text
  config : Config
  deriving DecidableEq, Repr

namespace Style

/-- `Style::new` (style.rs:390-392). -/
def new (item : Text) : Style := ⟨item, Config.default⟩
/-- `Style::set_fg` (style.rs:407-410). -/
def setFg (s : Style) (c : Color) : Style := { s with config := s.config.setFgColor c }
/-- `Style::set_bg` (style.rs:413-416). -/
def setBg (s : Style) (c : Color) : Style := { s with config := s.config.setBgColor c }
/-- the generated `set_bold` etc. (style.rs:576-579). -/
def setFormat (s : Style) (f : AnsiFormat) : Style := { s with config := s.config.setFormat f }
/-- the generated `unset_bold` etc. (style.rs:581-584). -/
def unsetFormat (s : Style) (f : AnsiFormat) : Style := { s with config := s.config.resetFormat f }
/-- the generated `toggle_bold` etc. (style.rs:586-589). -/
def toggleFormat (s : Style) (f : AnsiFormat) : Style := { s with config := s.config.toggleFormat f }
/-- `impl Display for Style` (style.rs:846-850). -/
def display (s : Style) : Text := s.config.writeStart ++ s.item ++ s.config.writeEnd
/-- `Style::fresh_suffix` displayed (style.rs:452-454, 889-891). -/
def thenText (s : Style) (t : Text) : Text := s.display ++ t

/-- `red`, `blue`, `green`, `yellow` (style.rs:910-924). -/
def ansi (c : AnsiColor) (item : Text) : Style := (new item).setFg (.ansi c)

/-- `impl Display for Highlighted` (style.rs:950-957). -/
def highlighted (item : Text) (c : Color) : Text := ((new item).setFg c).display

end Style
end Pemdas
