import Verif.Model.Style
/-
Model of composed styled values (`src/text/style.rs`): `Style<S>` where `S` is itself a `Style`,
`And`, `Then` or the `Debug` wrapper.  A value that is formatted is a tree `Doc`; a leaf is any
other type, given by what its `Display` and its `Debug` write.
The other formatting traits, formatter options and failures are in `Model/Format.lean`.
Printing to stdout, `map`, `map_ref` and `lift` are in `Model/StyleMap.lean`.
-/
namespace Pemdas

/-- A composed value. -/
inductive Doc where
  /-- any other type: what `{}` and `{:?}` write -/
  | leaf (shown debug : Text)
  /-- `Style<S>` (style.rs:387) -/
  | style (item : Doc) (config : Config)
  /-- `Debug<'_, S>` (style.rs:521) -/
  | debug (item : Doc) (config : Config)
  /-- `And<A, B>` (style.rs:768) -/
  | and (a b : Doc)
  /-- `Then<A, B>` (style.rs:807) -/
  | then_ (a b : Doc)
  deriving DecidableEq, Repr

mutual
/-- `Display` (style.rs:846-850 for `Style`, 527-529 and 377-384 for `Debug`, 889-891 for `And`
and `Then`). -/
def Doc.display : Doc → Text
  | .leaf s _ => s
  | .style d c => c.writeStart ++ d.display ++ c.writeEnd
  | .debug d c => c.writeStart ++ d.debugFmt ++ c.writeEnd
  | .and a b => a.display ++ b.display
  | .then_ a b => a.display ++ b.display

/-- `Debug` (style.rs:846-850 for `Style`, 536-538 for `Debug`, 889-891 for `And` and `Then`). -/
def Doc.debugFmt : Doc → Text
  | .leaf _ s => s
  | .style d c => c.writeStart ++ d.debugFmt ++ c.writeEnd
  | .debug d _ => d.debugFmt
  | .and a b => a.debugFmt ++ b.debugFmt
  | .then_ a b => a.debugFmt ++ b.debugFmt
end

/-- `Style<S>` as a value with methods (style.rs:387). -/
structure Styled where
  item : Doc
  config : Config
  deriving DecidableEq, Repr

namespace Styled

/-- Use as an item of something else. -/
def doc (s : Styled) : Doc := .style s.item s.config

/-- `Style::new` (style.rs:390-392), also `style_owned` (style.rs:690-693) and `Then::styled`
(style.rs:814-816). -/
def new (d : Doc) : Styled := ⟨d, Config.default⟩
/-- `Style::set_fg` (style.rs:407-410). -/
def setFg (s : Styled) (c : Color) : Styled := { s with config := s.config.setFgColor c }
/-- `Style::share_iter` (style.rs:428-433). -/
def shareIter (s : Styled) (items : List Doc) : List Styled := items.map (⟨·, s.config⟩)
/-- `Style::prepend` (style.rs:435-437). -/
def prepend (s : Styled) (d : Doc) : Styled := ⟨.and d s.item, s.config⟩
/-- `Style::append` (style.rs:439-441). -/
def append (s : Styled) (d : Doc) : Styled := ⟨.and s.item d, s.config⟩
/-- `Style::then_with` (style.rs:443-450). -/
def thenWith (s : Styled) (d : Doc) (f : Styled → Styled) : Doc :=
  .then_ s.doc (f ⟨d, s.config⟩).doc
/-- `Style::fresh_suffix` (style.rs:452-454). -/
def freshSuffix (s : Styled) (d : Doc) : Doc := .then_ s.doc d
/-- `Style::fresh_prefix` (style.rs:456-458). -/
def freshPrefix (s : Styled) (d : Doc) : Doc := .then_ d s.doc
/-- `Style::reset_colors` (style.rs:478-481). -/
def resetColors (s : Styled) : Styled := { s with config := s.config.resetColors }
/-- `Style::debug` (style.rs:498-500). -/
def debug (s : Styled) : Doc := .debug s.item s.config
/-- `blue` (style.rs:914-916). -/
def blue (d : Doc) : Styled := (new d).setFg (.ansi .blue)
/-- `wrapped_blue` (style.rs:926-929). -/
def wrappedBlue (left right item : Doc) : Styled :=
  ((new left).append (blue item).doc).append right

end Styled

/-- `And::and` (style.rs:775-777) on a value built by `And::new` (style.rs:771-773). -/
def Doc.andAlso (d e : Doc) : Doc := .and d e

/-- `Highlighted<T>` (style.rs:931). -/
structure Highlighted where
  item : Doc
  color : Color
  deriving DecidableEq, Repr

/-- `impl From<Style<T>> for Highlighted<T>` (style.rs:933-942). -/
def Highlighted.ofStyled (s : Styled) : Highlighted :=
  ⟨s.item, s.config.fgColor.getD (.ansi .normal)⟩

/-- `impl From<Highlighted<T>> for Style<T>` (style.rs:944-948). -/
def Highlighted.toStyled (h : Highlighted) : Styled := (Styled.new h.item).setFg h.color

/-- `impl Display for Highlighted` (style.rs:950-957). -/
def Highlighted.display (h : Highlighted) : Text := ((Styled.new h.item).setFg h.color).doc.display

namespace AnsiFormat

/-- `AnsiFormat::ALL` (style.rs:49). -/
def all : List AnsiFormat :=
  [.reset, .bold, .dim, .italic, .underlined, .blinking, .inverted, .hidden, .strikethrough]

/-- `AnsiFormat::as_str` (style.rs:51-55). -/
def asStr : AnsiFormat → Text
  | .reset => t!"0"
  | .bold => t!"1"
  | .dim => t!"2"
  | .italic => t!"3"
  | .underlined => t!"4"
  | .blinking => t!"5"
  | .inverted => t!"7"
  | .hidden => t!"8"
  | .strikethrough => t!"9"

/-- `AnsiFormat::maybe_from_u8` (style.rs:68-71). -/
def maybeFromU8 (b : UInt8) : Option AnsiFormat :=
  if b = 0 then some .reset
  else if b = 1 then some .bold
  else if b = 2 then some .dim
  else if b = 3 then some .italic
  else if b = 4 then some .underlined
  else if b = 5 then some .blinking
  else if b = 7 then some .inverted
  else if b = 8 then some .hidden
  else if b = 9 then some .strikethrough
  else none

/-- `AnsiFormat::from_u8` (style.rs:62-66). -/
def fromU8 (b : UInt8) : AnsiFormat :=
  if b = 0 then .reset
  else if b = 1 then .bold
  else if b = 2 then .dim
  else if b = 3 then .italic
  else if b = 4 then .underlined
  else if b = 5 then .blinking
  else if b = 7 then .inverted
  else if b = 8 then .hidden
  else if b = 9 then .strikethrough
  else .reset

/-- `impl PartialEq<u8> for AnsiFormat` (style.rs:34-38). -/
def eqByte (f : AnsiFormat) (b : UInt8) : Bool := f.byte == b

end AnsiFormat
end Pemdas
