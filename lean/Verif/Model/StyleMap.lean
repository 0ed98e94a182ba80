import Verif.Model.Format
/-
Model of what is left of `src/text/style.rs`: `map`, `map_ref` and `lift` of `Style`, the `print`
and `fmt` shorthands, and the unit structs that the macro makes for each format.
-/
namespace Pemdas

/-- `Style<S>` (style.rs:387) for any `S`. -/
structure StyleOf (α : Type) where
  item : α
  config : Config

namespace StyleOf
variable {α β σ : Type}

/-- `Style::map` (style.rs:460-467). The caller's closure is an `FnMut`: it may change a state `σ`
of its own, which is handed on. -/
def map (s : StyleOf α) (f : σ → α → Config → σ × β × Config) (st : σ) : σ × StyleOf β :=
  let (st, t, config) := f st s.item s.config
  (st, ⟨t, config⟩)

/-- `Style::map_ref` (style.rs:469-476). The style is borrowed and can be used afterwards; `Config`
is `Copy`. -/
def mapRef (s : StyleOf α) (f : σ → α → Config → σ × β × Config) (st : σ) :
    σ × StyleOf β × StyleOf α :=
  let (st, t, config) := f st s.item s.config
  (st, ⟨t, config⟩, s)

/-- `Style::lift` (style.rs:541-546). `fmt::Error` has one value. -/
def lift (s : StyleOf (Except Unit α)) : Except Unit (StyleOf α) :=
  s.item.map fun i => ⟨i, s.config⟩

/-- As a value that can be formatted, given how its item can. -/
def value (show_ : α → FmtValue) (s : StyleOf α) : FmtValue := .style (show_ s.item) s.config

end StyleOf

/-- `Style::fmt_display` (style.rs:483-489), which calls `Display` with the same formatter. -/
def FmtValue.fmtDisplay (v : FmtValue) (sp : FmtSpec) : Writing := v.fmt .display sp

/-- `Style::fmt_debug` (style.rs:491-496). -/
def FmtValue.fmtDebug (v : FmtValue) (sp : FmtSpec) : Writing := v.fmt .debug sp

/-- `And::display_fmt` (style.rs:779-785) and `Then::display_fmt` (style.rs:818-824): `write!` makes
a new formatter. -/
def FmtValue.displayFmt (v : FmtValue) (_ : FmtSpec) : Writing := v.fmt .display .plain

/-- `print` of `Style`, `And` and `Then` (style.rs:502-511, 787-796, 826-835): what is written to
stdout. `println!` writes the newline as part of the same formatting, and `print!` panics if the
formatting fails. -/
def FmtValue.print (v : FmtValue) (nl : Bool) : Writing :=
  if nl then (v.fmt .display .plain).andThen (.str t!"\n") else v.fmt .display .plain

/-- The unit struct of a format (style.rs:74-76): `Bold`, `Dim` and so on. -/
structure FormatUnit (f : AnsiFormat) where

namespace FormatUnit
variable {f : AnsiFormat}

/-- `From` (style.rs:78-82) and `Deref` (style.rs:104-110). -/
def format (_ : FormatUnit f) : AnsiFormat :=
  match f with
  | .reset => .reset
  | .bold => .bold
  | .dim => .dim
  | .italic => .italic
  | .underlined => .underlined
  | .blinking => .blinking
  | .inverted => .inverted
  | .hidden => .hidden
  | .strikethrough => .strikethrough

/-- `BYTE` (style.rs:85), `as_byte` (style.rs:93-95). -/
def asByte (_ : FormatUnit f) : UInt8 :=
  match f with
  | .reset => 0
  | .bold => 1
  | .dim => 2
  | .italic => 3
  | .underlined => 4
  | .blinking => 5
  | .inverted => 7
  | .hidden => 8
  | .strikethrough => 9

/-- `STR` (style.rs:87), `as_str` (style.rs:89-91), `AsRef<str>` (style.rs:98-102). -/
def asStr (_ : FormatUnit f) : Text :=
  match f with
  | .reset => t!"0"
  | .bold => t!"1"
  | .dim => t!"2"
  | .italic => t!"3"
  | .underlined => t!"4"
  | .blinking => t!"5"
  | .inverted => t!"7"
  | .hidden => t!"8"
  | .strikethrough => t!"9"

/-- `PartialEq<u8>` of the unit structs and its converse (style.rs:112-122). -/
def eqByte (u : FormatUnit f) (b : UInt8) : Bool := b == u.asByte

/-- `PartialEq` of the unit structs with `AnsiFormat` and its converse (style.rs:124-134), as
`matches!` has it. -/
def eqFormat (u : FormatUnit f) (g : AnsiFormat) : Bool := decide (g = u.format)

end FormatUnit
end Pemdas
