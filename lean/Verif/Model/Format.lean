import Verif.Model.Compose
/-
Model of how styled values (`src/text/style.rs`) are formatted when formatter options are given,
when items refuse to be formatted and when the writer fails.  `Model/Compose.lean` is the special
case without options in which nothing fails.

Formatting is a strategy `Writing`: it writes a piece, learns whether the writer took it, and goes
on.  A piece is one `write_str`; that a `write!` makes one such call per literal and per argument is
the standard library's behaviour.
-/
namespace Pemdas

/-- The formatting traits the macro implements (style.rs:901-908). -/
inductive FmtTrait where
  | display | debug | binary | octal | lowerHex | lowerExp | upperHex | upperExp | pointer
  deriving DecidableEq, Repr

/-- Alignment in a format specification. -/
inductive FmtAlign where
  | left | center | right
  deriving DecidableEq, Repr

/-- The options of a `fmt::Formatter`: what is between `:` and `}` in a format string. -/
structure FmtSpec where
  fill : Char
  align : Option FmtAlign
  plus : Bool
  alternate : Bool
  zero : Bool
  width : Option Nat
  precision : Option Nat
  deriving DecidableEq, Repr

/-- The options of `{}`. -/
def FmtSpec.plain : FmtSpec := ⟨' ', none, false, false, false, none, none⟩

/-- Writing to a `fmt::Write`: finish with a result, or write a piece and go on depending on
whether that succeeded. -/
inductive Writing where
  | done (ok : Bool)
  | put (t : Text) (next : Bool → Writing)

namespace Writing

/-- `Formatter::write_str`. -/
def str (t : Text) : Writing := .put t .done

/-- Combine the result with an earlier one. -/
def also (ok : Bool) : Writing → Writing
  | .done r => .done (ok && r)
  | .put t k => .put t (fun r => (k r).also ok)

/-- `a.and(b)` where `b` is a call: the call is made whatever the result of `a` (`Result::and`
takes its argument by value). -/
def both : Writing → Writing → Writing
  | .done ok, b => b.also ok
  | .put t k, b => .put t (fun r => (k r).both b)

/-- `a?; b`. -/
def andThen : Writing → Writing → Writing
  | .done true, b => b
  | .done false, _ => .done false
  | .put t k, b => .put t (fun r => (k r).andThen b)

/-- Run against a writer. -/
def run {W : Type} (write : W → Text → W × Bool) : W → Writing → W × Bool
  | w, .done ok => (w, ok)
  | w, .put t k => (k (write w t).2).run write (write w t).1

/-- Write to a `String`, which never fails. -/
def toText (a : Writing) : Text × Bool := a.run (fun w t => (w ++ t, true)) []

end Writing

/-- The `write!` calls of the loop in `write_start` (style.rs:331-334). -/
def Config.writeRest : List UInt8 → Writing
  | [] => .done true
  | e :: es => ((Writing.str t!";").andThen (.str (decText e.toNat))).andThen (writeRest es)

/-- `Config::write_start` (style.rs:323-340). -/
def Config.start (c : Config) : Writing :=
  (Writing.str t!"\x1b[").andThen
    ((match c.bytes with
      | [] => Writing.str t!"0"
      | n :: bs => (Writing.str (decText n.toNat)).andThen (writeRest bs)).andThen
      (.str t!"m"))

/-- `Config::write_end` (style.rs:342-344). -/
def Config.finish (_ : Config) : Writing := .str t!"\x1b[0m"

/-- A composed value, its leaves being values of any other types. -/
inductive FmtValue where
  | leaf (fmt : FmtTrait → FmtSpec → Writing)
  /-- `Style<S>` (style.rs:387) -/
  | style (item : FmtValue) (config : Config)
  /-- `Debug<'_, S>` (style.rs:521) -/
  | debug (item : FmtValue) (config : Config)
  /-- `And<A, B>` (style.rs:768) -/
  | and (a b : FmtValue)
  /-- `Then<A, B>` (style.rs:807) -/
  | then_ (a b : FmtValue)

/-- `fmt` of the formatting traits: the macro's impls for `Style` (style.rs:846-850), `And` and
`Then` (style.rs:889-891), and `Display` and `Debug` of the `Debug` wrapper (style.rs:527-529 with
377-384, 536-538).  The wrapper has no other traits, so the last case does not compile in Rust. -/
def FmtValue.fmt : FmtValue → FmtTrait → FmtSpec → Writing
  | .leaf f, tr, sp => f tr sp
  | .style p c, tr, sp => (c.start.both (p.fmt tr sp)).both c.finish
  | .debug p c, .display, _ => (c.start.andThen (p.fmt .debug .plain)).andThen c.finish
  | .debug p _, .debug, sp => p.fmt .debug sp
  | .debug _ _, _, _ => .done true
  | .and a b, tr, sp => (a.fmt tr sp).both (b.fmt tr sp)
  | .then_ a b, tr, sp => (a.fmt tr sp).both (b.fmt tr sp)

/-- Write a character `n` times, stopping at a failure. -/
def Writing.fillWith (c : Char) : Nat → Writing
  | 0 => .done true
  | n + 1 => (Writing.str [c]).andThen (fillWith c n)

/-- The truncation in `Formatter::pad`. -/
def FmtSpec.truncated (sp : FmtSpec) (t : Text) : Text :=
  match sp.precision with
  | some n => t.take n
  | none => t

/-- How much of the padding goes before the text (`Formatter::padding` with `Left` as default). -/
def FmtSpec.before (sp : FmtSpec) (pad : Nat) : Nat :=
  match sp.align.getD .left with
  | .left => 0
  | .center => pad / 2
  | .right => pad

/-- The standard library's `Formatter::pad`. -/
def Writing.pad (sp : FmtSpec) (t : Text) : Writing :=
  match sp.width with
  | none => .str t
  | some w =>
    if w - t.length = 0 then .str t
    else
      ((Writing.fillWith sp.fill (sp.before (w - t.length))).andThen (.str t)).andThen
        (.fillWith sp.fill (w - t.length - sp.before (w - t.length)))

/-- A string as an item, `{}` padding it; the other traits are not needed here and write the
text. -/
def FmtValue.ofStr (t : Text) : FmtValue :=
  .leaf fun tr sp =>
    match tr with
    | .display => .pad sp (sp.truncated t)
    | _ => .str t

/-- A `Doc` as such a value. -/
def Doc.value : Doc → FmtValue
  | .leaf shown inner => .leaf fun tr _ => .str (if tr = .debug then inner else shown)
  | .style d c => .style d.value c
  | .debug d c => .debug d.value c
  | .and a b => .and a.value b.value
  | .then_ a b => .then_ a.value b.value

end Pemdas
