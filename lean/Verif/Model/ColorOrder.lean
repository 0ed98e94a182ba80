import Verif.Model.Color
/-
Model of the derived orderings of `src/text/color.rs` and of the list of the palette colours.
`derive(Ord)` compares enums by discriminant and then fields, tuple structs field by field; `<` etc.
(`derive(PartialOrd)`) agree with it.
-/
namespace Pemdas

/-- `AnsiColor::ALL` (color.rs:38-58). -/
def AnsiColor.all : List AnsiColor :=
  [.black, .red, .green, .yellow, .blue, .magenta, .cyan, .white,
   .lightBlack, .lightRed, .lightGreen, .lightYellow, .lightBlue, .lightMagenta, .lightCyan,
   .lightWhite]

/-- `Ord` of `AnsiColor`, and of `Fg` and `Bg` (color.rs:1, 103, 123). -/
def AnsiColor.cmp (a b : AnsiColor) : Ordering := compare a.code b.code

/-- `Ord` of `Rgb` (color.rs:153). -/
def Rgb.cmp (a b : Rgb) : Ordering :=
  (compare a.r b.r).then ((compare a.g b.g).then (compare a.b b.b))

/-- `Ord` of `Color` (color.rs:238). -/
def Color.cmp : Color → Color → Ordering
  | .ansi a, .ansi b => a.cmp b
  | .ansi _, .rgb _ => .lt
  | .rgb _, .ansi _ => .gt
  | .rgb a, .rgb b => a.cmp b

end Pemdas
