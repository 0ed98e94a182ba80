import Verif.Model.Basic
/-
Model of `src/text/color.rs`.  `u8` is `UInt8`, `u32` and `usize` are `UInt32` and `UInt64`
(64-bit target).  The derived orderings are in `Model/ColorOrder.lean`.  Not modelled: the
`FG_VAL`/`BG_VAL` constants.
-/
namespace Pemdas

/-- `AnsiColor` (color.rs:3-21). -/
inductive AnsiColor where
  | normal | black | red | green | yellow | blue | magenta | cyan | white
  | lightBlack | lightRed | lightGreen | lightYellow | lightBlue | lightMagenta | lightCyan
  | lightWhite
  deriving DecidableEq, Repr

/-- `*self as u8`: the discriminants (color.rs:4-20). -/
def AnsiColor.code : AnsiColor → UInt8
  | .normal => 0
  | .black => 0x1E
  | .red => 0x1F
  | .green => 0x20
  | .yellow => 0x21
  | .blue => 0x22
  | .magenta => 0x23
  | .cyan => 0x24
  | .white => 0x25
  | .lightBlack => 0x5A
  | .lightRed => 0x5B
  | .lightGreen => 0x5C
  | .lightYellow => 0x5D
  | .lightBlue => 0x5E
  | .lightMagenta => 0x5F
  | .lightCyan => 0x60
  | .lightWhite => 0x61

/-- `AnsiColor::RAINBOW` (color.rs:32-35). -/
def AnsiColor.rainbowList : List AnsiColor :=
  [.red, .lightRed, .yellow, .green, .blue, .magenta, .lightMagenta]

/-- `AnsiColor::as_fg` (color.rs:64-66). -/
def AnsiColor.asFg (c : AnsiColor) : UInt8 := c.code

/-- `AnsiColor::as_bg` (color.rs:72-74). -/
def AnsiColor.asBg (c : AnsiColor) : UInt8 := c.code

/-- `AnsiColor::rainbow` (color.rs:76-78). The index is in range. -/
def AnsiColor.rainbow (n : UInt8) : Except Panic AnsiColor :=
  match rainbowList[n.toNat % 7]? with
  | some c => .ok c
  | none => .error .indexOutOfBounds

/-- `AnsiColor::as_str` (color.rs:80-100). -/
def AnsiColor.asStr : AnsiColor → Text
  | .normal => t!"0"
  | .black => t!"30"
  | .red => t!"31"
  | .green => t!"32"
  | .yellow => t!"33"
  | .blue => t!"34"
  | .magenta => t!"35"
  | .cyan => t!"36"
  | .white => t!"37"
  | .lightBlack => t!"90"
  | .lightRed => t!"91"
  | .lightGreen => t!"92"
  | .lightYellow => t!"93"
  | .lightBlue => t!"94"
  | .lightMagenta => t!"95"
  | .lightCyan => t!"96"
  | .lightWhite => t!"97"

/-- `impl Display for Fg` (color.rs:111-115). -/
def AnsiColor.displayFg (c : AnsiColor) : Text := decText c.code.toNat

/-- `impl Display for Bg` (color.rs:126-130). The `u8` addition cannot overflow here. -/
def AnsiColor.displayBg (c : AnsiColor) : Text := decText (c.code + 10).toNat

/-- `u8::saturating_add`. -/
def satAdd (a b : UInt8) : UInt8 := if a.toNat + b.toNat ≤ 255 then a + b else 255

/-- `u8::saturating_sub`. -/
def satSub (a b : UInt8) : UInt8 := if b.toNat ≤ a.toNat then a - b else 0

/-- `Rgb` (color.rs:153-154). -/
structure Rgb where
  r : UInt8
  g : UInt8
  b : UInt8
  deriving DecidableEq, Repr

namespace Rgb

/-- `Rgb::MAX` (color.rs:157). -/
def max : Rgb := ⟨255, 255, 255⟩

/-- `Rgb::from_hex_unchecked` (color.rs:177-182). -/
def fromHexUnchecked (val : UInt32) : Rgb :=
  ⟨((val >>> 16) &&& 255).toUInt8, ((val >>> 8) &&& 255).toUInt8, (val &&& 255).toUInt8⟩

/-- `Rgb::from_hex_checked` (color.rs:166-175): `val < (2 << 23)`. -/
def fromHexChecked (val : UInt32) : Option Rgb :=
  if val < (2 : UInt32) <<< 23 then
    some ⟨((val >>> 16) &&& 255).toUInt8, ((val >>> 8) &&& 255).toUInt8, (val &&& 255).toUInt8⟩
  else none

/-- `u32::to_be_bytes`: most significant byte first. -/
def toBeBytes (val : UInt32) : List UInt8 :=
  [(val >>> 24).toUInt8, (val >>> 16).toUInt8, (val >>> 8).toUInt8, val.toUInt8]

/-- `Rgb::from_hex_be_bytes` (color.rs:184-187): the last three of the four bytes. -/
def fromHexBeBytes (val : UInt32) : Rgb :=
  match (toBeBytes val).drop 1 with
  | [a, b, c] => ⟨a, b, c⟩
  | _ => ⟨0, 0, 0⟩

/-- `Rgb::brighten` (color.rs:189-191). -/
def brighten (c : Rgb) (by_ : UInt8) : Rgb := ⟨satAdd c.r by_, satAdd c.g by_, satAdd c.g by_⟩

/-- `Rgb::incr` (color.rs:193-195). -/
def incr (c : Rgb) (dr dg db : UInt8) : Rgb := ⟨satAdd c.r dr, satAdd c.g dg, satAdd c.g db⟩

/-- `Rgb::decr` (color.rs:197-199). -/
def decr (c : Rgb) (dr dg db : UInt8) : Rgb := ⟨satSub c.r dr, satSub c.g dg, satSub c.g db⟩

/-- `Rgb::incr_red` (color.rs:201-204). -/
def incrRed (c : Rgb) (n : UInt8) : Rgb := { c with r := satAdd c.r n }

/-- `Rgb::decr_red` (color.rs:206-209). -/
def decrRed (c : Rgb) (n : UInt8) : Rgb := { c with r := satSub c.r n }

/-- `Rgb::incr_blued` (color.rs:211-214). -/
def incrBlued (c : Rgb) (n : UInt8) : Rgb := { c with g := satAdd c.g n }

/-- `Rgb::decr_blue` (color.rs:216-219). -/
def decrBlue (c : Rgb) (n : UInt8) : Rgb := { c with g := satSub c.g n }

/-- `Rgb::incr_green` (color.rs:221-224). -/
def incrGreen (c : Rgb) (n : UInt8) : Rgb := { c with b := satAdd c.b n }

/-- `Rgb::decr_green` (color.rs:226-229). -/
def decrGreen (c : Rgb) (n : UInt8) : Rgb := { c with b := satSub c.b n }

/-- `impl Display for Rgb` (color.rs:232-236). -/
def display (c : Rgb) : Text :=
  decText c.r.toNat ++ t!";" ++ decText c.g.toNat ++ t!";" ++ decText c.b.toNat

end Rgb

/-- `Color` (color.rs:238-242). -/
inductive Color where
  | ansi (c : AnsiColor)
  | rgb (c : Rgb)
  deriving DecidableEq, Repr

namespace Color

/-- `Color::from_hex_saturated` (color.rs:262-268). -/
def fromHexSaturated (hex : UInt32) : Color :=
  .rgb (match Rgb.fromHexChecked hex with | some c => c | none => Rgb.max)

/-- `Color::fg_bytes` (color.rs:270-283): for an ANSI colour the first four of the five array
elements are skipped. -/
def fgBytes : Color → List UInt8
  | .ansi c => [0, 0, 0, 0, c.asFg].drop 4
  | .rgb c => [38, 2, c.r, c.g, c.b]

/-- `Color::bg_bytes` (color.rs:285-298). -/
def bgBytes : Color → List UInt8
  | .ansi c => [0, 0, 0, 0, c.asBg].drop 4
  | .rgb c => [48, 2, c.r, c.g, c.b]

/-- `impl Display for Color` (color.rs:301-308). -/
def display : Color → Text
  | .ansi c => c.asStr
  | .rgb c => c.display

end Color

/-- `Rainbow` (color.rs:329-332), its state being a `usize`. -/
abbrev Rainbow := UInt64

namespace Rainbow

/-- `Rainbow::ROYGBIV` (color.rs:336-348). -/
def roygbiv : List Color :=
  [0xE40303, 0xFF8C00, 0xFFED00, 0x008026, 0x004Dff, 0x750787, 0x812BA6].map
    (fun h => .rgb (Rgb.fromHexUnchecked h))

/-- `Rainbow::tick` (color.rs:355-359): wrapping. -/
def tick (n : Rainbow) : Rainbow := UInt64.add n 1

/-- `Rainbow::untick` (color.rs:361-365): wrapping. -/
def untick (n : Rainbow) : Rainbow := UInt64.sub n 1

/-- `Rainbow::color` (color.rs:367-369). -/
def color (n : Rainbow) : Except Panic Color :=
  match roygbiv[n.toNat % 7]? with
  | some c => .ok c
  | none => .error .indexOutOfBounds

end Rainbow
end Pemdas
