import Verif.Model.Style
/-
Model of the styling methods that `style_setters!` generates (`src/text/style.rs:559-766`), both those
of `Style` and those of the trait `Paint`.
Simplification: `Paint` wraps a reference to the item, `Style` the item; both display alike.
-/
namespace Pemdas

/-- The body of a generated method: `$setter`, `$unsetter`, `$toggler` (style.rs:576-589), `$fgsetter`
and `$bgsetter` for palette colours (style.rs:602-608) and for others (style.rs:637-647);
`reset_colors` (style.rs:478-481) is not generated. -/
inductive StyleCall where
  | set (f : AnsiFormat)
  | unset (f : AnsiFormat)
  | toggle (f : AnsiFormat)
  | fg (c : Color)
  | bg (c : Color)
  | resetColors
  deriving DecidableEq, Repr

/-- What the method does (lines as above). -/
def Config.call (c : Config) : StyleCall → Config
  | .set f => c.setFormat f
  | .unset f => c.resetFormat f
  | .toggle f => c.toggleFormat f
  | .fg x => c.setFgColor x
  | .bg x => c.setBgColor x
  | .resetColors => c.resetColors

/-- The methods by name (style.rs:711-766, 478). -/
def styleMethods : List (Text × StyleCall) :=
  [(t!"set_bold", .set .bold), (t!"unset_bold", .unset .bold), (t!"toggle_bold", .toggle .bold),
   (t!"set_dim", .set .dim), (t!"unset_dim", .unset .dim), (t!"toggle_dim", .toggle .dim),
   (t!"set_italic", .set .italic), (t!"unset_italic", .unset .italic),
   (t!"toggle_italic", .toggle .italic),
   (t!"set_underlined", .set .underlined), (t!"unset_underlined", .unset .underlined),
   (t!"toggle_underlined", .toggle .underlined),
   (t!"set_blinking", .set .blinking), (t!"unset_blinking", .unset .blinking),
   (t!"toggle_blinking", .toggle .blinking),
   (t!"set_inverted", .set .inverted), (t!"unset_inverted", .unset .inverted),
   (t!"toggle_inverted", .toggle .inverted),
   (t!"set_hidden", .set .hidden), (t!"unset_hidden", .unset .hidden),
   (t!"toggle_hidden", .toggle .hidden),
   (t!"set_strikethrough", .set .strikethrough), (t!"unset_strikethrough", .unset .strikethrough),
   (t!"toggle_strikethrough", .toggle .strikethrough),
   (t!"reset_fg", .fg (.ansi .normal)), (t!"reset_bg", .bg (.ansi .normal)),
   (t!"set_fg_black", .fg (.ansi .black)), (t!"set_bg_black", .bg (.ansi .black)),
   (t!"set_fg_red", .fg (.ansi .red)), (t!"set_bg_red", .bg (.ansi .red)),
   (t!"set_fg_green", .fg (.ansi .green)), (t!"set_bg_green", .bg (.ansi .green)),
   (t!"set_fg_yellow", .fg (.ansi .yellow)), (t!"set_bg_yellow", .bg (.ansi .yellow)),
   (t!"set_fg_blue", .fg (.ansi .blue)), (t!"set_bg_blue", .bg (.ansi .blue)),
   (t!"set_fg_magenta", .fg (.ansi .magenta)), (t!"set_bg_magenta", .bg (.ansi .magenta)),
   (t!"set_fg_cyan", .fg (.ansi .cyan)), (t!"set_bg_cyan", .bg (.ansi .cyan)),
   (t!"set_fg_white", .fg (.ansi .white)), (t!"set_bg_white", .bg (.ansi .white)),
   (t!"set_fg_light_black", .fg (.ansi .lightBlack)),
   (t!"set_bg_light_black", .bg (.ansi .lightBlack)),
   (t!"set_fg_light_red", .fg (.ansi .lightRed)), (t!"set_bg_light_red", .bg (.ansi .lightRed)),
   (t!"set_fg_light_green", .fg (.ansi .lightGreen)),
   (t!"set_bg_light_green", .bg (.ansi .lightGreen)),
   (t!"set_fg_light_yellow", .fg (.ansi .lightYellow)),
   (t!"set_bg_light_yellow", .bg (.ansi .lightYellow)),
   (t!"set_fg_light_blue", .fg (.ansi .lightBlue)), (t!"set_bg_light_blue", .bg (.ansi .lightBlue)),
   (t!"set_fg_light_magenta", .fg (.ansi .lightMagenta)),
   (t!"set_bg_light_magenta", .bg (.ansi .lightMagenta)),
   (t!"set_fg_light_cyan", .fg (.ansi .lightCyan)), (t!"set_bg_light_cyan", .bg (.ansi .lightCyan)),
   (t!"set_fg_light_white", .fg (.ansi .lightWhite)),
   (t!"set_bg_light_white", .bg (.ansi .lightWhite)),
   (t!"set_fg_maroon", .fg (.rgb ⟨128, 0, 0⟩)), (t!"set_bg_maroon", .bg (.rgb ⟨128, 0, 0⟩)),
   (t!"set_fg_orange", .fg (.rgb ⟨255, 128, 0⟩)), (t!"set_bg_orange", .bg (.rgb ⟨255, 128, 0⟩)),
   (t!"set_fg_crimson", .fg (.rgb ⟨220, 20, 60⟩)), (t!"set_bg_crimson", .bg (.rgb ⟨220, 20, 60⟩)),
   (t!"set_fg_teal", .fg (.rgb ⟨0, 128, 128⟩)), (t!"set_bg_teal", .bg (.rgb ⟨0, 128, 128⟩)),
   (t!"set_fg_azure", .fg (.rgb ⟨0, 128, 255⟩)), (t!"set_bg_azure", .bg (.rgb ⟨0, 128, 255⟩)),
   (t!"set_fg_purple", .fg (.rgb ⟨128, 0, 128⟩)), (t!"set_bg_purple", .bg (.rgb ⟨128, 0, 128⟩)),
   (t!"set_fg_indigo", .fg (.rgb ⟨75, 0, 130⟩)), (t!"set_bg_indigo", .bg (.rgb ⟨75, 0, 130⟩)),
   (t!"set_fg_violet", .fg (.rgb ⟨238, 130, 238⟩)), (t!"set_bg_violet", .bg (.rgb ⟨238, 130, 238⟩)),
   (t!"reset_colors", .resetColors)]

/-- `x.m₁().m₂()…`: the first method is that of `Paint` (style.rs:701-704), which calls the one of
`Style` on `Style::new(x)`, the others are those of `Style`. `none` if there is no such method. -/
def Style.calls (s : Style) : List Text → Option Style
  | [] => some s
  | n :: ns =>
    match styleMethods.lookup n with
    | some m => Style.calls { s with config := s.config.call m } ns
    | none => none

end Pemdas
