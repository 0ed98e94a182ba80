import Verif.Props.Compose
/-
C119: the texts of colours; C64 and C88 for the methods of styled values.
-/
namespace Pemdas

private theorem decText_inj {a b : Nat} (h : decText a = decText b) : a = b := by
  have := congrArg (fun s => Nat.ofDigitChars 10 s 0) h
  simpa only [decText, Nat.ofDigitChars_ten_toDigits] using this

private theorem decText_digit (n : Nat) : ∀ c ∈ decText n, c.isDigit = true :=
  fun _ hc => Nat.isDigit_of_mem_toDigits (by decide) (by decide) hc

private theorem digits_sep {x y r s : Text} (hx : ∀ d ∈ x, d.isDigit = true)
    (hy : ∀ d ∈ y, d.isDigit = true) (h : x ++ ';' :: r = y ++ ';' :: s) : x = y ∧ r = s := by
  induction x generalizing y with
  | nil =>
    cases y with
    | nil => injection h with _ h; exact ⟨rfl, h⟩
    | cons d y =>
      injection h with h _
      have := hy d (by simp)
      rw [← h] at this; exact absurd this (by decide)
  | cons e x ih =>
    cases y with
    | nil =>
      injection h with h _
      have := hx e (by simp)
      rw [h] at this; exact absurd this (by decide)
    | cons d y =>
      injection h with h1 h2
      obtain ⟨h3, h4⟩ := ih (fun d hd => hx d (by simp [hd])) (fun d hd => hy d (by simp [hd])) h2
      exact ⟨by rw [h1, h3], h4⟩

/-- **C119** The text of a palette colour is its code in decimal, as a foreground, and ten more as a
background; colours with the same text are the same. -/
theorem C119_palette (c d : AnsiColor) :
    c.asStr = decText c.code.toNat ∧ c.displayFg = c.asStr ∧
    c.displayBg = decText (c.code.toNat + 10) ∧
    (c.asStr = d.asStr ↔ c = d) ∧ (c.displayBg = d.displayBg ↔ c = d) ∧
    c.displayFg ≠ d.displayBg := by
  refine ⟨by cases c <;> rfl, by cases c <;> rfl, by cases c <;> rfl, ?_, ?_, ?_⟩
  · cases c <;> cases d <;> decide
  · cases c <;> cases d <;> decide
  · cases c <;> cases d <;> decide

/-- **C119** Different colours are displayed differently. -/
theorem C119_display (c d : Color) : c.display = d.display ↔ c = d := by
  refine ⟨fun h => ?_, fun h => by rw [h]⟩
  have ha : ∀ a : AnsiColor, ';' ∉ a.asStr := by intro a; cases a <;> decide
  have hr : ∀ r : Rgb, ';' ∈ r.display := by intro r; simp [Rgb.display]
  cases c with
  | ansi a =>
    cases d with
    | ansi b => rw [(C119_palette a b).2.2.2.1.1 h]
    | rgb r => exact absurd ((show a.asStr = r.display from h) ▸ hr r) (ha a)
  | rgb r =>
    cases d with
    | ansi b => exact absurd ((show r.display = b.asStr from h) ▸ hr r) (ha b)
    | rgb q =>
      simp only [Color.display, Rgb.display, List.append_assoc, List.cons_append,
        List.nil_append] at h
      obtain ⟨h1, h2⟩ := digits_sep (decText_digit _) (decText_digit _) h
      obtain ⟨h3, h4⟩ := digits_sep (decText_digit _) (decText_digit _) h2
      have e1 := UInt8.toNat_inj.1 (decText_inj h1)
      have e2 := UInt8.toNat_inj.1 (decText_inj h3)
      have e3 := UInt8.toNat_inj.1 (decText_inj h4)
      cases r; cases q
      simp only at e1 e2 e3
      rw [e1, e2, e3]

/-- **C119** The text of a colour is what the escape sequence for it as a foreground carries: after
`38;2;` for a colour given by its channels, alone for a palette colour. -/
theorem C119_escape (item : Text) (c : Color) :
    ((Style.new item).setFg c).config.writeStart =
      t!"\x1b[" ++ (match c with | .ansi _ => [] | .rgb _ => t!"38;2;") ++ c.display ++ t!"m" := by
  cases c with
  | ansi a => cases a <;> rfl
  | rgb c =>
    have h1 : decText 38 = t!"38" := by decide
    have h2 : decText 2 = t!"2" := by decide
    simp [Style.setFg, Style.new, Config.writeStart, Config.bytes, Config.nonColorBytes,
      Config.colorBytes, Config.setFgColor, Config.default, Color.fgBytes, Color.display,
      Rgb.display, h1, h2]

/-- **C64** The methods of a styled value change the configuration as named and keep the item. -/
theorem C64_styled (s : Style) (f : AnsiFormat) (c : Color) :
    s.setFormat f = ⟨s.item, s.config.setFormat f⟩ ∧
    s.unsetFormat f = ⟨s.item, s.config.resetFormat f⟩ ∧
    s.toggleFormat f = ⟨s.item, s.config.toggleFormat f⟩ ∧
    (s.toggleFormat f).toggleFormat f = s ∧
    ((s.setFormat f).unsetFormat f).config.has f = false ∧
    (∀ g, g ≠ f → ((s.setFg c).setFormat f).config.has g = s.config.has g) := by
  refine ⟨rfl, rfl, rfl, ?_, by cases f <;> rfl, ?_⟩
  · show (⟨s.item, (s.config.toggleFormat f).toggleFormat f⟩ : Style) = s
    rw [(C64_flag_laws s.config f f).2.2.2.2.1]
  · intro g h
    cases f <;> cases g <;> first | rfl | exact absurd rfl h

/-- **C88** `reset_colors` keeps the item and the formats and drops both colours, so that its text is
drawn as if no colour had been set. -/
theorem C88_reset_colors (s : Styled) (p : Pen) (dbg : Bool) :
    s.resetColors.item = s.item ∧ (∀ f, s.resetColors.config.has f = s.config.has f) ∧
    s.resetColors.config.fgColor = none ∧ s.resetColors.config.bgColor = none ∧
    s.resetColors.doc.plain dbg = s.doc.plain dbg ∧
    (∀ c, (s.setFg c).resetColors = s.resetColors) ∧
    (s.config.fgColor = none → s.config.bgColor = none →
      s.resetColors.doc.drawn Config.look dbg p = s.doc.drawn Config.look dbg p) := by
  refine ⟨rfl, fun f => by cases f <;> rfl, rfl, rfl, rfl, fun c => rfl, fun h1 h2 => ?_⟩
  have : s.resetColors = s := by
    obtain ⟨i, c⟩ := s
    cases c
    simp only at h1 h2
    simp [Styled.resetColors, Config.resetColors, h1, h2]
  rw [this]

/-- **C88** Values put together with `and` are written one after the other. -/
theorem C88_and_also (a b c : Doc) (dbg : Bool) :
    ((a.andAlso b).andAlso c).write dbg = a.write dbg ++ b.write dbg ++ c.write dbg := by
  cases dbg <;> simp [Doc.andAlso, Doc.write, Doc.display, Doc.debugFmt]

/-- **C88** The builders style as their names say: `append`, `prepend` and `share` extend the style
to the new parts; `then_with` leaves the style of what is there and gives the new part the style that
the function makes of it; `fresh_suffix` and `fresh_prefix` leave the new part as it is. -/
theorem C88_builders_styles (s : Styled) (d : Doc) (f : Styled → Styled) (ds : List Doc) (dbg : Bool) :
    (s.append d).config = s.config ∧ (s.prepend d).config = s.config ∧
    (s.shareIter ds).length = ds.length ∧ (∀ x ∈ s.shareIter ds, x.config = s.config) ∧
    (s.thenWith d f).write dbg = s.doc.write dbg ++ (f ⟨d, s.config⟩).doc.write dbg ∧
    (s.freshSuffix d).write dbg = s.doc.write dbg ++ d.write dbg ∧
    (s.freshPrefix d).write dbg = d.write dbg ++ s.doc.write dbg := by
  refine ⟨rfl, rfl, by simp [Styled.shareIter], ?_, ?_, ?_, ?_⟩
  · intro x hx
    obtain ⟨y, _, rfl⟩ := List.mem_map.1 hx
    rfl
  all_goals cases dbg <;> simp [Styled.thenWith, Styled.freshSuffix, Styled.freshPrefix, Doc.write,
    Doc.display, Doc.debugFmt]

example : ((Style.new t!"x").setFg (.rgb ⟨1, 20, 255⟩)).config.writeStart = t!"\x1b[38;2;1;20;255m" := by
  decide

end Pemdas
