import Verif.Model.StyleMap
import Verif.Props.Compose
import Verif.Props.Format
/-
C181: mapping, lifting and printing styled values. C182: formats as units, variants and numbers.
-/
namespace Pemdas

/-! ### C181 -/

section
variable {α β γ σ : Type}

/-- **C181.** Mapping with a function that changes nothing changes nothing, and mapping twice is
mapping once with both functions, in that order, each called once. -/
theorem C181_map (s : StyleOf α) (f : σ → α → Config → σ × β × Config)
    (g : σ → β → Config → σ × γ × Config) (st : σ) :
    s.map (fun st a c => (st, a, c)) st = (st, s) ∧
    (let r := s.map f st; r.2.map g r.1) =
      s.map (fun st a c => let r := f st a c; g r.1 r.2.1 r.2.2) st :=
  ⟨rfl, rfl⟩

/-- **C181.** `map_ref` gives what `map` gives and leaves the value as it was. -/
theorem C181_map_ref (s : StyleOf α) (f : σ → α → Config → σ × β × Config) (st : σ) :
    ((s.mapRef f st).1, (s.mapRef f st).2.1) = s.map f st ∧ (s.mapRef f st).2.2 = s :=
  ⟨rfl, rfl⟩

/-- **C181.** A value that is mapped is shown, in every trait and with all options, as what the
function makes of its item, between the codes of what the function makes of its style. -/
theorem C181_shown (s : StyleOf α) (f : σ → α → Config → σ × β × Config) (st : σ)
    (how : β → FmtValue) (tr : FmtTrait) (sp : FmtSpec) :
    let c := (f st s.item s.config).2.2
    ((s.map f st).2.value how).fmt tr sp =
      (c.start.both ((how (f st s.item s.config).2.1).fmt tr sp)).both c.finish :=
  rfl

/-- **C181.** The methods that append, prepend and change colours are maps. -/
theorem C181_methods (s : Styled) (d : Doc) (c : Color) :
    let t : StyleOf Doc := ⟨s.item, s.config⟩
    let back (r : Unit × StyleOf Doc) : Styled := ⟨r.2.item, r.2.config⟩
    s.append d = back (t.map (fun u a k => (u, .and a d, k)) ()) ∧
    s.prepend d = back (t.map (fun u a k => (u, .and d a, k)) ()) ∧
    s.setFg c = back (t.map (fun u a k => (u, a, k.setFgColor c)) ()) ∧
    s.resetColors = back (t.map (fun u a k => (u, a, k.resetColors)) ()) :=
  ⟨rfl, rfl, rfl, rfl⟩

/-- **C181.** Lifting succeeds exactly if the item is there, and then keeps the style. -/
theorem C181_lift (s : StyleOf (Except Unit α)) (t : StyleOf α) :
    (s.lift = .ok t ↔ s.item = .ok t.item ∧ s.config = t.config) ∧
    (s.lift = .error () ↔ s.item = .error ()) := by
  obtain ⟨item, c⟩ := s
  obtain ⟨t, c'⟩ := t
  cases item <;> simp [StyleOf.lift, Except.map]

/-- **C181.** Lifting after mapping with a function that may fail is calling the function. -/
theorem C181_lift_map (s : StyleOf α) (f : α → Except Unit β) :
    (s.map (fun (u : Unit) a c => (u, f a, c)) ()).2.lift =
      (f s.item).map fun b => (⟨b, s.config⟩ : StyleOf β) := by
  simp only [StyleOf.map, StyleOf.lift]

end

theorem Writing.run_andThen {W : Type} (write : W → Text → W × Bool) (a b : Writing) (w : W) :
    (a.andThen b).run write w =
      if (a.run write w).2 then b.run write (a.run write w).1 else a.run write w := by
  induction a generalizing w with
  | done ok => cases ok <;> rfl
  | put t k ih =>
    simp only [Writing.andThen, Writing.run]
    exact ih _ _

/-- **C181.** `print` writes what `{}` writes and, if told to and nothing fails, a newline. The
shorthand `display_fmt` of pairs disregards the options of the formatter, that of styles obeys them. -/
theorem C181_print (v : FmtValue) (nl : Bool) (sp : FmtSpec) :
    (v.print nl).toText =
      ((v.fmt .display .plain).toText.1 ++
        (if nl && (v.fmt .display .plain).toText.2 then t!"\n" else []),
       (v.fmt .display .plain).toText.2) ∧
    v.displayFmt sp = v.fmtDisplay .plain := by
  refine ⟨?_, rfl⟩
  unfold FmtValue.print
  cases nl with
  | false => simp
  | true =>
    simp only [if_true, Writing.toText, Writing.run_andThen, Bool.true_and]
    split
    · simp_all [Writing.str, Writing.run]
    · rename_i h
      have h' : (Writing.run (fun w t => (w ++ t, true)) [] (v.fmt .display .plain)).2 = false := by
        simpa using h
      exact Prod.ext (by simp) (by simp [h'])

/-- With a width of 3 the shorthand of a pair writes `ab` where `{:3}` pads both parts. -/
theorem C181_options_lost :
    let v : FmtValue := .and (.ofStr t!"a") (.ofStr t!"b")
    let sp : FmtSpec := { FmtSpec.plain with width := some 3 }
    (v.displayFmt sp).toText = (t!"ab", true) ∧ (v.fmtDisplay sp).toText = (t!"a  b  ", true) := by
  decide

/-- A function that counts its calls and makes bold what it is given. -/
example :
    let s : StyleOf Text := ⟨t!"x", Config.default⟩
    let r := s.map (fun n a c => (n + 1, a ++ t!"y", c.setFormat .bold)) 0
    r.1 = 1 ∧ ((r.2.value .ofStr).print true).toText = (t!"\x1b[1mxy\x1b[0m\n", true) := by
  decide

/-- A failing item and one that is there. -/
example :
    (∀ t : StyleOf Nat, (⟨.error (), Config.default⟩ : StyleOf (Except Unit Nat)).lift ≠ .ok t) ∧
    (⟨.ok 3, Config.default⟩ : StyleOf (Except Unit Nat)).lift = .ok ⟨3, Config.default⟩ :=
  ⟨fun t h => (by cases h), rfl⟩

/-! ### C182 -/

/-- **C182.** The unit struct of a format stands for that format, has its code and its text. -/
theorem C182_unit {f : AnsiFormat} (u : FormatUnit f) :
    u.format = f ∧ u.asByte = f.byte ∧ u.asStr = f.asStr ∧
      u.asStr = decText u.asByte.toNat ∧ AnsiFormat.maybeFromU8 u.asByte = some u.format := by
  cases u
  cases f <;> exact ⟨rfl, rfl, rfl, (by decide), rfl⟩

/-- **C182.** Units, formats and numbers compare alike: of a unit, a format and a number any two
are equal if each is equal to the third, and a unit is equal to exactly one format and exactly one
number. -/
theorem C182_equal {f g : AnsiFormat} (u : FormatUnit f) (b : UInt8) :
    (u.eqFormat g = true ↔ g = f) ∧ (u.eqByte b = true ↔ b = f.byte) ∧
    (u.eqFormat g = true → g.eqByte b = true → u.eqByte b = true) ∧
    (u.eqByte b = true → g.eqByte b = true → u.eqFormat g = true) ∧
    (u.eqFormat g = true → u.eqByte b = true → g.eqByte b = true) := by
  obtain ⟨h1, h2, -, -, -⟩ := C182_unit u
  have hinj := (C90_codes f g b).2.1
  simp only [FormatUnit.eqFormat, FormatUnit.eqByte, AnsiFormat.eqByte, h1, h2, decide_eq_true_eq,
    beq_iff_eq]
  refine ⟨trivial, trivial, ?_, ?_, ?_⟩
  · rintro rfl rfl; rfl
  · rintro rfl h; exact (hinj.1 h.symm).symm
  · rintro rfl rfl; rfl

/-- **C182.** Setting a format through its unit struct is setting the format: it is set afterwards
and the others are as before, and `set_format` agrees with the unit that stands for it. -/
theorem C182_set {f : AnsiFormat} (u : FormatUnit f) (c : Config) (g : AnsiFormat) :
    (c.setFormat u.format).has g = (u.eqFormat g || c.has g) := by
  cases f <;> cases g <;> simp [FormatUnit.format, FormatUnit.eqFormat, Config.setFormat, Config.has]

example : (FormatUnit.mk : FormatUnit .inverted).eqByte 7 = true ∧
    (FormatUnit.mk : FormatUnit .inverted).eqFormat .hidden = false ∧
    (FormatUnit.mk : FormatUnit .inverted).asStr = t!"7" := by decide

end Pemdas
