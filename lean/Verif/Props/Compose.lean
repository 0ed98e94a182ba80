import Verif.Spec.Compose
import Verif.Props.Style
/-
C88–C91: composed styled values, format codes, highlighting.
-/
namespace Pemdas

/-- The pen a configuration selects over another one. -/
def Config.look (c : Config) (p : Pen) : Pen := Pen.apply c.params p

/-- What a value writes: `Display` or `Debug`. -/
def Doc.write (d : Doc) (dbg : Bool) : Text := if dbg then d.debugFmt else d.display

private theorem not_mem_append {c : Char} {a b : Text} (h : c ∉ a ++ b) : c ∉ a ∧ c ∉ b := by
  simpa [not_or] using h

/-! ### C88 -/

/-- **C88** On a terminal, however styled values are nested, appended, prepended and put one after
the other, the characters drawn are those of the leaves with the pens of `Doc.drawn`, nothing of an
escape sequence is visible and none is left pending. -/
theorem C88_composed (d : Doc) (dbg : Bool) (h : '\x1b' ∉ d.plain dbg) (p : Pen)
    (sc : List (Char × Pen)) :
    Term.run ⟨.ground, p, sc⟩ (d.write dbg) =
      ⟨.ground, (d.drawn Config.look dbg p).2, sc ++ (d.drawn Config.look dbg p).1⟩ := by
  induction d generalizing dbg p sc with
  | leaf s t =>
    cases dbg with
    | false => exact run_plain s h p sc
    | true => exact run_plain t h p sc
  | style d c ih =>
    have key : (Doc.style d c).write dbg = c.writeStart ++ d.write dbg ++ c.writeEnd := by
      cases dbg <;> simp [Doc.write, Doc.display, Doc.debugFmt]
    rw [key, Term.run_append, Term.run_append, run_start, ih dbg h]
    rfl
  | debug d c ih =>
    cases dbg with
    | false =>
      have key : (Doc.debug d c).write false = c.writeStart ++ d.write true ++ c.writeEnd := by
        simp [Doc.write, Doc.display]
      rw [key, Term.run_append, Term.run_append, run_start, ih true h]
      rfl
    | true =>
      have key : (Doc.debug d c).write true = d.write true := by
        simp [Doc.write, Doc.debugFmt]
      rw [key, ih true h]
      rfl
  | and a b iha ihb =>
    have key : (Doc.and a b).write dbg = a.write dbg ++ b.write dbg := by
      cases dbg <;> simp [Doc.write, Doc.display, Doc.debugFmt]
    obtain ⟨h1, h2⟩ := not_mem_append h
    rw [key, Term.run_append, iha dbg h1, ihb dbg h2]
    simp [Doc.drawn]
  | then_ a b iha ihb =>
    have key : (Doc.then_ a b).write dbg = a.write dbg ++ b.write dbg := by
      cases dbg <;> simp [Doc.write, Doc.display, Doc.debugFmt]
    obtain ⟨h1, h2⟩ := not_mem_append h
    rw [key, Term.run_append, iha dbg h1, ihb dbg h2]
    simp [Doc.drawn]

private theorem drawn_fst (look : Config → Pen → Pen) (d : Doc) (dbg : Bool) (p : Pen) :
    (d.drawn look dbg p).1.map (·.1) = d.plain dbg := by
  induction d generalizing dbg p with
  | leaf s t => cases dbg <;> simp [Doc.drawn, Doc.plain, Function.comp_def]
  | style d c ih => exact ih _ _
  | debug d c ih => cases dbg <;> exact ih _ _
  | and a b iha ihb => simp [Doc.drawn, Doc.plain, iha, ihb]
  | then_ a b iha ihb => simp [Doc.drawn, Doc.plain, iha, ihb]

private theorem drawn_reset (look : Config → Pen → Pen) (d : Doc) (dbg : Bool) :
    (d.drawn look dbg Pen.default).2 = Pen.default := by
  induction d generalizing dbg with
  | leaf s t => rfl
  | style d c ih => rfl
  | debug d c ih =>
    cases dbg with
    | false => rfl
    | true => exact ih true
  | and a b iha ihb => simp [Doc.drawn, iha, ihb]
  | then_ a b iha ihb => simp [Doc.drawn, iha, ihb]

/-- **C88** The visible text is the leaves' texts in order, and the terminal is left as it was. -/
theorem C88_visible (d : Doc) (dbg : Bool) (h : '\x1b' ∉ d.plain dbg) :
    Term.visible (d.write dbg) = d.plain dbg ∧
    (Term.start.run (d.write dbg)).pen = Pen.default ∧
    (Term.start.run (d.write dbg)).mode = .ground := by
  unfold Term.visible Term.start
  rw [C88_composed d dbg h]
  exact ⟨by simpa using drawn_fst _ d dbg _, drawn_reset _ d dbg, rfl⟩

/-- **C88** The builders put the texts where their names say, for both kinds of formatting. -/
theorem C88_builders (s : Styled) (d : Doc) (f : Styled → Styled)
    (hf : ∀ x : Styled, (f x).item = x.item) (ds : List Doc) (dbg : Bool) :
    (s.append d).doc.plain dbg = s.item.plain dbg ++ d.plain dbg ∧
    (s.prepend d).doc.plain dbg = d.plain dbg ++ s.item.plain dbg ∧
    (s.freshSuffix d).plain dbg = s.item.plain dbg ++ d.plain dbg ∧
    (s.freshPrefix d).plain dbg = d.plain dbg ++ s.item.plain dbg ∧
    (s.thenWith d f).plain dbg = s.item.plain dbg ++ d.plain dbg ∧
    (s.shareIter ds).map (fun x => x.doc.plain dbg) = ds.map (·.plain dbg) ∧
    s.debug.plain dbg = s.item.plain true := by
  refine ⟨rfl, rfl, rfl, rfl, ?_, ?_, rfl⟩
  · simp [Styled.thenWith, Doc.plain, Styled.doc, hf]
  · simp [Styled.shareIter, Function.comp_def, Styled.doc, Doc.plain]

/-- **C88** `debug()` shown with `{}` is styled, shown with `{:?}` is exactly what the inner item
writes with `{:?}`. -/
theorem C88_debug (s : Styled) :
    s.debug.debugFmt = s.item.debugFmt ∧
    s.debug.display = s.config.writeStart ++ s.item.debugFmt ++ s.config.writeEnd ∧
    s.debug.display = s.doc.debugFmt := ⟨rfl, rfl, rfl⟩

/-- Rust's `"(".set_fg_blue().append("a.hs").append(")")` followed by an unstyled `x`. -/
private def exDoc : Doc :=
  (((Styled.blue (.leaf t!"(" t!"\"(\"")).append (.leaf t!"a" t!"\"a\"")).append
    (.leaf t!")" t!"\")\"")).freshSuffix (.leaf t!"x" t!"\"x\"")

example : '\x1b' ∉ exDoc.plain false ∧ exDoc.display = t!"\x1b[34m(a)\x1b[0mx" ∧
    (exDoc.drawn Config.look false Pen.default).1 =
      t!"(a)".map (·, ⟨[], some (.palette 34), none⟩) ++ [('x', Pen.default)] := by decide

/-! ### C89 -/

private theorem drawn_unstyled (look : Config → Pen → Pen) (d : Doc) (dbg : Bool) (p : Pen)
    (h : d.Unstyled dbg) : d.drawn look dbg p = (d.expected look dbg p, p) := by
  induction d generalizing dbg p with
  | leaf s t => rfl
  | style d c ih => exact h.elim
  | debug d c ih =>
    cases dbg with
    | false => exact h.elim
    | true => exact ih true p h
  | and a b iha ihb =>
    obtain ⟨h1, h2⟩ := h
    simp [Doc.drawn, Doc.expected, iha _ _ h1, ihb _ _ h2]
  | then_ a b iha ihb =>
    obtain ⟨h1, h2⟩ := h
    simp [Doc.drawn, Doc.expected, iha _ _ h1, ihb _ _ h2]

private theorem drawn_last (look : Config → Pen → Pen) (d : Doc) (dbg : Bool) (p : Pen)
    (h : d.StyledLast dbg) : (d.drawn look dbg p).1 = d.expected look dbg p := by
  induction d generalizing dbg p with
  | leaf s t => rfl
  | style d c ih => exact ih dbg _ h
  | debug d c ih =>
    cases dbg with
    | false => exact ih true _ h
    | true => exact ih true p h
  | and a b iha ihb =>
    obtain ⟨h1, h2⟩ := h
    simp [Doc.drawn, Doc.expected, drawn_unstyled look a _ _ h1, ihb _ _ h2]
  | then_ a b iha ihb =>
    obtain ⟨h1, h2⟩ := h
    simp [Doc.drawn, Doc.expected, drawn_unstyled look a _ _ h1, ihb _ _ h2]

private theorem drawn_tidy (look : Config → Pen → Pen) (d : Doc) (dbg : Bool)
    (h : d.Tidy dbg) :
    (d.drawn look dbg Pen.default).1 = d.expected look dbg Pen.default := by
  induction d generalizing dbg with
  | leaf s t => rfl
  | style d c ih => exact drawn_last look d dbg _ h
  | debug d c ih =>
    cases dbg with
    | false => exact drawn_last look d true _ h
    | true => exact ih true h
  | and a b iha ihb =>
    obtain ⟨h1, h2⟩ := h
    simp [Doc.drawn, Doc.expected, iha _ h1, ihb _ h2, drawn_reset]
  | then_ a b iha ihb =>
    obtain ⟨h1, h2⟩ := h
    simp [Doc.drawn, Doc.expected, iha _ h1, ihb _ h2, drawn_reset]

/-- **C89** (the part that holds) If inside every style nothing follows a styled part, every text is
drawn in the style of all the values it is inside of. Missing: values where something follows a
styled part inside an outer style, see `C89_nested_wrong`. -/
theorem C89_nested_partial (d : Doc) (dbg : Bool) (h : '\x1b' ∉ d.plain dbg) (ht : d.Tidy dbg) :
    (Term.start.run (d.write dbg)).screen = d.expected Config.look dbg Pen.default := by
  unfold Term.start
  rw [C88_composed d dbg h]
  simpa using drawn_tidy _ d dbg ht

/-- **C89 fails**: text appended to a style after a nested style is drawn with the reset pen,
whatever the outer style is. -/
theorem C89_nested_wrong (outer inner : Config) (a b t : Text)
    (h : '\x1b' ∉ a ++ b ++ t) :
    (Term.start.run (((Styled.append ⟨.leaf a a, outer⟩ (.style (.leaf b b) inner)).append
      (.leaf t t)).doc.display)).screen =
      a.map (·, outer.look Pen.default) ++ b.map (·, inner.look (outer.look Pen.default)) ++
        t.map (·, Pen.default) := by
  have := C88_composed (((Styled.append ⟨.leaf a a, outer⟩ (.style (.leaf b b) inner)).append
      (.leaf t t)).doc) false (by simpa [Doc.plain, Styled.doc, Styled.append] using h)
      Pen.default []
  unfold Term.start
  have e : ∀ d : Doc, d.display = d.write false := fun d => rfl
  rw [e, this]
  simp [Doc.drawn, Styled.doc, Styled.append]

/-- A concrete case: the last character should be bold and is not. -/
example : (Term.start.run (((Styled.append ⟨.leaf t!"a" t!"a", Config.default.setFormat .bold⟩
      (.style (.leaf t!"b" t!"b") (Config.default.setFgColor (.ansi .red)))).append
      (.leaf t!"c" t!"c")).doc.display)).screen =
    [('a', ⟨[1], none, none⟩), ('b', ⟨[1], some (.palette 31), none⟩), ('c', ⟨[], none, none⟩)] := by
  decide

/-- **C89** `wrapped_blue` draws the item blue and the two delimiters plain. -/
theorem C89_wrapped_blue (l r i : Text) (h : '\x1b' ∉ l ++ i ++ r) :
    (Term.start.run (Styled.wrappedBlue (.leaf l l) (.leaf r r) (.leaf i i)).doc.display).screen =
      l.map (·, Pen.default) ++ i.map (·, ⟨[], some (.palette 34), none⟩) ++
        r.map (·, Pen.default) := by
  have := C89_nested_wrong Config.default (Config.default.setFgColor (.ansi .blue)) l i r h
  exact this

example : exDoc.Tidy false := ⟨⟨⟨trivial, trivial⟩, trivial⟩, trivial⟩
example : (((Styled.new (.leaf t!"a" t!"a")).setFg (.ansi .red)).append
    ((Styled.new (.leaf t!"b" t!"b")).setFg (.ansi .blue)).doc).doc.Tidy false :=
  ⟨trivial, trivial⟩

/-! ### C90 -/

/-- **C90** `maybe_from_u8` finds exactly the format with that code. -/
theorem C90_maybe_from_u8 (b : UInt8) (f : AnsiFormat) :
    AnsiFormat.maybeFromU8 b = some f ↔ f.byte = b := by
  unfold AnsiFormat.maybeFromU8
  constructor
  · intro h
    repeat' split at h
    all_goals first
      | (cases h; subst_vars; rfl)
      | cases h
  · rintro rfl
    cases f <;> rfl

/-- **C90** `from_u8` is `maybe_from_u8` falling back to the first format. -/
theorem C90_from_u8 (b : UInt8) :
    AnsiFormat.fromU8 b = (AnsiFormat.maybeFromU8 b).getD .reset ∧
    AnsiFormat.all.head? = some .reset ∧
    (∀ f, AnsiFormat.fromU8 f.byte = f) ∧
    (AnsiFormat.fromU8 b = .reset ↔ b = 0 ∨ ∀ f : AnsiFormat, f.byte ≠ b) := by
  have h1 : AnsiFormat.fromU8 b = (AnsiFormat.maybeFromU8 b).getD .reset := by
    unfold AnsiFormat.fromU8 AnsiFormat.maybeFromU8
    repeat' split
    all_goals rfl
  refine ⟨h1, rfl, fun f => by cases f <;> rfl, ?_⟩
  rw [h1]
  cases h : AnsiFormat.maybeFromU8 b with
  | none =>
    simp only [Option.getD_none, true_iff]
    right
    intro f hf
    rw [(C90_maybe_from_u8 b f).2 hf] at h
    cases h
  | some f =>
    have hf := (C90_maybe_from_u8 b f).1 h
    subst hf
    simp only [Option.getD_some]
    constructor
    · rintro rfl; exact .inl rfl
    · rintro (h0 | h0)
      · cases f <;> first | rfl | (exact absurd h0 (by decide))
      · exact absurd rfl (h0 f)

/-- **C90** The text form of a format is the decimal form of its code, codes are distinct, `ALL`
lists every format once in the order of the codes, and a format equals a byte iff it is its code. -/
theorem C90_codes (f g : AnsiFormat) (b : UInt8) :
    f.asStr = decText f.byte.toNat ∧
    (f.byte = g.byte ↔ f = g) ∧
    f ∈ AnsiFormat.all ∧ AnsiFormat.all.Nodup ∧
    (AnsiFormat.all.map (·.byte)).Pairwise (· < ·) ∧
    (f.eqByte b = true ↔ AnsiFormat.maybeFromU8 b = some f) := by
  refine ⟨by cases f <;> decide, ?_, by cases f <;> decide, by decide, by decide, ?_⟩
  · cases f <;> cases g <;> decide
  · rw [C90_maybe_from_u8]
    simp [AnsiFormat.eqByte]

example : AnsiFormat.maybeFromU8 7 = some .inverted ∧ AnsiFormat.maybeFromU8 6 = none ∧
    AnsiFormat.fromU8 6 = .reset := by decide

/-! ### C91 -/

/-- **C91** Highlighting is exactly a style with only a foreground colour: converting to a style
and back changes nothing, and both display alike. -/
theorem C91_highlighted (h : Highlighted) :
    Highlighted.ofStyled h.toStyled = h ∧ h.display = h.toStyled.doc.display ∧
    h.toStyled.config.fgColor = some h.color ∧ h.toStyled.config.bgColor = none ∧
    ∀ f, h.toStyled.config.has f = false := by
  refine ⟨rfl, rfl, rfl, rfl, fun f => by cases f <;> rfl⟩

/-- **C91** Converting a style to a highlight and back keeps the item and the foreground colour and
drops everything else; it changes nothing iff there was nothing else. -/
theorem C91_lossy (s : Styled) :
    (Highlighted.ofStyled s).toStyled.item = s.item ∧
    ((Highlighted.ofStyled s).toStyled = s ↔
      ∃ c, s.config = Config.default.setFgColor c) := by
  refine ⟨rfl, ?_⟩
  obtain ⟨d, c⟩ := s
  constructor
  · intro h
    exact ⟨c.fgColor.getD (.ansi .normal), (congrArg Styled.config h).symm⟩
  · rintro ⟨x, h⟩
    simp only at h
    subst h
    rfl

/-- **C91** A style without a foreground colour becomes the colour `Normal`, which looks the same
when nothing else is set. -/
theorem C91_no_colour (d : Doc) (h : '\x1b' ∉ d.plain false) :
    (Term.start.run (Highlighted.ofStyled (Styled.new d)).display).screen =
      (Term.start.run (Styled.new d).doc.display).screen := by
  have e : ∀ d : Doc, d.display = d.write false := fun d => rfl
  unfold Highlighted.display
  rw [e, e]
  unfold Term.start
  rw [C88_composed (Styled.setFg _ _).doc false (by exact h),
    C88_composed (Styled.new d).doc false (by exact h)]
  rfl

example : (Highlighted.ofStyled ⟨.leaf t!"x" t!"x", Config.default.setFormat .bold⟩).toStyled ≠
    ⟨.leaf t!"x" t!"x", Config.default.setFormat .bold⟩ := by decide

end Pemdas
