import Verif.Model.Style
import Verif.Spec.Terminal
/-
C48, C63, C64: styled output.
-/
namespace Pemdas

/-! ### Running the terminal -/

theorem Term.run_append (t : Term) (a b : Text) : t.run (a ++ b) = (t.run a).run b := by
  simp [Term.run]

private theorem run_digits (ds : Text) (hd : ∀ c ∈ ds, c.isDigit = true) (ps : List Nat) (n : Nat)
    (pen : Pen) (sc : List (Char × Pen)) :
    Term.run ⟨.csi ps n, pen, sc⟩ ds = ⟨.csi ps (Nat.ofDigitChars 10 ds n), pen, sc⟩ := by
  induction ds generalizing n with
  | nil => rfl
  | cons c ds ih =>
    have hc := hd c (by simp)
    show Term.run (Term.step _ c) ds = _
    rw [show Term.step ⟨.csi ps n, pen, sc⟩ c =
      ⟨.csi ps (n * 10 + (c.toNat - '0'.toNat)), pen, sc⟩ by simp [Term.step, hc]]
    rw [ih (fun c hc => hd c (by simp [hc]))]
    rw [Nat.ofDigitChars_cons, Nat.mul_comm 10 n]

private theorem run_dec (n : Nat) (ps : List Nat) (pen : Pen) (sc : List (Char × Pen)) :
    Term.run ⟨.csi ps 0, pen, sc⟩ (decText n) = ⟨.csi ps n, pen, sc⟩ := by
  unfold decText
  rw [run_digits _ (fun c hc => Nat.isDigit_of_mem_toDigits (by decide) (by decide) hc),
    Nat.ofDigitChars_ten_toDigits]

private theorem run_params (bs : List UInt8) (ps : List Nat) (n : Nat) (pen : Pen)
    (sc : List (Char × Pen)) :
    Term.run ⟨.csi ps n, pen, sc⟩
      ((bs.map (fun e => t!";" ++ decText e.toNat)).flatten ++ t!"m") =
    ⟨.ground, Pen.apply (ps ++ n :: bs.map (·.toNat)) pen, sc⟩ := by
  induction bs generalizing ps n with
  | nil => rfl
  | cons b bs ih =>
    simp only [List.map_cons, List.flatten_cons, List.append_assoc]
    rw [show t!";" ++ (decText b.toNat ++ ((bs.map (fun e => t!";" ++ decText e.toNat)).flatten ++
      t!"m")) = t!";" ++ decText b.toNat ++ ((bs.map (fun e => t!";" ++ decText e.toNat)).flatten ++
      t!"m") by simp, Term.run_append]
    rw [Term.run_append _ t!";"]
    rw [show Term.run ⟨.csi ps n, pen, sc⟩ t!";" = ⟨.csi (ps ++ [n]) 0, pen, sc⟩ from rfl, run_dec, ih]
    simp

/-- The SGR parameters a configuration selects (specification): its format and colour codes, or a
single reset when there are none. -/
def Config.params (c : Config) : List Nat :=
  if c.bytes = [] then [0] else c.bytes.map (·.toNat)

theorem run_start (c : Config) (pen : Pen) (sc : List (Char × Pen)) :
    Term.run ⟨.ground, pen, sc⟩ c.writeStart = ⟨.ground, Pen.apply c.params pen, sc⟩ := by
  unfold Config.writeStart Config.params
  cases h : c.bytes with
  | nil => rfl
  | cons b bs =>
    simp only [reduceCtorEq, if_false]
    rw [List.append_assoc, Term.run_append,
      show Term.run ⟨.ground, pen, sc⟩ t!"\x1b[" = ⟨.csi [] 0, pen, sc⟩ from rfl,
      List.append_assoc, Term.run_append, run_dec, run_params]
    simp

theorem run_plain (s : Text) (hs : '\x1b' ∉ s) (pen : Pen) (sc : List (Char × Pen)) :
    Term.run ⟨.ground, pen, sc⟩ s = ⟨.ground, pen, sc ++ s.map (·, pen)⟩ := by
  induction s generalizing sc with
  | nil => simp [Term.run]
  | cons c s ih =>
    simp only [List.mem_cons, not_or] at hs
    show Term.run (Term.step _ c) s = _
    rw [show Term.step ⟨.ground, pen, sc⟩ c = ⟨.ground, pen, sc ++ [(c, pen)]⟩ by
      simp [Term.step, show ¬ c = '\x1b' from fun e => hs.1 e.symm]]
    rw [ih hs.2]
    simp

/-! ### C48 -/

/-- **C48** On a terminal, a styled text shows exactly its characters, all drawn with the pen its
configuration selects, and afterwards the pen is reset and no escape sequence is pending. -/
theorem C48_styled_output (s : Style) (hs : '\x1b' ∉ s.item) (sc : List (Char × Pen)) :
    Term.run ⟨.ground, Pen.default, sc⟩ s.display =
      ⟨.ground, Pen.default,
        sc ++ s.item.map (·, Pen.apply s.config.params Pen.default)⟩ := by
  unfold Style.display
  rw [Term.run_append, Term.run_append, run_start, run_plain _ hs]
  rfl

/-- **C48** Any sequence of plain and styled fragments shows exactly the plain text, each fragment
in its own style. -/
theorem C48_fragments (fs : List (Text ⊕ Style))
    (hs : ∀ f ∈ fs, '\x1b' ∉ f.elim id Style.item) :
    Term.run Term.start (fs.map (fun f => f.elim id Style.display)).flatten =
      ⟨.ground, Pen.default, (fs.map (fun f => f.elim (fun t => t.map (·, Pen.default))
        (fun s => s.item.map (·, Pen.apply s.config.params Pen.default)))).flatten⟩ := by
  have key : ∀ sc, Term.run ⟨.ground, Pen.default, sc⟩
      (fs.map (fun f => f.elim id Style.display)).flatten =
      ⟨.ground, Pen.default, sc ++ (fs.map (fun f => f.elim (fun t => t.map (·, Pen.default))
        (fun s => s.item.map (·, Pen.apply s.config.params Pen.default)))).flatten⟩ := by
    induction fs with
    | nil => intro sc; simp [Term.run]
    | cons f fs ih =>
      intro sc
      have ih := ih (fun g hg => hs g (by simp [hg]))
      have hf := hs f (by simp)
      simp only [List.map_cons, List.flatten_cons, Term.run_append]
      cases f with
      | inl t =>
        simp only [Sum.elim_inl, id] at *
        rw [run_plain t hf, ih]; simp
      | inr s =>
        simp only [Sum.elim_inr] at *
        rw [C48_styled_output s hf, ih]; simp
  simpa [Term.start] using key []

/-- **C48** Hence stripping the escape sequences gives the plain text. -/
theorem C48_strip (fs : List (Text ⊕ Style))
    (hs : ∀ f ∈ fs, '\x1b' ∉ f.elim id Style.item) :
    Term.visible (fs.map (fun f => f.elim id Style.display)).flatten =
      (fs.map (fun f => f.elim id Style.item)).flatten := by
  unfold Term.visible
  rw [C48_fragments fs hs]
  induction fs with
  | nil => rfl
  | cons f fs ih =>
    have ih := ih (fun g hg => hs g (by simp [hg]))
    simp only [List.map_cons, List.flatten_cons, List.map_append, ih]
    cases f <;> simp [Function.comp_def]

/-- **C48** Every text, also one with escape characters of its own, is sent unchanged between one
sequence `ESC [ ... m` of numbers and one `ESC [ 0 m`; from what is sent the text can be recovered. -/
theorem C48_framed (s : Style) :
    ∃ code : Text, s.display = t!"\x1b[" ++ code ++ t!"m" ++ s.item ++ t!"\x1b[0m" ∧ code ≠ [] ∧
      (∀ c ∈ code, c.isDigit = true ∨ c = ';') ∧
      ∀ s' : Style, s'.display = s.display → s'.item = s.item := by
  have hcode : ∀ s : Style, ∃ code : Text,
      s.display = t!"\x1b[" ++ code ++ t!"m" ++ s.item ++ t!"\x1b[0m" ∧ code ≠ [] ∧
      ∀ c ∈ code, c.isDigit = true ∨ c = ';' := by
    intro s
    refine ⟨_, rfl, ?_, ?_⟩
    · cases s.config.bytes <;> simp [decText, Nat.toDigits_ne_nil]
    · intro c hc
      have hd : ∀ n : Nat, c ∈ decText n → c.isDigit = true := fun n h =>
        Nat.isDigit_of_mem_toDigits (by decide) (by decide) h
      cases hb : s.config.bytes with
      | nil => rw [hb] at hc; simp only [List.mem_singleton] at hc; subst hc; exact .inl (by decide)
      | cons n bs =>
        rw [hb] at hc
        rcases List.mem_append.1 hc with hc | hc
        · exact .inl (hd _ hc)
        · obtain ⟨l, hl, hcl⟩ := List.mem_flatten.1 hc
          obtain ⟨e, -, rfl⟩ := List.mem_map.1 hl
          rcases List.mem_append.1 hcl with hcl | hcl
          · exact .inr (by simpa using hcl)
          · exact .inl (hd _ hcl)
  obtain ⟨code, h1, h2, h3⟩ := hcode s
  refine ⟨code, h1, h2, h3, fun s' h => ?_⟩
  obtain ⟨code', h1', -, h3'⟩ := hcode s'
  rw [h1, h1'] at h
  have h := List.append_cancel_right h
  simp only [List.append_assoc] at h
  have h := List.append_cancel_left h
  have stop : ∀ {a b x y : Text}, (∀ c ∈ a, c.isDigit = true ∨ c = ';') →
      (∀ c ∈ b, c.isDigit = true ∨ c = ';') → a ++ (t!"m" ++ x) = b ++ (t!"m" ++ y) → x = y := by
    intro a
    induction a with
    | nil =>
      intro b x y _ hb h
      cases b with
      | nil => exact List.append_cancel_left h
      | cons c b =>
        have : 'm' = c := (List.cons.inj h).1
        subst this
        exact absurd (hb 'm' (by simp)) (by decide)
    | cons c a ih =>
      intro b x y ha hb h
      cases b with
      | nil =>
        have : c = 'm' := (List.cons.inj h).1
        subst this
        exact absurd (ha 'm' (by simp)) (by decide)
      | cons d b =>
        exact ih (fun c hc => ha c (by simp [hc])) (fun c hc => hb c (by simp [hc])) (List.cons.inj h).2
  exact stop h3' h3 h

/-- **C48** Both writers of the opening sequence produce the same text. -/
theorem C48_start_variants (c : Config) : c.styleStrStart = c.writeStart := by
  have hfold : ∀ (bs : List UInt8) (buf : Text),
      bs.foldl (fun buf s => buf ++ t!";" ++ decText s.toNat) buf =
      buf ++ (bs.map (fun e => t!";" ++ decText e.toNat)).flatten := by
    intro bs
    induction bs with
    | nil => simp
    | cons b bs ih => intro buf; simp only [List.foldl_cons, ih]; simp
  have hlen : ∀ a b : Text, b ≠ [] → utf8Len (a ++ b) ≠ utf8Len a := by
    intro a b hb h
    have : ∀ a b : Text, utf8Len (a ++ b) = utf8Len a + utf8Len b := by
      intro a b
      induction a with
      | nil => simp [utf8Len]
      | cons c a ih => simp only [List.cons_append, utf8Len, ih]; omega
    cases b with
    | nil => exact hb rfl
    | cons c b =>
      have := this a (c :: b)
      have := Char.utf8Size_pos c
      simp only [utf8Len] at *
      omega
  unfold Config.styleStrStart Config.writeStart
  cases c.bytes with
  | nil => rfl
  | cons b bs =>
    simp only [hfold]
    rw [if_neg]
    · simp
    · rw [List.append_assoc]
      apply hlen
      simp [decText, Nat.toDigits_ne_nil]

example : '\x1b' ∉ (Style.new t!"+").item ∧
    ((Style.new t!"+").setFg (.rgb ⟨228, 3, 3⟩)).display =
      t!"\x1b[38;2;228;3;3m+\x1b[0m" := by decide

/-! ### The selected pen -/

/-- The pen's colour for a palette or RGB colour. -/
def Color.toPen : Color → PenColor
  | .ansi c => .palette c.code.toNat
  | .rgb c => .rgb c.r.toNat c.g.toNat c.b.toNat

/-- The formats in code order, without `reset`. -/
def allFormats : List AnsiFormat :=
  [.bold, .dim, .italic, .underlined, .blinking, .inverted, .hidden, .strikethrough]

theorem apply_small (ns : List Nat) (hn : ∀ n ∈ ns, n ≠ 0 ∧ n ≤ 9) (ps : List Nat)
    (p : Pen) : Pen.apply (ns ++ ps) p = Pen.apply ps { p with attrs := p.attrs ++ ns } := by
  induction ns generalizing p with
  | nil => simp
  | cons n ns ih =>
    have h := hn n (by simp)
    rw [List.cons_append, Pen.apply.eq_3]
    · rw [if_neg h.1, if_pos h.2, ih (fun m hm => hn m (by simp [hm]))]
      simp
    · intro r g b ps' e _; omega
    · intro r g b ps' e _; omega

theorem nonColor_eq (c : Config) :
    c.nonColorBytes.map (·.toNat) =
      (if c.resetPrev then [0] else []) ++ (allFormats.filter c.has).map (·.byte.toNat) := by
  cases c with
  | mk a1 a2 a3 a4 a5 a6 a7 a8 a9 fg bg =>
  simp only [Config.nonColorBytes, allFormats]
  revert a1 a2 a3 a4 a5 a6 a7 a8 a9
  intro a1 a2 a3 a4 a5 a6 a7 a8 a9
  cases a1 <;> cases a2 <;> cases a3 <;> cases a4 <;> cases a5 <;> cases a6 <;> cases a7 <;>
    cases a8 <;> cases a9 <;> rfl

private theorem apply_color (fg bg : Option Color)
    (hfg : fg ≠ some (.ansi .normal)) (hbg : ∀ c, bg ≠ some (.ansi c)) (p : Pen) :
    Pen.apply (((match fg with | some x => x.fgBytes | none => []) ++
      (match bg with | some x => x.bgBytes | none => [])).map (fun x : UInt8 => x.toNat)) p =
      { p with fg := (fg.map Color.toPen).or p.fg, bg := (bg.map Color.toPen).or p.bg } := by
  have h2 : ∀ p, Pen.apply ((match bg with | some x => x.bgBytes | none => []).map (fun x : UInt8 => x.toNat)) p =
      { p with bg := (bg.map Color.toPen).or p.bg } := by
    intro p
    cases bg with
    | none => simp [Pen.apply]
    | some x =>
      cases x with
      | ansi c => exact absurd rfl (hbg c)
      | rgb c => rfl
  rw [List.map_append]
  cases fg with
  | none => simp only [List.map_nil, List.nil_append]; rw [h2]; simp
  | some x =>
    cases x with
    | rgb c =>
      show Pen.apply (38 :: 2 :: c.r.toNat :: c.g.toNat :: c.b.toNat ::
        (match bg with | some x => x.bgBytes | none => []).map (fun x : UInt8 => x.toNat)) p = _
      rw [Pen.apply, h2]
      rfl
    | ansi c =>
      show Pen.apply (c.code.toNat ::
        (match bg with | some x => x.bgBytes | none => []).map (fun x : UInt8 => x.toNat)) p = _
      rw [Pen.apply.eq_3]
      · rw [h2]
        cases c <;> first | exact absurd rfl hfg | rfl
      · intro r g b ps e _; cases c <;> simp [AnsiColor.code] at e
      · intro r g b ps e _; cases c <;> simp [AnsiColor.code] at e

/-- **C48/C63/C64** The pen selected by a configuration has exactly the formats that are set and
exactly its colours, provided the foreground is not `Normal` and the background is not a palette
colour (see `C63_background_wrong`). -/
theorem C48_pen_partial (c : Config) (hfg : c.fgColor ≠ some (.ansi .normal))
    (hbg : ∀ x, c.bgColor ≠ some (.ansi x)) :
    Pen.apply c.params Pen.default =
      ⟨(allFormats.filter c.has).map (·.byte.toNat), c.fgColor.map Color.toPen,
        c.bgColor.map Color.toPen⟩ := by
  have hmain : Pen.apply (c.bytes.map (·.toNat)) Pen.default =
      ⟨(allFormats.filter c.has).map (·.byte.toNat), c.fgColor.map Color.toPen,
        c.bgColor.map Color.toPen⟩ := by
    unfold Config.bytes
    rw [List.map_append, nonColor_eq]
    have hsmall : ∀ n ∈ (allFormats.filter c.has).map (·.byte.toNat), n ≠ 0 ∧ n ≤ 9 := by
      intro n hn
      obtain ⟨f, hf, rfl⟩ := List.mem_map.1 hn
      have hf := (List.mem_filter.1 hf).1
      revert hf
      cases f <;> simp [allFormats, AnsiFormat.byte]
    have step : Pen.apply ((allFormats.filter c.has).map (·.byte.toNat) ++
        c.colorBytes.map (·.toNat)) Pen.default =
        ⟨(allFormats.filter c.has).map (·.byte.toNat), c.fgColor.map Color.toPen,
          c.bgColor.map Color.toPen⟩ := by
      rw [apply_small _ hsmall]
      exact (apply_color _ _ hfg hbg _).trans (by simp [Pen.default])
    cases c.resetPrev with
    | false => simpa using step
    | true =>
      show Pen.apply (0 :: _) _ = _
      rw [Pen.apply.eq_3 _ _ _ (by simp) (by simp)]
      simpa using step
  unfold Config.params
  split
  · rename_i h
    rw [h] at hmain
    exact hmain
  · exact hmain

example : (Config.default.setFormat .bold |>.setFgColor (.ansi .red)).fgColor ≠
    some (.ansi .normal) := by decide

/-- Selecting `Normal` as the foreground (`reset_fg`) also switches off every format. -/
theorem C48_normal_resets_formats (c : Config) (hbg : c.bgColor = none) :
    Pen.apply (c.setFgColor (.ansi .normal)).params Pen.default = Pen.default := by
  have hb : (c.setFgColor (.ansi .normal)).bytes.map (·.toNat) =
      (c.nonColorBytes.map (·.toNat)) ++ [0] := by
    simp only [Config.bytes, Config.colorBytes, Config.setFgColor, hbg, List.append_nil,
      List.map_append]
    rfl
  have hne : (c.setFgColor (.ansi .normal)).bytes ≠ [] := by
    intro h; rw [h] at hb; simp at hb
  unfold Config.params
  rw [if_neg hne, hb, nonColor_eq]
  have hsmall : ∀ n ∈ (allFormats.filter c.has).map (·.byte.toNat), n ≠ 0 ∧ n ≤ 9 := by
    intro n hn
    obtain ⟨f, hf, rfl⟩ := List.mem_map.1 hn
    have hf := (List.mem_filter.1 hf).1
    revert hf
    cases f <;> simp [allFormats, AnsiFormat.byte]
  cases c.resetPrev with
  | false =>
    simp only [Bool.false_eq_true, if_false, List.nil_append]
    rw [apply_small _ hsmall]; rfl
  | true =>
    show Pen.apply (0 :: ((allFormats.filter c.has).map (·.byte.toNat) ++ [0])) _ = _
    rw [Pen.apply.eq_3 _ _ _ (by simp) (by simp), apply_small _ hsmall]; rfl

/-! ### C63 -/

/-- **C63 fails**: for every palette colour, styling a text with it as background draws the text
with that colour as *foreground* and no background. -/
theorem C63_background_wrong (t : Text) (ht : '\x1b' ∉ t) (c : AnsiColor) (hc : c ≠ .normal) :
    Term.run Term.start ((Style.new t).setBg (.ansi c)).display =
      ⟨.ground, Pen.default, t.map (·, ⟨[], some (.palette c.code.toNat), none⟩)⟩ := by
  have h := C48_styled_output ((Style.new t).setBg (.ansi c)) ht []
  unfold Term.start
  rw [h]
  cases c <;> first | exact absurd rfl hc | rfl

/-- **C63** (the part that holds) RGB backgrounds are background colours, and displaying a `Bg`
shows the foreground code plus ten. Missing: the palette background setters. -/
theorem C63_background_partial (t : Text) (ht : '\x1b' ∉ t) (c : Rgb) :
    Term.run Term.start ((Style.new t).setBg (.rgb c)).display =
      ⟨.ground, Pen.default, t.map (·, ⟨[], none,
        some (.rgb c.r.toNat c.g.toNat c.b.toNat)⟩)⟩ ∧
    ∀ a : AnsiColor, a.displayBg = decText (a.code.toNat + 10) := by
  constructor
  · have h := C48_styled_output ((Style.new t).setBg (.rgb c)) ht []
    unfold Term.start
    rw [h]
    simp [Style.setBg, Style.new]
    intros
    rfl
  · intro a; cases a <;> rfl

example : '\x1b' ∉ t!"x" ∧ AnsiColor.red ≠ AnsiColor.normal := by decide

/-! ### C64 -/

/-- **C64** Setting, unsetting and toggling one flag affects only that flag. -/
theorem C64_flags_independent (c : Config) (f g : AnsiFormat) :
    (c.setFormat f).has g = (if g = f then true else c.has g) ∧
    (c.resetFormat f).has g = (if g = f then false else c.has g) ∧
    (c.toggleFormat f).has g = (if g = f then !c.has g else c.has g) ∧
    (c.setFormat f).fgColor = c.fgColor ∧ (c.setFormat f).bgColor = c.bgColor ∧
    (c.resetFormat f).fgColor = c.fgColor ∧ (c.resetFormat f).bgColor = c.bgColor ∧
    (c.toggleFormat f).fgColor = c.fgColor ∧ (c.toggleFormat f).bgColor = c.bgColor := by
  cases f <;> refine ⟨?_, ?_, ?_, rfl, rfl, rfl, rfl, rfl, rfl⟩ <;> cases g <;> rfl

/-- A configuration is determined by its flags and colours. -/
theorem C64_config_ext (c d : Config) (hf : ∀ g, c.has g = d.has g)
    (h1 : c.fgColor = d.fgColor) (h2 : c.bgColor = d.bgColor) : c = d := by
  have a1 := hf .reset; have a2 := hf .bold; have a3 := hf .dim; have a4 := hf .italic
  have a5 := hf .underlined; have a6 := hf .blinking; have a7 := hf .inverted
  have a8 := hf .hidden; have a9 := hf .strikethrough
  cases c; cases d
  simp only [Config.has] at *
  simp [*]

/-- **C64** Setting is idempotent, unsetting undoes setting, toggling twice is the identity, and
operations on different flags commute. -/
theorem C64_flag_laws (c : Config) (f g : AnsiFormat) :
    (c.setFormat f).setFormat f = c.setFormat f ∧
    (c.setFormat f).resetFormat f = c.resetFormat f ∧
    (c.resetFormat f).setFormat f = c.setFormat f ∧
    (c.has f = false → (c.setFormat f).resetFormat f = c) ∧
    (c.toggleFormat f).toggleFormat f = c ∧
    (c.setFormat f).setFormat g = (c.setFormat g).setFormat f ∧
    (f ≠ g → (c.setFormat f).resetFormat g = (c.resetFormat g).setFormat f) ∧
    (f ≠ g → (c.setFormat f).toggleFormat g = (c.toggleFormat g).setFormat f) := by
  refine ⟨by cases f <;> rfl, by cases f <;> rfl, by cases f <;> rfl, ?_, ?_,
    by cases f <;> cases g <;> rfl, ?_, ?_⟩
  · intro h
    cases c
    cases f <;> simp_all [Config.setFormat, Config.resetFormat, Config.has]
  · cases c
    cases f <;> simp [Config.toggleFormat]
  · intro h; cases f <;> cases g <;> first | rfl | exact absurd rfl h
  · intro h; cases f <;> cases g <;> first | rfl | exact absurd rfl h

/-- **C64** Colours are last-writer-wins and independent of flags and of each other. -/
theorem C64_colours (c : Config) (x y : Color) (f : AnsiFormat) :
    (c.setFgColor x).setFgColor y = c.setFgColor y ∧
    (c.setBgColor x).setBgColor y = c.setBgColor y ∧
    (c.setFgColor x).setBgColor y = (c.setBgColor y).setFgColor x ∧
    (c.setFgColor x).fgColor = some x ∧ (c.setFgColor x).bgColor = c.bgColor ∧
    (c.setBgColor x).bgColor = some x ∧ (c.setBgColor x).fgColor = c.fgColor ∧
    (c.setFgColor x).has f = c.has f ∧ (c.setBgColor x).has f = c.has f ∧
    c.resetColors.fgColor = none ∧ c.resetColors.bgColor = none ∧
    c.resetColors.has f = c.has f := by
  cases f <;> exact ⟨rfl, rfl, rfl, rfl, rfl, rfl, rfl, rfl, rfl, rfl, rfl, rfl⟩

end Pemdas
