import Verif.Model.Paint
import Verif.Spec.Paint
import Verif.Props.Style
/-
C153: the styling methods do what their names say.
-/
namespace Pemdas

/-- The colours of a configuration, seen as the colours of a pen. -/
private def shade : Option Color → Option (Option PenColor)
  | none => none
  | some (.ansi .normal) => some none
  | some c => some (some c.toPen)

private theorem recolored_const {g n : Text} {v} (h1 : recolored g none n = v)
    (h2 : recolored g (some none) n = v) (d) : recolored g d n = v := by
  unfold recolored at *
  repeat' split at h1
  all_goals simp_all
  rw [← h2] at h1
  cases h1

private theorem recolored_keep {g n : Text} (h1 : recolored g none n = none)
    (h2 : recolored g (some none) n = some none) (d) : recolored g d n = d := by
  unfold recolored at *
  repeat' split at h1
  all_goals simp_all

/-- What a method does to a ground. -/
private def effect (fg : Bool) (d : Option (Option PenColor)) : StyleCall → Option (Option PenColor)
  | .fg k => if fg then shade (some k) else d
  | .bg k => if fg then d else shade (some k)
  | .resetColors => none
  | _ => d

private theorem recolored_effect (fg : Bool) : ∀ x ∈ styleMethods, ∀ d,
    recolored (if fg then t!"fg" else t!"bg") d x.1 = effect fg d x.2 := by
  have key : ∀ fg : Bool, ∀ x ∈ styleMethods, ∀ d ∈ [none, some none],
      recolored (if fg then t!"fg" else t!"bg") d x.1 = effect fg d x.2 := by
    decide +kernel
  intro x hx d
  have h1 := key fg x hx none (by simp)
  have h2 := key fg x hx (some none) (by simp)
  have hc : (∃ v, ∀ d, effect fg d x.2 = v) ∨ ∀ d, effect fg d x.2 = d := by
    cases x.2 <;> cases fg <;> simp [effect]
  rcases hc with ⟨v, hv⟩ | hv
  · rw [hv] at *; exact recolored_const h1 h2 d
  · rw [hv] at *; exact recolored_keep h1 h2 d

private theorem call_shade (c : Config) (m : StyleCall) :
    shade (c.call m).fgColor = effect true (shade c.fgColor) m ∧
    shade (c.call m).bgColor = effect false (shade c.bgColor) m := by
  cases m with
  | set f => cases f <;> exact ⟨rfl, rfl⟩
  | unset f => cases f <;> exact ⟨rfl, rfl⟩
  | toggle f => cases f <;> exact ⟨rfl, rfl⟩
  | _ => exact ⟨rfl, rfl⟩

/-- What a method does to an attribute. -/
private def switch (f : AnsiFormat) (on : Bool) : StyleCall → Bool
  | .set g => if g = f then true else on
  | .unset g => if g = f then false else on
  | .toggle g => if g = f then !on else on
  | _ => on

private theorem call_has (c : Config) (m : StyleCall) (f : AnsiFormat) :
    (c.call m).has f = switch f (c.has f) m := by
  cases m with
  | set g => cases g <;> cases f <;> rfl
  | unset g => cases g <;> cases f <;> rfl
  | toggle g => cases g <;> cases f <;> rfl
  | _ => cases f <;> rfl

private theorem turned_switch : ∀ x ∈ styleMethods, ∀ e ∈ emphases.zip allFormats, ∀ on : Bool,
    turned e.1.1 on x.1 = switch e.2 on x.2 := by
  decide +kernel

private theorem lookup_mem {n : Text} {m : StyleCall} (h : styleMethods.lookup n = some m) :
    (n, m) ∈ styleMethods := by
  obtain ⟨l₁, l₂, h, -⟩ := List.lookup_eq_some_iff.1 h
  rw [h]; simp

private theorem calls_state (names : List Text) : ∀ (s s' : Style), s.calls names = some s' →
    s'.item = s.item ∧
    shade s'.config.fgColor = names.foldl (recolored t!"fg") (shade s.config.fgColor) ∧
    shade s'.config.bgColor = names.foldl (recolored t!"bg") (shade s.config.bgColor) ∧
    ∀ e ∈ emphases.zip allFormats, s'.config.has e.2 = names.foldl (turned e.1.1) (s.config.has e.2) := by
  induction names with
  | nil => intro s s' h; cases h; simp
  | cons n ns ih =>
    intro s s' h
    unfold Style.calls at h
    split at h
    · rename_i m hm
      obtain ⟨h1, h3, h4, h5⟩ := ih _ _ h
      have hx := lookup_mem hm
      have e1 := recolored_effect true _ hx (shade s.config.fgColor)
      have e2 := recolored_effect false _ hx (shade s.config.bgColor)
      simp only [if_true, Bool.false_eq_true, if_false] at e1 e2
      refine ⟨h1, ?_, ?_, fun e he => ?_⟩
      · rw [h3, List.foldl_cons, e1, ← (call_shade _ m).1]
      · rw [h4, List.foldl_cons, e2, ← (call_shade _ m).2]
      · rw [h5 e he, List.foldl_cons, turned_switch _ hx e he, call_has]
    · cases h

/-- The pen a configuration selects, whatever its colours are. -/
private theorem pen_exact (c : Config) : Pen.apply c.params Pen.default =
    let attrs := (allFormats.filter c.has).map (·.byte.toNat)
    let p := match shade c.fgColor with
      | some none => Pen.default
      | fg => ⟨attrs, fg.join, none⟩
    match shade c.bgColor with
    | none => p
    | some none => Pen.default
    | some (some (.palette n)) => { p with fg := some (.palette n) }
    | some (some k) => { p with bg := some k } := by
  have hsmall : ∀ n ∈ (allFormats.filter c.has).map (·.byte.toNat), n ≠ 0 ∧ n ≤ 9 := by
    intro n hn
    obtain ⟨f, hf, rfl⟩ := List.mem_map.1 hn
    have hf := (List.mem_filter.1 hf).1
    revert hf
    cases f <;> simp [allFormats, AnsiFormat.byte]
  have hb : Pen.apply (c.bytes.map (·.toNat)) Pen.default =
      Pen.apply (c.colorBytes.map (·.toNat))
        ⟨(allFormats.filter c.has).map (·.byte.toNat), none, none⟩ := by
    unfold Config.bytes
    rw [List.map_append, nonColor_eq]
    cases c.resetPrev with
    | false =>
      simp only [Bool.false_eq_true, if_false, List.nil_append]
      rw [apply_small _ hsmall]; rfl
    | true =>
      show Pen.apply (0 :: ((allFormats.filter c.has).map (·.byte.toNat) ++ _)) _ = _
      rw [Pen.apply.eq_3 _ _ _ (by simp) (by simp), apply_small _ hsmall]; rfl
  have hp : Pen.apply c.params Pen.default = Pen.apply (c.bytes.map (·.toNat)) Pen.default := by
    unfold Config.params
    split
    · rename_i h; rw [h]; rfl
    · rfl
  rw [hp, hb]
  generalize (allFormats.filter c.has).map (·.byte.toNat) = attrs
  unfold Config.colorBytes
  have h2 : ∀ (bg : Option Color) (p : Pen),
      Pen.apply ((match bg with | some x => x.bgBytes | none => []).map (fun x : UInt8 => x.toNat)) p =
      match shade bg with
      | none => p
      | some none => Pen.default
      | some (some (.palette n)) => { p with fg := some (.palette n) }
      | some (some k) => { p with bg := some k } := by
    intro bg p
    rcases bg with _ | c | c
    · rfl
    · cases c <;> rfl
    · rfl
  rcases c.fgColor with _ | k | k
  · rw [List.map_append]; exact h2 _ _
  · rw [List.map_append]
    show Pen.apply (k.code.toNat ::
      ((match c.bgColor with | some x => x.bgBytes | none => []).map (fun x : UInt8 => x.toNat))) _ = _
    rw [Pen.apply.eq_3]
    · rw [h2]; cases k <;> rfl
    · intro r g b ps e _; cases k <;> simp [AnsiColor.code] at e
    · intro r g b ps e _; cases k <;> simp [AnsiColor.code] at e
  · rw [List.map_append]
    show Pen.apply (38 :: 2 :: k.r.toNat :: k.g.toNat :: k.b.toNat ::
      ((match c.bgColor with | some x => x.bgBytes | none => []).map (fun x : UInt8 => x.toNat))) _ = _
    rw [Pen.apply, h2]
    rfl

/-- How a text looks that is styled by methods called one after the other: resetting a ground last
undoes everything done before it is written, attributes and the foreground first; a background of the
palette becomes the foreground. -/
def seenPen (names : List Text) : Pen :=
  let p := match groundColor t!"fg" names with
    | some none => Pen.default
    | fg => ⟨attributes names, fg.join, none⟩
  match groundColor t!"bg" names with
  | none => p
  | some none => Pen.default
  | some (some (.palette n)) => { p with fg := some (.palette n) }
  | some (some k) => { p with bg := some k }

/-- **C153** Exactly how a text looks after any methods. -/
theorem C153_seen (names : List Text) (t : Text) (ht : '\x1b' ∉ t) (s : Style)
    (h : (Style.new t).calls names = some s) :
    Term.run Term.start s.display = ⟨.ground, Pen.default, t.map (·, seenPen names)⟩ := by
  obtain ⟨h1, h2, h3, h4⟩ := calls_state names _ _ h
  have hi : s.item = t := h1
  have h := C48_styled_output s (hi ▸ ht) []
  unfold Term.start
  rw [h, hi, pen_exact, h2, h3]
  have ha : (allFormats.filter s.config.has).map (·.byte.toNat) = attributes names := by
    have key : ∀ l : List ((Text × Nat) × AnsiFormat), (∀ e ∈ l, e.1.2 = e.2.byte.toNat ∧
        s.config.has e.2 = names.foldl (turned e.1.1) false) →
        ((l.map (·.2)).filter s.config.has).map (·.byte.toNat) =
          ((l.map (·.1)).filter fun e => names.foldl (turned e.1) false).map (·.2) := by
      intro l hl
      induction l with
      | nil => rfl
      | cons e l ih =>
        obtain ⟨e1, e2⟩ := hl e (by simp)
        have ih := ih fun e he => hl e (by simp [he])
        simp only [List.map_cons, List.filter_cons, e2]
        split
        · simp only [List.map_cons, ih, e1]
        · exact ih
    refine key (emphases.zip allFormats) fun e he => ⟨?_, ?_⟩
    · revert e; decide
    · rw [h4 e he]
      congr 1
      show Config.default.has e.2 = false
      revert e; decide
  rw [ha]
  rfl

/-- **C153** (partial) A text styled by any methods looks as their names say: every attribute is on iff
the calls about it leave it on, and every ground has the colour set last. Missing: colours that are
reset, and backgrounds of the palette, for which this is false (see below). -/
theorem C153_methods_partial (names : List Text) (t : Text) (ht : '\x1b' ∉ t) (s : Style)
    (h : (Style.new t).calls names = some s) (hf : groundColor t!"fg" names ≠ some none)
    (hb : ∀ n, groundColor t!"bg" names ≠ some (some (.palette n)))
    (hr : groundColor t!"bg" names ≠ some none) :
    Term.run Term.start s.display = ⟨.ground, Pen.default, t.map (·, wantedPen names)⟩ := by
  rw [C153_seen names t ht s h]
  congr 3
  funext c
  congr 1
  unfold seenPen wantedPen
  split
  · rename_i h; exact absurd h hf
  · cases hg : groundColor t!"bg" names with
    | none => rfl
    | some k =>
      rcases k with _ | k | k
      · exact absurd hg hr
      · exact absurd hg (hb _)
      · rfl

/-- **C153** The methods are exactly those with names of the forms the specification reads, for all
attributes and colours. -/
theorem C153_names (n : Text) : (styleMethods.lookup n).isSome ↔
    n ∈ [t!"reset_colors", t!"reset_fg", t!"reset_bg"] ∨
    (∃ e ∈ emphases, ∃ v ∈ [t!"set_", t!"unset_", t!"toggle_"], n = v ++ e.1) ∨
    ∃ k ∈ colorNames, ∃ v ∈ [t!"set_fg_", t!"set_bg_"], n = v ++ k := by
  have h1 : (styleMethods.lookup n).isSome ↔ n ∈ styleMethods.map (·.1) := by
    rw [List.mem_map]
    constructor
    · intro h
      obtain ⟨m, hm⟩ := Option.isSome_iff_exists.1 h
      exact ⟨_, lookup_mem hm, rfl⟩
    · rintro ⟨x, hx, rfl⟩
      exact (by decide +kernel : ∀ x ∈ styleMethods, (styleMethods.lookup x.1).isSome) x hx
  rw [h1]
  constructor
  · intro h
    exact (by decide +kernel : ∀ n ∈ styleMethods.map (·.1),
      n ∈ [t!"reset_colors", t!"reset_fg", t!"reset_bg"] ∨
      (∃ e ∈ emphases, ∃ v ∈ [t!"set_", t!"unset_", t!"toggle_"], n = v ++ e.1) ∨
      ∃ k ∈ colorNames, ∃ v ∈ [t!"set_fg_", t!"set_bg_"], n = v ++ k) n h
  · rintro (h | ⟨e, he, v, hv, rfl⟩ | ⟨k, hk, v, hv, rfl⟩)
    · exact (by decide +kernel : ∀ n ∈ [t!"reset_colors", t!"reset_fg", t!"reset_bg"],
        n ∈ styleMethods.map (·.1)) n h
    · exact (by decide +kernel : ∀ e ∈ emphases, ∀ v ∈ [t!"set_", t!"unset_", t!"toggle_"],
        v ++ e.1 ∈ styleMethods.map (·.1)) e he v hv
    · exact (by decide +kernel : ∀ k ∈ colorNames, ∀ v ∈ [t!"set_fg_", t!"set_bg_"],
        v ++ k ∈ styleMethods.map (·.1)) k hk v hv

example : ∀ k ∈ colorNames, (namedColor k).isSome := by decide +kernel

/-- **C153 fails**: after `set_bold` and `reset_fg` a text is not bold; after `set_fg_red` and
`reset_bg` it is not red; `set_bg_red` makes it red itself. -/
theorem C153_methods_wrong : ∃ ns₁ ns₂ ns₃,
    seenPen ns₁ ≠ wantedPen ns₁ ∧ seenPen ns₂ ≠ wantedPen ns₂ ∧ seenPen ns₃ ≠ wantedPen ns₃ ∧
    ∀ ns ∈ [ns₁, ns₂, ns₃], ((Style.new t!"x").calls ns).isSome :=
  ⟨[t!"set_bold", t!"reset_fg"], [t!"set_fg_red", t!"reset_bg"], [t!"set_bg_red"],
    by decide +kernel, by decide +kernel, by decide +kernel, by decide +kernel⟩

example : ((Style.new t!"x").calls [t!"set_bold", t!"set_fg_red", t!"toggle_bold", t!"set_dim",
      t!"set_bg_teal", t!"set_fg_light_blue"]).map (·.display) =
      some t!"\x1b[2;94;48;2;0;128;128mx\x1b[0m" ∧
    wantedPen [t!"set_bold", t!"set_fg_red", t!"toggle_bold", t!"set_dim",
      t!"set_bg_teal", t!"set_fg_light_blue"] = ⟨[2], some (.palette 94), some (.rgb 0 128 128)⟩ := by
  decide +kernel

end Pemdas
