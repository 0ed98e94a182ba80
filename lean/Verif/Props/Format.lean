import Verif.Model.Format
import Verif.Props.Compose
/-
C145, C146: styled values whose items fail, writers that fail, formatter options.
-/
namespace Pemdas

/-! ### Specification -/

/-- What the leaves of a value write, in order.  `Debug` wrappers shown with `{}` format their item
as `{:?}`. -/
def FmtValue.shown : FmtValue → FmtTrait → FmtSpec → Text
  | .leaf f, tr, sp => (f tr sp).toText.1
  | .style p _, tr, sp => p.shown tr sp
  | .debug p _, .display, _ => p.shown .debug .plain
  | .debug p _, .debug, sp => p.shown .debug sp
  | .debug _ _, _, _ => []
  | .and a b, tr, sp => a.shown tr sp ++ b.shown tr sp
  | .then_ a b, tr, sp => a.shown tr sp ++ b.shown tr sp

/-- No leaf reports an error. -/
def FmtValue.Succeeds : FmtValue → FmtTrait → FmtSpec → Prop
  | .leaf f, tr, sp => (f tr sp).toText.2 = true
  | .style p _, tr, sp => p.Succeeds tr sp
  | .debug p _, .display, _ => p.Succeeds .debug .plain
  | .debug p _, .debug, sp => p.Succeeds .debug sp
  | .debug _ _, _, _ => True
  | .and a b, tr, sp => a.Succeeds tr sp ∧ b.Succeeds tr sp
  | .then_ a b, tr, sp => a.Succeeds tr sp ∧ b.Succeeds tr sp

/-- No leaf inside a `Debug` wrapper shown with `{}` reports an error; the others may. -/
def FmtValue.Guarded : FmtValue → FmtTrait → FmtSpec → Prop
  | .leaf _, _, _ => True
  | .style p _, tr, sp => p.Guarded tr sp
  | .debug p _, .display, _ => p.Succeeds .debug .plain
  | .debug p _, .debug, sp => p.Guarded .debug sp
  | .debug _ _, _, _ => True
  | .and a b, tr, sp => a.Guarded tr sp ∧ b.Guarded tr sp
  | .then_ a b, tr, sp => a.Guarded tr sp ∧ b.Guarded tr sp

/-- A writer that breaks: it takes pieces until one of which it takes only some characters, and
nothing afterwards.  `room w t` is how much of `t` it takes having received `w`. -/
def breaking (room : Text → Text → Nat) : Text × Bool → Text → (Text × Bool) × Bool
  | (w, true), t =>
    if t.length ≤ room w t then ((w ++ t, true), true)
    else ((w ++ t.take (room w t), false), false)
  | (w, false), _ => ((w, false), false)

/-- Whatever the writer answers from here on, the result is an error. -/
def Writing.Fails : Writing → Prop
  | .done ok => ok = false
  | .put _ k => ∀ r, (k r).Fails

/-- A failed write makes the result an error. -/
def Writing.Honest : Writing → Prop
  | .done _ => True
  | .put _ k => (k false).Fails ∧ ∀ r, (k r).Honest

/-- All leaves hand on errors of the writer. -/
def FmtValue.Honest : FmtValue → Prop
  | .leaf f => ∀ tr sp, (f tr sp).Honest
  | .style p _ => p.Honest
  | .debug p _ => p.Honest
  | .and a b => a.Honest ∧ b.Honest
  | .then_ a b => a.Honest ∧ b.Honest

/-- The leaves. -/
def FmtValue.leaves : FmtValue → List (FmtTrait → FmtSpec → Writing)
  | .leaf f => [f]
  | .style p _ => p.leaves
  | .debug p _ => p.leaves
  | .and a b => a.leaves ++ b.leaves
  | .then_ a b => a.leaves ++ b.leaves

/-- Built from styles, `And` and `Then` only. -/
def FmtValue.NoDebug : FmtValue → Prop
  | .leaf _ => True
  | .style p _ => p.NoDebug
  | .debug _ _ => False
  | .and a b => a.NoDebug ∧ b.NoDebug
  | .then_ a b => a.NoDebug ∧ b.NoDebug

/-! ### Writing to a string -/

private def app : Text → Text → Text × Bool := fun w t => (w ++ t, true)

private theorem run_app (a : Writing) (w : Text) :
    a.run app w = (w ++ a.toText.1, a.toText.2) := by
  unfold Writing.toText
  show a.run app w = (w ++ (a.run app []).1, (a.run app []).2)
  induction a generalizing w with
  | done ok => simp [Writing.run]
  | put t k ih =>
    show (k true).run app (w ++ t) =
      (w ++ ((k true).run app ([] ++ t)).1, ((k true).run app ([] ++ t)).2)
    rw [ih, ih true ([] ++ t)]
    simp

private theorem toText_put (t : Text) (k : Bool → Writing) :
    (Writing.put t k).toText = (t ++ (k true).toText.1, (k true).toText.2) := by
  show (k true).run app ([] ++ t) = _
  rw [run_app]; simp

private theorem toText_also (ok : Bool) (a : Writing) :
    (a.also ok).toText = (a.toText.1, ok && a.toText.2) := by
  induction a with
  | done r => rfl
  | put t k ih => simp [Writing.also, toText_put, ih]

private theorem toText_both (a b : Writing) :
    (a.both b).toText = (a.toText.1 ++ b.toText.1, a.toText.2 && b.toText.2) := by
  induction a with
  | done ok => simp only [Writing.both, toText_also]; rfl
  | put t k ih => simp [Writing.both, toText_put, ih]

private theorem toText_andThen (a b : Writing) :
    (a.andThen b).toText =
      if a.toText.2 then (a.toText.1 ++ b.toText.1, b.toText.2) else a.toText := by
  induction a with
  | done ok => cases ok <;> simp [Writing.andThen, Writing.toText, Writing.run]
  | put t k ih =>
    simp only [Writing.andThen, toText_put, ih]
    split <;> simp

private theorem toText_str (t : Text) : (Writing.str t).toText = (t, true) := by
  simp [Writing.str, Writing.toText, Writing.run]

private theorem toText_rest (bs : List UInt8) :
    (Config.writeRest bs).toText = ((bs.map (fun e => t!";" ++ decText e.toNat)).flatten, true) := by
  induction bs with
  | nil => rfl
  | cons b bs ih => simp [Config.writeRest, toText_andThen, toText_str, ih]

private theorem toText_start (c : Config) : c.start.toText = (c.writeStart, true) := by
  unfold Config.start Config.writeStart
  cases c.bytes with
  | nil => simp [toText_andThen, toText_str]
  | cons b bs => simp [toText_andThen, toText_str, toText_rest]

private theorem toText_finish (c : Config) : c.finish.toText = (c.writeEnd, true) := toText_str _

/-! ### C145 -/

/-- **C145** Where nothing fails and no options are given, this is what `Doc` says: `{}` and `{:?}`
of a composed value write its `Display` and its `Debug` text. -/
theorem C145_plain (d : Doc) :
    (d.value.fmt .display .plain).toText = (d.display, true) ∧
    ∀ sp, (d.value.fmt .debug sp).toText = (d.debugFmt, true) := by
  induction d with
  | leaf s t => simp [Doc.value, FmtValue.fmt, toText_str, Doc.display, Doc.debugFmt]
  | style d c ih =>
    simp [Doc.value, FmtValue.fmt, toText_both, toText_start, toText_finish, Doc.display,
      Doc.debugFmt, ih]
  | debug d c ih =>
    simp [Doc.value, FmtValue.fmt, toText_andThen, toText_start, toText_finish, Doc.display,
      Doc.debugFmt, ih]
  | and a b iha ihb =>
    simp [Doc.value, FmtValue.fmt, toText_both, Doc.display, Doc.debugFmt, iha, ihb]
  | then_ a b iha ihb =>
    simp [Doc.value, FmtValue.fmt, toText_both, Doc.display, Doc.debugFmt, iha, ihb]

/-- **C145** A styled item that fails is still followed by the reset sequence, and what comes after
it in an `And` or `Then` is still written; the error is reported. -/
theorem C145_failing_item (p q : FmtValue) (c : Config) (tr : FmtTrait) (sp : FmtSpec) :
    ((FmtValue.style p c).fmt tr sp).toText =
      (c.writeStart ++ (p.fmt tr sp).toText.1 ++ t!"\x1b[0m", (p.fmt tr sp).toText.2) ∧
    ((FmtValue.and p q).fmt tr sp).toText =
      ((p.fmt tr sp).toText.1 ++ (q.fmt tr sp).toText.1,
        (p.fmt tr sp).toText.2 && (q.fmt tr sp).toText.2) ∧
    ((FmtValue.then_ p q).fmt tr sp).toText = ((FmtValue.and p q).fmt tr sp).toText := by
  refine ⟨?_, ?_, rfl⟩
  · simp [FmtValue.fmt, toText_both, toText_start, toText_finish, Config.writeEnd]
  · simp [FmtValue.fmt, toText_both]

/-- **C145** The result is an error exactly if a leaf reports one. -/
theorem C145_error (p : FmtValue) (tr : FmtTrait) (sp : FmtSpec) :
    (p.fmt tr sp).toText.2 = true ↔ p.Succeeds tr sp := by
  induction p generalizing tr sp with
  | leaf f => exact Iff.rfl
  | style p c ih =>
    simp [FmtValue.fmt, toText_both, toText_start, toText_finish, FmtValue.Succeeds, ih]
  | debug p c ih =>
    cases tr with
    | display =>
      simp only [FmtValue.fmt, toText_andThen, toText_start, toText_finish, FmtValue.Succeeds, ← ih,
        if_true]
      split <;> simp_all
    | debug => exact ih _ _
    | _ => simp [FmtValue.fmt, FmtValue.Succeeds, Writing.toText, Writing.run]
  | and a b iha ihb => simp [FmtValue.fmt, toText_both, FmtValue.Succeeds, iha, ihb]
  | then_ a b iha ihb => simp [FmtValue.fmt, toText_both, FmtValue.Succeeds, iha, ihb]


private theorem not_mem_append {c : Char} {a b : Text} (h : c ∉ a ++ b) : c ∉ a ∧ c ∉ b := by
  simpa [not_or] using h

private theorem Succeeds.guarded {p : FmtValue} {tr : FmtTrait} {sp : FmtSpec}
    (h : p.Succeeds tr sp) : p.Guarded tr sp := by
  induction p generalizing tr sp with
  | leaf f => trivial
  | style p c ih => exact ih h
  | debug p c ih => cases tr <;> first | exact h | exact ih h
  | and a b iha ihb => exact ⟨iha h.1, ihb h.2⟩
  | then_ a b iha ihb => exact ⟨iha h.1, ihb h.2⟩

private theorem run_end (c : Config) (p : Pen) (sc : List (Char × Pen)) :
    Term.run ⟨.ground, p, sc⟩ c.writeEnd = ⟨.ground, Pen.default, sc⟩ := rfl

/-- The pen afterwards is the one before or the default one. -/
private theorem fmt_runs (p : FmtValue) (tr : FmtTrait) (sp : FmtSpec) (hg : p.Guarded tr sp)
    (he : '\x1b' ∉ p.shown tr sp) (pen : Pen) (sc : List (Char × Pen)) :
    ∃ pen' cs, Term.run ⟨.ground, pen, sc⟩ (p.fmt tr sp).toText.1 = ⟨.ground, pen', sc ++ cs⟩ ∧
      (pen' = pen ∨ pen' = Pen.default) ∧ cs.map (·.1) = p.shown tr sp := by
  induction p generalizing tr sp pen sc with
  | leaf f =>
    exact ⟨pen, _, run_plain _ he pen sc, .inl rfl, by simp [FmtValue.shown, Function.comp_def]⟩
  | style p c ih =>
    rw [(C145_failing_item p p c tr sp).1, Term.run_append, Term.run_append, run_start]
    obtain ⟨pen', cs, h, _, hc⟩ := ih tr sp hg he (Pen.apply c.params pen) sc
    refine ⟨Pen.default, cs, ?_, .inr rfl, hc⟩
    rw [h]
    exact run_end c pen' _
  | debug p c ih =>
    cases tr with
    | display =>
      have hs := (C145_error p .debug .plain).2 hg
      have key : ((FmtValue.debug p c).fmt .display sp).toText.1 =
          c.writeStart ++ (p.fmt .debug .plain).toText.1 ++ c.writeEnd := by
        simp [FmtValue.fmt, toText_andThen, toText_start, toText_finish, hs]
      rw [key, Term.run_append, Term.run_append, run_start]
      obtain ⟨pen', cs, h, _, hc⟩ := ih .debug .plain (Succeeds.guarded hg) he
        (Pen.apply c.params pen) sc
      refine ⟨Pen.default, cs, ?_, .inr rfl, hc⟩
      rw [h]
      exact run_end c pen' _
    | debug => exact ih _ _ hg he pen sc
    | _ =>
      refine ⟨pen, [], ?_, .inl rfl, rfl⟩
      simp [FmtValue.fmt, Writing.toText, Writing.run, Term.run]
  | and a b iha ihb =>
    obtain ⟨h1, h2⟩ := not_mem_append he
    rw [(C145_failing_item a b Config.default tr sp).2.1, Term.run_append]
    obtain ⟨pen1, cs1, e1, p1, c1⟩ := iha tr sp hg.1 h1 pen sc
    obtain ⟨pen2, cs2, e2, p2, c2⟩ := ihb tr sp hg.2 h2 pen1 (sc ++ cs1)
    refine ⟨pen2, cs1 ++ cs2, by rw [e1, e2, List.append_assoc], ?_, by simp [c1, c2, FmtValue.shown]⟩
    rcases p2 with rfl | rfl
    · exact p1
    · exact .inr rfl
  | then_ a b iha ihb =>
    obtain ⟨h1, h2⟩ := not_mem_append he
    rw [(C145_failing_item a b Config.default tr sp).2.2,
      (C145_failing_item a b Config.default tr sp).2.1, Term.run_append]
    obtain ⟨pen1, cs1, e1, p1, c1⟩ := iha tr sp hg.1 h1 pen sc
    obtain ⟨pen2, cs2, e2, p2, c2⟩ := ihb tr sp hg.2 h2 pen1 (sc ++ cs1)
    refine ⟨pen2, cs1 ++ cs2, by rw [e1, e2, List.append_assoc], ?_, by simp [c1, c2, FmtValue.shown]⟩
    rcases p2 with rfl | rfl
    · exact p1
    · exact .inr rfl

/-- **C145** Whichever items fail, with whichever trait and options the value is formatted, the
terminal shows what the items wrote and is left as it was.  Missing: items inside a `Debug` wrapper
shown with `{}` must not fail (`C145_reset_wrong`). -/
theorem C145_reset_partial (p : FmtValue) (tr : FmtTrait) (sp : FmtSpec) (hg : p.Guarded tr sp)
    (he : '\x1b' ∉ p.shown tr sp) :
    Term.visible (p.fmt tr sp).toText.1 = p.shown tr sp ∧
    (Term.start.run (p.fmt tr sp).toText.1).pen = Pen.default ∧
    (Term.start.run (p.fmt tr sp).toText.1).mode = .ground := by
  obtain ⟨pen', cs, h, hp, hc⟩ := fmt_runs p tr sp hg he Pen.default []
  unfold Term.visible Term.start
  rw [h]
  refine ⟨by simpa using hc, ?_, rfl⟩
  rcases hp with rfl | rfl <;> rfl

/-- An item that writes a text and then fails. -/
def exFailing (t : Text) : FmtValue := .leaf fun _ _ => .put t fun _ => .done false

/-- **C145** (violated) `Debug` wrappers: when the item fails the reset sequence is not written, so
the terminal keeps the style for everything that follows, here red for the `And`'s second part. -/
theorem C145_reset_wrong (p : FmtValue) (c : Config) (sp : FmtSpec) (t : Text)
    (hp : (p.fmt .debug .plain).toText = (t, false)) (he : '\x1b' ∉ t) :
    (Term.start.run ((FmtValue.debug p c).fmt .display sp).toText.1).pen =
      Pen.apply c.params Pen.default := by
  have key : ((FmtValue.debug p c).fmt .display sp).toText.1 = c.writeStart ++ t := by
    simp [FmtValue.fmt, toText_andThen, toText_start, hp]
  rw [key, Term.run_append]
  unfold Term.start
  rw [run_start, run_plain t he]

example : ((exFailing t!"ab").fmt .debug .plain).toText = (t!"ab", false) ∧
    Pen.apply (Config.default.setFgColor (.ansi .red)).params Pen.default ≠ Pen.default ∧
    (Term.start.run ((FmtValue.and (.debug (exFailing t!"ab") (Config.default.setFgColor (.ansi .red)))
      (.ofStr t!"c")).fmt .display .plain).toText.1).screen.getLast? =
        some ('c', ⟨[], some (.palette 31), none⟩) := by decide

/-- A failing item between two others, all styled: `C145_reset_partial` applies. -/
example : (FmtValue.style (.and (.ofStr t!"x") (.style (exFailing t!"ab") Config.default))
      (Config.default.setFgColor (.ansi .red))).Guarded .display .plain ∧
    (FmtValue.style (.and (.ofStr t!"x") (.style (exFailing t!"ab") Config.default))
      (Config.default.setFgColor (.ansi .red))).shown .display .plain = t!"xab" ∧
    ¬ (FmtValue.style (.and (.ofStr t!"x") (.style (exFailing t!"ab") Config.default))
      (Config.default.setFgColor (.ansi .red))).Succeeds .display .plain := by
  refine ⟨⟨trivial, trivial⟩, by decide, fun h => Bool.noConfusion h.2⟩

/-! ### Breaking writers -/

private theorem run_broken (room : Text → Text → Nat) (a : Writing) (w : Text) :
    (a.run (breaking room) (w, false)).1 = (w, false) := by
  induction a generalizing w with
  | done ok => rfl
  | put t k ih => exact ih false w

private theorem run_breaking (room : Text → Text → Nat) (a : Writing) (w : Text) :
    (a.run (breaking room) (w, true)).1.1 <+: w ++ a.toText.1 ∧
    ((a.run (breaking room) (w, true)).1.2 = true →
      (a.run (breaking room) (w, true)).1.1 = w ++ a.toText.1 ∧
      (a.run (breaking room) (w, true)).2 = a.toText.2) := by
  induction a generalizing w with
  | done ok => simp [Writing.run, Writing.toText]
  | put t k ih =>
    have hb : breaking room (w, true) t = if t.length ≤ room w t then ((w ++ t, true), true)
      else ((w ++ t.take (room w t), false), false) := rfl
    rw [toText_put]
    simp only [Writing.run, hb]
    by_cases h : t.length ≤ room w t
    · rw [if_pos h]
      simpa using ih true (w ++ t)
    · rw [if_neg h]
      simp only [run_broken]
      refine ⟨?_, by simp⟩
      rw [List.prefix_append_right_inj]
      exact (List.take_prefix _ _).trans (List.prefix_append _ _)

/-- **C145** A writer that breaks has received a prefix of what a string would have received, and
all of it if it did not break. -/
theorem C145_broken_writer (p : FmtValue) (tr : FmtTrait) (sp : FmtSpec)
    (room : Text → Text → Nat) :
    ((p.fmt tr sp).run (breaking room) ([], true)).1.1 <+: (p.fmt tr sp).toText.1 ∧
    (((p.fmt tr sp).run (breaking room) ([], true)).1.2 = true →
      ((p.fmt tr sp).run (breaking room) ([], true)).1.1 = (p.fmt tr sp).toText.1) := by
  have := run_breaking room (p.fmt tr sp) []
  simp only [List.nil_append] at this
  exact ⟨this.1, fun h => (this.2 h).1⟩

private theorem Fails.also {a : Writing} (h : a.Fails) (ok : Bool) : (a.also ok).Fails := by
  induction a with
  | done r => have h' : r = false := h; subst h'; cases ok <;> rfl
  | put t k ih => exact fun r => ih r (h r)

private theorem also_false (a : Writing) : (a.also false).Fails := by
  induction a with
  | done r => rfl
  | put t k ih => exact fun r => ih r

private theorem Fails.both {a : Writing} (h : a.Fails) (b : Writing) : (a.both b).Fails := by
  induction a with
  | done r => have h' : r = false := h; subst h'; exact also_false b
  | put t k ih => exact fun r => ih r (h r)

private theorem Fails.andThen {a : Writing} (h : a.Fails) (b : Writing) : (a.andThen b).Fails := by
  induction a with
  | done r => have h' : r = false := h; subst h'; rfl
  | put t k ih => exact fun r => ih r (h r)

private theorem Honest.also {a : Writing} (h : a.Honest) (ok : Bool) : (a.also ok).Honest := by
  induction a with
  | done r => trivial
  | put t k ih => exact ⟨Fails.also h.1 ok, fun r => ih r (h.2 r)⟩

private theorem Honest.both {a b : Writing} (h : a.Honest) (h' : b.Honest) :
    (a.both b).Honest := by
  induction a with
  | done r => exact Honest.also h' r
  | put t k ih => exact ⟨Fails.both h.1 b, fun r => ih r (h.2 r)⟩

private theorem Honest.andThen {a b : Writing} (h : a.Honest) (h' : b.Honest) :
    (a.andThen b).Honest := by
  induction a with
  | done r => cases r <;> first | exact h' | trivial
  | put t k ih => exact ⟨Fails.andThen h.1 b, fun r => ih r (h.2 r)⟩

private theorem honest_str (t : Text) : (Writing.str t).Honest := ⟨rfl, fun _ => trivial⟩

private theorem honest_rest (bs : List UInt8) : (Config.writeRest bs).Honest := by
  induction bs with
  | nil => trivial
  | cons b bs ih => exact Honest.andThen (Honest.andThen (honest_str _) (honest_str _)) ih

private theorem honest_start (c : Config) : c.start.Honest := by
  unfold Config.start
  refine Honest.andThen (honest_str _) (Honest.andThen ?_ (honest_str _))
  cases c.bytes with
  | nil => exact honest_str _
  | cons b bs => exact Honest.andThen (honest_str _) (honest_rest bs)

private theorem honest_fmt (p : FmtValue) (h : p.Honest) (tr : FmtTrait) (sp : FmtSpec) :
    (p.fmt tr sp).Honest := by
  induction p generalizing tr sp with
  | leaf f => exact h tr sp
  | style p c ih => exact Honest.both (Honest.both (honest_start c) (ih h _ _)) (honest_str _)
  | debug p c ih =>
    cases tr with
    | display => exact Honest.andThen (Honest.andThen (honest_start c) (ih h _ _)) (honest_str _)
    | debug => exact ih h _ _
    | _ => trivial
  | and a b iha ihb => exact Honest.both (iha h.1 _ _) (ihb h.2 _ _)
  | then_ a b iha ihb => exact Honest.both (iha h.1 _ _) (ihb h.2 _ _)

private theorem run_fails {W : Type} (write : W → Text → W × Bool) (a : Writing) (h : a.Fails)
    (w : W) : (a.run write w).2 = false := by
  induction a generalizing w with
  | done r => exact h
  | put t k ih => exact ih _ (h _) _

private theorem run_honest (room : Text → Text → Nat) (a : Writing) (h : a.Honest) (w : Text)
    (hr : (a.run (breaking room) (w, true)).2 = true) :
    (a.run (breaking room) (w, true)).1.2 = true := by
  induction a generalizing w with
  | done ok => rfl
  | put t k ih =>
    have hb : breaking room (w, true) t = if t.length ≤ room w t then ((w ++ t, true), true)
      else ((w ++ t.take (room w t), false), false) := rfl
    simp only [Writing.run, hb] at hr ⊢
    by_cases hl : t.length ≤ room w t
    · rw [if_pos hl] at hr ⊢
      exact ih true (h.2 true) _ hr
    · rw [if_neg hl] at hr
      rw [run_fails _ _ h.1] at hr
      cases hr

/-- **C145** If the items hand on the errors of the writer, so does the value: success means that
everything has been received. -/
theorem C145_reported (p : FmtValue) (h : p.Honest) (tr : FmtTrait) (sp : FmtSpec)
    (room : Text → Text → Nat)
    (hr : ((p.fmt tr sp).run (breaking room) ([], true)).2 = true) :
    ((p.fmt tr sp).run (breaking room) ([], true)).1.1 = (p.fmt tr sp).toText.1 :=
  (C145_broken_writer p tr sp room).2 (run_honest room _ (honest_fmt p h tr sp) [] hr)

/-- Writers that take everything, and that break within the escape sequence. -/
example :
    ((FmtValue.style (.ofStr t!"ab") Config.default).fmt .display .plain).run
      (breaking fun _ t => t.length) ([], true) = ((t!"\x1b[0mab\x1b[0m", true), true) ∧
    ((FmtValue.style (.ofStr t!"ab") Config.default).fmt .display .plain).run
      (breaking fun w _ => 3 - w.length) ([], true) = ((t!"\x1b[0", false), false) := by decide

/-! ### C146 -/

/-- **C146** Styles, `And` and `Then` hand the trait and all options on to their items unchanged:
what is visible is what the items write with these options, so codes never count for the width. -/
theorem C146_options_partial (p : FmtValue) (hn : p.NoDebug) (tr : FmtTrait) (sp : FmtSpec)
    (he : '\x1b' ∉ (p.leaves.map fun f => (f tr sp).toText.1).flatten) :
    Term.visible (p.fmt tr sp).toText.1 = (p.leaves.map fun f => (f tr sp).toText.1).flatten := by
  have key : p.shown tr sp = (p.leaves.map fun f => (f tr sp).toText.1).flatten := by
    clear he
    induction p with
    | leaf f => simp [FmtValue.shown, FmtValue.leaves]
    | style p c ih => exact ih hn
    | debug p c ih => exact hn.elim
    | and a b iha ihb => simp [FmtValue.shown, FmtValue.leaves, iha hn.1, ihb hn.2]
    | then_ a b iha ihb => simp [FmtValue.shown, FmtValue.leaves, iha hn.1, ihb hn.2]
  have hg : p.Guarded tr sp := by
    clear he key
    induction p with
    | leaf f => trivial
    | style p c ih => exact ih hn
    | debug p c ih => exact hn.elim
    | and a b iha ihb => exact ⟨iha hn.1, ihb hn.2⟩
    | then_ a b iha ihb => exact ⟨iha hn.1, ihb hn.2⟩
  rw [← key] at he ⊢
  exact (C145_reset_partial p tr sp hg he).1

/-- **C146** (violated) A `Debug` wrapper shown with `{}` ignores all options, so `{:4}` of a
wrapped item that obeys widths is not padded. -/
theorem C146_options_wrong :
    (∀ p c sp, (FmtValue.debug p c).fmt .display sp = (FmtValue.debug p c).fmt .display
      { fill := ' ', align := none, plus := false, alternate := false, zero := false, width := none,
        precision := none }) ∧
    (∀ f c sp, ∃ a b : Writing, (FmtValue.debug (.leaf f) c).fmt .display sp = (a.andThen (f .debug
      { fill := ' ', align := none, plus := false, alternate := false, zero := false, width := none,
        precision := none })).andThen b) ∧
    ∃ (p : FmtValue) (sp : FmtSpec), p.NoDebug ∧ sp.width = some 4 ∧
      (p.fmt .debug sp).toText = (t!"ab  ", true) ∧
      ∀ c, Term.visible ((FmtValue.debug p c).fmt .display sp).toText.1 = t!"ab" := by
  refine ⟨fun _ _ _ => rfl, fun _ c _ => ⟨c.start, c.finish, rfl⟩, .leaf fun _ sp => .pad sp t!"ab",
    { FmtSpec.plain with width := some 4 }, trivial, rfl, by decide, fun c => ?_⟩
  have h := (C145_reset_partial (.debug (.leaf fun _ sp => .pad sp t!"ab") c) .display
    { FmtSpec.plain with width := some 4 } (show _ = true from rfl)
    (show '\x1b' ∉ t!"ab" by decide)).1
  exact h

/-- Text cut to a precision. -/
def FmtSpec.cut (sp : FmtSpec) (t : Text) : Text := t.take (sp.precision.getD t.length)

private theorem toText_fill (c : Char) (n : Nat) :
    (Writing.fillWith c n).toText = (List.replicate n c, true) := by
  induction n with
  | zero => rfl
  | succ n ih => simp [Writing.fillWith, toText_andThen, toText_str, ih, List.replicate_succ]

private theorem toText_ofStr (t : Text) (sp : FmtSpec) :
    ∃ i j, (((FmtValue.ofStr t).fmt .display sp).toText.1 =
        List.replicate i sp.fill ++ sp.cut t ++ List.replicate j sp.fill) ∧
      i + j = sp.width.getD 0 - (sp.cut t).length ∧
      (sp.align.getD .left = .left → i = 0) ∧ (sp.align.getD .left = .right → j = 0) ∧
      (sp.align.getD .left = .center → j = i ∨ j = i + 1) := by
  have hc : sp.truncated t = sp.cut t := by
    unfold FmtSpec.truncated FmtSpec.cut; cases sp.precision <;> simp
  simp only [FmtValue.ofStr, FmtValue.fmt, hc, Writing.pad, FmtSpec.before]
  cases hw : sp.width with
  | none => exact ⟨0, 0, by simp [toText_str], by simp, by simp, by simp, by simp⟩
  | some w =>
    simp only [Option.getD_some]
    by_cases hp : w - (sp.cut t).length = 0
    · rw [if_pos hp]
      exact ⟨0, 0, by simp [toText_str], by omega, by simp, by simp, by simp⟩
    · rw [if_neg hp]
      cases sp.align.getD .left <;>
        simp only [toText_andThen, toText_str, toText_fill, if_true] <;>
        exact ⟨_, _, rfl, by omega, by simp, by simp, by simp; try omega⟩

/-- Styles around styles around … an item. -/
def FmtValue.styledWith (p : FmtValue) (cs : List Config) : FmtValue := cs.foldr (fun c p => .style p c) p

/-- **C146** A string in any number of styles is cut to the precision and padded to the width as if
it had no styles: the fill is on the side the alignment says and its visible length is the width if
that is larger. -/
theorem C146_width_partial (t : Text) (cs : List Config) (sp : FmtSpec)
    (he : '\x1b' ∉ t) (hf : sp.fill ≠ '\x1b') :
    ∃ i j, Term.visible (((FmtValue.ofStr t).styledWith cs).fmt .display sp).toText.1 =
        List.replicate i sp.fill ++ sp.cut t ++ List.replicate j sp.fill ∧
      i + (sp.cut t).length + j = max (sp.width.getD 0) (sp.cut t).length ∧
      (sp.align.getD .left = .left → i = 0) ∧ (sp.align.getD .left = .right → j = 0) ∧
      (sp.align.getD .left = .center → j = i ∨ j = i + 1) := by
  obtain ⟨i, j, h, hl, h1, h2, h3⟩ := toText_ofStr t sp
  refine ⟨i, j, ?_, by omega, h1, h2, h3⟩
  have hn : ((FmtValue.ofStr t).styledWith cs).NoDebug := by
    induction cs with
    | nil => trivial
    | cons c cs ih => exact ih
  have hlv : ((FmtValue.ofStr t).styledWith cs).leaves = (FmtValue.ofStr t).leaves := by
    clear hn
    induction cs with
    | nil => rfl
    | cons c cs ih => exact ih
  have e : ((FmtValue.ofStr t).leaves.map fun f => (f .display sp).toText.1).flatten =
      List.replicate i sp.fill ++ sp.cut t ++ List.replicate j sp.fill := by
    rw [← h]; simp [FmtValue.ofStr, FmtValue.leaves, FmtValue.fmt]
  rw [C146_options_partial _ hn, hlv, e]
  rw [hlv, e]
  simp only [List.mem_append, List.mem_replicate, not_or, not_and]
  exact ⟨⟨fun _ h => hf h.symm, fun h => he (List.mem_of_mem_take h)⟩, fun _ h => hf h.symm⟩

/-- **C146** (violated) Two texts put together are not padded to the width together: each is padded
on its own, `{:4}` of `a` and `b` is `a   b   `. -/
theorem C146_width_wrong (a b : Text) (c : Config) (w : Nat) (ha : '\x1b' ∉ a) (hb : '\x1b' ∉ b) :
    Term.visible ((FmtValue.style (.and (.ofStr a) (.ofStr b)) c).fmt .display
        { FmtSpec.plain with width := some w }).toText.1 =
      a ++ List.replicate (w - a.length) ' ' ++ (b ++ List.replicate (w - b.length) ' ') := by
  have h1 : ∀ t : Text, ((FmtValue.ofStr t).fmt .display
      { FmtSpec.plain with width := some w }).toText.1 =
        t ++ List.replicate (w - t.length) ' ' := by
    intro t
    obtain ⟨i, j, h, hl, h1, -, -⟩ := toText_ofStr t { FmtSpec.plain with width := some w }
    have hi : i = 0 := h1 rfl
    subst hi
    have hc : ({ FmtSpec.plain with width := some w } : FmtSpec).cut t = t := by
      simp [FmtSpec.cut, FmtSpec.plain]
    rw [hc] at h hl
    have hj : j = w - t.length := by simpa using hl
    rw [h, hj]
    rfl
  have hlv : ((FmtValue.style (.and (.ofStr a) (.ofStr b)) c).leaves.map fun f =>
      (f .display { FmtSpec.plain with width := some w }).toText.1).flatten =
        a ++ List.replicate (w - a.length) ' ' ++ (b ++ List.replicate (w - b.length) ' ') := by
    have ea := h1 a
    have eb := h1 b
    simp only [FmtValue.ofStr, FmtValue.fmt] at ea eb
    simp only [FmtValue.ofStr, FmtValue.leaves, List.map_append, List.map_cons, List.map_nil,
      List.flatten_append, List.flatten_cons, List.flatten_nil, List.append_nil, ea, eb]
  have hn : (FmtValue.style (.and (.ofStr a) (.ofStr b)) c).NoDebug := ⟨trivial, trivial⟩
  rw [C146_options_partial _ hn, hlv]
  rw [hlv]
  simp only [List.mem_append, List.mem_replicate, not_or, not_and]
  exact ⟨⟨ha, fun _ => by decide⟩, hb, fun _ => by decide⟩

example : Term.visible ((FmtValue.style (.and (.ofStr t!"a") (.ofStr t!"b")) Config.default).fmt
    .display { FmtSpec.plain with width := some 4 }).toText.1 = t!"a   b   " := by decide

example : Term.visible (((FmtValue.ofStr t!"abc").styledWith
      [Config.default.setFgColor (.ansi .red), Config.default]).fmt .display
        ⟨'.', some .right, false, false, false, some 6, some 2⟩).toText.1 = t!"....ab" := by decide

end Pemdas
