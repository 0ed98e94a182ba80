import Verif.Spec.Retyped
import Verif.Spec.Drawn
import Verif.Spec.Session
import Verif.Lemmas.Drawn
import Verif.Lemmas.ReprintShape
import Verif.Lemmas.ReprintLex
/-
Helper lemmas: the drawing of the expression that is shown.
-/
namespace Pemdas
open Printer TLex

section
variable [CharTables]

theorem parts_nil {e : Expr} (h : e.isLam = false) (d : Nat) : (e.parts d).1 = [] := by
  cases e with
  | lam p b => cases h
  | var i => cases i <;> rfl
  | _ => rfl

omit [CharTables] in
theorem lambda_none {d : Nat} {x : List Drawing × Drawing} (h : x.1 = []) : lambda d x = x.2 := by
  simp [lambda, h]

omit [CharTables] in
theorem shown_closed {e : Expr} (h : e.closed = true) (deep body : Bool) : (e.shown deep body).closed = true := by
  revert h; cases e <;> simp [Expr.closed, Expr.shown]

mutual
theorem shown_parts : ∀ (e : Expr) (d : Nat) (body : Bool), e.Steady (decide (0 < d)) →
    lambda d ((e.shown (decide (0 < d)) body).parts d) = lambda d (e.parts d) ∧
    ((e.bare.isLam = true → e.isLam = true) → (e.shown (decide (0 < d)) body).parts d = e.parts d)
  | .lit _, d, _, _ => ⟨rfl, fun _ => rfl⟩
  | .var _, d, _, _ => ⟨rfl, fun _ => rfl⟩
  | .neg _, d, _, _ => ⟨rfl, fun _ => rfl⟩
  | .app f x, d, _, h => by
    have e : ((Expr.app f x).shown (decide (0 < d)) false).parts d = (Expr.app f x).parts d := by
      simp only [Expr.shown, Expr.parts, (shown_parts f d false h.1).1, (shown_parts x d false h.2).1]
    exact ⟨congrArg _ e, fun _ => e⟩
  | .bin l op r, d, _, h => by
    have key : ∀ x : Expr, lambda (d + 1) ((x.shown (decide (0 < d + 1)) false).parts (d + 1)) =
          lambda (d + 1) (x.parts (d + 1)) →
        boxedIf (!(if noParen x then x.shown true false else Expr.grp (x.shown true false)).closed) (d + 1)
          (lambda (d + 1) ((if noParen x then x.shown true false else Expr.grp (x.shown true false)).parts (d + 1))) =
        boxedIf (!x.closed) (d + 1) (lambda (d + 1) (x.parts (d + 1))) := by
      intro x hx
      have hd : decide (0 < d + 1) = true := by simp
      rw [hd] at hx
      rw [← closed_eq]
      cases hc : x.closed with
      | true => simp [shown_closed hc, boxedIf, hx]
      | false => simp only [Bool.false_eq_true, if_false, Expr.closed, boxedIf, Expr.parts, lambda_nil, hx, Bool.not_true, Bool.not_false, if_true]
    have e : ((Expr.bin l op r).shown (decide (0 < d)) false).parts d = (Expr.bin l op r).parts d := by
      simp only [Expr.shown, Expr.parts]
      rw [key l (shown_parts l (d + 1) false (by simpa using h.1)).1, key r (shown_parts r (d + 1) false (by simpa using h.2)).1]
    exact ⟨congrArg _ e, fun _ => e⟩
  | .lam p b, d, body, h => by
    have e : ((Expr.lam p b).shown (decide (0 < d)) body).parts d = (Expr.lam p b).parts d := by
      simp only [Expr.shown, h.1, Bool.false_and, if_neg (show ¬ (false = true) by simp)]
      have := (shown_parts b d true h.2.2).2 h.2.1
      rw [h.1] at this
      simp only [Expr.parts, this]
    exact ⟨congrArg _ e, fun _ => e⟩
  | .grp e, d, _, h => by
    have e : ((Expr.grp e).shown (decide (0 < d)) false).parts d = (Expr.grp e).parts d := by
      simp only [Expr.shown, Expr.parts, (shown_parts e d false h).1]
    exact ⟨congrArg _ e, fun _ => e⟩
  | .tup es, d, _, h => by
    have e : ((Expr.tup es).shown (decide (0 < d)) false).parts d = (Expr.tup es).parts d := by
      simp only [Expr.shown, Expr.parts, shown_drawnList es h]
    exact ⟨congrArg _ e, fun _ => e⟩
  | .list es, d, _, h => by
    have e : ((Expr.list es).shown (decide (0 < d)) false).parts d = (Expr.list es).parts d := by
      simp only [Expr.shown, Expr.parts, shown_drawnList es h]
    exact ⟨congrArg _ e, fun _ => e⟩
  | .let_ i b, d, _, h => by
    obtain ⟨h1, h2⟩ := shown_parts b d false h
    refine ⟨?_, fun hl => ?_⟩
    · simp only [Expr.shown, Expr.parts, h1]
      rw [lambda_nil]
    · have hb : b.bare.isLam = false := by
        cases hx : b.bare.isLam with
        | false => rfl
        | true => exact absurd (hl (by simpa [Expr.bare] using hx)) (by simp [Expr.isLam])
      have hbl : b.isLam = false := by
        cases b <;> first | rfl | exact hb
      simp only [Expr.shown, Expr.parts]
      rw [h2 (by rw [hb]; simp), lambda_none (parts_nil hbl d)]
      exact Prod.ext (parts_nil hbl d) rfl
theorem shown_drawnList : ∀ (es : List Expr), Expr.SteadyList es →
    Expr.drawnList (Expr.shownList es) = Expr.drawnList es
  | [], _ => rfl
  | e :: es, h => by
    have := (shown_parts e 0 false h.1).1
    rw [show decide (0 < 0) = false from rfl] at this
    simp only [Expr.shownList, Expr.drawnList, this, shown_drawnList es h.2]
end

/-- What is shown is drawn like the expression. -/
theorem shown_drawn {e : Expr} (h : e.Steady false) : (e.shown false false).drawn = e.drawn :=
  (shown_parts e 0 false h).1

/-! ### as a line -/

/-- The text begins and ends so that it is an input by itself. -/
def Upright (t : Text) : Prop :=
  (∃ c r, t = c :: r ∧ isWhitespace c = false ∧ c ≠ ':' ∧ c ≠ '{') ∧
    ∃ r c, t = r ++ [c] ∧ isWhitespace c = false ∧ c ≠ '\\'

omit [CharTables] in
theorem Upright.around {a b c : Text} (ha : Upright a) (hc : Upright c) : Upright (a ++ b ++ c) := by
  obtain ⟨⟨x, r, rfl, h⟩, -⟩ := ha
  obtain ⟨-, r', y, rfl, h'⟩ := hc
  exact ⟨⟨x, r ++ b ++ (r' ++ [y]), by simp, h⟩, x :: r ++ b ++ r', y, by simp, h'⟩

omit [CharTables] in
theorem Upright.of {t : Text} {x y : Char} {m : Text} (h : t = x :: (m ++ [y])) (h1 : isWhitespace x = false)
    (h2 : x ≠ ':') (h3 : x ≠ '{') (h4 : isWhitespace y = false) (h5 : y ≠ '\\') : Upright t :=
  ⟨⟨x, _, h, h1, h2, h3⟩, x :: m, y, by simp [h], h4, h5⟩

omit [CharTables] in
theorem Upright.ends {t : Text} (h : Upright t) : Ends (t!"  " ++ t) t := by
  obtain ⟨⟨c, r, h1, h2, h3, h4⟩, r', c', h5, h6, h7⟩ := h
  refine .plain ⟨t!"  ", [], by simp, by simp [Blank, isWhitespace], by simp [Blank], ⟨c, r, h1, h2⟩, ⟨r', c', h5, h6⟩⟩ ?_ ?_ ?_
  · rintro ⟨z, hz⟩
    rw [h1] at hz
    exact h3 (List.cons.inj hz).1.symm
  · rintro ⟨z, hz⟩
    rw [h1] at hz
    exact h4 (List.cons.inj hz).1.symm
  · rintro ⟨z, hz⟩
    rw [h5] at hz
    have := (List.append_inj' hz rfl).2
    exact h7 (by simpa using this.symm)

variable [LawfulTables]

theorem name_char {c : Char} (h : isIdentChar c = true ∨ isTrailing c = true) :
    isWhitespace c = false ∧ c ≠ ':' ∧ c ≠ '{' ∧ c ≠ '\\' := by
  rcases h with h | h
  · refine ⟨shape_not_ws (y := []) ⟨[c], [], rfl, by simp [h], rfl⟩, ?_, ?_, ?_⟩ <;>
    · rintro rfl
      rw [ascii_identChar (by decide)] at h
      revert h; decide
  · have hm : c ∈ subscriptChars ++ superscriptChars := by
      simpa [isTrailing, isSubscript, isSuperscript] using h
    clear h
    revert c; decide

omit [CharTables] [LawfulTables] in
theorem upright_of_all {t : Text} (hn : t ≠ [])
    (h : ∀ c ∈ t, isWhitespace c = false ∧ c ≠ ':' ∧ c ≠ '{' ∧ c ≠ '\\') : Upright t := by
  constructor
  · cases t with
    | nil => exact absurd rfl hn
    | cons c r => exact ⟨c, r, rfl, (h c (by simp)).1, (h c (by simp)).2.1, (h c (by simp)).2.2.1⟩
  · have hm := List.getLast_mem hn
    exact ⟨_, _, (List.dropLast_concat_getLast hn).symm, (h _ hm).1, (h _ hm).2.2.2⟩

theorem LowerName.upright {s : Text} (h : LowerName s) : Upright s := by
  obtain ⟨c, y, rfl, hc, ⟨b, t, rfl, hb, ht⟩, -⟩ := h
  refine upright_of_all (by simp) fun x hx => name_char ?_
  simp only [List.mem_cons, List.mem_append] at hx
  rcases hx with rfl | hx | hx
  · exact .inl (lower_identChar hc)
  · exact .inl (List.all_eq_true.1 hb _ hx)
  · exact .inr (List.all_eq_true.1 ht _ hx)

omit [LawfulTables] in
theorem Literal.Rereads.upright {l : Literal} (h : l.Rereads) : Upright l.text := by
  cases l with
  | int n =>
    obtain ⟨h1, h2, -⟩ := decText_digits n
    refine upright_of_all h2 fun c hc => ?_
    have := List.all_eq_true.1 h1 c hc
    refine ⟨?_, ?_, ?_, ?_⟩
    · cases hw : isWhitespace c with
      | false => rfl
      | true =>
        exfalso
        simp only [isDigit10, toNat_le_iff, Bool.and_eq_true, decide_eq_true_eq, Char.reduceToNat] at this
        simp only [isWhitespace, Bool.or_eq_true, Bool.and_eq_true, decide_eq_true_eq, beq_iff_eq] at hw
        omega
    all_goals
      rintro rfl
      revert this; decide
  | char c => exact .of (m := escapeDebug true false c) (x := '\'') (y := '\'') rfl (by decide) (by decide) (by decide) (by decide) (by decide)
  | str s => exact .of (m := s.flatMap (escapeDebug false true)) (x := '"') (y := '"') rfl (by decide) (by decide) (by decide) (by decide) (by decide)
  | frac f => exact h.elim

omit [CharTables] [LawfulTables] in
/-- In brackets. -/
theorem upright_parens (t : Text) : Upright ('(' :: (t ++ [')'])) :=
  .of rfl (by decide) (by decide) (by decide) (by decide) (by decide)

omit [CharTables] [LawfulTables] in
theorem upright_brackets (t : Text) : Upright ('[' :: (t ++ [']'])) :=
  .of rfl (by decide) (by decide) (by decide) (by decide) (by decide)

omit [CharTables] [LawfulTables] in
theorem lambda_upright {d : Nat} {x : List Drawing × Drawing} (h : Upright (x.2.map (·.1))) :
    Upright ((lambda d x).map (·.1)) := by
  unfold lambda
  split
  · exact h
  · split
    · obtain ⟨-, r, c, hc, h1, h2⟩ := h
      refine .of (x := '\\') (y := c) (m := (joined t!" " x.1 ++ ink t!" -> ").map (·.1) ++ r) ?_ (by decide)
        (by decide) (by decide) h1 h2
      simp [ink, hc]
    · refine .of (x := '(') (y := ')') (m := ('\\' :: (joined t!" " x.1 ++ ink t!" -> " ++ x.2).map (·.1))) ?_ (by decide)
        (by decide) (by decide) (by decide) (by decide)
      simp [ink]

omit [CharTables] [LawfulTables] in
theorem boxed_upright (d : Nat) (x : Drawing) : Upright ((boxed d x).map (·.1)) := by
  simpa [boxed] using upright_parens (x.map (·.1))

omit [CharTables] [LawfulTables] in
theorem boxedIf_upright {b : Bool} {d : Nat} {x : Drawing} (h : Upright (x.map (·.1))) :
    Upright ((boxedIf b d x).map (·.1)) := by
  unfold boxedIf
  split
  · exact boxed_upright d x
  · exact h

omit [CharTables] [LawfulTables] in
theorem ink_chars (t : Text) : (ink t).map (·.1) = t := by
  simp [ink, Function.comp_def]

theorem parts_upright : ∀ (e : Expr) (d : Nat), e.Rereads → Upright ((e.parts d).2.map (·.1))
  | .lit l, d, h => by
    simp only [Expr.parts, ink_chars]
    exact Literal.Rereads.upright h
  | .var (.infix_ s), d, h => by
    simp only [Expr.parts, ink_chars]
    exact upright_parens s
  | .var (.lower s), d, h => by
    simp only [Expr.parts, ink_chars]
    exact LowerName.upright h.1
  | .var (.commas k), d, h => by
    simp only [Expr.parts, ink_chars]
    exact upright_parens (List.replicate k ',')
  | .var (.upper s), d, h => h.elim
  | .var .nil, d, h => h.elim
  | .neg _, d, h => h.elim
  | .app f x, d, h => by
    have h1 := lambda_upright (d := d) (parts_upright f d h.2.2.2.1)
    have h2 := lambda_upright (d := d) (parts_upright x d h.2.2.2.2)
    simpa only [Expr.parts, List.map_append] using h1.around h2
  | .bin l op r, d, h => by
    have h1 := boxedIf_upright (b := !l.closed) (d := d + 1) (lambda_upright (d := d + 1) (parts_upright l (d + 1) h.2.1))
    have h2 := boxedIf_upright (b := !r.closed) (d := d + 1) (lambda_upright (d := d + 1) (parts_upright r (d + 1) h.2.2))
    simpa only [Expr.parts, List.map_append] using h1.around h2
  | .lam p b, d, h => by
    simpa only [Expr.parts] using parts_upright b d h.2
  | .grp e, d, h => boxed_upright _ _
  | .tup es, d, h => by
    simpa [Expr.parts, ink] using upright_parens ((joined t!", " (Expr.drawnList es)).map (·.1))
  | .list es, d, h => by
    simpa [Expr.parts, ink] using upright_brackets ((joined t!", " (Expr.drawnList es)).map (·.1))
  | .let_ i b, d, h => by
    simpa only [Expr.parts] using lambda_upright (d := d) (parts_upright b d h)

theorem Expr.Rereads.upright {e : Expr} (h : e.Rereads) : Upright (e.drawn.map (·.1)) :=
  lambda_upright (parts_upright e 0 h)

end
end Pemdas
