import Verif.Lemmas.Harmless
import Verif.Props.Desk
/-
Helper lemmas: what is written for expressions, tokens and errors is harmless if names are.
-/
namespace Pemdas

/-! ### drawings -/

section
variable [CharTables] [LawfulTables]

/-- What is sent for the drawing is harmless. -/
def Drawing.Harmless (x : Drawing) : Prop := Pemdas.Harmless x.sent

omit [CharTables] [LawfulTables]

theorem Drawing.Harmless.append {x y : Drawing} (hx : x.Harmless) (hy : y.Harmless) :
    Drawing.Harmless (x ++ y) := by
  unfold Drawing.Harmless
  rw [sent_append]
  exact Pemdas.Harmless.append hx hy

theorem harmless_ink {t : Text} (h : Inert t) : Drawing.Harmless (ink t) := by
  unfold Drawing.Harmless
  rw [sent_ink]
  exact h.harmless

theorem harmless_par (c : Char) (hc : c ≠ '\x1b') (d : Nat) : Drawing.Harmless [(c, some d)] := by
  unfold Drawing.Harmless
  simp only [Drawing.sent, List.flatMap_cons, List.flatMap_nil, List.append_nil]
  refine .painted ?_ (Inert.of_noEsc (by simpa [eq_comm] using hc)).whole
  exact .append (.append (.append (.append (.append (by decide) (codes_decText _)) (by decide))
    (codes_decText _)) (by decide)) (codes_decText _)

theorem harmless_boxed (d : Nat) {x : Drawing} (h : x.Harmless) : (boxed d x).Harmless :=
  .append (.append (harmless_par '(' (by decide) d) h) (harmless_par ')' (by decide) d)

theorem harmless_boxedIf (b : Bool) (d : Nat) {x : Drawing} (h : x.Harmless) :
    (boxedIf b d x).Harmless := by
  unfold boxedIf
  split
  · exact harmless_boxed d h
  · exact h

theorem harmless_joined {sep : Text} (hs : Inert sep) {xs : List Drawing} (h : ∀ x ∈ xs, x.Harmless) :
    (joined sep xs).Harmless := by
  unfold joined
  induction xs with
  | nil => exact Inert.nil.harmless
  | cons x xs ih =>
    cases xs with
    | nil => simpa [List.intercalate] using h x List.mem_cons_self
    | cons y ys =>
      have := ih fun z hz => h z (List.mem_cons_of_mem _ hz)
      have e : List.intercalate (ink sep) (x :: y :: ys) =
          x ++ (ink sep ++ List.intercalate (ink sep) (y :: ys)) := by
        simp [List.intercalate, List.intersperse]
      rw [e]
      exact (h x List.mem_cons_self).append ((harmless_ink hs).append this)

theorem harmless_lit (t : Text) (h : '\x1b' ∉ t) : Drawing.Harmless (ink t) := harmless_ink (.of_noEsc h)

variable [CharTables] [LawfulTables]

set_option linter.unusedSectionVars false in
mutual
theorem pat_harmless : ∀ (p : Pat) (d : Nat), (∀ n ∈ p.names, Inert n) → (p.drawn d).Harmless
  | .wild, d, _ => harmless_lit _ (by decide)
  | .lit l, d, _ => harmless_lit _ (literal_noEsc l)
  | .var s, d, h => harmless_ink (h s (by simp [Pat.names]))
  | .neg p, d, h => by
    simp only [Pat.drawn]
    exact .append (.append (harmless_lit _ (by decide))
      (harmless_boxedIf _ _ (pat_harmless p d (by simpa [Pat.names] using h)))) (harmless_lit _ (by decide))
  | .con c args, d, h => by
    have hc : Inert c := h c (by simp [Pat.names])
    have ha := pats_harmless args d fun n hn => h n (by simp [Pat.names, hn])
    simp only [Pat.drawn]
    split
    · exact harmless_ink hc
    · refine .append (.append (harmless_lit _ (by decide)) (harmless_joined (.of_noEsc (by decide)) ?_))
        (harmless_lit _ (by decide))
      intro x hx
      rcases List.mem_cons.1 hx with rfl | hx
      · exact harmless_ink hc
      · exact ha x hx
  | .tup ps, d, h => by
    simp only [Pat.drawn]
    exact .append (.append (harmless_lit _ (by decide)) (harmless_joined (.of_noEsc (by decide))
      (pats_harmless ps d fun n hn => h n (by simpa [Pat.names] using hn)))) (harmless_lit _ (by decide))
  | .arr ps, d, h => by
    simp only [Pat.drawn]
    exact .append (.append (harmless_lit _ (by decide)) (harmless_joined (.of_noEsc (by decide))
      (pats_harmless ps d fun n hn => h n (by simpa [Pat.names] using hn)))) (harmless_lit _ (by decide))
  | .lnk l r, d, h => by
    simp only [Pat.drawn]
    exact harmless_boxed _ (.append (.append
      (harmless_boxedIf _ _ (pat_harmless l _ fun n hn => h n (by simp [Pat.names, hn])))
      (harmless_lit _ (by decide)))
      (harmless_boxedIf _ _ (pat_harmless r _ fun n hn => h n (by simp [Pat.names, hn]))))
  | .as_ s p, d, h => by
    simp only [Pat.drawn]
    exact .append (harmless_ink ((h s (by simp [Pat.names])).append (.of_noEsc (by decide))))
      (pat_harmless p d fun n hn => h n (by simp [Pat.names, hn]))
theorem pats_harmless : ∀ (ps : List Pat) (d : Nat), (∀ n ∈ Pat.namesList ps, Inert n) →
    ∀ x ∈ Pat.drawnList d ps, x.Harmless
  | [], d, _, x, hx => by cases hx
  | p :: ps, d, h, x, hx => by
    simp only [Pat.drawnList, List.mem_cons] at hx
    rcases hx with rfl | hx
    · exact pat_harmless p d fun n hn => h n (by simp [Pat.namesList, hn])
    · exact pats_harmless ps d (fun n hn => h n (by simp [Pat.namesList, hn])) x hx
end

omit [CharTables] [LawfulTables] in
theorem harmless_lambda (d : Nat) {x : List Drawing × Drawing} (h1 : ∀ y ∈ x.1, y.Harmless)
    (h2 : x.2.Harmless) : (lambda d x).Harmless := by
  unfold lambda
  split
  · exact h2
  · refine .append (.append (.append (.append (harmless_lit _ ?_) (harmless_joined (.of_noEsc (by decide)) h1))
      (harmless_lit _ (by decide))) h2) (harmless_lit _ ?_)
    · split <;> decide
    · split <;> decide

set_option linter.unusedSectionVars false in
mutual
theorem parts_harmless : ∀ (e : Expr) (d : Nat), (∀ n ∈ e.names, Inert n) →
    (∀ y ∈ (e.parts d).1, y.Harmless) ∧ (e.parts d).2.Harmless
  | .lam p b, d, h => by
    have hp := pat_harmless p 0 fun n hn => h n (by simp [Expr.names, hn])
    have hb := parts_harmless b d fun n hn => h n (by simp [Expr.names, hn])
    simp only [Expr.parts]
    refine ⟨fun y hy => ?_, hb.2⟩
    rcases List.mem_cons.1 hy with rfl | hy
    · exact hp
    · exact hb.1 y hy
  | .lit l, d, _ => ⟨fun y hy => (by cases hy), harmless_lit _ (literal_noEsc l)⟩
  | .var i, d, h => by
    cases i with
    | infix_ s =>
      exact ⟨fun y hy => (by cases hy), harmless_ink (.append (.append (.of_noEsc (by decide))
        (h s (by simp [Expr.names, Ident.names]))) (.of_noEsc (by decide)))⟩
    | upper s => exact ⟨fun y hy => (by cases hy), harmless_ink (h s (by simp [Expr.names, Ident.names]))⟩
    | lower s => exact ⟨fun y hy => (by cases hy), harmless_ink (h s (by simp [Expr.names, Ident.names]))⟩
    | nil => exact ⟨fun y hy => (by cases hy), harmless_lit _ (by decide)⟩
    | commas k =>
      refine ⟨fun y hy => (by cases hy), harmless_lit _ ?_⟩
      simp [Ident.text, List.mem_replicate]
  | .app f x, d, h => by
    have hf := parts_harmless f d fun n hn => h n (by simp [Expr.names, hn])
    have hx := parts_harmless x d fun n hn => h n (by simp [Expr.names, hn])
    simp only [Expr.parts]
    exact ⟨fun y hy => (by cases hy), .append (.append (harmless_lambda d hf.1 hf.2)
      (harmless_lit _ (by decide))) (harmless_lambda d hx.1 hx.2)⟩
  | .bin l op r, d, h => by
    have hl := parts_harmless l (d + 1) fun n hn => h n (by simp [Expr.names, hn])
    have hr := parts_harmless r (d + 1) fun n hn => h n (by simp [Expr.names, hn])
    have ho : Inert op.text := Infix.inert (h _ (by simp [Expr.names]))
    simp only [Expr.parts]
    exact ⟨fun y hy => (by cases hy), .append (.append
      (harmless_boxedIf _ _ (harmless_lambda _ hl.1 hl.2))
      (harmless_ink (.append (.append (.of_noEsc (by decide)) ho) (.of_noEsc (by decide)))))
      (harmless_boxedIf _ _ (harmless_lambda _ hr.1 hr.2))⟩
  | .grp e, d, h => by
    have he := parts_harmless e d (by simpa [Expr.names] using h)
    simp only [Expr.parts]
    exact ⟨fun y hy => (by cases hy), harmless_boxed _ (harmless_lambda _ he.1 he.2)⟩
  | .tup es, d, h => by
    have he := exprs_harmless es (by simpa [Expr.names] using h)
    simp only [Expr.parts]
    exact ⟨fun y hy => (by cases hy), .append (.append (harmless_lit _ (by decide))
      (harmless_joined (.of_noEsc (by decide)) he)) (harmless_lit _ (by decide))⟩
  | .list es, d, h => by
    have he := exprs_harmless es (by simpa [Expr.names] using h)
    simp only [Expr.parts]
    exact ⟨fun y hy => (by cases hy), .append (.append (harmless_lit _ (by decide))
      (harmless_joined (.of_noEsc (by decide)) he)) (harmless_lit _ (by decide))⟩
  | .let_ _ b, d, h => by
    have he := parts_harmless b d (by simpa [Expr.names] using h)
    simp only [Expr.parts]
    exact ⟨fun y hy => (by cases hy), harmless_lambda _ he.1 he.2⟩
  | .neg _, d, _ => ⟨fun y hy => (by cases hy), Inert.nil.harmless⟩
theorem exprs_harmless : ∀ (es : List Expr), (∀ n ∈ Expr.namesList es, Inert n) →
    ∀ x ∈ Expr.drawnList es, x.Harmless
  | [], _, x, hx => by cases hx
  | e :: es, h, x, hx => by
    simp only [Expr.drawnList, List.mem_cons] at hx
    rcases hx with rfl | hx
    · have he := parts_harmless e 0 fun n hn => h n (by simp [Expr.namesList, hn])
      exact harmless_lambda _ he.1 he.2
    · exact exprs_harmless es (fun n hn => h n (by simp [Expr.namesList, hn])) x hx
end

theorem drawn_harmless {e : Expr} (h : ∀ n ∈ e.names, Inert n) : Harmless e.drawn.sent :=
  harmless_lambda 0 (parts_harmless e 0 h).1 (parts_harmless e 0 h).2

end

/-! ### tokens and errors -/

/-- The text from the source that is shown of a token. -/
def Token.raw : Token → Text
  | .upper s | .lower s | .affix s _ => s
  | .error (.invalidPromotedInfix _ s) => s
  | .error (.invalidUnicode _ (.tooLong s)) => s
  | .error (.invalidUnicode _ (.notInCharRange s _)) => s
  | _ => []

theorem inert_loc (l : Loc) : Inert l.text := by
  unfold Loc.text
  exact .append (.append (.append (.append (.append (.of_noEsc (by decide)) (inert_dec _))
    (.of_noEsc (by decide))) (inert_dec _)) (.of_noEsc (by decide))) (inert_dec _)

theorem inert_shown (l : Loc) : Inert l.shown.toList := by
  rw [shown_eq]
  exact inert_loc l

theorem AssocError.inert [CharTables] {e : AssocError} (h1 : Inert e.prev.1.symbol) (h2 : Inert e.curr.1.symbol) :
    Inert e.wording.toList := by
  rw [← C130_ambiguous]
  unfold AssocError.text
  have h : ∀ a : Assoc, Inert a.adjective := fun a => .of_noEsc (by cases a <;> decide)
  exact .append (.append (.append (.append (.append (.append (.append (.append (.of_noEsc (by decide)) (h _))
    (.of_noEsc (by decide))) (Infix.inert h1)) (.of_noEsc (by decide))) (h _)) (.of_noEsc (by decide)))
    (Infix.inert h2)) (.of_noEsc (by decide))

section
variable [CharTables] [LawfulTables]

theorem Token.text_inert {t : Token} {s : Text} (h : t.text = .ok s) (hr : Inert t.raw) : Inert s := by
  cases t with
  | error e =>
    cases e with
    | emptyChar => cases h
    | invalidEscape c => 
      cases h
      exact .append (a := t!"the sequence `\\") (.of_noEsc (by decide))
        (.any_cons c (by decide) (by decide) (.of_noEsc (by decide)))
    | invalidInt loc k =>
      cases h
      refine .append (.append (.append (.of_noEsc ?_) (.of_noEsc (by decide))) (inert_loc _)) (.of_noEsc ?_)
      · cases k <;> decide
      · cases k <;> decide
    | invalidPromotedInfix loc n =>
      cases h
      exact .append (.append (.append (.of_noEsc (by decide)) hr) (.of_noEsc (by decide))) (inert_loc _)
    | unterminatedChar => cases h; exact .append (.of_noEsc (by decide)) (inert_loc _)
    | unterminatedString => cases h; exact .append (.of_noEsc (by decide)) (inert_loc _)
    | unterminatedComment =>
      cases h
      exact .append (.append (.append (.append (.of_noEsc (by decide)) (inert_dec _)) (.of_noEsc (by decide)))
        (inert_dec _)) (.of_noEsc (by decide))
    | invalidUnicode loc k =>
      cases k with
      | empty => cases h; exact .append (.of_noEsc (by decide)) (inert_loc _)
      | badConnector c =>
        cases h
        exact .append (a := t!"invalid character `") (.of_noEsc (by decide))
          (.any_cons c (by decide) (by decide) (.of_noEsc (by decide)))
      | tooLong n => cases h; exact .append (.append (.of_noEsc (by decide)) hr) (.of_noEsc (by decide))
      | notInCharRange n k =>
        cases h
        exact .append (.append (.append (.append (.of_noEsc (by decide)) hr) (.of_noEsc (by decide)))
          (inert_dec _)) (.of_noEsc (by decide))
    | unknown => cases h; exact .of_noEsc (by decide)
  | upper n | lower n => cases h; exact hr
  | affix n b =>
    cases h
    split
    · exact .cons (by decide) hr
    · exact hr
  | lit l => cases h; exact .of_noEsc (literal_noEsc l)
  | _ => cases h; exact .of_noEsc (by decide)

end
end Pemdas
