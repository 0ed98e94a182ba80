import Verif.Lemmas.StringSpan
import Verif.Props.LexerTokens
/-
C72 for string literals.
-/
namespace Pemdas
namespace Lexer

section
variable [CharTables] [LawfulTables]

/-- C72 for string literals, in sources without "\n\r": if no backslash in the literal escapes a line
end, its span covers it from quote to quote; otherwise the span starts after the last line end that
is escaped and the whitespace that follows. -/
theorem C72_string_span_partial {src : Text} (hc : NoLFCR src) {l l' : Lexer} (hl : Point src l)
    {s : Text} {sp : LocSpan} (h : l.next = .ok (some (.lit (.str s), sp), l')) :
    ∃ pre w, l.chars = pre ++ '"' :: (w ++ '"' :: l'.chars) ∧ StrBody w s ∧
      ((NoLineEscape w ∧ byteSlice src sp.lo.pos sp.hi.pos = some ('"' :: (w ++ t!"\""))) ∨
       ∃ w1 g w2, w = w1 ++ '\\' :: '\n' :: (g ++ w2) ∧ (∃ s1, StrBody w1 s1) ∧
         g.all isWhitespace = true ∧ (∀ c ∈ w2.head?, isWhitespace c = false) ∧ NoLineEscape w2 ∧
         byteSlice src sp.lo.pos sp.hi.pos = some (w2 ++ t!"\"")) := by
  obtain ⟨hlex, hne, rfl⟩ := next_some h
  obtain ⟨m, hr, hm, h1⟩ := lexN_land hlex (Nat.lt_succ_self _)
  rcases h1 with ⟨_, h2, _⟩ | ⟨c, cs, hch, hws, hd⟩
  · cases h2
  have hsync : m.Sync := (hl.sync hc).reach hr
  have hsrc : m.src = src := by rw [hr.src, hl.inv.1]
  obtain ⟨pre, hpre⟩ := hr.suffix
  obtain ⟨rfl, hx⟩ : c = '"' ∧ m.string = (.lit (.str s), l') :=
    dispatch_str hd rfl
  have hcs : m.advance.chars = cs := by rw [hsync.advance_chars, hch]; rfl
  unfold string at hx
  simp only at hx
  split at hx
  · rename_i buf l₁ hloop
    injection hx with hx1 hx2
    subst hx2
    injection hx1 with hx1
    injection hx1 with hx1
    subst hx1
    obtain ⟨w, v, e1, e2, e3, e4, e5⟩ := stringLoop_span hsync.advance hloop
    simp only [List.nil_append] at e2
    subst e2
    refine ⟨pre, w, ?_, e3, ?_⟩
    · rw [← hpre, hch, ← hcs, e1]
    · have hr2 : Reach true m l₁ := (Reach.one m).trans e4
      rcases e5 with ⟨f1, f2⟩ | ⟨w1, g, w2, k, g1, g2, g3, g4, g5, g6, g7, g8, g9, g10⟩
      · refine .inl ⟨f1, ?_⟩
        have := hsync.slice hr2 (used := '"' :: (w ++ t!"\"")) (by rw [hch, ← hcs, e1]; simp) m rfl
        rw [slice_ok_iff, hsrc] at this
        simp only [f2, advance_prevLoc, hm]
        exact this
      · refine .inr ⟨w1, g, w2, g5, g6, g7, g8, g9, ?_⟩
        have := g2.slice g1 (used := w2 ++ t!"\"") (by rw [g4]; simp) k rfl
        rw [slice_ok_iff, g3, (Reach.one (b := true) m).src, hsrc] at this
        simp only [g10]
        exact this
  · cases hx

/-- C72 when there is no backslash in the literal: the span covers it from quote to quote. -/
theorem C72_plain_string_span_partial {src : Text} (hc : NoLFCR src) {l l' : Lexer} (hl : Point src l)
    {s : Text} {sp : LocSpan} (h : l.next = .ok (some (.lit (.str s), sp), l')) (hs : '\\' ∉ l.chars) :
    ∃ pre, l.chars = pre ++ '"' :: (s ++ '"' :: l'.chars) ∧
      byteSlice src sp.lo.pos sp.hi.pos = some ('"' :: (s ++ t!"\"")) := by
  obtain ⟨pre, w, h1, h2, h3⟩ := C72_string_span_partial hc hl h
  have hw : '\\' ∉ w := fun hm => hs (by rw [h1]; simp [hm])
  have hsw : w = s := by
    clear h h1 h3
    induction h2 with
    | nil => rfl
    | char _ _ _ ih => rw [ih (fun hm => hw (List.mem_cons_of_mem _ hm))]
    | escape => exact absurd (by simp) hw
    | hidden => exact absurd (by simp) hw
    | other => exact absurd (by simp) hw
  subst hsw
  refine ⟨pre, h1, ?_⟩
  rcases h3 with ⟨_, h3⟩ | ⟨w1, g, w2, h3, -⟩
  · exact h3
  · exact absurd (by rw [h3]; simp) hw

/-- Both cases of `C72_string_span_partial` happen. -/
example : (∃ sp l', @next asciiTables (new t!" \"a\\nb\" c") = .ok (some (.lit (.str t!"a\nb"), sp), l') ∧
      NoLineEscape t!"a\\nb" ∧ byteSlice t!" \"a\\nb\" c" sp.lo.pos sp.hi.pos = some t!"\"a\\nb\"") ∧
    ∃ sp l', @next asciiTables (new t!"\"ab\\\n  cd\"") = .ok (some (.lit (.str t!"abcd"), sp), l') ∧
      byteSlice t!"\"ab\\\n  cd\"" sp.lo.pos sp.hi.pos = some t!"cd\"" := by
  refine ⟨⟨⟨⟨1, 2, 1⟩, ⟨1, 8, 7⟩⟩, _, rfl, ?_, by decide⟩, ⟨⟨2, 3, 7⟩, ⟨2, 6, 10⟩⟩, _, rfl, by decide⟩
  intro a b h
  have : '\n' ∈ t!"a\\nb" := by rw [h]; simp
  exact absurd this (by decide)

end
end Lexer
end Pemdas
