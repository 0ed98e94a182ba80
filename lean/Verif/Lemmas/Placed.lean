import Verif.Spec.Placed
import Verif.Props.LexGrammar
/-
Helper lemmas: the columns of the lexical grammar are those of the lexer, and how texts and
programs are joined.
-/
namespace Pemdas
open Lexer

theorem locOf_col (pre : Text) : (locOf pre).col = colAfter pre := rfl

section
variable [CharTables]

theorem Placed.tokenizes {pre s : Text} {cs : List CTok} (h : Placed pre s cs) :
    Tokenizes s (cs.map (·.1)) := by
  induction h with
  | nil => exact .nil
  | space hc _ ih => exact .space hc ih
  | line h1 h2 h3 _ ih => exact .line h1 h2 h3 ih
  | block h1 h2 _ ih => exact .block h1 h2 ih
  | token ht _ ih => exact .token ht ih

theorem Tokenizes.placed {s : Text} {ts : List Token} (h : Tokenizes s ts) :
    ∀ pre, ∃ cs, cs.map (·.1) = ts ∧ Placed pre s cs := by
  induction h with
  | nil => exact fun pre => ⟨[], rfl, .nil⟩
  | space hc _ ih => intro pre; obtain ⟨cs, h1, h2⟩ := ih (pre ++ _); exact ⟨cs, h1, .space hc h2⟩
  | line h1 h2 h3 _ ih =>
    intro pre; obtain ⟨cs, h4, h5⟩ := ih (pre ++ _); exact ⟨cs, h4, .line h1 h2 h3 h5⟩
  | block h1 h2 _ ih =>
    intro pre; obtain ⟨cs, h4, h5⟩ := ih (pre ++ _); exact ⟨cs, h4, .block h1 h2 h5⟩
  | token ht _ ih =>
    intro pre
    obtain ⟨cs, h4, h5⟩ := ih (pre ++ _)
    exact ⟨_ :: cs, by rw [List.map_cons, h4], .token ht h5⟩

/-- The tokens of the rest `s` of a text `src`, with columns. -/
inductive TLex.HasC (src : Text) : Text → List CTok → Prop
  | nil {s r} : TLex.lex s = .ok (.eof, r) → HasC src s []
  | cons {s t r cs pre} : TLex.lex s = .ok (t, r) → (t ≠ .eof ∧ ∀ e, t ≠ .error e) → src = pre ++ r →
      HasC src r cs → HasC src s ((t, colAfter pre) :: cs)

theorem TLex.HasC.congr {src s s' : Text} {cs : List CTok} (he : TLex.lex s = TLex.lex s')
    (h : HasC src s' cs) : HasC src s cs := by
  cases h with
  | nil h => exact .nil (he.trans h)
  | cons h hne hp ht => exact .cons (he.trans h) hne hp ht

theorem lexes_of_hasC {src : Text} {s : Text} {cs : List CTok} (h : TLex.HasC src s cs) :
    ∀ l : Lexer, l.Sync → l.src = src → l.chars = s →
      ∃ xs, items (cs.length + 1) l = .ok xs ∧ xs.length = cs.length ∧
        cs = xs.map fun x => (x.1, x.2.hi.col) := by
  induction h with
  | nil h =>
    intro l hl _ hc
    obtain ⟨l', h1, _⟩ := hl.next_none (hc ▸ h)
    exact ⟨[], by simp [items, h1], rfl, rfl⟩
  | @cons s t r cs pre h hne hp _ ih =>
    intro l hl hs hc
    obtain ⟨t', sp, l', h1, h2, h3⟩ := hl.next (hc ▸ h) hne.1
    have ht : t' = t := by
      cases t' with
      | error e => exact absurd h2.symm (hne.2 _)
      | _ => exact h2
    obtain ⟨hx, hne', hsp⟩ := next_some h1
    have hr := reach_lex hx
    have hl' := hl.reach hr
    obtain ⟨xs, h4, h5, h6⟩ := ih l' hl' (hr.src.trans hs) h3
    obtain ⟨pre', h7, h8⟩ := hl'.pos
    have : pre' = pre := by
      rw [hr.src, hs, h3, hp] at h7
      exact (List.append_cancel_right h7).symm
    refine ⟨(t', sp) :: xs, ?_, by simp [h5], ?_⟩
    · simp only [List.length_cons]
      unfold items
      rw [h1]
      simp only
      rw [h4]
    · rw [List.map_cons, ← h6, ht, hsp]
      simp only [h8, this, locOf_col]

end
section
variable [CharTables] [LawfulTables]

theorem Placed.hasC {pre s : Text} {cs : List CTok} (h : Placed pre s cs) :
    TLex.HasC (pre ++ s) s cs := by
  induction h with
  | nil => exact .nil TLex.lex_nil
  | space hc _ ih =>
    rw [List.append_assoc] at ih
    exact ih.congr (TLex.lex_space hc)
  | line h1 h2 h3 _ ih =>
    rw [List.append_assoc] at ih
    exact ih.congr (TLex.lex_line_max h1 h2 h3)
  | @block pre b x s cs hb hx _ ih =>
    rw [List.append_assoc] at ih
    refine ih.congr ?_
    rw [List.append_assoc, TLex.lex_comment hb]
    congr 1
    rcases hx with hx | ⟨rfl, rfl⟩
    · match x, hx with
      | [a], _ => rfl
    · rfl
  | token ht _ ih =>
    rw [List.append_assoc] at ih
    exact .cons (TLex.TokenAt.lex ht).1 (TLex.TokenAt.lex ht).2 (List.append_assoc ..).symm ih

theorem Placed.lexes {src : Text} (hc : NoLFCR src) {cs : List CTok} (h : Placed [] src cs) :
    Lexes src cs := by
  have hh := h.hasC
  have hch : (Lexer.new src).chars = src.dropWhile isWhitespace := by
    have h0 : Sync (⟨src, src, none, 1, 1, 0, Loc.default⟩ : Lexer) :=
      ⟨⟨[], ⟨rfl, rfl, by simp⟩⟩, hc⟩
    exact h0.eatWhitespace
  obtain ⟨xs, h1, h2, h3⟩ := lexes_of_hasC (hh.congr (TLex.lex_dropWhile src)) _ (sync_new hc)
    (by unfold Lexer.new; exact (reach_eatWhitespace _).src) hch
  exact ⟨xs, _, by omega, h1, h3⟩

theorem lexes_iff_placed {src : Text} (hc : NoLFCR src) (cs : List CTok) :
    (Lexes src cs ∧ ∀ e, .error e ∉ cs.map (·.1)) ↔ Placed [] src cs := by
  constructor
  · rintro ⟨h1, h2⟩
    obtain ⟨cs', h3, h4⟩ := ((C95_lexical_grammar hc _).1 ⟨cs, h1, rfl, h2⟩).placed []
    rw [h1.unique (h4.lexes hc)]
    exact h4
  · intro h
    refine ⟨h.lexes hc, ?_⟩
    have := h.tokenizes
    rw [← TLex.has_iff] at this
    exact this.noError

end
end Pemdas
