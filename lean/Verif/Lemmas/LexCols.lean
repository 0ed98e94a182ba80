import Verif.Lemmas.ParseLine
import Verif.Lemmas.ParseTop
import Verif.Props.LexerPos
/-
The columns of the tokens of a source.
-/
namespace Pemdas
open Lexer

theorem takeWhile_all {α : Type} {p : α → Bool} {l : List α} (h : ∀ x ∈ l, p x = true) :
    l.takeWhile p = l := by
  induction l with
  | nil => rfl
  | cons x l ih =>
    rw [List.takeWhile_cons, if_pos (h x (by simp)), ih fun y hy => h y (by simp [hy])]

section
variable [CharTables] [LawfulTables]

omit [LawfulTables] in
/-- At an unknown character the lexer stays. -/
theorem next_unknown {l : Lexer} {c : Char} {cs : Text} (h : l.chars = c :: cs) (hu : UnknownChar c) :
    ∃ sp l', l.next = .ok (some (.error .unknown, sp), l') ∧ l'.chars = c :: cs := by
  obtain ⟨h1, h2, h3, h4, h5⟩ := hu
  have hw : l.eatWhitespace.chars = c :: cs := by
    unfold eatWhitespace eatWhile
    rw [h]
    simp [eatWhileN, h, h1]
  have hd : l.eatWhitespace.dispatch c = .ok (.tok (.error .unknown) l.eatWhitespace) := by
    simp only [List.mem_cons, List.not_mem_nil, or_false, not_or] at h5
    obtain ⟨g1, g2, g3, g4, g5, g6, g7, g8, g9, g10, g11⟩ := h5
    unfold dispatch
    simp only [g1, g2, g3, g4, g5, g6, g7, g8, g9, g10, g11, h2, h3, h4, if_false,
      Bool.false_eq_true]
  have hl : l.lex = .ok (.error .unknown, l.eatWhitespace) := by
    unfold lex lexN
    rw [hw]
    simp only [hd]
  refine ⟨⟨l.eatWhitespace.prevLoc, l.eatWhitespace.currLoc⟩, l.eatWhitespace, ?_, hw⟩
  unfold next
  rw [hl]
  rfl

omit [LawfulTables] in
theorem items_unknown (n : Nat) {l : Lexer} {c : Char} {cs : Text} (h : l.chars = c :: cs)
    (hu : UnknownChar c) {xs : List (Token × LocSpan)} (hi : items n l = .ok xs) : xs.length = n := by
  induction n generalizing l xs with
  | zero => cases hi; rfl
  | succ n ih =>
    obtain ⟨sp, l', h1, h2⟩ := next_unknown h hu
    unfold items at hi
    rw [h1] at hi
    simp only at hi
    split at hi
    · cases hi
    · rename_i ys hys
      cases hi
      simp [ih h2 hys]

omit [LawfulTables] in
/-- Between two places with no line feed in the text, the column counts characters. -/
theorem Point.col_eq {src : Text} (hn : '\n' ∉ src) {l : Lexer} (h : Point src l) :
    l.col + l.chars.length = src.length + 1 := by
  obtain ⟨⟨pre, h1, h2⟩, _⟩ := C28_positions h
  have hp : '\n' ∉ pre := fun hm => hn (by rw [h1]; exact List.mem_append.2 (.inl hm))
  have hu : unCR pre = pre := unCR_of_noLFCR fun ⟨a, b, h⟩ => hp (by rw [← h]; simp)
  have : l.col = (locOf pre).col := by rw [hu] at h2; rw [← h2]; rfl
  rw [this, h1]
  have : pre.reverse.takeWhile (· != '\n') = pre.reverse := by
    refine takeWhile_all fun c hc => ?_
    simp only [bne_iff_ne, ne_eq]
    rintro rfl
    exact hp (by simpa using hc)
  simp only [locOf, this, List.length_append, List.length_reverse]
  omega

theorem items_inc {src : Text} (hn : '\n' ∉ src) {n : Nat} {l : Lexer} (hp : Point src l)
    {xs : List (Token × LocSpan)} (h : items n l = .ok xs) (hlt : xs.length < n) :
    Inc (xs.map ctok) ∧ ∀ x ∈ xs, l.col < x.2.hi.col := by
  induction xs generalizing n l with
  | nil => exact ⟨List.Pairwise.nil, by simp⟩
  | cons x xs ih =>
    cases n with
    | zero => simp at hlt
    | succ n =>
      obtain ⟨l', h1, h2⟩ := items_cons h
      have hp' := hp.next h1
      obtain ⟨h3, h4⟩ := ih hp' h2 (by simpa using hlt)
      obtain ⟨t, sp⟩ := x
      obtain ⟨hx, hne, rfl⟩ := next_some h1
      have e1 := Point.col_eq hn hp
      have e2 := Point.col_eq hn hp'
      have hlen : l'.chars.length < l.chars.length := by
        rcases (C26_progress hx).2 with ⟨h5, _⟩ | ⟨_, h5⟩ | ⟨h5, c, cs, h6, h7⟩
        · exact absurd h5 hne
        · exact h5
        · have := items_unknown n h6 h7 h2
          simp only [List.length_cons] at hlt
          omega
      have hcol : l.col < l'.col := by omega
      refine ⟨List.pairwise_cons.2 ⟨?_, h3⟩, ?_⟩
      · intro y hy
        obtain ⟨z, hz, rfl⟩ := List.mem_map.1 hy
        exact h4 z hz
      · intro y hy
        rcases List.mem_cons.1 hy with rfl | hy
        · exact hcol
        · exact Nat.lt_trans hcol (h4 y hy)

/-- On one line the columns of the tokens increase. -/
theorem Lexes.inc {src : Text} (hn : '\n' ∉ src) {ts : List CTok} (h : Lexes src ts) :
    Inc ts ∧ ∀ x ∈ ts, (Lexer.new src).col < x.2 := by
  obtain ⟨xs, n, h1, h2, rfl⟩ := h
  obtain ⟨h3, h4⟩ := items_inc hn .new h2 h1
  refine ⟨h3, fun y hy => ?_⟩
  obtain ⟨z, hz, rfl⟩ := List.mem_map.1 hy
  exact h4 z hz

omit [CharTables] [LawfulTables] in
theorem eatWhileN_ws (n : Nat) (l : Lexer) (h : l.chars.length ≤ n) :
    (eatWhileN isWhitespace n l).chars = l.chars.dropWhile isWhitespace := by
  induction n generalizing l with
  | zero =>
    have : l.chars = [] := List.length_eq_zero_iff.1 (by omega)
    simp [eatWhileN, this]
  | succ n ih =>
    unfold eatWhileN
    cases hc : l.chars with
    | nil => simp [hc]
    | cons c cs =>
      simp only
      split
      · rename_i hw
        rw [ih _ (by have := advance_length_lt hc; omega), List.dropWhile_cons, if_pos hw]
        unfold Lexer.advance bumpChar
        rw [hc]
        by_cases hnl : c = '\n'
        · subst hnl
          simp only [if_true]
          unfold dropCR
          split
          · rw [List.dropWhile_cons, if_pos (by decide)]
          · rfl
        · simp [hnl]
      · rename_i hw
        rw [hc, List.dropWhile_cons, if_neg hw]

omit [LawfulTables] in
theorem new_col (src : Text) : (Lexer.new src).col = startCol src := by
  obtain ⟨⟨pre, h1, h2⟩, _⟩ := C28_positions (Point.new (src := src))
  have hc : (Lexer.new src).chars = src.dropWhile isWhitespace := by
    unfold Lexer.new eatWhitespace eatWhile
    exact eatWhileN_ws _ _ (Nat.le_refl _)
  rw [hc] at h1
  have : pre = src.takeWhile isWhitespace := by
    have h3 := List.takeWhile_append_dropWhile (p := isWhitespace) (l := src)
    exact List.append_cancel_right (h1.symm.trans h3.symm)
  rw [this] at h2
  show (Lexer.new src).currLoc.col = _
  rw [h2]; rfl

end
end Pemdas
