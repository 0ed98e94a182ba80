import Verif.Model.Words
import Verif.Props.LexerPos
import Verif.Lemmas.LexCols
/-
C137 The counters of the lexer do not overflow.
-/
namespace Pemdas
namespace Lexer

/-! ### helper facts -/

theorem unCR_sublist (s : Text) : (unCR s).Sublist s := by
  induction s using unCR.induct with
  | case1 cs ih => simp only [unCR]; exact (ih.cons _).cons_cons _
  | case2 c cs hne ih => rw [unCR.eq_2 c cs hne]; exact ih.cons_cons _
  | case3 => simp [unCR]

/-- The location of a prefix is bounded by the size of the text. -/
theorem locOf_bounds {src pre rest : Text} (h : src = pre ++ rest) :
    (locOf (unCR pre)).line ≤ 1 + src.count '\n' ∧ (locOf (unCR pre)).col ≤ 1 + src.length ∧
      (locOf (unCR pre)).pos ≤ utf8Len src := by
  subst h
  have hs := unCR_sublist pre
  have h1 := hs.count_le '\n'
  have h2 := hs.length_le
  have h3 := utf8Len_unCR_le pre
  have h4 : ((unCR pre).reverse.takeWhile (· != '\n')).length ≤ (unCR pre).length := by
    have := (List.takeWhile_sublist (l := (unCR pre).reverse) (· != '\n')).length_le
    simpa using this
  have h5 : utf8Len (pre ++ rest) = utf8Len pre + utf8Len rest := by simp
  have h6 : (pre ++ rest).count '\n' = pre.count '\n' + rest.count '\n' := List.count_append
  have h7 : (pre ++ rest).length = pre.length + rest.length := List.length_append
  simp only [locOf]
  omega

theorem repeat_reach (k : Nat) (l : Lexer) : Reach true l (Nat.repeat advance k l) := by
  induction k with
  | zero => exact .refl _
  | succ k ih => exact .adv ih

theorem blockLoopChecked_eq (n : Nat) (l : Lexer) (depth : Nat) (e : Loc)
    (h : depth + l.chars.length ≤ maxI32) :
    blockLoopChecked n l depth e = some (blockLoop n l depth e) := by
  have hadv : ∀ l : Lexer, l.chars ≠ [] → l.advance.chars.length + 1 ≤ l.chars.length := by
    intro l hne
    cases hc : l.chars with
    | nil => exact absurd hc hne
    | cons c cs =>
      unfold advance bumpChar
      rw [hc]
      simp only
      split
      · simp only [dropCR]; split <;> simp
      · simp
  have hle : ∀ l : Lexer, l.advance.chars.length ≤ l.chars.length := by
    intro l
    by_cases hne : l.chars = []
    · rw [advance_eq_nil hne]; exact Nat.le_refl _
    · have := hadv l hne; omega
  induction n generalizing l depth e with
  | zero => rfl
  | succ n ih =>
    unfold blockLoopChecked blockLoop
    by_cases hd : depth = 0
    · simp only [hd, if_true]
    simp only [hd, if_false]
    cases hc : l.chars with
    | nil => rfl
    | cons c cs =>
      simp only
      have h1 := hadv l (by simp [hc])
      have h2 := hle l.advance
      split
      · split
        · rw [if_neg (by omega), ih _ _ _ (by omega)]
        · rw [ih _ _ _ (by omega)]
      · split
        · split
          · rw [ih _ _ _ (by omega)]
          · rw [ih _ _ _ (by omega)]
        · rw [ih _ _ _ (by omega)]

section
variable [CharTables]

/-- **C137** After any number of further characters read from a client-visible state, that is also
in the middle of a token, line, column and byte position are bounded by the size of the source;
and so are those of the remembered location. -/
theorem C137_bounds {src : Text} {l : Lexer} (h : Point src l) (k : Nat) :
    ((Nat.repeat advance k l).line ≤ 1 + src.count '\n' ∧
      (Nat.repeat advance k l).col ≤ 1 + src.length ∧
      (Nat.repeat advance k l).pos ≤ utf8Len src) ∧
    l.prevLoc.line ≤ 1 + src.count '\n' ∧ l.prevLoc.col ≤ 1 + src.length ∧
      l.prevLoc.pos ≤ utf8Len src := by
  obtain ⟨hs, ⟨pre, hat⟩, -, p, q, hpq, hprev⟩ := h.inv
  constructor
  · obtain ⟨used, hu, hat'⟩ := hat.reach (repeat_reach k l)
    have hb := locOf_bounds (src := src) (rest := (Nat.repeat advance k l).chars)
      (pre := pre ++ used) (by rw [← hs, hat.src, hu]; simp)
    rw [← hat'.loc] at hb
    exact hb
  · rw [hprev]
    exact locOf_bounds hpq

/-- **C137** Reading characters from a source of fewer than 2³²−1 characters, and at most 2⁶⁴−1
bytes, never overflows a counter: checked additions always succeed and give what the model
computes. -/
theorem C137_bump {src : Text} {l : Lexer} (h : Point src l) (h1 : src.length < 2 ^ 32 - 1)
    (h2 : utf8Len src < 2 ^ 64) (k : Nat) :
    bumpCharChecked (Nat.repeat advance k l) = some (Nat.repeat advance k l).bumpChar := by
  have hb := (C137_bounds h (k + 1)).1
  rw [show Nat.repeat advance (k + 1) l = (Nat.repeat advance k l).advance from rfl] at hb
  have hn : src.count '\n' ≤ src.length := List.count_le_length
  generalize Nat.repeat advance k l = m at hb
  unfold bumpCharChecked maxU32 maxUsize
  unfold advance bumpChar at hb
  unfold bumpChar
  cases hc : m.chars with
  | nil => rfl
  | cons c cs =>
    rw [hc] at hb
    simp only at hb ⊢
    split at hb
    · rename_i hcn
      obtain ⟨b1, b2, b3⟩ := hb
      simp only at b1 b2 b3
      rw [if_neg (by omega), if_pos hcn, if_neg (by omega), if_pos hcn]
    · rename_i hcn
      obtain ⟨b1, b2, b3⟩ := hb
      simp only at b1 b2 b3
      rw [if_neg (by omega), if_neg hcn, if_neg (by omega), if_neg hcn]

/-- **C137** In a source of fewer than 2³¹−1 characters the nesting depth of block comments never
overflows, from wherever a comment is read. -/
theorem C137_depth {src : Text} {l : Lexer} (h : Point src l) (h1 : src.length < 2 ^ 31 - 1)
    (k n : Nat) (e : Loc) :
    blockLoopChecked n (Nat.repeat advance k l) 1 e =
      some (blockLoop n (Nat.repeat advance k l) 1 e) := by
  obtain ⟨hs, ⟨pre, hat⟩, -⟩ := h.inv
  obtain ⟨used, hu, hat'⟩ := hat.reach (repeat_reach k l)
  apply blockLoopChecked_eq
  unfold maxI32
  have h3 : src.length = pre.length + l.chars.length := by rw [← hs, hat.src]; simp
  have h4 : l.chars.length = used.length + (Nat.repeat advance k l).chars.length := by rw [hu]; simp
  omega

end

example : t!"a ~{ ~{ }~ }~ b".length < 2 ^ 31 - 1 ∧ utf8Len t!"a ~{ ~{ }~ }~ b" < 2 ^ 64 := by
  decide

/-- **C137** The checked additions do notice every overflow: of a byte position beyond 64 bits and
of a line or column beyond 32 bits. -/
theorem C137_overflow (l : Lexer) : bumpCharChecked l = none ↔ ∃ c cs, l.chars = c :: cs ∧
    (2 ^ 64 ≤ l.pos + c.utf8Size ∨ c = '\n' ∧ 2 ^ 32 ≤ l.line + 1 ∨
      c ≠ '\n' ∧ 2 ^ 32 ≤ l.col + 1) := by
  unfold bumpCharChecked maxU32 maxUsize
  cases hc : l.chars with
  | nil => simp
  | cons c cs =>
    have e : ∀ P : Char → Text → Prop, (∃ c' cs', c :: cs = c' :: cs' ∧ P c' cs') ↔ P c cs :=
      fun P => ⟨fun ⟨_, _, h, hp⟩ => by cases h; exact hp, fun h => ⟨c, cs, rfl, h⟩⟩
    rw [e]
    simp only
    split
    · simp only [true_iff]; omega
    · split
      · split
        · rename_i h1 h2 h3
          simp only [true_iff]
          exact Or.inr (Or.inl ⟨h2, by omega⟩)
        · rename_i h1 h2 h3
          simp only [reduceCtorEq, h2, ne_eq, not_true_eq_false, false_and, or_false, true_and, false_iff]
          rw [h2] at h1
          omega
      · split
        · rename_i h1 h2 h3
          simp only [true_iff]
          exact Or.inr (Or.inr ⟨h2, by omega⟩)
        · rename_i h1 h2 h3
          simp only [reduceCtorEq, h2, ne_eq, not_false_eq_true, false_and, false_or, true_and, false_iff]
          omega

/-- **C137** The checked loop does notice an overflow: a depth beyond the greatest `i32` is a panic,
and a smaller one is none. -/
theorem C137_depth_overflow (l : Lexer) (d : Nat) (e : Loc) (h : l.chars = t!"~{") (hd : 0 < d) :
    blockLoopChecked 1 l d e = none ↔ 2 ^ 31 ≤ d + 1 := by
  unfold blockLoopChecked
  rw [h]
  have h1 : l.advance.chars = ['{'] := by unfold advance bumpChar; rw [h]; rfl
  rw [if_neg (by omega)]
  simp only [onChar, h1]
  have e1 : (2 ^ 31 ≤ d + 1) ↔ maxI32 < d + 1 := by unfold maxI32; omega
  rw [e1]
  simp only [beq_self_eq_true, if_true]
  by_cases hm : maxI32 < d + 1
  · rw [if_pos hm]; exact ⟨fun _ => hm, fun _ => rfl⟩
  · rw [if_neg hm]; exact ⟨fun h => by simp [blockLoopChecked] at h, fun h => absurd h hm⟩

/-- **C137** The bound on the size is needed: after a line of `n` blanks the column is
`n + 1`, which for `n = 2³²−1` is no `u32`. -/
theorem C137_long_line [CharTables] (n : Nat) :
    (new (List.replicate n ' ')).col = n + 1 := by
  have hc : (new (List.replicate n ' ')).chars = [] := by
    show (eatWhileN isWhitespace _ _).chars = []
    rw [eatWhileN_ws _ _ (Nat.le_refl _)]
    simp only
    rw [List.dropWhile_replicate, if_pos (by decide)]
  obtain ⟨⟨pre, h1, h2⟩, -⟩ := C28_positions (Point.new (src := List.replicate n ' '))
  rw [hc, List.append_nil] at h1
  have hno : NoLFCR (List.replicate n ' ') := by
    intro hi
    have := hi.subset (a := '\n') (by simp)
    exact absurd (List.mem_replicate.1 this).2 (by decide)
  rw [unCR_of_noLFCR (h1 ▸ hno)] at h2
  have h3 := congrArg Loc.col h2
  rw [← h1] at h3
  simp only [currLoc, locOf, List.reverse_replicate] at h3
  rw [h3, List.takeWhile_replicate, if_pos (by decide), List.length_replicate]
  omega

end Lexer
end Pemdas
