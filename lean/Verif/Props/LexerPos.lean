import Verif.Lemmas.LexText
import Verif.Spec.LexRun
/-
C26 progress, C27 iteration, C28 positions, C69 spans.
-/
namespace Pemdas
namespace Lexer

/-! ### helper facts about client-visible states -/

theorem bump_eq (l : Lexer) : ∃ c, l.bump.2 = { l with curr := c } := by
  unfold bump
  split
  · exact ⟨none, rfl⟩
  · exact ⟨l.curr, rfl⟩

section
variable [CharTables]

theorem next_some {l l' : Lexer} {t : Token} {sp : LocSpan} (h : l.next = .ok (some (t, sp), l')) :
    l.lex = .ok (t, l') ∧ t ≠ .eof ∧ sp = ⟨l'.prevLoc, l'.currLoc⟩ := by
  unfold next at h
  split at h
  · cases h
  · rename_i t' m hx
    split at h
    · cases h
    · rename_i hne; cases h; exact ⟨hx, hne, rfl⟩

theorem next_none {l l' : Lexer} (h : l.next = .ok (none, l')) : l.lex = .ok (.eof, l') := by
  unfold next at h
  split at h
  · cases h
  · rename_i t' m hx
    split at h
    · rename_i he; cases h; rw [hx, he]
    · cases h

theorem next_reach {l l' : Lexer} {r : Option (Token × LocSpan)} (h : l.next = .ok (r, l')) :
    Reach true l l' := by
  cases r with
  | none => exact reach_lex (next_none h)
  | some x => exact reach_lex (next_some h).1

theorem peek_reach {l l' : Lexer} {r : Option Token} (h : l.peek = .ok (r, l')) :
    ∃ m c, Reach true l m ∧ l' = { m with curr := c } := by
  unfold peek at h
  split at h
  · cases h; exact ⟨l, l.curr, .refl _, rfl⟩
  · split at h
    · cases h
    · rename_i hx; cases h; exact ⟨_, l'.curr, reach_lex hx, rfl⟩
    · rename_i t m hne hx; cases h; exact ⟨m, some t, reach_lex hx, rfl⟩

/-- Everything the general position statements need, at every client-visible state. -/
theorem Point.inv {src : Text} {l : Lexer} (h : Point src l) :
    l.src = src ∧ (∃ pre, l.At pre) ∧ l.prevLoc.Before l.currLoc ∧
      ∃ p q, src = p ++ q ∧ l.prevLoc = locOf (unCR p) := by
  have mark : ∀ {l l' : Lexer}, Reach true l l' → (∃ pre, l.At pre) →
      (∃ p q, l.src = p ++ q ∧ l.prevLoc = locOf (unCR p)) →
      ∃ p q, l.src = p ++ q ∧ l'.prevLoc = locOf (unCR p) := by
    intro l l' hr hat hp
    induction hr with
    | refl => exact hp
    | adv _ ih => rw [advance_prevLoc]; exact ih
    | mark _ hr ih =>
      obtain ⟨pre, hat⟩ := hat
      obtain ⟨u, _, hat'⟩ := hat.reach hr
      exact ⟨_, _, hr.src.symm.trans hat'.src, hat'.loc⟩
  induction h with
  | new =>
    have h0 : At (⟨src, src, none, 1, 1, 0, Loc.default⟩ : Lexer) [] := ⟨rfl, rfl, by simp⟩
    have hr := reach_eatWhitespace (⟨src, src, none, 1, 1, 0, Loc.default⟩ : Lexer)
    refine ⟨hr.src, At.eatWhitespace_new src, hr.prev_before (.refl _), ?_⟩
    exact mark hr ⟨_, h0⟩ ⟨[], src, rfl, rfl⟩
  | next _ hx ih =>
    obtain ⟨h1, ⟨pre, h2⟩, h3, h4⟩ := ih
    have hr := next_reach hx
    obtain ⟨u, _, hat⟩ := h2.reach hr
    refine ⟨by rw [hr.src, h1], ⟨_, hat⟩, hr.prev_before h3, ?_⟩
    rw [← h1] at h4 ⊢
    exact mark hr ⟨_, h2⟩ h4
  | peek _ hx ih =>
    obtain ⟨h1, ⟨pre, h2⟩, h3, h4⟩ := ih
    obtain ⟨m, c, hr, rfl⟩ := peek_reach hx
    obtain ⟨u, _, hat⟩ := h2.reach hr
    refine ⟨by rw [← h1]; exact hr.src, ⟨_, ⟨hat.src, hat.loc, hat.edge⟩⟩, hr.prev_before h3, ?_⟩
    rw [← h1] at h4 ⊢
    exact mark (l' := m) hr ⟨_, h2⟩ h4
  | @bump l _ ih =>
    obtain ⟨h1, ⟨pre, h2⟩, h3, h4⟩ := ih
    obtain ⟨c, hc⟩ := bump_eq l
    rw [hc]
    exact ⟨h1, ⟨pre, ⟨h2.src, h2.loc, h2.edge⟩⟩, h3, h4⟩

theorem Point.sync {src : Text} {l : Lexer} (h : Point src l) (hc : NoLFCR src) : l.Sync := by
  obtain ⟨h1, h2, _⟩ := h.inv
  exact ⟨h2, by rw [h1]; exact hc⟩

end

/-! ### C26 -/

/-- A character no token can start with. -/
def UnknownChar [CharTables] (c : Char) : Prop :=
  isWhitespace c = false ∧ isDigit10 c = false ∧ isIdentStart c = false ∧ isInfixChar c = false ∧
    c ∉ t!";'\"`()[]{},"

section
variable [CharTables] [LawfulTables]

/-- C26: producing one token only moves forward in the text, and consumes a character unless the
input is at its end or an unknown character is reported. -/
theorem C26_progress {l l' : Lexer} {t : Token} (h : l.lex = .ok (t, l')) :
    l'.chars <:+ l.chars ∧
    ((t = .eof ∧ l'.chars = []) ∨
     (t ≠ .eof ∧ l'.chars.length < l.chars.length) ∨
     (t = .error .unknown ∧ ∃ c cs, l'.chars = c :: cs ∧ UnknownChar c)) := by
  refine ⟨(reach_lex h).suffix, ?_⟩
  obtain ⟨m, hr, _, h1⟩ := lexN_land h (Nat.lt_succ_self _)
  rcases h1 with ⟨h1, rfl, rfl⟩ | ⟨c, cs, hch, hws, hd⟩
  · exact .inl ⟨rfl, h1⟩
  · right
    have hne : t ≠ .eof := by rintro rfl; exact dispatch_ne_eof hd
    rcases dispatch_progress hch hd with hlt | ⟨heq, hu⟩
    · exact .inl ⟨hne, Nat.lt_of_lt_of_le hlt hr.length_le⟩
    · cases heq
      exact .inr ⟨rfl, c, cs, hch, hws, hu⟩

/-- C26: lexing one token terminates. The only recursion of `lex` is the call made after a
skipped comment; allowing any number of such calls larger than the number of characters left
gives the same result, so `lex` never stops early for lack of fuel. -/
theorem C26_terminates (l : Lexer) (n : Nat) (hn : l.chars.length < n) : lexN n l = l.lex :=
  lexN_fuel hn (Nat.lt_succ_self _)

example : @lex asciiTables (new t!"~~ c\n x") = .ok (.lower t!"x",
    { new t!"~~ c\n x" with chars := [], line := 2, col := 3, pos := 7, prevLoc := ⟨2, 2, 6⟩ }) := by
  decide

/-! ### C27 -/

/-- C27 is false: on a source with a character the lexer does not know, `next` yields the same
error token again and again, for as many calls as one likes. -/
theorem C27_iterator_diverges (n : Nat) :
    items n (new t!"\x01") = .ok (List.replicate n (.error .unknown, ⟨⟨1, 1, 0⟩, ⟨1, 1, 0⟩⟩)) := by
  have hid : isIdentStart '\x01' = false := by
    simp only [isIdentStart, hasCase, LawfulTables.ascii_lower '\x01' (by decide),
      LawfulTables.ascii_upper '\x01' (by decide)]
    decide
  have hl : (new t!"\x01").next =
      .ok (some (.error .unknown, ⟨⟨1, 1, 0⟩, ⟨1, 1, 0⟩⟩), new t!"\x01") := by
    have : (new t!"\x01").lex = .ok (.error .unknown, new t!"\x01") := by
      have hw : (new t!"\x01").eatWhitespace = new t!"\x01" := by decide
      have hc : (new t!"\x01").chars = ['\x01'] := by decide
      unfold lex lexN
      rw [hw, hc]
      simp only
      have : (new t!"\x01").dispatch '\x01' = .ok (.tok (.error .unknown) (new t!"\x01")) := by
        unfold dispatch
        rw [hid]
        rfl
      rw [this]
    unfold next
    rw [this]
    decide
  induction n with
  | zero => rfl
  | succ n ih => rw [items, hl]; simp only [ih, List.replicate_succ]

/-- C27, part that holds: as long as no unknown character is reported, iteration stops after at
most as many tokens as there are characters left. (Missing: sources with an unknown character,
where it does not stop at all.) -/
theorem C27_iterator_partial {n : Nat} {l : Lexer} {xs : List (Token × LocSpan)}
    (h : items n l = .ok xs) (hu : ∀ x ∈ xs, x.1 ≠ .error .unknown) :
    xs.length ≤ l.chars.length := by
  induction n generalizing l xs with
  | zero => cases h; simp
  | succ n ih =>
    unfold items at h
    split at h
    · cases h
    · cases h; simp
    · rename_i x l' hx
      split at h
      · cases h
      · rename_i ys hys
        cases h
        obtain ⟨t, sp⟩ := x
        obtain ⟨hlex, hne, _⟩ := next_some hx
        have := ih hys (fun y hy => hu y (List.mem_cons_of_mem _ hy))
        rcases (C26_progress hlex).2 with ⟨h1, _⟩ | ⟨_, h1⟩ | ⟨h1, _⟩
        · exact absurd h1 hne
        · simp only [List.length_cons]; omega
        · exact absurd h1 (hu (t, sp) (by simp))

example : (@items asciiTables 9 (new t!"a + 1")).toOption.map (·.map (·.1)) =
    some [.lower t!"a", .affix t!"+" false, .lit (.int 1)] := by decide

/-! ### C69 -/

omit [LawfulTables] in
theorem Point.pos_le {src : Text} {l : Lexer} (h : Point src l) : l.pos ≤ utf8Len src := by
  obtain ⟨hs, ⟨pre, hat⟩, _⟩ := h.inv
  have h1 := congrArg Loc.pos hat.loc
  simp only [locOf, currLoc] at h1
  have h2 := utf8Len_unCR_le pre
  have h3 : utf8Len src = utf8Len pre + utf8Len l.chars := by rw [← hs, hat.src]; simp
  omega

theorem lex_prev {l l' : Lexer} {t : Token} (h : l.lex = .ok (t, l')) :
    l.currLoc.Before l'.prevLoc := by
  obtain ⟨m, hr, hm, h1⟩ := lexN_land h (Nat.lt_succ_self _)
  rcases h1 with ⟨_, _, rfl⟩ | ⟨c, cs, _, _, hd⟩
  · rw [hm]; exact hr.before
  · have h2 := (reach_dispatch hd).prev_le (by rw [hm]; exact .refl _)
    rw [hm] at h2
    exact hr.before.trans h2

/-- C69: in whatever state a client starts iterating, every span is ordered and ends inside the
text, spans come in reading order without overlap, and none starts before the place where
iteration started. Holds for all sources, including those with "\n\r". -/
theorem C69_spans_ordered {src : Text} {l : Lexer} (hl : Point src l) {n : Nat}
    {xs : List (Token × LocSpan)} (h : items n l = .ok xs) :
    (∀ x ∈ xs, l.currLoc.Before x.2.lo ∧ x.2.lo.Before x.2.hi ∧ x.2.hi.pos ≤ utf8Len src) ∧
    xs.Pairwise (fun a b => a.2.hi.Before b.2.lo) := by
  induction n generalizing l xs with
  | zero => cases h; simp
  | succ n ih =>
    unfold items at h
    split at h
    · cases h
    · cases h; simp
    · rename_i x l' hx
      split at h
      · cases h
      · rename_i ys hys
        cases h
        obtain ⟨t, sp⟩ := x
        obtain ⟨hlex, _, rfl⟩ := next_some hx
        have hl' := hl.next hx
        obtain ⟨ih1, ih2⟩ := ih hl' hys
        have hp := lex_prev hlex
        have hb := hl'.inv.2.2.1
        constructor
        · intro y hy
          rcases List.mem_cons.1 hy with rfl | hy
          · exact ⟨hp, hb, hl'.pos_le⟩
          · exact ⟨(next_reach hx).before.trans (ih1 y hy).1, (ih1 y hy).2⟩
        · exact List.pairwise_cons.2 ⟨fun y hy => (ih1 y hy).1, ih2⟩

example : (@items asciiTables 9 (new t!" a\n+ 10")).toOption.map (·.map fun x => (x.2.lo, x.2.hi)) =
    some [(⟨1, 2, 1⟩, ⟨1, 3, 2⟩), (⟨2, 1, 3⟩, ⟨2, 2, 4⟩), (⟨2, 3, 5⟩, ⟨2, 5, 7⟩)] := by decide

end

/-! ### C28 -/

section
variable [CharTables]

/-- C28 in full generality, with what the code does on "\n\r": at every client-visible state, the
current and the remembered location are those of a prefix of the source from which carriage
returns directly after a line feed have been deleted. -/
theorem C28_positions {src : Text} {l : Lexer} (h : Point src l) :
    (∃ pre, src = pre ++ l.chars ∧ l.currLoc = locOf (unCR pre)) ∧
    (∃ p q, src = p ++ q ∧ l.prevLoc = locOf (unCR p)) := by
  obtain ⟨h1, ⟨pre, h2⟩, _, h4⟩ := h.inv
  exact ⟨⟨pre, h1 ▸ h2.src, h2.loc⟩, h4⟩

/-- C28 for sources without "\n\r": the byte position is the UTF-8 length of what was consumed,
the line is one plus the number of newlines in it, the column one plus the number of characters
since the last newline; the remembered location also is that of a place in the text. (Missing:
sources with "\n\r", see `C28_positions_wrong`.) -/
theorem C28_positions_partial {src : Text} (hc : NoLFCR src) {l : Lexer} (h : Point src l) :
    (∃ pre, src = pre ++ l.chars ∧ l.currLoc = locOf pre) ∧
    (∃ p q, src = p ++ q ∧ l.prevLoc = locOf p) := by
  obtain ⟨⟨pre, h1, h2⟩, p, q, h3, h4⟩ := C28_positions h
  refine ⟨⟨pre, h1, ?_⟩, p, q, h3, ?_⟩
  · rw [h2, unCR_of_noLFCR (hc.infix ⟨[], l.chars, by simp [h1]⟩)]
  · rw [h4, unCR_of_noLFCR (hc.infix ⟨[], q, by simp [h3]⟩)]

/-- C28 is false as stated: after "\n\r" the byte position is one less than what was consumed. -/
theorem C28_positions_wrong :
    ¬ ∀ (src : Text) (l : Lexer), Point src l →
      ∃ pre, src = pre ++ l.chars ∧ l.pos = utf8Len pre := by
  intro h
  obtain ⟨pre, h1, h2⟩ := h t!"\n\rx" _ .new
  have hc : (new t!"\n\rx").chars = ['x'] := by decide
  have hp : (new t!"\n\rx").pos = 1 := by decide
  rw [hc] at h1
  have : pre = ['\n', '\r'] := List.append_cancel_right (bs := ['x']) h1.symm
  rw [hp, this] at h2
  exact absurd h2 (by decide)

example : NoLFCR t!"a\r\nb" := by unfold NoLFCR; decide

end
end Lexer
end Pemdas
