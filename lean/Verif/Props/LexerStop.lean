import Verif.Props.LexerTokens
/-
C27 exactly: when iterating over the tokens stops.
-/
namespace Pemdas
namespace Lexer

/-! ### only the last branch reports an unknown character -/

theorem number_ne_unknown {l l' : Lexer} : l.number ≠ .ok (.error .unknown, l') := by
  intro h
  unfold number at h
  simp only [bind, Except.bind] at h
  repeat' split at h
  all_goals cases h

theorem blockComment_ne_unknown {l : Lexer} : l.blockComment.1 ≠ some .unknown := by
  intro h
  unfold blockComment at h
  simp only at h
  split at h <;> cases h

theorem operator_ne_unknown {l l' : Lexer} : l.operator ≠ .ok (.tok (.error .unknown) l') := by
  intro h
  unfold operator at h
  simp only [bind, Except.bind] at h
  repeat' split at h
  all_goals try cases h
  rename_i hb
  exact blockComment_ne_unknown (congrArg Prod.fst hb)

theorem string_ne_unknown {l : Lexer} : l.string.1 ≠ .error .unknown := by
  intro h
  unfold string at h
  simp only at h
  repeat' split at h
  all_goals cases h

theorem unicodeEscape_ne_unknown {l l' : Lexer} {loc : Loc} :
    l.unicodeEscape loc ≠ .ok (.error .unknown, l') := by
  intro h
  unfold unicodeEscape at h
  simp only [bind, Except.bind] at h
  repeat' split at h
  all_goals cases h

theorem charEscape_ne_unknown {l l' : Lexer} {loc : Loc} :
    l.charEscape loc ≠ .ok (.error .unknown, l') := by
  intro h
  unfold charEscape at h
  simp only at h
  repeat' split at h
  all_goals first | exact unicodeEscape_ne_unknown h | cases h

section
variable [CharTables]

theorem charLit_ne_unknown {l l' : Lexer} : l.charLit ≠ .ok (.error .unknown, l') := by
  intro h
  unfold charLit at h
  simp only [bind, Except.bind] at h
  repeat' split at h
  all_goals first | exact charEscape_ne_unknown h | cases h

theorem backtick_ne_unknown {l l' : Lexer} : l.backtick ≠ .ok (.error .unknown, l') := by
  intro h
  unfold backtick promotedOperator at h
  simp only [bind, Except.bind] at h
  repeat' split at h
  all_goals cases h

theorem ident_ne_unknown {l l' : Lexer} {c : Char} : l.ident c ≠ .ok (.error .unknown, l') := by
  intro h
  unfold ident identifier at h
  simp only [bind, Except.bind] at h
  repeat' split at h
  all_goals try cases h
  rename_i h2
  split at h2
  · injection h2 with h2
    split at h2 <;> cases h2
  · cases h2

theorem dispatch_unknown {l l' : Lexer} {c : Char}
    (h : l.dispatch c = .ok (.tok (.error .unknown) l')) : l' = l := by
  have hp := dispatch_pass h
  generalize hr : OpRes.tok (.error .unknown) l' = r at hp
  cases hp with
  | punct hc => cases hr; simp at hc
  | char _ hx => cases hr; exact absurd hx charLit_ne_unknown
  | string => injection hr with h1 h2; exact absurd h1.symm string_ne_unknown
  | number _ hx => cases hr; exact absurd hx number_ne_unknown
  | backtick _ hx => cases hr; exact absurd hx backtick_ne_unknown
  | ident _ hx => cases hr; exact absurd hx ident_ne_unknown
  | op _ hx => cases hr; exact absurd hx operator_ne_unknown
  | unknown => cases hr; rfl

omit [CharTables] in
theorem eatWhitespace_self {l : Lexer} (hp : l.prevLoc = l.currLoc) {c : Char} {cs : Text}
    (hc : l.chars = c :: cs) (hw : isWhitespace c = false) : l.eatWhitespace = l := by
  have h1 : l.eatWhile isWhitespace = l := by
    unfold eatWhile
    cases h : l.chars.length with
    | zero => rfl
    | succ n => unfold eatWhileN; rw [hc]; simp [hw]
  unfold eatWhitespace
  rw [h1]
  show ({ l with prevLoc := l.currLoc } : Lexer) = l
  rw [← hp]

variable [LawfulTables]

/-- C27: once an unknown character has been reported, every further call of `next` reports it
again, at the same place. -/
theorem C27_unknown_repeats {l l' : Lexer} {sp : LocSpan}
    (h : l.next = .ok (some (.error .unknown, sp), l')) :
    sp.lo = sp.hi ∧ (∃ c cs, l'.chars = c :: cs ∧ UnknownChar c) ∧
    ∀ n, items n l' = .ok (List.replicate n (.error .unknown, sp)) := by
  obtain ⟨hlex, hne, rfl⟩ := next_some h
  obtain ⟨m, hr, hm, h1⟩ := lexN_land hlex (Nat.lt_succ_self _)
  rcases h1 with ⟨_, h1, _⟩ | ⟨c, cs, hch, hws, hd⟩
  · cases h1
  · obtain rfl := dispatch_unknown hd
    have hu : UnknownChar c := by
      rcases dispatch_progress hch hd with hlt | ⟨_, hu⟩
      · exact absurd hlt (by simp [OpRes.lexer])
      · exact ⟨hws, hu⟩
    refine ⟨hm, ⟨c, cs, hch, hu⟩, ?_⟩
    have hnx : l'.next = .ok (some (.error .unknown, ⟨l'.prevLoc, l'.currLoc⟩), l') := by
      have : l'.lex = .ok (.error .unknown, l') := by
        unfold lex lexN
        rw [eatWhitespace_self hm hch hws]
        simp only [hch, hd]
      unfold next
      rw [this]
      simp
    intro n
    induction n with
    | zero => rfl
    | succ n ih => rw [items, hnx]; simp only [ih, List.replicate_succ]

omit [LawfulTables] in
theorem items_prefix {n m : Nat} {l : Lexer} {xs ys : List (Token × LocSpan)}
    (h : items n l = .ok xs) (h' : items m l = .ok ys) (hn : n ≤ m) :
    xs <+: ys ∧ (xs.length < n → xs = ys) := by
  induction n generalizing m l xs ys with
  | zero => cases h; exact ⟨List.nil_prefix, by simp⟩
  | succ n ih =>
    cases m with
    | zero => omega
    | succ m =>
      unfold items at h h'
      cases hx : l.next with
      | error p => rw [hx] at h; cases h
      | ok r =>
        obtain ⟨r, l'⟩ := r
        rw [hx] at h h'
        cases r with
        | none => cases h; cases h'; simp
        | some x =>
          simp only at h h'
          split at h
          · cases h
          · rename_i us hus
            split at h'
            · cases h'
            · rename_i vs hvs
              cases h; cases h'
              obtain ⟨h1, h2⟩ := ih hus hvs (by omega)
              refine ⟨(List.cons_prefix_cons).2 ⟨rfl, h1⟩, fun hlt => ?_⟩
              rw [h2 (by simpa using hlt)]

end

section
variable [CharTables] [LawfulTables]

theorem items_trichotomy (k : Nat) : ∀ (l : Lexer), l.chars.length ≤ k →
    (∃ m p, m ≤ k + 1 ∧ ∀ n, items (m + n) l = .error p) ∨
    (∃ xs, xs.length ≤ k ∧ (∀ x ∈ xs, x.1 ≠ .error .unknown) ∧ ∀ n, items (k + 1 + n) l = .ok xs) ∨
    (∃ xs x, xs.length ≤ k ∧ (∀ x ∈ xs, x.1 ≠ .error .unknown) ∧ x.1 = .error .unknown ∧
      ∀ n, items (xs.length + n) l = .ok (xs ++ List.replicate n x)) := by
  induction k with
  | zero => ?_
  | succ k ih => ?_
  all_goals
    intro l hl
    cases hx : l.next with
    | error p =>
      exact .inl ⟨1, p, by omega, fun n => by rw [Nat.add_comm, items, hx]⟩
    | ok r =>
      obtain ⟨r, l'⟩ := r
      cases r with
      | none =>
        exact .inr (.inl ⟨[], by simp, by simp, fun n => by
          rw [Nat.add_right_comm, items, hx]⟩)
      | some x =>
        obtain ⟨t, sp⟩ := x
        by_cases hu : t = .error .unknown
        · subst hu
          obtain ⟨_, _, h3⟩ := C27_unknown_repeats hx
          refine .inr (.inr ⟨[], (.error .unknown, sp), by simp, by simp, rfl, ?_⟩)
          intro n
          cases n with
          | zero => rfl
          | succ n =>
            simp only [List.length_nil, Nat.zero_add, List.nil_append]
            rw [items, hx]
            simp only [h3, List.replicate_succ]
        · obtain ⟨hlex, hne, _⟩ := next_some hx
          have hlt : l'.chars.length < l.chars.length := by
            rcases (C26_progress hlex).2 with ⟨h1, _⟩ | ⟨_, h1⟩ | ⟨h1, _⟩
            · exact absurd h1 hne
            · exact h1
            · exact absurd h1 hu
          first
          | omega
          | have step : ∀ n, items (n + 1) l = match items n l' with
                | .error p => .error p
                | .ok xs => .ok ((t, sp) :: xs) := fun n => by rw [items, hx]; rfl
            rcases ih l' (by omega) with ⟨m, p, h1, h2⟩ | ⟨xs, h1, h2, h3⟩ | ⟨xs, x, h1, h2, h3, h4⟩
            · exact .inl ⟨m + 1, p, by omega, fun n => by
                rw [Nat.add_right_comm, step, h2]⟩
            · refine .inr (.inl ⟨(t, sp) :: xs, by simpa using h1, ?_, fun n => ?_⟩)
              · intro y hy
                rcases List.mem_cons.1 hy with rfl | hy
                · exact hu
                · exact h2 y hy
              · rw [Nat.add_right_comm, step, h3]
            · refine .inr (.inr ⟨(t, sp) :: xs, x, by simpa using h1, ?_, h3, fun n => ?_⟩)
              · intro y hy
                rcases List.mem_cons.1 hy with rfl | hy
                · exact hu
                · exact h2 y hy
              · rw [List.length_cons, Nat.add_right_comm, step, h4]; rfl

/-- C27, everything that can happen: from any state, iterating over the tokens either panics, or
stops after at most as many tokens as there are characters left and without having reported an
unknown character, or after at most as many other tokens reports the same unknown character for
ever. -/
theorem C27_outcomes (l : Lexer) :
    (∃ m p, m ≤ l.chars.length + 1 ∧ ∀ n, items (m + n) l = .error p) ∨
    (∃ xs, xs.length ≤ l.chars.length ∧ (∀ x ∈ xs, x.1 ≠ .error .unknown) ∧
      ∀ n, items (l.chars.length + 1 + n) l = .ok xs) ∨
    (∃ xs x, xs.length ≤ l.chars.length ∧ (∀ x ∈ xs, x.1 ≠ .error .unknown) ∧
      x.1 = .error .unknown ∧ ∀ n, items (xs.length + n) l = .ok (xs ++ List.replicate n x)) :=
  items_trichotomy _ l (Nat.le_refl _)

/-- C27 exactly: where the lexer does not panic, the iterator stops if and only if it never reports
an unknown character. -/
theorem C27_stops_iff {l : Lexer} (h : ∀ n, ∃ xs, items n l = .ok xs) :
    (∃ n xs, items n l = .ok xs ∧ xs.length < n) ↔
      ∀ n xs, items n l = .ok xs → ∀ x ∈ xs, x.1 ≠ .error .unknown := by
  rcases C27_outcomes l with ⟨m, p, _, h1⟩ | ⟨ys, h1, h2, h3⟩ | ⟨ys, y, h1, h2, h3, h4⟩
  · obtain ⟨xs, hx⟩ := h (m + 0)
    rw [h1] at hx; cases hx
  · have hstop : ∃ n xs, items n l = .ok xs ∧ xs.length < n :=
      ⟨l.chars.length + 1 + 0, ys, h3 0, by omega⟩
    refine ⟨fun _ => ?_, fun _ => hstop⟩
    intro n xs hx x hmem
    rcases Nat.lt_or_ge n (l.chars.length + 1) with hn | hn
    · have := items_prefix hx (h3 0) (by omega)
      exact h2 x (this.1.subset hmem)
    · obtain ⟨d, rfl⟩ := Nat.le.dest hn
      rw [h3] at hx; cases hx; exact h2 x hmem
  · refine ⟨fun hs => ?_, fun hs => ?_⟩
    · obtain ⟨n, xs, hx, hlt⟩ := hs
      exfalso
      rcases Nat.lt_or_ge n ys.length with hn | hn
      · have h5 := (items_prefix hx (h4 0) (by omega)).2 hlt
        rw [h5] at hlt; simp at hlt; omega
      · obtain ⟨d, rfl⟩ := Nat.le.dest hn
        rw [h4] at hx; cases hx; simp at hlt
    · exact absurd h3 (hs _ _ (h4 1) y (by simp))

/-- C27, part that holds: iteration over a source in which every character can start a token or is
whitespace never reports an unknown character, so it stops unless the lexer panics. (Missing:
sources with other characters, which the code reports for ever unless they are in a literal or in
a comment.) -/
theorem C27_known_partial {src : Text} (hk : ∀ c ∈ src, ¬ UnknownChar c) {l : Lexer}
    (hl : Point src l) :
    (∃ m p, m ≤ l.chars.length + 1 ∧ ∀ n, items (m + n) l = .error p) ∨
    (∃ xs, xs.length ≤ l.chars.length ∧ ∀ n, items (l.chars.length + 1 + n) l = .ok xs) := by
  have key : ∀ {n : Nat} {l : Lexer} {xs : List (Token × LocSpan)}, Point src l →
      items n l = .ok xs → ∀ x ∈ xs, x.1 ≠ .error .unknown := by
    intro n
    induction n with
    | zero => intro l xs _ h; cases h; simp
    | succ n ih =>
      intro l xs hl h
      unfold items at h
      split at h
      · cases h
      · cases h; simp
      · rename_i x l' hx
        split at h
        · cases h
        · rename_i ys hys
          cases h
          obtain ⟨t, sp⟩ := x
          have hl' := hl.next hx
          intro y hy
          rcases List.mem_cons.1 hy with rfl | hy
          · rintro rfl
            obtain ⟨hlex, _, _⟩ := next_some hx
            obtain ⟨m, hr, hm, h1⟩ := lexN_land hlex (Nat.lt_succ_self _)
            rcases h1 with ⟨_, h1, _⟩ | ⟨c, cs, hch, hws, hd⟩
            · cases h1
            · obtain rfl := dispatch_unknown hd
              rcases dispatch_progress hch hd with hlt | ⟨_, hu⟩
              · exact absurd hlt (by simp [OpRes.lexer])
              · obtain ⟨hs, ⟨pre, hat⟩, _⟩ := hl'.inv
                refine hk c ?_ ⟨hws, hu⟩
                rw [← hs, hat.src, hch]; simp
          · exact ih hl' hys y hy
  rcases C27_outcomes l with h | ⟨xs, h1, h2, h3⟩ | ⟨ys, y, h1, h2, h3, h4⟩
  · exact .inl h
  · exact .inr ⟨xs, h1, h3⟩
  · exact absurd h3 (key hl (h4 1) y (by simp))

/-- A printable ASCII character other than the blank. -/
def Visible (c : Char) : Prop := 33 ≤ c.toNat ∧ c.toNat ≤ 126

theorem visible_known {c : Char} (h : Visible c) : ¬ UnknownChar c := by
  rintro ⟨_, h2, h3, h4, h5⟩
  have ha : c.toNat < 128 := by have := h.2; omega
  have hall : ∀ n : Fin 127, 33 ≤ n.val → (let c := Char.ofNat n.val
      isDigit10 c || (asciiLower c || asciiUpper c || c == '_') || isInfixChar c ||
        t!";'\"`()[]{},".contains c) = true := by decide
  have hc := hall ⟨c.toNat, by have := h.2; omega⟩ h.1
  simp only [Char.ofNat_toNat] at hc
  rw [TLex.ascii_identStart ha] at h3
  simp_all

/-- C27 for everyday sources: if a source consists of printable ASCII characters and whitespace,
has no upper-case letter, no underscore and no line feed directly followed by a carriage return,
iteration stops, from whatever state the client starts. -/
theorem C27_ascii_stops_partial {src : Text} (hc : NoLFCR src)
    (ha : ∀ c ∈ src, isWhitespace c = true ∨ Visible c) (hn : ∀ c ∈ src, isUppercase c = false)
    (hu : '_' ∉ src) {l : Lexer} (hl : Point src l) :
    ∃ xs, xs.length ≤ l.chars.length ∧ ∀ n, items (l.chars.length + 1 + n) l = .ok xs := by
  have hlow : ∀ c ∈ src, isIdentStart c = true → isLowercase c = true := by
    intro c hm h
    have hne : c ≠ '_' := fun e => hu (e ▸ hm)
    simpa [isIdentStart, hasCase, hn c hm, hne] using h
  rcases C27_known_partial (src := src) (fun c hm hk => (ha c hm).elim
    (fun h => by rw [hk.1] at h; cases h) fun h => visible_known h hk) hl with ⟨m, p, _, h⟩ | h
  · exfalso
    have never : ∀ (n : Nat) {l : Lexer}, Point src l → ∃ xs, items n l = .ok xs := by
      intro n
      induction n with
      | zero => exact fun _ => ⟨_, rfl⟩
      | succ n ih =>
        intro l hl
        obtain ⟨⟨r, l'⟩, hx⟩ := C36_lower_case_partial hc hlow hl
        cases r with
        | none => exact ⟨[], by rw [items, hx]⟩
        | some x =>
          obtain ⟨xs, hxs⟩ := ih (hl.next hx)
          exact ⟨x :: xs, by rw [items, hx]; simp only [hxs]⟩
    obtain ⟨xs, hxs⟩ := never (m + 0) hl
    rw [h] at hxs; cases hxs
  · exact h

example : NoLFCR t!"let x = 1 ~~ c\n in x" ∧
    (∀ c ∈ t!"let x = 1 ~~ c\n in x", isWhitespace c = true ∨ Visible c) ∧
    (∀ c ∈ t!"let x = 1 ~~ c\n in x", asciiUpper c = false) ∧ '_' ∉ t!"let x = 1 ~~ c\n in x" := by
  refine ⟨by unfold NoLFCR; decide, ?_, by decide, by decide⟩
  unfold Visible; decide

example : ∃ sp l', @next asciiTables (new t!" \x01") = .ok (some (.error .unknown, sp), l') :=
  ⟨⟨⟨1, 2, 1⟩, ⟨1, 2, 1⟩⟩, new t!" \x01", by decide⟩

end
end Lexer
end Pemdas
