import Verif.Lemmas.Viable
import Verif.Spec.BadWord
import Verif.Props.Join
/-
Reading the beginning of a text, and replacing what follows it.
-/
namespace Pemdas
open Lexer
set_option linter.unusedSectionVars false

section
variable [CharTables]

/-- `TokRun src s us z`: the tokens `us`, no errors, are read from the rest `s` of the text `src`,
ending at the given locations, and the rest `z` is left. -/
inductive TokRun (src : Text) : Text → List (Token × Loc) → Text → Prop
  | nil {s} : TokRun src s [] s
  | cons {s t r us pre z} : TLex.lex s = .ok (t, r) → (t ≠ .eof ∧ ∀ e, t ≠ .error e) →
      src = pre ++ r → TokRun src r us z → TokRun src s ((t, locOf pre) :: us) z

theorem TokRun.snoc {src s : Text} {us : List (Token × Loc)} {z : Text} (h : TokRun src s us z) :
    ∀ {t : Token} {r pre : Text}, TLex.lex z = .ok (t, r) → (t ≠ .eof ∧ ∀ e, t ≠ .error e) →
      src = pre ++ r → TokRun src s (us ++ [(t, locOf pre)]) r := by
  induction h with
  | nil => intro t r pre h1 h2 h3; exact .cons h1 h2 h3 .nil
  | cons h1 h2 h3 _ ih => intro t r pre a b c; exact .cons h1 h2 h3 (ih a b c)

theorem TokRun.hasC {src s : Text} {us : List (Token × Loc)} {z : Text} (h : TokRun src s us z)
    {cs : List CTok} (hz : TLex.HasC src z cs) :
    TLex.HasC src s (us.map (fun u => (u.1, u.2.col)) ++ cs) := by
  induction h with
  | nil => exact hz
  | cons h1 h2 h3 _ ih => exact .cons h1 h2 h3 (ih hz)

end
section
variable [CharTables] [LawfulTables]

theorem Skips.lex {g rest : Text} (h : Skips g rest) : TLex.lex (g ++ rest) = TLex.lex rest := by
  induction h with
  | nil => rfl
  | space hc _ ih => exact (TLex.lex_space hc).trans ih
  | line h1 h2 h3 _ ih =>
    rw [List.append_assoc]
    exact (TLex.lex_line_max h1 h2 h3).trans ih
  | @block b x g rest hb hx _ ih =>
    rw [List.append_assoc, List.append_assoc, TLex.lex_comment hb, ← ih]
    congr 1
    rcases hx with hx | ⟨rfl, hr⟩
    · match x, hx with
      | [a], _ => rfl
    · rw [List.nil_append, hr]; rfl

theorem Skips.change {g rest rest' : Text} (h : Skips g rest) (hne : rest ≠ [])
    (hh : rest.head? = rest'.head?) : Skips g rest' := by
  have hne' : rest' ≠ [] := by
    rintro rfl; cases rest with
    | nil => exact hne rfl
    | cons => cases hh
  have key : ∀ s : Text, (s ++ rest).head? = (s ++ rest').head? := by
    intro s; cases s with
    | nil => exact hh
    | cons => rfl
  induction h with
  | nil => exact .nil
  | space hc _ ih => exact .space hc (ih hne hh key)
  | @line b g rest h1 h2 h3 _ ih =>
    refine .line h1 ?_ ?_ (ih hne hh key)
    · unfold Maximal at h2 ⊢
      rw [← List.append_assoc, ← key, List.append_assoc]; exact h2
    · rw [← key]; exact h3
  | @block b x g rest hb hx _ ih =>
    refine .block hb ?_ (ih hne hh key)
    rcases hx with hx | ⟨_, hr⟩
    · exact .inl hx
    · exact absurd (List.append_eq_nil_iff.1 hr).2 hne

theorem lexN_split {n : Nat} : ∀ {s r : Text} {t : Token}, TLex.lexN n s = .ok (t, r) →
    s.length < n → t ≠ .eof → (∀ e, t ≠ .error e) →
    ∃ g w, s = g ++ (w ++ r) ∧ TokenAt t w r ∧ Skips g (w ++ r) := by
  induction n with
  | zero => intro s r t _ h; omega
  | succ n ih =>
    intro s r t h hl hne he
    have ws : ∀ s : Text, (∃ g w, s.dropWhile isWhitespace = g ++ (w ++ r) ∧ TokenAt t w r ∧
        Skips g (w ++ r)) → ∃ g w, s = g ++ (w ++ r) ∧ TokenAt t w r ∧ Skips g (w ++ r) := by
      intro s
      induction s with
      | nil => exact id
      | cons c s ih =>
        rw [List.dropWhile_cons]
        split
        · rename_i hc
          intro hh
          obtain ⟨g, w, rfl, h2, h3⟩ := ih hh
          exact ⟨c :: g, w, rfl, h2, .space hc h3⟩
        · exact id
    apply ws
    unfold TLex.lexN at h
    have hlen := (List.dropWhile_suffix (l := s) isWhitespace).length_le
    cases hd : s.dropWhile isWhitespace with
    | nil =>
      rw [hd] at h
      injection h with h
      injection h with h2 h3
      exact absurd h2.symm hne
    | cons c cs =>
      rw [hd] at h hlen
      simp only at h
      cases hx : TLex.dispatch (c :: cs) c with
      | error p => rw [hx] at h; cases h
      | ok z =>
        rw [hx] at h
        cases z with
        | tok t' r' =>
          injection h with h
          injection h with h2 h3
          subst h2 h3
          obtain ⟨w, hw, ht⟩ := TLex.dispatch_sound hx he
          exact ⟨[], w, hw, ht, .nil⟩
        | skipped r' =>
          simp only at h
          obtain ⟨hi, ho⟩ := TLex.dispatch_skipped hx
          have hlt := TLex.operator_skipped hi ho
          obtain ⟨g, w, rfl, h2, h3⟩ := ih h (by omega) hne he
          rcases TLex.operator_skips ho with ⟨b, e1, e2, e3, e4⟩ | ⟨b, x, e1, e2, e3⟩
          · exact ⟨_, w, by rw [e1]; simp, h2, .line e2 e3 e4 h3⟩
          · exact ⟨_, w, by rw [e1]; simp, h2, .block e2 e3 h3⟩

theorem lex_split {s r : Text} {t : Token} (h : TLex.lex s = .ok (t, r)) (hne : t ≠ .eof)
    (he : ∀ e, t ≠ .error e) : ∃ g w, s = g ++ (w ++ r) ∧ TokenAt t w r ∧ Skips g (w ++ r) :=
  lexN_split h (Nat.lt_succ_self _) hne he

theorem NoCodeEnd.suffix {p s : Text} (h : NoCodeEnd (p ++ s)) : NoCodeEnd s :=
  fun p' u q hu he => h (p ++ p') u q hu (by rw [he]; simp)

/-- What may follow the token `t` instead of what follows it. -/
def MayFollow (t : Token) (r' : Text) : Prop :=
  ∀ c ∈ r'.head?, ((∀ x, t ≠ .affix x true) → isWhitespace c = true) ∧
    ∀ x, t = .affix x true → c = '~'

theorem TokenAt.ne_nil {t : Token} {w r : Text} (h : TokenAt t w r) : w ≠ [] := by
  cases h with
  | keyword h => rintro rfl; revert h; simp [keywordTokens]
  | reserved h => rintro rfl; revert h; simp [reservedTokens]
  | lower h => obtain ⟨c, y, rfl, _⟩ := h; simp
  | op h => obtain ⟨c, y, rfl, _⟩ := h; simp
  | int h => exact h
  | _ => simp

theorem TokenAt.change {t : Token} {w z r' : Text} (h : TokenAt t w z) (hf : MayFollow t r')
    (hcode : r' ≠ [] → z = [] → NoCodeEnd w) : TokenAt t w r' := by
  have max : ∀ (p : Char → Bool), (∀ c, Seals c → p c = false) → (∀ x, t ≠ .affix x true) →
      Maximal p w r' := by
    intro p hp ht
    refine TLex.Maximal.of_head fun c hc => ?_
    have := Seals.of_ws ((hf c hc).1 ht)
    exact ⟨hp c this, this.2.1⟩
  have kw : ∀ {t w}, (t, w) ∈ keywordTokens → ∀ x, t ≠ .affix x true := by
    rintro t w h x rfl; revert h; simp [keywordTokens]
  have rs : ∀ {t w}, (t, w) ∈ reservedTokens → ∀ x, t ≠ .affix x true := by
    rintro t w h x rfl; revert h; simp [reservedTokens]
  cases h with
  | punct h => exact .punct h
  | keyword h hm => exact .keyword h (max _ (fun c h => h.1) (kw h))
  | lower h hm => exact .lower h (max _ (fun c h => h.1) (by simp))
  | reserved h hm => exact .reserved h (max _ (fun c h => h.2.2.1) (rs h))
  | op h hm _ =>
    refine .op h (max _ (fun c h => h.2.2.1) (by simp)) fun _ hh => ?_
    have := (hf '{' (by rw [hh]; rfl)).1 (by simp)
    revert this; decide
  | backticks h => exact .backticks h
  | @apostrophe x _ h hm hh =>
    have tl : ∀ c ∈ r'.head?, c = '~' := fun c hc => (hf c hc).2 x rfl
    refine .apostrophe h (TLex.Maximal.of_head fun c hc => ?_) ?_
    · rw [tl c hc]
      exact ⟨by rw [TLex.ascii_identChar (by decide)]; decide, by decide⟩
    · intro d hd
      cases hx : x.tail with
      | nil =>
        rw [hx] at hd
        rw [tl d hd]; decide
      | cons e y =>
        rw [hx] at hd
        exact hh d (by rw [hx]; exact hd)
  | blank h1 h2 => exact .blank h1 h2
  | int h1 h2 h3 h4 =>
    refine .int h1 h2 h3 fun d hd => ?_
    exact (Seals.of_ws ((hf d hd).1 (by simp))).2.2.2.1
  | char h => exact .char h
  | charEscape h => exact .charEscape h
  | @charCode u c plus ds x _ h1 h2 h3 h4 h5 h6 h7 =>
    refine .charCode h1 h2 h3 h4 h5 h6 ?_
    rcases h7 with h7 | ⟨rfl, rfl⟩
    · exact .inl h7
    · by_cases hr : r' = []
      · exact .inr ⟨rfl, hr⟩
      · have := hcode hr rfl [] u (plus ++ ds) h1 rfl
        rcases List.mem_append.1 this with hm | hm
        · simp only [List.mem_cons, List.not_mem_nil, or_false] at h2
          rcases h2 with rfl | rfl
          · cases hm
          · exact absurd hm (by decide)
        · exact absurd (List.all_eq_true.1 h4 _ hm) (by decide)
  | str h => exact .str h

theorem TokenAt.sameHead {t : Token} {w s s' : Text} (h : TokenAt t w s) (hne : s ≠ [])
    (hh : s.head? = s'.head?) : TokenAt t w s' := by
  cases h with
  | punct h => exact .punct h
  | keyword h hm => exact .keyword h (by unfold Maximal at hm ⊢; rw [← hh]; exact hm)
  | lower h hm => exact .lower h (by unfold Maximal at hm ⊢; rw [← hh]; exact hm)
  | reserved h hm => exact .reserved h (by unfold Maximal at hm ⊢; rw [← hh]; exact hm)
  | op h hm h2 => exact .op h (by unfold Maximal at hm ⊢; rw [← hh]; exact hm) (by rw [← hh]; exact h2)
  | backticks h => exact .backticks h
  | @apostrophe x _ h hm h2 =>
    refine .apostrophe h (by unfold Maximal at hm ⊢; rw [← hh]; exact hm) ?_
    cases hx : x.tail with
    | nil => rw [hx] at h2; simp only [List.nil_append] at h2 ⊢; rw [← hh]; exact h2
    | cons => rw [hx] at h2; exact h2
  | blank h1 h2 => exact .blank h1 h2
  | int h1 h2 h3 h4 => exact .int h1 h2 h3 (by rw [← hh]; exact h4)
  | char h => exact .char h
  | charEscape h => exact .charEscape h
  | charCode h1 h2 h3 h4 h5 h6 h7 =>
    refine .charCode h1 h2 h3 h4 h5 h6 ?_
    rcases h7 with h7 | ⟨_, rfl⟩
    · exact .inl h7
    · exact absurd rfl hne
  | str h => exact .str h

/-- The text from which tokens were read can be followed by something else. -/
theorem TokRun.change {src s : Text} {us : List (Token × Loc)} {z : Text} (h : TokRun src s us z) :
    ∀ {pre : Text}, src = pre ++ s → ∃ a, s = a ++ z ∧ (us = [] → a = []) ∧ (us ≠ [] → a ≠ []) ∧ ∀ r' : Text,
      (∀ x ∈ us.getLast?, MayFollow x.1 r') → (r' ≠ [] → z = [] → NoCodeEnd s) →
      TokRun (pre ++ (a ++ r')) (a ++ r') us r' := by
  induction h with
  | nil => exact fun _ => ⟨[], rfl, fun _ => rfl, fun h => absurd rfl h, fun _ _ _ => .nil⟩
  | @cons s t r us pre z h1 h2 h3 _ ih =>
    intro pre' hs
    obtain ⟨g, w, hw, ht, hg⟩ := lex_split h1 h2.1 h2.2
    have hp : pre = pre' ++ (g ++ w) := by
      refine List.append_cancel_right (bs := r) ?_
      rw [← h3, hs, hw]; simp
    obtain ⟨a, ha, hnil, hnil', hx⟩ := ih h3
    refine ⟨g ++ w ++ a, by rw [hw, ha]; simp, by simp, by simp [ht.ne_nil], fun r' hl hc => ?_⟩
    have e : g ++ w ++ a ++ r' = g ++ (w ++ (a ++ r')) := by simp
    have hrun := hx r' ?_ ?_
    · have hhead : (w ++ r).head? = (w ++ (a ++ r')).head? := by
        cases w with
        | nil => exact absurd rfl ht.ne_nil
        | cons => rfl
      have hg' := hg.change (by simp [ht.ne_nil]) hhead
      have ht' : TokenAt t w (a ++ r') := by
        cases a with
        | nil =>
          cases us with
          | cons u us =>
            exact absurd rfl (hnil' (by simp))
          | nil =>
            have hz : r = z := by simpa using ha
            subst hz
            rw [List.nil_append]
            refine ht.change (hl (t, locOf pre) (by simp)) fun hr hz => ?_
            have := hc hr hz
            rw [hw, hz, List.append_nil] at this
            exact this.suffix
        | cons c a => exact ht.sameHead (by rw [ha]; simp) (by rw [ha]; rfl)
      rw [e]
      refine .cons (hg'.lex.trans (TLex.TokenAt.lex ht').1) h2 (by rw [hp]; simp) ?_
      rw [hp] at hrun
      simpa using hrun
    · intro x hx
      refine hl x ?_
      cases us with
      | nil => cases hx
      | cons u us => rw [List.getLast?_cons_cons]; exact hx
    · intro hr hz
      have := hc hr hz
      rw [hw, ← List.append_assoc] at this
      exact this.suffix

/-! ### the tokens consumed -/

/-- From state `l`, the tokens `us` are consumed one by one. -/
inductive Ate (l : Lexer) : List (Token × Loc) → Lexer → Prop
  | nil : Ate l [] l
  | snoc {us m t m'} : Ate l us m → P.peek m = .ok t m' → t ≠ .eof → (∀ e, t ≠ .error e) →
      Ate l (us ++ [(t, m'.currLoc)]) { m' with curr := none }

theorem peek_curr_of {m m' : Lexer} {t : Token} (h : P.peek m = .ok t m') (hne : t ≠ .eof) :
    m'.curr = some t := P.Local.peek_knows (x := none) h _ t rfl hne

theorem peek_again {m m' : Lexer} {t : Token} (h : P.peek m = .ok t m') : P.peek m' = .ok t m' := by
  by_cases ht : t = .eof
  · subst ht; exact peek_eof_again h
  · exact P.peek_curr (peek_curr_of h ht)

theorem Takes.ate {l m : Lexer} {us : List (Token × Loc)} (h : Takes l us m) :
    ∃ k, Ate l us k ∧ (k = m ∨ ∃ t, P.peek k = .ok t m) := by
  induction h with
  | refl => exact ⟨l, .nil, .inl rfl⟩
  | @peek us m m' t _ hp ih =>
    obtain ⟨k, h1, h2⟩ := ih
    refine ⟨k, h1, .inr ?_⟩
    rcases h2 with rfl | ⟨t', h2⟩
    · exact ⟨t, hp⟩
    · rw [peek_again h2] at hp
      cases hp
      exact ⟨_, h2⟩
  | @bump us m t _ hc ht he ih =>
    obtain ⟨k, h1, h2⟩ := ih
    refine ⟨{ m with curr := none }, ?_, .inl rfl⟩
    rcases h2 with rfl | ⟨t', h2⟩
    · exact .snoc h1 (P.peek_curr hc) ht he
    · have := peek_again h2
      rw [P.peek_curr hc] at this
      cases this
      exact .snoc h1 h2 ht he

theorem Ate.takes {l k : Lexer} {us : List (Token × Loc)} (h : Ate l us k) : Takes l us k := by
  induction h with
  | nil => exact .refl
  | snoc _ hp ht he ih => exact .bump (.peek ih hp) (peek_curr_of hp ht) ht he

theorem Ate.unique {l k : Lexer} {us : List (Token × Loc)} (h : Ate l us k) :
    ∀ {vs k'}, Ate l vs k' → us.length = vs.length → us = vs ∧ k = k' := by
  induction h with
  | nil =>
    intro vs k' h hl
    cases h with
    | nil => exact ⟨rfl, rfl⟩
    | snoc => simp at hl
  | @snoc us m t m' _ hp _ _ ih =>
    intro vs k' h hl
    cases h with
    | nil => simp at hl
    | snoc h' hp' _ _ =>
      obtain ⟨rfl, rfl⟩ := ih h' (by simpa using hl)
      rw [hp] at hp'
      cases hp'
      exact ⟨rfl, rfl⟩

theorem Ate.more {l k : Lexer} {us : List (Token × Loc)} (h : Ate l us k) :
    ∀ {vs k'}, Ate l vs k' → vs.length < us.length → ∃ xs, xs ≠ [] ∧ us = vs ++ xs ∧ Ate k' xs k := by
  induction h with
  | nil => intro vs k' _ hl; simp at hl
  | @snoc us m t m' hm hp ht he ih =>
    intro vs k' h hl
    by_cases hv : vs.length = us.length
    · obtain ⟨rfl, rfl⟩ := h.unique hm hv
      exact ⟨[(t, m'.currLoc)], by simp, rfl, .snoc .nil hp ht he⟩
    · obtain ⟨xs, h1, rfl, h2⟩ := ih h (by simp at hl; omega)
      exact ⟨xs ++ [(t, m'.currLoc)], by simp, by simp, .snoc h2 hp ht he⟩

theorem Ate.peeked {l k : Lexer} {us : List (Token × Loc)} (h : Ate l us k) :
    ∀ {t m}, us ≠ [] → P.peek l = .ok t m → Ate m us k := by
  induction h with
  | nil => intro t m h; exact absurd rfl h
  | @snoc us m t m' hm hp ht he ih =>
    intro t' m'' _ hp'
    by_cases hu : us = []
    · obtain ⟨_, rfl⟩ := hm.unique .nil (by rw [hu])
      subst hu
      rw [hp] at hp'
      cases hp'
      exact .snoc .nil (peek_again hp) ht he
    · exact .snoc (ih hu hp') hp ht he

theorem Takes.eats {l k : Lexer} {us : List (Token × Loc)} (h : Takes l us k) :
    Eats l (us.map (·.1)) k := by
  induction h with
  | refl => exact .refl
  | @peek us m m' t _ hp ih =>
    unfold P.peek at hp
    split at hp
    · cases hp
    · rename_i hx; cases hp; exact .peek ih hx
    · rename_i hx; cases hp; exact .peek ih hx
  | bump _ hc _ he ih => rw [List.map_append]; exact .bump ih hc he

theorem P.peek_weight {k m : Lexer} {t : Token} (h : P.peek k = .ok t m) : m.weight ≤ k.weight := by
  have := (Takes.eats (.peek .refl h)).weight
  simpa using this

/-- How many tokens were consumed can be told from the state. -/
theorem Takes.length {l m : Lexer} {us vs : List (Token × Loc)} (h : Takes l us m)
    (h' : Takes l vs m) : us.length = vs.length := by
  have key : ∀ {us vs : List (Token × Loc)}, Takes l us m → Takes l vs m → vs.length < us.length →
      False := by
    intro us vs h h' hl
    obtain ⟨k, h1, h2⟩ := h.ate
    obtain ⟨k', h3, h4⟩ := h'.ate
    obtain ⟨xs, hx, _, h5⟩ := h1.more h3 hl
    have hpos := List.length_pos_iff.2 hx
    have h6 : Ate m xs k := by
      rcases h4 with rfl | ⟨t, h4⟩
      · exact h5
      · exact h5.peeked hx h4
    have h7 := h6.takes.eats.weight
    rw [List.length_map] at h7
    have h8 : m.weight ≤ k.weight := by
      rcases h2 with rfl | ⟨t, h2⟩
      · exact Nat.le_refl _
      · exact P.peek_weight h2
    omega
  rcases Nat.lt_trichotomy us.length vs.length with h1 | h1 | h1
  · exact (key h' h h1).elim
  · exact h1
  · exact (key h h' h1).elim

theorem Ate.curr {l k : Lexer} {us : List (Token × Loc)} (h : Ate l us k) (hc : l.curr = none) :
    k.curr = none := by
  cases h with
  | nil => exact hc
  | snoc => rfl

/-- Peeking where nothing has been peeked at is lexing. -/
theorem peek_lex {m m' : Lexer} {t : Token} (hc : m.curr = none) (h : P.peek m = .ok t m') :
    m.lex = .ok (t, { m' with curr := none }) := by
  unfold P.peek Lexer.peek at h
  rw [hc] at h
  simp only at h
  cases hx : m.lex with
  | error p => rw [hx] at h; cases h
  | ok y =>
    obtain ⟨t', k⟩ := y
    have hk : k.curr = none := by rw [(reach_lex hx).curr, hc]
    rw [hx] at h
    by_cases ht : t' = .eof
    · subst ht
      cases h
      cases m'; cases hk; rfl
    · have : P.peek m = .ok t' { k with curr := some t' } := by
        unfold P.peek Lexer.peek
        rw [hc, hx]
        cases t' <;> first | exact absurd rfl ht | rfl
      rw [show P.peek m = .ok t m' by unfold P.peek Lexer.peek; rw [hc, hx]; exact h] at this
      cases this
      cases k; cases hk; rfl

theorem Ate.items {l k : Lexer} {us : List (Token × Loc)} (h : Ate l us k) (hc : l.curr = none) :
    ∃ zs : List (Token × LocSpan), zs.map (fun z => (z.1, z.2.hi)) = us ∧
      ∀ n xs, Lexer.items n k = .ok xs → Lexer.items (us.length + n) l = .ok (zs ++ xs) := by
  induction h with
  | nil => exact ⟨[], rfl, fun n xs h => by simpa using h⟩
  | @snoc us m t m' hm hp ht he ih =>
    obtain ⟨zs, h1, h2⟩ := ih
    have hn := next_of_lex (peek_lex (hm.curr hc) hp) ht
    refine ⟨zs ++ [(t, ⟨m'.prevLoc, m'.currLoc⟩)], by simp [h1], fun n xs hx => ?_⟩
    have : Lexer.items (n + 1) m = .ok ((t, ⟨m'.prevLoc, m'.currLoc⟩) :: xs) := by
      unfold Lexer.items
      rw [hn]
      simp only [hx]
      rfl
    have h3 := h2 _ _ this
    simp only [List.append_assoc, List.singleton_append]
    rw [← h3]
    congr 1
    simp; omega

/-! ### texts that begin with the same tokens -/

theorem TokRun.items {src s : Text} {us : List (Token × Loc)} {z : Text} (h : TokRun src s us z) :
    ∀ l : Lexer, l.Sync → l.src = src → TLex.lex l.chars = TLex.lex s →
      ∃ xs, Lexer.items us.length l = .ok xs ∧ ends xs = us := by
  induction h with
  | nil => intro l _ _ _; exact ⟨[], rfl, rfl⟩
  | @cons s t r us pre z h hne hp _ ih =>
    intro l hl hs hc
    obtain ⟨t', sp, l', h1, h2, h3⟩ := hl.next (hc.trans h) hne.1
    have ht : t' = t := by
      cases t' with
      | error e => exact absurd h2.symm (hne.2 _)
      | _ => exact h2
    obtain ⟨hx, hne', hsp⟩ := next_some h1
    have hr := reach_lex hx
    have hl' := hl.reach hr
    obtain ⟨xs, h4, h5⟩ := ih l' hl' (hr.src.trans hs) (by rw [h3])
    obtain ⟨pre', h7, h8⟩ := hl'.pos
    have : pre' = pre := by
      rw [hr.src, hs, h3, hp] at h7
      exact (List.append_cancel_right h7).symm
    refine ⟨(t', sp) :: xs, ?_, ?_⟩
    · simp only [List.length_cons]
      unfold Lexer.items
      rw [h1]
      simp only
      rw [h4]
    · show (t', sp.hi) :: ends xs = _
      rw [h5, ht, hsp]
      simp only [h8, this]

theorem src_new (src : Text) : (Lexer.new src).src = src := by
  unfold Lexer.new; exact (reach_eatWhitespace _).src

theorem lex_new {src : Text} (hc : NoLFCR src) :
    TLex.lex (Lexer.new src).chars = TLex.lex src := by
  have hch : (Lexer.new src).chars = src.dropWhile isWhitespace := by
    have h0 : Sync (⟨src, src, none, 1, 1, 0, Loc.default⟩ : Lexer) :=
      ⟨⟨[], ⟨rfl, rfl, by simp⟩⟩, hc⟩
    exact h0.eatWhitespace
  rw [hch, TLex.lex_dropWhile]

theorem TokRun.new {src : Text} {us : List (Token × Loc)} {z : Text} (h : TokRun src src us z)
    (hc : NoLFCR src) : ∃ xs, Lexer.items us.length (Lexer.new src) = .ok xs ∧ ends xs = us :=
  h.items _ (sync_new hc) (src_new src) (lex_new hc)

theorem Ate.run {src : Text} (hc : NoLFCR src) {us : List (Token × Loc)} {k : Lexer}
    (h : Ate (Lexer.new src) us k) : ∃ z, TokRun src src us z ∧ TLex.lex z = TLex.lex k.chars ∧
      k.Sync ∧ k.src = src ∧ (us ≠ [] → z = k.chars) := by
  induction h with
  | nil => exact ⟨src, .nil, (lex_new hc).symm, sync_new hc, src_new src, fun h => absurd rfl h⟩
  | @snoc us m t m' hm hp ht he ih =>
    obtain ⟨z, h1, h2, h3, h4, _⟩ := ih
    have hx := peek_lex (hm.curr (curr_new' src)) hp
    have hr := reach_lex hx
    have hs := h3.reach hr
    have hl := sync_lex h3
    rw [hx, ← h2] at hl
    have hnl : t.noLoc = t := by
      cases t with
      | error e => exact absurd rfl (he e)
      | _ => rfl
    obtain ⟨pre, hp1, hp2⟩ := hs.pos
    have hsrc : ({ m' with curr := none } : Lexer).src = src := hr.src.trans h4
    refine ⟨m'.chars, ?_, rfl, hs, hsrc, fun _ => rfl⟩
    have := h1.snoc (t := t) (r := m'.chars) (pre := pre) (by rw [← hl]; simp [proj, Except.map, hnl])
      ⟨ht, he⟩ (by rw [← hsrc]; exact hp1)
    rw [← hp2] at this
    exact this

theorem items_peek {n : Nat} {l : Lexer} {x : Token × LocSpan} {xs : List (Token × LocSpan)}
    (hc : l.curr = none) (h : Lexer.items (n + 1) l = .ok (x :: xs)) :
    ∃ m, P.peek l = .ok x.1 m ∧ m.curr = some x.1 ∧ m.currLoc = x.2.hi ∧ x.1 ≠ .eof ∧
      Lexer.items n { m with curr := none } = .ok xs := by
  obtain ⟨l', h1, h2⟩ := items_cons h
  obtain ⟨t, sp⟩ := x
  obtain ⟨hx, hne, rfl⟩ := next_some h1
  have hc' := next_curr h1 hc
  refine ⟨{ l' with curr := some t }, ?_, rfl, rfl, hne, ?_⟩
  · unfold P.peek Lexer.peek
    rw [hc]
    simp only [hx]
  · have : ({ l' with curr := none } : Lexer) = l' := by cases l'; simp_all
    show Lexer.items n { l' with curr := none } = _
    rw [this]; exact h2

theorem agree_of_items {n : Nat} : ∀ {l l₂ : Lexer} {xs ys : List (Token × LocSpan)},
    l.curr = none → l₂.curr = none → l.currLoc = l₂.currLoc →
    Lexer.items n l = .ok xs → Lexer.items n l₂ = .ok ys → ends xs = ends ys → xs.length = n →
    Agree n l l₂ := by
  induction n with
  | zero => intros; trivial
  | succ n ih =>
    intro l l₂ xs ys hc hc₂ hl hx hy he hn
    match xs, ys, he, hn with
    | x :: xs, y :: ys, he, hn =>
      simp only [ends, List.map_cons, List.cons.injEq, Prod.mk.injEq] at he
      obtain ⟨m, h1, h2, h3, h4, h5⟩ := items_peek hc hx
      obtain ⟨m₂, k1, k2, k3, k4, k5⟩ := items_peek hc₂ hy
      rw [← he.1.1] at k1 k2
      rw [← he.1.2] at k3
      refine ⟨hl, by rw [hc, hc₂], x.1, m, m₂, h1, k1, h3.trans k3.symm, fun _ => ⟨h2, k2, ?_⟩,
        fun h => absurd h h4⟩
      exact ih rfl rfl (h3.trans k3.symm) h5 k5 he.2 (by simpa using hn)

/-- The first tokens have been peeked at. -/
theorem agree_peeked {n : Nat} {l l₂ : Lexer} {xs ys : List (Token × LocSpan)}
    (hc : l.curr = none) (hc₂ : l₂.curr = none) (hx : Lexer.items (n + 1) l = .ok xs)
    (hy : Lexer.items (n + 1) l₂ = .ok ys) (he : ends xs = ends ys) (hn : xs.length = n + 1) :
    ∃ t m m₂, P.peek l = .ok t m ∧ P.peek l₂ = .ok t m₂ ∧ t ≠ .eof ∧ Agree (n + 1) m m₂ := by
  match xs, ys, he, hn with
  | x :: xs, y :: ys, he, hn =>
    simp only [ends, List.map_cons, List.cons.injEq, Prod.mk.injEq] at he
    obtain ⟨m, h1, h2, h3, h4, h5⟩ := items_peek hc hx
    obtain ⟨m₂, k1, k2, k3, k4, k5⟩ := items_peek hc₂ hy
    rw [← he.1.1] at k1 k2
    rw [← he.1.2] at k3
    refine ⟨x.1, m, m₂, h1, k1, h4, h3.trans k3.symm, by rw [h2, k2], x.1, m, m₂, P.peek_curr h2,
      P.peek_curr k2, h3.trans k3.symm, fun _ => ⟨h2, k2, ?_⟩, fun h => absurd h h4⟩
    exact agree_of_items rfl rfl (h3.trans k3.symm) h5 k5 he.2 (by simpa using hn)

theorem isDone_peeked {l m : Lexer} {t : Token} (h : P.peek l = .ok t m) {β : Type}
    (f : Bool → P β) : (P.isDone >>= f) l = (P.isDone >>= f) m := by
  have e1 : P.isDone l = .ok (decide (t = .eof)) m := by
    unfold P.isDone; rw [P.bind_ok h]; rfl
  have e2 : P.isDone m = .ok (decide (t = .eof)) m := by
    unfold P.isDone; rw [P.bind_ok (peek_again h)]; rfl
  rw [P.bind_ok e1, P.bind_ok e2]

/-- Parsing a program begins with peeking. -/
theorem parseInto_peeked (n : Nat) (ast : Ast) {l m : Lexer} {t : Token} (h : P.peek l = .ok t m) :
    Parser.parseInto (n + 1) ast l = Parser.parseInto (n + 1) ast m := by
  unfold Parser.parseInto
  exact isDone_peeked h _

/-! ### what is known where parsing fails -/

theorem fuelFor_succ (src : Text) : ∃ n, Parser.fuelFor src = n + 1 := by
  unfold Parser.fuelFor; exact ⟨16 * src.length + 15, by omega⟩

/-- If the source is rejected, it begins with the tokens `us`, and the error is about the next. -/
theorem parse_err {src : Text} {e : ParseError} {l' : Lexer} (h : parse src = .err e l') :
    ∃ t m us k, P.peek (Lexer.new src) = .ok t m ∧ Takes m us l' ∧ Ate (Lexer.new src) us k ∧
      P.peek k = .ok e.found l' ∧ (e.loc = k.currLoc ∨ e.loc = l'.currLoc) ∧
      (us = [] → e.loc = l'.currLoc) ∧
      ∀ src' t' m₂, P.peek (Lexer.new src') = .ok t' m₂ → Agree (us.length + 1) m m₂ →
        ∃ l'', parse src' = .err e l'' := by
  obtain ⟨n, hn⟩ := fuelFor_succ src
  have h0 := h
  unfold parse at h
  rw [hn] at h
  cases hp : P.peek (Lexer.new src) with
  | err e m => exact absurd hp (peek_ne_err _ _ _)
  | panic p =>
    unfold Parser.parseInto P.isDone at h
    simp only [Bind.bind, P.bind, hp] at h
    cases h
  | fuel =>
    unfold P.peek at hp
    split at hp <;> cases hp
  | ok t m =>
    rw [parseInto_peeked n _ hp] at h
    have hl := Parser.parseInto_local (n + 1) (o := none) Ast.empty m (by simp [Knows])
    rw [h] at hl
    obtain ⟨us, h1, hb, htr⟩ := hl
    obtain ⟨l₀, h2, h3, h4⟩ := hb.resolve_right (by rintro ⟨_, _, h⟩; cases h)
    obtain ⟨k, h5, h6⟩ := (Takes.trans (.peek .refl hp) h2).ate
    rw [List.nil_append] at h5
    refine ⟨t, m, us, k, rfl, h1, h5, ?_, ?_, ?_, ?_⟩
    · rcases h6 with rfl | ⟨t', h6⟩
      · exact h3
      · rw [peek_again h6] at h3
        cases h3
        exact h6
    · rcases h6 with rfl | ⟨t', h6⟩
      · exact .inl h4
      · rw [peek_again h6] at h3
        cases h3
        exact .inr h4
    · rintro rfl
      obtain ⟨k', h7, h8⟩ := h2.ate
      obtain ⟨_, rfl⟩ := h7.unique .nil rfl
      have : l₀ = k' := by
        rcases h8 with h8 | ⟨t', h8⟩
        · exact h8.symm
        · rw [peek_again hp] at h8
          cases h8; rfl
      subst this
      rw [peek_again hp] at h3
      cases h3
      exact h4
    · intro src' t' m₂ hp₂ hag
      obtain ⟨l₂', h7, _⟩ := htr m₂ us.length hag (Nat.le_refl _)
      rw [← parseInto_peeked n _ hp₂, ← hn] at h7
      refine ⟨l₂', ?_⟩
      have hb := same_of_below (m := fun n => Parser.parseInto n Ast.empty)
        (fun k => Parser.parseInto_below k _) (n := Parser.fuelFor src)
        (k := Parser.fuelFor src + (16 * src'.length + 16)) (l := Lexer.new src')
        (by rw [h7]; simp) (by omega)
      rw [((C37_terminates src').2.2 _ (by omega)).1, h7] at hb
      exact hb

theorem Stream.ate {l k : Lexer} {us : List (Token × Loc)} (h : Ate l us k) :
    ∀ {cs : List CTok}, Stream l cs → ∃ cs', Stream k cs' ∧ cs.length = us.length + cs'.length := by
  induction h with
  | nil => intro cs h; exact ⟨cs, h, by simp⟩
  | @snoc us m t m' hm hp ht he ih =>
    intro cs h
    obtain ⟨cs', h1, h2⟩ := ih h
    obtain ⟨m'', h3, h4, h5⟩ := h1.peek
    rw [hp] at h3
    cases h3
    cases cs' with
    | nil => exact absurd rfl ht
    | cons x cs' => exact ⟨cs', h4.bump h5 he, by rw [h2]; simp; omega⟩

/-- The text that ends with the last token consumed can be continued to a program. -/
theorem viable_tokens {src : Text} {e : ParseError} {l' : Lexer}
    (h : parse src = .err e l') {us : List (Token × Loc)} {k : Lexer} {t₀ : Token} {m₀ : Lexer}
    (hm₀ : P.peek (Lexer.new src) = .ok t₀ m₀) (hus : us ≠ []) (ht : Takes m₀ us l')
    (hk : Ate (Lexer.new src) us k) {a : Text} {ys : List (Token × LocSpan)}
    (hy : items us.length (Lexer.new a) = .ok ys) (hy' : ends ys = us)
    (hstrm : Strm (Lexer.new a) (us.map fun u => (u.1, u.2.col))) :
    (∃ ast l'', parse a = .ok ast l'') ∨
      Compl ProgDone (us.map fun u => (u.1, u.2.col)) := by
  obtain ⟨n, hn⟩ : ∃ n, us.length = n + 1 := ⟨us.length - 1, by
    have := List.length_pos_iff.2 hus; omega⟩
  obtain ⟨xs, hx1, hx2⟩ := hk.items (curr_new' src)
  have hx := hx2 0 [] rfl
  rw [hn] at hx hy
  simp only [Nat.add_zero, List.append_nil] at hx
  have hye : ends ys = ends xs := hy'.trans hx1.symm
  have hyl : ys.length = n + 1 := by
    have := congrArg List.length hy'
    simpa [ends, hn] using this
  obtain ⟨t, m₂, m, hp₂, hp, hte, hag⟩ :=
    agree_peeked (curr_new' a) (curr_new' src) hy hx hye hyl
  have : m = m₀ := by rw [hm₀] at hp; cases hp; rfl
  subst this
  -- enough fuel for both
  have hN : 16 * src.length + 16 ≤ (16 * (src.length + a.length) + 16) := by omega
  have hN' : 16 * a.length + 16 ≤ (16 * (src.length + a.length) + 16) := by omega
  have f1 := ((C37_terminates src).2.2 _ hN).1
  have f2 := ((C37_terminates a).2.2 _ hN').1
  have f3 := (C37_terminates a).1
  rw [parseInto_peeked _ _ hp, h] at f1
  have hdies := parseInto_dies (16 * (src.length + a.length) + 16) hstrm Ast.empty
  rw [f2] at hdies
  have f4 := f2
  rw [parseInto_peeked _ _ hp₂] at f4
  have hl := Parser.parseInto_local (16 * (src.length + a.length) + 16) (o := none) Ast.empty m₂
    (by simp [Knows])
  rw [f4] at hl
  cases hr : parse a with
  | ok ast l2 => exact .inl ⟨ast, l2, rfl⟩
  | fuel => exact absurd hr f3
  | err e' l2 =>
    rw [hr] at hl hdies
    by_cases hfe : e'.found = .eof
    · exact .inr (hdies hfe).2
    exfalso
    obtain ⟨vs, h1, hb, h2⟩ := hl
    obtain ⟨l₀, h3, h4, h5⟩ := hb.resolve_right (by rintro ⟨_, _, h⟩; cases h)
    obtain ⟨k', h6, h7⟩ := (Takes.trans (.peek .refl hp₂) h3).ate
    obtain ⟨cs', h8, h9⟩ := Stream.ate h6 hstrm.1
    have hlt : vs.length < us.length := by
      obtain ⟨q, hq, _⟩ := h8.peek
      have : nextTok cs' = e'.found := by
        rcases h7 with rfl | ⟨t', h7⟩
        · rw [h4] at hq; injection hq with hq _; exact hq.symm
        · rw [peek_again h7] at h4
          injection h4 with h4 _
          rw [h7] at hq; injection hq with hq _; exact hq.symm.trans h4
      cases cs' with
      | nil => exact absurd this.symm hfe
      | cons => simp at h9; omega
    obtain ⟨l₂', h10, h11, _⟩ := h2 m n hag (by omega)
    rw [f1] at h10
    cases h10
    have := ht.length h11
    omega
  | panic p =>
    rw [hr] at hl
    exfalso
    obtain ⟨vs, l3, h3, h4⟩ := hl
    obtain ⟨k', h6, h7⟩ := (Takes.trans (.peek .refl hp₂) h3).ate
    obtain ⟨cs', h8, h9⟩ := Stream.ate h6 hstrm.1
    rcases h4 with h4 | ⟨hne, h4⟩
    · obtain ⟨q, hq, _⟩ := h8.peek
      rcases h7 with rfl | ⟨t', h7⟩
      · rw [h4] at hq; cases hq
      · rw [peek_again h7] at h4; cases h4
    · have := h4 m (n + 1) hag (by simp at h9; omega)
      rw [f1] at this
      cases this

/-! ### continuing a text -/

/-- How the tokens used to continue are written. -/
def fillerText : Token → Text
  | .lower s => s
  | .lit (.int _) => t!"9"
  | .affix s _ => s
  | .underscore => t!"_"
  | .infixL => t!"infixl"
  | .in_ => t!"in"
  | .arrow => t!"->"
  | .parenR => t!")"
  | _ => t!"]"

/-- The tokens, each followed by a blank. -/
def fillerTexts (vs : List Token) : Text := vs.flatMap fun v => fillerText v ++ t!" "

theorem fillerText_at {v : Token} (hv : v ∈ fillers) (s : Text) :
    TokenAt v (fillerText v) (' ' :: s) := by
  have max : ∀ {p : Char → Bool} {w : Text}, p ' ' = false → Maximal p w (' ' :: s) := by
    intro p w hp
    refine TLex.Maximal.of_head fun c hc => ?_
    cases hc
    exact ⟨hp, by decide⟩
  have hid : isIdentChar ' ' = false := (Seals.of_ws (by decide)).1
  simp only [fillers, List.mem_cons, List.not_mem_nil, or_false] at hv
  rcases hv with rfl | rfl | rfl | rfl | rfl | rfl | rfl | rfl | rfl
  · exact .lower ⟨'x', [], rfl, by rw [LawfulTables.ascii_lower _ (by decide)]; decide, ⟨[], [], rfl, rfl, rfl⟩, by decide⟩ (max hid)
  · exact .int (ds := t!"9") (by simp) (by decide) (by decide) (by intro c hc; cases hc; decide)
  · exact .op ⟨'+', [], rfl, by decide, ⟨[], [], rfl, rfl, rfl⟩, by decide⟩ (max (by decide))
      (fun h => absurd h (by decide))
  · exact .keyword (by decide) (max hid)
  · exact .keyword (by decide) (max hid)
  · exact .keyword (by decide) (max hid)
  · exact .reserved (by decide) (max (by decide))
  · exact .punct (by decide)
  · exact .punct (by decide)

theorem fillerTexts_tokenizes {vs : List Token} (hv : ∀ v ∈ vs, v ∈ fillers) :
    Tokenizes (fillerTexts vs) vs := by
  induction vs with
  | nil => exact .nil
  | cons v vs ih =>
    have : fillerTexts (v :: vs) = fillerText v ++ (' ' :: fillerTexts vs) := by
      simp [fillerTexts]
    rw [this]
    exact .token (fillerText_at (hv v (by simp)) _)
      (.space (by decide) (ih fun v h => hv v (by simp [h])))

theorem fillerTexts_noCR {vs : List Token} (hv : ∀ v ∈ vs, v ∈ fillers) : '\r' ∉ fillerTexts vs := by
  intro h
  obtain ⟨v, h1, h2⟩ := List.mem_flatMap.1 h
  have key : ∀ v ∈ fillers, '\r' ∉ fillerText v ++ t!" " := by decide
  exact key v (hv v h1) h2

theorem NoLFCR.append {a r : Text} (ha : NoLFCR a) (hr : '\r' ∉ r) : NoLFCR (a ++ r) := by
  rintro ⟨p, q, h⟩
  rw [List.append_assoc] at h
  rcases List.append_eq_append_iff.1 h with ⟨a', rfl, h2⟩ | ⟨p', rfl, h2⟩
  · match a', h2 with
    | [], h2 => exact hr (by rw [← (show _ = r from h2)]; simp)
    | [c], h2 =>
      simp only [List.cons_append, List.nil_append, List.cons.injEq] at h2
      exact hr (by rw [← h2.2]; simp)
    | c :: d :: a', h2 =>
      simp only [List.cons_append, List.nil_append, List.cons.injEq] at h2
      obtain ⟨rfl, rfl, _⟩ := h2
      exact ha ⟨p, a', by simp⟩
  · exact hr (by rw [h2]; simp)

/-- A source that is rejected begins with a text, ending with the last token consumed, that can be
continued to a program. -/
theorem viable_text {src : Text} (hc : NoLFCR src) {e : ParseError} {l' : Lexer}
    (hcode : e.found = .eof → NoCodeEnd src) (h : parse src = .err e l') :
    ∃ us k a r z, Ate (Lexer.new src) us k ∧ P.peek k = .ok e.found l' ∧ src = a ++ r ∧
      (us = [] → a = []) ∧ (us ≠ [] → k.currLoc = locOf a) ∧
      (∃ ast l'', parse (a ++ z) = .ok ast l'') ∧
      ∃ t m, P.peek (Lexer.new src) = .ok t m ∧
        ∀ src' t' m₂, P.peek (Lexer.new src') = .ok t' m₂ → Agree (us.length + 1) m m₂ →
          ∃ l'', parse src' = .err e l'' := by
  obtain ⟨t, m, us, k, h1, h2, h3, h4, hloc1, hloc2, hdead⟩ := parse_err h
  obtain ⟨r, h5, h6, h7, h8, h9⟩ := h3.run hc
  obtain ⟨a, ha, h10, h11, h12⟩ := h5.change (pre := []) rfl
  simp only [List.nil_append] at h12
  have hca : NoLFCR a := hc.infix ⟨[], r, by rw [ha]; simp⟩
  by_cases hus : us = []
  · refine ⟨us, k, a, r, [], h3, h4, ha, h10, fun h => absurd hus h, ?_, t, m, h1, hdead⟩
    rw [h10 hus]
    exact ⟨_, _, rfl⟩
  have hloc : k.currLoc = locOf a := by
    obtain ⟨pre, hp1, hp2⟩ := h7.pos
    rw [hp2]
    congr 1
    rw [h8, ← h9 hus, ha] at hp1
    exact (List.append_cancel_right hp1).symm
  have hrun : TokRun a a us [] := by
    have := h12 [] (by intro x _ c hc; cases hc) (by intro h; exact absurd rfl h)
    simpa using this
  have hstrm : Strm (Lexer.new a) (us.map fun u => (u.1, u.2.col)) := by
    have hh := hrun.hasC (cs := []) (.nil TLex.lex_nil)
    rw [List.append_nil] at hh
    have := TLex.HasC.placed (pre := []) (by simpa using hh)
    exact (this.lexes hca).strm
  obtain ⟨ys, hy, hy'⟩ := hrun.new hca
  rcases viable_tokens h h1 hus h2 h3 hy hy' hstrm with hok | ⟨vs, hv, hd⟩
  · exact ⟨us, k, a, r, [], h3, h4, ha, h10, fun _ => hloc, by simpa using hok, t, m, h1, hdead⟩
  -- what separates the text from what follows
  obtain ⟨sep, hsep, hsepT, hcr⟩ : ∃ sep : Text, (∀ x ∈ us.getLast?, ∀ s, MayFollow x.1 (sep ++ s)) ∧
      (∀ s ts, Tokenizes s ts → Tokenizes (sep ++ s) ts) ∧ '\r' ∉ sep := by
    cases hx : us.getLast? with
    | none => exact ⟨[], by simp, fun _ _ h => h, by simp⟩
    | some x =>
      by_cases hp : ∃ y, x.1 = .affix y true
      · refine ⟨t!"~~\n", ?_, fun s ts h => ?_, by decide⟩
        · rintro x' hx' s c hc
          cases hx'; cases hc
          exact ⟨fun h => absurd hp (by rintro ⟨y, hy⟩; exact h y hy), fun _ _ => rfl⟩
        · refine .line (b := []) (s := '\n' :: s) (by simp) ?_ (by intro c hc; cases hc; rfl)
            (.space (by decide) h)
          exact TLex.Maximal.of_head (by intro c hc; cases hc; decide)
      · refine ⟨t!" ", ?_, fun s ts h => .space (by decide) h, by decide⟩
        rintro x' hx' s c hc
        cases hx'; cases hc
        exact ⟨fun _ => by decide, fun y hy => absurd ⟨y, hy⟩ hp⟩
  have hr' := h12 (sep ++ fillerTexts vs) (fun x hx => hsep x hx _) fun _ hr => hcode (by
    have hnil : k.chars = [] := by rw [← h9 hus, hr]
    have hl := sync_lex h7
    rw [peek_lex (h3.curr (curr_new' src)) h4, hnil, TLex.lex_nil] at hl
    injection hl with hl
    have hl := (Prod.mk.inj hl).1
    generalize e.found = t at hl
    cases t <;> first | rfl | cases hl)
  obtain ⟨cs', hcs, hpl⟩ := (hsepT _ _ (fillerTexts_tokenizes hv)).placed a
  have hH := hr'.hasC hpl.hasC
  have hP := TLex.HasC.placed (pre := []) (by simpa using hH)
  obtain ⟨ds, hds⟩ := hd cs' hcs
  have hcl : NoLFCR (a ++ (sep ++ fillerTexts vs)) := by
    refine hca.append ?_
    simp only [List.mem_append, not_or]
    exact ⟨hcr, fillerTexts_noCR hv⟩
  refine ⟨us, k, a, r, sep ++ fillerTexts vs, h3, h4, ha, h10, fun _ => hloc, ⟨Ast.ofDecls ds, ?_⟩, t, m, h1, hdead⟩
  exact (C96_texts hcl _).2 ⟨_, ds, hP, hds, rfl⟩

/-! ### in terms of the iterator -/

theorem ends_append (xs ys : List (Token × LocSpan)) : ends (xs ++ ys) = ends xs ++ ends ys := by
  simp [ends]

theorem ends_last {xs : List (Token × LocSpan)} {us : List (Token × Loc)} {x : Token × Loc}
    (h : ends xs = us ++ [x]) : ∃ y, xs.getLast? = some y ∧ y.2.hi = x.2 := by
  rcases List.eq_nil_or_concat xs with rfl | ⟨ys, y, rfl⟩
  · simp [ends] at h
  · rw [List.concat_eq_append, ends_append] at h
    have := (List.append_inj' h (by simp [ends])).2
    simp only [ends, List.map_cons, List.map_nil, List.cons.injEq, and_true] at this
    exact ⟨y, by simp, by rw [← this]⟩

theorem Ate.last {l k : Lexer} {us : List (Token × Loc)} (h : Ate l us k) (hne : us ≠ []) :
    ∃ vs t, us = vs ++ [(t, k.currLoc)] := by
  cases h with
  | nil => exact absurd rfl hne
  | @snoc us m t m' _ _ _ _ => exact ⟨us, t, rfl⟩

theorem Ate.noError {l k : Lexer} {us : List (Token × Loc)} (h : Ate l us k) :
    ∀ x ∈ us, ∀ e, x.1 ≠ .error e := by
  induction h with
  | nil => simp
  | snoc _ _ _ he ih =>
    intro x hx
    rcases List.mem_append.1 hx with hx | hx
    · exact ih x hx
    · rw [List.mem_singleton.1 hx]; exact he

/-- The tokens that follow those consumed. -/
theorem Ate.next {src : Text} {us : List (Token × Loc)} {k l' : Lexer} {t : Token}
    (h : Ate (Lexer.new src) us k) (hp : P.peek k = .ok t l') :
    ∃ xs, ends xs = us ∧ xs.length = us.length ∧ Lexer.items xs.length (Lexer.new src) = .ok xs ∧
      (t = .eof → Lexer.items (xs.length + 1) (Lexer.new src) = .ok xs) ∧
      (t ≠ .eof → Lexer.items (xs.length + 1) (Lexer.new src) =
        .ok (xs ++ [(t, ⟨l'.prevLoc, l'.currLoc⟩)])) := by
  obtain ⟨xs, h1, h2⟩ := h.items (curr_new' src)
  have hl : xs.length = us.length := by rw [← h1]; simp
  have hx := peek_lex (h.curr (curr_new' src)) hp
  refine ⟨xs, h1, hl, ?_, ?_, ?_⟩
  · rw [hl]; simpa using h2 0 [] rfl
  · rintro rfl
    rw [hl]
    simpa using h2 1 [] (items_of_none (next_of_eof hx) 1)
  · intro ht
    rw [hl]
    refine h2 1 [(t, ⟨l'.prevLoc, l'.currLoc⟩)] ?_
    unfold Lexer.items
    rw [next_of_lex hx ht]
    rfl

theorem Takes.point {src : Text} {l l' : Lexer} {us : List (Token × Loc)} (h : Takes l us l')
    (hl : Point src l) : Point src l' := h.eats.point hl

end
end Pemdas
