import Verif.Lemmas.Placed
/-
Helper lemmas: how two texts, and two programs, are joined.
-/
namespace Pemdas
open Lexer

/-! ### Columns -/

theorem colAfter_newline (p w : Text) : colAfter (p ++ '\n' :: w) = colAfter w := by
  unfold colAfter
  simp only [List.reverse_append, List.reverse_cons, List.append_assoc, List.singleton_append]
  rw [List.takeWhile_append]
  split
  · rename_i h
    have : w.reverse.takeWhile (· != '\n') = w.reverse :=
      List.IsPrefix.eq_of_length (List.takeWhile_prefix _) h
    rw [List.takeWhile_cons, if_neg (by decide), this]; simp
  · rfl

section
variable [CharTables]

theorem Placed.shift {pre s : Text} {cs : List CTok} (h : Placed pre s cs) :
    ∀ pre', (∀ w, colAfter (pre ++ w) = colAfter (pre' ++ w)) → Placed pre' s cs := by
  induction h with
  | nil => exact fun _ _ => .nil
  | space hc _ ih =>
    intro pre' hp; exact .space hc (ih _ fun w => by simpa using hp _)
  | line h1 h2 h3 _ ih =>
    intro pre' hp; exact .line h1 h2 h3 (ih _ fun w => by simp only [List.append_assoc]; exact hp _)
  | block h1 h2 _ ih =>
    intro pre' hp; exact .block h1 h2 (ih _ fun w => by simp only [List.append_assoc]; exact hp _)
  | @token t pre w s cs ht _ ih =>
    intro pre' hp
    rw [hp w]
    exact .token ht (ih _ fun w => by simp only [List.append_assoc]; exact hp _)

theorem Placed.newline {p s : Text} {cs : List CTok} :
    Placed (p ++ ['\n']) s cs ↔ Placed [] s cs := by
  have h : ∀ w, colAfter (p ++ ['\n'] ++ w) = colAfter ([] ++ w) := fun w => by
    rw [List.append_assoc]; exact colAfter_newline p w
  exact ⟨fun hh => hh.shift _ h, fun hh => hh.shift _ fun w => (h w).symm⟩

theorem TLex.HasC.has {src s : Text} {cs : List CTok} (h : TLex.HasC src s cs) :
    TLex.Has s (cs.map (·.1)) := by
  induction h with
  | nil h => exact .nil h
  | cons h hne _ _ ih => exact .cons h hne ih

theorem TLex.HasC.unique {src s : Text} {cs cs' : List CTok} (h : TLex.HasC src s cs) :
    TLex.HasC src s cs' → cs = cs' := by
  induction h generalizing cs' with
  | nil h =>
    intro h'
    cases h' with
    | nil => rfl
    | cons h2 hne _ _ => rw [h] at h2; cases h2; exact absurd rfl hne.1
  | @cons s t r cs pre h hne hp _ ih =>
    intro h'
    cases h' with
    | nil h2 => rw [h] at h2; cases h2; exact absurd rfl hne.1
    | @cons _ t' r' cs' pre' h2 _ hp' ht =>
      rw [h] at h2
      cases h2
      rw [ih ht, List.append_cancel_right (hp.symm.trans hp')]

/-! ### Joining texts -/

/-- Characters that are not part of the token before them, except for whitespace after a promoted
name of one character. -/
def Seals (c : Char) : Prop :=
  isIdentChar c = false ∧ isTrailing c = false ∧ isInfixChar c = false ∧ isDigit10 c = false ∧
    c ≠ '\'' ∧ c ≠ '{'

variable [LawfulTables]

theorem TLex.HasC.placed {pre s : Text} {cs : List CTok} (h : TLex.HasC (pre ++ s) s cs) :
    Placed pre s cs := by
  obtain ⟨cs', _, h2⟩ := (TLex.has_iff.1 h.has).placed pre
  rw [h.unique h2.hasC]
  exact h2

theorem Seals.of_ws {c : Char} (h : isWhitespace c = true) : Seals c := by
  have h5 : c ≠ '\'' := by rintro rfl; revert h; decide
  have h1 : isIdentChar c = false := by
    have := LawfulTables.ws_not_alnum c h
    simp only [isIdentChar, this, Bool.false_or, Bool.or_eq_false_iff, beq_eq_false_iff_ne]
    exact ⟨by rintro rfl; revert h; decide, h5⟩
  have h2 : isTrailing c = false := by
    by_cases ht : isTrailing c = true
    · have hmem : c ∈ subscriptChars ++ superscriptChars := by
        simpa [isTrailing, isSubscript, isSuperscript] using ht
      have key : ∀ d ∈ subscriptChars ++ superscriptChars, isWhitespace d = false := by decide
      rw [key c hmem] at h; cases h
    · simpa using ht
  have h3 : isInfixChar c = false := by
    by_cases hi : isInfixChar c = true
    · rw [TLex.infix_not_ws hi] at h; cases h
    · simpa using hi
  have h4 : isDigit10 c = false := by
    by_cases hd : isDigit10 c = true
    · have hnat : 48 ≤ c.toNat ∧ c.toNat ≤ 57 := by simpa [isDigit10, toNat_le_iff] using hd
      exfalso
      simp only [isWhitespace, Bool.or_eq_true, Bool.and_eq_true, decide_eq_true_eq, beq_iff_eq] at h
      omega
    · simpa using hd
  exact ⟨h1, h2, h3, h4, h5, by rintro rfl; revert h; decide⟩

theorem Seals.semi : Seals ';' :=
  ⟨by rw [TLex.ascii_identChar (by decide)]; decide, by decide, by decide, by decide, by decide, by decide⟩

omit [LawfulTables] in
theorem Seals.maximal {c : Char} (h : Seals c) {p : Char → Bool} (hp : p c = false) {w s r : Text}
    (hm : Maximal p w s) : Maximal p w (s ++ c :: r) := by
  cases s with
  | nil => exact TLex.Maximal.of_head (by rintro d hd; cases hd; exact ⟨hp, h.2.1⟩)
  | cons d s => intro e he; exact hm e (by simpa using he)

omit [CharTables] [LawfulTables] in
theorem NoCodeEnd.right {p s : Text} (h : NoCodeEnd (p ++ s)) : NoCodeEnd s :=
  fun p' u q hu he => h (p ++ p') u q hu (by rw [he]; simp)

omit [CharTables] [LawfulTables] in
theorem NoLineEnd.right {p s : Text} (h : NoLineEnd (p ++ s)) : NoLineEnd s :=
  fun p' q he => h (p ++ p') q (by rw [he]; simp)

omit [CharTables] [LawfulTables] in
theorem CleanEnd.right {p s : Text} (h : CleanEnd (p ++ s)) : CleanEnd s :=
  ⟨h.code.right, fun p' he => h.block (p ++ p') (by rw [he]; simp), h.line.right⟩

omit [CharTables] [LawfulTables] in
theorem noCodeEnd_of_last {s : Text} (h : s.getLast? ≠ some '\'') : NoCodeEnd s := by
  rintro p u q _ rfl
  refine absurd ?_ h
  rw [List.getLast?_append, show ('\'' :: '\\' :: u :: (q ++ t!"'")) = ('\'' :: '\\' :: u :: q) ++ t!"'" by simp,
    List.getLast?_append]
  rfl

omit [CharTables] [LawfulTables] in
theorem cleanEnd_of_last {s : Text} (h : s.getLast? ≠ some '\'') (h' : s.getLast? ≠ some '~')
    (hl : ¬ t!"~~" <:+: s) : CleanEnd s := by
  refine ⟨noCodeEnd_of_last h, ?_, ?_⟩
  · rintro p rfl
    refine absurd ?_ h'
    rw [List.getLast?_append]
    rfl
  · rintro p q rfl
    exact absurd ⟨p, q, rfl⟩ hl

omit [CharTables] [LawfulTables] in
theorem NoShortEnd.tail {t : Token} {ts : List Token} (h : NoShortEnd (t :: ts)) : NoShortEnd ts := by
  intro x hx
  refine h x ?_
  cases ts with
  | nil => cases hx
  | cons u us => rw [List.getLast?_cons_cons]; exact hx

omit [CharTables] [LawfulTables] in
/-- The text of a code is one. -/
theorem noCodeEnd_code {u : Char} {plus ds : Text} (h1 : u ∈ t!"uU") (h2 : plus ∈ [[], t!"+"])
    (h4 : ds.all isHexDigit = true) : ¬ NoCodeEnd ('\'' :: '\\' :: u :: (plus ++ ds ++ t!"'")) := by
  intro h
  have := h [] u (plus ++ ds) h1 rfl
  rcases List.mem_append.1 this with hm | hm
  · simp only [List.mem_cons, List.not_mem_nil, or_false] at h2
    rcases h2 with rfl | rfl
    · cases hm
    · exact absurd hm (by decide)
  · exact absurd (List.all_eq_true.1 h4 _ hm) (by decide)

omit [LawfulTables] in
/-- A token and what follows it, the first character of which is lost after a code at the end. -/
theorem TokenAt.followAll {t : Token} {w s : Text} (h : TokenAt t w s) {d : Char} (hc : Seals d)
    (hp : s = [] → isWhitespace d = true → ∀ x, t = .affix x true → x.length ≠ 1) :
    (∀ r, TokenAt t w (s ++ d :: r)) ∨ s = [] ∧ ¬ NoCodeEnd w ∧ ∀ r, TokenAt t (w ++ [d]) r := by
  cases h with
  | punct h => exact .inl fun _ => (.punct h)
  | keyword h hm => exact .inl fun _ => (.keyword h (hc.maximal hc.1 hm))
  | lower h hm => exact .inl fun _ => (.lower h (hc.maximal hc.1 hm))
  | reserved h hm => exact .inl fun _ => (.reserved h (hc.maximal hc.2.2.1 hm))
  | op h hm ho =>
    refine .inl fun r => .op h (hc.maximal hc.2.2.1 hm) fun e => ?_
    cases s with
    | nil => simpa using hc.2.2.2.2.2
    | cons d' s => simpa using ho e
  | backticks h => exact .inl fun _ => (.backticks h)
  | @apostrophe x _ h hm hh =>
    refine .inl fun r => .apostrophe h (hc.maximal hc.1 hm) ?_
    intro d' hd
    cases hx : x.tail ++ s with
    | nil =>
      obtain ⟨h1, h2⟩ := List.append_eq_nil_iff.1 hx
      subst h2
      rw [h1] at hd
      have : d = d' := by simpa using hd
      subst this
      refine ⟨hc.2.2.2.2.1, ?_⟩
      by_cases hw : isWhitespace d = true
      · obtain ⟨e, y, rfl, _⟩ := h
        cases h1
        exact absurd rfl (hp rfl hw _ rfl)
      · simpa using hw
    | cons e y =>
      rw [← List.append_assoc, hx] at hd
      exact hh d' (by rw [hx]; exact hd)
  | blank h1 h2 => exact .inl fun _ => (.blank h1 h2)
  | int h1 h2 h3 h4 =>
    refine .inl fun r => .int h1 h2 h3 ?_
    intro d' hd
    cases s with
    | nil => cases hd; exact hc.2.2.2.1
    | cons e y => exact h4 d' (by simpa using hd)
  | char h => exact .inl fun _ => (.char h)
  | charEscape h => exact .inl fun _ => (.charEscape h)
  | @charCode u c plus ds x _ h1 h2 h3 h4 h5 h6 h7 =>
    rcases h7 with h7 | ⟨rfl, rfl⟩
    · exact .inl fun _ => (.charCode h1 h2 h3 h4 h5 h6 (.inl h7))
    · refine .inr ⟨rfl, noCodeEnd_code h1 h2 h4, fun r => ?_⟩
      have := TokenAt.charCode (x := [d]) (rest := r) h1 h2 h3 h4 h5 h6 (.inl rfl)
      simpa using this
  | str h => exact .inl fun _ => (.str h)

omit [LawfulTables] in
/-- The same for one continuation. -/
theorem TokenAt.follow {t : Token} {w s : Text} (h : TokenAt t w s) {d : Char} (hc : Seals d)
    (hp : s = [] → isWhitespace d = true → ∀ x, t = .affix x true → x.length ≠ 1) (r : Text) :
    TokenAt t w (s ++ d :: r) ∨ s = [] ∧ ¬ NoCodeEnd w ∧ TokenAt t (w ++ [d]) r :=
  (h.followAll hc hp).imp (fun h => h r) fun h => ⟨h.1, h.2.1, h.2.2 r⟩

omit [LawfulTables] in
/-- A token that is no code at the end, and what follows it. -/
theorem TokenAt.seal {t : Token} {w s : Text} (h : TokenAt t w s) {c : Char} (hc : Seals c)
    (hu : s = [] → NoCodeEnd w)
    (hp : s = [] → isWhitespace c = true → ∀ x, t = .affix x true → x.length ≠ 1) (r : Text) :
    TokenAt t w (s ++ c :: r) := by
  rcases h.follow hc hp r with h | ⟨h1, h2, _⟩
  · exact h
  · exact absurd (hu h1) h2

theorem Placed.nil_inv {pre : Text} {cs : List CTok} (h : Placed pre [] cs) : cs = [] := by
  have := h.hasC.unique (Placed.nil (pre := pre)).hasC
  exact this

theorem Placed.seal {t : Token} {pre w s : Text} {cs : List CTok} {c : Char} (hc : Seals c)
    (ht : TokenAt t w s) (hs : Placed pre s cs) (hu : NoCodeEnd (w ++ s))
    (hl : isWhitespace c = true → NoShortEnd (t :: cs.map (·.1))) (r : Text) :
    TokenAt t w (s ++ c :: r) := by
  refine ht.seal hc (fun hs => by rw [hs, List.append_nil] at hu; exact hu) ?_ r
  rintro rfl hw x rfl
  cases hs.nil_inv
  exact hl hw x rfl

theorem Placed.join {pre a : Text} {cs : List CTok} (h : Placed pre a cs) {c : Char}
    (hc : Seals c) {r : Text} {cs' : List CTok} :
    CleanEnd a → (isWhitespace c = true → NoShortEnd (cs.map (·.1))) → Placed (pre ++ a) (c :: r) cs' →
      Placed pre (a ++ c :: r) (cs ++ cs') := by
  induction h with
  | nil => intro _ _ h; simpa using h
  | @space d pre s cs hw _ ih =>
    intro hs hl h
    exact .space hw (ih (CleanEnd.right (p := [d]) hs) hl (by simpa using h))
  | @line pre b s cs hb hm hs' _ ih =>
    intro hs hl h
    have := ih hs.right hl (by simpa using h)
    cases s with
    | nil => exact absurd (hs.line [] b (by simp)) hb
    | cons d s =>
      have := Placed.line (s := d :: s ++ c :: r) hb (by
        intro e he
        refine hm e ?_
        cases b <;> simpa using he) (fun e he => hs' e (by simpa using he)) this
      simpa using this
  | @block pre b x s cs hb hx _ ih =>
    intro hs hl h
    have := ih hs.right hl (by simpa using h)
    rcases hx with hx | ⟨rfl, rfl⟩
    · have := Placed.block hb (.inl hx) this
      simpa using this
    · exact absurd (by simp) (hs.block (t!"~{" ++ b))
  | @token t pre w s cs ht hp ih =>
    intro hs hl h
    have := ih hs.right (fun hw => (hl hw).tail) (by simpa using h)
    rw [List.append_assoc]
    exact .token (hp.seal hc ht hs.code hl r) this

theorem Placed.rest {pre a : Text} {cs : List CTok} (h : Placed pre a cs) {c : Char}
    (hc : Seals c) {r : Text} {xs : List CTok} :
    CleanEnd a → (isWhitespace c = true → NoShortEnd (cs.map (·.1))) →
      TLex.HasC (pre ++ (a ++ c :: r)) (a ++ c :: r) xs →
      ∃ cs', xs = cs ++ cs' ∧ TLex.HasC (pre ++ (a ++ c :: r)) (c :: r) cs' := by
  induction h generalizing xs with
  | nil => intro _ _ h; exact ⟨xs, rfl, h⟩
  | @space d pre s cs hw _ ih =>
    intro hs hl h
    have h' : TLex.HasC (pre ++ (d :: s ++ c :: r)) (s ++ c :: r) xs :=
      h.congr (TLex.lex_space hw).symm
    have := ih (xs := xs) (CleanEnd.right (p := [d]) hs) hl
    rw [List.append_assoc] at this
    exact this h'
  | @line pre b s cs hb hm hs' _ ih =>
    intro hs hl h
    cases s with
    | nil => exact absurd (hs.line [] b (by simp)) hb
    | cons d s =>
      have e : t!"~~" ++ b ++ (d :: s) ++ c :: r = t!"~~" ++ b ++ (d :: s ++ c :: r) := by simp
      have h' : TLex.HasC (pre ++ (t!"~~" ++ b ++ (d :: s) ++ c :: r)) (d :: s ++ c :: r) xs := by
        refine h.congr ?_
        rw [e]
        refine (TLex.lex_line_max hb ?_ ?_).symm
        · intro e he
          refine hm e ?_
          cases b <;> simpa using he
        · exact fun e he => hs' e (by simpa using he)
      have := ih (xs := xs) hs.right hl
      rw [e] at h' ⊢
      rw [List.append_assoc] at this
      exact this h'
  | @block pre b x s cs hb hx _ ih =>
    intro hs hl h
    rcases hx with hx | ⟨rfl, rfl⟩
    · have e : t!"~{" ++ b ++ t!"}~" ++ x ++ s ++ c :: r = t!"~{" ++ b ++ t!"}~" ++ x ++ (s ++ c :: r) := by simp
      have h' : TLex.HasC (pre ++ (t!"~{" ++ b ++ t!"}~" ++ x ++ s ++ c :: r)) (s ++ c :: r) xs := by
        refine h.congr ?_
        rw [e]
        rw [List.append_assoc, TLex.lex_comment hb]
        match x, hx with
        | [_], _ => rfl
      have := ih (xs := xs) hs.right hl
      rw [e] at h' ⊢
      rw [List.append_assoc] at this
      exact this h'
    · exact absurd (by simp) (hs.block (t!"~{" ++ b))
  | @token t pre w s cs ht hp ih =>
    intro hs hl h
    have hse := hp.seal hc ht hs.code hl r
    have hl' := (TLex.TokenAt.lex hse).1
    have hne := (TLex.TokenAt.lex hse).2
    rw [List.append_assoc] at h ⊢
    cases h with
    | nil h2 => rw [hl'] at h2; cases h2; exact absurd rfl hne.1
    | @cons _ t' r' cs'' pre' h2 _ hp' h3 =>
      rw [hl'] at h2
      cases h2
      have := ih (xs := cs'') hs.right (fun hw => (hl hw).tail)
      rw [List.append_assoc] at this
      obtain ⟨cs', rfl, h4⟩ := this h3
      rw [← List.append_assoc] at hp'
      rw [← List.append_cancel_right hp']
      exact ⟨cs', rfl, h4⟩

/-- Where a text that is followed by another one ends, the other one starts. -/
theorem Placed.join_iff {pre a : Text} {cs : List CTok} (h : Placed pre a cs) {c : Char}
    (hc : Seals c) (hs : CleanEnd a) (hl : isWhitespace c = true → NoShortEnd (cs.map (·.1)))
    {r : Text} {xs : List CTok} :
    Placed pre (a ++ c :: r) xs ↔ ∃ cs', xs = cs ++ cs' ∧ Placed (pre ++ a) (c :: r) cs' := by
  constructor
  · intro hx
    obtain ⟨cs', rfl, h2⟩ := h.rest hc hs hl hx.hasC
    rw [← List.append_assoc] at h2
    exact ⟨cs', rfl, h2.placed⟩
  · rintro ⟨cs', rfl, h2⟩
    exact h.join hc hs hl h2

/-- What a line comment at the end and whitespace after it are. -/
theorem maximal_gap {b g r : Text} (hm : Maximal isInfixChar t!"~~" b) (hg : g.all isWhitespace = true)
    (hne : g ≠ []) : Maximal isInfixChar t!"~~" (b ++ (g ++ r)) := by
  cases g with
  | nil => exact absurd rfl hne
  | cons c g =>
    cases b with
    | nil =>
      refine TLex.Maximal.of_head ?_
      intro d hd
      have hd : c = d := by simpa using hd
      subst hd
      have hw : isWhitespace c = true := by simp at hg; exact hg.1
      exact ⟨(Seals.of_ws hw).2.2.1, (Seals.of_ws hw).2.1⟩
    | cons d b => intro e he; exact hm e (by simpa using he)

omit [CharTables] [LawfulTables] in
theorem split_newline : ∀ {g : Text}, '\n' ∈ g → ∃ g₁ g₂, g = g₁ ++ '\n' :: g₂ ∧ '\n' ∉ g₁
  | c :: g, h => by
    by_cases hc : c = '\n'
    · exact ⟨[], g, by simp [hc], by simp⟩
    · obtain ⟨g₁, g₂, h1, h2⟩ := split_newline (g := g) (by simpa [Ne.symm hc] using h)
      exact ⟨c :: g₁, g₂, by simp [h1], by simp [h2, Ne.symm hc]⟩

omit [LawfulTables] in
theorem Placed.blank {g : Text} (hg : g.all isWhitespace = true) {pre s : Text} {cs : List CTok}
    (h : Placed (pre ++ g) s cs) : Placed pre (g ++ s) cs := by
  induction g generalizing pre with
  | nil => simpa using h
  | cons c g ih =>
    simp only [List.all_cons, Bool.and_eq_true] at hg
    exact .space hg.1 (ih hg.2 (by simpa using h))

/-- A text, whitespace, and what follows. -/
theorem Placed.gap {pre a g r : Text} {cs cs' : List CTok} (h : Placed pre a cs)
    (hg : g.all isWhitespace = true) (hne : g ≠ []) :
    NoCodeEnd a → NoShortEnd (cs.map (·.1)) → ('\n' ∈ g ∨ NoLineEnd a ∨ '\n' ∉ r ∧ cs' = []) →
      Placed (pre ++ a ++ g) r cs' → Placed pre (a ++ (g ++ r)) (cs ++ cs') := by
  induction h with
  | nil => intro _ _ _ h; exact Placed.blank hg (by simpa using h)
  | @space c pre s cs hw _ ih =>
    intro h1 h2 h3 h
    exact .space hw (ih (NoCodeEnd.right (p := [c]) h1) h2
      (h3.imp_right fun h => h.imp_left fun h => NoLineEnd.right (p := [c]) h) (by simpa using h))
  | @line pre b s cs hb hm hs hp ih =>
    intro h1 h2 h3 h
    cases s with
    | nil =>
      cases hp.nil_inv
      rw [List.append_nil] at hm
      by_cases hn : '\n' ∈ g
      · obtain ⟨g₁, g₂, rfl, h5⟩ := split_newline hn
        have hg₂ : (('\n' :: g₂ : Text)).all isWhitespace = true := by
          rw [List.all_append, Bool.and_eq_true] at hg; exact hg.2
        have hmax := maximal_gap (r := r) hm hg hne
        have := Placed.line (pre := pre) (b := b ++ g₁) (s := '\n' :: g₂ ++ r) (cs := cs')
          (by simp [hb, h5]) (by simpa using hmax) (by simp)
          (Placed.blank hg₂ (by simpa using h))
        simpa using this
      · obtain ⟨h6, rfl⟩ : '\n' ∉ r ∧ cs' = [] := by
          rcases h3 with h3 | h3 | h3
          · exact absurd h3 hn
          · exact absurd (h3 [] b (by simp)) hb
          · exact h3
        have := Placed.line (pre := pre) (b := b ++ (g ++ r)) (s := []) (cs := [])
          (by simp [hb, hn, h6]) (by simpa using maximal_gap (r := r) hm hg hne) (by simp) .nil
        simpa using this
    | cons d s =>
      have h4 := ih h1.right h2 (h3.imp_right fun h => h.imp_left fun h => h.right) (by simpa using h)
      have := Placed.line (s := d :: s ++ (g ++ r)) hb (by
        intro e he
        refine hm e ?_
        cases b <;> simpa using he) (fun e he => hs e (by simpa using he)) h4
      simpa using this
  | @block pre b x s cs hb hx hp ih =>
    intro h1 h2 h3 h
    rcases hx with hx | ⟨rfl, rfl⟩
    · have h4 := ih h1.right h2 (h3.imp_right fun h => h.imp_left fun h => h.right) (by simpa using h)
      have := Placed.block (s := s ++ (g ++ r)) hb (.inl hx) h4
      simpa using this
    · cases hp.nil_inv
      cases g with
      | nil => exact absurd rfl hne
      | cons c g =>
        simp only [List.all_cons, Bool.and_eq_true] at hg
        have := Placed.block (pre := pre) (x := [c]) (s := g ++ r) (cs := cs') hb (.inl rfl)
          (Placed.blank hg.2 (by simpa using h))
        simpa using this
  | @token t pre w s cs ht hp ih =>
    intro h1 h2 h3 h
    have h4 := ih h1.right h2.tail (h3.imp_right fun h => h.imp_left fun h => h.right) (by simpa using h)
    cases g with
    | nil => exact absurd rfl hne
    | cons c g =>
      simp only [List.all_cons, Bool.and_eq_true] at hg
      rw [List.append_assoc]
      exact .token (hp.seal (Seals.of_ws hg.1) ht h1 (fun _ => h2) (g ++ r)) h4

/-- A text of one line, whitespace, and what follows: it follows, or it is part of a line comment. -/
theorem Tokenizes.gap {a b : Text} {ts us : List Token} (h : Tokenizes a ts) (hb : Tokenizes b us) :
    '\n' ∉ a → '\n' ∉ b → NoShortEnd ts →
      (∀ g : Text, g.all isWhitespace = true → g ≠ [] → '\n' ∉ g → Tokenizes (a ++ (g ++ b)) (ts ++ us)) ∨
        ∀ g : Text, g.all isWhitespace = true → g ≠ [] → '\n' ∉ g → Tokenizes (a ++ (g ++ b)) ts := by
  have blank : ∀ g : Text, g.all isWhitespace = true → Tokenizes (g ++ b) us := by
    intro g hg
    obtain ⟨cs, rfl, h⟩ := hb.placed ([] ++ g)
    exact (Placed.blank hg h).tokenizes
  induction h with
  | nil => exact fun _ _ _ => .inl fun g hg _ _ => blank g hg
  | @space c s ts hw _ ih =>
    intro h1 h2 h3
    rcases ih (fun hm => h1 (by simp [hm])) h2 h3 with h | h
    · exact .inl fun g hg h5 h6 => .space hw (h g hg h5 h6)
    · exact .inr fun g hg h5 h6 => .space hw (h g hg h5 h6)
  | @line d s ts hd hm hs hp ih =>
    intro h1 h2 h3
    cases s with
    | cons c s => cases hs c (by simp); exact absurd (by simp) h1
    | nil =>
      obtain ⟨cs, rfl, h⟩ := hp.placed []
      cases h.nil_inv
      rw [List.append_nil] at hm
      refine .inr fun g hg h5 h6 => ?_
      have := Tokenizes.line (b := d ++ (g ++ b)) (s := []) (ts := [])
        (by simp [hd, h6, h2]) (by simpa using maximal_gap (r := b) hm hg h5) (by simp) .nil
      simpa using this
  | @block d x s ts hd hx hp ih =>
    intro h1 h2 h3
    rcases hx with hx | ⟨rfl, rfl⟩
    · rcases ih (fun hm => h1 (by simp [hm])) h2 h3 with h | h
      · refine .inl fun g hg h5 h6 => ?_
        have := Tokenizes.block hd (.inl hx) (h g hg h5 h6)
        simpa using this
      · refine .inr fun g hg h5 h6 => ?_
        have := Tokenizes.block hd (.inl hx) (h g hg h5 h6)
        simpa using this
    · obtain ⟨cs, rfl, h⟩ := hp.placed []
      cases h.nil_inv
      refine .inl fun g hg h5 h6 => ?_
      cases g with
      | nil => exact absurd rfl h5
      | cons c g =>
        simp only [List.all_cons, Bool.and_eq_true] at hg
        have := Tokenizes.block (x := [c]) hd (.inl rfl) (blank g hg.2)
        simpa using this
  | @token t w s ts ht hp ih =>
    intro h1 h2 h3
    have key : ∀ (g : Text), g.all isWhitespace = true → g ≠ [] → ∀ vs : List Token,
        Tokenizes (s ++ (g ++ b)) vs → (s = [] → vs = us) → Tokenizes (w ++ s ++ (g ++ b)) (t :: vs) := by
      intro g hg h5 vs hv hsv
      cases g with
      | nil => exact absurd rfl h5
      | cons c g =>
        simp only [List.all_cons, Bool.and_eq_true] at hg
        have hp' : s = [] → isWhitespace c = true → ∀ x, t = .affix x true → x.length ≠ 1 := by
          rintro rfl _ x rfl
          obtain ⟨cs, rfl, h⟩ := hp.placed []
          cases h.nil_inv
          exact h3 x rfl
        rcases ht.follow (Seals.of_ws hg.1) hp' (g ++ b) with h | ⟨rfl, -, h⟩
        · rw [List.append_assoc]; exact .token h hv
        · rw [hsv rfl]
          have := Tokenizes.token h (blank g hg.2)
          simpa using this
    by_cases hs : s = []
    · subst hs
      obtain ⟨cs, rfl, h⟩ := hp.placed []
      cases h.nil_inv
      exact .inl fun g hg h5 h6 => key g hg h5 us (by simpa using blank g hg) fun _ => rfl
    · rcases ih (fun hm => h1 (by simp [hm])) h2 h3.tail with h | h
      · exact .inl fun g hg h5 h6 => key g hg h5 _ (h g hg h5 h6) fun h => absurd h hs
      · exact .inr fun g hg h5 h6 => key g hg h5 _ (h g hg h5 h6) fun h => absurd h hs

theorem Placed.space_iff {pre s : Text} {c : Char} (hw : isWhitespace c = true) {cs : List CTok} :
    Placed pre (c :: s) cs ↔ Placed (pre ++ [c]) s cs := by
  constructor
  · intro h
    have := h.hasC.congr (TLex.lex_space hw).symm
    exact TLex.HasC.placed (by simpa using this)
  · exact .space hw

theorem Placed.semi_iff {pre s : Text} {cs : List CTok} :
    Placed pre (';' :: s) cs ↔
      ∃ cs', cs = (.semi, colAfter (pre ++ [';'])) :: cs' ∧ Placed (pre ++ [';']) s cs' := by
  have ht : TokenAt .semi [';'] s := .punct (by decide)
  constructor
  · intro h
    obtain ⟨hl, hne⟩ := TLex.TokenAt.lex ht
    cases h.hasC with
    | nil h2 => rw [show ';' :: s = [';'] ++ s from rfl, hl] at h2; cases h2
    | @cons _ t' r' cs'' pre' h2 _ hp' h3 =>
      rw [show ';' :: s = [';'] ++ s from rfl, hl] at h2
      cases h2
      rw [show pre ++ ';' :: s = pre ++ [';'] ++ s by simp] at hp' h3
      rw [← List.append_cancel_right hp']
      exact ⟨_, rfl, h3.placed⟩
  · rintro ⟨cs', rfl, h⟩
    exact .token ht h

end

/-! ### Joining programs -/

theorem split_at {α : Type} {z : α} {X Y cs us : List α} (h : X ++ Y = cs ++ z :: us) (hz : z ∉ X) :
    ∃ cs', cs = X ++ cs' ∧ Y = cs' ++ z :: us := by
  rcases List.append_eq_append_iff.1 h with ⟨a, h1, h2⟩ | ⟨a, h1, h2⟩
  · exact ⟨a, h1, h2⟩
  · cases a with
    | nil => exact ⟨[], by simpa using h1.symm, h2.symm⟩
    | cons y a =>
      injection h2 with h3 h4
      subst h3
      exact absurd (by rw [h1]; simp) hz

theorem WrittenProg.of_nil {ds : List Decl} (h : WrittenProg ds []) : ds = [] := by
  generalize ht : ([] : List CTok) = ts at h
  cases h with
  | nil => rfl
  | @infix_ d ds us ts semi hd _ =>
    have := hd.1.length_pos
    have : ts = [] := (List.append_eq_nil_iff.1 (List.append_eq_nil_iff.1 ht.symm).1).1
    subst this; simp at *
  | expr semi he _ _ =>
    exact absurd (List.append_eq_nil_iff.1 (List.append_eq_nil_iff.1 ht.symm).1).1 he.ne_nil

theorem Follow.left {m : Nat} {cs us : List CTok} (h : Follow m (cs ++ us)) : Follow m cs := by
  cases cs with
  | nil => trivial
  | cons x cs => exact h

theorem Follow.right {m : Nat} {cs us : List CTok} (hne : cs ≠ []) (h : Follow m cs) :
    Follow m (cs ++ us) := by
  cases cs with
  | nil => exact (hne rfl).elim
  | cons x cs => exact h

/-- A semicolon splits a program in two. -/
theorem WrittenProg.split {ds : List Decl} {all : List CTok} (h : WrittenProg ds all) :
    ∀ {cs us : List CTok} {k : Nat}, all = cs ++ (.semi, k) :: us →
      ∃ ds₁ ds₂, ds = ds₁ ++ ds₂ ∧ WrittenProg ds₁ cs ∧ WrittenProg ds₂ us ∧ cs ≠ [] ∧
        (cs.map (·.1)).getLast? ≠ some .semi := by
  have last : ∀ {ts : List CTok}, Inner (ts.map (·.1)) → (ts.map (·.1)).getLast? ≠ some .semi :=
    fun h hl => (h _ (List.mem_of_getLast? hl)).1 rfl
  have last' : ∀ {ts cs : List CTok}, cs ≠ [] → (cs.map (·.1)).getLast? ≠ some .semi →
      ((ts ++ cs).map (·.1)).getLast? ≠ some .semi := by
    intro ts cs h h'
    rw [List.map_append, List.getLast?_append]
    cases hg : (cs.map (·.1)).getLast? with
    | none => exact absurd (by simpa using hg) h
    | some x => rw [hg] at h'; simpa using h'
  have nomem : ∀ {ts : List CTok} {k}, Inner (ts.map (·.1)) → (Token.semi, k) ∉ ts :=
    fun h hm => (h _ (List.mem_map.2 ⟨_, hm, rfl⟩)).1 rfl
  induction h with
  | nil => intro cs us k h; simp at h
  | @infix_ d ds us' ts semi hd hr ih =>
    intro cs us k h0
    have hne : ts ≠ [] := by rintro rfl; have := hd.1.length_pos; simp at this
    rw [List.append_assoc] at h0
    obtain ⟨cs', hcs, h⟩ : ∃ cs', cs = ts ++ cs' ∧ semiToks semi ++ us' = cs' ++ (.semi, k) :: us :=
      split_at h0 (nomem hd.1.inner)
    clear h0
    subst hcs
    cases semi with
    | none =>
      obtain ⟨ds₁, ds₂, rfl, h1, h2, h3, h4⟩ := ih h
      exact ⟨.infix_ d :: ds₁, ds₂, rfl, by simpa [semiToks] using WrittenProg.infix_ none hd h1, h2,
        by simp [hne], last' h3 h4⟩
    | some j =>
      cases cs' with
      | nil =>
        injection h with h5 h6
        subst h6
        exact ⟨[.infix_ d], ds, rfl, by simpa [semiToks] using WrittenProg.infix_ none hd .nil, hr,
          by simp [hne], by simpa using last hd.1.inner⟩
      | cons x cs'' =>
        injection h with h5 h6
        subst h5
        obtain ⟨ds₁, ds₂, rfl, h1, h2, h3, h4⟩ := ih h6
        refine ⟨.infix_ d :: ds₁, ds₂, rfl, ?_, h2, by simp, ?_⟩
        · simpa [semiToks] using WrittenProg.infix_ (some j) hd h1
        · have := last' (ts := ts ++ [(.semi, j)]) h3 h4
          simpa using this
  | @expr e m ds ts us' semi he hr hf ih =>
    intro cs us k h0
    rw [List.append_assoc] at h0
    obtain ⟨cs', hcs, h⟩ : ∃ cs', cs = ts ++ cs' ∧ semiToks semi ++ us' = cs' ++ (.semi, k) :: us :=
      split_at h0 (nomem he.inner)
    clear h0
    subst hcs
    cases semi with
    | none =>
      obtain ⟨ds₁, ds₂, rfl, h1, h2, h3, h4⟩ := ih h
      have hf' := hf rfl
      rw [show us' = cs' ++ (.semi, k) :: us from h] at hf'
      exact ⟨.expr e :: ds₁, ds₂, rfl,
        by simpa [semiToks] using WrittenProg.expr none he h1 (fun _ => hf'.left), h2,
        by simp [he.ne_nil], last' h3 h4⟩
    | some j =>
      cases cs' with
      | nil =>
        injection h with h5 h6
        subst h6
        exact ⟨[.expr e], ds, rfl,
          by simpa [semiToks] using WrittenProg.expr none he .nil (fun _ => trivial), hr,
          by simp [he.ne_nil], by simpa using last he.inner⟩
      | cons x cs'' =>
        injection h with h5 h6
        subst h5
        obtain ⟨ds₁, ds₂, rfl, h1, h2, h3, h4⟩ := ih h6
        refine ⟨.expr e :: ds₁, ds₂, rfl, ?_, h2, by simp, ?_⟩
        · simpa [semiToks] using WrittenProg.expr (some j) he h1 (by simp)
        · have := last' (ts := ts ++ [(.semi, j)]) h3 h4
          simpa using this

/-- Programs joined by a semicolon are a program. -/
theorem WrittenProg.join {ds₁ ds₂ : List Decl} {cs us : List CTok} {k : Nat}
    (h : WrittenProg ds₁ cs) (h' : WrittenProg ds₂ us) :
    cs ≠ [] → (cs.map (·.1)).getLast? ≠ some .semi →
      WrittenProg (ds₁ ++ ds₂) (cs ++ (.semi, k) :: us) := by
  have last' : ∀ {ts cs : List CTok}, cs ≠ [] → ((ts ++ cs).map (·.1)).getLast? ≠ some .semi →
      (cs.map (·.1)).getLast? ≠ some .semi := by
    intro ts cs h h'
    rw [List.map_append, List.getLast?_append] at h'
    cases hg : (cs.map (·.1)).getLast? with
    | none => simp
    | some x => rw [hg] at h'; simpa using h'
  have nosemi : ∀ {ts : List CTok} {semi : Option Nat},
      ((ts ++ semiToks semi ++ []).map (fun x : CTok => x.1)).getLast? ≠ some .semi →
      semi = none := by
    intro ts semi h
    cases semi with
    | none => rfl
    | some j => simp [semiToks] at h
  induction h with
  | nil => intro h; exact (h rfl).elim
  | @infix_ d ds us' ts semi hd hr ih =>
    intro _ hl
    by_cases hu : us' = []
    · subst hu
      cases nosemi hl
      cases hr.of_nil
      simpa [semiToks] using WrittenProg.infix_ (some k) hd h'
    · have := WrittenProg.infix_ semi hd (ih hu (last' hu hl))
      simpa using this
  | @expr e m ds ts us' semi he hr hf ih =>
    intro _ hl
    by_cases hu : us' = []
    · subst hu
      cases nosemi hl
      cases hr.of_nil
      simpa [semiToks] using WrittenProg.expr (some k) he h' (by simp)
    · have := WrittenProg.expr semi he (ih hu (last' hu hl)) (fun h => (hf h).right hu)
      simpa using this

theorem LineProg.of_nil {ds : List Decl} (h : LineProg ds []) : ds = [] :=
  (h.written [] rfl .nil).of_nil

/-- A semicolon splits a program on one line in two. -/
theorem LineProg.split_iff {ds : List Decl} {ts us : List Token} (hne : ts ≠ [])
    (hl : ts.getLast? ≠ some .semi) :
    LineProg ds (ts ++ .semi :: us) ↔
      ∃ ds₁ ds₂, ds = ds₁ ++ ds₂ ∧ LineProg ds₁ ts ∧ LineProg ds₂ us := by
  -- columns that increase by one
  have number : ∀ (ts : List Token) (n : Nat), ∃ cs : List CTok, cs.map (·.1) = ts ∧ Inc cs ∧
      ∀ x ∈ cs, n ≤ x.2 := by
    intro ts
    induction ts with
    | nil => exact fun _ => ⟨[], rfl, .nil, by simp⟩
    | cons t ts ih =>
      intro n
      obtain ⟨cs, h1, h2, h3⟩ := ih (n + 1)
      exact ⟨(t, n) :: cs, by simp [h1], .cons h3 h2,
        fun x hx => (List.mem_cons.1 hx).elim (fun e => by rw [e]; exact Nat.le_refl _)
          fun hx => Nat.le_of_succ_le (h3 x hx)⟩
  constructor
  · intro h
    obtain ⟨all, h1, h2, _⟩ := number (ts ++ .semi :: us) 0
    obtain ⟨cs, cs', rfl, hcs, hcs'⟩ := List.map_eq_append_iff.1 h1
    obtain ⟨x, us', rfl, hx, hus⟩ := List.map_eq_cons_iff.1 hcs'
    obtain ⟨t, k⟩ := x
    cases hx
    obtain ⟨ds₁, ds₂, rfl, h3, h4, _⟩ := (h.written _ h1 h2).split rfl
    have i1 : Inc cs := h2.sublist (List.sublist_append_left _ _)
    have i2 : Inc us' := h2.sublist ((List.sublist_cons_self _ _).trans (List.sublist_append_right _ _))
    exact ⟨ds₁, ds₂, rfl, hcs ▸ h3.line i1, hus ▸ h4.line i2⟩
  · rintro ⟨ds₁, ds₂, rfl, h1, h2⟩
    obtain ⟨all, e1, i1, _⟩ := number (ts ++ .semi :: us) 0
    obtain ⟨cs, cs', rfl, hcs, hcs'⟩ := List.map_eq_append_iff.1 e1
    obtain ⟨x, us', rfl, hx, hus⟩ := List.map_eq_cons_iff.1 hcs'
    obtain ⟨t, k⟩ := x
    cases hx
    have j1 : Inc cs := i1.sublist (List.sublist_append_left _ _)
    have j2 : Inc us' := i1.sublist ((List.sublist_cons_self _ _).trans (List.sublist_append_right _ _))
    have := (h1.written _ hcs j1).join (k := k) (h2.written _ hus j2)
      (by rintro rfl; exact hne (by simpa using hcs.symm)) (by rw [hcs]; exact hl)
    rw [← e1]
    exact this.line i1

end Pemdas
