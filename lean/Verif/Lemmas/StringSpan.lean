import Verif.Spec.Spans
import Verif.Lemmas.LexGrammar
/-
Helper lemmas on where the span of a string literal starts.
-/
namespace Pemdas

theorem NoLineEscape.nil : NoLineEscape [] := by
  intro a b h
  cases a <;> simp at h

theorem StrBody.tail_char {c : Char} {w s : Text} (h1 : c ≠ '\\') (h : StrBody (c :: w) s) :
    ∃ s', StrBody w s' := by
  generalize hx : c :: w = x at h
  cases h with
  | nil => cases hx
  | char _ _ h => injection hx with _ h2; subst h2; exact ⟨_, h⟩
  | escape => injection hx with h2; exact absurd h2 h1
  | hidden => injection hx with h2; exact absurd h2 h1
  | other => injection hx with h2; exact absurd h2 h1

theorem StrBody.tail_escape {c : Char} {w s : Text} (h1 : c ≠ '\n')
    (h : StrBody ('\\' :: c :: w) s) : ∃ s', StrBody w s' := by
  generalize hx : '\\' :: c :: w = x at h
  cases h with
  | nil => cases hx
  | char _ h2 _ => injection hx with h3; exact absurd h3.symm h2
  | escape _ h => injection hx with _ h2; injection h2 with _ h2; subst h2; exact ⟨_, h⟩
  | hidden => injection hx with _ h2; injection h2 with h2; exact absurd h2 h1
  | other _ _ h => injection hx with _ h2; injection h2 with _ h2; subst h2; exact ⟨_, h⟩

theorem StrBody.not_backslash {s : Text} : ¬ StrBody ['\\'] s := by
  intro h
  generalize hx : ['\\'] = x at h
  cases h with
  | nil => cases hx
  | char _ h2 _ => injection hx with h3; exact absurd h3.symm h2
  | escape => injection hx with _ h2; cases h2
  | hidden => injection hx with _ h2; cases h2
  | other => injection hx with _ h2; cases h2

theorem NoLineEscape.char {c : Char} {w : Text} (h1 : c ≠ '\\') (h : NoLineEscape w) :
    NoLineEscape (c :: w) := by
  rintro a b he ⟨s, hs⟩
  cases a with
  | nil => injection he with h2; exact h1 h2
  | cons d a =>
    injection he with h2 h3
    subst h2
    exact h a b h3 (hs.tail_char h1)

theorem NoLineEscape.escape {c : Char} {w : Text} (h1 : c ≠ '\n') (h : NoLineEscape w) :
    NoLineEscape ('\\' :: c :: w) := by
  rintro a b he ⟨s, hs⟩
  cases a with
  | nil => injection he with _ h2; injection h2 with h2; exact h1 h2
  | cons d a =>
    injection he with h2 h3
    subst h2
    cases a with
    | nil => exact StrBody.not_backslash hs
    | cons e a =>
      injection h3 with h2 h3
      subst h2
      exact h a b h3 (hs.tail_escape h1)

theorem escapes_ne_newline {c d : Char} (h : (c, d) ∈ escapes) : c ≠ '\n' := by
  rintro rfl
  rw [TLex.escapes_iff] at h
  exact absurd h.1 (by decide)

namespace Lexer

/-- A string literal. -/
def isStrTok : Token → Bool
  | .lit (.str _) => true
  | _ => false

section
variable [CharTables]

theorem charLit_not_str {l l' : Lexer} {t : Token} (h : l.charLit = .ok (t, l')) :
    isStrTok t = false := by
  have hu : ∀ {l loc}, unicodeEscape l loc = .ok (t, l') → isStrTok t = false := by
    intro l loc h
    unfold unicodeEscape at h
    simp only [bind, Except.bind] at h
    repeat' split at h
    all_goals first
      | (injection h with h; injection h with h1 h2; subst h1; rfl)
      | cases h
  have he : ∀ {l loc}, charEscape l loc = .ok (t, l') → isStrTok t = false := by
    intro l loc h
    unfold charEscape at h
    simp only at h
    repeat' split at h
    all_goals first
      | exact hu h
      | (injection h with h; injection h with h1 h2; subst h1; rfl)
      | cases h
  unfold charLit at h
  simp only [bind, Except.bind] at h
  repeat' split at h
  all_goals first
    | exact he h
    | (injection h with h; injection h with h1 h2; subst h1; rfl)
    | cases h

omit [CharTables] in
theorem number_not_str {l l' : Lexer} {t : Token} (h : l.number = .ok (t, l')) :
    isStrTok t = false := by
  unfold number at h
  simp only [bind, Except.bind] at h
  repeat' split at h
  all_goals first
    | (injection h with h; injection h with h1 h2; subst h1; rfl)
    | cases h

theorem backtick_not_str {l l' : Lexer} {t : Token} (h : l.backtick = .ok (t, l')) :
    isStrTok t = false := by
  unfold backtick promotedOperator at h
  simp only [bind, Except.bind] at h
  repeat' split at h
  all_goals first
    | (injection h with h; injection h with h1 h2; subst h1; rfl)
    | cases h

theorem ident_not_str {l l' : Lexer} {c : Char} {t : Token} (h : l.ident c = .ok (t, l')) :
    isStrTok t = false := by
  unfold ident identifier at h
  simp only [bind, Except.bind] at h
  repeat' split at h
  all_goals first
    | (injection h with h; injection h with h1 h2; subst h1; rfl)
    | (injection h with h; injection h with h1 h2; subst h1; skip)
    | cases h
  all_goals
    rename_i h'
    split at h'
    · injection h' with h'; rw [← h']; split <;> rfl
    · cases h'

omit [CharTables] in
theorem operator_not_str {l l' : Lexer} {t : Token} (h : l.operator = .ok (.tok t l')) :
    isStrTok t = false := by
  unfold operator at h
  simp only [bind, Except.bind] at h
  repeat' split at h
  all_goals first
    | (injection h with h; injection h with h1 h2; subst h1; rfl)
    | cases h

theorem dispatch_str {l l' : Lexer} {c : Char} {t : Token} (h : l.dispatch c = .ok (.tok t l'))
    (ht : isStrTok t = true) : c = '"' ∧ l.string = (t, l') := by
  cases dispatch_pass h with
  | punct hc =>
    simp only [List.mem_cons, Prod.mk.injEq, List.not_mem_nil, or_false] at hc
    rcases hc with ⟨_, rfl⟩ | ⟨_, rfl⟩ | ⟨_, rfl⟩ | ⟨_, rfl⟩ | ⟨_, rfl⟩ | ⟨_, rfl⟩ | ⟨_, rfl⟩ | ⟨_, rfl⟩ <;>
      cases ht
  | char _ h => rw [charLit_not_str h] at ht; cases ht
  | string hc => exact ⟨hc, rfl⟩
  | number _ h => rw [number_not_str h] at ht; cases ht
  | backtick _ h => rw [backtick_not_str h] at ht; cases ht
  | ident hc h => rw [ident_not_str h] at ht; cases ht
  | op hc h => rw [operator_not_str h] at ht; cases ht
  | unknown => cases ht

end

/-- Where the remembered location is after the body `w` of a string literal. -/
def MarkedIn (l : Lexer) (w : Text) (l' : Lexer) : Prop :=
  (NoLineEscape w ∧ l'.prevLoc = l.prevLoc) ∨
  ∃ w1 g w2 m, Reach true m l' ∧ m.Sync ∧ m.src = l.src ∧ m.chars = w2 ++ '"' :: l'.chars ∧
    w = w1 ++ '\\' :: '\n' :: (g ++ w2) ∧ (∃ s, StrBody w1 s) ∧ g.all isWhitespace = true ∧
    (∀ c ∈ w2.head?, isWhitespace c = false) ∧ NoLineEscape w2 ∧ l'.prevLoc = m.currLoc

theorem stringLoop_span {n : Nat} : ∀ {l l' : Lexer} {buf buf' : Text}, l.Sync →
    stringLoop n l false buf = (true, buf', l') →
    ∃ w v, l.chars = w ++ '"' :: l'.chars ∧ buf' = buf ++ v ∧ StrBody w v ∧ Reach true l l' ∧
      MarkedIn l w l' := by
  induction n using Nat.strongRecOn with
  | ind n ih =>
    intro l l' buf buf' hy h
    obtain ⟨m, rfl⟩ : ∃ m, n = m + 1 := by
      cases n with
      | zero => simp [stringLoop] at h
      | succ m => exact ⟨m, rfl⟩
    have hadv := Reach.one (b := true) l
    cases hch : l.chars with
    | nil => simp [stringLoop, bumpChar, hch] at h
    | cons c cs =>
      have hcs : l.advance.chars = cs := by rw [hy.advance_chars, hch]; rfl
      rw [stringLoop, bumpChar_of hch] at h
      simp only [Bool.false_eq_true, if_false] at h
      split at h
      · rename_i hc
        simp only [Prod.mk.injEq, true_and] at h
        obtain ⟨rfl, rfl⟩ := h
        exact ⟨[], [], by rw [hc, hcs]; rfl, by simp, .nil, hadv,
          .inl ⟨.nil, advance_prevLoc _⟩⟩
      · rename_i hq
        split at h
        · rename_i hb
          subst hb
          obtain ⟨k, rfl⟩ : ∃ k, m = k + 1 := by
            cases m with
            | zero => simp [stringLoop] at h
            | succ k => exact ⟨k, rfl⟩
          cases cs with
          | nil => simp [stringLoop, bumpChar, hcs] at h
          | cons d ds =>
            have hds : l.advance.advance.chars = ds := by rw [hy.advance.advance_chars, hcs]; rfl
            have hadv2 : Reach true l l.advance.advance := hadv.trans (Reach.one _)
            rw [stringLoop, bumpChar_of hcs] at h
            simp only [if_true] at h
            have other : ∀ {x : Text}, d ≠ '\n' → (∀ {w v}, StrBody w v → StrBody ('\\' :: d :: w) (x ++ v)) →
                stringLoop k l.advance.advance false (buf ++ x) = (true, buf', l') →
                ∃ w v, '\\' :: d :: ds = w ++ '"' :: l'.chars ∧ buf' = buf ++ v ∧ StrBody w v ∧
                  Reach true l l' ∧ MarkedIn l w l' := by
              intro x hd hx h
              obtain ⟨w, v, h1, h2, h3, h4, h5⟩ := ih k (by omega) hy.advance.advance h
              refine ⟨'\\' :: d :: w, x ++ v, by rw [← hds, h1]; rfl, by rw [h2]; simp, hx h3,
                hadv2.trans h4, ?_⟩
              rcases h5 with ⟨h5, h6⟩ | ⟨w1, g, w2, m', g1, g2, g3, g4, g5, ⟨s, g6⟩, g7, g8, g9, g10⟩
              · exact .inl ⟨h5.escape hd, by rw [h6, advance_prevLoc, advance_prevLoc]⟩
              · exact .inr ⟨'\\' :: d :: w1, g, w2, m', g1, g2, by rw [g3, hadv2.src], g4,
                  by rw [g5]; rfl, ⟨_, hx g6⟩, g7, g8, g9, g10⟩
            split at h
            · rename_i he
              have hm : (d, getEscaped d) ∈ escapes := TLex.escapes_iff.2 ⟨he, rfl⟩
              exact other (escapes_ne_newline hm) (fun hw => .escape hm hw) h
            · rename_i he
              split at h
              · rename_i hd
                subst hd
                have hy2 := hy.advance.advance
                have hw := reach_eatWhitespace l.advance.advance
                have hy3 := hy2.reach hw
                obtain ⟨w, v, h1, h2, h3, h4, h5⟩ := ih k (by omega) hy3 h
                have hdw : l.advance.advance.eatWhitespace.chars = ds.dropWhile isWhitespace := by
                  rw [hy2.eatWhitespace, hds]
                have hsplit : ds = ds.takeWhile isWhitespace ++ (w ++ '"' :: l'.chars) := by
                  rw [← h1, hdw, List.takeWhile_append_dropWhile]
                have hall := Lexer.all_takeWhile isWhitespace ds
                have hhead : ∀ c ∈ w.head?, isWhitespace c = false := by
                  intro e he'
                  cases w with
                  | nil => simp at he'
                  | cons a w =>
                    have : e = a := by simpa using he'.symm
                    subst this
                    exact eatWhitespace_stops h1
                refine ⟨'\\' :: '\n' :: (ds.takeWhile isWhitespace ++ w), v, ?_, h2,
                  .hidden hall hhead h3, (hadv2.trans hw).trans h4, ?_⟩
                · simp only [List.cons_append, List.append_assoc]
                  rw [← hsplit]
                · rcases h5 with ⟨h5, h6⟩ | ⟨w1, g, w2, m', g1, g2, g3, g4, g5, ⟨s, g6⟩, g7, g8, g9, g10⟩
                  · refine .inr ⟨[], ds.takeWhile isWhitespace, w, _, h4, hy3,
                      by rw [hw.src, hadv2.src], h1, rfl, ⟨_, .nil⟩, hall, hhead, h5, ?_⟩
                    rw [h6]; rfl
                  · refine .inr ⟨'\\' :: '\n' :: (ds.takeWhile isWhitespace ++ w1), g, w2, m', g1, g2,
                      by rw [g3, hw.src, hadv2.src], g4, by rw [g5]; simp, ⟨s, .hidden hall ?_ g6⟩,
                      g7, g8, g9, g10⟩
                    intro e he'
                    apply hhead
                    rw [g5]
                    cases w1 with
                    | nil => simp at he'
                    | cons a w1 => simpa using he'
              · rename_i hd
                exact other (x := [d]) hd
                  (fun hw => .other (TLex.not_escapes_iff.2 (by simpa using he)) hd hw) h
        · rename_i hb
          obtain ⟨w, v, h1, h2, h3, h4, h5⟩ := ih m (by omega) hy.advance h
          refine ⟨c :: w, c :: v, by rw [← hcs, h1]; rfl, by rw [h2]; simp, .char hq hb h3,
            hadv.trans h4, ?_⟩
          rcases h5 with ⟨h5, h6⟩ | ⟨w1, g, w2, m', g1, g2, g3, g4, g5, ⟨s, g6⟩, g7, g8, g9, g10⟩
          · exact .inl ⟨h5.char hb, by rw [h6, advance_prevLoc]⟩
          · exact .inr ⟨c :: w1, g, w2, m', g1, g2, by rw [g3, hadv.src], g4,
              by rw [g5]; rfl, ⟨_, .char hq hb g6⟩, g7, g8, g9, g10⟩

end Lexer
end Pemdas
