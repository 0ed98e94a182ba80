import Verif.Lemmas.AnySource
import Verif.Lemmas.ExprPrefix
/-
The first tokens of a source are also those of the text that ends with them, for all sources.
-/
namespace Pemdas
open Lexer

namespace GLex
section
variable {src src' : Text}

/-- What is found is also found in the text that ends with it, or later. -/
theorem found_cut {pre x y r : Text} (h : Found src pre x y) (hs : src' <+: src)
    (hp : unCR src' = pre ++ (x ++ r)) : Found src' pre x y := by
  obtain ⟨a, b, h1, h2, h3⟩ := h
  have hl : utf8Len (a ++ y) ≤ utf8Len src' := by
    have := utf8Len_unCR_le src'
    rw [hp] at this
    simp only [utf8Len_append] at this ⊢
    omega
  have hay : a ++ y <+: src := ⟨b, h1.symm⟩
  have : a ++ y <+: src' := by
    rcases List.prefix_or_prefix_of_prefix hay hs with h | ⟨c, hc⟩
    · exact h
    · rw [← hc] at hl ⊢
      have : utf8Len c = 0 := by rw [utf8Len_append] at hl; omega
      cases c with
      | nil => simp
      | cons d c =>
        have h1 := Char.utf8Size_pos d
        have h2 : utf8Len (d :: c) = d.utf8Size + utf8Len c := by simp
        omega
  obtain ⟨b', hb⟩ := this
  exact ⟨a, b', hb.symm, h2, h3⟩

variable [CharTables]

theorem TokenIn.cut {pre : Text} {t : Token} {w r q : Text} (h : TokenIn src pre t w r)
    (hs : src' <+: src) (hp : unCR src' = pre ++ (w ++ q)) (hq : ∀ c ∈ q.head?, c ∈ r.head?)
    (hr : r = [] → q = []) : TokenIn src' pre t w q := by
  have max : ∀ {p : Char → Bool} {x : Text}, Maximal p x r → Maximal p x q :=
    fun hm c hc => hm c (hq c hc)
  cases h with
  | punct h => exact .punct h
  | word h1 h2 h3 h4 h5 => exact .word h1 h2 (max h3) (found_cut h4 hs hp) h5
  | op h1 h2 h3 h4 h5 =>
    refine .op h1 h2 (max h3) (found_cut h4 hs hp) (h5.imp_right ?_)
    rintro ⟨g1, g2, g3⟩
    exact ⟨g1, fun hy hh => g2 hy (hq '{' (by rw [hh]; rfl)), g3⟩
  | @backticks x y _ h1 h2 =>
    exact .backticks h1 (found_cut (r := '`' :: q) h2 hs (by rw [hp]; simp))
  | @apostrophe x y _ h1 h2 h3 h4 =>
    refine .apostrophe h1 (max h2) ?_ (found_cut (r := q) h4 hs (by rw [hp]; simp))
    intro c hc
    cases hx : x.tail with
    | nil =>
      rw [hx] at hc h3
      exact h3 c (hq c hc)
    | cons => rw [hx] at hc h3; exact h3 c hc
  | @blank c w y _ h1 h2 h3 =>
    exact .blank h1 h2 (found_cut (r := q) h3 hs (by rw [hp]; simp))
  | int h1 h2 h3 h4 h5 h6 =>
    exact .int h1 h2 (fun c hc => h3 c (hq c hc)) (found_cut h4 hs hp) h5 h6
  | char h => exact .char h
  | charEscape h => exact .charEscape h
  | @charCode u c plus x y ds l _ h1 h2 h3 h4 h5 h6 h7 h8 h9 =>
    exact .charCode h1 h2 h3 h4 h5 (found_cut (r := '\'' :: (l ++ q)) h6 hs (by rw [hp]; simp)) h7 h8
      (h9.imp_right fun ⟨g1, g2⟩ => ⟨g1, hr g2⟩)
  | str h => exact .str h

theorem TokenIn.ne_nil {pre : Text} {t : Token} {w r : Text} (h : TokenIn src pre t w r) : w ≠ [] := by
  cases h with
  | int h => exact h
  | _ => simp

variable [LawfulTables]

/-- Up to the end of the next token, the text decides what that token is. -/
theorem lexN_cut {n : Nat} : ∀ {pre s r : Text} {t : Token}, unCR src = pre ++ s →
    lexN src n s = some (t, r) → s.length < n → t ≠ .eof →
    ∃ p, s = p ++ r ∧ p ≠ [] ∧ ∀ (src' q : Text), src' <+: src → unCR src' = pre ++ (p ++ q) →
      (∀ c ∈ q.head?, c ∈ r.head?) → (r = [] → q = []) → lex src' (p ++ q) = some (t, q) := by
  induction n with
  | zero => intro pre s r t _ _ h; omega
  | succ n ih =>
    intro pre s r t hp h hl hne
    have ws : ∀ (s pre : Text), (∀ pre', pre' ++ s.dropWhile isWhitespace = pre ++ s →
        ∃ p, s.dropWhile isWhitespace = p ++ r ∧ p ≠ [] ∧ ∀ (src' q : Text), src' <+: src →
          unCR src' = pre' ++ (p ++ q) →
          (∀ c ∈ q.head?, c ∈ r.head?) → (r = [] → q = []) → lex src' (p ++ q) = some (t, q)) →
        ∃ p, s = p ++ r ∧ p ≠ [] ∧ ∀ (src' q : Text), src' <+: src → unCR src' = pre ++ (p ++ q) →
          (∀ c ∈ q.head?, c ∈ r.head?) → (r = [] → q = []) → lex src' (p ++ q) = some (t, q) := by
      intro s
      induction s with
      | nil => exact fun pre h => h pre rfl
      | cons c s ih =>
        intro pre
        rw [List.dropWhile_cons]
        split
        · rename_i hc
          intro hh
          obtain ⟨p, h1, _, h3⟩ := ih (pre ++ [c]) fun pre' he => hh pre' (by rw [he]; simp)
          refine ⟨c :: p, by rw [h1]; rfl, by simp, fun src' q g1 g2 g3 g4 => ?_⟩
          rw [List.cons_append, lex_space hc]
          exact h3 src' q g1 (by rw [g2]; simp) g3 g4
        · exact fun hh => hh pre rfl
    apply ws
    intro pre hpre
    rw [← hpre] at hp
    unfold lexN at h
    have hlen := (List.dropWhile_suffix (l := s) isWhitespace).length_le
    cases hd : s.dropWhile isWhitespace with
    | nil =>
      rw [hd] at h
      simp only [Option.some.injEq, Prod.mk.injEq] at h
      exact absurd h.1.symm hne
    | cons c cs' =>
      rw [hd] at h hlen hp
      simp only at h
      cases hx : dispatch src (c :: cs') c with
      | none => rw [hx] at h; cases h
      | some z =>
        rw [hx] at h
        cases z with
        | tok t' r' =>
          simp only [Option.some.injEq, Prod.mk.injEq] at h
          obtain ⟨rfl, rfl⟩ := h
          obtain ⟨w, hw, ht⟩ := dispatch_sound hp hx
          exact ⟨w, hw, TokenIn.ne_nil ht, fun src' q g1 g2 g3 g4 =>
            (TokenIn.lex g2 (TokenIn.cut ht g1 g2 g3 g4)).1⟩
        | skipped r' =>
          simp only at h
          obtain ⟨hi, ho⟩ := dispatch_skipped hx
          have hlt := operator_skipped hi ho
          rcases operator_skips hp hi ho with ⟨x, b, e1, e2, e3, e4, e5, e6⟩ | ⟨x, b, l, e1, e2, e3, e4, e5⟩
          · obtain ⟨p, h1, h2, h3⟩ := ih (pre := pre ++ (c :: x ++ b)) (by rw [hp, e1]; simp) h (by omega) hne
            refine ⟨c :: x ++ b ++ p, by rw [e1, h1]; simp, by simp, fun src' q g1 g2 g3 g4 => ?_⟩
            have hh : (p ++ q).head? = r'.head? := by
              cases p with
              | nil => exact absurd rfl h2
              | cons => rw [h1]; rfl
            have hb : (b ++ (p ++ q)).head? = (b ++ r').head? := by
              cases b with
              | nil => exact hh
              | cons => rfl
            have g2' : unCR src' = pre ++ (c :: x ++ b ++ (p ++ q)) := by rw [g2]; simp
            rw [List.append_assoc, line_lex g2' hi e2 (fun d hd => e3 d (hb ▸ hd))
              (found_cut (r := b ++ (p ++ q)) e4 g1 (by rw [g2']; simp)) e5 (fun d hd => e6 d (hh ▸ hd))]
            exact h3 src' q g1 (by rw [g2']; simp) g3 g4
          · obtain ⟨p, h1, h2, h3⟩ := ih (pre := pre ++ (c :: x ++ t!"{" ++ b ++ t!"}~" ++ l))
              (by rw [hp, e1]; simp) h (by omega) hne
            refine ⟨c :: x ++ t!"{" ++ b ++ t!"}~" ++ l ++ p, by rw [e1, h1]; simp, by simp,
              fun src' q g1 g2 g3 g4 => ?_⟩
            have g2' : unCR src' = pre ++ (c :: x ++ t!"{" ++ b ++ t!"}~" ++ l ++ (p ++ q)) := by
              rw [g2]; simp
            rw [List.append_assoc, block_lex g2' hi e2
              (found_cut (r := t!"{" ++ b ++ t!"}~" ++ l ++ (p ++ q)) e3 g1 (by rw [g2']; simp)) e4
              (e5.imp_right fun ⟨k1, k2⟩ => ⟨k1, ?_⟩)]
            · exact h3 src' q g1 (by rw [g2']; simp) g3 g4
            · rw [h1] at k2
              exact absurd (List.append_eq_nil_iff.1 k2).1 h2

end
end GLex

section
variable [CharTables]

theorem peek_of_lex {m m' : Lexer} {t : Token} (hc : m.curr = none) (h : m.lex = .ok (t, m'))
    (ht : t ≠ .eof) : ∃ k, P.peek m = .ok t k ∧ k.currLoc = m'.currLoc ∧
      { k with curr := none } = { m' with curr := none } := by
  unfold P.peek Lexer.peek
  rw [hc]
  simp only
  rw [h]
  simp only
  exact ⟨_, rfl, rfl, rfl⟩

omit [CharTables] in
theorem On.noCurr {src : Text} {m : Lexer} (h : m.On src) : ({ m with curr := none } : Lexer).On src := by
  obtain ⟨h1, pre, h2, h3, h4⟩ := h
  exact ⟨h1, pre, h2, h3, h4⟩

variable [LawfulTables]

omit [CharTables] [LawfulTables] in
theorem head_view {s : Text} {c : Char} (h : c ∈ (unCR s).head?) : c ∈ s.head? := by
  rwa [head_unCR] at h

/-- The source can be cut off anywhere after the tokens eaten. -/
theorem Ate.cutAt {src : Text} {us : List (Token × Loc)} {k : Lexer} (h : Ate (Lexer.new src) us k) :
    k.src = src ∧ ∃ A, k.At A ∧ ∀ B C, k.chars = B ++ C →
      (Lexer.new (A ++ B)).currLoc = (Lexer.new src).currLoc ∧
      ∃ k', Ate (Lexer.new (A ++ B)) us k' ∧ k'.On (A ++ B) ∧ k'.view = unCR B := by
  induction h with
  | nil =>
    obtain ⟨hs, A, hA⟩ := on_new src
    refine ⟨hs, A, hA, fun B C hB => ?_⟩
    have h1 := unCR_split hA
    rw [hs, view_new] at h1
    have hcut : unCR A = (unCR src).takeWhile isWhitespace := by
      refine (List.append_cancel_right ((List.takeWhile_append_dropWhile (p := isWhitespace)).trans h1)).symm
    have hws : ∀ c ∈ unCR A, isWhitespace c = true := by
      rw [hcut]; exact fun c hc => List.all_eq_true.1 (Lexer.all_takeWhile _ _) c hc
    have hhead : ∀ c ∈ (unCR B).head?, isWhitespace c = false := by
      intro c hc
      have : c ∈ ((unCR src).dropWhile isWhitespace).head? := by
        rw [← view_new, Lexer.view, head_unCR, hB]
        have := head_view hc
        cases B with
        | nil => cases this
        | cons => exact this
      cases hd : (unCR src).dropWhile isWhitespace with
      | nil => rw [hd] at this; cases this
      | cons d ds =>
        rw [hd] at this
        cases this
        exact Bool.eq_false_iff.2 (by simpa using TLex.head_dropWhile hd)
    have hedge : ¬ (A.getLast? = some '\n' ∧ B.head? = some '\r') := by
      rintro ⟨g1, g2⟩
      refine hA.edge ⟨g1, ?_⟩
      rw [hB]
      cases B with
      | nil => cases g2
      | cons => exact g2
    have hview : (Lexer.new (A ++ B)).view = unCR B := by
      rw [view_new, unCR_append _ _ hedge]
      exact (TLex.takeWhile_append_stop (List.all_eq_true.2 hws) hhead).2
    refine ⟨?_, _, .nil, on_new _, hview⟩
    obtain ⟨hs', A', hA'⟩ := on_new (A ++ B)
    have h2 := unCR_split hA'
    rw [hs', hview, unCR_append _ _ hedge] at h2
    rw [hA'.loc, hA.loc, List.append_cancel_right h2]
  | @snoc us m t m' hm hp ht he ih =>
    obtain ⟨hs, A, hA, ih⟩ := ih
    have hc := hm.curr (curr_new' src)
    have hlex := peek_lex hc hp
    generalize hk : ({ m' with curr := none } : Lexer) = k at hlex
    have hloc : m'.currLoc = k.currLoc := by rw [← hk]; rfl
    obtain ⟨P, hP, hat⟩ := hA.reach (reach_lex hlex)
    refine ⟨by rw [(reach_lex hlex).src, hs], A ++ P, hat, fun B C hB => ?_⟩
    have hon : m.On src := ⟨hs, A, hA⟩
    have hg := any_lex hon
    rw [hlex, gproj_ok he] at hg
    obtain ⟨p, g1, g2, g3⟩ := GLex.lexN_cut (src := src) (by rw [← hs]; exact unCR_split hA) hg.symm
      (Nat.lt_succ_self _) ht
    obtain ⟨i1, k', i2, i3, i4⟩ := ih (P ++ B) C (by rw [hP, hB]; simp)
    rw [← List.append_assoc] at i1 i2 i3
    have hAP : unCR (A ++ P) = unCR A ++ p := by
      have h1 := unCR_split hA
      have h2 := unCR_split hat
      rw [(reach_lex hlex).src, h1, g1, ← List.append_assoc] at h2
      exact (List.append_cancel_right h2).symm
    have edge : ∀ {X Y Z : Text}, ¬ (X.getLast? = some '\n' ∧ (Y ++ Z).head? = some '\r') →
        ¬ (X.getLast? = some '\n' ∧ Y.head? = some '\r') := by
      rintro X Y Z hx ⟨k1, k2⟩
      refine hx ⟨k1, ?_⟩
      cases Y with
      | nil => cases k2
      | cons => exact k2
    have e1 : unCR (A ++ P ++ B) = unCR (A ++ P) ++ unCR B :=
      unCR_append _ _ (edge (Z := C) (by rw [← hB]; exact hat.edge))
    have e2 : unCR (A ++ P ++ B) = unCR A ++ unCR (P ++ B) := by
      rw [List.append_assoc]
      exact unCR_append _ _ (edge (Z := C) (by rw [List.append_assoc, ← hB, ← hP]; exact hA.edge))
    have e3 : unCR (P ++ B) = p ++ unCR B := by
      rw [e1, hAP, List.append_assoc] at e2
      exact (List.append_cancel_left e2).symm
    have hcut := g3 (A ++ P ++ B) (unCR B) ⟨C, by rw [List.append_assoc, ← hB, ← hat.src,
      (reach_lex hlex).src, hs]⟩ (by rw [e1, hAP]; simp) (by
        intro c hc
        rw [Lexer.view, head_unCR, hB]
        have := head_view hc
        cases B with
        | nil => cases this
        | cons => exact this) (by
        intro hnil
        have := unCR_nil hnil
        rw [hB] at this
        rw [(List.append_eq_nil_iff.1 this).1]; rfl)
    have hg' := any_lex i3
    rw [i4, e3, hcut] at hg'
    obtain ⟨k2, j1, j2, j3⟩ := gproj_some hg'
    obtain ⟨k3, l1, l2, l3⟩ := peek_of_lex (i2.curr (curr_new' _)) j1 ht
    have hate := i2.snoc l1 ht he
    have hon2 := i3.reach (reach_lex j1)
    have hl : k3.currLoc = m'.currLoc := by
      obtain ⟨q1, A', q2⟩ := hon2
      have := unCR_split q2
      rw [q1, j2, e1] at this
      rw [l2, hloc, hat.loc, q2.loc, List.append_cancel_right this]
    rw [hl, l3] at hate
    exact ⟨i1, _, hate, On.noCurr hon2, j2⟩

/-- The text that ends with the first tokens of a source, which are no errors. -/
theorem cut_after {src : Text} {us : List (Token × Loc)} {k : Lexer} (hk : Ate (Lexer.new src) us k) :
    ∃ a ka, Lexes a (us.map fun u => (u.1, u.2.col)) ∧ Ate (Lexer.new a) us ka ∧
      startLoc a = startLoc src := by
  obtain ⟨_, A, _, hA⟩ := hk.cutAt
  obtain ⟨h1, k', h2, h3, h4⟩ := hA [] k.chars rfl
  rw [List.append_nil] at h1 h2 h3
  refine ⟨A, k', ?_, h2, by rw [← new_loc, ← new_loc, h1]⟩
  obtain ⟨xs, hx1, hx2⟩ := h2.items (curr_new' A)
  obtain ⟨l, hl⟩ := lex_of_nil (unCR_nil h4)
  have hx := hx2 1 [] (by
    unfold items Lexer.next
    rw [hl]; rfl)
  have hlen : xs.length = us.length := by rw [← hx1]; simp
  refine ⟨xs, us.length + 1, by omega, by simpa using hx, ?_⟩
  rw [← hx1]; simp

theorem Ate.stream {l k : Lexer} {us : List (Token × Loc)} (h : Ate l us k) :
    ∀ {cs : List CTok}, Stream k cs → Stream l ((us.map fun u => (u.1, u.2.col)) ++ cs) := by
  induction h with
  | nil => exact fun h => h
  | @snoc us m t m' _ hp ht _ ih =>
    intro cs h
    rw [List.map_append, List.append_assoc]
    exact ih ⟨ht, m', hp, peek_curr_of hp ht, rfl, fun _ => h⟩

/-- The tokens up to the first error. -/
theorem Ate.strm_error {src : Text} {k l' : Lexer} {us : List (Token × Loc)} {er : LexError}
    (h : Ate (Lexer.new src) us k) (hp : P.peek k = .ok (.error er) l') :
    Strm (Lexer.new src) ((us.map fun u => (u.1, u.2.col)) ++ [(.error er, l'.currLoc.col)]) := by
  refine ⟨h.stream ⟨by simp, l', hp, peek_curr_of hp (by simp), rfl, fun hx => absurd rfl (hx er)⟩, ?_,
    by rw [curr_new']; simp⟩
  obtain ⟨a, _, h1, _⟩ := cut_after h
  intro s c hm
  rcases List.mem_append.1 hm with hm | hm
  · exact h1.strm.2.1 s c hm
  · simp at hm

theorem stream_of_error {x : Token × LocSpan} {er : LexError} (he : x.1 = .error er) {n : Nat} :
    ∀ {l : Lexer} {xs : List (Token × LocSpan)}, l.curr = none → items n l = .ok (xs ++ [x]) →
      Stream l (cols (xs ++ [x])) := by
  induction n with
  | zero => intro l xs _ h; cases xs <;> cases h
  | succ n ih =>
    intro l xs hc h
    have step : ∀ {y : Token × LocSpan} {l' : Lexer} {ys}, l.next = .ok (some y, l') →
        ((∀ er, y.1 ≠ .error er) → l'.curr = none → Stream l' (cols ys)) → Stream l (cols (y :: ys)) := by
      intro y l' ys h1 h3
      have hc' := next_curr h1 hc
      obtain ⟨t, sp⟩ := y
      obtain ⟨hx, hne, rfl⟩ := next_some h1
      refine ⟨hne, { l' with curr := some t }, ?_, rfl, rfl, fun hne => ?_⟩
      · unfold P.peek Lexer.peek
        rw [hc]
        simp only [hx]
      · have : ({ l' with curr := none } : Lexer) = l' := by cases l'; simp_all
        show Stream { l' with curr := none } _
        rw [this]; exact h3 hne hc'
    cases xs with
    | nil =>
      obtain ⟨l', h1, _⟩ := items_cons h
      exact step h1 fun hne => absurd he (hne er)
    | cons y ys =>
      obtain ⟨l', h1, h2⟩ := items_cons h
      exact step h1 fun _ hc' => ih hc' h2

end
end Pemdas
