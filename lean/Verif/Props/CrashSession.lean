import Verif.Props.Crash
import Verif.Props.SessionFix
import Verif.Lemmas.SessionCrash
/-
C155 exactly which inputs crash a session.
-/
namespace Pemdas
open Lexer Session

section
variable [CharTables] [LawfulTables]

/-- C155: which texts crash a session. -/
theorem C155_text {src : Text} (hc : NoLFCR src) (p : Panic) : Crashes src p ↔ Fatal src p := by
  have hcul : ∀ e : ParseError, e.culprit = e.found := by intro e; cases e <;> rfl
  constructor
  · rintro (h | ⟨e, l', h, ht⟩)
    · rcases (C154_exact hc p).1 h with ⟨us, xs, h1, h2, h3, h4⟩ | ⟨rfl, us, xs, a, n, x, y, h1, h2, h3, h4⟩
      · have hl : xs.length = us.length := by rw [← h2]; simp [ends]
        obtain ⟨_, _, _, _, ha, _⟩ := h3.ate
        obtain ⟨k, hk⟩ := items_ate (curr_new' src) h1 hl fun x hm =>
          ha.noError (x.1, x.2.hi) (by rw [← h2]; exact List.mem_map.2 ⟨x, hm, rfl⟩)
        rw [h2] at hk
        obtain ⟨r, h5, h6⟩ := left_of_ate hc hk h2
        have h7 := items_one_error.2 ((hk.items_error (curr_new' src) 1 p).1 h4)
        rw [h7] at h6
        obtain ⟨rfl, g, w, rfl, h8, h9⟩ := lex_error_iff.1 h6.symm
        exact .word (by rw [hl]; exact h1) (by rw [h2]; exact h3) h5 h8 h9
      · exact .prec h1 h2 h3 h4
    · have hx := C68_exactly (.inl h)
      obtain ⟨rfl, a, b, hf⟩ : p = .emptyCharTodo ∧ ∃ a b, e.culprit = .error (.emptyChar a b) := by
        rcases ht with ht | ht
        · exact (hx.1 p).1 ht
        · exact (hx.2.1 p).1 ht
      rw [hcul] at hf
      obtain ⟨us, k, hk, hp, hn, -⟩ := parse_err_ate h
      rw [hf] at hp
      have hlex := peek_lex (hk.curr (curr_new' src)) hp
      have hb : Begins us := by
        refine begins_of_live hc (fun e' l2 h' => ?_) hk (fun ws zs b n hh => ?_) fun hnil => ?_
        · rw [h] at h'; cases h'; exact ⟨_, hf⟩
        · exact hn ws (zs ++ [e.found]) b n (by rw [hh]; simp)
        · obtain ⟨_, hq⟩ := lex_of_nil hnil
          rw [hq] at hlex; cases hlex
      obtain ⟨xs, h1, h2, h3, -⟩ := hk.next hp
      obtain ⟨r, h5, h6⟩ := left_of_ate hc hk h1
      rw [hlex] at h6
      obtain ⟨g, w, rfl, h7⟩ := lex_empty_iff.1 ⟨_, h6.symm⟩
      exact .char h3 (by rw [h1]; exact hb) h5 h7
  · intro h
    have key : ∀ {xs : List (Token × LocSpan)} {r : Text}, items xs.length (Lexer.new src) = .ok xs →
        Begins (ends xs) → LeftAfter src xs r → ∃ k, Ate (Lexer.new src) (ends xs) k ∧
          proj k.lex = TLex.lex r := by
      intro xs r h1 h2 h3
      obtain ⟨_, _, _, _, ha, _⟩ := h2.ate
      obtain ⟨k, hk⟩ := items_ate (curr_new' src) h1 rfl fun x hm =>
          ha.noError (x.1, x.2.hi) (List.mem_map.2 ⟨x, hm, rfl⟩)
      obtain ⟨r', h5, h6⟩ := left_of_ate hc hk rfl
      cases h3.unique h5
      exact ⟨k, hk, h6⟩
    cases h with
    | word h1 h2 h3 h4 h5 =>
      obtain ⟨k, hk, h6⟩ := key h1 h2 h3
      rw [lex_error_iff.2 ⟨rfl, _, _, rfl, h4, h5⟩] at h6
      refine .inl (panic_of_begins hk ((peek_panic_iff (hk.curr (curr_new' src))).2 ?_) h2)
      cases hx : k.lex with
      | error q => rw [hx] at h6; cases h6; rfl
      | ok y => rw [hx] at h6; cases h6
    | char h1 h2 h3 h4 =>
      obtain ⟨k, hk, h6⟩ := key h1 h2 h3
      obtain ⟨r, h7⟩ := lex_empty_iff.2 ⟨_, _, rfl, h4⟩
      rw [h7] at h6
      obtain ⟨a, b, m, h8⟩ : ∃ a b m, k.lex = .ok (.error (.emptyChar a b), m) := by
        cases hx : k.lex with
        | error q => rw [hx] at h6; cases h6
        | ok y =>
          obtain ⟨t, m⟩ := y
          rw [hx] at h6
          injection h6 with h6
          have h6 := (Prod.mk.inj h6).1
          cases t with
          | error x => cases x <;> cases h6; exact ⟨_, _, m, rfl⟩
          | _ => cases h6
      obtain ⟨m', h9⟩ : ∃ m', P.peek k = .ok (.error (.emptyChar a b)) m' := by
        unfold P.peek Lexer.peek
        rw [hk.curr (curr_new' src), h8]
        exact ⟨_, rfl⟩
      obtain ⟨e, l', h10, h11⟩ := err_of_begins hk h9 h2
      exact .inr ⟨e, l', h10, .inl (((C68_exactly (.inl h10)).1 _).2 ⟨rfl, a, b, by rw [hcul, h11]⟩)⟩
    | prec h1 h2 h3 h4 => exact .inl (C154_precedence h1 h2 h3 h4)

/-- C155: a line crashes a session exactly if it makes the session read texts, typed or in files, and
one of them is fatal; the crash is that of the first. -/
theorem C155_session (w : World) (s : Session) (line : Text) (e : Stop) :
    step w s line = .error e ↔ ∃ pre t post p, Reads w s.buffer line (pre ++ .text t :: post) ∧
      (∀ t', .text t' ∈ pre → ∀ q, ¬ Crashes t' q) ∧ e = .panic p ∧ Crashes t p := by
  constructor
  · intro h
    obtain ⟨evs, t, p, h1, h2, -⟩ := C53_crashes w s line e h
    obtain ⟨pre, t', post, p', rfl, h3⟩ := (reads_stop_iff h1 h2).1 h
    exact ⟨pre, t', post, p', h1, h3⟩
  · rintro ⟨pre, t, post, p, h1, h2⟩
    exact (reads_stop_iff h1 (t := t) (by simp)).2 ⟨pre, t, post, p, rfl, h2⟩

/-- C155: a line that ends an input crashes the session exactly if what is then pending is fatal. -/
theorem C155_line (w : World) (s : Session) {line body : Text} (hl : Ends line body)
    (hc : NoLFCR (s.buffer ++ body)) (e : Stop) :
    step w s line = .error e ↔ ∃ p, e = .panic p ∧ Fatal (s.buffer ++ body) p := by
  rw [step_plain w s hl, process_stop_iff]
  simp only [C155_text hc]

/-- C155: a session into which no carriage return is typed, and which loads no file where one follows a
line feed, crashes exactly when it reads the first fatal text. -/
theorem C155_run (s : Session) (ins : List (World × Input)) (hb : '\r' ∉ s.buffer)
    (hl : ∀ w l, (w, .line l) ∈ ins → '\r' ∉ l)
    (hw : ∀ x ∈ ins, ∀ path content, x.1.readFile path = .ok content → NoLFCR content) (e : Stop) :
    run s ins = .error e ↔ ∃ before w line after s' fx pre t post p,
      ins = before ++ (w, .line line) :: after ∧ run s before = .ok (true, s', fx) ∧
      Reads w s'.buffer line (pre ++ .text t :: post) ∧
      (∀ t', .text t' ∈ pre → ∀ q, ¬ Fatal t' q) ∧ e = .panic p ∧ Fatal t p := by
  have key : ∀ {before w line after s' fx evs}, ins = before ++ (w, .line line) :: after →
      run s before = .ok (true, s', fx) → Reads w s'.buffer line evs →
      ∀ t, .text t ∈ evs → NoLFCR t := by
    intro before w line after s' fx evs h1 h2 h3 t ht
    subst h1
    refine reads_noLFCR h3 (run_noCR h2 hb fun w l hm => hl w l (by simp [hm])) (hl w line (by simp))
      (fun path content => hw (w, .line line) (by simp) path content) ht
  rw [run_stop_iff]
  constructor
  · rintro ⟨before, w, line, after, s', fx, h1, h2, h3⟩
    obtain ⟨pre, t, post, p, h4, h5, h6, h7⟩ := (C155_session w s' line e).1 h3
    have hn := key h1 h2 h4
    exact ⟨before, w, line, after, s', fx, pre, t, post, p, h1, h2, h4,
      fun t' ht q hq => h5 t' ht q ((C155_text (hn t' (by simp [ht])) q).2 hq), h6,
      (C155_text (hn t (by simp)) p).1 h7⟩
  · rintro ⟨before, w, line, after, s', fx, pre, t, post, p, h1, h2, h4, h5, h6, h7⟩
    have hn := key h1 h2 h4
    exact ⟨before, w, line, after, s', fx, h1, h2, (C155_session w s' line e).2 ⟨pre, t, post, p, h4,
      fun t' ht q hq => h5 t' ht q ((C155_text (hn t' (by simp [ht])) q).1 hq), h6,
      (C155_text (hn t (by simp)) p).2 h7⟩⟩

end

/-! ### examples -/
section
attribute [local instance] asciiTables asciiTables_lawful

/-- After `infixl 6` an operator is expected, and there is the word `X`. -/
example : Fatal t!"infixl 6 ~{no}~ X" .identAssert := by
  refine .word (xs := [(.infixL, ⟨⟨1, 1, 0⟩, ⟨1, 7, 6⟩⟩), (.lit (.int 6), ⟨⟨1, 8, 7⟩, ⟨1, 9, 8⟩⟩)])
    (g := t!" ~{no}~ ") (w := t!"X") rfl
    (exBegins t!"infixl 6 +" rfl (by decide +kernel) (by decide +kernel) (by decide +kernel))
    ⟨t!"infixl 6", rfl, by decide, fun x hx => by cases hx; decide⟩
    (.space (by decide) (.block (b := t!"no") (x := t!" ") (g := []) ?_ ?_ .nil))
    ⟨'X', [], rfl, by decide, by decide, by decide⟩
  · exact .char (by decide) (by decide) (.char (by decide) (by decide) .nil)
  · exact .inl rfl

/-- Two apostrophes where an expression is expected. -/
example : Fatal t!"f \'\'" .emptyCharTodo :=
  .char (xs := [(.lower t!"f", ⟨⟨1, 1, 0⟩, ⟨1, 2, 1⟩⟩)]) (g := t!" ") (w := []) rfl
    (exBegins t!"f" rfl (by decide +kernel) (by decide +kernel) (by decide +kernel))
    ⟨t!"f", rfl, by decide, fun x hx => by cases hx; decide⟩ (.space (by decide) .nil)

/-- Both where an error comes first are harmless: it is reported. -/
example : ¬ Crashes t!") X \'\'" .identAssert ∧ ¬ Crashes t!") X \'\'" .emptyCharTodo := by
  obtain ⟨l', h⟩ : ∃ l', parse t!") X \'\'" = .err (.unexpected .parenR ⟨1, 2, 1⟩) l' :=
    of_error (by decide +kernel)
  constructor
  all_goals
    rintro (h' | ⟨e, l, h', h2⟩)
    · rw [h] at h'; cases h'
    · rw [h] at h'; cases h'; revert h2; decide

example : Ends t!"let x = X in x" t!"let x = X in x" ∧ NoLFCR t!"let x = X in x" :=
  ⟨.plain ((says_iff (by decide)).2 (by decide)) (by decide) (by decide) (by decide),
    by unfold NoLFCR; decide⟩

/-- `1` is answered; the next input, of two lines, reads `f` and `\'\'`, and crashes. -/
example : (match run exStart [(exWorld, .line t!"1"), (exWorld, .line t!"f \\"),
      (exWorld, .line t!"\'\'")] with
    | .error (.panic .emptyCharTodo) => true | _ => false) = true ∧
    exWorld.readFile = (fun _ => .error t!"no file") := ⟨by decide +kernel, rfl⟩

example : '\r' ∉ exStart.buffer ∧ '\r' ∉ t!"1" ∧ '\r' ∉ t!"f \\" ∧ '\r' ∉ t!"\'\'" := by decide

end
end Pemdas
