import Verif.Props.Messages
/-
Lemmas for C185: a command line in terms of its words.
-/
set_option linter.unusedSectionVars false
namespace Pemdas
open Session Resolver

theorem Words.unique {t : Text} {ws ws' : List Text} (h : Words t ws) (h' : Words t ws') : ws = ws' := by
  rw [← splitWhitespace_iff.2 h, splitWhitespace_iff.2 h']

/-- The line of a command, split behind its first word. -/
theorem Words.says {line w : Text} {ws : List Text} (h : Words line (w :: ws)) :
    ∃ rest, Says line (w ++ rest) ∧ (∀ x, rest.head? = some x → isWhitespace x = true) ∧
      Words rest ws ∧ w ≠ [] ∧ ∀ c ∈ w, isWhitespace c = false := by
  have hb : ¬ Blank line := fun hb => by
    have := h.unique (.nil hb); cases this
  have hs := says_trim hb
  have ht := Words.trim.2 h
  obtain ⟨x, r, hx, hx'⟩ : NoLead (Pemdas.trim line) := by
    obtain ⟨_, _, _, _, _, h1, _⟩ := hs
    exact h1
  generalize Pemdas.trim line = c at hs ht hx
  cases ht with
  | @cons a _ rest _ h1 h2 h3 h4 h5 =>
    cases a with
    | nil => exact ⟨rest, by simpa using hs, h4, h5, h2, h3⟩
    | cons y a =>
      simp only [List.cons_append, List.cons.injEq] at hx
      rw [← hx.1, h1 y (by simp)] at hx'
      cases hx'

theorem Words.trim_nil {t : Text} (h : Words t []) : Pemdas.trim t = [] := by
  cases h with | nil h => exact trim_eq_nil.2 h

theorem Words.trim_one {t a : Text} (h : Words t [a]) : Pemdas.trim t = a := by
  cases h with
  | @cons b _ rest _ h1 h2 h3 h4 h5 =>
    cases h5 with
    | nil h5 =>
      refine Says.trim ⟨b, rest, rfl, h1, h5, ?_, ?_⟩
      · cases a with
        | nil => exact absurd rfl h2
        | cons c a => exact ⟨c, a, rfl, h3 c (by simp)⟩
      · obtain ⟨r, c, rfl⟩ : ∃ r c, a = r ++ [c] :=
          ⟨a.dropLast, a.getLast h2, (List.dropLast_concat_getLast h2).symm⟩
        exact ⟨r, c, rfl, h3 c (by simp)⟩

section
variable [CharTables]

theorem Words.behind_blank {a t : Text} {ws : List Text} (h : Words t ws) (ha : Blank a) :
    Words (a ++ t) ws := by
  have : ∀ {a b : Text}, Blank a → Blank b → Blank (a ++ b) := fun h1 h2 c hc =>
    (List.mem_append.1 hc).elim (h1 c) (h2 c)
  cases h with
  | nil h => exact .nil (this ha h)
  | cons h1 h2 h3 h4 h5 =>
    rw [← List.append_assoc, ← List.append_assoc]
    exact .cons (this ha h1) h2 h3 h4 h5

/-- Removing characters from a text removes them from its words. -/
theorem Words.filtered {p : Char → Bool} (hp : ∀ c, isWhitespace c = true → p c = true) {t : Text}
    {ws : List Text} (h : Words t ws) :
    Words (t.filter p) ((ws.map (·.filter p)).filter (· ≠ [])) := by
  induction h with
  | nil h => exact .nil fun c hc => h c (List.mem_filter.1 hc).1
  | @cons a w rest ws ha hw1 hw2 hr hws ih =>
    have ha' : a.filter p = a := List.filter_eq_self.2 fun c hc => hp c (ha c hc)
    have hr' : ∀ c, (rest.filter p).head? = some c → isWhitespace c = true := by
      intro c hc
      cases rest with
      | nil => cases hc
      | cons d r =>
        have hd := hr d rfl
        rw [List.filter_cons_of_pos (hp d hd)] at hc
        cases hc; exact hd
    rw [List.filter_append, List.filter_append, ha', List.map_cons]
    by_cases he : w.filter p = []
    · rw [he, List.filter_cons_of_neg (by simp), List.append_nil]
      exact ih.behind_blank ha
    · rw [List.filter_cons_of_pos (by simpa using he)]
      exact .cons ha he (fun c hc => hw2 c (List.mem_filter.1 hc).1) hr' ih

theorem loadArg_words (w : World) (s : Session) {r r' : Text} {ws : List Text} (h : Words r ws)
    (h' : Words r' ws) : loadArg w s (Pemdas.trim r) = loadArg w s (Pemdas.trim r') := by
  have key : ∀ {r r' o : Text} {ws}, Words r ws → Words r' ws →
      (o = [] ∨ ∃ a, o = a ∧ Words a [a]) → Pemdas.trim r = o → Pemdas.trim r' = o := by
    intro r r' o ws h h' ho e
    rcases ho with rfl | ⟨a, rfl, ha⟩
    · have := h.unique (.nil (trim_eq_nil.1 e)); subst this
      exact h'.trim_nil
    · have := (Words.trim.2 h).unique (e ▸ ha); subst this
      exact h'.trim_one.trans e
  have hiff : ∀ o, (o = [] ∨ ∃ a, o = a ∧ Words a [a]) → (Pemdas.trim r = o ↔ Pemdas.trim r' = o) :=
    fun o ho => ⟨key h h' ho, key h' h ho⟩
  have h1 := hiff [] (.inl rfl)
  have h2 := hiff t!"--prelude" (.inr ⟨_, rfl, splitWhitespace_iff.1 (by decide)⟩)
  have h3 := hiff t!"--math" (.inr ⟨_, rfl, splitWhitespace_iff.1 (by decide)⟩)
  have h4 : splitWhitespace (Pemdas.trim r) = splitWhitespace (Pemdas.trim r') := by
    rw [splitWhitespace_iff.2 (Words.trim.2 h), splitWhitespace_iff.2 (Words.trim.2 h')]
  unfold loadArg
  simp only [h1, h2, h3, h4]

theorem infoArg_words (s : Session) {r r' : Text} {ws : List Text} (h : Words r ws)
    (h' : Words r' ws) : infoArg s r = infoArg s r' := by
  have hp : ∀ c, isWhitespace c = true → (!(c == '(' || c == ')')) = true := by
    intro c hc
    by_cases h5 : c = '('
    · subst h5; exact absurd hc (by decide)
    · by_cases h6 : c = ')'
      · subst h6; exact absurd hc (by decide)
      · simp [h5, h6]
  unfold infoArg
  rw [splitWhitespace_iff.2 (h.filtered hp), splitWhitespace_iff.2 (h'.filtered hp)]

/-- `:info` or `:i` with arguments. -/
theorem info_eq (w : World) {s : Session} {line word a : Text} {ws : List Text} (hb : s.buffer = [])
    (hw : word = t!":info" ∨ word = t!":i") (h : Words line (word :: a :: ws)) :
    ∃ rest, Words rest (a :: ws) ∧ step w s line = .ok (true, s, infoArg s rest) := by
  obtain ⟨rest, h1, h2, h3, h4, h5⟩ := h.says
  refine ⟨rest, h3, ?_⟩
  have hne : rest ≠ [] := by
    rintro rfl
    have := h3.unique (.nil (by simp [Blank])); cases this
  have hpre : isPrefix word (word ++ rest) = true := isPrefix_of_rest h4 h5 h2
  have hk : kind (word ++ rest) = .info :=
    (kind_of_word hpre).2.2.2.2.2.2 hw (by simp [hne])
  have hcol : t!":" <+: word ++ rest := by rcases hw with rfl | rfl <;> exact ⟨_, rfl⟩
  rw [step_cmd w h1 hcol hb, hk]
  simp only [byKind]
  unfold cmdInfo
  rw [isPrefix_other hpre]
  rcases hw with rfl | rfl
  · rw [if_pos (by decide), sliceFrom_ok]; rfl
  · rw [if_neg (by decide), sliceFrom_ok]; rfl

/-- `:clear` with or without options. -/
theorem clear_words (w : World) {s : Session} {line rest : Text} (hb : s.buffer = [])
    (h1 : Says line (t!":clear" ++ rest)) (h2 : ∀ x, rest.head? = some x → isWhitespace x = true) :
    step w s line = .ok (true, clearOpt s (Pemdas.trim rest)) := by
  have hk : kind (t!":clear" ++ rest) = .clear :=
    (kind_of_word (isPrefix_of_rest (by decide) (by decide) h2)).2.2.1 rfl
  rw [step_cmd w h1 ⟨_, rfl⟩ hb, hk]
  simp only [byKind, cmdClear, sliceFrom_ok, bind, Except.bind]

/-- `:history` with or without options. -/
theorem history_words (w : World) {s : Session} {line rest : Text} (hb : s.buffer = [])
    (h1 : Says line (t!":history" ++ rest)) (h2 : ∀ x, rest.head? = some x → isWhitespace x = true) :
    step w s line = (historyOpt s (Pemdas.trim rest)).map (true, ·) := by
  have hk : kind (t!":history" ++ rest) = .history :=
    (kind_of_word (isPrefix_of_rest (by decide) (by decide) h2)).2.2.2.1 rfl
  rw [step_cmd w h1 ⟨_, rfl⟩ hb, hk]
  simp only [byKind, cmdHistory, sliceFrom_ok, bind, Except.bind]
  cases historyOpt s (Pemdas.trim rest) <;> rfl

/-- A command without arguments. -/
theorem bare_eq (w : World) {s : Session} {line word : Text} (hb : s.buffer = [])
    (hw : t!":" <+: word) (h : Words line [word]) : step w s line = byKind w s word (kind word) := by
  obtain ⟨rest, h1, h2, h3, h4, h5⟩ := h.says
  have : Says line word := by
    rw [says_iff h4, h.trim_one]
  exact step_cmd w this hw hb

end

end Pemdas
