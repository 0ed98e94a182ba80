import Verif.Lemmas.SessionStep
import Verif.Lemmas.SessionText
/-
What a line does to the fixities.
-/
set_option linter.unusedSectionVars false
namespace Pemdas

/-! ### commands with an argument -/

theorem noTrail_append {a b : Text} (h : NoTrail (a ++ b)) (hb : b ≠ []) : NoTrail b := by
  obtain ⟨r, c, h1, h2⟩ := h
  rcases List.eq_nil_or_concat b with rfl | ⟨b', x, rfl⟩
  · exact absurd rfl hb
  · refine ⟨b', x, by simp, ?_⟩
    have := congrArg List.getLast? h1
    simp at this
    rw [this]; exact h2

theorem saysWith_iff {line word o : Text} :
    SaysWith line word o ↔ ∃ rest, Says line (word ++ rest) ∧
      (∀ x, rest.head? = some x → isWhitespace x = true) ∧ trim rest = o ∧ o ≠ [] := by
  constructor
  · rintro ⟨b, h1, h2, h3, h4⟩
    have ho : o ≠ [] := by obtain ⟨c, r, rfl, _⟩ := h4; simp
    have h5 : NoTrail o := by
      obtain ⟨_, _, _, _, _, _, h⟩ := h1
      exact noTrail_append h ho
    refine ⟨b ++ o, by rw [← List.append_assoc]; exact h1, ?_, ?_, ho⟩
    · intro x hx
      cases b with
      | nil => exact absurd rfl h3
      | cons y b => simp only [List.cons_append, List.head?_cons, Option.some.injEq] at hx; rw [← hx]; exact h2 y (by simp)
    · exact Says.trim ⟨b, [], by simp, h2, by simp [Blank], h4, h5⟩
  · rintro ⟨rest, h1, h2, h3, h4⟩
    have hb : ¬ Blank rest := fun hb => h4 (by rw [← h3]; exact trim_eq_nil.2 hb)
    obtain ⟨a, b, e1, e2, e3, e4, e5⟩ := says_trim hb
    rw [h3] at e1 e4 e5
    have hb0 : b = [] := by
      obtain ⟨_, _, _, _, _, _, h⟩ := h1
      rcases List.eq_nil_or_concat b with rfl | ⟨b', x, rfl⟩
      · rfl
      · rw [e1, ← List.append_assoc] at h
        obtain ⟨r, y, h6, h7⟩ := noTrail_append h (by simp)
        have := e3 y (by rw [h6]; simp)
        rw [h7] at this; cases this
    subst hb0
    rw [List.append_nil] at e1
    refine ⟨a, by rw [List.append_assoc, ← e1]; exact h1, e2, ?_, e4⟩
    rintro rfl
    obtain ⟨c, r, hc, hc'⟩ := e4
    rw [List.nil_append] at e1
    have := h2 c (by rw [e1, hc]; rfl)
    rw [hc'] at this; cases this

theorem isPrefix_of_rest {word rest : Text} (hw : word ≠ []) (hw' : ∀ c ∈ word, isWhitespace c = false)
    (hr : ∀ x, rest.head? = some x → isWhitespace x = true) : isPrefix word (word ++ rest) = true :=
  (C65_is_prefix _ _).2 ⟨hw, hw', [], rest, rfl, by simp, hr⟩

namespace Session
section
variable [CharTables]

/-! ### the lines that are processed -/

theorem step_cmd (w : World) {s : Session} {line c : Text} (hs : Says line c) (hc : t!":" <+: c)
    (hb : s.buffer = []) : step w s line = byKind w s c (kind c) := by
  rw [step_says w s hs, if_pos (startsWith_iff.2 hc), if_pos hb, command_eq]

theorem step_plain (w : World) (s : Session) {line body : Text} (h : Ends line body) :
    step w s line = process { s with
      buffer := s.buffer ++ body
      prompt := if s.prompt = .continued then .initial else s.prompt } := by
  cases h with
  | plain h1 h2 h3 h4 =>
    rw [step_says w s h1, if_neg (by rw [startsWith_iff]; exact h2), if_neg, if_neg, if_neg]
    · rfl
    · rw [startsWith_iff]; exact h3
    · rw [endsWith_iff]; exact h4
    · rw [contInfix_iff]
      rintro ⟨b, rfl, -⟩
      exact h4 ⟨b ++ t!" ", by simp⟩

theorem trimStart_braces (n : Nat) {t : Text} (h : ¬ t!"{" <+: t) :
    trimStartMatches '{' (List.replicate n '{' ++ t) = t := by
  unfold trimStartMatches
  induction n with
  | zero =>
    cases t with
    | nil => rfl
    | cons c t =>
      have : c ≠ '{' := fun e => h (by rw [e]; exact ⟨t, rfl⟩)
      simp [this]
  | succ n ih => simpa [List.replicate_succ] using ih

theorem trimEnd_braces (n : Nat) {t : Text} (h : ¬ t!"}" <:+ t) :
    trimEndMatches '}' (t ++ List.replicate n '}') = t := by
  unfold trimEndMatches
  rw [List.reverse_append, List.reverse_replicate]
  have : ∀ (u : Text), ¬ t!"}" <+: u → (List.replicate n '}' ++ u).dropWhile (· == '}') = u := by
    intro u hu
    induction n with
    | zero =>
      cases u with
      | nil => rfl
      | cons c u =>
        have : c ≠ '}' := fun e => hu (by rw [e]; exact ⟨u, rfl⟩)
        simp [this]
    | succ n ih => simpa [List.replicate_succ] using ih
  rw [this]
  · simp
  · rintro ⟨u, hu⟩
    refine h ⟨u.reverse, ?_⟩
    have := congrArg List.reverse hu
    simpa using this

theorem step_block (w : World) (s : Session) {line body : Text} (h : Block line body) :
    step w s line = process { s with buffer := s.buffer ++ body } := by
  obtain ⟨n, m, h1, h2, h3⟩ := h
  have hrep : ∀ k, List.replicate (k + 1) '}' = List.replicate k '}' ++ t!"}" := by
    intro k
    rw [List.replicate_succ']
  have hb : ¬ t!"{" <+: body ++ List.replicate (m + 1) '}' := by
    intro h
    cases body with
    | nil => simp [List.replicate_succ] at h
    | cons c body =>
      refine h2 ?_
      simp only [List.cons_append, List.cons_prefix_cons, List.nil_prefix, and_true] at h ⊢
      exact h
  rw [step_says w s h1, if_neg, if_neg, if_neg, if_pos]
  · unfold braceLine
    simp only
    rw [List.append_assoc, trimStart_braces _ hb, if_neg, trimEnd_braces _ h3]
    rw [Bool.not_eq_true', Bool.not_eq_false, endsWith_iff, hrep]
    exact ⟨_, List.append_assoc ..⟩
  · rw [startsWith_iff]
    exact ⟨List.replicate n '{' ++ body ++ List.replicate (m + 1) '}', by simp [List.replicate_succ]⟩
  · rw [endsWith_iff, hrep]
    rintro ⟨t, ht⟩
    have := congrArg List.getLast? ht
    simp at this
  · rw [contInfix_iff]
    rintro ⟨b, hb, hi⟩
    have := congrArg List.getLast? hb
    rw [hrep] at this
    simp at this
  · rw [startsWith_iff]
    rintro ⟨t, ht⟩
    simp [List.replicate_succ] at ht

/-- What a line with a brace that is no block does. -/
theorem step_open (w : World) (s : Session) {line : Text} {n : Nat} {body : Text}
    (h : Says line (List.replicate (n + 1) '{' ++ body)) (h1 : ¬ t!"{" <+: body)
    (h2 : ¬ t!"}" <:+ body) (h3 : ¬ t!"\\" <:+ body) :
    step w s line = .ok (true, { s with prompt := .continued, buffer := s.buffer ++ body }, []) := by
  have hl : ∀ (x : Char), [x] <:+ List.replicate (n + 1) '{' ++ body → x ≠ '{' → [x] <:+ body := by
    rintro x ⟨t, ht⟩ hx
    rcases List.eq_nil_or_concat body with rfl | ⟨b', y, rfl⟩
    · have := congrArg List.getLast? ht
      rw [List.append_nil, List.replicate_succ'] at this
      simp at this
      exact absurd this hx
    · refine ⟨b', ?_⟩
      have := congrArg List.getLast? ht
      simp at this
      rw [this, List.concat_eq_append]
  rw [step_says w s h, if_neg, if_neg, if_neg, if_pos]
  · unfold braceLine
    simp only
    rw [trimStart_braces _ h1, if_pos]
    rw [Bool.not_eq_true', Bool.eq_false_iff]
    intro he
    exact h2 (endsWith_iff.1 he)
  · rw [startsWith_iff]
    exact ⟨List.replicate n '{' ++ body, by simp [List.replicate_succ]⟩
  · rw [endsWith_iff]
    intro he
    exact h3 (hl _ he (by decide))
  · rw [contInfix_iff]
    rintro ⟨b, hb, hi⟩
    exact h3 (hl '\\' ⟨b ++ t!" ", by rw [hb]; simp⟩ (by decide))
  · rw [startsWith_iff]
    rintro ⟨t, ht⟩
    simp [List.replicate_succ] at ht

theorem dropWhile_replicate (a : Char) (t : Text) :
    ∃ n u, t = List.replicate n a ++ u ∧ ¬ [a] <+: u := by
  induction t with
  | nil => exact ⟨0, [], rfl, by simp⟩
  | cons c t ih =>
    by_cases hc : c = a
    · obtain ⟨n, u, h1, h2⟩ := ih
      exact ⟨n + 1, u, by rw [hc, h1]; rfl, h2⟩
    · refine ⟨0, c :: t, rfl, ?_⟩
      intro h
      simp only [List.cons_prefix_cons, List.nil_prefix, and_true] at h
      exact hc h.symm

/-- Every line is one of these. -/
theorem line_cases (line : Text) :
    Blank line ∨ (∃ c, Says line c ∧ t!":" <+: c) ∨ (∃ add, Continues line add) ∨
    (∃ body, Ends line body) ∨ (∃ body, Block line body) ∨
    (∃ n body, Says line (List.replicate (n + 1) '{' ++ body) ∧ ¬ t!"{" <+: body ∧
      ¬ t!"}" <:+ body ∧ ¬ t!"\\" <:+ body) := by
  rcases blank_or_says line with h | ⟨c, h⟩
  · exact .inl h
  right
  by_cases h1 : t!":" <+: c
  · exact .inl ⟨c, h, h1⟩
  right
  by_cases h2 : t!"\\" <:+ c
  · left
    obtain ⟨body, rfl⟩ := h2
    by_cases h3 : t!"infix" <+: body ∧ t!" " <:+ body
    · obtain ⟨b, rfl⟩ := h3.2
      refine ⟨_, .decl (body := b) (by simpa using h) ?_⟩
      have h4 := h3.1
      rcases b with _ | ⟨a, _ | ⟨b, _ | ⟨c, _ | ⟨d, _ | ⟨e, body⟩⟩⟩⟩⟩
      iterate 5 exact absurd h4 (by simp [List.cons_prefix_cons])
      simpa [List.cons_prefix_cons] using h4
    · exact ⟨_, .other h h1 h3⟩
  right
  by_cases h3 : t!"{" <+: c
  · right
    obtain ⟨n, u, hu, hn⟩ := dropWhile_replicate '{' c
    cases n with
    | zero => rw [hu] at h3; exact absurd h3 hn
    | succ n =>
      by_cases h4 : t!"}" <:+ u
      · left
        obtain ⟨m, v, hv, hm⟩ := dropWhile_replicate '}' u.reverse
        have hu' : u = v.reverse ++ List.replicate m '}' := by
          have := congrArg List.reverse hv
          simpa using this
        have hv' : ¬ t!"}" <:+ v.reverse := by
          rintro ⟨x, hx⟩
          refine hm ⟨x.reverse, ?_⟩
          have := congrArg List.reverse hx
          simpa using this
        cases m with
        | zero => rw [hu'] at h4; simp only [List.replicate_zero, List.append_nil] at h4; exact absurd h4 hv'
        | succ m =>
          refine ⟨v.reverse, n, m, by rw [List.append_assoc, ← hu', ← hu]; exact h, ?_, hv'⟩
          intro hx
          exact hn (by rw [hu']; exact hx.trans ⟨_, rfl⟩)
      · right
        refine ⟨n, u, by rw [← hu]; exact h, hn, h4, ?_⟩
        rintro ⟨x, hx⟩
        exact h2 ⟨List.replicate (n + 1) '{' ++ x, by rw [hu, ← hx]; simp⟩
  · exact .inl ⟨c, .plain h h1 h3 h2⟩

theorem step_continues (w : World) (s : Session) {line add : Text} (h : Continues line add) :
    step w s line = .ok (true, { s with buffer := s.buffer ++ add, prompt := .initial }, []) := by
  cases h with
  | @decl body h1 h2 =>
    rw [step_says w s h1, if_neg, if_pos (contInfix_iff.2 ⟨body, rfl, h2⟩), contLine_eq,
      List.append_assoc]
    rw [startsWith_iff]
    rintro ⟨t, ht⟩
    obtain ⟨u, rfl⟩ := h2
    simp at ht
  | @other body h1 h2 h3 =>
    rw [step_says w s h1, if_neg (by rw [startsWith_iff]; exact h2), if_neg,
      if_pos (endsWith_iff.2 ⟨body, rfl⟩), contLine_eq, List.append_assoc]
    rw [contInfix_iff]
    rintro ⟨b, hb, hi⟩
    have : body = b ++ t!" " := by
      have := congrArg List.dropLast hb
      simpa [List.dropLast_append_of_ne_nil] using this
    exact h3 ⟨by rw [this]; exact hi.trans ⟨_, rfl⟩, ⟨b, this.symm⟩⟩

/-! ### effect on the resolver -/

open Resolver

/-- The resolver after events. -/
inductive Applies : Resolver → List Event → Resolver → Prop where
  | nil {r} : Applies r [] r
  | bad {t e l r r' evs} : parse t = .err e l → Applies r evs r' → Applies r (.text t :: evs) r'
  | good {t ast l r r₁ a es r' evs} : parse t = .ok ast l →
      (r.loadFixities ast).resolveAst ast = .ok (r₁, a, es) → Applies r₁ evs r' →
      Applies r (.text t :: evs) r'
  | clear {r r' evs} : Applies r.clear.2 evs r' → Applies r (.clear :: evs) r'
  | math {r r' evs} : Applies r.loadArithmetic.2 evs r' → Applies r (.math :: evs) r'
  | prelude {r r' evs} : Applies r.loadHsPrelude.2 evs r' → Applies r (.prelude :: evs) r'

theorem applies_feed {s s' : Session} {t : Text} {res} (h : feedInput s t = .ok (res, s'))
    {evs : List Event} {r' : Resolver} (h' : Applies s'.resolver evs r') :
    Applies s.resolver (.text t :: evs) r' := by
  rcases feedInput_session h with ⟨e, l, h1, rfl, -⟩ | ⟨ast, l, r, a, es, h1, h2, rfl, -⟩
  · exact .bad h1 h'
  · exact .good h1 h2 h'

theorem process_applies {s s' : Session} {b : Bool} {fx : List Effect}
    (h : process s = .ok (b, s', fx)) :
    b = true ∧ s'.buffer = [] ∧ s'.prompt = s.prompt ∧ s'.historyPath = s.historyPath ∧
      Applies s.resolver [.text s.buffer] s'.resolver := by
  unfold process at h
  cases hr : s.readBuffer with
  | error e => rw [hr] at h; cases h
  | ok x =>
    obtain ⟨s1, fx1⟩ := x
    rw [hr] at h
    simp only [bind, Except.bind, Except.ok.injEq, Prod.mk.injEq] at h
    obtain ⟨rfl, rfl, rfl⟩ := h
    obtain ⟨res, hf, -⟩ := readBuffer_session hr
    have ha := applies_feed hf .nil
    refine ⟨rfl, ?_, ?_, ?_, ha⟩ <;>
    rcases feedInput_session hf with ⟨e, l, h1, rfl, -⟩ | ⟨ast, l, r, a, es, h1, h2, rfl, -⟩ <;> rfl

theorem loadPaths_applies {w : World} {s s' : Session} {ws : List Text} {fx : List Effect}
    (h : loadPaths w s ws = .ok (s', fx)) :
    (∃ evs, Loads w ws evs ∧ Applies s.resolver evs s'.resolver) ∧
      s'.buffer = s.buffer ∧ s'.prompt = s.prompt ∧ s'.historyPath = s.historyPath := by
  induction ws generalizing s fx with
  | nil =>
    simp only [loadPaths, Except.ok.injEq, Prod.mk.injEq] at h
    rw [← h.1]
    exact ⟨⟨[], .nil, .nil⟩, rfl, rfl, rfl⟩
  | cons p ws ih =>
    obtain ⟨q, hq⟩ := unquote_ok p
    unfold loadPaths at h
    simp only [hq, bind, Except.bind] at h
    cases hr : readFile w s q with
    | error e => rw [hr] at h; cases h
    | ok x =>
      obtain ⟨s1, fx1⟩ := x
      rw [hr] at h
      simp only at h
      cases hl : loadPaths w s1 ws with
      | error e => rw [hl] at h; cases h
      | ok y =>
        obtain ⟨s2, fx2⟩ := y
        rw [hl] at h
        simp only [Except.ok.injEq, Prod.mk.injEq] at h
        obtain ⟨rfl, -⟩ := h
        obtain ⟨⟨evs, h1, h2⟩, h3, h4, h5⟩ := ih hl
        rcases readFile_session hr with ⟨rfl, k, hk⟩ | ⟨content, res, hk, hf⟩
        · exact ⟨⟨evs, .missing (unquote_opens.1 hq) hk h1, h2⟩, h3, h4, h5⟩
        · refine ⟨⟨_, .file (unquote_opens.1 hq) hk (fileText_iff.2 rfl) h1, applies_feed hf h2⟩, ?_⟩
          rcases feedInput_session hf with ⟨e, l, _, rfl, -⟩ | ⟨ast, l, r, a, es, _, _, rfl, -⟩
          · exact ⟨h3, h4, h5⟩
          · exact ⟨h3, h4, h5⟩

theorem loads_unique {w : World} {ws : List Text} {evs evs' : List Event} (h : Loads w ws evs)
    (h' : Loads w ws evs') : evs = evs' := by
  induction h generalizing evs' with
  | nil => cases h'; rfl
  | missing o1 r1 _ ih =>
    cases h' with
    | missing o2 r2 l2 => exact ih l2
    | file o2 r2 f2 l2 =>
      have e1 := unquote_opens.2 o1
      rw [unquote_opens.2 o2] at e1
      cases e1
      rw [r1] at r2; cases r2
  | file o1 r1 f1 _ ih =>
    cases h' with
    | missing o2 r2 l2 =>
      have e1 := unquote_opens.2 o1
      rw [unquote_opens.2 o2] at e1
      cases e1
      rw [r1] at r2; cases r2
    | file o2 r2 f2 l2 =>
      have e1 := unquote_opens.2 o1
      rw [unquote_opens.2 o2] at e1
      cases e1
      rw [r1] at r2; cases r2
      rw [fileText_iff.1 f1, fileText_iff.1 f2, ih l2]

theorem clearOpt_applies (s : Session) (o : Text) :
    (o ∈ clearingOptions ∧ (clearOpt s o).1 = { s with resolver := s.resolver.clear.2 }) ∨
    (o ∉ clearingOptions ∧ (clearOpt s o).1 = s) := by
  unfold clearOpt clearingOptions
  by_cases h1 : o = t!"--history"
  · subst h1; right; exact ⟨by decide, by rw [if_pos rfl]⟩
  rw [if_neg h1]
  by_cases h2 : o = t!"--fixities"
  · subst h2; left; exact ⟨by decide, by rw [if_pos rfl]⟩
  rw [if_neg h2]
  by_cases h3 : o = t!"--session" ∨ o = t!"--history --fixities" ∨ o = t!"--fixities --history"
  · rw [if_pos h3]; left; exact ⟨by simp [h3], rfl⟩
  · rw [if_neg h3]; right; exact ⟨by simp [h2, h3], rfl⟩

/-- What `:load` does. -/
theorem loadArg_applies {w : World} {s s' : Session} {o : Text} {fx : List Effect}
    (h : loadArg w s o = .ok (s', fx)) :
    (s'.buffer = s.buffer ∧ s'.prompt = s.prompt ∧ s'.historyPath = s.historyPath) ∧
    ((o = [] ∧ s' = s) ∨ (o = t!"--prelude" ∧ Applies s.resolver [.prelude] s'.resolver) ∨
    (o = t!"--math" ∧ Applies s.resolver [.math] s'.resolver) ∨
    (o ≠ [] ∧ o ≠ t!"--prelude" ∧ o ≠ t!"--math" ∧ ∃ ws evs, Words o ws ∧ Loads w ws evs ∧
      Applies s.resolver evs s'.resolver)) := by
  unfold loadArg at h
  by_cases h1 : o = []
  · rw [if_pos h1] at h
    simp only [Except.ok.injEq, Prod.mk.injEq] at h
    rw [← h.1]
    exact ⟨⟨rfl, rfl, rfl⟩, .inl ⟨h1, rfl⟩⟩
  rw [if_neg h1] at h
  by_cases h2 : o = t!"--prelude"
  · rw [if_pos h2] at h
    simp only [Except.ok.injEq, Prod.mk.injEq] at h
    rw [← h.1]
    exact ⟨⟨rfl, rfl, rfl⟩, .inr (.inl ⟨h2, .prelude .nil⟩)⟩
  rw [if_neg h2] at h
  by_cases h3 : o = t!"--math"
  · rw [if_pos h3] at h
    simp only [Except.ok.injEq, Prod.mk.injEq] at h
    rw [← h.1]
    exact ⟨⟨rfl, rfl, rfl⟩, .inr (.inr (.inl ⟨h3, .math .nil⟩))⟩
  rw [if_neg h3] at h
  obtain ⟨⟨evs, e1, e2⟩, e3⟩ := loadPaths_applies h
  exact ⟨e3, .inr (.inr (.inr ⟨h1, h2, h3, _, evs, splitWhitespace_iff.1 rfl, e1, e2⟩))⟩

theorem says_lead {line c : Text} (h : Says line c) : NoLead c := by
  obtain ⟨_, _, _, _, _, h1, _⟩ := h
  exact h1

/-- What a command does to the resolver. -/
theorem command_applies {w : World} {s s' : Session} {line c : Text} {b : Bool} {fx : List Effect}
    (hs : Says line c) (hb : s.buffer = [])
    (h : byKind w s c (kind c) = .ok (b, s', fx)) :
    s'.buffer = [] ∧ s'.prompt = s.prompt ∧
    ((kind c ∉ [Kind.clear, .reset, .load] ∧ s'.resolver = s.resolver) ∨
     (kind c = .reset ∧ Applies s.resolver [.clear] s'.resolver ∧ s'.historyPath = s.historyPath) ∨
     (kind c = .clear ∧ s'.historyPath = s.historyPath ∧ ∃ rest, c = t!":clear" ++ rest ∧
      (∀ x, rest.head? = some x → isWhitespace x = true) ∧
      ((trim rest ∈ clearingOptions ∧ Applies s.resolver [.clear] s'.resolver) ∨
       (trim rest ∉ clearingOptions ∧ s'.resolver = s.resolver))) ∨
     (kind c = .load ∧ s'.historyPath = s.historyPath ∧ ∃ rest, c = t!":load" ++ rest ∧
      (∀ x, rest.head? = some x → isWhitespace x = true) ∧
      loadArg w s (trim rest) = .ok (s', fx))) := by
  have hl := says_lead hs
  cases hk : kind c <;> rw [hk] at h <;> simp only [byKind] at h
  case cd =>
    obtain ⟨fx', e⟩ := cmdCd_quiet (w := w) (s := s) hl hk
    rw [e] at h; cases h
    exact ⟨hb, rfl, .inl ⟨by simp, rfl⟩⟩
  case help => cases h; exact ⟨hb, rfl, .inl ⟨by simp, rfl⟩⟩
  case quit =>
    unfold cmdQuit at h
    split at h
    · cases h; exact ⟨hb, rfl, .inl ⟨by simp, rfl⟩⟩
    split at h
    · cases h; exact ⟨hb, rfl, .inl ⟨by simp, rfl⟩⟩
    · cases h; exact ⟨hb, rfl, .inl ⟨by simp, rfl⟩⟩
  case clear =>
    obtain ⟨rest, h1, h2, h3⟩ := cmdClear_eq (s := s) hl hk
    rw [h3] at h
    simp only [Except.ok.injEq, Prod.mk.injEq] at h
    obtain ⟨-, h⟩ := h
    rcases clearOpt_applies s (trim rest) with ⟨e1, e2⟩ | ⟨e1, e2⟩
    · rw [h] at e2
      simp only at e2
      subst e2
      exact ⟨hb, rfl, .inr (.inr (.inl ⟨by simp, rfl, rest, h1, h2, .inl ⟨e1, .clear .nil⟩⟩))⟩
    · rw [h] at e2
      simp only at e2
      subst e2
      exact ⟨hb, rfl, .inr (.inr (.inl ⟨by simp, rfl, rest, h1, h2, .inr ⟨e1, rfl⟩⟩))⟩
  case history =>
    obtain ⟨p, fx', e⟩ := cmdHistory_quiet (s := s) hl hk
    rw [e] at h; cases h
    exact ⟨hb, rfl, .inl ⟨by simp, rfl⟩⟩
  case reset =>
    cases h
    exact ⟨hb, rfl, .inr (.inl ⟨rfl, .clear .nil, rfl⟩)⟩
  case fixities => cases h; exact ⟨hb, rfl, .inl ⟨by simp, rfl⟩⟩
  case info =>
    obtain ⟨p, _, rest, _, _, e⟩ := cmdInfo_eq (s := s) hl hk
    rw [e] at h; cases h
    exact ⟨hb, rfl, .inl ⟨by simp, rfl⟩⟩
  case load =>
    obtain ⟨rest, h1, h2, h3⟩ := cmdLoad_eq (w := w) (s := s) hl hk
    rw [h3] at h
    cases ha : loadArg w s (trim rest) with
    | error e => rw [ha] at h; cases h
    | ok x =>
      rw [ha] at h
      simp only [Except.map, Except.ok.injEq, Prod.mk.injEq] at h
      obtain ⟨-, rfl⟩ := h
      obtain ⟨⟨e1, e2, e3⟩, -⟩ := loadArg_applies ha
      exact ⟨by rw [e1, hb], e2, .inr (.inr (.inr ⟨by simp, e3, rest, h1, h2, ha⟩))⟩
  case shell =>
    obtain ⟨fx', e⟩ := cmdShell_quiet (w := w) (s := s) hl hk
    rw [e] at h; cases h
    exact ⟨hb, rfl, .inl ⟨by simp, rfl⟩⟩
  case unknown => cases h; exact ⟨rfl, rfl, .inl ⟨by simp, rfl⟩⟩

/-- A line that affects the resolver is one of those that `Reads` lists. -/
theorem step_reads {w : World} {s s' : Session} {line : Text} {b : Bool} {fx : List Effect}
    (h : step w s line = .ok (b, s', fx)) :
    s'.resolver = s.resolver ∨
      ∃ evs, Reads w s.buffer line evs ∧ Applies s.resolver evs s'.resolver := by
  rcases line_cases line with hl | ⟨c, hs, hc⟩ | ⟨add, hl⟩ | ⟨body, hl⟩ | ⟨body, hl⟩ | ⟨n, body, hl, h1, h2, h3⟩
  · rw [step_blank w s hl] at h; cases h; exact .inl rfl
  · by_cases hb : s.buffer = []
    · rw [step_cmd w hs hc hb] at h
      obtain ⟨-, -, h1⟩ := command_applies hs hb h
      rcases h1 with ⟨-, h1⟩ | ⟨hk, h1, -⟩ | ⟨hk, -, rest, h1, h2, ⟨h3, h4⟩ | ⟨-, h4⟩⟩ | ⟨hk, -, rest, h1, h2, h3⟩
      · exact .inl h1
      · refine .inr ⟨_, .reset hb hs ?_, h1⟩
        have := (kind_word (c := c) (by simp [hk])).2 (by simp [hk])
        rw [hk] at this
        exact this
      · refine .inr ⟨_, .clear hb (saysWith_iff.2 ⟨rest, by rw [← h1]; exact hs, h2, rfl, ?_⟩) h3, h4⟩
        intro e; rw [e] at h3; exact absurd h3 (by decide)
      · exact .inl h4
      · have hw : trim rest ≠ [] → SaysWith line t!":load" (trim rest) := fun hne =>
          saysWith_iff.2 ⟨rest, by rw [← h1]; exact hs, h2, rfl, hne⟩
        obtain ⟨-, ⟨-, rfl⟩ | ⟨ho, e⟩ | ⟨ho, e⟩ | ⟨n1, n2, n3, ws, evs, e1, e2, e3⟩⟩ := loadArg_applies h3
        · exact .inl rfl
        · rw [ho] at hw; exact .inr ⟨_, .prelude hb (hw (by simp)), e⟩
        · rw [ho] at hw; exact .inr ⟨_, .math hb (hw (by simp)), e⟩
        · exact .inr ⟨_, .files hb (hw n1) n3 n2 e1 e2, e3⟩
    · rw [step_says w s hs, if_pos (startsWith_iff.2 hc), if_neg hb] at h
      cases h; exact .inl rfl
  · rw [step_continues w s hl] at h; cases h; exact .inl rfl
  · rw [step_plain w s hl] at h
    exact .inr ⟨_, .plain hl, (process_applies h).2.2.2.2⟩
  · rw [step_block w s hl] at h
    exact .inr ⟨_, .block hl, (process_applies h).2.2.2.2⟩
  · rw [step_open w s hl h1 h2 h3] at h; cases h; exact .inl rfl

theorem says_unique {line c c' : Text} (h : Says line c) (h' : Says line c') : c = c' :=
  h.trim.symm.trans h'.trim

theorem reads_command {w : World} {s s' : Session} {line word o : Text} {b : Bool} {fx : List Effect}
    (hb : s.buffer = []) (hw : SaysWith line word o) (hword : word ∈ [t!":clear", t!":load"])
    (h : step w s line = .ok (b, s', fx)) :
    ∃ rest, Says line (word ++ rest) ∧ (∀ x, rest.head? = some x → isWhitespace x = true) ∧
      trim rest = o ∧ o ≠ [] ∧ byKind w s (word ++ rest) (kind (word ++ rest)) = .ok (b, s', fx) ∧
      kind (word ++ rest) = (if word = t!":clear" then .clear else .load) := by
  obtain ⟨rest, h1, h2, h3, h4⟩ := saysWith_iff.1 hw
  refine ⟨rest, h1, h2, h3, h4, ?_, ?_⟩
  · rw [step_cmd w h1 ?_ hb] at h
    · exact h
    · simp only [List.mem_cons, List.not_mem_nil, or_false] at hword
      rcases hword with rfl | rfl
      · exact ⟨_, rfl⟩
      · exact ⟨_, rfl⟩
  · simp only [List.mem_cons, List.not_mem_nil, or_false] at hword
    rcases hword with rfl | rfl
    · have hp := isPrefix_of_rest (word := t!":clear") (rest := rest) (by decide) (by decide) h2
      rw [if_pos rfl]
      exact (kind_of_word hp).2.2.1 rfl
    · have hp := isPrefix_of_rest (word := t!":load") (rest := rest) (by decide) (by decide) h2
      rw [if_neg (by decide)]
      exact (kind_of_word hp).2.2.2.2.1 rfl

/-- The lines that `Reads` lists do what it says. -/
theorem reads_step {w : World} {s s' : Session} {line : Text} {b : Bool} {fx : List Effect}
    {evs : List Event} (hr : Reads w s.buffer line evs) (h : step w s line = .ok (b, s', fx)) :
    Applies s.resolver evs s'.resolver := by
  cases hr with
  | plain hl => rw [step_plain w s hl] at h; exact (process_applies h).2.2.2.2
  | block hl => rw [step_block w s hl] at h; exact (process_applies h).2.2.2.2
  | @reset c hb hs hc =>
    have hk : kind c = .reset := by
      simp only [List.mem_cons, List.not_mem_nil, or_false] at hc
      rcases hc with rfl | rfl <;> decide
    rw [step_cmd w hs (by
      simp only [List.mem_cons, List.not_mem_nil, or_false] at hc
      rcases hc with rfl | rfl <;> exact ⟨_, rfl⟩) hb, hk] at h
    cases h
    exact .clear .nil
  | @clear o hb hw ho =>
    obtain ⟨rest, h1, h2, h3, h4, h5, h6⟩ := reads_command hb hw (by simp) h
    rw [if_pos rfl] at h6
    obtain ⟨-, -, e⟩ := command_applies h1 hb h5
    rcases e with ⟨hk, -⟩ | ⟨hk, -⟩ | ⟨-, -, rest', e1, -, ⟨-, e3⟩ | ⟨e2, -⟩⟩ | ⟨hk, -⟩
    · rw [h6] at hk; simp at hk
    · rw [h6] at hk; cases hk
    · exact e3
    · have : rest' = rest := List.append_cancel_left e1.symm
      rw [this, h3] at e2
      exact absurd ho e2
    · rw [h6] at hk; cases hk
  | math hb hw =>
    obtain ⟨rest, h1, h2, h3, h4, h5, h6⟩ := reads_command hb hw (by simp) h
    rw [if_neg (by decide)] at h6
    obtain ⟨-, -, e⟩ := command_applies h1 hb h5
    rcases e with ⟨hk, -⟩ | ⟨hk, -⟩ | ⟨hk, -⟩ | ⟨-, -, rest', e1, -, e3⟩
    · rw [h6] at hk; simp at hk
    · rw [h6] at hk; cases hk
    · rw [h6] at hk; cases hk
    · have : rest' = rest := List.append_cancel_left e1.symm
      rw [this, h3] at e3
      obtain ⟨-, ⟨c, -⟩ | ⟨c, -⟩ | ⟨-, e⟩ | ⟨-, -, c, -⟩⟩ := loadArg_applies e3
      · cases c
      · exact absurd c (by decide)
      · exact e
      · exact absurd rfl c
  | prelude hb hw =>
    obtain ⟨rest, h1, h2, h3, h4, h5, h6⟩ := reads_command hb hw (by simp) h
    rw [if_neg (by decide)] at h6
    obtain ⟨-, -, e⟩ := command_applies h1 hb h5
    rcases e with ⟨hk, -⟩ | ⟨hk, -⟩ | ⟨hk, -⟩ | ⟨-, -, rest', e1, -, e3⟩
    · rw [h6] at hk; simp at hk
    · rw [h6] at hk; cases hk
    · rw [h6] at hk; cases hk
    · have : rest' = rest := List.append_cancel_left e1.symm
      rw [this, h3] at e3
      obtain ⟨-, ⟨c, -⟩ | ⟨-, e⟩ | ⟨c, -⟩ | ⟨-, c, -⟩⟩ := loadArg_applies e3
      · cases c
      · exact e
      · exact absurd c (by decide)
      · exact absurd rfl c
  | @files o ws _ hb hw n1 n2 hws hld =>
    obtain ⟨rest, h1, h2, h3, h4, h5, h6⟩ := reads_command hb hw (by simp) h
    rw [if_neg (by decide)] at h6
    obtain ⟨-, -, e⟩ := command_applies h1 hb h5
    rcases e with ⟨hk, -⟩ | ⟨hk, -⟩ | ⟨hk, -⟩ | ⟨-, -, rest', e1, -, e3⟩
    · rw [h6] at hk; simp at hk
    · rw [h6] at hk; cases hk
    · rw [h6] at hk; cases hk
    · have : rest' = rest := List.append_cancel_left e1.symm
      rw [this, h3] at e3
      obtain ⟨-, ⟨c, -⟩ | ⟨c, -⟩ | ⟨c, -⟩ | ⟨-, -, -, ws', evs', f1, f2, f3⟩⟩ := loadArg_applies e3
      · exact absurd c h4
      · exact absurd c n2
      · exact absurd c n1
      · have : ws' = ws := by rw [← splitWhitespace_iff.2 f1, ← splitWhitespace_iff.2 hws]
        subst this
        rw [loads_unique hld f2]
        exact f3

/-- Lines that `Reads` does not list leave the resolver alone. -/
theorem quiet_step {w : World} {s s' : Session} {line : Text} {b : Bool} {fx : List Effect}
    (hr : ¬ ∃ evs, Reads w s.buffer line evs) (h : step w s line = .ok (b, s', fx)) :
    s'.resolver = s.resolver := by
  rcases step_reads h with h | ⟨evs, h1, -⟩
  · exact h
  · exact absurd ⟨evs, h1⟩ hr

end
end Session
end Pemdas
