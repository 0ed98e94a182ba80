import Verif.Spec.Session
import Verif.Props.Text
import Verif.Lemmas.Text
/-
Lemmas about trimming, words and the commands.
-/
set_option linter.unusedSectionVars false
namespace Pemdas

theorem dropWhile_spec (f : Char → Bool) (s : Text) :
    ∃ a, s = a ++ s.dropWhile f ∧ (∀ c ∈ a, f c = true) ∧
      (s.dropWhile f = [] ∨ ∃ c r, s.dropWhile f = c :: r ∧ f c = false) := by
  induction s with
  | nil => exact ⟨[], rfl, by simp, .inl rfl⟩
  | cons c s ih =>
    by_cases h : f c = true
    · obtain ⟨a, h1, h2, h3⟩ := ih
      refine ⟨c :: a, ?_, ?_, ?_⟩
      · simp only [List.dropWhile_cons, h, if_true, List.cons_append]
        rw [← h1]
      · intro d hd
        rcases List.mem_cons.1 hd with rfl | hd
        · exact h
        · exact h2 d hd
      · simpa only [List.dropWhile_cons, h, if_true] using h3
    · have h : f c = false := by simpa using h
      exact ⟨[], by simp [h], by simp, .inr ⟨c, s, by simp [h], h⟩⟩

theorem dropWhile_blank {a : Text} (h : Blank a) (s : Text) :
    (a ++ s).dropWhile isWhitespace = s.dropWhile isWhitespace := by
  induction a with
  | nil => rfl
  | cons c a ih =>
    simp only [List.cons_append, List.dropWhile_cons, h c (by simp), if_true]
    exact ih fun d hd => h d (by simp [hd])

theorem Blank.reverse {a : Text} (h : Blank a) : Blank a.reverse :=
  fun c hc => h c (List.mem_reverse.1 hc)

theorem trim_eq_nil {s : Text} : trim s = [] ↔ Blank s := by
  constructor
  · intro h
    obtain ⟨a, h1, h2, h3⟩ := dropWhile_spec isWhitespace s
    simp only [trim, trimEnd, trimStart, List.reverse_eq_nil_iff] at h
    obtain ⟨b, h4, h5, h6⟩ := dropWhile_spec isWhitespace (s.dropWhile isWhitespace).reverse
    rw [h, List.append_nil] at h4
    intro c hc
    rw [h1] at hc
    rcases List.mem_append.1 hc with hc | hc
    · exact h2 c hc
    · exact h5 c (by rw [← h4]; simpa using hc)
  · intro h
    have : s.dropWhile isWhitespace = [] := by
      have := dropWhile_blank h []
      simpa using this
    simp [trim, trimStart, trimEnd, this]

theorem Says.trim {line c : Text} (h : Says line c) : trim line = c := by
  obtain ⟨a, b, rfl, ha, hb, ⟨x, r, hx, hx'⟩, ⟨r', y, hy, hy'⟩⟩ := h
  have h1 : trimStart (a ++ c ++ b) = c ++ b := by
    rw [List.append_assoc, trimStart, dropWhile_blank ha, hx]
    simp [hx']
  rw [Pemdas.trim, h1, trimEnd, List.reverse_append, dropWhile_blank hb.reverse, hy]
  simp [hy']

theorem says_trim {line : Text} (h : ¬ Blank line) : Says line (trim line) := by
  rw [← trim_eq_nil] at h
  obtain ⟨a, h1, h2, h3⟩ := dropWhile_spec isWhitespace line
  obtain ⟨b, h4, h5, h6⟩ := dropWhile_spec isWhitespace (line.dropWhile isWhitespace).reverse
  have hb := congrArg List.reverse h4
  rw [List.reverse_append, List.reverse_reverse] at hb
  have ht : trim line = ((line.dropWhile isWhitespace).reverse.dropWhile isWhitespace).reverse := rfl
  rw [← ht] at hb
  refine ⟨a, b.reverse, by rw [List.append_assoc, ← hb, ← h1], h2, Blank.reverse h5, ?_, ?_⟩
  · rcases h3 with h3 | ⟨c, r, h3, h3'⟩
    · rw [h3] at hb
      exact absurd (List.append_eq_nil_iff.1 hb.symm).1 h
    · rw [h3] at hb
      cases hx : trim line with
      | nil => exact absurd hx h
      | cons x xs =>
        rw [hx] at hb
        refine ⟨x, xs, rfl, ?_⟩
        simp only [List.cons_append, List.cons.injEq] at hb
        rw [← hb.1]; exact h3'
  · rcases h6 with h6 | ⟨c, r, h6, h6'⟩
    · exact absurd (by rw [ht, h6]; rfl) h
    · exact ⟨r.reverse, c, by rw [ht, h6]; simp, h6'⟩

theorem says_iff {line c : Text} (hc : c ≠ []) : Says line c ↔ trim line = c := by
  refine ⟨Says.trim, fun h => h ▸ says_trim fun hb => hc ?_⟩
  rw [← h]; exact trim_eq_nil.2 hb

theorem Says.self {line c : Text} (h : Says line c) : Says c c := by
  obtain ⟨a, b, _, _, _, h1, h2⟩ := h
  exact ⟨[], [], by simp, by simp [Blank], by simp [Blank], h1, h2⟩

theorem Says.ne_nil {line c : Text} (h : Says line c) : c ≠ [] := by
  obtain ⟨a, b, _, _, _, ⟨x, r, rfl, _⟩, _⟩ := h
  simp

theorem trim_idem (s : Text) : trim (trim s) = trim s := by
  by_cases h : Blank s
  · rw [trim_eq_nil.2 h]; rfl
  · exact (says_trim h).self.trim

theorem startsWith_iff {s p : Text} : startsWith s p = true ↔ p <+: s := by
  unfold startsWith; exact List.isPrefixOf_iff_prefix

theorem endsWith_iff {s p : Text} : endsWith s p = true ↔ p <:+ s := by
  unfold endsWith; exact List.isSuffixOf_iff_suffix

/-- The first word of a trimmed text is its beginning. -/
theorem FirstWord.split {p c : Text} (h : FirstWord p c) (hc : NoLead c) :
    ∃ rest, c = p ++ rest ∧ ∀ x, rest.head? = some x → isWhitespace x = true := by
  obtain ⟨_, _, pre, rest, h1, h2, h3⟩ := h
  obtain ⟨x, r, rfl, hx⟩ := hc
  cases pre with
  | nil => exact ⟨rest, h1, h3⟩
  | cons y pre =>
    simp only [List.cons_append, List.cons.injEq] at h1
    rw [← h1.1] at h2
    rw [h2 x (by simp)] at hx
    cases hx

theorem byteSlice!_drop (p r : Text) :
    byteSlice! (p ++ r) (utf8Len p) (utf8Len (p ++ r)) = .ok r := by
  have := byteSlice_mid p r []
  simp only [List.append_nil] at this
  rw [byteSlice!, utf8Len_append, this]

theorem byteSlice!_take (p r : Text) :
    byteSlice! (p ++ r) 0 (utf8Len (p ++ r) - utf8Len r) = .ok p := by
  have := byteSlice_mid [] p r
  simp only [List.nil_append, utf8Len_nil, Nat.zero_add] at this
  rw [byteSlice!, utf8Len_append, Nat.add_sub_cancel, this]

namespace Session

theorem sliceFrom_ok (p r : Text) : sliceFrom (p ++ r) (utf8Len p) = .ok r := by
  rw [sliceFrom, byteSlice!_drop]; rfl

/-- What follows the command word. -/
theorem sliceFrom_word {p c : Text} (h : isPrefix p c = true) (hc : NoLead c) :
    ∃ rest, c = p ++ rest ∧ sliceFrom c (utf8Len p) = .ok rest ∧
      ∀ x, rest.head? = some x → isWhitespace x = true := by
  obtain ⟨rest, h1, h2⟩ := ((C65_is_prefix p c).1 h).split hc
  exact ⟨rest, h1, by rw [h1, sliceFrom_ok], h2⟩

/-! ### commands -/

section
variable [CharTables]

theorem isPrefix_other {p c : Text} (h : isPrefix p c = true) (q : Text) :
    isPrefix q c = decide (p = q) := by
  unfold isPrefix at h ⊢
  cases hx : (splitWhitespace c).head? with
  | none => rw [hx] at h; cases h
  | some t =>
    rw [hx] at h
    have h : t = p := by simpa using h
    subst h
    simp only
    exact Bool.beq_eq_decide_eq t q

/-- The ten groups of commands, by their (first) word. -/
inductive Kind where
  | cd | help | quit | clear | history | reset | fixities | info | load | shell | unknown
  deriving DecidableEq

/-- Which command a text is, as the chain of tests in `command` decides. -/
def kind (c : Text) : Kind :=
  if isPrefix t!":cd" c then .cd
  else if c = t!":help" ∨ c = t!":h" ∨ c = t!":?" then .help
  else if isPrefix t!":q" c ∨ isPrefix t!":quit" c then .quit
  else if isPrefix t!":clear" c then .clear
  else if isPrefix t!":history" c then .history
  else if c = t!":reset" ∨ c = t!":r" then .reset
  else if c = t!":info" ∨ c = t!":i" ∨ c = t!":fixities" then .fixities
  else if isPrefix t!":info" c ∨ isPrefix t!":i" c then .info
  else if isPrefix t!":load" c then .load
  else if isPrefix t!":shell" c then .shell
  else .unknown

/-- What `command` does for each kind. -/
def byKind (w : World) (s : Session) (c : Text) : Kind → Cmd
  | .cd => cmdCd w s c
  | .help => .ok (true, s, [sayLine helpMsg])
  | .quit => cmdQuit s c
  | .clear => cmdClear s c
  | .history => cmdHistory s c
  | .reset => cmdReset s
  | .fixities => cmdFixities s
  | .info => cmdInfo s c
  | .load => cmdLoad w s c
  | .shell => cmdShell w s c
  | .unknown => .ok (true, { s with buffer := [] }, [errLine (t!"unknown command: `" ++ c ++ t!"`")])

theorem ite_map {α β : Type} {p : Prop} [Decidable p] (f : α → β) {a b : α} {a' b' : β}
    (h1 : a' = f a) (h2 : b' = f b) : (if p then a' else b') = f (if p then a else b) := by
  by_cases h : p <;> simp [h, h1, h2]

theorem command_eq (w : World) (s : Session) (c : Text) : command w s c = byKind w s c (kind c) :=
  ite_map _ rfl (ite_map _ rfl (ite_map _ rfl (ite_map _ rfl (ite_map _ rfl (ite_map _ rfl
    (ite_map _ rfl (ite_map _ rfl (ite_map _ rfl (ite_map _ rfl rfl)))))))))

theorem of_ite {α : Type} {p : Prop} [Decidable p] (P : α → Prop) {a b : α} (h1 : p → P a)
    (h2 : ¬ p → P b) : P (if p then a else b) := by
  by_cases h : p
  · rw [if_pos h]; exact h1 h
  · rw [if_neg h]; exact h2 h

/-- The first word of commands of a kind. -/
def kindWords : Kind → List Text
  | .cd => [t!":cd"]
  | .help => [t!":help", t!":h", t!":?"]
  | .quit => [t!":q", t!":quit"]
  | .clear => [t!":clear"]
  | .history => [t!":history"]
  | .reset => [t!":reset", t!":r"]
  | .fixities => [t!":info", t!":i", t!":fixities"]
  | .info => [t!":info", t!":i"]
  | .load => [t!":load"]
  | .shell => [t!":shell"]
  | .unknown => []

/-- A command has one of the words of its kind as its first word (and is just that word, for the
kinds without arguments). -/
theorem kind_word {c : Text} (h : kind c ≠ .unknown) :
    (∃ p ∈ kindWords (kind c), isPrefix p c = true) ∧
    ((kind c = .help ∨ kind c = .reset ∨ kind c = .fixities) → c ∈ kindWords (kind c)) := by
  have lit : ∀ p ∈ [t!":help", t!":h", t!":?", t!":reset", t!":r", t!":info", t!":i", t!":fixities"],
      isPrefix p p = true := by decide
  have one : ∀ k, (∀ p ∈ kindWords k, isPrefix p p = true) → c ∈ kindWords k →
      (∃ p ∈ kindWords k, isPrefix p c = true) ∧
      ((k = .help ∨ k = .reset ∨ k = .fixities) → c ∈ kindWords k) :=
    fun k hl hm => ⟨⟨c, hm, hl c hm⟩, fun _ => hm⟩
  revert h
  let P : Kind → Prop := fun k => k ≠ .unknown → (∃ p ∈ kindWords k, isPrefix p c = true) ∧
    ((k = .help ∨ k = .reset ∨ k = .fixities) → c ∈ kindWords k)
  show P (kind c)
  unfold kind
  refine of_ite P (fun h _ => ⟨⟨_, by simp [kindWords], h⟩, fun h => by simp at h⟩) fun _ => ?_
  refine of_ite P (fun h _ => one _ (by decide) (by simpa [kindWords] using h)) fun _ => ?_
  refine of_ite P (fun h _ => ⟨?_, fun h => by simp at h⟩) fun _ => ?_
  · rcases h with h | h
    · exact ⟨_, by simp [kindWords], h⟩
    · exact ⟨_, by simp [kindWords], h⟩
  refine of_ite P (fun h _ => ⟨⟨_, by simp [kindWords], h⟩, fun h => by simp at h⟩) fun _ => ?_
  refine of_ite P (fun h _ => ⟨⟨_, by simp [kindWords], h⟩, fun h => by simp at h⟩) fun _ => ?_
  refine of_ite P (fun h _ => one _ (by decide) (by simpa [kindWords] using h)) fun _ => ?_
  refine of_ite P (fun h _ => one _ (by decide) (by simpa [kindWords] using h)) fun _ => ?_
  refine of_ite P (fun h _ => ⟨?_, fun h => by simp at h⟩) fun _ => ?_
  · rcases h with h | h
    · exact ⟨_, by simp [kindWords], h⟩
    · exact ⟨_, by simp [kindWords], h⟩
  refine of_ite P (fun h _ => ⟨⟨_, by simp [kindWords], h⟩, fun h => by simp at h⟩) fun _ => ?_
  refine of_ite P (fun h _ => ⟨⟨_, by simp [kindWords], h⟩, fun h => by simp at h⟩) fun _ => ?_
  intro h; exact absurd rfl h

/-- Texts by their first word. -/
theorem kind_of_word {p c : Text} (h : isPrefix p c = true) :
    (p = t!":cd" → kind c = .cd) ∧
    (p = t!":q" ∨ p = t!":quit" → kind c = .quit) ∧
    (p = t!":clear" → kind c = .clear) ∧
    (p = t!":history" → kind c = .history) ∧
    (p = t!":load" → kind c = .load) ∧
    (p = t!":shell" → kind c = .shell) ∧
    (p = t!":info" ∨ p = t!":i" → c ≠ p → kind c = .info) := by
  have ne : ∀ q, isPrefix p q = false → c ≠ q := by
    intro q hq hc; rw [hc, hq] at h; cases h
  refine ⟨?_, ?_, ?_, ?_, ?_, ?_, ?_⟩
  · rintro rfl
    unfold kind; rw [if_pos h]
  · intro hp
    have n1 := ne t!":help"; have n2 := ne t!":h"; have n3 := ne t!":?"
    rcases hp with rfl | rfl <;>
    simp [kind, isPrefix_other h, n1 (by decide), n2 (by decide), n3 (by decide)]
  · rintro rfl
    simp [kind, isPrefix_other h, ne t!":help" (by decide), ne t!":h" (by decide), ne t!":?" (by decide)]
  · rintro rfl
    simp [kind, isPrefix_other h, ne t!":help" (by decide), ne t!":h" (by decide), ne t!":?" (by decide)]
  · rintro rfl
    simp [kind, isPrefix_other h, ne t!":help" (by decide), ne t!":h" (by decide), ne t!":?" (by decide),
      ne t!":reset" (by decide), ne t!":r" (by decide), ne t!":info" (by decide), ne t!":i" (by decide),
      ne t!":fixities" (by decide)]
  · rintro rfl
    simp [kind, isPrefix_other h, ne t!":help" (by decide), ne t!":h" (by decide), ne t!":?" (by decide),
      ne t!":reset" (by decide), ne t!":r" (by decide), ne t!":info" (by decide), ne t!":i" (by decide),
      ne t!":fixities" (by decide)]
  · intro hp hc
    have n1 := ne t!":help"; have n2 := ne t!":h"; have n3 := ne t!":?"
    have n4 := ne t!":reset"; have n5 := ne t!":r"; have n6 := ne t!":fixities"
    have n7 := ne t!":info"; have n8 := ne t!":i"
    rcases hp with rfl | rfl
    · simp [kind, isPrefix_other h, n1 (by decide), n2 (by decide), n3 (by decide), n4 (by decide),
        n5 (by decide), n6 (by decide), hc, n8 (by decide)]
    · simp [kind, isPrefix_other h, n1 (by decide), n2 (by decide), n3 (by decide), n4 (by decide),
        n5 (by decide), n6 (by decide), hc, n7 (by decide)]

theorem mem_kindWords_lead {c : Text} (hk : kind c ≠ .unknown) (hc : NoLead c) :
    ∃ p ∈ kindWords (kind c), ∃ rest, c = p ++ rest ∧ sliceFrom c (utf8Len p) = .ok rest ∧
      (∀ x, rest.head? = some x → isWhitespace x = true) := by
  obtain ⟨⟨p, hp, h⟩, -⟩ := kind_word hk
  obtain ⟨rest, h1⟩ := sliceFrom_word h hc
  exact ⟨p, hp, rest, h1⟩

/-! What each command does to the session. -/

theorem cmdCd_quiet {w : World} {s : Session} {c : Text} (hc : NoLead c) (h : kind c = .cd) :
    ∃ fx, cmdCd w s c = .ok (true, s, fx) := by
  obtain ⟨p, hp, rest, -, h2, -⟩ := mem_kindWords_lead (by simp [h]) hc
  rw [h, kindWords, List.mem_singleton] at hp
  subst hp
  simp only [cmdCd, h2, bind, Except.bind]
  exact ⟨_, rfl⟩

theorem cmdShell_quiet {w : World} {s : Session} {c : Text} (hc : NoLead c) (h : kind c = .shell) :
    ∃ fx, cmdShell w s c = .ok (true, s, fx) := by
  obtain ⟨p, hp, rest, -, h2, -⟩ := mem_kindWords_lead (by simp [h]) hc
  rw [h, kindWords, List.mem_singleton] at hp
  subst hp
  simp only [cmdShell, h2, bind, Except.bind]
  exact ⟨_, rfl⟩

theorem cmdInfo_eq {s : Session} {c : Text} (hc : NoLead c) (h : kind c = .info) :
    ∃ p ∈ [t!":info", t!":i"], ∃ rest, c = p ++ rest ∧
      (∀ x, rest.head? = some x → isWhitespace x = true) ∧
      cmdInfo s c = .ok (true, s, infoArg s rest) := by
  obtain ⟨⟨p, hp, h1⟩, -⟩ := kind_word (c := c) (by simp [h])
  obtain ⟨rest, h2, h3, h4⟩ := sliceFrom_word h1 hc
  rw [h, kindWords] at hp
  refine ⟨p, hp, rest, h2, h4, ?_⟩
  simp only [List.mem_cons, List.not_mem_nil, or_false] at hp
  unfold cmdInfo
  rw [isPrefix_other h1]
  rcases hp with rfl | rfl
  · simp only [decide_true, if_true, h3]; rfl
  · simp only [show decide (t!":i" = t!":info") = false from by decide, Bool.false_eq_true, if_false, h3]; rfl

theorem cmdClear_eq {s : Session} {c : Text} (hc : NoLead c) (h : kind c = .clear) :
    ∃ rest, c = t!":clear" ++ rest ∧ (∀ x, rest.head? = some x → isWhitespace x = true) ∧
      cmdClear s c = .ok (true, clearOpt s (trim rest)) := by
  obtain ⟨p, hp, rest, h1, h2, h3⟩ := mem_kindWords_lead (by simp [h]) hc
  rw [h, kindWords, List.mem_singleton] at hp
  subst hp
  exact ⟨rest, h1, h3, by simp only [cmdClear, h2, bind, Except.bind]⟩

theorem cmdLoad_eq {w : World} {s : Session} {c : Text} (hc : NoLead c) (h : kind c = .load) :
    ∃ rest, c = t!":load" ++ rest ∧ (∀ x, rest.head? = some x → isWhitespace x = true) ∧
      cmdLoad w s c = (loadArg w s (trim rest)).map (true, ·) := by
  obtain ⟨p, hp, rest, h1, h2, h3⟩ := mem_kindWords_lead (by simp [h]) hc
  rw [h, kindWords, List.mem_singleton] at hp
  subst hp
  refine ⟨rest, h1, h3, ?_⟩
  simp only [cmdLoad, h2, bind, Except.bind]
  cases loadArg w s (trim rest) <;> rfl

theorem noLead_trim {t : Text} (h : trim t ≠ []) : NoLead (trim t) := by
  obtain ⟨_, _, _, _, _, h1, _⟩ := says_trim (fun hb => h (trim_eq_nil.2 hb))
  exact h1

theorem historyOpt_eq (s : Session) (o : Text) (ho : o = [] ∨ NoLead o) :
    ∃ p fx, historyOpt s o = .ok ({ s with historyPath := p }, fx) := by
  unfold historyOpt
  split
  · exact ⟨_, _, rfl⟩
  split
  · exact ⟨_, _, rfl⟩
  split
  · rename_i h
    obtain ⟨rest, rfl⟩ := startsWith_iff.1 h
    simp only [historySet, sliceFrom_ok, bind, Except.bind]
    split
    · exact ⟨_, _, rfl⟩
    · exact ⟨_, _, rfl⟩
  split
  · rename_i h
    have hne : NoLead o := by
      rcases ho with rfl | ho
      · exact absurd h (by decide)
      · exact ho
    obtain ⟨rest, -, h2, -⟩ := sliceFrom_word h hne
    unfold historySave
    split
    · exact ⟨_, _, rfl⟩
    · simp only [h2, bind, Except.bind]
      exact ⟨_, _, rfl⟩
  · exact ⟨_, _, rfl⟩

theorem cmdHistory_eq {s : Session} {c : Text} (hc : NoLead c) (h : kind c = .history) :
    ∃ rest, c = t!":history" ++ rest ∧ (∀ x, rest.head? = some x → isWhitespace x = true) ∧
      cmdHistory s c = (historyOpt s (trim rest)).map (true, ·) := by
  obtain ⟨p, hp, rest, h1, h2, h3⟩ := mem_kindWords_lead (by simp [h]) hc
  rw [h, kindWords, List.mem_singleton] at hp
  subst hp
  refine ⟨rest, h1, h3, ?_⟩
  simp only [cmdHistory, h2, bind, Except.bind]
  cases historyOpt s (trim rest) <;> rfl

theorem cmdHistory_quiet {s : Session} {c : Text} (hc : NoLead c) (h : kind c = .history) :
    ∃ p fx, cmdHistory s c = .ok (true, { s with historyPath := p }, fx) := by
  obtain ⟨rest, -, -, h1⟩ := cmdHistory_eq (s := s) hc h
  have ho : trim rest = [] ∨ NoLead (trim rest) := by
    by_cases h : trim rest = []
    · exact .inl h
    · exact .inr (noLead_trim h)
  obtain ⟨p, fx, h2⟩ := historyOpt_eq s _ ho
  exact ⟨p, fx, by rw [h1, h2]; rfl⟩

end

end Session
end Pemdas
