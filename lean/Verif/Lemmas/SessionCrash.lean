import Verif.Props.Session
import Verif.Props.ErrorText
/-
Where exactly a session crashes.
-/
namespace Pemdas
namespace Session
section
variable [CharTables] [LawfulTables]

theorem crashes_err {src : Text} {p : Panic} (h : Crashes src p) : parse src = .panic p ∨
    ∃ e l, parse src = .err e l ∧ e.text = .error p ∧ e.textWithoutLoc = .error p := by
  rcases h with h | ⟨e, l, h, ht⟩
  · exact .inl h
  · have hx := C68_exactly (.inl h)
    refine .inr ⟨e, l, h, ?_⟩
    rcases ht with ht | ht
    · exact ⟨ht, (hx.2.1 p).2 ((hx.1 p).1 ht)⟩
    · exact ⟨(hx.1 p).2 ((hx.2.1 p).1 ht), ht⟩

theorem process_stop_iff {s : Session} {e : Stop} :
    process s = .error e ↔ ∃ p, e = .panic p ∧ Crashes s.buffer p := by
  refine ⟨process_stop, ?_⟩
  rintro ⟨p, rfl, h⟩
  unfold process readBuffer
  rcases crashes_err h with h | ⟨e, l, h, h1, _⟩
  · rw [feedInput_panic _ h]; rfl
  · rw [feedInput_err _ h]
    simp only [SessionError.text, bind, Except.bind, h1]

theorem readFile_stop_iff {w : World} {s : Session} {p content : Text} {e : Stop}
    (hr : w.readFile p = .ok content) :
    readFile w s p = .error e ↔ ∃ q, e = .panic q ∧ Crashes (fileInput p content) q := by
  constructor
  · intro h
    obtain ⟨q, c, h1, h2, h3⟩ := readFile_stop h
    rw [hr] at h2; cases h2
    exact ⟨q, h1, h3⟩
  · rintro ⟨q, rfl, h⟩
    unfold readFile
    rw [hr]
    rcases crashes_err h with h | ⟨e, l, h, _, h1⟩
    · simp only [feedInput_panic _ h]
    · simp only [feedInput_err _ h, SessionError.textWithPath, bind, Except.bind, h1]

/-- One of the events is a text that crashes, and it is the first. -/
def Dies (evs : List Event) (e : Stop) : Prop :=
  ∃ pre t post p, evs = pre ++ .text t :: post ∧ (∀ t', .text t' ∈ pre → ∀ q, ¬ Crashes t' q) ∧
    e = .panic p ∧ Crashes t p

omit [LawfulTables] in
theorem dies_cons {t : Text} {evs : List Event} {e : Stop} : Dies (.text t :: evs) e ↔
    (∃ p, e = .panic p ∧ Crashes t p) ∨ ((∀ q, ¬ Crashes t q) ∧ Dies evs e) := by
  constructor
  · rintro ⟨pre, t', post, p, h1, h2, h3, h4⟩
    cases pre with
    | nil => cases h1; exact .inl ⟨p, h3, h4⟩
    | cons x pre =>
      cases h1
      exact .inr ⟨h2 t (by simp), pre, t', post, p, rfl, fun u hu => h2 u (by simp [hu]), h3, h4⟩
  · rintro (⟨p, h3, h4⟩ | ⟨h, pre, t', post, p, rfl, h2, h3, h4⟩)
    · exact ⟨[], t, evs, p, rfl, by simp, h3, h4⟩
    · refine ⟨.text t :: pre, t', post, p, rfl, fun u hu => ?_, h3, h4⟩
      rcases List.mem_cons.1 hu with hu | hu
      · cases hu; exact h
      · exact h2 u hu

theorem loadPaths_stop_iff {w : World} {s : Session} {ws : List Text} {e : Stop}
    {evs : List Event} (hl : Loads w ws evs) : loadPaths w s ws = .error e ↔ Dies evs e := by
  induction hl generalizing s with
  | nil =>
    constructor
    · intro h; cases h
    · rintro ⟨pre, t, post, p, h, -⟩; simp at h
  | @missing word path k ws evs ho hr hl ih =>
    unfold loadPaths
    simp only [unquote_opens.2 ho, readFile, hr, bind, Except.bind]
    rw [← ih (s := s)]
    cases loadPaths w s ws with
    | error e' => simp
    | ok x => simp
  | @file word path content t ws evs ho hr hft hl ih =>
    unfold loadPaths
    simp only [unquote_opens.2 ho, bind, Except.bind]
    rw [dies_cons, fileText_iff.1 hft]
    have hx := fun e => readFile_stop_iff (s := s) (e := e) hr
    cases hf : readFile w s path with
    | error e' =>
      rw [hf] at hx
      simp only [Except.error.injEq] at hx ⊢
      constructor
      · intro h; exact .inl ((hx e).1 h)
      · rintro (h | ⟨h, -⟩)
        · exact (hx e).2 h
        · obtain ⟨q, -, hq⟩ := (hx e').1 rfl
          exact absurd hq (h q)
    | ok y =>
      rw [hf] at hx
      have hn : ∀ q, ¬ Crashes (fileInput path content) q := by
        intro q hq
        have := (hx (.panic q)).2 ⟨q, rfl, hq⟩
        cases this
      simp only
      have hi := ih (s := y.1)
      constructor
      · intro h
        refine .inr ⟨hn, hi.1 ?_⟩
        cases hl' : loadPaths w y.1 ws with
        | error e' => rw [hl'] at h; cases h; rfl
        | ok x => rw [hl'] at h; cases h
      · rintro (⟨q, -, hq⟩ | ⟨-, h⟩)
        · exact absurd hq (hn q)
        · rw [hi.2 h]

theorem reads_stop_iff {w : World} {s : Session} {line : Text} {evs : List Event} {t : Text}
    {e : Stop} (hr : Reads w s.buffer line evs) (ht : .text t ∈ evs) :
    step w s line = .error e ↔ Dies evs e := by
  have one : ∀ t e, Dies [.text t] e ↔ ∃ p, e = .panic p ∧ Crashes t p := by
    intro t e
    rw [dies_cons]
    constructor
    · rintro (h | ⟨-, pre, t, post, p, h, -⟩)
      · exact h
      · simp at h
    · exact .inl
  cases hr with
  | plain hl => rw [step_plain w s hl, process_stop_iff, one]
  | block hl => rw [step_block w s hl, process_stop_iff, one]
  | reset => simp at ht
  | clear => simp at ht
  | math => simp at ht
  | prelude => simp at ht
  | @files o ws _ hb hw n1 n2 hws hld =>
    obtain ⟨rest, h1, h2, h3, h4⟩ := saysWith_iff.1 hw
    have hk : kind (t!":load" ++ rest) = .load :=
      (kind_of_word (isPrefix_of_rest (by decide) (by decide) h2)).2.2.2.2.1 rfl
    obtain ⟨rest', e1, e2, e3⟩ := cmdLoad_eq (w := w) (s := s) (says_lead h1) hk
    have : rest' = rest := List.append_cancel_left e1.symm
    subst this
    rw [step_cmd w h1 ⟨_, rfl⟩ hb, hk]
    simp only [byKind, e3, h3, loadArg, if_neg h4, if_neg n1, if_neg n2]
    rw [splitWhitespace_iff.2 hws, ← loadPaths_stop_iff (s := s) hld]
    cases loadPaths w s ws <;> simp [Except.map]

/-! ### carriage returns -/

omit [CharTables] [LawfulTables] in
theorem noLFCR_of_noCR {t : Text} (h : '\r' ∉ t) : NoLFCR t := by
  rintro ⟨a, b, rfl⟩
  exact h (by simp)

omit [CharTables] [LawfulTables] in
theorem mem_trim {c : Char} {t : Text} (h : c ∈ trim t) : c ∈ t := by
  simp only [trim, trimEnd, trimStart, List.mem_reverse] at h
  exact (List.dropWhile_sublist _).subset (List.mem_reverse.1 ((List.dropWhile_sublist _).subset h))

omit [CharTables] [LawfulTables] in
theorem fileText_noLFCR {p content t : Text} (h : FileText p content t) (hc : NoLFCR content) :
    NoLFCR t := by
  cases h with
  | plain => exact hc
  | @haskell ls _ hl =>
    refine fun hi => ?_
    have hm : '\n' ∈ _ := hi.subset (show '\n' ∈ ['\n', '\r'] by simp)
    obtain ⟨l, hm, hn⟩ := List.mem_flatten.1 hm
    obtain ⟨l', h1, rfl⟩ := List.mem_map.1 (List.mem_filter.1 hm).1
    exact hl.1 l' h1 (mem_trim hn)

omit [CharTables] [LawfulTables] in
theorem loads_noLFCR {w : World} {ws : List Text} {evs : List Event} (h : Loads w ws evs)
    (hw : ∀ path content, w.readFile path = .ok content → NoLFCR content) {t : Text}
    (ht : .text t ∈ evs) : NoLFCR t := by
  induction h with
  | nil => cases ht
  | missing _ _ _ ih => exact ih ht
  | file _ hr hf _ ih =>
    rcases List.mem_cons.1 ht with ht | ht
    · cases ht; exact fileText_noLFCR hf (hw _ _ hr)
    · exact ih ht

omit [CharTables] [LawfulTables] in
theorem says_noCR {line c : Text} (h : Says line c) (hr : '\r' ∉ line) : '\r' ∉ c := by
  obtain ⟨a, b, rfl, _⟩ := h
  simp only [List.mem_append, not_or] at hr
  exact hr.1.2

omit [CharTables] [LawfulTables] in
theorem ends_noCR {line body : Text} (h : Ends line body) (hr : '\r' ∉ line) : '\r' ∉ body := by
  cases h with
  | plain h => exact says_noCR h hr

omit [CharTables] [LawfulTables] in
theorem block_noCR {line body : Text} (h : Block line body) (hr : '\r' ∉ line) : '\r' ∉ body := by
  obtain ⟨n, m, h, _⟩ := h
  have := says_noCR h hr
  simp only [List.mem_append, not_or] at this
  exact this.1.2

omit [CharTables] [LawfulTables] in
theorem reads_noLFCR {w : World} {buffer line : Text} {evs : List Event} (h : Reads w buffer line evs)
    (hb : '\r' ∉ buffer) (hl : '\r' ∉ line)
    (hw : ∀ path content, w.readFile path = .ok content → NoLFCR content) {t : Text}
    (ht : .text t ∈ evs) : NoLFCR t := by
  cases h with
  | plain h =>
    cases List.mem_singleton.1 ht
    exact noLFCR_of_noCR (by simp only [List.mem_append, not_or]; exact ⟨hb, ends_noCR h hl⟩)
  | block h =>
    cases List.mem_singleton.1 ht
    exact noLFCR_of_noCR (by simp only [List.mem_append, not_or]; exact ⟨hb, block_noCR h hl⟩)
  | reset => simp at ht
  | clear => simp at ht
  | math => simp at ht
  | prelude => simp at ht
  | files _ _ _ _ _ hld => exact loads_noLFCR hld hw ht

omit [LawfulTables] in
theorem step_noCR {w : World} {s s' : Session} {line : Text} {b : Bool} {fx : List Effect}
    (h : step w s line = .ok (b, s', fx)) (hb : '\r' ∉ s.buffer) (hl : '\r' ∉ line) :
    '\r' ∉ s'.buffer := by
  rcases line_cases line with h1 | ⟨c, hs, hc⟩ | ⟨add, h1⟩ | ⟨body, h1⟩ | ⟨body, h1⟩ | ⟨n, body, h1, h2, h3, h4⟩
  · rw [step_blank w s h1] at h; cases h; exact hb
  · rw [(C54_commands_keep_the_rest hs hc h).1]; exact hb
  · rw [step_continues w s h1] at h
    cases h
    cases h1 with
    | decl h1 =>
      have := says_noCR h1 hl
      simp only [List.mem_append, not_or] at this ⊢
      exact ⟨hb, this.1, by decide⟩
    | other h1 =>
      have := says_noCR h1 hl
      simp only [List.mem_append, not_or] at this ⊢
      exact ⟨hb, this.1, by decide⟩
  · rw [step_plain w s h1] at h
    rw [(process_applies h).2.1]; simp
  · rw [step_block w s h1] at h
    rw [(process_applies h).2.1]; simp
  · rw [step_open w s h1 h2 h3 h4] at h
    cases h
    have := says_noCR h1 hl
    simp only [List.mem_append, not_or] at this ⊢
    exact ⟨hb, this.2⟩

omit [LawfulTables] in
theorem run_noCR {ins : List (World × Input)} {s s' : Session} {b : Bool} {fx : List Effect}
    (h : run s ins = .ok (b, s', fx)) (hb : '\r' ∉ s.buffer)
    (hl : ∀ w l, (w, .line l) ∈ ins → '\r' ∉ l) : '\r' ∉ s'.buffer := by
  induction ins generalizing s b fx with
  | nil => cases h; exact hb
  | cons x ins ih =>
    obtain ⟨w, i⟩ := x
    cases i with
    | eof => cases h; exact hb
    | interrupted => cases h; exact hb
    | error e =>
      simp only [run, bind, Except.bind] at h
      cases hr : run s ins with
      | error e => rw [hr] at h; cases h
      | ok y =>
        obtain ⟨b1, s1, fx1⟩ := y
        rw [hr] at h; cases h
        exact ih hr hb fun w l hm => hl w l (by simp [hm])
    | line l =>
      simp only [run, bind, Except.bind] at h
      cases hs : step w s l with
      | error e => rw [hs] at h; cases h
      | ok y =>
        obtain ⟨b1, s1, fx1⟩ := y
        have h1 := step_noCR hs hb (hl w l (by simp))
        rw [hs] at h
        cases b1 with
        | false => simp only [Bool.false_eq_true, if_false] at h; cases h; exact h1
        | true =>
          simp only [if_true] at h
          cases hr : run s1 ins with
          | error e => rw [hr] at h; cases h
          | ok y =>
            obtain ⟨b2, s2, fx2⟩ := y
            rw [hr] at h; cases h
            exact ih hr h1 fun w l hm => hl w l (by simp [hm])

omit [LawfulTables] in
/-- A run crashes at one of its lines. -/
theorem run_stop_iff {ins : List (World × Input)} {s : Session} {e : Stop} :
    run s ins = .error e ↔ ∃ pre w line post s' fx, ins = pre ++ (w, .line line) :: post ∧
      run s pre = .ok (true, s', fx) ∧ step w s' line = .error e := by
  induction ins generalizing s with
  | nil =>
    constructor
    · intro h; cases h
    · rintro ⟨pre, w, line, post, s', fx, h, -⟩; simp at h
  | cons x ins ih =>
    obtain ⟨w, i⟩ := x
    have key : ∀ {p : Input}, (∀ l, p ≠ .line l) → (∃ pre w' line post s' fx,
        (w, p) :: ins = pre ++ (w', .line line) :: post ∧ run s pre = .ok (true, s', fx) ∧
          step w' s' line = .error e) → ∃ pre w' line post s' fx, ins = pre ++ (w', .line line) :: post ∧
          run s ((w, p) :: pre) = .ok (true, s', fx) ∧ step w' s' line = .error e := by
      rintro p hp ⟨pre, w', line, post, s', fx, h1, h2, h3⟩
      cases pre with
      | nil => cases h1; exact absurd rfl (hp line)
      | cons y pre => cases h1; exact ⟨pre, w', line, post, s', fx, rfl, h2, h3⟩
    cases i with
    | eof =>
      constructor
      · intro h; cases h
      · intro h; obtain ⟨_, _, _, _, _, _, _, h, _⟩ := key (by simp) h; cases h
    | interrupted =>
      constructor
      · intro h; cases h
      · intro h; obtain ⟨_, _, _, _, _, _, _, h, _⟩ := key (by simp) h; cases h
    | error m =>
      have hrun : run s ((w, .error m) :: ins) = .error e ↔ run s ins = .error e := by
        simp only [run, bind, Except.bind]
        cases run s ins <;> simp
      rw [hrun, ih]
      constructor
      · rintro ⟨pre, w', line, post, s', fx, rfl, h2, h3⟩
        refine ⟨(w, .error m) :: pre, w', line, post, s', errLine (t!"Error: " ++ m) :: fx, rfl, ?_, h3⟩
        rw [run, h2]; rfl
      · intro h
        obtain ⟨pre, w', line, post, s', fx, h1, h2, h3⟩ := key (by simp) h
        simp only [run, bind, Except.bind] at h2
        cases hr : run s pre with
        | error e => rw [hr] at h2; cases h2
        | ok y =>
          obtain ⟨b1, s1, fx1⟩ := y
          rw [hr] at h2; cases h2
          exact ⟨pre, w', line, post, _, fx1, h1, hr, h3⟩
    | line l =>
      cases hs : step w s l with
      | error e' =>
        have hrun : run s ((w, .line l) :: ins) = .error e' := by
          simp only [run, bind, Except.bind, hs]
        rw [hrun]
        constructor
        · intro h; cases h
          exact ⟨[], w, l, ins, s, [], rfl, rfl, hs⟩
        · rintro ⟨pre, w', line, post, s', fx, h1, h2, h3⟩
          cases pre with
          | nil => cases h1; cases h2; rw [hs] at h3; cases h3; rfl
          | cons y pre =>
            cases h1
            simp only [run, bind, Except.bind, hs] at h2
            cases h2
      | ok y =>
        obtain ⟨b1, s1, fx1⟩ := y
        cases b1 with
        | false =>
          have hrun : ∀ xs, run s ((w, .line l) :: xs) = .ok (false, s1, fx1) := by
            intro xs; simp [run, bind, Except.bind, hs]
          rw [hrun]
          constructor
          · intro h; cases h
          · rintro ⟨pre, w', line, post, s', fx, h1, h2, h3⟩
            cases pre with
            | nil => cases h1; cases h2; rw [hs] at h3; cases h3
            | cons y pre => cases h1; rw [hrun] at h2; cases h2
        | true =>
          have hrun : ∀ xs, run s ((w, .line l) :: xs) =
              (run s1 xs).map fun y => (y.1, y.2.1, fx1 ++ y.2.2) := by
            intro xs
            simp only [run, bind, Except.bind, hs, if_true]
            cases run s1 xs <;> rfl
          have hr2 : run s ((w, .line l) :: ins) = .error e ↔ run s1 ins = .error e := by
            rw [hrun]; cases run s1 ins <;> simp [Except.map]
          rw [hr2, ih]
          constructor
          · rintro ⟨pre, w', line, post, s', fx, rfl, h2, h3⟩
            exact ⟨(w, .line l) :: pre, w', line, post, s', fx1 ++ fx, rfl, by rw [hrun, h2]; rfl, h3⟩
          · rintro ⟨pre, w', line, post, s', fx, h1, h2, h3⟩
            cases pre with
            | nil => cases h1; cases h2; rw [hs] at h3; cases h3
            | cons y pre =>
              cases h1
              rw [hrun] at h2
              cases hr : run s1 pre with
              | error e => rw [hr] at h2; cases h2
              | ok y =>
                obtain ⟨b3, s3, fx3⟩ := y
                rw [hr] at h2; cases h2
                exact ⟨pre, w', line, post, _, fx3, rfl, hr, h3⟩

end
end Session
end Pemdas
