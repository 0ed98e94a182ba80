import Verif.Lemmas.Session
/-
Words, paths and lines.
-/
set_option linter.unusedSectionVars false
namespace Pemdas

/-! ### words -/

theorem splitWsGo_spec (t cur : Text) (hcur : ∀ c ∈ cur, isWhitespace c = false) :
    Words (cur ++ t) (splitWsGo t cur) := by
  induction t generalizing cur with
  | nil =>
    unfold splitWsGo
    split
    · rename_i h; subst h; exact .nil (by simp [Blank])
    · rename_i h
      have := Words.cons (a := []) (rest := []) (ws := []) (by simp [Blank]) h hcur (by simp)
        (.nil (by simp [Blank]))
      simpa using this
  | cons c t ih =>
    unfold splitWsGo
    split
    · rename_i hc
      have h0 := ih [] (by simp)
      rw [List.nil_append] at h0
      have h1 : Words (c :: t) (splitWsGo t []) := by
        generalize splitWsGo t [] = ws at h0
        cases h0 with
        | nil h =>
          exact .nil (by
            intro d hd
            rcases List.mem_cons.1 hd with rfl | hd
            · exact hc
            · exact h d hd)
        | @cons a w rest ws ha hw1 hw2 hr hws =>
          have := Words.cons (a := c :: a) (by
            intro d hd
            rcases List.mem_cons.1 hd with rfl | hd
            · exact hc
            · exact ha d hd) hw1 hw2 hr hws
          simpa using this
      split
      · rename_i h; subst h; exact h1
      · rename_i h
        have := Words.cons (a := []) (by simp [Blank]) h hcur
          (by intro d hd; simp only [List.head?_cons, Option.some.injEq] at hd; rw [← hd]; exact hc) h1
        simpa using this
    · rename_i hc
      have hc : isWhitespace c = false := by simpa using hc
      have := ih (cur ++ [c]) (by
        intro d hd
        rcases List.mem_append.1 hd with hd | hd
        · exact hcur d hd
        · simp only [List.mem_singleton] at hd; rw [hd]; exact hc)
      simpa using this

theorem splitWsGo_words {t : Text} {ws : List Text} (h : Words t ws) : splitWhitespace t = ws := by
  have skip : ∀ (a : Text), Blank a → ∀ s, splitWsGo (a ++ s) [] = splitWsGo s [] := by
    intro a
    induction a with
    | nil => intro _ s; rfl
    | cons c a ih =>
      intro h s
      have hc := h c (by simp)
      simp only [List.cons_append, splitWsGo, hc, if_true]
      exact ih (fun d hd => h d (by simp [hd])) s
  have word : ∀ (w : Text), (∀ c ∈ w, isWhitespace c = false) → ∀ s cur,
      splitWsGo (w ++ s) cur = splitWsGo s (cur ++ w) := by
    intro w
    induction w with
    | nil => intro _ s cur; simp
    | cons c w ih =>
      intro h s cur
      have hc := h c (by simp)
      simp only [List.cons_append, splitWsGo, hc, Bool.false_eq_true, if_false]
      rw [ih (fun d hd => h d (by simp [hd]))]
      simp
  induction h with
  | nil h =>
    have := skip _ h []
    simpa [splitWsGo, splitWhitespace] using this
  | @cons a w rest ws ha hw1 hw2 hr hws ih =>
    unfold splitWhitespace at ih ⊢
    rw [List.append_assoc, skip a ha, word w hw2, List.nil_append]
    cases rest with
    | nil => simp only [splitWsGo, hw1, if_false]; rw [← ih]; rfl
    | cons c rest =>
      have hc := hr c rfl
      simp only [splitWsGo, hc, if_true, hw1, if_false] at ih ⊢
      rw [ih]

/-- `split_whitespace` yields the words. -/
theorem splitWhitespace_iff {t : Text} {ws : List Text} : splitWhitespace t = ws ↔ Words t ws := by
  constructor
  · rintro rfl
    exact splitWsGo_spec t [] (by simp)
  · exact splitWsGo_words

theorem Words.trim {t : Text} {ws : List Text} : Words (trim t) ws ↔ Words t ws := by
  by_cases h : Blank t
  · rw [trim_eq_nil.2 h]
    constructor
    · intro h'
      have e := splitWsGo_words h'
      rw [← e]; exact .nil h
    · intro h'
      have e := splitWsGo_words h'
      have e' := splitWsGo_words (Words.nil h)
      rw [← e, e']; exact .nil (by simp [Blank])
  · obtain ⟨a, b, h1, h2, h3, h4, h5⟩ := says_trim h
    have key : ∀ {u : Text} {ws}, Words u ws → ∀ v, Blank v → Words (u ++ v) ws := by
      intro u ws hu
      induction hu with
      | nil hb => intro v hv; exact .nil (by
          intro c hc
          rcases List.mem_append.1 hc with hc | hc
          · exact hb c hc
          · exact hv c hc)
      | @cons a w rest ws ha hw1 hw2 hr hws ih =>
        intro v hv
        rw [List.append_assoc]
        refine .cons ha hw1 hw2 ?_ (ih v hv)
        intro c hc
        cases rest with
        | nil => exact hv c (List.mem_of_mem_head? (by simpa using hc))
        | cons d rest => exact hr c (by simpa using hc)
    have key' : ∀ {u : Text} {ws}, Words u ws → ∀ v, Blank v → Words (v ++ u) ws := by
      intro u ws hu v hv
      cases hu with
      | nil hb => exact .nil (by
          intro c hc
          rcases List.mem_append.1 hc with hc | hc
          · exact hv c hc
          · exact hb c hc)
      | @cons a w rest ws ha hw1 hw2 hr hws =>
        rw [← List.append_assoc, ← List.append_assoc]
        exact .cons (by
          intro c hc
          rcases List.mem_append.1 hc with hc | hc
          · exact hv c hc
          · exact ha c hc) hw1 hw2 hr hws
    have up : ∀ {ws}, Words (Pemdas.trim t) ws → Words t ws := by
      intro ws h
      rw [h1]
      exact key (key' h a h2) b h3
    constructor
    · exact up
    · intro h
      have h' := up (splitWhitespace_iff.1 (rfl : splitWhitespace (Pemdas.trim t) = _))
      have e := splitWsGo_words h
      have e' := splitWsGo_words h'
      rw [← e, e']
      exact splitWhitespace_iff.1 rfl

/-! ### paths -/

theorem splitSlashGo_join (p cur : Text) :
    ∃ c cs, splitSlashGo p cur = c :: cs ∧ cur ++ p = c ++ (cs.map ('/' :: ·)).flatten ∧
      ((∀ x ∈ cur, x ≠ '/') → ∀ d ∈ c :: cs, '/' ∉ d) := by
  induction p generalizing cur with
  | nil =>
    refine ⟨cur, [], rfl, by simp, ?_⟩
    intro h d hd
    simp only [List.mem_singleton] at hd
    subst hd
    intro hm; exact h _ hm rfl
  | cons x p ih =>
    unfold splitSlashGo
    split
    · rename_i hx
      subst hx
      obtain ⟨c, cs, h1, h2, h3⟩ := ih []
      refine ⟨cur, c :: cs, by rw [h1], ?_, ?_⟩
      · simp only [List.nil_append] at h2
        simp only [List.map_cons, List.flatten_cons, List.cons_append, ← h2]
      · intro h d hd
        rcases List.mem_cons.1 hd with rfl | hd
        · intro hm; exact h _ hm rfl
        · exact h3 (by simp) d hd
    · rename_i hx
      obtain ⟨c, cs, h1, h2, h3⟩ := ih (cur ++ [x])
      refine ⟨c, cs, h1, by rw [← h2]; simp, ?_⟩
      intro h
      apply h3
      intro y hy
      rcases List.mem_append.1 hy with hy | hy
      · exact h y hy
      · simp only [List.mem_singleton] at hy; rw [hy]; exact hx

theorem splitSlashGo_of_join (c : Text) (cs : List Text) (cur : Text) (h : ∀ d ∈ c :: cs, '/' ∉ d) :
    splitSlashGo (c ++ (cs.map ('/' :: ·)).flatten) cur = (cur ++ c) :: cs := by
  induction c generalizing cur cs with
  | nil =>
    induction cs generalizing cur with
    | nil => simp [splitSlashGo]
    | cons d cs ih =>
      simp only [List.map_cons, List.flatten_cons, List.nil_append, List.cons_append]
      rw [splitSlashGo, if_pos rfl]
      simp only [List.append_nil, List.cons.injEq, true_and]
      clear ih
      have hd : '/' ∉ d := h d (by simp)
      have hcs : ∀ e ∈ cs, '/' ∉ e := fun e he => h e (by simp [he])
      have gen : ∀ (cs : List Text) (d cur : Text), '/' ∉ d → (∀ e ∈ cs, '/' ∉ e) →
          splitSlashGo (d ++ (cs.map ('/' :: ·)).flatten) cur = (cur ++ d) :: cs := by
        intro cs
        induction cs with
        | nil =>
          intro d
          induction d with
          | nil => intro cur _ _; simp [splitSlashGo]
          | cons x d ihd =>
            intro cur hd hcs
            have hx : x ≠ '/' := fun e => hd (by simp [e])
            simp only [List.cons_append]
            rw [splitSlashGo, if_neg hx, ihd _ (fun hm => hd (by simp [hm])) hcs]
            simp
        | cons e cs ihc =>
          intro d
          induction d with
          | nil =>
            intro cur _ hcs
            simp only [List.map_cons, List.flatten_cons, List.nil_append, List.cons_append]
            rw [splitSlashGo, if_pos rfl, ihc e [] (hcs e (by simp)) (fun e' he => hcs e' (by simp [he]))]
            simp
          | cons x d ihd =>
            intro cur hd hcs
            have hx : x ≠ '/' := fun e => hd (by simp [e])
            simp only [List.cons_append]
            rw [splitSlashGo, if_neg hx, ihd _ (fun hm => hd (by simp [hm])) hcs]
            simp
      have := gen cs d [] hd hcs
      simpa using this
  | cons x c ih =>
    have hx : x ≠ '/' := fun e => h (x :: c) (by simp) (by simp [e])
    simp only [List.cons_append]
    rw [splitSlashGo, if_neg hx, ih]
    · simp
    · intro d hd
      rcases List.mem_cons.1 hd with rfl | hd
      · intro hm; exact h (x :: d) (by simp) (by simp [hm])
      · exact h d (by simp [hd])

theorem filter_getLast? {α : Type} (p : α → Bool) (l : List α) (c : α) :
    (l.filter p).getLast? = some c ↔ ∃ pre post, l = pre ++ c :: post ∧ p c = true ∧
      ∀ d ∈ post, p d = false := by
  induction l with
  | nil => simp
  | cons a l ih =>
    by_cases hn : (l.filter p) = []
    · have hl : ∀ d ∈ l, p d = false := by
        intro d hd
        have := List.filter_eq_nil_iff.1 hn d hd
        simpa using this
      by_cases ha : p a = true
      · rw [List.filter_cons_of_pos ha, hn]
        simp only [List.getLast?_singleton, Option.some.injEq]
        constructor
        · rintro rfl
          exact ⟨[], l, rfl, ha, hl⟩
        · rintro ⟨pre, post, h1, h2, h3⟩
          cases pre with
          | nil => simp only [List.nil_append, List.cons.injEq] at h1; exact h1.1
          | cons b pre =>
            simp only [List.cons_append, List.cons.injEq] at h1
            have := hl c (by rw [h1.2]; simp)
            rw [h2] at this; cases this
      · have ha : p a = false := by simpa using ha
        rw [List.filter_cons_of_neg (by simp [ha]), hn]
        simp only [List.getLast?_nil, reduceCtorEq, false_iff]
        rintro ⟨pre, post, h1, h2, h3⟩
        cases pre with
        | nil =>
          simp only [List.nil_append, List.cons.injEq] at h1
          rw [← h1.1, ha] at h2; cases h2
        | cons b pre =>
          simp only [List.cons_append, List.cons.injEq] at h1
          have := hl c (by rw [h1.2]; simp)
          rw [h2] at this; cases this
    · have e : ((a :: l).filter p).getLast? = (l.filter p).getLast? := by
        by_cases ha : p a = true
        · rw [List.filter_cons_of_pos ha]
          cases hl : l.filter p with
          | nil => exact absurd hl hn
          | cons b bs => rw [List.getLast?_cons_cons]
        · rw [List.filter_cons_of_neg ha]
      rw [e, ih]
      constructor
      · rintro ⟨pre, post, rfl, h⟩
        exact ⟨a :: pre, post, rfl, h⟩
      · rintro ⟨pre, post, h1, h2, h3⟩
        cases pre with
        | nil =>
          simp only [List.nil_append, List.cons.injEq] at h1
          refine absurd (List.filter_eq_nil_iff.2 ?_) hn
          intro d hd
          have := h3 d (by rw [← h1.2]; exact hd)
          simp [this]
        | cons b pre =>
          simp only [List.cons_append, List.cons.injEq] at h1
          exact ⟨pre, post, h1.2, h2, h3⟩

theorem afterLastDot_iff {f e : Text} :
    afterLastDot f = some (true, e) ↔ ∃ n, n ≠ [] ∧ f = n ++ '.' :: e ∧ '.' ∉ e := by
  have tw : ∀ (r : Text), '.' ∈ r → ∃ x y, r = x ++ '.' :: y ∧ '.' ∉ x ∧
      r.takeWhile (· ≠ '.') = x ∧ (r.dropWhile (· ≠ '.')).drop 1 = y := by
    intro r
    induction r with
    | nil => intro h; cases h
    | cons c r ih =>
      intro h
      by_cases hc : c = '.'
      · subst hc
        exact ⟨[], r, rfl, by simp, by simp, by simp⟩
      · have hm : '.' ∈ r := by
          rcases List.mem_cons.1 h with h | h
          · exact absurd h.symm hc
          · exact h
        obtain ⟨x, y, h1, h2, h3, h4⟩ := ih hm
        refine ⟨c :: x, y, by rw [h1]; rfl, ?_, ?_, ?_⟩
        · intro hm
          rcases List.mem_cons.1 hm with h | h
          · exact hc h.symm
          · exact h2 h
        · simpa [hc] using h3
        · simpa [hc] using h4
  unfold afterLastDot
  split
  · rename_i hm
    obtain ⟨x, y, h1, h2, h3, h4⟩ := tw f.reverse (by simpa using hm)
    rw [h3, h4]
    have hf : f = y.reverse ++ '.' :: x.reverse := by
      have := congrArg List.reverse h1
      simpa using this
    simp only [Option.some.injEq, Prod.mk.injEq]
    constructor
    · rintro ⟨hy, rfl⟩
      exact ⟨y.reverse, by cases y <;> simp_all, hf, by simpa using h2⟩
    · rintro ⟨n, hn, h5, h6⟩
      rw [hf] at h5
      have : ∀ (a b c d : Text), '.' ∉ b → '.' ∉ d → a ++ '.' :: b = c ++ '.' :: d → a = c ∧ b = d := by
        intro a b c d hb hd h
        induction a generalizing c with
        | nil =>
          cases c with
          | nil => simp only [List.nil_append, List.cons.injEq, true_and] at h; exact ⟨rfl, h⟩
          | cons z c =>
            simp only [List.nil_append, List.cons_append, List.cons.injEq] at h
            exact absurd (by rw [h.2]; simp) hb
        | cons z a ih =>
          cases c with
          | nil =>
            simp only [List.nil_append, List.cons_append, List.cons.injEq] at h
            exact absurd (by rw [← h.2]; simp) hd
          | cons z' c =>
            simp only [List.cons_append, List.cons.injEq] at h
            obtain ⟨h1, h2⟩ := ih c h.2
            exact ⟨by rw [h.1, h1], h2⟩
      obtain ⟨e1, e2⟩ := this _ _ _ _ (by simpa using h2) h6 h5
      refine ⟨?_, e2⟩
      rw [← e1] at hn
      cases y with
      | nil => simp at hn
      | cons _ _ => rfl
  · rename_i hm
    simp only [reduceCtorEq, false_iff]
    rintro ⟨n, _, rfl, _⟩
    exact hm (by simp)

theorem join_slash_append (pre : List Text) (c : Text) (post : List Text) :
    ∃ dir : Text, (dir = [] ∨ ∃ d, dir = d ++ t!"/") ∧
      ∀ h cs, pre ++ c :: post = h :: cs →
        h ++ (cs.map ('/' :: ·)).flatten = dir ++ c ++ (post.map ('/' :: ·)).flatten := by
  cases pre with
  | nil =>
    refine ⟨[], .inl rfl, ?_⟩
    intro h cs e
    simp only [List.nil_append, List.cons.injEq] at e
    rw [e.1, e.2]; rfl
  | cons p pre =>
    refine ⟨p ++ (pre.map ('/' :: ·)).flatten ++ t!"/", .inr ⟨_, rfl⟩, ?_⟩
    intro h cs e
    simp only [List.cons_append, List.cons.injEq] at e
    rw [← e.1, ← e.2]
    simp

theorem dir_split {dir : Text} (h : dir = [] ∨ ∃ d, dir = d ++ t!"/") :
    ∃ pre : List Text, (∀ d ∈ pre, '/' ∉ d) ∧ ∀ c : Text, ∀ post : List Text,
      ∃ h cs, pre ++ c :: post = h :: cs ∧
        dir ++ c ++ (post.map ('/' :: ·)).flatten = h ++ (cs.map ('/' :: ·)).flatten := by
  rcases h with rfl | ⟨d, rfl⟩
  · exact ⟨[], by simp, fun c post => ⟨c, post, rfl, by simp⟩⟩
  · obtain ⟨x, xs, h1, h2, h3⟩ := splitSlashGo_join d []
    refine ⟨x :: xs, h3 (by simp), fun c post => ⟨x, xs ++ c :: post, rfl, ?_⟩⟩
    rw [List.nil_append] at h2
    rw [h2]
    simp

/-- `extension` is `hs` for the Haskell paths. -/
theorem pathExtension_hs (p : Text) : pathExtension p = some t!"hs" ↔ HsPath p := by
  have ext : pathExtension p = some t!"hs" ↔
      ∃ f, pathFileName p = some f ∧ afterLastDot f = some (true, t!"hs") := by
    unfold pathExtension
    cases pathFileName p with
    | none => simp
    | some f =>
      simp only [Option.some.injEq, exists_eq_left']
      rcases h : afterLastDot f with _ | ⟨_ | _, e⟩ <;> simp
  have fname : ∀ f, f ≠ t!".." → (pathFileName p = some f ↔
      ∃ pre post, splitSlashGo p [] = pre ++ f :: post ∧ (f ≠ [] ∧ f ≠ t!".") ∧
        ∀ d ∈ post, d = [] ∨ d = t!".") := by
    intro f hf
    have := filter_getLast? (fun c : Text => decide (c ≠ [] ∧ c ≠ t!".")) (splitSlashGo p []) f
    have e : pathFileName p = some f ↔
        ((splitSlashGo p []).filter fun c => c ≠ [] ∧ c ≠ t!".").getLast? = some f := by
      unfold pathFileName
      cases ((splitSlashGo p []).filter fun c => c ≠ [] ∧ c ≠ t!".").getLast? with
      | none => simp
      | some c =>
        simp only [Option.some.injEq]
        by_cases hc : c = t!".."
        · rw [if_pos hc]; subst hc
          constructor
          · intro h; cases h
          · intro h; exact absurd h.symm hf
        · rw [if_neg hc]; simp
    rw [e, this]
    constructor
    · rintro ⟨pre, post, h1, h2, h3⟩
      refine ⟨pre, post, h1, by simpa using h2, ?_⟩
      intro d hd
      have := h3 d hd
      simp only [decide_eq_false_iff_not, Decidable.not_and_iff_not_or_not, Decidable.not_not] at this
      exact this
    · rintro ⟨pre, post, h1, h2, h3⟩
      refine ⟨pre, post, h1, by simpa using h2, ?_⟩
      intro d hd
      have := h3 d hd
      simp only [decide_eq_false_iff_not, Decidable.not_and_iff_not_or_not, Decidable.not_not]
      exact this
  rw [ext]
  obtain ⟨h, cs, s1, s2, s3⟩ := splitSlashGo_join p []
  have s3 := s3 (by simp)
  rw [List.nil_append] at s2
  constructor
  · rintro ⟨f, h1, h2⟩
    obtain ⟨n, hn, rfl, -⟩ := afterLastDot_iff.1 h2
    have hf : n ++ '.' :: t!"hs" ≠ t!".." := by
      intro e
      have := congrArg List.getLast? e
      simp at this
    obtain ⟨pre, post, e1, e2, e3⟩ := (fname _ hf).1 h1
    rw [s1] at e1
    obtain ⟨dir, hd, hj⟩ := join_slash_append pre (n ++ '.' :: t!"hs") post
    refine ⟨dir, n, post, ?_, hn, ?_, hd, e3⟩
    · rw [s2, hj h cs e1.symm]; simp
    · intro hm
      exact s3 (n ++ '.' :: t!"hs") (by rw [e1]; simp) (by simp [hm])
  · rintro ⟨dir, n, post, rfl, hn, hs, hd, hp⟩
    refine ⟨n ++ t!".hs", ?_, afterLastDot_iff.2 ⟨n, hn, rfl, by decide⟩⟩
    have hf : n ++ t!".hs" ≠ t!".." := by
      intro e
      have := congrArg List.getLast? e
      simp at this
    refine (fname _ hf).2 ?_
    obtain ⟨pre, hpre, hj⟩ := dir_split hd
    obtain ⟨h', cs', e1, e2⟩ := hj (n ++ t!".hs") post
    refine ⟨pre, post, ?_, ⟨by simp, ?_⟩, hp⟩
    · rw [List.append_assoc dir, e2, splitSlashGo_of_join h' cs' [], e1]
      · rfl
      · rw [← e1]
        intro d hd
        rcases List.mem_append.1 hd with hd | hd
        · exact hpre d hd
        · rcases List.mem_cons.1 hd with rfl | hd
          · simp [hs]
          · rcases hp d hd with rfl | rfl <;> decide
    · intro e
      have := congrArg List.length e
      simp at this

/-! ### lines -/

theorem intercalate_cons (sep l : Text) (ls : List Text) :
    sep.intercalate (l :: ls) = if ls = [] then l else l ++ sep ++ sep.intercalate ls := by
  cases ls with
  | nil => simp [List.intercalate]
  | cons a ls => simp [List.intercalate]

/-- Every text has lines. -/
theorem linesOf_exists (t : Text) : ∃ ls, ls ≠ [] ∧ LinesOf ls t := by
  induction t with
  | nil => exact ⟨[[]], by simp, by simp, rfl⟩
  | cons c t ih =>
    obtain ⟨ls, hn, h1, h2⟩ := ih
    by_cases hc : c = '\n'
    · subst hc
      refine ⟨[] :: ls, by simp, ?_, ?_⟩
      · intro l hl
        rcases List.mem_cons.1 hl with rfl | hl
        · simp
        · exact h1 l hl
      · rw [intercalate_cons, if_neg hn, ← h2]; rfl
    · cases ls with
      | nil => exact absurd rfl hn
      | cons l ls =>
        refine ⟨(c :: l) :: ls, by simp, ?_, ?_⟩
        · intro d hd
          rcases List.mem_cons.1 hd with rfl | hd
          · intro hm
            rcases List.mem_cons.1 hm with h | h
            · exact hc h.symm
            · exact h1 l (by simp) h
          · exact h1 d (by simp [hd])
        · rw [h2, intercalate_cons, intercalate_cons]
          split <;> rfl

theorem trim_cr (l : Text) : trim (if l.getLast? = some '\r' then l.dropLast else l) = trim l := by
  split
  · rename_i h
    obtain ⟨r, rfl⟩ : ∃ r, l = r ++ t!"\r" := by
      cases hl : l.reverse with
      | nil =>
        rw [List.reverse_eq_nil_iff] at hl
        subst hl; cases h
      | cons c cs =>
        have : l = cs.reverse ++ [c] := by
          have := congrArg List.reverse hl
          simpa using this
        rw [this] at h
        rw [List.getLast?_append] at h
        simp at h
        exact ⟨cs.reverse, by rw [this, h]⟩
    rw [List.dropLast_concat]
    by_cases hb : Blank r
    · rw [trim_eq_nil.2 hb]
      refine (trim_eq_nil.2 ?_).symm
      intro c hc
      rcases List.mem_append.1 hc with hc | hc
      · exact hb c hc
      · simp only [List.mem_singleton] at hc; subst hc; decide
    · obtain ⟨a, b, h1, h2, h3, h4, h5⟩ := says_trim hb
      refine (Says.trim ⟨a, b ++ t!"\r", (congrArg (· ++ t!"\r") h1).trans (by simp), h2, ?_, h4, h5⟩).symm
      intro c hc
      rcases List.mem_append.1 hc with hc | hc
      · exact h3 c hc
      · simp only [List.mem_singleton] at hc; subst hc; decide
  · rfl

/-- The trimmed lines that `lines` yields, up to a blank last one. -/
theorem strLines_trim {ls : List Text} {t : Text} (h : LinesOf ls t) :
    ∃ k ≤ 1, (strLines t).map trim ++ List.replicate k [] = ls.map trim := by
  obtain ⟨h1, rfl⟩ := h
  have pass : ∀ (l : Text), '\n' ∉ l → ∀ s cur, strLinesGo (l ++ s) cur = strLinesGo s (cur ++ l) := by
    intro l
    induction l with
    | nil => intro _ s cur; simp
    | cons c l ih =>
      intro h s cur
      have hc : c ≠ '\n' := fun e => h (by simp [e])
      simp only [List.cons_append]
      rw [strLinesGo, if_neg hc, ih (fun hm => h (by simp [hm]))]
      simp
  induction ls with
  | nil => exact ⟨0, by simp, by rfl⟩
  | cons l ls ih =>
    have hl := h1 l (by simp)
    rw [intercalate_cons]
    by_cases hls : ls = []
    · subst hls
      rw [if_pos rfl]
      have := pass l hl [] []
      rw [List.append_nil, List.nil_append] at this
      rw [strLines, this, strLinesGo]
      by_cases hl0 : l = []
      · subst hl0; exact ⟨1, by simp, by simp [trim, trimStart, trimEnd]⟩
      · rw [if_neg hl0]; exact ⟨0, by simp, by simp⟩
    · rw [if_neg hls, strLines, List.append_assoc, pass l hl, List.nil_append]
      simp only [List.cons_append, List.nil_append]
      rw [strLinesGo, if_pos rfl]
      obtain ⟨k, hk, h2⟩ := ih fun d hd => h1 d (by simp [hd])
      exact ⟨k, hk, by rw [List.map_cons, List.map_cons, trim_cr, List.cons_append, ← h2]; rfl⟩

/-- What is processed for a file. -/
theorem fileInput_hs {p content : Text} {ls : List Text} (hp : HsPath p) (h : LinesOf ls content) :
    Session.fileInput p content =
      ((ls.map trim).filter fun l => decide (t!"infix" <+: l)).flatten := by
  unfold Session.fileInput
  rw [if_pos ((pathExtension_hs p).2 hp)]
  obtain ⟨k, -, h2⟩ := strLines_trim h
  rw [← h2, List.filter_append, List.flatten_append]
  have : ((List.replicate k ([] : Text)).filter fun l => decide (t!"infix" <+: l)) = [] := by
    rw [List.filter_eq_nil_iff]
    intro l hl
    rw [(List.mem_replicate.1 hl).2]
    decide
  rw [this, List.flatten_nil, List.append_nil]
  congr 1
  induction strLines content with
  | nil => rfl
  | cons l ls ih =>
    simp only [List.filterMap_cons, List.map_cons, List.filter_cons]
    by_cases hl : startsWith (trim l) t!"infix" = true
    · rw [if_pos hl, if_pos (by simpa using startsWith_iff.1 hl)]
      simp only [ih]
    · rw [if_neg hl, if_neg (by simpa [startsWith_iff] using hl)]
      simp only [ih]

theorem fileInput_plain {p content : Text} (hp : ¬ HsPath p) : Session.fileInput p content = content := by
  unfold Session.fileInput
  rw [if_neg fun h => hp ((pathExtension_hs p).1 h)]

theorem fileText_iff {p content t : Text} :
    FileText p content t ↔ t = Session.fileInput p content := by
  constructor
  · intro h
    cases h with
    | plain h => exact (fileInput_plain h).symm
    | haskell h1 h2 => exact (fileInput_hs h1 h2).symm
  · rintro rfl
    by_cases hp : pathExtension p = some t!"hs"
    · obtain ⟨ls, -, h⟩ := linesOf_exists content
      rw [fileInput_hs ((pathExtension_hs p).1 hp) h]
      exact .haskell ((pathExtension_hs p).1 hp) h
    · have hp : ¬ HsPath p := fun h => hp ((pathExtension_hs p).2 h)
      rw [fileInput_plain hp]
      exact .plain hp

theorem unquote_opens {word path : Text} : Session.unquote word = .ok path ↔ Opens word path := by
  unfold Session.unquote Opens
  by_cases h : t!"\"" <+: word ∧ t!"\"" <:+ word
  · rw [if_pos h, if_pos ⟨startsWith_iff.2 h.1, endsWith_iff.2 h.2⟩]
    obtain ⟨r, rfl⟩ := h.1
    rw [byteSlice!_drop]
    simp only [orStop, Except.ok.injEq, List.cons_append, List.nil_append, List.cons.injEq, true_and]
  · rw [if_neg h, if_neg (by rw [startsWith_iff, endsWith_iff]; exact h)]
    simp only [Except.ok.injEq, eq_comm]

end Pemdas
