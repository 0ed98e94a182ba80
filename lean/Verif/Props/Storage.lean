import Verif.Lemmas.Lexicon
/-
C169: what the interner keeps.
-/
namespace Pemdas
open Lexicon

/-- The different texts of a history, in the order in which they first occur. -/
def distinctTexts : List Text → List Text
  | [] => []
  | s :: hist => s :: (distinctTexts hist).filter (fun t => t != s)

/-- Everything that is in the buffers of an interner, the oldest first. -/
def Lexicon.stored (l : Lexicon) : Text := (l.all ++ [l.buf]).flatMap (·.text)

/-- The memory that its buffers occupy. -/
def Lexicon.footprint (l : Lexicon) : Nat := ((l.all ++ [l.buf]).map (·.cap)).sum

private theorem addTexts_new (hist ts : List Text) :
    addTexts ts hist = ts ++ (distinctTexts hist).filter (fun t => !ts.contains t) := by
  induction hist generalizing ts with
  | nil => simp [addTexts, distinctTexts]
  | cons s hist ih =>
    show addTexts (addText ts s) hist = _
    rw [ih, distinctTexts, addText]
    by_cases hs : s ∈ ts
    · rw [if_pos hs, List.filter_cons_of_neg (by simpa using hs), List.filter_filter]
      congr 1
      apply List.filter_congr
      intro t _
      by_cases ht : t ∈ ts
      · simp [ht]
      · have : t ≠ s := fun e => ht (e ▸ hs)
        simp [ht, this]
    · rw [if_neg hs, List.filter_cons_of_pos (by simpa using hs), List.filter_filter, List.append_assoc]
      congr 1
      show s :: _ = s :: _
      congr 1
      apply List.filter_congr
      intro t _
      by_cases ht : t ∈ ts <;> by_cases he : t = s <;> simp [ht, he]

private theorem addTexts_distinct (hist : List Text) : addTexts [] hist = distinctTexts hist := by
  rw [addTexts_new]
  simp

private theorem stored_alloc (sl : Slack) (l : Lexicon) (s : Text) :
    (alloc sl l s).2.stored = l.stored ++ s := by
  rw [alloc_eq]
  have hc := swap_fits sl l s
  have hs : (swap sl l s).stored = l.stored := by
    unfold swap
    split <;> simp [stored]
  rw [← hs]
  generalize swap sl l s = m at hc
  simp only [pushStr, if_pos hc, stored, List.flatMap_append, List.flatMap_cons, List.flatMap_nil,
    List.append_nil, List.append_assoc]

private theorem stored_intern {sl : Slack} {l : Lexicon} {ts : List Text} (h : Holds l ts)
    (hs : l.stored = ts.flatten) (s : Text) : (intern sl l s).2.stored = (addText ts s).flatten := by
  have hf := find_holds h s
  unfold intern addText
  by_cases hm : s ∈ ts
  · rw [if_pos hm] at hf
    simp only [hf, if_pos hm, hs]
  · rw [if_neg hm] at hf
    simp only [hf, if_neg hm]
    show (alloc sl l s).2.stored = _
    rw [stored_alloc, hs, List.flatten_append]
    simp

private theorem stored_all {sl : Slack} (hist : List Text) {l : Lexicon} {ts : List Text} (h : Holds l ts)
    (hs : l.stored = ts.flatten) :
    (internAll sl hist l).2.stored = (addTexts ts hist).flatten := by
  induction hist generalizing l ts with
  | nil => exact hs
  | cons s hist ih => exact ih (intern_holds (sl := sl) h s).2 (stored_intern h hs s)

/-- **C169** Interning keeps each text once: after any history the buffers contain the different texts
that were interned, one after the other, and nothing else. -/
theorem C169_stored (sl : Slack) (cap : Nat) (hist : List Text) :
    (internAll sl hist (withCapacity sl cap)).2.stored = (distinctTexts hist).flatten := by
  rw [stored_all hist (holds_withCapacity sl cap) (by simp [withCapacity, stored]), addTexts_distinct]

private theorem nextPow2_le {m : Nat} (h : 1 ≤ m) : nextPow2 (m + 1) ≤ 2 * m := by
  unfold nextPow2
  rw [if_neg (by omega), Nat.add_sub_cancel, Nat.pow_succ]
  have := Nat.log2_self_le (n := m) (by omega)
  omega

private theorem nextPow2_double {m k : Nat} (h : 2 ^ k ≤ m) : 2 ^ (k + 1) ≤ nextPow2 (m + 1) := by
  have := Nat.one_le_two_pow (n := k)
  unfold nextPow2
  rw [if_neg (by omega), Nat.add_sub_cancel]
  exact Nat.pow_le_pow_right (by decide) (Nat.succ_le_succ ((Nat.le_log2 (by omega)).2 h))

private theorem nextPow2_pow {m : Nat} : ∃ k, nextPow2 m = 2 ^ k := by
  unfold nextPow2
  split
  · exact ⟨0, rfl⟩
  · exact ⟨_, rfl⟩

/-- What is known about the sizes of buffers. -/
private structure Sizes (cap : Nat) (l : Lexicon) : Prop where
  fits : utf8Len l.buf.text ≤ l.buf.cap
  first : l.all = [] → l.buf.cap = cap
  large : l.all ≠ [] → l.buf.cap ≤ 2 * utf8Len l.stored ∧ (∃ k, l.buf.cap = 2 ^ k) ∧
    (l.all.map (·.cap)).sum ≤ l.buf.cap

/-- The same about the number of buffers. -/
private structure Counts (l : Lexicon) : Prop where
  fits : utf8Len l.buf.text ≤ l.buf.cap
  large : l.all ≠ [] → 2 ^ l.all.length ≤ l.buf.cap ∧ 2 ^ l.all.length ≤ 2 * utf8Len l.stored

private theorem utf8Len_stored (l : Lexicon) : utf8Len l.buf.text ≤ utf8Len l.stored := by
  simp [stored, utf8Len_append]

private theorem push_eq {sl : Slack} {l : Lexicon} {s : Text}
    (hc : utf8Len l.buf.text + utf8Len s ≤ l.buf.cap) :
    pushStr sl l s = { l with buf := { l.buf with text := l.buf.text ++ s } } := by
  simp only [pushStr, if_pos hc]

private theorem sizes_alloc {cap : Nat} {l : Lexicon} (h : Sizes cap l) (s : Text) :
    Sizes cap (alloc (fun _ _ => 0) l s).2 := by
  have hst := stored_alloc (fun _ _ => 0) l s
  rw [alloc_eq] at hst ⊢
  have hc := swap_fits (fun _ _ => 0) l s
  simp only [push_eq hc] at hst ⊢
  have hu : utf8Len ({ swap (fun _ _ => 0) l s with
      buf := { (swap (fun _ _ => 0) l s).buf with text := (swap (fun _ _ => 0) l s).buf.text ++ s } } :
        Lexicon).stored = utf8Len l.stored + utf8Len s := by rw [hst, utf8Len_append]
  have hl := utf8Len_stored l
  refine ⟨by simpa [utf8Len_append] using hc, ?_, ?_⟩
  · unfold swap
    split
    · intro hn; simp at hn
    · exact h.first
  · intro hn
    rw [hu]
    revert hn
    unfold swap
    split
    · rename_i hlt
      intro _
      have hf := h.fits
      have h1 := nextPow2_le (m := max l.buf.cap (utf8Len s)) (by omega)
      refine ⟨by simp only; omega, by simpa using nextPow2_pow, ?_⟩
      simp only [List.map_append, List.map_cons, List.map_nil, List.sum_append, List.sum_cons, List.sum_nil]
      have h2 := le_nextPow2 (max l.buf.cap (utf8Len s) + 1)
      by_cases ha : l.all = []
      · simp only [ha, List.map_nil, List.sum_nil]; omega
      · obtain ⟨_, ⟨k, hk⟩, h5⟩ := h.large ha
        have h6 := nextPow2_double (m := max l.buf.cap (utf8Len s)) (k := k) (by omega)
        rw [Nat.pow_succ] at h6
        omega
    · intro hn
      obtain ⟨h3, h4, h5⟩ := h.large hn
      exact ⟨by simp only; omega, h4, h5⟩

private theorem counts_alloc {sl : Slack} {l : Lexicon} (h : Counts l) (s : Text) :
    Counts (alloc sl l s).2 := by
  have hst := stored_alloc sl l s
  rw [alloc_eq] at hst ⊢
  have hc := swap_fits sl l s
  simp only [push_eq hc] at hst ⊢
  have hu : utf8Len ({ swap sl l s with
      buf := { (swap sl l s).buf with text := (swap sl l s).buf.text ++ s } } :
        Lexicon).stored = utf8Len l.stored + utf8Len s := by rw [hst, utf8Len_append]
  have hl := utf8Len_stored l
  refine ⟨by simpa [utf8Len_append] using hc, ?_⟩
  intro hn
  rw [hu]
  revert hn
  unfold swap
  split
  · rename_i hlt
    intro _
    have hf := h.fits
    simp only [List.length_append, List.length_cons, List.length_nil, Nat.zero_add]
    by_cases ha : l.all = []
    · have := nextPow2_double (m := max l.buf.cap (utf8Len s)) (k := 0) (by omega)
      simp only [ha, List.length_nil, Nat.zero_add, Nat.pow_one] at this ⊢
      omega
    · obtain ⟨h3, h4⟩ := h.large ha
      have := nextPow2_double (m := max l.buf.cap (utf8Len s)) (k := l.all.length) (by omega)
      rw [Nat.pow_succ] at this ⊢
      omega
  · intro hn
    obtain ⟨h3, h4⟩ := h.large hn
    exact ⟨h3, by show 2 ^ l.all.length ≤ _; omega⟩

private theorem kept_intern {P : Lexicon → Prop} {sl : Slack} (ha : ∀ l s, P l → P (alloc sl l s).2)
    (hm : ∀ (l : Lexicon) m v, P l → P { l with map := m, vec := v }) (hist : List Text) {l : Lexicon}
    (h : P l) : P (internAll sl hist l).2 := by
  induction hist generalizing l with
  | nil => exact h
  | cons s hist ih =>
    refine ih (l := (intern sl l s).2) ?_
    cases hf : l.find s with
    | some id => simp only [intern, hf]; exact h
    | none => simp only [intern, hf]; exact hm _ _ _ (ha l s h)

/-- **C169** The interner needs memory in proportion to the texts it keeps: where buffers are as large
as is asked for, they occupy at most four times as much as the different texts that were interned,
unless these fit in the first buffer. -/
theorem C169_memory (cap : Nat) (hist : List Text) :
    (internAll (fun _ _ => 0) hist (withCapacity (fun _ _ => 0) cap)).2.footprint ≤
      max cap (4 * utf8Len (distinctTexts hist).flatten) := by
  have hs := C169_stored (fun _ _ => 0) cap hist
  have h := kept_intern (P := Sizes cap) (sl := fun _ _ => 0) (fun _ s h => sizes_alloc h s)
    (fun _ _ _ h => ⟨h.fits, h.first, h.large⟩) hist (l := withCapacity (fun _ _ => 0) cap)
    ⟨by simp [withCapacity], fun _ => rfl, fun h => absurd rfl h⟩
  rw [← hs]
  generalize (internAll _ hist _).2 = l at h
  unfold footprint
  simp only [List.map_append, List.map_cons, List.map_nil, List.sum_append, List.sum_cons, List.sum_nil]
  by_cases ha : l.all = []
  · have := h.first ha
    simp only [ha, List.map_nil, List.sum_nil]
    omega
  · have := h.large ha
    omega

/-- **C169** The number of buffers grows with the logarithm of the length of the texts, whatever the
sizes of the buffers really are. -/
theorem C169_buffers (sl : Slack) (cap : Nat) (hist : List Text) :
    let n := (internAll sl hist (withCapacity sl cap)).2.all.length
    n = 0 ∨ 2 ^ n ≤ 2 * utf8Len (distinctTexts hist).flatten := by
  have hs := C169_stored sl cap hist
  have h := kept_intern (P := Counts) (sl := sl) (fun _ s h => counts_alloc h s)
    (fun _ _ _ h => ⟨h.fits, h.large⟩) hist (l := withCapacity sl cap)
    ⟨by simp [withCapacity], fun h => absurd rfl h⟩
  rw [← hs]
  generalize (internAll _ hist _).2 = l at h
  by_cases ha : l.all = []
  · exact .inl (by simp [ha])
  · exact .inr (h.large ha).2

/-- **C169** The interner that the program uses begins with the predefined texts, so that it never has
more than four times the memory that its texts need. -/
theorem C169_interner (hist : List Text) :
    (internAll (fun _ _ => 0) hist (Lexicon.default (fun _ _ => 0))).2.stored =
      (distinctTexts (predefined ++ hist)).flatten ∧
    (internAll (fun _ _ => 0) hist (Lexicon.default (fun _ _ => 0))).2.footprint ≤
      4 * utf8Len (distinctTexts (predefined ++ hist)).flatten := by
  have he : (internAll (fun _ _ => 0) hist (Lexicon.default (fun _ _ => 0))).2 =
      (internAll (fun _ _ => 0) (predefined ++ hist)
        (withCapacity (fun _ _ => 0) predefined.length)).2 := by
    rw [internAll_append]; rfl
  rw [he]
  refine ⟨C169_stored _ _ _, ?_⟩
  have h := C169_memory predefined.length (predefined ++ hist)
  have hp : addTexts [] predefined <+: addTexts [] (predefined ++ hist) := by
    unfold addTexts
    rw [List.foldl_append]
    exact addTexts_prefix hist _
  rw [addTexts_distinct, addTexts_distinct] at hp
  obtain ⟨rest, hr⟩ := hp
  have : utf8Len (distinctTexts (predefined ++ hist)).flatten =
      utf8Len (distinctTexts predefined).flatten + utf8Len rest.flatten := by
    rw [← hr, List.flatten_append, utf8Len_append]
  have h1 : predefined.length ≤ utf8Len (distinctTexts predefined).flatten := by decide +kernel
  omega

/-- C169: a history in which buffers are replaced twice; and what the interner starts with. -/
example : (internAll (fun _ _ => 0) [t!"abc", t!"de", t!"abc", t!"fghij", t!"de"]
      (withCapacity (fun _ _ => 0) 2)).2.stored = t!"abcdefghij" ∧
    (internAll (fun _ _ => 0) [t!"abc", t!"de", t!"abc", t!"fghij", t!"de"]
      (withCapacity (fun _ _ => 0) 2)).2.footprint = 14 ∧
    distinctTexts [t!"abc", t!"de", t!"abc", t!"fghij", t!"de"] = [t!"abc", t!"de", t!"fghij"] ∧
    (Lexicon.default (fun _ _ => 0)).footprint = 60 ∧
    (Lexicon.default (fun _ _ => 0)).all.length = 1 := by decide +kernel

end Pemdas
