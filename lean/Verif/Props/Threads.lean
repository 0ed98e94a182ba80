import Verif.Props.Interner
/-
C151: symbols are numbers that can be sent to another thread, but every thread has its own interner
(lexicon.rs:142-148).
-/
namespace Pemdas
open Lexicon

/-- The interner of a thread (lexicon.rs:142-148) in which the texts `hist` were interned, in this order.
Every thread starts with the default one. -/
def thread (sl : Slack) (hist : List Text) : Lexicon := (internAll sl hist (Lexicon.default sl)).2

/-- The symbols that the thread got for them. -/
def threadSymbols (sl : Slack) (hist : List Text) : List Nat :=
  (internAll sl hist (Lexicon.default sl)).1

theorem addTexts_eraseDups (hist : List Text) : addTexts [] hist = hist.eraseDups := by
  have key : ∀ r : List Text, addTexts [] r.reverse = r.reverse.eraseDups := by
    intro r
    induction r with
    | nil => rfl
    | cons s r ih =>
      have h1 : addTexts [] (s :: r).reverse = addText (addTexts [] r.reverse) s := by
        simp [addTexts]
      rw [h1, List.reverse_cons, List.eraseDups_append, ← ih, addText]
      have h2 : s ∈ addTexts [] r.reverse ↔ s ∈ r.reverse := by
        rw [mem_addTexts]; simp
      by_cases h : s ∈ r.reverse
      · rw [if_pos (h2.2 h)]
        have : List.removeAll [s] r.reverse = [] := by simpa [List.removeAll] using h
        simp [this]
      · rw [if_neg (fun x => h (h2.1 x))]
        have : List.removeAll [s] r.reverse = [s] := by simpa [List.removeAll] using h
        rw [this]; rfl
  simpa using key hist.reverse

theorem thread_holds (sl : Slack) (hist : List Text) :
    Holds (thread sl hist) (predefined ++ hist).eraseDups ∧
    threadSymbols sl hist = hist.map fun s => (predefined ++ hist).eraseDups.idxOf s % 2 ^ 32 := by
  have h0 : Holds (Lexicon.default sl) predefined := by
    have := (internAll_holds (sl := sl) predefined (holds_withCapacity sl predefined.length)).2
    rw [show addTexts [] predefined = predefined by decide] at this
    exact this
  have he : addTexts predefined hist = (predefined ++ hist).eraseDups := by
    rw [← addTexts_eraseDups, addTexts, addTexts, List.foldl_append]
    rw [show predefined.foldl addText [] = predefined from (by decide : addTexts [] predefined = _)]
  have := internAll_holds (sl := sl) hist h0
  rw [he] at this
  exact ⟨this.2, this.1⟩

/-- **C151** A symbol means in a thread the text that was the symbol's number-th different one there,
the predefined texts coming first; looking it up panics if there were not so many. -/
theorem C151_means (sl : Slack) (hist : List Text) (id : Nat) :
    (thread sl hist).lookup id = match (predefined ++ hist).eraseDups[id]? with
      | some t => .ok t
      | none => .error .indexOutOfBounds :=
  lookup_holds (thread_holds sl hist).1 id

/-- **C151** A symbol for a text means this text in another thread exactly if both threads have met
the text after equally many different ones. -/
theorem C151_across (sl sl' : Slack) (hist hist' : List Text)
    (hd : AtMostDistinct (2 ^ 32) (predefined ++ hist)) (i : Nat) (s : Text)
    (hi : hist[i]? = some s) :
    ∃ id, (threadSymbols sl hist)[i]? = some id ∧
      ((thread sl' hist').lookup id = .ok s ↔ s ∈ predefined ++ hist' ∧
        (predefined ++ hist').eraseDups.idxOf s = (predefined ++ hist).eraseDups.idxOf s) := by
  obtain ⟨h1, h2⟩ := thread_holds sl hist
  have hs : s ∈ (predefined ++ hist).eraseDups := by
    rw [List.mem_eraseDups]; exact List.mem_append_right _ (List.mem_of_getElem? hi)
  have hlt : (predefined ++ hist).eraseDups.idxOf s < 2 ^ 32 :=
    Nat.lt_of_lt_of_le (List.idxOf_lt_length_of_mem hs)
      (hd _ h1.nodup fun t ht => (List.mem_eraseDups.1 ht))
  refine ⟨(predefined ++ hist).eraseDups.idxOf s, ?_, ?_⟩
  · rw [h2, List.getElem?_map, hi]
    simp only [Option.map_some, Nat.mod_eq_of_lt hlt]
  · have hn := (thread_holds sl' hist').1.nodup
    rw [C151_means, ← List.mem_eraseDups (l := predefined ++ hist')]
    generalize (predefined ++ hist').eraseDups = ts at *
    generalize (predefined ++ hist).eraseDups.idxOf s = k at *
    constructor
    · intro h
      cases ht : ts[k]? with
      | none => rw [ht] at h; cases h
      | some u =>
        rw [ht] at h
        cases h
        obtain ⟨hk, rfl⟩ := List.getElem?_eq_some_iff.1 ht
        exact ⟨List.getElem_mem hk, hn.idxOf_getElem k hk⟩
    · rintro ⟨hm, rfl⟩
      rw [List.getElem?_eq_getElem (List.idxOf_lt_length_of_mem hm),
        List.getElem_idxOf (List.idxOf_lt_length_of_mem hm)]

/-- **C151** Symbols mean the same in two threads if they are predefined, or if one thread has
interned what the other has, in the same order, and perhaps more. -/
theorem C151_same_partial (sl sl' : Slack) (hist hist' : List Text)
    (hd : AtMostDistinct (2 ^ 32) (predefined ++ hist)) (i : Nat) (s : Text)
    (hi : hist[i]? = some s) (h : s ∈ predefined ∨ hist <+: hist' ∨ (hist' <+: hist ∧ s ∈ hist')) :
    ∃ id, (threadSymbols sl hist)[i]? = some id ∧ (thread sl hist).lookup id = .ok s ∧
      (thread sl' hist').lookup id = .ok s := by
  obtain ⟨id, h1, h2⟩ := C151_across sl sl hist hist hd i s hi
  obtain ⟨id', h3, h4⟩ := C151_across sl sl' hist hist' hd i s hi
  obtain rfl : id' = id := by rw [h1] at h3; exact (Option.some.inj h3).symm
  have hs : s ∈ hist := List.mem_of_getElem? hi
  have pre : ∀ {a b : List Text}, a <+: b → a.eraseDups <+: b.eraseDups := by
    rintro a _ ⟨r, rfl⟩
    rw [List.eraseDups_append]
    exact List.prefix_append _ _
  refine ⟨id', h1, h2.2 ⟨List.mem_append_right _ hs, rfl⟩, h4.2 ?_⟩
  rcases h with h | h | ⟨h, hm⟩
  · refine ⟨List.mem_append_left _ h, ?_⟩
    have hp : s ∈ predefined.eraseDups := List.mem_eraseDups.2 h
    rw [idxOf_prefix (pre (List.prefix_append predefined hist')) hp,
      idxOf_prefix (pre (List.prefix_append predefined hist)) hp]
  · refine ⟨List.mem_append_right _ (h.subset hs), ?_⟩
    exact idxOf_prefix (pre ((List.prefix_append_right_inj _).2 h))
      (List.mem_eraseDups.2 (List.mem_append_right _ hs))
  · refine ⟨List.mem_append_right _ hm, ?_⟩
    exact (idxOf_prefix (pre ((List.prefix_append_right_inj _).2 h))
      (List.mem_eraseDups.2 (List.mem_append_right _ hm))).symm

/-- C151: hypotheses that are met; a text that is not predefined, in a thread that has interned
more. -/
example : AtMostDistinct (2 ^ 32) (predefined ++ [t!"a", t!"b"]) ∧
    [t!"a", t!"b"][1]? = some t!"b" ∧ [t!"a", t!"b"] <+: [t!"a", t!"b", t!"c"] := by
  exact ⟨atMost_of_length (by decide), rfl, by decide⟩

/-- **C151 fails in general**: a symbol that one thread got for a text means another text in another
thread, and none in a third one. -/
theorem C151_same_wrong (sl : Slack) : ∃ id, threadSymbols sl [t!"foo"] = [id] ∧
    (thread sl [t!"foo"]).lookup id = .ok t!"foo" ∧
    (thread sl [t!"bar", t!"foo"]).lookup id = .ok t!"bar" ∧
    (thread sl []).lookup id = .error .indexOutOfBounds := by
  refine ⟨28, ?_, ?_, ?_, ?_⟩
  · rw [(thread_holds sl _).2]; decide
  · rw [C151_means]; decide
  · rw [C151_means]; decide
  · rw [C151_means]; decide

end Pemdas
