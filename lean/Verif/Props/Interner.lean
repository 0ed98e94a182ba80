import Verif.Lemmas.Lexicon
/-
C21–C24: the string interner.
-/
namespace Pemdas
open Lexicon

/-- At most `n` different texts occur in `hist`. -/
def AtMostDistinct (n : Nat) (hist : List Text) : Prop :=
  ∀ ds : List Text, ds.Nodup → (∀ s ∈ ds, s ∈ hist) → ds.length ≤ n

private theorem run_spec (sl : Slack) (cap : Nat) {hist : List Text}
    (hd : AtMostDistinct (2 ^ 32) hist) :
    (internAll sl hist (withCapacity sl cap)).1 = hist.map (addTexts [] hist).idxOf ∧
    Holds (internAll sl hist (withCapacity sl cap)).2 (addTexts [] hist) := by
  obtain ⟨h1, h2⟩ := internAll_holds (sl := sl) hist (holds_withCapacity sl cap)
  refine ⟨?_, h2⟩
  rw [h1]
  apply List.map_congr_left
  intro s hs
  have hl : (addTexts [] hist).length ≤ 2 ^ 32 :=
    hd _ h2.nodup (fun t ht => by simpa using (mem_addTexts hist [] t).1 ht)
  have : (addTexts [] hist).idxOf s < (addTexts [] hist).length :=
    List.idxOf_lt_length_of_mem ((mem_addTexts hist [] s).2 (.inr hs))
  exact Nat.mod_eq_of_lt (by omega)

private theorem atMost_prefix {n : Nat} {h k : List Text} (hd : AtMostDistinct n (h ++ k)) :
    AtMostDistinct n h :=
  fun ds hn hm => hd ds hn (fun s hs => List.mem_append_left _ (hm s hs))

/-- **C21** In every history of intern calls, two calls return the same symbol iff they were given
the same text. -/
theorem C21_same_symbol_iff_same_text (sl : Slack) (cap : Nat) (hist : List Text)
    (hd : AtMostDistinct (2 ^ 32) hist) (i j : Nat) (s t : Text)
    (hi : hist[i]? = some s) (hj : hist[j]? = some t) :
    (internAll sl hist (withCapacity sl cap)).1[i]? =
      (internAll sl hist (withCapacity sl cap)).1[j]? ↔ s = t := by
  have hs : s ∈ addTexts [] hist := (mem_addTexts hist [] s).2 (.inr (List.mem_of_getElem? hi))
  have ht : t ∈ addTexts [] hist := (mem_addTexts hist [] t).2 (.inr (List.mem_of_getElem? hj))
  rw [(run_spec sl cap hd).1]
  simp only [List.getElem?_map, hi, hj, Option.map_some, Option.some.injEq]
  constructor
  · intro h
    have e1 := List.getElem_idxOf (List.idxOf_lt_length_of_mem hs)
    have e2 := List.getElem_idxOf (List.idxOf_lt_length_of_mem ht)
    simp only [h] at e1
    rw [e2] at e1
    exact e1.symm
  · rintro rfl; rfl

/-- **C21** Looking up a symbol returned at any point of the history gives, at its end, the text
it was created from. -/
theorem C21_lookup (sl : Slack) (cap : Nat) (hist : List Text)
    (hd : AtMostDistinct (2 ^ 32) hist) (i : Nat) (s : Text) (hi : hist[i]? = some s) :
    ∃ id, (internAll sl hist (withCapacity sl cap)).1[i]? = some id ∧
      (internAll sl hist (withCapacity sl cap)).2.lookup id = .ok s := by
  have hs : s ∈ addTexts [] hist := (mem_addTexts hist [] s).2 (.inr (List.mem_of_getElem? hi))
  obtain ⟨h1, h2⟩ := run_spec sl cap hd
  refine ⟨(addTexts [] hist).idxOf s, by simp [h1, hi], ?_⟩
  rw [lookup_holds h2]
  rw [List.getElem?_eq_getElem (List.idxOf_lt_length_of_mem hs),
    List.getElem_idxOf (List.idxOf_lt_length_of_mem hs)]

/-- **C21** The symbols handed out are exactly the numbers below the number of distinct texts, and
those are the only ones that can be looked up. -/
theorem C21_symbols_dense (sl : Slack) (cap : Nat) (hist : List Text)
    (hd : AtMostDistinct (2 ^ 32) hist) (id : Nat) :
    id ∈ (internAll sl hist (withCapacity sl cap)).1 ↔
      ∃ t, (internAll sl hist (withCapacity sl cap)).2.lookup id = .ok t := by
  obtain ⟨h1, h2⟩ := run_spec sl cap hd
  rw [h1, lookup_holds h2]
  constructor
  · intro h
    obtain ⟨s, hs, rfl⟩ := List.mem_map.1 h
    have hs : s ∈ addTexts [] hist := (mem_addTexts hist [] s).2 (.inr hs)
    exact ⟨s, by rw [List.getElem?_eq_getElem (List.idxOf_lt_length_of_mem hs),
      List.getElem_idxOf (List.idxOf_lt_length_of_mem hs)]⟩
  · rintro ⟨t, ht⟩
    cases hx : (addTexts [] hist)[id]? with
    | none => rw [hx] at ht; cases ht
    | some u =>
      have hu : u ∈ hist := by
        simpa using (mem_addTexts hist [] u).1 (List.mem_of_getElem? hx)
      refine List.mem_map.2 ⟨u, hu, ?_⟩
      obtain ⟨hlt, hx⟩ := List.getElem?_eq_some_iff.1 hx
      rw [← hx]
      exact h2.nodup.idxOf_getElem id hlt

/-- **C22** Whatever is interned later, a symbol keeps its text, and an earlier text keeps its
symbol: interning it again returns the same symbol and changes nothing. -/
theorem C22_symbols_stable (sl : Slack) (cap : Nat) (hist more : List Text)
    (hd : AtMostDistinct (2 ^ 32) (hist ++ more)) (i : Nat) (s : Text) (hi : hist[i]? = some s) :
    ∃ id, (internAll sl hist (withCapacity sl cap)).1[i]? = some id ∧
      (internAll sl hist (withCapacity sl cap)).2.lookup id = .ok s ∧
      (internAll sl (hist ++ more) (withCapacity sl cap)).2.lookup id = .ok s ∧
      intern sl (internAll sl (hist ++ more) (withCapacity sl cap)).2 s =
        (id, (internAll sl (hist ++ more) (withCapacity sl cap)).2) := by
  obtain ⟨id, h1, h2⟩ := C21_lookup sl cap hist (atMost_prefix hd) i s hi
  have hlt : i < hist.length := (List.getElem?_eq_some_iff.1 hi).1
  have hi' : (hist ++ more)[i]? = some s := by rw [List.getElem?_append_left hlt]; exact hi
  obtain ⟨id', h1', h2'⟩ := C21_lookup sl cap (hist ++ more) hd i s hi'
  have hl1 : i < (internAll sl hist (withCapacity sl cap)).1.length :=
    (List.getElem?_eq_some_iff.1 h1).1
  have : id' = id := by
    rw [internAll_append, List.getElem?_append_left hl1, h1] at h1'
    exact (Option.some.inj h1').symm
  subst this
  refine ⟨id', h1, h2, h2', ?_⟩
  obtain ⟨h3, h4⟩ := run_spec sl cap hd
  have hs : s ∈ addTexts [] (hist ++ more) :=
    (mem_addTexts _ [] s).2 (.inr (List.mem_of_getElem? hi'))
  have hf := find_holds h4 s
  rw [if_pos hs] at hf
  have hid : id' = (addTexts [] (hist ++ more)).idxOf s := by
    rw [h3, List.getElem?_map, hi'] at h1'
    exact (Option.some.inj h1').symm
  have hl : (addTexts [] (hist ++ more)).length ≤ 2 ^ 32 :=
    hd _ h4.nodup (fun t ht => by simpa using (mem_addTexts _ [] t).1 ht)
  have := List.idxOf_lt_length_of_mem hs
  rw [Nat.mod_eq_of_lt (by omega)] at hf
  unfold intern
  rw [hf, hid]

/-- **C23** In every state reached from the default interner, the `n`-th predefined constant looks
up to the `n`-th predefined text and interning that text yields the constant. -/
theorem C23_predefined (sl : Slack) (hist : List Text)
    (hd : AtMostDistinct (2 ^ 32) (predefined ++ hist)) (n : Nat) (s : Text)
    (hn : predefined[n]? = some s) :
    (internAll sl hist (Lexicon.default sl)).2.lookup n = .ok s ∧
    (intern sl (internAll sl hist (Lexicon.default sl)).2 s).1 = n := by
  obtain ⟨id, h1, h2, h3, h4⟩ := C22_symbols_stable sl predefined.length predefined hist hd n s hn
  have hfix : addTexts [] predefined = predefined := by decide
  have hids : (internAll sl predefined (withCapacity sl predefined.length)).1 =
      List.range 28 := by
    rw [(run_spec sl predefined.length (atMost_prefix hd)).1, hfix]
    decide
  rw [hids] at h1
  have hn28 : n < 28 := by
    have := (List.getElem?_eq_some_iff.1 hn).1
    exact this
  have : id = n := by
    rw [List.getElem?_range hn28] at h1
    exact (Option.some.inj h1).symm
  subst this
  rw [internAll_append] at h3 h4
  exact ⟨h3, congrArg Prod.fst h4⟩

/-- **C23** Each constant used by name denotes its documented text. -/
theorem C23_constants (sl : Slack) (hist : List Text)
    (hd : AtMostDistinct (2 ^ 32) (predefined ++ hist)) (name s : Text)
    (hn : (name, s) ∈ predefinedNamed) :
    (internAll sl hist (Lexicon.default sl)).2.lookup (constant name) = .ok s ∧
    (intern sl (internAll sl hist (Lexicon.default sl)).2 s).1 = constant name := by
  apply C23_predefined sl hist hd
  have : ∀ e ∈ predefinedNamed, predefined[constant e.1]? = some e.2 := by decide
  exact this _ hn

/-- Constants named after characters. -/
def characterConstants : List (Text × Char) :=
  [(t!"UNDERSCORE", '_'), (t!"AT", '@'), (t!"COLON", ':'), (t!"DOT", '.'), (t!"CASH", '$'),
   (t!"PLUS", '+'), (t!"DASH", '-'), (t!"STAR", '*'), (t!"CARET", '^'), (t!"FSLASH", '/'),
   (t!"BSLASH", '\\'), (t!"PERCENT", '%'), (t!"PIPE", '|'), (t!"AMPERSAND", '&'),
   (t!"UPPER_L", 'L'), (t!"UPPER_R", 'R')]

/-- Constants named after words. -/
def wordConstants : List (Text × Text) :=
  [(t!"FIXITY", t!"fixity"), (t!"LEFT", t!"left"), (t!"RIGHT", t!"right")]

/-- **C23** What the constants denote, by their names: a constant named after a character denotes that
character, with a `2` the character twice; a constant named after a word denotes the word; the
others are the empty text, `()`, `[]` and `->`. -/
theorem C23_names (sl : Slack) (hist : List Text)
    (hd : AtMostDistinct (2 ^ 32) (predefined ++ hist)) :
    (∀ n c, (n, c) ∈ characterConstants →
      (internAll sl hist (Lexicon.default sl)).2.lookup (constant n) = .ok [c]) ∧
    (∀ n c, (n, c) ∈ characterConstants →
      n ∈ [t!"DOT", t!"STAR", t!"CARET", t!"PIPE", t!"AMPERSAND"] →
      (internAll sl hist (Lexicon.default sl)).2.lookup (constant (n ++ t!"2")) = .ok [c, c]) ∧
    (∀ n u, (n, u) ∈ wordConstants →
      (internAll sl hist (Lexicon.default sl)).2.lookup (constant n) = .ok u) ∧
    (internAll sl hist (Lexicon.default sl)).2.lookup (constant t!"EMPTY") = .ok [] ∧
    (internAll sl hist (Lexicon.default sl)).2.lookup (constant t!"UNIT") = .ok t!"()" ∧
    (internAll sl hist (Lexicon.default sl)).2.lookup (constant t!"NIL") = .ok t!"[]" ∧
    (internAll sl hist (Lexicon.default sl)).2.lookup (constant t!"ARROW") = .ok t!"->" ∧
    predefinedNamed.length =
      characterConstants.length + 5 + wordConstants.length + 4 := by
  have key : ∀ n u, (n, u) ∈ predefinedNamed →
      (internAll sl hist (Lexicon.default sl)).2.lookup (constant n) = .ok u :=
    fun n u h => (C23_constants sl hist hd n u h).1
  have h1 : ∀ p ∈ characterConstants, (p.1, [p.2]) ∈ predefinedNamed := by decide
  have h2 : ∀ p ∈ characterConstants, p.1 ∈ [t!"DOT", t!"STAR", t!"CARET", t!"PIPE", t!"AMPERSAND"] →
      (p.1 ++ t!"2", [p.2, p.2]) ∈ predefinedNamed := by decide
  have h3 : ∀ p ∈ wordConstants, p ∈ predefinedNamed := by decide
  exact ⟨fun n c h => key _ _ (h1 _ h), fun n c h h' => key _ _ (h2 _ h h'),
    fun n u h => key _ _ (h3 _ h), key _ _ (by decide), key _ _ (by decide), key _ _ (by decide),
    key _ _ (by decide), by decide⟩

/-- `hist` satisfies the bound when it is short. -/
theorem atMost_of_length {n : Nat} {hist : List Text} (h : hist.length ≤ n) :
    AtMostDistinct n hist := fun ds hn hm => by
  have : ∀ (ds hist : List Text), ds.Nodup → (∀ s ∈ ds, s ∈ hist) → ds.length ≤ hist.length := by
    intro ds
    induction ds with
    | nil => simp
    | cons d ds ih =>
      intro hist hn hm
      have hd := hm d (by simp)
      have := ih (hist.erase d) (List.nodup_cons.1 hn).2 (fun s hs => by
        have hne : s ≠ d := fun e => (List.nodup_cons.1 hn).1 (e ▸ hs)
        exact (List.mem_erase_of_ne hne).2 (hm s (by simp [hs])))
      rw [List.length_erase_of_mem hd] at this
      have := List.length_pos_of_mem hd
      simp; omega
  have := this ds hist hn hm
  omega

example : AtMostDistinct (2 ^ 32) (predefined ++ [t!"foo", t!"+", t!"foo"]) :=
  atMost_of_length (by decide)
example : (internAll (fun _ _ => 0) [t!"foo", t!"+", t!"foo", t!""]
    (Lexicon.default (fun _ _ => 0))).1 = [28, 10, 28, 0] := by decide
example : constant t!"DASH" = 11 ∧ constant t!"AT" = 5 := by decide

/-- Every interner state reachable by interning. -/
def Reachable (sl : Slack) (l : Lexicon) : Prop :=
  ∃ cap hist, l = (internAll sl hist (withCapacity sl cap)).2

private theorem Reachable.heap {sl : Slack} {l : Lexicon} (h : Reachable sl l) : Heap l := by
  obtain ⟨cap, hist, rfl⟩ := h
  exact (internAll_holds hist (holds_withCapacity sl cap)).2.heap

/-- **C24** Interning never moves or frees memory that has been handed out: whatever the allocator
over-provides, every live buffer stays at its address with its capacity, only has text appended,
and still fits. -/
theorem C24_buffers_never_move (sl : Slack) (l : Lexicon) (hl : Reachable sl l) (s : Text)
    (b : StrBuf) (hb : b ∈ l.buf :: l.all) :
    ∃ b' ∈ (intern sl l s).2.buf :: (intern sl l s).2.all,
      b'.addr = b.addr ∧ b'.cap = b.cap ∧ b.text <+: b'.text ∧ utf8Len b'.text ≤ b'.cap := by
  unfold intern
  cases l.find s with
  | some id => exact ⟨b, hb, rfl, rfl, List.prefix_rfl, hl.heap.fits b hb⟩
  | none =>
    obtain ⟨b', h1, h2, h3, h4⟩ := alloc_keeps (sl := sl) s b hb
    exact ⟨b', h1, h2, h3, h4, (alloc_ok (sl := sl) hl.heap s).heap.fits b' h1⟩

/-- **C24** Hence a string slice obtained from the interner keeps denoting the same text after any
further interning. -/
theorem C24_slices_stay_valid (sl : Slack) (l : Lexicon) (hl : Reachable sl l) (more : List Text)
    (p : StrRef) (t : Text) (hp : l.read p = some t) :
    (internAll sl more l).2.read p = some t := by
  induction more generalizing l with
  | nil => exact hp
  | cons s more ih =>
    show (internAll sl more (intern sl l s).2).2.read p = some t
    have hr : Reachable sl (intern sl l s).2 := by
      obtain ⟨cap, hist, rfl⟩ := hl
      exact ⟨cap, hist ++ [s], by rw [internAll_append]; rfl⟩
    apply ih _ hr
    unfold intern
    cases l.find s with
    | some id => exact hp
    | none => exact (alloc_ok (sl := sl) hl.heap s).old p t hp

/-- **C24** Every pointer stored in the interner is valid. -/
theorem C24_no_dangling (sl : Slack) (l : Lexicon) (hl : Reachable sl l) :
    ∀ p ∈ l.vec, ∃ t, l.read p = some t := by
  obtain ⟨cap, hist, rfl⟩ := hl
  have h := (internAll_holds (sl := sl) hist (holds_withCapacity sl cap)).2
  intro p hp
  have := List.mem_map_of_mem (f := Lexicon.read (internAll sl hist (withCapacity sl cap)).2) hp
  rw [h.read] at this
  obtain ⟨t, _, ht⟩ := List.mem_map.1 this
  exact ⟨t, ht.symm⟩

/-- The buffer is replaced in this history (so the theorem covers the growing case). -/
example : ((internAll (fun _ _ => 0) [t!"abc", t!"defgh", t!"ij"]
    (withCapacity (fun _ _ => 0) 4)).2.all.length) = 1 := by decide

end Pemdas
