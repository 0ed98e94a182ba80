import Verif.Model.Lexicon
import Verif.Lemmas.Text
/-
Invariants of the interner.
-/
namespace Pemdas
namespace Lexicon

theorem le_nextPow2 (n : Nat) : n ≤ nextPow2 n := by
  unfold nextPow2
  split
  · assumption
  · have := Nat.lt_log2_self (n := n - 1)
    omega

/-- The heap is sane: live allocations have distinct addresses below `next`, and the current
buffer's text is within its capacity. -/
structure Heap (l : Lexicon) : Prop where
  lt : ∀ b ∈ l.buf :: l.all, b.addr < l.next
  fits : ∀ b ∈ l.buf :: l.all, utf8Len b.text ≤ b.cap
  nodup : ((l.buf :: l.all).map (·.addr)).Nodup

theorem heap_withCapacity (sl : Slack) (cap : Nat) : Heap (withCapacity sl cap) := by
  constructor <;> simp [withCapacity]

theorem read_some {l : Lexicon} (h : Heap l) {p : StrRef} {t : Text} :
    l.read p = some t ↔ ∃ b ∈ l.buf :: l.all, b.addr = p.addr ∧
      byteSlice b.text p.start (p.start + p.len) = some t := by
  unfold read
  have hn := h.nodup
  generalize l.buf :: l.all = bs at hn
  constructor
  · intro hr
    split at hr
    · rename_i b hb
      exact ⟨b, List.mem_of_find?_eq_some hb, by simpa using List.find?_some hb, hr⟩
    · cases hr
  · rintro ⟨b, hb, ha, hr⟩
    have : bs.find? (fun b => b.addr == p.addr) = some b := by
      induction bs with
      | nil => cases hb
      | cons c bs ih =>
        simp only [List.map_cons, List.nodup_cons] at hn
        rcases List.mem_cons.1 hb with rfl | hb
        · simp [ha]
        · have : c.addr ≠ b.addr := fun e => hn.1 (e ▸ List.mem_map_of_mem hb)
          rw [List.find?_cons_of_neg (by simpa [← ha] using this)]
          exact ih hn.2 hb
    rw [this]; exact hr

/-- What `alloc` guarantees. -/
structure AllocOk (sl : Slack) (l : Lexicon) (s : Text) (r : StrRef × Lexicon) : Prop where
  heap : Heap r.2
  new : r.2.read r.1 = some s
  old : ∀ p t, l.read p = some t → r.2.read p = some t
  map : r.2.map = l.map
  vec : r.2.vec = l.vec

/-- `push_str` after the capacity check never reallocates. -/
theorem pushStr_ok {sl : Slack} {l : Lexicon} {s : Text} (h : Heap l)
    (hc : utf8Len l.buf.text + utf8Len s ≤ l.buf.cap) :
    AllocOk sl l s (⟨(pushStr sl l s).buf.addr, utf8Len l.buf.text, utf8Len s⟩, pushStr sl l s) := by
  have hp : Heap (pushStr sl l s) := by
    unfold pushStr; rw [if_pos hc]
    constructor
    · intro b hb
      rcases List.mem_cons.1 hb with rfl | hb
      · exact h.lt l.buf (by simp)
      · exact h.lt b (List.mem_cons_of_mem _ hb)
    · intro b hb
      rcases List.mem_cons.1 hb with rfl | hb
      · simpa using hc
      · exact h.fits b (List.mem_cons_of_mem _ hb)
    · simpa using h.nodup
  refine ⟨hp, ?_, ?_, ?_, ?_⟩
  · rw [read_some hp]
    refine ⟨(pushStr sl l s).buf, by simp, rfl, ?_⟩
    unfold pushStr; rw [if_pos hc]
    have := byteSlice_mid l.buf.text s []
    simpa using this
  · intro p t hr
    obtain ⟨b, hb, ha, hs⟩ := (read_some h).1 hr
    rw [read_some hp]
    unfold pushStr; rw [if_pos hc]
    rcases List.mem_cons.1 hb with rfl | hb
    · exact ⟨_, List.mem_cons_self, ha, byteSlice_append s hs⟩
    · exact ⟨b, List.mem_cons_of_mem _ hb, ha, hs⟩
  · unfold pushStr; rw [if_pos hc]
  · unfold pushStr; rw [if_pos hc]

/-- The buffer swap of `alloc`. -/
def swap (sl : Slack) (l : Lexicon) (s : Text) : Lexicon :=
  if l.buf.cap < utf8Len l.buf.text + utf8Len s then
    let newCap := nextPow2 (max l.buf.cap (utf8Len s) + 1)
    { l with buf := ⟨l.next, newCap + sl l.next newCap, []⟩,
             all := l.all ++ [l.buf], next := l.next + 1 }
  else l

theorem alloc_eq (sl : Slack) (l : Lexicon) (s : Text) :
    alloc sl l s = (⟨(pushStr sl (swap sl l s) s).buf.addr, utf8Len (swap sl l s).buf.text,
      utf8Len s⟩, pushStr sl (swap sl l s) s) := rfl

theorem swap_fits (sl : Slack) (l : Lexicon) (s : Text) :
    utf8Len (swap sl l s).buf.text + utf8Len s ≤ (swap sl l s).buf.cap := by
  unfold swap
  split
  · have := le_nextPow2 (max l.buf.cap (utf8Len s) + 1)
    simp; omega
  · omega

theorem swap_heap {sl : Slack} {l : Lexicon} (h : Heap l) (s : Text) : Heap (swap sl l s) := by
  unfold swap
  split
  · constructor
    · intro b hb
      simp only [List.mem_cons, List.mem_append, List.not_mem_nil, or_false] at hb
      rcases hb with rfl | hb | rfl
      · simp
      · exact Nat.lt_succ_of_lt (h.lt b (by simp [hb]))
      · exact Nat.lt_succ_of_lt (h.lt _ (by simp))
    · intro b hb
      simp only [List.mem_cons, List.mem_append, List.not_mem_nil, or_false] at hb
      rcases hb with rfl | hb | rfl
      · simp
      · exact h.fits b (by simp [hb])
      · exact h.fits _ (by simp)
    · have hn := h.nodup
      have hl := h.lt
      simp only [List.map_cons, List.nodup_cons, List.mem_map, not_exists, not_and] at hn
      simp only [List.map_cons, List.map_append, List.map_nil, List.nodup_cons, List.mem_append,
        List.mem_map, List.mem_cons, List.not_mem_nil, or_false]
      refine ⟨?_, ?_⟩
      · rintro (⟨b, hb, e⟩ | e)
        · exact absurd e (Nat.ne_of_lt (hl b (by simp [hb])))
        · exact absurd e.symm (Nat.ne_of_lt (hl l.buf (by simp)))
      · rw [List.nodup_append]
        refine ⟨hn.2, by simp, ?_⟩
        intro a ha b hb
        simp only [List.mem_cons, List.not_mem_nil, or_false] at hb
        subst hb
        obtain ⟨c, hc, rfl⟩ := List.mem_map.1 ha
        exact hn.1 c hc
  · exact h

theorem swap_read {sl : Slack} {l : Lexicon} (h : Heap l) (s : Text) (p : StrRef) (t : Text)
    (hr : l.read p = some t) : (swap sl l s).read p = some t := by
  obtain ⟨b, hb, ha, hs⟩ := (read_some h).1 hr
  rw [read_some (swap_heap h s)]
  refine ⟨b, ?_, ha, hs⟩
  unfold swap
  split
  · rcases List.mem_cons.1 hb with rfl | hb <;> simp [*]
  · exact hb

/-- `alloc` keeps every live allocation where it is, only appending within its capacity. -/
theorem alloc_keeps {sl : Slack} {l : Lexicon} (s : Text) (b : StrBuf)
    (hb : b ∈ l.buf :: l.all) :
    ∃ b' ∈ (alloc sl l s).2.buf :: (alloc sl l s).2.all,
      b'.addr = b.addr ∧ b'.cap = b.cap ∧ b.text <+: b'.text := by
  have hm : b ∈ (swap sl l s).buf :: (swap sl l s).all := by
    unfold swap
    split
    · rcases List.mem_cons.1 hb with rfl | hb <;> simp [*]
    · exact hb
  rw [alloc_eq]
  have hc := swap_fits sl l s
  generalize swap sl l s = m at hm hc
  unfold pushStr
  rw [if_pos hc]
  rcases List.mem_cons.1 hm with rfl | hm
  · exact ⟨_, List.mem_cons_self, rfl, rfl, List.prefix_append _ _⟩
  · exact ⟨b, List.mem_cons_of_mem _ hm, rfl, rfl, List.prefix_rfl⟩

theorem alloc_ok {sl : Slack} {l : Lexicon} (h : Heap l) (s : Text) :
    AllocOk sl l s (alloc sl l s) := by
  rw [alloc_eq]
  have := pushStr_ok (sl := sl) (swap_heap (sl := sl) h s) (swap_fits sl l s)
  refine ⟨this.heap, this.new, fun p t hr => this.old p t (swap_read h s p t hr), ?_, ?_⟩
  · rw [this.map]; unfold swap; split <;> rfl
  · rw [this.vec]; unfold swap; split <;> rfl

/-- `l` holds exactly the distinct texts `ts`, in this order. -/
structure Holds (l : Lexicon) (ts : List Text) : Prop where
  heap : Heap l
  map : l.map = (l.vec.zipIdx).map (fun x => (x.1, x.2 % 2 ^ 32))
  read : l.vec.map l.read = ts.map some
  nodup : ts.Nodup

theorem holds_withCapacity (sl : Slack) (cap : Nat) : Holds (withCapacity sl cap) [] :=
  ⟨heap_withCapacity sl cap, rfl, rfl, List.nodup_nil⟩

private theorem find_aux (f : StrRef → Option Text) (s : Text) :
    ∀ (vec : List StrRef) (ts : List Text) (k : Nat), vec.map f = ts.map some →
      (((vec.zipIdx k).map (fun x => (x.1, x.2 % 2 ^ 32))).find?
        (fun e => f e.1 == some s)).map (·.2) =
        if s ∈ ts then some ((k + ts.idxOf s) % 2 ^ 32) else none
  | [], ts, k, h => by
    cases ts with
    | nil => simp
    | cons t ts => simp at h
  | p :: vec, ts, k, h => by
    cases ts with
    | nil => simp at h
    | cons t ts =>
      simp only [List.map_cons, List.cons.injEq] at h
      have ih := find_aux f s vec ts (k + 1) h.2
      simp only [List.zipIdx_cons, List.map_cons, List.find?_cons, h.1]
      by_cases hts : t = s
      · subst hts; simp
      · have hst : ¬ s = t := fun e => hts e.symm
        have e1 : (some t == some s) = false := by simpa using hts
        simp only [e1, ih, List.mem_cons, hst, false_or]
        congr 2
        rw [List.idxOf_cons]
        simp only [cond_false, beq_eq_false_iff_ne.2 hts]
        congr 1; omega

theorem find_holds {l : Lexicon} {ts : List Text} (h : Holds l ts) (s : Text) :
    l.find s = if s ∈ ts then some (ts.idxOf s % 2 ^ 32) else none := by
  unfold find
  rw [h.map]
  simpa using find_aux l.read s l.vec ts 0 h.read

/-- The distinct texts after interning one more. -/
def addText (ts : List Text) (s : Text) : List Text := if s ∈ ts then ts else ts ++ [s]

theorem intern_holds {sl : Slack} {l : Lexicon} {ts : List Text} (h : Holds l ts) (s : Text) :
    (intern sl l s).1 = (addText ts s).idxOf s % 2 ^ 32 ∧
      Holds (intern sl l s).2 (addText ts s) := by
  have hf := find_holds h s
  unfold intern addText
  by_cases hs : s ∈ ts
  · rw [if_pos hs] at hf
    simp only [hf, if_pos hs]
    exact ⟨trivial, h⟩
  · rw [if_neg hs] at hf
    simp only [hf, if_neg hs]
    have ha := alloc_ok (sl := sl) h.heap s
    have hlen : l.vec.length = ts.length := by simpa using congrArg List.length h.read
    refine ⟨?_, ⟨⟨ha.heap.lt, ha.heap.fits, ha.heap.nodup⟩, ?_, ?_, ?_⟩⟩
    · rw [ha.map, h.map, List.idxOf_append]
      simp [hs, hlen]
    · simp only [ha.map, ha.vec, h.map]
      simp [List.zipIdx_append]
    · simp only [ha.vec, List.map_append, List.map_cons, List.map_nil]
      congr 1
      · rw [← h.read]
        apply List.map_congr_left
        intro p hp
        have : l.read p ∈ l.vec.map l.read := List.mem_map_of_mem hp
        rw [h.read] at this
        obtain ⟨t, _, ht⟩ := List.mem_map.1 this
        rw [← ht]
        exact ha.old p t ht.symm
      · rw [← ha.new]; rfl
    · rw [List.nodup_append]
      refine ⟨h.nodup, by simp, ?_⟩
      intro a hat b hb
      simp only [List.mem_cons, List.not_mem_nil, or_false] at hb
      subst hb
      intro e; subst e; exact hs hat

/-- The distinct texts after a history. -/
def addTexts (ts : List Text) (hist : List Text) : List Text := hist.foldl addText ts

theorem addText_prefix (ts : List Text) (s : Text) : ts <+: addText ts s := by
  unfold addText; split
  · exact List.prefix_rfl
  · exact List.prefix_append _ _

theorem mem_addText (ts : List Text) (s : Text) : s ∈ addText ts s := by
  unfold addText; split <;> simp_all

theorem addTexts_prefix (hist ts : List Text) : ts <+: addTexts ts hist := by
  induction hist generalizing ts with
  | nil => exact List.prefix_rfl
  | cons s hist ih => exact (addText_prefix ts s).trans (ih _)

theorem mem_addTexts (hist ts : List Text) (s : Text) :
    s ∈ addTexts ts hist ↔ s ∈ ts ∨ s ∈ hist := by
  induction hist generalizing ts with
  | nil => simp [addTexts]
  | cons t hist ih =>
    show s ∈ addTexts (addText ts t) hist ↔ _
    rw [ih]
    unfold addText
    split <;> simp <;> grind

theorem idxOf_prefix {ts us : List Text} (h : ts <+: us) {s : Text} (hs : s ∈ ts) :
    us.idxOf s = ts.idxOf s := by
  obtain ⟨r, rfl⟩ := h
  rw [List.idxOf_append, if_pos hs]

theorem internAll_holds {sl : Slack} (hist : List Text) {l : Lexicon} {ts : List Text}
    (h : Holds l ts) :
    (internAll sl hist l).1 = hist.map (fun s => (addTexts ts hist).idxOf s % 2 ^ 32) ∧
      Holds (internAll sl hist l).2 (addTexts ts hist) := by
  induction hist generalizing l ts with
  | nil => exact ⟨rfl, h⟩
  | cons s hist ih =>
    obtain ⟨h1, h2⟩ := intern_holds (sl := sl) h s
    obtain ⟨h3, h4⟩ := ih h2
    refine ⟨?_, h4⟩
    show (intern sl l s).1 :: (internAll sl hist (intern sl l s).2).1 = _
    rw [h1, h3, List.map_cons]
    have := idxOf_prefix (addTexts_prefix hist (addText ts s)) (mem_addText ts s)
    show _ = (addTexts (addText ts s) hist).idxOf s % 2 ^ 32 :: _
    rw [this]
    rfl

theorem lookup_holds {l : Lexicon} {ts : List Text} (h : Holds l ts) (i : Nat) :
    l.lookup i = match ts[i]? with
      | some t => .ok t
      | none => .error .indexOutOfBounds := by
  have := congrArg (fun x => x[i]?) h.read
  simp only [List.getElem?_map] at this
  unfold lookup
  cases hv : l.vec[i]? with
  | none =>
    rw [hv] at this
    cases ht : ts[i]? with
    | none => rfl
    | some t => rw [ht] at this; simp at this
  | some p =>
    rw [hv] at this
    cases ht : ts[i]? with
    | none => rw [ht] at this; simp at this
    | some t =>
      rw [ht] at this
      simp only [Option.map_some, Option.some.injEq] at this
      simp [this]

theorem internAll_append (sl : Slack) (h k : List Text) (l : Lexicon) :
    internAll sl (h ++ k) l =
      ((internAll sl h l).1 ++ (internAll sl k (internAll sl h l).2).1,
       (internAll sl k (internAll sl h l).2).2) := by
  induction h generalizing l with
  | nil => rfl
  | cons s h ih =>
    simp only [List.cons_append, internAll, ih]

end Lexicon
end Pemdas
