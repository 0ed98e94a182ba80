import Verif.Model.Fixity
/-
Helper lemmas on fixity tables (`Fixities`).
-/
namespace Pemdas
namespace Fixities

/-- The texts of the declared operators, in order. -/
def keys (m : Fixities) : List Symbol := m.map (·.1.symbol)

/-- The `IndexMap` invariant: no two entries with the same key. -/
def Wf (m : Fixities) : Prop := m.keys.Nodup

theorem keys_cons (k : Infix) (v : Fixity) (m : Fixities) :
    keys ((k, v) :: m) = k.symbol :: keys m := rfl

theorem insert_old (m : Fixities) (op : Infix) (fx : Fixity) :
    (m.insert op fx).1 = m.getDefined op := by
  induction m with
  | nil => rfl
  | cons x m ih =>
    obtain ⟨k, v⟩ := x
    simp only [insert, getDefined]
    split
    · rfl
    · exact ih

theorem getDefined_insert (m : Fixities) (op op' : Infix) (fx : Fixity) :
    (m.insert op fx).2.getDefined op' =
      if op.symbol = op'.symbol then some fx else m.getDefined op' := by
  induction m with
  | nil => simp [insert, getDefined]
  | cons x m ih =>
    obtain ⟨k, v⟩ := x
    simp only [insert]
    by_cases h : k.symbol = op.symbol
    · simp only [h, if_true, getDefined]
      split <;> rfl
    · simp only [h, if_false, getDefined, ih]
      by_cases h' : k.symbol = op'.symbol
      · simp only [h', if_true]
        rw [if_neg (by rw [← h']; exact fun e => h e.symm)]
      · simp only [h', if_false]

theorem get_insert (m : Fixities) (op op' : Infix) (fx : Fixity) :
    (m.insert op fx).2.get op' = if op.symbol = op'.symbol then fx else m.get op' := by
  unfold get
  rw [getDefined_insert]
  split <;> rfl

theorem getDefined_eq_none (m : Fixities) (op : Infix) :
    m.getDefined op = none ↔ op.symbol ∉ m.keys := by
  induction m with
  | nil => simp [getDefined, keys]
  | cons x m ih =>
    obtain ⟨k, v⟩ := x
    simp only [getDefined, keys_cons, List.mem_cons, not_or]
    by_cases h : k.symbol = op.symbol
    · simp [h]
    · simp only [h, if_false, ih]
      exact ⟨fun h' => ⟨fun e => h e.symm, h'⟩, fun h' => h'.2⟩

theorem keys_insert (m : Fixities) (op : Infix) (fx : Fixity) :
    (m.insert op fx).2.keys = if op.symbol ∈ m.keys then m.keys else m.keys ++ [op.symbol] := by
  induction m with
  | nil => simp [insert, keys]
  | cons x m ih =>
    obtain ⟨k, v⟩ := x
    simp only [insert]
    by_cases h : k.symbol = op.symbol
    · simp [h, keys_cons]
    · have h' : op.symbol ≠ k.symbol := fun e => h e.symm
      simp only [h, if_false, keys_cons, ih, List.mem_cons, h', false_or]
      split <;> simp

theorem wf_insert {m : Fixities} (h : m.Wf) (op : Infix) (fx : Fixity) :
    (m.insert op fx).2.Wf := by
  unfold Wf
  rw [keys_insert]
  split
  · exact h
  · rename_i hn
    exact List.nodup_append.2 ⟨h, by simp, by intro a ha b hb e; simp at hb; subst hb e; exact hn ha⟩

theorem remove_old (m : Fixities) (op : Infix) : (m.remove op).1 = m.getDefined op := by
  induction m with
  | nil => rfl
  | cons x m ih =>
    obtain ⟨k, v⟩ := x
    simp only [remove, getDefined]
    split
    · rfl
    · exact ih

theorem keys_remove (m : Fixities) (op : Infix) : (m.remove op).2.keys = m.keys.erase op.symbol := by
  induction m with
  | nil => rfl
  | cons x m ih =>
    obtain ⟨k, v⟩ := x
    simp only [remove]
    by_cases h : k.symbol = op.symbol
    · simp [h, keys_cons]
    · simp only [h, if_false, keys_cons, ih]
      rw [List.erase_cons_tail (by simpa using h)]

theorem wf_remove {m : Fixities} (h : m.Wf) (op : Infix) : (m.remove op).2.Wf := by
  unfold Wf
  rw [keys_remove]
  exact List.Nodup.erase _ h

theorem getDefined_remove {m : Fixities} (hw : m.Wf) (op op' : Infix) :
    (m.remove op).2.getDefined op' =
      if op.symbol = op'.symbol then none else m.getDefined op' := by
  induction m with
  | nil => simp [remove, getDefined]
  | cons x m ih =>
    obtain ⟨k, v⟩ := x
    have hw' : k.symbol ∉ keys m ∧ Wf m := by simpa [Wf, keys_cons] using hw
    simp only [remove]
    by_cases h : k.symbol = op.symbol
    · simp only [h, if_true, getDefined]
      split
      · rename_i h'
        rw [getDefined_eq_none, ← h', ← h]; exact hw'.1
      · rfl
    · simp only [h, if_false, getDefined, ih hw'.2]
      by_cases h' : k.symbol = op'.symbol
      · simp only [h', if_true]
        rw [if_neg (by rw [← h']; exact fun e => h e.symm)]
      · simp only [h', if_false]

/-- `insertMany` seen through lookups: the listed operators get the fixity. -/
theorem getDefined_insertMany (m : Fixities) (fx : Fixity) (ops : List Infix) (op : Infix) :
    (m.insertMany fx ops).getDefined op =
      if op.symbol ∈ ops.map Infix.symbol then some fx else m.getDefined op := by
  induction ops generalizing m with
  | nil => simp [insertMany]
  | cons o ops ih =>
    simp only [insertMany, ih, getDefined_insert, List.map_cons, List.mem_cons]
    by_cases h1 : op.symbol ∈ ops.map Infix.symbol
    · simp [h1]
    · by_cases h2 : o.symbol = op.symbol
      · simp [h2]
      · have h3 : ¬ op.symbol = o.symbol := fun e => h2 e.symm
        simp [h1, h2, h3]

theorem wf_insertMany {m : Fixities} (h : m.Wf) (fx : Fixity) (ops : List Infix) :
    (m.insertMany fx ops).Wf := by
  induction ops generalizing m with
  | nil => exact h
  | cons o ops ih => exact ih (wf_insert h o fx)

/-- Two tables with the same keys (in order, without repetition) and the same lookups have
the same values. -/
theorem values_ext {m m' : Fixities} (hw : m.Wf) (hk : m.map (·.1) = m'.map (·.1))
    (hg : ∀ op, m.getDefined op = m'.getDefined op) : m = m' := by
  induction m generalizing m' with
  | nil =>
    cases m' with
    | nil => rfl
    | cons x m' => simp at hk
  | cons x m ih =>
    cases m' with
    | nil => simp at hk
    | cons x' m' =>
      obtain ⟨k, v⟩ := x
      obtain ⟨k', v'⟩ := x'
      simp only [List.map_cons, List.cons.injEq] at hk
      obtain ⟨rfl, hk⟩ := hk
      have hv : v = v' := by simpa [getDefined] using hg k
      have hw' : k.symbol ∉ keys m ∧ Wf m := by simpa [Wf, keys_cons] using hw
      have hkeys : keys m = keys m' := by
        unfold keys
        rw [show (fun x : Infix × Fixity => x.1.symbol) = Infix.symbol ∘ (·.1) from rfl,
          ← List.map_map, ← List.map_map, hk]
      rw [hv, ih hw'.2 hk]
      intro op
      have := hg op
      simp only [getDefined] at this
      by_cases h : k.symbol = op.symbol
      · rw [(getDefined_eq_none m op).2 (by rw [← h]; exact hw'.1),
          (getDefined_eq_none m' op).2 (by rw [← h, ← hkeys]; exact hw'.1)]
      · simpa [h] using this

/-- Inserting under an existing key keeps the keys. -/
theorem map_fst_insert_of_mem {m : Fixities} {op : Infix} (h : op.symbol ∈ m.keys) (fx : Fixity) :
    (m.insert op fx).2.map (·.1) = m.map (·.1) := by
  induction m with
  | nil => simp [keys] at h
  | cons x m ih =>
    obtain ⟨k, v⟩ := x
    simp only [insert]
    by_cases hk : k.symbol = op.symbol
    · simp [hk]
    · have : op.symbol ∈ keys m := by
        simp only [keys_cons, List.mem_cons] at h
        rcases h with h | h
        · exact absurd h.symm hk
        · exact h
      simp [hk, ih this]

end Fixities
end Pemdas
