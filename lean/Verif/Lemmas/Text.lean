import Verif.Model.Basic
/-
Lemmas about byte lengths and byte slices.
-/
namespace Pemdas

theorem utf8Size_pos (c : Char) : 0 < c.utf8Size := Char.utf8Size_pos c

@[simp] theorem utf8Len_nil : utf8Len [] = 0 := rfl
@[simp] theorem utf8Len_cons (c : Char) (s : Text) : utf8Len (c :: s) = c.utf8Size + utf8Len s := rfl

@[simp] theorem utf8Len_append (a b : Text) : utf8Len (a ++ b) = utf8Len a + utf8Len b := by
  induction a with
  | nil => simp
  | cons c a ih => simp [ih]; omega

theorem utf8Len_eq_zero (s : Text) : utf8Len s = 0 ↔ s = [] := by
  cases s with
  | nil => simp
  | cons c s => have := utf8Size_pos c; simp; omega

@[simp] theorem dropBytes_zero (s : Text) : dropBytes s 0 = some s := by cases s <;> simp [dropBytes]
@[simp] theorem takeBytes_zero (s : Text) : takeBytes s 0 = some [] := by cases s <;> simp [takeBytes]

theorem dropBytes_append (a s : Text) : dropBytes (a ++ s) (utf8Len a) = some s := by
  induction a with
  | nil => simp
  | cons c a ih =>
    have := utf8Size_pos c
    rw [List.cons_append, dropBytes, if_neg (by simp; omega), if_pos (by simp)]
    simpa using ih

theorem takeBytes_append (a s : Text) : takeBytes (a ++ s) (utf8Len a) = some a := by
  induction a with
  | nil => simp
  | cons c a ih =>
    have := utf8Size_pos c
    rw [List.cons_append, takeBytes, if_neg (by simp; omega), if_pos (by simp)]
    simpa using ih

theorem dropBytes_eq_some {s r : Text} {n : Nat} :
    dropBytes s n = some r ↔ ∃ a, s = a ++ r ∧ utf8Len a = n := by
  constructor
  · intro h
    induction s generalizing n with
    | nil =>
      simp only [dropBytes] at h
      split at h
      · rename_i h'; cases h; exact ⟨[], rfl, h'.symm⟩
      · cases h
    | cons c s ih =>
      simp only [dropBytes] at h
      split at h
      · rename_i h'; cases h; exact ⟨[], rfl, h'.symm⟩
      · split at h
        · obtain ⟨a, ha, hb⟩ := ih h
          exact ⟨c :: a, by simp [ha], by simp; omega⟩
        · cases h
  · rintro ⟨a, rfl, rfl⟩; exact dropBytes_append a r

theorem takeBytes_eq_some {s r : Text} {n : Nat} :
    takeBytes s n = some r ↔ ∃ b, s = r ++ b ∧ utf8Len r = n := by
  constructor
  · intro h
    induction s generalizing n r with
    | nil =>
      simp only [takeBytes] at h
      split at h
      · rename_i h'; cases h; exact ⟨[], rfl, h'.symm⟩
      · cases h
    | cons c s ih =>
      simp only [takeBytes] at h
      split at h
      · rename_i h'; cases h; exact ⟨c :: s, rfl, h'.symm⟩
      · split at h
        · simp only [Option.map_eq_some_iff] at h
          obtain ⟨r', hr, rfl⟩ := h
          obtain ⟨b, hb, hl⟩ := ih hr
          exact ⟨b, by simp [hb], by simp; omega⟩
        · cases h
  · rintro ⟨b, rfl, rfl⟩; exact takeBytes_append r b

/-- A byte slice succeeds exactly when the text splits at these byte offsets. -/
theorem byteSlice_eq_some {s r : Text} {a b : Nat} :
    byteSlice s a b = some r ↔
      ∃ x y, s = x ++ r ++ y ∧ utf8Len x = a ∧ utf8Len x + utf8Len r = b := by
  unfold byteSlice
  split
  · rename_i hab
    simp only [Option.bind_eq_some_iff, dropBytes_eq_some, takeBytes_eq_some]
    constructor
    · rintro ⟨t, ⟨x, rfl, hx⟩, y, rfl, hr⟩
      exact ⟨x, y, by simp, hx, by omega⟩
    · rintro ⟨x, y, rfl, hx, hr⟩
      exact ⟨r ++ y, ⟨x, by simp, hx⟩, y, rfl, by omega⟩
  · rename_i hab
    constructor
    · intro h; cases h
    · rintro ⟨x, y, rfl, hx, hr⟩; omega

theorem byteSlice_mid (x r y : Text) :
    byteSlice (x ++ r ++ y) (utf8Len x) (utf8Len x + utf8Len r) = some r :=
  byteSlice_eq_some.2 ⟨x, y, rfl, rfl, rfl⟩

theorem byteSlice_append {s r : Text} {a b : Nat} (u : Text) (h : byteSlice s a b = some r) :
    byteSlice (s ++ u) a b = some r := by
  obtain ⟨x, y, rfl, hx, hr⟩ := byteSlice_eq_some.1 h
  exact byteSlice_eq_some.2 ⟨x, y ++ u, by simp, hx, hr⟩

end Pemdas
