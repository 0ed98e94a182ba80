import Verif.Model.ColorOrder
import Verif.Props.Color
/-
C147: the order of colours.
-/
namespace Pemdas

/-- The place of a colour in the order (specification): palette colours by their codes, then all
others by their value as a hexadecimal number. -/
def Color.rank : Color → Nat
  | .ansi c => c.code.toNat
  | .rgb c => 256 + c.value

private theorem compare_byte (a b : UInt8) : compare a b = compare a.toNat b.toNat := by
  show compareOfLessAndEq a b = compare a.toNat b.toNat
  rw [compareOfLessAndEq, Nat.compare_eq_ite_lt]
  simp only [UInt8.lt_iff_toNat_lt, ← UInt8.toNat_inj]
  repeat' split
  all_goals first | rfl | (exfalso; omega)

private theorem compare_word (a b : UInt32) : compare a b = compare a.toNat b.toNat := by
  show compareOfLessAndEq a b = compare a.toNat b.toNat
  rw [compareOfLessAndEq, Nat.compare_eq_ite_lt]
  simp only [UInt32.lt_iff_toNat_lt, ← UInt32.toNat_inj]
  repeat' split
  all_goals first | rfl | (exfalso; omega)

private theorem compare_digits {x y z x' y' z' : Nat} (hy : y < 256) (hz : z < 256) (hy' : y' < 256)
    (hz' : z' < 256) :
    (compare x x').then ((compare y y').then (compare z z')) =
      compare (x * 65536 + y * 256 + z) (x' * 65536 + y' * 256 + z') := by
  simp only [Nat.compare_eq_ite_lt]
  repeat' split
  all_goals first | rfl | (exfalso; omega) | skip
  all_goals simp only [Ordering.then]
  all_goals first | rfl | (exfalso; omega)

/-- **C147** Colours given by channels are ordered as the numbers `0xRRGGBB` are. -/
theorem C147_rgb (a b : Rgb) : a.cmp b = compare a.value b.value := by
  unfold Rgb.cmp
  rw [compare_byte, compare_byte, compare_byte,
    compare_digits a.g.toNat_lt a.b.toNat_lt b.g.toNat_lt b.b.toNat_lt]
  rfl

/-- **C147** … so that reading hexadecimal numbers keeps the order. -/
theorem C147_hex (v w : UInt32) (hv : v < 0x1000000) (hw : w < 0x1000000) :
    (Rgb.fromHexUnchecked v).cmp (Rgb.fromHexUnchecked w) = compare v w := by
  have h1 : v.toNat < 2 ^ 24 := hv
  have h2 : w.toNat < 2 ^ 24 := hw
  rw [C147_rgb, (C60_out_of_range v).2.1, (C60_out_of_range w).2.1, Nat.mod_eq_of_lt h1, Nat.mod_eq_of_lt h2,
    compare_word]

/-- **C147** The order of all colours is linear: it is that of `Color.rank`, and colours of the same
rank are the same. -/
theorem C147_linear (a b : Color) :
    a.cmp b = compare a.rank b.rank ∧ (a.cmp b = .eq ↔ a = b) ∧ a.cmp b = (b.cmp a).swap := by
  have key : ∀ a b : Color, a.cmp b = compare a.rank b.rank := by
    intro a b
    cases a with
    | ansi a =>
      cases b with
      | ansi b => exact compare_byte _ _
      | rgb b =>
        have := a.code.toNat_lt
        exact (Nat.compare_eq_lt.2 (by simp only [Color.rank]; omega)).symm
    | rgb a =>
      cases b with
      | ansi b =>
        have := b.code.toNat_lt
        exact (Nat.compare_eq_gt.2 (by simp only [Color.rank]; omega)).symm
      | rgb b =>
        show a.cmp b = _
        rw [C147_rgb]
        simp only [Color.rank, Nat.compare_eq_ite_lt]
        repeat' split
        all_goals first | rfl | (exfalso; omega)
  refine ⟨key a b, ?_, ?_⟩
  · rw [key, Nat.compare_eq_eq]
    refine ⟨fun h => ?_, fun h => by rw [h]⟩
    cases a with
    | ansi a =>
      cases b with
      | ansi b =>
        have h : a.code.toNat = b.code.toNat := h
        have : a = b := by cases a <;> cases b <;> first | rfl | exact absurd h (by decide)
        rw [this]
      | rgb b => have := a.code.toNat_lt; simp only [Color.rank] at h; omega
    | rgb a =>
      cases b with
      | ansi b => have := b.code.toNat_lt; simp only [Color.rank] at h; omega
      | rgb b =>
        have h : a.value = b.value := by simp only [Color.rank] at h; omega
        rw [← (C60_roundtrip a).2.1, h, (C60_roundtrip b).2.1]
  · rw [key, key, Nat.compare_swap]

/-- **C147** `ALL` lists every palette colour but the normal one, once and in increasing order. -/
theorem C147_all (c : AnsiColor) :
    (c ∈ AnsiColor.all ↔ c ≠ .normal) ∧
    AnsiColor.all.Pairwise (fun a b => a.cmp b = .lt) ∧
    (c ≠ .normal → AnsiColor.normal.cmp c = .lt) := by
  refine ⟨by cases c <;> decide, by decide, by cases c <;> decide⟩

example : (Rgb.fromHexUnchecked 0x00FFFF).cmp (Rgb.fromHexUnchecked 0x010000) = .lt ∧
    (Color.ansi .lightWhite).cmp (.rgb ⟨0, 0, 0⟩) = .lt ∧
    AnsiColor.cmp .white .lightBlack = .lt := by decide

end Pemdas
