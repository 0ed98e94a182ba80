import Verif.Model.Color
/-
C60–C62: colours.
-/
namespace Pemdas

private theorem toNat_and255 (v : UInt32) : (v &&& 255).toNat = v.toNat % 256 := by
  rw [UInt32.toNat_and]
  exact Nat.and_two_pow_sub_one_eq_mod v.toNat 8

private theorem shift_toNat (v : UInt32) : (v >>> 16).toNat = v.toNat / 65536 ∧
    (v >>> 8).toNat = v.toNat / 256 := by
  constructor
  · rw [UInt32.toNat_shiftRight]; simp [Nat.shiftRight_eq_div_pow]
  · rw [UInt32.toNat_shiftRight]; simp [Nat.shiftRight_eq_div_pow]

/-- The 24-bit number a colour stands for: `0xRRGGBB`. -/
def Rgb.value (c : Rgb) : Nat := c.r.toNat * 65536 + c.g.toNat * 256 + c.b.toNat

private theorem unchecked_toNat (v : UInt32) :
    (Rgb.fromHexUnchecked v).r.toNat = v.toNat / 65536 % 256 ∧
    (Rgb.fromHexUnchecked v).g.toNat = v.toNat / 256 % 256 ∧
    (Rgb.fromHexUnchecked v).b.toNat = v.toNat % 256 := by
  obtain ⟨h1, h2⟩ := shift_toNat v
  simp only [Rgb.fromHexUnchecked, UInt32.toNat_toUInt8, toNat_and255, h1, h2]
  omega

private theorem rgb_ext {a b : Rgb} (h1 : a.r.toNat = b.r.toNat) (h2 : a.g.toNat = b.g.toNat)
    (h3 : a.b.toNat = b.b.toNat) : a = b := by
  cases a; cases b
  simp only [Rgb.mk.injEq]
  exact ⟨UInt8.toNat_inj.1 h1, UInt8.toNat_inj.1 h2, UInt8.toNat_inj.1 h3⟩

/-- **C60** A hex colour is accepted exactly when it is below 2^24, and the accepted colour stands
for exactly the given number. -/
theorem C60_checked (v : UInt32) :
    (∀ c, Rgb.fromHexChecked v = some c → c.value = v.toNat) ∧
    ((Rgb.fromHexChecked v).isSome ↔ v.toNat < 2 ^ 24) := by
  obtain ⟨h1, h2, h3⟩ := unchecked_toNat v
  have hlt : (v < (2 : UInt32) <<< 23) ↔ v.toNat < 2 ^ 24 := by
    rw [UInt32.lt_iff_toNat_lt]; exact Iff.rfl
  unfold Rgb.fromHexChecked
  constructor
  · intro c hc
    split at hc
    · rename_i h
      have h := hlt.1 h
      simp only [Option.some.injEq] at hc
      have hc : Rgb.fromHexUnchecked v = c := hc
      subst hc
      simp only [Rgb.value, h1, h2, h3]
      omega
    · cases hc
  · split
    · rename_i h; simp [hlt.1 h]
    · rename_i h; rw [hlt] at h; simp [h]

/-- **C60** Every 24-bit colour is obtained from its number, by each of the three conversions. -/
theorem C60_roundtrip (c : Rgb) :
    Rgb.fromHexChecked (UInt32.ofNat c.value) = some c ∧
    Rgb.fromHexUnchecked (UInt32.ofNat c.value) = c ∧
    Rgb.fromHexBeBytes (UInt32.ofNat c.value) = c ∧
    Color.fromHexSaturated (UInt32.ofNat c.value) = .rgb c := by
  have hr := c.r.toNat_lt
  have hg := c.g.toNat_lt
  have hb := c.b.toNat_lt
  have hv : (UInt32.ofNat c.value).toNat = c.value := by
    rw [UInt32.toNat_ofNat']; simp only [Rgb.value]; omega
  obtain ⟨h1, h2, h3⟩ := unchecked_toNat (UInt32.ofNat c.value)
  have hu : Rgb.fromHexUnchecked (UInt32.ofNat c.value) = c := by
    apply rgb_ext
    · rw [h1, hv]; simp only [Rgb.value]; omega
    · rw [h2, hv]; simp only [Rgb.value]; omega
    · rw [h3, hv]; simp only [Rgb.value]; omega
  have hc : Rgb.fromHexChecked (UInt32.ofNat c.value) = some c := by
    have hs := (C60_checked (UInt32.ofNat c.value)).2.2 (by
      rw [hv]; simp only [Rgb.value]; omega)
    unfold Rgb.fromHexChecked at hs ⊢
    split
    · exact congrArg some hu
    · rename_i h; rw [if_neg h] at hs; cases hs
  refine ⟨hc, hu, ?_, ?_⟩
  · obtain ⟨s1, s2⟩ := shift_toNat (UInt32.ofNat c.value)
    apply rgb_ext <;>
      simp only [Rgb.fromHexBeBytes, Rgb.toBeBytes, List.drop_succ_cons, List.drop_zero,
        UInt32.toNat_toUInt8, s1, s2, hv] <;> simp only [Rgb.value] <;> omega
  · simp [Color.fromHexSaturated, hc]

/-- **C60** Numbers of 2^24 and above saturate to white, and the unchecked conversion ignores the
top byte. -/
theorem C60_out_of_range (v : UInt32) :
    (2 ^ 24 ≤ v.toNat → Color.fromHexSaturated v = .rgb ⟨255, 255, 255⟩) ∧
    (Rgb.fromHexUnchecked v).value = v.toNat % 2 ^ 24 ∧
    Rgb.fromHexBeBytes v = Rgb.fromHexUnchecked v := by
  obtain ⟨h1, h2, h3⟩ := unchecked_toNat v
  refine ⟨?_, ?_, ?_⟩
  · intro h
    have : Rgb.fromHexChecked v = none := by
      have := (C60_checked v).2
      cases hx : Rgb.fromHexChecked v with
      | none => rfl
      | some c => rw [hx] at this; have := this.1 rfl; omega
    simp [Color.fromHexSaturated, this, Rgb.max]
  · simp only [Rgb.value, h1, h2, h3]
    omega
  · obtain ⟨s1, s2⟩ := shift_toNat v
    apply rgb_ext <;>
      simp only [Rgb.fromHexBeBytes, Rgb.toBeBytes, List.drop_succ_cons, List.drop_zero,
        UInt32.toNat_toUInt8, s1, s2, h1, h2, h3]

/-! ### C61: the rainbow -/

/-- **C61** Choosing a colour never fails. -/
theorem C61_color_total (n : Rainbow) : ∃ c, n.color = .ok c := by
  unfold Rainbow.color
  have : n.toNat % 7 < Rainbow.roygbiv.length := Nat.mod_lt _ (by decide)
  rw [List.getElem?_eq_getElem this]
  exact ⟨_, rfl⟩

/-- **C61** tick and untick are inverse to each other. -/
theorem C61_tick_untick (n : Rainbow) : (n.tick).untick = n ∧ (n.untick).tick = n := by
  unfold Rainbow.tick Rainbow.untick
  constructor
  · show n + 1 - 1 = n
    simp
  · show n - 1 + 1 = n
    simp

/-- `k` ticks. -/
def Rainbow.ticks : Nat → Rainbow → Rainbow
  | 0, n => n
  | k + 1, n => Rainbow.tick (Rainbow.ticks k n)

private theorem tick_toNat (n : Rainbow) :
    (Rainbow.tick n).toNat = (n.toNat + 1) % 18446744073709551616 :=
  UInt64.toNat_add n 1

private theorem ticks_toNat (k : Nat) (n : Rainbow) (h : n.toNat + k < 2 ^ 64) :
    (n.ticks k).toNat = n.toNat + k := by
  induction k with
  | zero => rfl
  | succ k ih =>
    have := ih (by omega)
    show (UInt64.add _ 1).toNat = _
    show (n.ticks k + 1).toNat = _
    rw [UInt64.toNat_add, this]
    simp; omega

private theorem color_eq_iff (m n : Rainbow) : m.color = n.color ↔ m.toNat % 7 = n.toNat % 7 := by
  have key : ∀ i < 7, ∀ j < 7, (Rainbow.roygbiv[i]? = Rainbow.roygbiv[j]? ↔ i = j) := by decide
  have hm : m.toNat % 7 < 7 := Nat.mod_lt _ (by decide)
  have hn : n.toNat % 7 < 7 := Nat.mod_lt _ (by decide)
  have hk := key _ hm _ hn
  rw [← hk]
  obtain ⟨c, hc⟩ := C61_color_total m
  obtain ⟨d, hd⟩ := C61_color_total n
  unfold Rainbow.color at *
  constructor
  · intro h
    cases h1 : Rainbow.roygbiv[m.toNat % 7]? with
    | none => rw [h1] at hc; cases hc
    | some a =>
      cases h2 : Rainbow.roygbiv[n.toNat % 7]? with
      | none => rw [h2] at hd; cases hd
      | some b =>
        rw [h1, h2] at h
        cases h; rfl
  · intro h; rw [h]

/-- **C61** As long as the counter does not wrap, the colours at two nesting depths agree exactly
when the depths differ by a multiple of seven. In particular the period is seven and consecutive
depths differ. -/
theorem C61_period_seven (n : Rainbow) (j k : Nat) (hj : n.toNat + j < 2 ^ 64)
    (hk : n.toNat + k < 2 ^ 64) :
    (n.ticks j).color = (n.ticks k).color ↔ j % 7 = k % 7 := by
  rw [color_eq_iff, ticks_toNat j n hj, ticks_toNat k n hk]
  omega

private theorem succ_mod (m : Nat) (h : m < 18446744073709551616) :
    ¬ (m + 1) % 18446744073709551616 % 7 = m % 7 := by
  by_cases h' : m + 1 < 18446744073709551616
  · rw [Nat.mod_eq_of_lt h']; omega
  · have : m = 18446744073709551615 := by omega
    subst this; decide

/-- **C61** Consecutive depths differ for every counter value, even when the counter wraps. -/
theorem C61_consecutive_differ (n : Rainbow) : n.tick.color ≠ n.color := by
  rw [Ne, color_eq_iff, tick_toNat]
  exact succ_mod _ n.toNat_lt

/-- **C61** does not extend across the wrap-around of the counter: seven ticks then change the
colour. -/
theorem C61_wrap_breaks_period :
    ∃ n : Rainbow, (n.ticks 7).color ≠ n.color := by
  refine ⟨18446744073709551615, ?_⟩
  rw [Ne, color_eq_iff]
  have : Rainbow.ticks 7 18446744073709551615 = 6 := by
    simp only [Rainbow.ticks, Rainbow.tick]
    rfl
  rw [this]
  decide

/-- **C61** The seven-colour ANSI rainbow is total and has period seven as well. -/
theorem C61_ansi_rainbow (n : UInt8) :
    (∃ c, AnsiColor.rainbow n = .ok c) ∧
    ∀ m : UInt8, AnsiColor.rainbow m = AnsiColor.rainbow n ↔ m.toNat % 7 = n.toNat % 7 := by
  have tot : ∀ n : UInt8, ∃ c, AnsiColor.rainbow n = .ok c ∧
      AnsiColor.rainbowList[n.toNat % 7]? = some c := by
    intro n
    unfold AnsiColor.rainbow
    have : n.toNat % 7 < AnsiColor.rainbowList.length := Nat.mod_lt _ (by decide)
    rw [List.getElem?_eq_getElem this]
    exact ⟨_, rfl, rfl⟩
  refine ⟨(tot n).imp fun _ h => h.1, fun m => ?_⟩
  have key : ∀ i < 7, ∀ j < 7,
      (AnsiColor.rainbowList[i]? = AnsiColor.rainbowList[j]? ↔ i = j) := by decide
  have hk := key _ (Nat.mod_lt m.toNat (by decide)) _ (Nat.mod_lt n.toNat (by decide))
  obtain ⟨c, hc, hc'⟩ := tot m
  obtain ⟨d, hd, hd'⟩ := tot n
  rw [← hk, hc, hd, hc', hd']
  simp

example : (0 : Rainbow).toNat + 14 < 2 ^ 64 ∧
    (Rainbow.ticks 14 0).color = Rainbow.color 0 := by decide

/-! ### C62: adjusting channels -/

/-- What "saturating add/subtract" means. -/
theorem C62_saturation (a b : UInt8) :
    (satAdd a b).toNat = min 255 (a.toNat + b.toNat) ∧ (satSub a b).toNat = a.toNat - b.toNat := by
  have ha := a.toNat_lt
  have hb := b.toNat_lt
  unfold satAdd satSub
  constructor
  · split
    · rw [UInt8.toNat_add]; omega
    · show 255 = _; omega
  · split
    · rename_i h; rw [UInt8.toNat_sub_of_le _ _ (by rwa [UInt8.le_iff_toNat_le])]
    · show 0 = _; omega

/-- **C62** (the part that holds) The red adjusters change only red; brighten/incr/decr treat red and
green per channel. Missing: blue (see `C62_blue_wrong`) and the green/blue adjusters. -/
theorem C62_red_and_green_partial (c : Rgb) (n dr dg db : UInt8) :
    c.incrRed n = ⟨satAdd c.r n, c.g, c.b⟩ ∧ c.decrRed n = ⟨satSub c.r n, c.g, c.b⟩ ∧
    (c.brighten n).r = satAdd c.r n ∧ (c.brighten n).g = satAdd c.g n ∧
    (c.incr dr dg db).r = satAdd c.r dr ∧ (c.incr dr dg db).g = satAdd c.g dg ∧
    (c.decr dr dg db).r = satSub c.r dr ∧ (c.decr dr dg db).g = satSub c.g dg :=
  ⟨rfl, rfl, rfl, rfl, rfl, rfl, rfl, rfl⟩

/-- **C62 fails** for blue: brighten/incr/decr compute the new blue from green, and the adjusters
named after green and blue act on each other's channel. Brightening pure blue by nothing makes it
black. -/
theorem C62_blue_wrong :
    Rgb.brighten ⟨0, 0, 255⟩ 0 = ⟨0, 0, 0⟩ ∧
    Rgb.incr ⟨0, 0, 255⟩ 0 0 0 = ⟨0, 0, 0⟩ ∧
    Rgb.decr ⟨0, 9, 255⟩ 0 0 0 = ⟨0, 9, 9⟩ ∧
    Rgb.incrBlued ⟨0, 0, 0⟩ 5 = ⟨0, 5, 0⟩ ∧ Rgb.decrBlue ⟨9, 9, 9⟩ 5 = ⟨9, 4, 9⟩ ∧
    Rgb.incrGreen ⟨0, 0, 0⟩ 5 = ⟨0, 0, 5⟩ ∧ Rgb.decrGreen ⟨9, 9, 9⟩ 5 = ⟨9, 9, 4⟩ := by decide

/-- **C62** What the green/blue adjusters do, for every colour: they adjust the other channel. -/
theorem C62_green_blue_swapped (c : Rgb) (n : UInt8) :
    c.incrBlued n = ⟨c.r, satAdd c.g n, c.b⟩ ∧ c.decrBlue n = ⟨c.r, satSub c.g n, c.b⟩ ∧
    c.incrGreen n = ⟨c.r, c.g, satAdd c.b n⟩ ∧ c.decrGreen n = ⟨c.r, c.g, satSub c.b n⟩ ∧
    (∀ d : Rgb, d.r = c.r → d.g = c.g → d.brighten n = c.brighten n) :=
  ⟨rfl, rfl, rfl, rfl, fun d h1 h2 => by simp [Rgb.brighten, h1, h2]⟩

end Pemdas
