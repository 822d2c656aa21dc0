import Verif.Model.Numpy
import Mathlib.Tactic.Linarith
import Mathlib.Tactic.Push
import Mathlib.Algebra.Order.Field.Basic
import Mathlib.Tactic.Positivity

/-! # Rounding to integers and decimals -/

namespace ED

variable {K : Type*} [Field K] [LinearOrder K] [IsStrictOrderedRing K] [FloorRing K]

theorem rint_mem (x : K) : rint x = ⌊x⌋ ∨ (rint x = ⌊x⌋ + 1 ∧ 1 / 2 ≤ x - (⌊x⌋ : K)) := by
  unfold rint
  split_ifs with h1 h2 h3
  · exact Or.inl rfl
  · exact Or.inr ⟨rfl, h2.le⟩
  · exact Or.inl rfl
  · exact Or.inr ⟨rfl, not_lt.1 h1⟩

theorem rint_floor (x : K) (h : rint x = ⌊x⌋) : x - (⌊x⌋ : K) ≤ 1 / 2 := by
  unfold rint at h
  split_ifs at h with h1 h2 h3
  · exact h1.le
  · omega
  · exact not_lt.1 h2
  · omega

/-- Rounding moves a number by at most one half. -/
theorem abs_rint_sub (x : K) : |(rint x : K) - x| ≤ 1 / 2 := by
  have h1 := Int.floor_le x
  have h2 := Int.lt_floor_add_one x
  rw [abs_le]
  rcases rint_mem x with h | ⟨h, h'⟩
  · have := rint_floor x h
    rw [h]
    constructor <;> linarith
  · rw [h]
    push_cast
    constructor <;> linarith

theorem le_rint {x : K} {m : ℤ} (h : (m : K) ≤ x) : m ≤ rint x := by
  have := Int.le_floor.2 h
  rcases rint_mem x with h | ⟨h, -⟩ <;> omega

theorem rint_le {x : K} {m : ℤ} (h : x ≤ (m : K)) : rint x ≤ m := by
  rcases rint_mem x with h1 | ⟨h1, h2⟩
  · rw [h1]
    exact_mod_cast (Int.floor_le x).trans h
  · rw [h1]
    by_contra hc
    have hm : m ≤ ⌊x⌋ := by omega
    have : (m : K) ≤ (⌊x⌋ : K) := by exact_mod_cast hm
    have h3 : (0 : K) < 1 / 2 := by positivity
    linarith

theorem rint_intCast (m : ℤ) : rint (m : K) = m := le_antisymm (rint_le le_rfl) (le_rint le_rfl)

theorem abs_npRound_sub (d : ℕ) (x : K) : |npRound d x - x| ≤ 1 / 2 / 10 ^ d := by
  have hp : (0 : K) < 10 ^ d := by positivity
  have h := abs_rint_sub (x * 10 ^ d)
  have : npRound d x - x = ((rint (x * 10 ^ d) : K) - x * 10 ^ d) / 10 ^ d := by
    unfold npRound
    rw [sub_div, mul_div_assoc, div_self hp.ne', mul_one]
  rw [this, abs_div, abs_of_pos hp]
  exact div_le_div_of_nonneg_right h hp.le

theorem le_npRound {d : ℕ} {x : K} {m : ℤ} (h : (m : K) / 10 ^ d ≤ x) : (m : K) / 10 ^ d ≤ npRound d x := by
  have hp : (0 : K) < 10 ^ d := by positivity
  rw [div_le_iff₀ hp] at h
  unfold npRound
  have : (m : K) ≤ (rint (x * 10 ^ d) : K) := by exact_mod_cast le_rint h
  exact div_le_div_of_nonneg_right this hp.le

theorem npRound_le {d : ℕ} {x : K} {m : ℤ} (h : x ≤ (m : K) / 10 ^ d) : npRound d x ≤ (m : K) / 10 ^ d := by
  have hp : (0 : K) < 10 ^ d := by positivity
  rw [le_div_iff₀ hp] at h
  unfold npRound
  have : (rint (x * 10 ^ d) : K) ≤ (m : K) := by exact_mod_cast rint_le h
  exact div_le_div_of_nonneg_right this hp.le

end ED
