import Mathlib.Analysis.SpecialFunctions.Sqrt
import Mathlib.Algebra.Module.Prod

/-! # Specification vocabulary: planar vectors modulo two periodicity vectors -/

namespace ED

/-- The scalar product in the plane. -/
def inner2 (v w : ℝ × ℝ) : ℝ := v.1 * w.1 + v.2 * w.2

/-- The two vectors are linearly independent. -/
def Indep (v w : ℝ × ℝ) : Prop := v.1 * w.2 ≠ v.2 * w.1

/-- Longer than half a unit of the 14th decimal, below which the library takes a vector to be zero. -/
def NonNegligible (v : ℝ × ℝ) : Prop := 1 / 2 / 10 ^ 14 < Real.sqrt (v.1 ^ 2 + v.2 ^ 2)

/-- Admissible periodicity vectors: each is zero or not negligible, and they are independent if both
are non-zero. -/
structure Periods (p1 p2 : ℝ × ℝ) : Prop where
  first : p1 = 0 ∨ NonNegligible p1
  second : p2 = 0 ∨ NonNegligible p2
  indep : p1 ≠ 0 → p2 ≠ 0 → Indep p1 p2

/-- `v` and `w` differ by an integer combination of the periodicity vectors. -/
def SameClass (p1 p2 v w : ℝ × ℝ) : Prop := ∃ a b : ℤ, w = v + a • p1 + b • p2

/-- The coordinates of `v` along `p1` and `p2` lie in the interval `[lo, lo + 1)`, up to half a unit of
the 14th decimal. -/
def InCell (lo : ℝ) (p1 p2 v : ℝ × ℝ) : Prop :=
  ∃ s t : ℝ, v = s • p1 + t • p2 ∧ lo - 1 / 2 / 10 ^ 14 ≤ s ∧ s ≤ lo + 1 - 1 / 2 / 10 ^ 14 ∧
    lo - 1 / 2 / 10 ^ 14 ≤ t ∧ t ≤ lo + 1 - 1 / 2 / 10 ^ 14

/-- The coordinates of `v` along `p1` and `p2` lie in the interval `[lo, lo + 1)`. -/
def InCellExact (lo : ℝ) (p1 p2 v : ℝ × ℝ) : Prop :=
  ∃ s t : ℝ, v = s • p1 + t • p2 ∧ lo ≤ s ∧ s < lo + 1 ∧ lo ≤ t ∧ t < lo + 1

end ED
