import Verif.Model.Lattice
import Verif.Spec.Lattice

/-! # Specification vocabulary: lattices with integer periodicity vectors -/

namespace ED

/-- The periodicity vectors of the lattice are the independent integer combinations `n l1 + m l2` and
`i l1 + j l2` of its independent lattice vectors, and no vector is negligible. -/
structure LatticePeriods (L : Lattice) (n m i j : ℤ) : Prop where
  latt1 : NonNegligible L.latt1
  latt2 : NonNegligible L.latt2
  indep : Indep L.latt1 L.latt2
  per1 : L.per1 = n • L.latt1 + m • L.latt2
  per2 : L.per2 = i • L.latt1 + j • L.latt2
  det : n * j - m * i ≠ 0
  nonneg1 : NonNegligible L.per1
  nonneg2 : NonNegligible L.per2

/-- The coordinates of different points of the lattice differ by more than `10 ^ -14`, so that rounding to
14 decimals keeps them apart. -/
def Resolved (L : Lattice) : Prop :=
  ∀ v ∈ L.basis, ∀ w ∈ L.basis, ∀ a b : ℤ, (a ≠ 0 ∨ b ≠ 0 ∨ v ≠ w) →
    1 / 10 ^ 14 < |(a • L.latt1 + b • L.latt2 + (v - w)).1| ∨
    1 / 10 ^ 14 < |(a • L.latt1 + b • L.latt2 + (v - w)).2|

/-- A vector with integer coordinates. -/
def Integral (v : ℝ × ℝ) : Prop := ∃ k l : ℤ, v = ((k : ℝ), (l : ℝ))

end ED
