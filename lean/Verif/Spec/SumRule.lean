import Verif.Model.Fermions

/-! # Specification for the sum rule of the conductivity -/

namespace ED

/-- Every level other than the first one lies above it by more than the rounding step of `get_thermal_weights`. -/
def UniqueGround (w : List ℝ) : Prop :=
  ∀ i, 0 < i → i < w.length → w.getD 0 0 + 1 / 2 * (1 / 10 ^ 13 : ℝ) < w.getD i 0

/-- The cluster is open along `(dx, dy)`, with positions `r` along this direction: adjacent sites are one unit apart along
x, with hopping amplitude `tx`, or along y, with hopping amplitude `ty`; the separation along the direction is the
difference of the positions; and there is no hopping between sites that are not adjacent. Along other directions the cluster
may be periodic. -/
structure OpenAlong (F : Fermions) (adj : ℕ → ℕ → ℝ) (r : ℕ → ℝ) (tx ty : ℂ) (dx dy : ℝ) : Prop where
  xsymm : ∀ i < F.nsites, ∀ j < F.nsites, |F.xdist j i| = |F.xdist i j|
  ysymm : ∀ i < F.nsites, ∀ j < F.nsites, |F.ydist j i| = |F.ydist i j|
  adjsymm : ∀ i < F.nsites, ∀ j < F.nsites, adj j i = adj i j
  bond : ∀ i < F.nsites, ∀ j < F.nsites, ∀ s < F.nspecies,
    (|F.xdist i j| = 1 ∧ F.ydist i j = 0 ∧ adj i j ≠ 0 ∧ F.ts i j s = tx ∧ dx * F.xdist i j = r i - r j) ∨
    (F.xdist i j = 0 ∧ |F.ydist i j| = 1 ∧ adj i j ≠ 0 ∧ F.ts i j s = ty ∧ dy * F.ydist i j = r i - r j) ∨
    (adj i j = 0 ∧ F.ts i j s = 0)

end ED
