import Verif.Model.Fermions
import Verif.Model.Spins

/-! # Specification: spinless fermions on a chain as spins

An occupied site is a spin down. -/

namespace ED

/-- The hopping amplitude between sites `i > j`. -/
noncomputable def Fermions.amplitude (F : Fermions) (i j : ℕ) : ℂ :=
  F.ts i j 0 * ((|F.xdist i j| + |F.ydist i j| : ℝ) : ℂ)

/-- The interactions of site `i` with all others. -/
noncomputable def Fermions.interactions (F : Fermions) (i : ℕ) : ℂ :=
  ∑ j ∈ Finset.range F.nsites, if j < i then F.usSame i j 0 else if i < j then F.usSame j i 0 else 0

/-- The spins that belong to fermions on a chain: couplings `-t`, `-t`, `V / 2`, and a field along z. The sites `0` and
`n - 1` are coupled with another sign. -/
noncomputable def Fermions.chainSpins (F : Fermions) (sign : ℂ) : Spins where
  nsites := F.nsites
  twoS := 1
  jx i j := if i = j + 1 then -F.amplitude i j else -(sign * F.amplitude i j)
  jy i j := if i = j + 1 then -F.amplitude i j else -(sign * F.amplitude i j)
  jz i j := F.usSame i j 0 / 2
  hx _ := 0
  hy _ := 0
  hz i := F.interactions i / 2 + F.usSame i i 0 + (F.pots i 0 - F.mus 0)

/-- The energy of all spins at zero magnetization, in the units of the fermions. -/
noncomputable def Fermions.chainShift (F : Fermions) : ℂ :=
  (∑ i ∈ Finset.range F.nsites, ∑ j ∈ Finset.range F.nsites,
    if j < i then F.usSame i j 0 else 0) / 4 +
    (∑ i ∈ Finset.range F.nsites, (F.usSame i i 0 + (F.pots i 0 - F.mus 0))) / 2

end ED
