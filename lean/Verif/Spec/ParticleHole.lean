import Verif.Model.Fermions
import Mathlib.Data.Fintype.BigOperators

/-! # Specification vocabulary: two sublattices, and models that are exchanged by exchanging particles and holes -/

namespace ED

/-- The sites can be coloured such that particles hop only between sites of different colours. -/
def Fermions.Bipartite (F : Fermions) : Prop :=
  ∃ c : Fin F.nsites → Bool, ∀ (i j : Fin F.nsites) (s : Fin F.nspecies), j < i →
    F.ts i j s * ((|F.xdist i j| + |F.ydist i j| : ℝ) : ℂ) ≠ 0 → c i ≠ c j

/-- The interaction energy of a particle of species `s` at site `i` with all others if all modes are occupied (the interaction of
a mode with itself counts twice). -/
noncomputable def Fermions.filledEnergy (F : Fermions) (i : Fin F.nsites) (s : Fin F.nspecies) : ℂ :=
  (if 2 ≤ F.nspecies ∧ (s : ℕ) < 2 then F.us i else 0) +
    ((∑ j : Fin F.nsites, if j ≤ i then F.usSame i j s else 0) + ∑ j : Fin F.nsites, if i ≤ j then F.usSame j i s else 0)

/-- The energy of the state with all modes occupied. -/
noncomputable def Fermions.fullEnergy (F : Fermions) : ℂ :=
  (if 2 ≤ F.nspecies then ∑ i : Fin F.nsites, F.us i else 0) +
    (∑ i : Fin F.nsites, ∑ j : Fin F.nsites, ∑ s : Fin F.nspecies, if j ≤ i then F.usSame i j s else 0) +
    ∑ i : Fin F.nsites, ∑ s : Fin F.nspecies, (F.pots i s - F.mus s)

/-- Different energies differ by more than the rounding of the library. -/
def GappedList (w : List ℝ) : Prop := ∀ x ∈ w, ∀ y ∈ w, x = y ∨ 1 / 2 * (1 / 10 ^ 13 : ℝ) < |x - y|

end ED
