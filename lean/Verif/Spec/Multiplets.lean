import Verif.Spec.ParticleHole

/-! # Specification vocabulary: models of two species with more symmetries than the lattice -/

namespace ED

/-- The two species have the same parameters. -/
structure Fermions.SameSpecies (F : Fermions) : Prop where
  species : F.nspecies = 2
  hop : ∀ i j, j < i → i < F.nsites → F.ts i j 0 = F.ts i j 1
  same : ∀ i j, j ≤ i → i < F.nsites → F.usSame i j 0 = F.usSame i j 1
  level : ∀ i < F.nsites, F.pots i 0 - F.mus 0 = F.pots i 1 - F.mus 1

/-- The two species have the same parameters, and there is no interaction between particles at different sites: spins one-half. -/
structure Fermions.SpinSymmetric (F : Fermions) : Prop extends F.SameSpecies where
  local_same : ∀ i j, j < i → i < F.nsites → ∀ s < 2, F.usSame i j s = 0

/-- Particles hop between two sublattices, in the same way for both species, and a pair of particles has the energy `Δ` at every
site. -/
structure Fermions.PairSymmetric (F : Fermions) (Δ : ℝ) : Prop where
  species : F.nspecies = 2
  bipartite : F.Bipartite
  hop : ∀ i j, j < i → i < F.nsites → F.ts i j 0 = F.ts i j 1
  local_same : ∀ i j, j < i → i < F.nsites → ∀ s < 2, F.usSame i j s = 0
  level : ∀ i < F.nsites, F.us i + (F.usSame i i 0 + F.usSame i i 1) + (F.pots i 0 - F.mus 0) + (F.pots i 1 - F.mus 1) = Δ

end ED
