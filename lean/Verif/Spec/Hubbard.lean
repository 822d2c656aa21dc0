import Verif.Spec.Fock
import Mathlib.Data.Real.Basic
import Mathlib.Analysis.Complex.Norm

/-! # Specification vocabulary: lattice fermion Hamiltonians -/

namespace ED

open scoped BigOperators

variable {nsites nspecies : ℕ}

/-- `Σ_i U_i n_{i,0} n_{i,1}`; there is no such term with fewer than two species. -/
noncomputable def hubInter (U : Fin nsites → ℂ) : Op (nsites * nspecies) 2 :=
  if h : 2 ≤ nspecies then
    ∑ i, U i • (number (mode i ⟨0, by omega⟩) * number (mode i ⟨1, by omega⟩))
  else 0

/-- `Σ_{i ≥ j, s} W_{ijs} n_{is} n_{js}`. -/
noncomputable def hubSame (W : Fin nsites → Fin nsites → Fin nspecies → ℂ) :
    Op (nsites * nspecies) 2 :=
  ∑ i, ∑ j, ∑ s, if j ≤ i then W i j s • (number (mode i s) * number (mode j s)) else 0

/-- `-Σ_{i > j, s} T_{ijs} (c†_{is} c_{js} + c†_{js} c_{is})`. -/
noncomputable def hubHop (T : Fin nsites → Fin nsites → Fin nspecies → ℂ) :
    Op (nsites * nspecies) 2 :=
  ∑ i, ∑ j, ∑ s, if j < i then
    -(T i j s • (create (mode i s) * annih (mode j s) + create (mode j s) * annih (mode i s)))
    else 0

/-- `Σ_{i,s} V_{is} n_{is}`. -/
noncomputable def hubPot (V : Fin nsites → Fin nspecies → ℂ) : Op (nsites * nspecies) 2 :=
  ∑ i, ∑ s, V i s • number (mode i s)

end ED
