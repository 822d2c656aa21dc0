import Verif.Model.Fermions
import Verif.Model.FermionInit

/-! # Model of `exact_diag/ed_fermions.py`: from the arguments of the constructor to the Hamiltonian -/

namespace ED

/-- A `fermions` instance, ed_fermions.py 68-136: its attributes as `createH` reads them, ed_fermions.py 268-300 and
302-462 (`ts[i, j, s]`, `us_interspecies[i]`, `us_same_species[i, j, s]`, `mus[s]`, `potentials[i, s]` and the
distances of the geometry). -/
noncomputable def FermionParams.model (p : FermionParams) (g : Geometry) (nspecies : ℕ) : Fermions where
  nsites := g.nsites
  nspecies := nspecies
  ts i j s := p.ts.data [i, j, s]
  us i := p.us.data [i]
  usSame i j s := p.usSame.data [i, j, s]
  mus s := p.mus.data [s]
  pots i s := p.pots.data [i, s]
  xdist i j := g.xdist.e i j
  ydist i j := g.ydist.e i j

/-- `fermions(geometry, us, ts, mus=mus, potentials=pots, us_same_species=us_same, nspecies=nspecies)`,
ed_fermions.py 22-136, without the projection on a number of particles. -/
noncomputable def fermionModel (g : Geometry) (us ts mus pots usSame : ND ℂ) (nspecies : ℕ) : Res Fermions := do
  let p ← initFermions g us ts mus pots usSame nspecies
  pure (p.model g nspecies)

end ED
