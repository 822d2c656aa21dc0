import Verif.Model.Fermions
import Verif.Model.Base

/-! # Model of the observables of `examples/measure_hubbard.py` -/

namespace ED

/-- The dictionary `ops`, measure_hubbard.py 116-137. -/
structure HubbardOps where
  nup1 : Mat
  nup2 : Mat
  ndn1 : Mat
  ndn2 : Mat
  nupNup : Mat
  ndnNdn : Mat
  nupNdn : Mat
  d1 : Mat
  d2 : Mat
  sz1 : Mat
  sz2 : Mat
  ns1 : Mat
  ns2 : Mat
  szSz : Mat
  dd : Mat
  nsNs : Mat

/-- measure_hubbard.py 116-137, where the sites are 0 and 1. -/
noncomputable def hubbardOps (S : Sys) (site1 site2 : ℕ) : Res HubbardOps := do
  let nup1 ← getSingleSiteOp S site1 0 nOp "boson"
  let nup2 ← getSingleSiteOp S site2 0 nOp "boson"
  let ndn1 ← getSingleSiteOp S site1 1 nOp "boson"
  let ndn2 ← getSingleSiteOp S site2 1 nOp "boson"
  let nupNup ← nup1.mul nup2
  let ndnNdn ← ndn1.mul ndn2
  let nupNdn ← nup1.mul ndn2
  let d1 ← nup1.mul ndn1
  let d2 ← nup2.mul ndn2
  let sz1 ← nup1.sub ndn1
  let sz2 ← nup2.sub ndn2
  let n1 ← nup1.add ndn1
  let ns1 ← n1.sub (d1.smul 2)
  let n2 ← nup2.add ndn2
  let ns2 ← n2.sub (d2.smul 2)
  let szSz ← sz1.mul sz2
  let dd ← d1.mul d2
  let nsNs ← ns1.mul ns2
  pure ⟨nup1, nup2, ndn1, ndn2, nupNup, ndnNdn, nupNdn, d1, d2, sz1, sz2, ns1, ns2, szSz, dd, nsNs⟩

end ED
