import Verif.Model.Diag
import Verif.Model.Thermal
import Verif.Model.Spins
import Verif.Model.Geometry
import Verif.Model.Pipeline
import Mathlib.Analysis.SpecialFunctions.Log.Basic

/-!
# Model of the thermodynamic quantities in `examples/test_nlce.py`, `examples/measure_hubbard.py` and
`cluster/diag_cluster.py`

Exact arithmetic; the temperatures of the scripts are positive (a temperature of zero divides by zero). Reading and
writing of files, printing and plotting are not modelled.
-/

namespace ED

/-- `energies`, `entropies` and `specific_heats` at one temperature: test_nlce.py 159-164, diag_cluster.py 34-42,
measure_hubbard.py 174-182. -/
noncomputable def thermoAt (V haml : Mat) (eigVals : List ℝ) (T : ℝ) : Res (ℝ × ℝ × ℝ) := do
  let energy ← expValsThermal V haml eigVals T
  let Z := (eigVals.map fun e => Real.exp (-e / T)).sum
  let entropy := Real.log Z + energy / T
  let h2 ← haml.mul haml
  let e2 ← expValsThermal V h2 eigVals T
  pure (energy, entropy, 1 / T ^ 2 * (e2 - energy ^ 2))

/-- The eigenvalues as an array, `diagH`. -/
noncomputable def diagList (S : EigSolvers) (haml : Mat) : Res (List ℝ × Mat) := do
  let (n, w, V) ← diagH S haml 200 false
  pure ((List.range n).map w, V)

/-- The eigenvalues of a spin model, as in spin_system_unittest.py 773-774 (`createH`, then `diagH`). -/
noncomputable def spinEnergies (S : EigSolvers) (F : Spins) : Res (List ℝ) := do
  let H ← F.createH none
  let (w, _) ← diagList S H
  pure w

/-- The sum over pairs, test_nlce.py 167-172. -/
noncomputable def szszAt (S : Sys) (V : Mat) (eigVals : List ℝ) (T : ℝ) : Res ℝ :=
  (List.range S.nsites).foldlM (fun acc aa =>
    (List.range' (aa + 1) (S.nsites - (aa + 1))).foldlM (fun acc bb => do
      let op ← getTwoSiteOp S aa 0 bb 0 pauliZ pauliZ "boson"
      let x ← expValsThermal V op eigVals T
      pure (acc + x)) acc) 0

/-- One row of the four arrays, test_nlce.py 151-172: energy, entropy, specific heat and correlations of one cluster
at all temperatures. -/
noncomputable def clusterRow (S : EigSolvers) (g : Geometry) (jx jy jz hx hy hz : ℝ) (temps : List ℝ) :
    Res (List (ℝ × ℝ × ℝ × ℝ)) := do
  let F ← Spins.init g.nsites 1 (fun a b => (g.adjacency.e a b : ℂ)) g.phase.e (.scalar jx) (.scalar jy) (.scalar jz)
    (.scalar hx) (.scalar hy) (.scalar hz) false
  let H ← F.createH none
  let (w, V) ← diagList S H
  temps.mapM fun T => do
    let (e, s, c) ← thermoAt V H w T
    let z ← szszAt F.sys V w T
    pure (e, s, c, z)

/-- An array with one row for each cluster, filled entry by entry, test_nlce.py 146-149 and 160-172. -/
noncomputable def fillTable (numTemps : ℕ) (rows : List (List ℝ)) : ND ℝ :=
  ⟨[rows.length, numTemps], fun idx => (rows.getD (idx.getD 0 0) []).getD (idx.getD 1 0) 0⟩

/-- test_nlce.py 131-209, without a file of earlier results: clusters, their properties and the four expansions. The
expressions in 179-209 are those of aggregate_results.py. -/
noncomputable def nlceScript (S : EigSolvers) (maxOrder : ℕ) (jx jy jz hx hy hz : ℝ) (temps : List ℝ) : Res Results := do
  let (clusters, mult, A, inds) ← allClustersWithSubclusters maxOrder (1, 0) (0, 1) true
  let rows ← clusters.mapM fun g => clusterRow S g jx jy jz hx hy hz temps
  let go (q : ℝ × ℝ × ℝ × ℝ → ℝ) := expand (fillTable temps.length (rows.map fun r => r.map q))
    (.int maxOrder) (.row mult) (.mat A) (.ints inds)
  let e ← go fun x => x.1
  let s ← go fun x => x.2.1
  let c ← go fun x => x.2.2.1
  let z ← go fun x => x.2.2.2
  pure ⟨clusters, e, s, c, z, temps⟩

/-- diag_cluster.py 18-54: the script asks for a method `getTwoSiteOp`, which no class has, as soon as there is a pair
of sites. -/
noncomputable def diagCluster (S : EigSolvers) (g : Geometry) (temps : List ℝ) : Res (List (ℝ × ℝ × ℝ × ℝ)) := do
  let F ← Spins.init g.nsites 1 (fun a b => (g.adjacency.e a b : ℂ)) g.phase.e (.scalar 0.5) (.scalar 0.5) (.scalar 0.5)
    (.scalar 0) (.scalar 0) (.scalar 0) false
  let H ← F.createH none
  let (w, V) ← diagList S H
  temps.mapM fun T => do
    let (e, s, c) ← thermoAt V H w T
    if 1 < g.nsites then throw .attribute
    pure (e, s, c, 0)

/-- test_nlce.py 83-99 at one temperature: quantities per site from sectors (the sorting of all energies in 83 does not
change their sum and is left out). `e` and `e2` are the averages of the
energy and its square in each sector. -/
noncomputable def sectorThermo (nsites : ℕ) (e e2 : List ℝ) (eigVals : List (List ℝ)) (T : ℝ) : Res (ℝ × ℝ × ℝ) := do
  let a ← thermalAvgCombine e eigVals T
  let energy := a / nsites
  let Z := (eigVals.flatten.map fun x => Real.exp (-x / T)).sum
  let entropy := 1 / nsites * (Real.log Z + energy * nsites / T)
  let h2 ← thermalAvgCombine e2 eigVals T
  pure (energy, entropy, 1 / (T ^ 2 * nsites) * (h2 - (energy * nsites) ^ 2))

/-- measure_hubbard.py 192-199 at one temperature, for the keys `energy`, `entropy` and `specific_heat`: the values of
the sectors, computed as in `thermoAt`, are averaged over the sectors. -/
noncomputable def hubbardThermo (sectors : List (ℝ × ℝ × ℝ)) (eigVals : List (List ℝ)) (T : ℝ) : Res (ℝ × ℝ × ℝ) := do
  let e ← thermalAvgCombine (sectors.map fun x => x.1) eigVals T
  let s ← thermalAvgCombine (sectors.map fun x => x.2.1) eigVals T
  let c ← thermalAvgCombine (sectors.map fun x => x.2.2) eigVals T
  pure (e, s, c)

end ED
