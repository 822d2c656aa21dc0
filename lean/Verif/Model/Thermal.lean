import Verif.Model.Numpy
import Verif.Model.Fermions
import Mathlib.Analysis.Normed.Algebra.MatrixExponential
import Mathlib.Analysis.SpecialFunctions.Exp
import Mathlib.Analysis.Real.Pi.Bounds
import Mathlib.Analysis.SpecialFunctions.Trigonometric.Basic

/-!
# Model of `exact_diag/ed_base.py` 206-279 and 483-1202: expectation values, thermal averages, time
evolution and response functions; and of the conductivity functions of `ed_fermions.py` 521-649

Real one-dimensional arrays are lists. Numpy broadcasting of arrays whose lengths differ is not
modelled: a length mismatch is an error value.
-/

namespace ED

open scoped BigOperators

/-- Columns `0 … n-1` of a matrix, `M[:, 0:n]`. -/
def Mat.takeCols (M : Mat) (n : ℕ) : Mat := ⟨M.rows, min n M.cols, M.e⟩

/-- `get_exp_vals`, ed_base.py 483-512 (the sparse and the dense branch compute the same). -/
noncomputable def getExpVals (states op : Mat) : Res (List ℝ) := do
  let os ← op.mul states
  if os.rows = states.rows then
    pure ((List.range states.cols).map fun k =>
      (∑ i ∈ Finset.range states.rows, (starRingEnd ℂ) (states.e i k) * os.e i k).re)
  else .error .shape

/-- `get_overlaps`, ed_base.py 514-549, before the final `np.squeeze` (the sparse branches compute
the same). -/
def getOverlaps (states1 states2 : Mat) : Res Mat := states1.dagger.mul states2

/-- `get_norms`, ed_base.py 551-575, for a two-dimensional argument. (For a one-dimensional one the
code calls the non-existent `np.expand_dim`.) -/
noncomputable def getNorms (states : Mat) : List ℝ :=
  (List.range states.cols).map fun k =>
    (∑ i ∈ Finset.range states.rows, (starRingEnd ℂ) (states.e i k) * states.e i k).re

/-- `get_subspace_overlaps`, ed_base.py 764-793, before the final `np.squeeze`: one row per
projector. -/
noncomputable def getSubspaceOverlaps (states : Mat) (projectors : List Mat) :
    Res (List (List ℝ)) :=
  projectors.mapM fun P => do
    let pp ← P.dagger.mul P
    getExpVals states pp

/-- `get_matrix_elems`, ed_base.py 1046-1069. -/
def getMatrixElems (V op : Mat) : Res Mat := do
  let ov ← op.mul V
  V.dagger.mul ov

/-- `get_thermal_weights`, ed_base.py 888-933, for a single temperature (a list of temperatures is
a loop over this, lines 911-915). Returns the weights and `z`. `energies[0]` of an empty array is
an `IndexError`. -/
noncomputable def thermalWeights (energies : List ℝ) (T : ℝ) (offset : Bool) :
    Res (List ℝ × ℝ) := do
  let es ← (if offset then
      match energies with
      | [] => .error .index
      | e0 :: _ => pure (energies.map (· - e0))
    else pure energies : Res (List ℝ))
  if T ≠ 0 then
    let beta := 1 / T
    let w := es.map fun e => Real.exp (-beta * e)
    pure (w, w.sum)
  else
    let nstates := (es.filter (npRound 13 · = 0)).length
    pure (List.replicate nstates 1 ++ List.replicate (es.length - nstates) 0, (nstates : ℝ))

/-- `np.multiply` of two one-dimensional arrays of equal length. -/
noncomputable def npMul1 (a b : List ℝ) : Res (List ℝ) :=
  if a.length = b.length then pure (List.zipWith (· * ·) a b) else .error .shape

/-- `get_exp_vals_thermal`, ed_base.py 840-886, for a single temperature. -/
noncomputable def expValsThermal (V op : Mat) (eigVals : List ℝ) (T : ℝ) : Res ℝ := do
  let wz ← thermalWeights eigVals T true
  if T ≠ 0 then
    let ev ← getExpVals V op
    let p ← npMul1 ev wz.1
    pure (p.sum / wz.2)
  else
    let nstates := (wz.1.filter (· ≠ 0)).length
    let ev ← getExpVals (V.takeCols nstates) op
    pure (ev.sum / wz.2)

/-- `get_exp_vals_thermal` for several temperatures, ed_base.py 861-868. -/
noncomputable def expValsThermalList (V op : Mat) (eigVals : List ℝ) (Ts : List ℝ) :
    Res (List ℝ) := Ts.mapM fun T => expValsThermal V op eigVals T

/-- `np.min` of a one-dimensional array; a `ValueError` if it is empty. -/
noncomputable def npMin (l : List ℝ) : Res ℝ :=
  match l.min? with
  | none => .error .value
  | some m => .ok m

/-- `get_partition_fn_sectors`, ed_base.py 951-999, for a single temperature. -/
noncomputable def partitionFnSectors (energies : List (List ℝ)) (T : ℝ) : Res (List ℝ) := do
  let mins ← energies.mapM npMin
  let m ← npMin mins
  energies.mapM fun es => do
    let wz ← thermalWeights (es.map (· - m)) T false
    pure wz.2

/-- `thermal_avg_combine_sectors`, ed_base.py 1001-1044, for a single temperature and one quantity
(further axes of `expvals_sectors` are treated entry by entry, lines 1036-1040; `np.nansum` of
numbers is their sum). -/
noncomputable def thermalAvgCombine (expvals : List ℝ) (energies : List (List ℝ)) (T : ℝ) :
    Res ℝ := do
  let zs ← partitionFnSectors energies T
  let p ← npMul1 expvals zs
  pure (p.sum / zs.sum)

/-- `thermal_avg_combine_sectors` for several temperatures, ed_base.py 1020-1034:
`expvals[i][t]` is the value of sector `i` at temperature number `t`. -/
noncomputable def thermalAvgCombineList (expvals : List (List ℝ)) (energies : List (List ℝ))
    (Ts : List ℝ) : Res (List ℝ) :=
  Ts.zipIdx.mapM fun Ti => thermalAvgCombine (expvals.map fun r => r.getD Ti.2 0) energies Ti.1

/-- `quench_time_evolve`, ed_base.py 206-279, with `initial_states` as columns (a one-dimensional
state is a matrix with one column, lines 228-230). -/
noncomputable def quenchTimeEvolve (init V : Mat) (energies times : List ℝ) : Res (ND ℂ) := do
  let c ← V.dagger.mul init
  let _back ← V.mul c
  if energies.length ≠ c.rows then .error .shape
  else
    let full : ND ℂ := ⟨[V.rows, times.length, init.cols], fun idx =>
      ∑ m ∈ Finset.range V.cols, V.e (idx.getD 0 0) m *
        (Complex.exp (-Complex.I * ((times.getD (idx.getD 1 0) 0 * energies.getD m 0 : ℝ) : ℂ)) *
          c.e m (idx.getD 2 0))⟩
    let s := full.squeeze
    pure (if s.shape.length = 1 then s.expand1 else s)

/-- The normalized Lorentzian `lor(w, eta, amp)` of ed_base.py 1102; those of lines 1165 and of
ed_fermions.py 604 are this function at `w - wo`. -/
noncomputable def lorentz (w eta amp : ℝ) : ℝ := (amp * eta / Real.pi) / (eta ^ 2 + w ^ 2)

/-- `eig_vals - eig_vals[0]`, an `IndexError` for an empty array. -/
noncomputable def shiftEnergies : List ℝ → Res (List ℝ)
  | [] => .error .index
  | e0 :: es => pure ((e0 :: es).map (· - e0))

/-- The arrays of matrix elements and energies have matching sizes. -/
def respShapes (A B : Mat) (n : ℕ) : Prop :=
  A.rows = n ∧ A.cols = n ∧ B.rows = n ∧ B.cols = n

instance (A B : Mat) (n : ℕ) : Decidable (respShapes A B n) := by
  unfold respShapes; infer_instance

/-- `get_response_fn_retarded`, ed_base.py 1071-1141: the returned function of frequency and
broadening. The real part of the products of matrix elements is taken (line 1130). -/
noncomputable def responseRetarded (A B : Mat) (eigVals : List ℝ) (T : ℝ) (format : String) :
    Res (ℝ → ℝ → ℝ) := do
  let factor ← (if format = "boson" then pure (-1) else if format = "fermion" then pure 1
    else .error .generic : Res ℝ)
  let es ← shiftEnergies eigVals
  if ¬ respShapes A B es.length then .error .shape
  else
    let n := es.length
    let E := fun i => es.getD i 0
    if T ≠ 0 then
      let beta := 1 / T
      let z := (es.map fun e => Real.exp (-beta * e)).sum
      pure fun w eta => Real.pi / z * ∑ i ∈ Finset.range n, ∑ j ∈ Finset.range n,
        (1 + factor * Real.exp (beta * (E i - E j))) *
          lorentz (w + (E i - E j)) eta ((A.e i j * B.e j i * (Real.exp (-beta * E j) : ℝ)).re)
    else
      pure fun w eta => Real.pi / 1 *
        (∑ i ∈ Finset.range n, lorentz (w + -E i) eta ((A.e 0 i * B.e i 0).re) +
         ∑ i ∈ Finset.range n, lorentz (w + E i) eta ((factor * (A.e i 0 * B.e 0 i)).re))

/-- `get_response_fn_time_ordered`, ed_base.py 1143-1202. The returned value is complex if the
products of matrix elements are. -/
noncomputable def responseTimeOrdered (A B : Mat) (eigVals : List ℝ) (T : ℝ) :
    Res (ℝ → ℝ → ℂ) := do
  let es ← shiftEnergies eigVals
  if ¬ respShapes A B es.length then .error .shape
  else
    let n := es.length
    let E := fun i => es.getD i 0
    let lor : ℝ → ℝ → ℝ → ℂ → ℂ := fun wo eta w amp =>
      (amp * eta / Real.pi) / ((eta ^ 2 + (w - wo) ^ 2 : ℝ) : ℂ)
    if T ≠ 0 then
      let beta := 1 / T
      let z := (es.map fun e => Real.exp (-beta * e)).sum
      pure fun w eta => ((Real.pi / z : ℝ) : ℂ) *
        (∑ i ∈ Finset.range n, ∑ j ∈ Finset.range n,
          lor w eta (E i - E j) (A.e i j * B.e j i * (Real.exp (-beta * E j) : ℝ)) -
         ∑ i ∈ Finset.range n, ∑ j ∈ Finset.range n,
          lor w eta (-(E i - E j)) (A.e j i * B.e i j * (Real.exp (-beta * E j) : ℝ)))
    else
      pure fun w eta => ((Real.pi / 1 : ℝ) : ℂ) *
        (∑ i ∈ Finset.range n, lor |w| eta (E i) (A.e i 0 * B.e 0 i) -
         ∑ i ∈ Finset.range n, lor |w| eta (-E i) (A.e 0 i * B.e i 0))

/-- `integrate_conductivity`, ed_fermions.py 521-582. -/
noncomputable def integrateConductivity (nsites : ℕ) (J : Mat) (eigVals : List ℝ) (T : ℝ) :
    Res ℝ := do
  let es ← shiftEnergies eigVals
  if ¬ (J.rows = es.length ∧ J.cols = es.length) then .error .shape
  else
    let n := es.length
    let E := fun i => es.getD i 0
    if T ≠ 0 then
      let beta := 1 / T
      let z := (es.map fun e => Real.exp (-beta * e)).sum
      let weight := fun i j => if E i - E j = 0 then 0
        else (1 - Real.exp (-beta * (E i - E j))) / (E i - E j)
      pure (Real.pi / z / nsites * ∑ i ∈ Finset.range n, ∑ j ∈ Finset.range n,
        ‖J.e i j‖ ^ 2 * Real.exp (-beta * E j) * weight i j)
    else
      let weight := fun i => if E i = 0 then 0 else 1 / E i
      pure (2 * (Real.pi / nsites * ∑ i ∈ Finset.range n, ‖J.e i 0‖ ^ 2 * weight i))

/-- `get_optical_cond_fn`, ed_fermions.py 584-649. At finite temperature the value is divided by
the frequency, so only non-zero frequencies are meaningful (numpy gives `inf`/`nan` at zero). At
zero temperature terms with zero energy difference give `nan` and are dropped by `np.nansum`. -/
noncomputable def opticalCond (nsites : ℕ) (J : Mat) (eigVals : List ℝ) (T : ℝ) :
    Res (ℝ → ℝ → ℝ) := do
  let es ← shiftEnergies eigVals
  if ¬ (J.rows = es.length ∧ J.cols = es.length) then .error .shape
  else
    let n := es.length
    let E := fun i => es.getD i 0
    if T ≠ 0 then
      let beta := 1 / T
      let z := (es.map fun e => Real.exp (-beta * e)).sum
      pure fun wo eta => Real.pi / z / nsites * ∑ i ∈ Finset.range n, ∑ j ∈ Finset.range n,
        if (10 : ℝ) ^ (-16 : ℤ) < ‖J.e i j‖ then
          (1 - Real.exp (-beta * (E i - E j))) *
            lorentz (E i - E j - wo) eta (‖J.e i j‖ ^ 2 * Real.exp (-beta * E j)) / wo
        else 0
    else
      pure fun wo eta => Real.pi / 1 / nsites * ∑ i ∈ Finset.range n,
        if (10 : ℝ) ^ (-16 : ℤ) < ‖J.e i 0‖ then
          (if E i = 0 then 0 else lorentz (E i - |wo|) eta (‖J.e i 0‖ ^ 2) / E i)
        else 0

/-- `get_exp_vals_sites`, ed_base.py 580-615: one row per site. `none` for `sites` means all sites,
for `projector` the identity. -/
noncomputable def expValsSites (S : Sys) (states siteOp : Mat) (species : ℕ)
    (sites : Option (List ℕ)) (projector : Option Mat) (format : String) :
    Res (List (List ℝ) × List ℕ) := do
  let P := projector.getD (Mat.eye states.rows)
  let sites := sites.getD (List.range S.nsites)
  let vals ← sites.mapM fun site => do
    let op ← getSingleSiteOp S site species siteOp format
    let full ← sandwich 1 P op
    getExpVals states full
  pure (vals, sites)

/-- `get_thermal_exp_sites`, ed_base.py 617-663. -/
noncomputable def thermalExpSites (S : Sys) (V : Mat) (eigVals : List ℝ) (siteOp : Mat) (species : ℕ)
    (temps : List ℝ) (sites : Option (List ℕ)) (projector : Option Mat) (format : String) :
    Res (List (List ℝ) × List ℕ) := do
  let P := projector.getD (Mat.eye V.rows)
  let sites := sites.getD (List.range S.nsites)
  let vals ← sites.mapM fun site => do
    let op ← getSingleSiteOp S site species siteOp format
    let full ← sandwich 1 P op
    expValsThermalList V full eigVals temps
  pure (vals, sites)

/-- The default site pairs of `get_corr_sites`, ed_base.py 694-697: `xx, yy = np.meshgrid(range(n),
range(n))`, `sites1 = xx[xx >= yy]`, `sites2 = yy[xx >= yy]`. Boolean indexing flattens row by row;
`xx[i, j] = j` and `yy[i, j] = i`. -/
def defaultPairs (n : ℕ) : List (ℕ × ℕ) :=
  (List.range n).flatMap fun i => ((List.range n).map fun j => (j, i)).filter fun p => p.1 ≥ p.2

/-- `get_corr_sites`, ed_base.py 665-708. `pairs` stands for the two lists `sites1`, `sites2` of equal
length. -/
noncomputable def corrSites (S : Sys) (states : Mat) (species1 species2 : ℕ) (op1 op2 : Mat)
    (pairs : Option (List (ℕ × ℕ))) (projector : Option Mat) (format : String) :
    Res (List (List ℝ) × List (ℕ × ℕ)) := do
  let P := projector.getD (Mat.eye states.rows)
  let pairs := pairs.getD (defaultPairs S.nsites)
  let vals ← pairs.mapM fun p => do
    let op ← getTwoSiteOp S p.1 species1 p.2 species2 op1 op2 format
    let full ← sandwich 1 P op
    getExpVals states full
  pure (vals, pairs)

/-- `get_thermal_corr_sites`, ed_base.py 710-758. -/
noncomputable def thermalCorrSites (S : Sys) (V : Mat) (eigVals : List ℝ) (species1 species2 : ℕ)
    (op1 op2 : Mat) (temps : List ℝ) (pairs : Option (List (ℕ × ℕ))) (projector : Option Mat)
    (format : String) : Res (List (List ℝ) × List (ℕ × ℕ)) := do
  let P := projector.getD (Mat.eye V.rows)
  let pairs := pairs.getD (defaultPairs S.nsites)
  let vals ← pairs.mapM fun p => do
    let op ← getTwoSiteOp S p.1 species1 p.2 species2 op1 op2 format
    let full ← sandwich 1 P op
    expValsThermalList V full eigVals temps
  pure (vals, pairs)

open NormedSpace in
/-- `get_partition_fn_hamiltonian`, ed_base.py 935-949, for a square matrix; `scipy.linalg.expm` is
taken to be the matrix exponential. -/
noncomputable def partitionFnHamiltonian (H : Mat) (beta : ℝ) : ℝ :=
  if beta = 0 then H.rows
  else (Matrix.trace (exp (-((beta : ℂ)) •
    (Matrix.of fun i j => H.e i j : Matrix (Fin H.rows) (Fin H.rows) ℂ)))).re

end ED
