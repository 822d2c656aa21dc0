import Verif.Model.Mat
import Verif.Model.Numpy
import Mathlib.Data.List.Sort
import Mathlib.Analysis.SpecialFunctions.Trigonometric.Basic
import Mathlib.Analysis.Complex.Exponential
import Mathlib.Algebra.Order.Floor.Ring

/-!
# Model of `greens_fns.py`

Arrays over frequencies and times are lists. Where numpy would broadcast an array of length one against
a longer one the model reports a shape error instead. Division by zero, for which numpy returns `inf`
or `nan`, is the Lean convention; the theorems exclude it.
-/

namespace ED

open scoped BigOperators

/-- `np.arange(start, stop, step)`: `ceil((stop - start) / step)` values. -/
noncomputable def npArange (start stop step : ℝ) : List ℝ :=
  (List.range ⌈(stop - start) / step⌉₊).map fun i : ℕ => start + (i : ℝ) * step

/-- `get_matsubara_frqs`, greens_fns.py 8-32. -/
noncomputable def getMatsubaraFrqs (beta maxFrq : ℝ) (format : String) : Res (List ℝ) :=
  if format = "fermion" ∨ format = "boson" then
    if beta = 0 then .error .zeroDiv
    else
      let smallest := if format = "fermion" then Real.pi / beta else 2 * Real.pi / beta
      let pos := npArange smallest maxFrq (2 * Real.pi / beta)
      let all := pos.map (fun x => -x) ++ pos
      let all := if format = "boson" then all ++ [0] else all
      .ok (all.insertionSort (· ≤ ·))
  else .error .generic

/-- `np.trapz(y, x)` for arrays of equal length. -/
noncomputable def trapz (y : List ℂ) (x : List ℝ) : ℂ :=
  ∑ i ∈ Finset.range (x.length - 1),
    ((x.getD (i + 1) 0 - x.getD i 0 : ℝ) : ℂ) * (y.getD (i + 1) 0 + y.getD i 0) / 2

/-- `get_grnfn_imagfrq_spectralfn`, greens_fns.py 36-63. -/
noncomputable def imagfrqFromSpectral (mats omegas spectral : List ℝ) : Res (List ℂ) :=
  if spectral.length = omegas.length then
    .ok (mats.map fun w : ℝ =>
      trapz (List.zipWith (fun a o : ℝ => (a : ℂ) / (Complex.I * (w : ℂ) - (o : ℂ))) spectral omegas)
        omegas / (2 * Real.pi))
  else .error .value

/-- The statistics factor, greens_fns.py 96-101 and 155-160. -/
noncomputable def statFactor (format : String) : Res ℝ :=
  if format = "fermion" then .ok 1
  else if format = "boson" then .ok (-1)
  else .error .generic

/-- `get_grnfn_imagtime_spectralfn`, greens_fns.py 66-111. -/
noncomputable def imagtimeFromSpectral (taus : List ℝ) (beta : ℝ) (omegas spectral : List ℝ)
    (format : String) : Res (List ℂ) := do
  let factor ← statFactor format
  if spectral.length = omegas.length then
    pure (taus.map fun t : ℝ =>
      -trapz (List.zipWith (fun a o : ℝ =>
        ((a * Real.exp (-(o * t)) / (1 + factor * Real.exp (-beta * o)) : ℝ) : ℂ)) spectral omegas)
        omegas / (2 * Real.pi))
  else throw .value

/-- The integration weights `frq_diffs`, greens_fns.py 133-136 and 163-166. Indexing column 1 of a grid
with fewer than two columns raises `IndexError`. -/
noncomputable def frqDiffs (omegas : List ℝ) : Res (List ℝ) :=
  let n := omegas.length
  if n < 2 then .error .index
  else .ok ((List.range n).map fun i =>
    if i = n - 1 then 1 / 2 * (omegas.getD (n - 1) 0 - omegas.getD (n - 2) 0)
    else if i = 0 then 1 / 2 * (omegas.getD 1 0 - omegas.getD 0 0)
    else 1 / 2 * (omegas.getD (i + 1) 0 - omegas.getD (i - 1) 0))

/-- `get_grnfn_imagfrq_spectralfn_kernel`, greens_fns.py 115-140. -/
noncomputable def imagfrqKernel (mats omegas : List ℝ) : Res (List (List ℂ)) := do
  let d ← frqDiffs omegas
  pure (mats.map fun w : ℝ => List.zipWith (fun o x : ℝ =>
    1 / (2 * Real.pi : ℂ) * (1 / (Complex.I * (w : ℂ) - (o : ℂ))) * (x : ℂ)) omegas d)

/-- `get_grnfn_imagtime_spectralfn_kernel`, greens_fns.py 143-176. -/
noncomputable def imagtimeKernel (taus : List ℝ) (beta : ℝ) (omegas : List ℝ) (format : String) :
    Res (List (List ℂ)) := do
  let factor ← statFactor format
  let d ← frqDiffs omegas
  pure (taus.map fun t : ℝ => List.zipWith (fun o x : ℝ =>
    ((-1 / (2 * Real.pi) * (Real.exp (-o * t) / (1 + factor * Real.exp (-beta * o))) * x : ℝ) : ℂ))
    omegas d)

/-- Matrix times vector, `kernel.dot(spectral_fn)`. -/
noncomputable def kernelDot (kernel : List (List ℂ)) (v : List ℝ) : List ℂ :=
  kernel.map fun row => (List.zipWith (fun k a => k * ((a : ℝ) : ℂ)) row v).sum

/-- `grnfn_imagtime_ft`, greens_fns.py 180-217. The maximum of an empty array raises `ValueError`;
warnings are not modelled. -/
noncomputable def imagtimeFt (mats taus : List ℝ) (g : List ℂ) (beta : ℝ) : Res (List ℂ) :=
  if taus = [] then .error .value
  else if g.length = taus.length then
    let samples := taus.zip g
    let samples :=
      if (∃ t ∈ taus, beta < npRound 14 t) ∨ (∃ t ∈ taus, npRound 14 t < 0) then
        samples.filter fun p => 0 ≤ npRound 14 p.1 ∧ npRound 14 p.1 ≤ beta
      else samples
    .ok (mats.map fun w : ℝ =>
      trapz (samples.map fun p => p.2 * Complex.exp (Complex.I * (w : ℂ) * (p.1 : ℂ)))
        (samples.map fun p => p.1))
  else .error .value

/-- `grnfn_imagfrq_ft`, greens_fns.py 220-243. -/
noncomputable def imagfrqFt (taus mats : List ℝ) (g : List ℂ) (beta : ℝ) : Res (List ℂ) :=
  if g.length = mats.length then
    .ok (taus.map fun t : ℝ =>
      (List.zipWith (fun (z : ℂ) (w : ℝ) => z * Complex.exp (-Complex.I * (w : ℂ) * (t : ℂ)))
        g mats).sum / (beta : ℂ))
  else .error .value

/-- `np.heaviside(t, 0)`. -/
noncomputable def heaviside0 (t : ℝ) : ℝ := if 0 < t then 1 else 0

/-- `get_noninteracting_gfn_tau` for one time, greens_fns.py 247-271. Every format other than
`"fermion"` raises. -/
noncomputable def noninteractingTau (tau epsilon beta : ℝ) (format : String) : Res ℝ :=
  if format = "fermion" then
    let f := 1 / (1 + Real.exp (beta * epsilon))
    .ok (-Real.exp (-epsilon * tau) * ((1 - f) * heaviside0 tau - f * heaviside0 (-1 * tau)))
  else .error .generic

/-- `get_noninteracting_gfn_imagfrq`, greens_fns.py 274-296: values and frequencies. -/
noncomputable def noninteractingImagfrq (maxFrq epsilon beta : ℝ) (format : String) :
    Res (List ℂ × List ℝ) :=
  if format = "fermion" then do
    let w ← getMatsubaraFrqs beta maxFrq format
    pure (w.map fun x : ℝ => 1 / (Complex.I * (x : ℂ) - (epsilon : ℂ)), w)
  else .error .generic

/-- `get_noninteracting_spectral_fn` at one frequency, greens_fns.py 299-312. -/
noncomputable def spectralFn (omega epsilon eta : ℝ) : ℝ :=
  2 * Real.pi * (eta / Real.pi / (eta ^ 2 + (omega - epsilon) ^ 2))

/-- `chi_hydro` at one frequency, greens_fns.py 316-340; `none` is `gamma = np.inf`. -/
noncomputable def chiHydro (w : ℂ) (k chi0 d0 d2 : ℝ) (gamma : Option ℝ) : ℂ :=
  let r : ℂ := ((d0 * k ^ 2 + d2 * k ^ 4 : ℝ) : ℂ)
  match gamma with
  | some g => (chi0 : ℂ) / (1 - Complex.I * w / r - w ^ 2 / ((g : ℂ) * r))
  | none => (chi0 : ℂ) / (1 - Complex.I * w / r)

/-- `field_snap_off_w` at one frequency, greens_fns.py 343-354. -/
noncomputable def fieldSnapOff (w ho eta : ℝ) : ℂ := (ho : ℂ) / (Complex.I * (w : ℂ) + (eta : ℂ))

/-- `phi_t` at one time, greens_fns.py 357-372. -/
noncomputable def phiT (t : ℝ) (ws : List ℝ) (chi : List ℂ) : ℂ :=
  1 / (2 * Real.pi : ℂ) * trapz (List.zipWith (fun (c : ℂ) (w : ℝ) =>
    c * Complex.exp (-Complex.I * (w : ℂ) * (t : ℂ))) chi ws) ws

/-- `obs_kt` at one time, greens_fns.py 374-393. -/
noncomputable def obsKt (t : ℝ) (ws : List ℝ) (chi field : List ℂ) : ℂ :=
  1 / (2 * Real.pi : ℂ) * trapz (List.zipWith (fun (c : ℂ) (w : ℝ) =>
    c * Complex.exp (-Complex.I * (w : ℂ) * (t : ℂ))) (List.zipWith (· * ·) chi field) ws) ws

end ED
