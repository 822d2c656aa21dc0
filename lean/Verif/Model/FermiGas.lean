import Verif.Model.Numpy
import Mathlib.Data.List.Sort
import Mathlib.Analysis.SpecialFunctions.Trigonometric.Basic
import Mathlib.Analysis.Complex.Exponential

/-!
# Model of `fermi_gas.py`

The Python functions accept arrays and broadcast them. They are modelled for single numbers; only
`fg_realspace_gfn`, which loops over arrays itself, also has a version for lists. A number that numpy
would represent as `nan` is `none`.
-/

namespace ED

open scoped BigOperators

/-- An inverse temperature argument: a number, or `np.inf`. -/
inductive InvTemp
  | fin (b : ℝ)
  | inf

/-- `fermi`, fermi_gas.py 9-41. At `np.inf` the two masked assignments overwrite every entry. -/
noncomputable def fermi (beta : InvTemp) (mu energy : ℝ) : ℝ :=
  match beta with
  | .fin b => 1 / (Real.exp (b * (energy - mu)) + 1)
  | .inf => if energy - mu ≤ 0 then 1 else 0

/-- The values `(dfdu, dfde, dfdbeta)` of `fermi_derivatives`, fermi_gas.py 44-90. At `np.inf` and
`energy >= mu` the product `beta * (energy - mu)` is `inf` or `nan` and the masked assignments apply;
for `energy < mu` the first two are `inf * 0`, which is `nan`, and the third is zero. -/
noncomputable def fermiDerivatives (beta : InvTemp) (mu energy eta : ℝ) :
    Option ℝ × Option ℝ × Option ℝ :=
  let dfdx := -fermi beta mu energy * (1 - fermi beta mu energy)
  match beta with
  | .fin b => (some (-b * dfdx), some (b * dfdx), some ((energy - mu) * dfdx))
  | .inf =>
    if energy - mu < 0 then (none, none, some ((energy - mu) * dfdx))
    else
      let l := Real.pi / eta / ((energy - mu) ^ 2 + eta ^ 2)
      (some l, some l, some l)

/-- One axis of `get_allowed_kvects`, fermi_gas.py 107-118. `np.arange(0, nx)` times the spacing;
in balanced mode values of at least `pi` are shifted down and the list is sorted. -/
noncomputable def kAxis (n : ℕ) (mode : String) : Res (List ℝ) :=
  if n = 0 then .error .zeroDiv
  else
    let ks := (List.range n).map fun j : ℕ => 2 * Real.pi / n * (j : ℝ)
    if mode = "balanced" then
      .ok ((ks.map fun k => if k ≥ Real.pi then k - 2 * Real.pi else k).insertionSort (· ≤ ·))
    else if mode = "positive" then .ok ks
    else .error .generic

/-- `get_allowed_kvects`, fermi_gas.py 93-124: the raveled grids `kxkx`, `kyky` as a list of pairs
(`np.meshgrid` varies the first axis fastest), and the two spacings. -/
noncomputable def getAllowedKvects (nx ny : ℕ) (mode : String) : Res (List (ℝ × ℝ) × ℝ × ℝ) := do
  if nx = 0 ∨ ny = 0 then throw .zeroDiv
  let kxs ← kAxis nx mode
  let kys ← kAxis ny mode
  pure (kys.flatMap fun ky => kxs.map fun kx => (kx, ky), 2 * Real.pi / nx, 2 * Real.pi / ny)

/-- `get_energy_spacing`, fermi_gas.py 127-141. `np.min` of an empty array raises `ValueError`. -/
noncomputable def getEnergySpacing (es : List ℝ) : Res (ℝ × ℝ × ℝ) :=
  let s := es.insertionSort (· ≤ ·)
  let d := (List.zipWith (fun a b => npRound 12 (a - b)) s.tail s).filter fun x => 0 < x
  match d with
  | [] => .error .value
  | x :: xs => .ok (xs.foldl min x, xs.foldl max x, (x :: xs).sum / ((x :: xs).length : ℝ))

/-- `get_dos`, fermi_gas.py 144-158: `np.histogram` counts energies in half-open bins, the last bin
being closed, and the counts are divided by the widths and the number of energies. -/
noncomputable def getDos (es ends : List ℝ) : List ℝ :=
  (List.range (ends.length - 1)).map fun i =>
    let a := ends.getD i 0
    let b := ends.getD (i + 1) 0
    let num := (es.filter fun e => a ≤ e ∧ (e < b ∨ (i + 2 = ends.length ∧ e = b))).length
    (num : ℝ) / (b - a) / es.length

/-- `np.heaviside(t, 1.)`. -/
noncomputable def heaviside1 (t : ℝ) : ℝ := if t < 0 then 0 else 1

/-- The dispersion lambdas of `fg_kspace_gfns`, fermi_gas.py 266-271. -/
noncomputable def disp2 (k : ℝ × ℝ) : ℝ := -2 * (Real.cos k.1 + Real.cos k.2)

/-- See `disp2`. -/
noncomputable def disp1 (k : ℝ) : ℝ := -2 * Real.cos k

/-- `fg_kspace_gfns` for one wavevector of energy `ek`, fermi_gas.py 275-303: the value and the
returned derivative. -/
noncomputable def kspaceGfn (beta : InvTemp) (mu ek time : ℝ) (type : String) :
    Res (ℂ × Option ℂ) :=
  let ph : ℂ := Complex.exp (-Complex.I * ((ek - mu) * time : ℝ))
  let f : ℂ := (fermi beta mu ek : ℝ)
  let dfdmu : Option ℝ := (fermiDerivatives beta mu ek (1 / 10)).1
  if type = "greater" then
    .ok (-Complex.I * ph * (1 - f),
      dfdmu.map fun d : ℝ => (time : ℂ) * ph * (1 - f) + Complex.I * ph * (d : ℂ))
  else if type = "lesser" then
    .ok (Complex.I * ph * f,
      dfdmu.map fun d : ℝ => -(time : ℂ) * ph * f + Complex.I * ph * (d : ℂ))
  else if type = "retarded" then
    .ok (-Complex.I * (heaviside1 time : ℝ) * ph, some ((time : ℂ) * (heaviside1 time : ℝ) * ph))
  else if type = "advanced" then
    .ok (Complex.I * (heaviside1 (-time) : ℝ) * ph,
      some (-(time : ℂ) * (heaviside1 (-time) : ℝ) * ph))
  else if type = "time-ordered" then
    .ok (-Complex.I * ph * ((heaviside1 time : ℝ) * (1 - f) - (heaviside1 (-time) : ℝ) * f), some 0)
  else .error .value

/-- Sum of numpy numbers: `nan` if any of them is. -/
def nanSum : List (Option ℂ) → Option ℂ
  | [] => some 0
  | none :: _ => none
  | some x :: l => (nanSum l).map (x + ·)

/-- The wavevectors, as pairs of Fourier phase and energy, used by `fg_realspace_gfn`,
fermi_gas.py 363-381. -/
noncomputable def realspaceModes (c : ℤ × ℤ) (nsites : ℕ) (dim : String) :
    Res (List (ℂ × ℝ)) :=
  if dim = "2d" then do
    let (ks, _, _) ← getAllowedKvects nsites nsites "balanced"
    pure (ks.map fun k =>
      (Complex.exp (Complex.I * k.1 * c.1 + Complex.I * k.2 * c.2), disp2 k))
  else if dim = "1d" then do
    let (ks, _, _) ← getAllowedKvects nsites 1 "balanced"
    pure (ks.map fun k => (Complex.exp (Complex.I * k.1 * c.1), disp1 k.1))
  else .error .generic

/-- `fg_realspace_gfn` for single numbers, fermi_gas.py 361-394. The comparison of the mean spacing
with the temperature only prints a warning, but computing the spacing can raise. -/
noncomputable def realspaceGfn (beta : InvTemp) (mu : ℝ) (c : ℤ × ℤ) (time : ℝ) (nsites : ℕ)
    (dim type : String) : Res (ℂ × Option ℂ) := do
  let modes ← realspaceModes c nsites dim
  let g ← modes.mapM fun m => do
    let (g, d) ← kspaceGfn beta mu m.2 time type
    pure (m.1 * g, d.map (m.1 * ·))
  let _ ← getEnergySpacing (modes.map (·.2))
  pure (1 / (modes.length : ℂ) * (g.map (·.1)).sum,
    (nanSum (g.map (·.2))).map (1 / (modes.length : ℂ) * ·))

/-- `fg_realspace_gfn` for one-dimensional arrays, fermi_gas.py 329-360. An empty array does not
broadcast against the wavevectors and raises `ValueError`. -/
noncomputable def realspaceGfnList (betas : List InvTemp) (mus : List ℝ) (c : ℤ × ℤ) (time : ℝ)
    (nsites : ℕ) (dim type : String) : Res (List (ℂ × Option ℂ)) := do
  let (bs, ms) ←
    match betas, mus with
    | [b], m :: m' :: ms => .ok ((m :: m' :: ms).map fun _ => b, m :: m' :: ms)
    | b :: b' :: bs, [m] => .ok (b :: b' :: bs, (b :: b' :: bs).map fun _ => m)
    | bs, ms => if bs.length = ms.length ∧ bs ≠ [] then .ok (bs, ms) else .error .value
  (bs.zip ms).mapM fun p => realspaceGfn p.1 p.2 c time nsites dim type

/-- `fg_density`, fermi_gas.py 398-415. -/
noncomputable def fgDensity (beta : InvTemp) (mu : ℝ) (nsites : ℕ) (dim : String) : Res ℝ := do
  let g ← realspaceGfn beta mu (0, 0) 0 nsites dim "lesser"
  pure ‖g.1‖

/-- `fg_compressibility`, fermi_gas.py 483-502. -/
noncomputable def fgCompressibility (beta : InvTemp) (mu : ℝ) (nsites : ℕ) (dim : String) :
    Res (Option ℝ) := do
  let g ← realspaceGfn beta mu (0, 0) 0 nsites dim "lesser"
  pure (g.2.map fun z => ‖z‖)

/-- `fg_mu` for single numbers, fermi_gas.py 459-478. `root g` is what the root finder returns for
the function `g`, `minimizer g` what the minimiser returns. -/
noncomputable def fgMu (root minimizer : (ℝ → Res (Option ℝ)) → Res ℝ) (beta : InvTemp)
    (density : ℝ) (nsites : ℕ) (dim : String) : Res ℝ :=
  let minFn : ℝ → Res ℝ := fun mu => do
    let n ← fgDensity beta mu nsites dim
    pure |n - density|
  let jac : ℝ → Res (Option ℝ) := fun mu => fgCompressibility beta mu nsites dim
  if density = 1 / 2 then .ok 0
  else match beta with
    | .fin _ => root fun mu => do
        let m ← minFn mu
        let j ← jac mu
        pure (j.map (2 * m * ·))
    | .inf => minimizer fun mu => do
        let m ← minFn mu
        pure (some m)

/-- `fg_corr`, fermi_gas.py 506-525. -/
noncomputable def fgCorr (beta : InvTemp) (mu : ℝ) (c : ℤ × ℤ) (nsites : ℕ) (dim : String) :
    Res ℝ := do
  let g ← realspaceGfn beta mu c 0 nsites dim "lesser"
  let delta : ℝ := if c.1 = 0 ∧ c.2 = 0 then 1 else 0
  pure (delta * ‖g.1‖ - ‖g.1‖ ^ 2)

/-- The energies `es`, `es_q` of `fg_density_response`, fermi_gas.py 575-597. The lambda of the
one-dimensional branch ignores its argument and uses `kxkx`. -/
noncomputable def responseEnergies (k : ℝ × ℝ) (nsites : ℕ) (dim : String) :
    Res (List (ℝ × ℝ)) :=
  if dim = "2d" then do
    let (ks, _, _) ← getAllowedKvects nsites nsites "balanced"
    pure (ks.map fun p => (disp2 p, disp2 (p.1 + k.1, p.2 + k.2)))
  else if dim = "1d" then do
    let (ks, _, _) ← getAllowedKvects nsites 1 "balanced"
    let dispersion : ℝ × ℝ → ℝ → ℝ := fun kxkx _ => disp1 kxkx.1
    pure (ks.map fun p => (dispersion p p.1, dispersion p (p.1 + k.1)))
  else .error .generic

/-- `fg_density_response` for single numbers, fermi_gas.py 613-623: real and imaginary part. Division
by complex zero has a `nan` component in numpy, so exactly the terms with vanishing denominator are
replaced by `lim`. -/
noncomputable def fgDensityResponse (beta : InvTemp) (mu : ℝ) (k : ℝ × ℝ) (omega eta : ℝ)
    (nsites : ℕ) (dim : String) : Res (Option (ℝ × ℝ)) := do
  let es ← responseEnergies k nsites dim
  let terms : List (Option ℂ) := es.map fun e =>
    let den : ℂ := ((omega + e.1 - e.2 : ℝ) : ℂ) + Complex.I * (eta : ℝ)
    if den = 0 then ((fermiDerivatives beta mu e.1 0).1).map fun d : ℝ => -(d : ℂ)
    else some (((fermi beta mu e.1 - fermi beta mu e.2 : ℝ) : ℂ) / den)
  pure ((nanSum terms).map fun s =>
    ((s / (es.length : ℂ)).re, (s / (es.length : ℂ)).im))

/-- `fg_magnetic_response`, fermi_gas.py 626-645. -/
noncomputable def fgMagneticResponse := fgDensityResponse

/-- `fg_singles`, fermi_gas.py 649-680. -/
noncomputable def fgSingles (beta : InvTemp) (muUp muDn : ℝ) (nsites : ℕ) (dim : String) : Res ℝ := do
  let nUp ← fgDensity beta muUp nsites dim
  let nDn ← fgDensity beta muDn nsites dim
  pure (nUp + nDn - 2 * nUp * nDn)

/-- `fg_singles_corr`, fermi_gas.py 683-748. -/
noncomputable def fgSinglesCorr (beta : InvTemp) (muUp muDn : ℝ) (c : ℤ × ℤ) (nsites : ℕ)
    (dim : String) : Res ℝ := do
  let nUp ← fgDensity beta muUp nsites dim
  let nDn ← fgDensity beta muDn nsites dim
  let nUpCorr ← fgCorr beta muUp c nsites dim
  let nDnCorr ← fgCorr beta muDn c nsites dim
  pure (nUpCorr * (1 + 4 * nDn ^ 2 - 4 * nDn) + nDnCorr * (1 + 4 * nUp ^ 2 - 4 * nUp) +
    4 * nUpCorr * nDnCorr)

/-- `fg_doubles`, fermi_gas.py 751-783. -/
noncomputable def fgDoubles (beta : InvTemp) (muUp muDn : ℝ) (nsites : ℕ) (dim : String) : Res ℝ := do
  let nUp ← fgDensity beta muUp nsites dim
  let nDn ← fgDensity beta muDn nsites dim
  pure (nUp * nDn)

/-- `fg_doubles_corr`, fermi_gas.py 786-830. -/
noncomputable def fgDoublesCorr (beta : InvTemp) (muUp muDn : ℝ) (c : ℤ × ℤ) (nsites : ℕ)
    (dim : String) : Res ℝ := do
  let nUp ← fgDensity beta muUp nsites dim
  let nDn ← fgDensity beta muDn nsites dim
  let nUpCorr ← fgCorr beta muUp c nsites dim
  let nDnCorr ← fgCorr beta muDn c nsites dim
  pure (nUp ^ 2 * nDnCorr + nDn ^ 2 * nUpCorr + nUpCorr * nDnCorr)

/-- `fg_sz_corr`, fermi_gas.py 833-854. -/
noncomputable def fgSzCorr (beta : InvTemp) (muUp muDn : ℝ) (c : ℤ × ℤ) (nsites : ℕ)
    (dim : String) : Res ℝ := do
  let nUpCorr ← fgCorr beta muUp c nsites dim
  let nDnCorr ← fgCorr beta muDn c nsites dim
  pure (nUpCorr + nDnCorr)

/-- `fg_sx_corr`, fermi_gas.py 857-879. -/
noncomputable def fgSxCorr (beta : InvTemp) (muUp muDn : ℝ) (c : ℤ × ℤ) (nsites : ℕ)
    (dim : String) : Res ℝ := do
  let u ← realspaceGfn beta muUp c 0 nsites dim "lesser"
  let d ← realspaceGfn beta muDn c 0 nsites dim "lesser"
  let delta : ℝ := if c.1 = 0 ∧ c.2 = 0 then 1 else 0
  pure ((delta * (‖u.1‖ + ‖d.1‖) : ℝ) - u.1 * (starRingEnd ℂ) d.1 -
    d.1 * (starRingEnd ℂ) u.1 : ℂ).re

end ED
