import Verif.Model.Thermo
import Verif.Model.Greens

/-! # Model of `examples/4spins_test.py` -/

namespace ED

/-- `js`, examples/4spins_test.py 25: minus the matrix of the couplings. -/
noncomputable def fourSpinsJ (j1 j2 j3 : ℝ) (a b : ℕ) : ℂ :=
  -(((([[0, j1, j2, j3], [j1, 0, j2, j3], [j2, j2, 0, j3], [j3, j3, j3, 0]] : List (List ℝ)).getD a []).getD b 0 : ℝ) : ℂ)

/-- `eigs_analytic`, examples/4spins_test.py 33-51, sorted. The spins are half of natural numbers; in floating point these
are exact. -/
noncomputable def fourSpinsEigs (twoS : ℕ) (j1 j2 j3 : ℝ) : List ℝ :=
  let s1 : ℝ := twoS / 2
  let s2 := s1
  let s3 := s1
  let s4 := s1
  ((npArange |s1 - s2| (s1 + s2 + 1) 1).flatMap fun s12 =>
    (npArange |s3 - s12| (s3 + s12 + 1) 1).flatMap fun s123 =>
      (npArange |s4 - s123| (s4 + s123 + 1) 1).flatMap fun s1234 =>
        let eig := j1 * (s1 * (s1 + 1) + s2 * (s2 + 1)) + j2 * s3 * (s3 + 1) + j3 * s4 * (s4 + 1) +
          (j2 - j1) * s12 * (s12 + 1) + (j3 - j2) * s123 * (s123 + 1) - j3 * s1234 * (s1234 + 1)
        List.replicate ⌊2 * s1234 + 1⌋₊ eig).mergeSort fun a b => decide (a ≤ b)

/-- The script, examples/4spins_test.py 21-53: the energies, the values they are compared with, and the largest difference
(`np.max(eigs_analytic - eig_vals)`; the arrays have the same length or cannot be subtracted). The matrices of the geometry
are not read, since the couplings are given as an array. -/
noncomputable def fourSpins (S : EigSolvers) (adj phase : ℕ → ℕ → ℂ) (twoS : ℕ) (j1 j2 j3 : ℝ) : Res (List ℝ × List ℝ × ℝ) := do
  let js := JArg.square 4 (fourSpinsJ j1 j2 j3)
  let F ← Spins.init 4 twoS adj phase js js js (.scalar 0) (.scalar 0) (.scalar 0) false
  let w ← spinEnergies S F
  let a := fourSpinsEigs twoS j1 j2 j3
  if a.length ≠ w.length then throw .value
  match List.zipWith (· - ·) a w with
  | [] => throw .value
  | d :: ds => pure (w, a, ds.foldl max d)

end ED
