import Verif.Model.Mat
import Mathlib.Analysis.SpecialFunctions.Trigonometric.Arctan

/-!
# Model of the coordinate transformations of `ed_symmetry.py`

The library's functions take arrays of x and y coordinates and act on every column separately; the
model gives the action on one point `(x, y)`.
-/

namespace ED

/-- `np.array([[cos a, -sin a], [sin a, cos a]]).dot(...)` on one column,
ed_symmetry.py 36-37 and 69. -/
noncomputable def rotMatVec (a : ℝ) (p : ℝ × ℝ) : ℝ × ℝ :=
  (Real.cos a * p.1 + -Real.sin a * p.2, Real.sin a * p.1 + Real.cos a * p.2)

/-- `rotation_mat.transpose().dot(...)` on one column, ed_symmetry.py 73. -/
noncomputable def rotMatTVec (a : ℝ) (p : ℝ × ℝ) : ℝ × ℝ :=
  (Real.cos a * p.1 + Real.sin a * p.2, -Real.sin a * p.1 + Real.cos a * p.2)

/-- `getRotFn(n_rotations, cx, cy)` applied to a point, ed_symmetry.py 22-40. Zero rotations make
`2 * np.pi / n_rotations` raise. -/
noncomputable def getRotFn (n : ℤ) (c : ℝ × ℝ) : Res (ℝ × ℝ → ℝ × ℝ) :=
  if n = 0 then .error .zeroDiv
  else
    let angle := 2 * Real.pi / (n : ℝ)
    .ok fun p =>
      let q := rotMatVec angle (p.1 - c.1, p.2 - c.2)
      (q.1 + c.1, q.2 + c.2)

/-- `getReflFn(reflection_vect, cx, cy)` applied to a point, ed_symmetry.py 43-77. -/
noncomputable def getReflFn (v : ℝ × ℝ) (c : ℝ × ℝ) : Res (ℝ × ℝ → ℝ × ℝ) :=
  if v.1 = 0 ∧ v.2 = 0 then .error .generic
  else
    let angle := if v.2 = 0 then Real.pi / 2 else Real.arctan (v.1 / v.2)
    .ok fun p =>
      let q := rotMatVec angle (p.1 - c.1, p.2 - c.2)
      -- `reflection_y_axis = [[-1, 0], [0, 1]]`
      let r := rotMatTVec angle (-1 * q.1 + 0 * q.2, 0 * q.1 + 1 * q.2)
      (r.1 + c.1, r.2 + c.2)

/-- `getInversionFn(cx, cy)` applied to a point, ed_symmetry.py 80-90. -/
noncomputable def getInversionFn (c : ℝ × ℝ) : ℝ × ℝ → ℝ × ℝ :=
  fun p => (-(p.1 - c.1) + c.1, -(p.2 - c.2) + c.2)

/-- `getTranslFn(translation_vector)` applied to a point, ed_symmetry.py 93-107. -/
noncomputable def getTranslFn (v : ℝ × ℝ) : ℝ × ℝ → ℝ × ℝ :=
  fun p => (p.1 + v.1, p.2 + v.2)

end ED
