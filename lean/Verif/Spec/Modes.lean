import Mathlib.Data.Complex.Basic
import Mathlib.Data.Matrix.Mul

/-! # Specification vocabulary: response functions of operators that change the energy by a fixed amount -/

namespace ED

open Matrix

/-- The sign between the two orders of a pair of operators: minus for bosons, plus for fermions. -/
inductive Exchange : String → ℝ → Prop
  | boson : Exchange "boson" (-1)
  | fermion : Exchange "fermion" 1

/-- `X Y + s Y X`: the commutator for `s = -1`, the anticommutator for `s = 1`. -/
noncomputable def bracket {ι : Type*} [Fintype ι] (s : ℝ) (X Y : Matrix ι ι ℂ) : Matrix ι ι ℂ := X * Y + (s : ℂ) • (Y * X)

/-- `X` changes the energy by exactly `x`: `[H, X] = x X`. -/
def Shifts {ι : Type*} [Fintype ι] (H X : Matrix ι ι ℂ) (x : ℝ) : Prop := H * X = X * H + (x : ℂ) • X

/-- A peak of width `η` at zero, of height `1 / η` and area `π`. -/
noncomputable def peak (η w : ℝ) : ℝ := η / (η ^ 2 + w ^ 2)

end ED
