import Verif.Model.Mat
import Mathlib.Algebra.Order.Floor.Ring
import Mathlib.Algebra.Order.Ring.Int

/-!
# Numpy primitives: rounding and n-dimensional arrays
-/

namespace ED

/-- `np.rint`: the nearest integer, ties to the even one. -/
def rint {K : Type*} [Field K] [LinearOrder K] [FloorRing K] (x : K) : ℤ :=
  if x - (⌊x⌋ : K) < 1 / 2 then ⌊x⌋
  else if 1 / 2 < x - (⌊x⌋ : K) then ⌊x⌋ + 1
  else if Even ⌊x⌋ then ⌊x⌋ else ⌊x⌋ + 1

/-- `np.round(x, d)`: numpy computes `np.rint(x * 10**d) / 10**d`. -/
def npRound {K : Type*} [Field K] [LinearOrder K] [FloorRing K] (d : ℕ) (x : K) : K :=
  (rint (x * 10 ^ d) : K) / 10 ^ d

/-- An n-dimensional numpy array: its shape and the entry at every multi-index. Only multi-indices
inside the shape are meaningful. -/
structure ND (α : Type) where
  shape : List ℕ
  data : List ℕ → α

/-- The multi-index of the original array for a multi-index of the squeezed one. -/
def unsqueeze : List ℕ → List ℕ → List ℕ
  | [], _ => []
  | n :: s, idx =>
    if n = 1 then 0 :: unsqueeze s idx
    else match idx with
      | [] => 0 :: unsqueeze s []
      | i :: idx => i :: unsqueeze s idx

/-- `np.squeeze(a)`: drop all axes of length one. -/
def ND.squeeze {α : Type} (a : ND α) : ND α :=
  ⟨a.shape.filter (· ≠ 1), fun idx => a.data (unsqueeze a.shape idx)⟩

/-- `np.expand_dims(a, axis=1)` for a one-dimensional array. -/
def ND.expand1 {α : Type} (a : ND α) : ND α :=
  ⟨a.shape ++ [1], fun idx => a.data (idx.take 1)⟩

end ED
