import Verif.Spec.Conf
import Mathlib.Order.Monotone.Basic

/-! # Specification vocabulary: projectors that select basis states -/

namespace ED

/-- The rows of `P` are exactly the unit vectors of the basis states (numbered `0 … n-1`) having
property `p`, each once, in increasing order. -/
def Mat.Selects (P : Mat) (n : ℕ) (p : Fin n → Prop) : Prop :=
  P.cols = n ∧ ∃ sel : Fin P.rows → Fin n, StrictMono sel ∧ Set.range sel = {j | p j} ∧
    ∀ (r : Fin P.rows) (j : Fin n), P.e r j = if j = sel r then 1 else 0

/-- The matrix held by an array of known shape. -/
def Mat.toMatrix (P : Mat) (k n : ℕ) : Matrix (Fin k) (Fin n) ℂ := Matrix.of fun i j => P.e i j

end ED
