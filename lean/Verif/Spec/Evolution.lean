import Verif.Spec.Conf
import Verif.Spec.Thermal
import Verif.Model.Numpy

/-! # Specification vocabulary: results of time evolution -/

namespace ED

open scoped BigOperators
open Matrix

/-- The call returns an array of shape (dimension, number of times) whose column `t` is the state
`f t`. -/
def GivesStates {ι : Type} [Fintype ι] [Basis ι] (r : Res (ND ℂ)) (nt : ℕ) (f : Fin nt → ι → ℂ) :
    Prop :=
  ∃ a, r = .ok a ∧ a.shape = [Fintype.card ι, nt] ∧
    ∀ (i : ι) (t : Fin nt), a.data [Basis.num i, t] = f t i

end ED
