import Mathlib.Data.List.Nodup
import Mathlib.Logic.Equiv.Defs
import Mathlib.Algebra.Group.End

/-! # Specification vocabulary: cycle lists of site permutations -/

namespace ED

/-- `cycles` lists disjoint cycles of the permutation `π`: `π` sends every listed site to the next
one of its cycle (cyclically) and fixes every site that is not listed. -/
structure CyclesOf {n : ℕ} (cycles : List (List (Fin n))) (π : Equiv.Perm (Fin n)) : Prop where
  nodup : cycles.flatten.Nodup
  next : ∀ c ∈ cycles, ∀ (k : ℕ) (h : k < c.length),
    π c[k] = c[(k + 1) % c.length]'(Nat.mod_lt _ (by omega))
  fixed : ∀ i, (∀ c ∈ cycles, i ∉ c) → π i = i

/-- The argument passed to the library: site numbers. -/
def siteNumbers {n : ℕ} (cycles : List (List (Fin n))) : List (List ℕ) :=
  cycles.map (·.map Fin.val)

end ED
