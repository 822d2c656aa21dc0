import Verif.Props.Fermions

/-! # Models of one species of fermions -/

namespace ED.Props

open Matrix

/-- C26 and C28, models of one species: the Hamiltonian exists exactly if there is no interaction between species. -/
theorem C26_exists_iff (F : Fermions) (h1 : 1 ≤ F.nspecies) : (∃ A, F.createH none = .ok A) ↔ 2 ≤ F.nspecies ∨ ∀ i : Fin F.nsites, F.us i = 0 := by
  constructor
  · rintro ⟨A, hA⟩
    by_contra h
    rw [not_or, not_forall] at h
    obtain ⟨h2, i, hi⟩ := h
    obtain ⟨e, he⟩ := C25_one_species_interaction_fails F (by omega) i hi
    rw [hA] at he
    cases he
  · intro h
    obtain ⟨A, hA, -⟩ := C27_hamiltonian F h
    exact ⟨A, hA⟩

/-- C28, models of one species: without hopping the Hamiltonian is diagonal with the classical energy. -/
theorem C28_one_species (F : Fermions) (h1 : F.nspecies ≤ 1) (hu : ∀ i : Fin F.nsites, F.us i = 0)
    (ht : ∀ (i j : Fin F.nsites) (s : Fin F.nspecies), F.ts i j s = 0) :
    Gives (F.createH none) (Matrix.diagonal fun n : Conf (F.nsites * F.nspecies) 2 =>
      ∑ i : Fin F.nsites, ∑ j : Fin F.nsites, ∑ s : Fin F.nspecies, (if j ≤ i then
        F.usSame i j s * ((n (mode i s) : ℕ) * (n (mode j s) : ℕ)) else 0) +
      ∑ i : Fin F.nsites, ∑ s : Fin F.nspecies, (F.pots i s - F.mus s) * (n (mode i s) : ℕ)) := by
  refine (C27_hamiltonian F (Or.inr hu)).of_eq ?_
  have e0 : ∀ x : Fin 2, (if x = 1 then (1 : ℂ) else 0) = ((x : ℕ) : ℂ) := by
    intro x; fin_cases x <;> simp
  have hz : hubHop (fun (i j : Fin F.nsites) (s : Fin F.nspecies) => F.ts i j s * ((|F.xdist i j| + |F.ydist i j| : ℝ) : ℂ)) = 0 := by
    rw [← hubHop_zero]
    exact hubHop_congr fun i j s _ => by rw [ht, zero_mul]
  ext s t
  rw [hz, add_zero, hubInter, dif_neg (by omega), zero_add, Matrix.add_apply, hubSame_apply, hubPot_apply, diagonal_apply]
  simp only [e0]
  split_ifs
  · ring
  · simp

/-- Three sites with interactions between neighbours and a local potential. -/
example : ∃ F : Fermions, F.nspecies ≤ 1 ∧ F.nsites = 3 ∧ (∀ i : Fin F.nsites, F.us i = 0) ∧
    (∀ (i j : Fin F.nsites) (s : Fin F.nspecies), F.ts i j s = 0) ∧ F.usSame 1 0 0 = 2 ∧ F.pots 2 0 = 1 :=
  ⟨⟨3, 1, fun _ _ _ => 0, fun _ => 0, fun _ _ _ => 2, fun _ => 0, fun _ _ => 1, fun _ _ => 0, fun _ _ => 0⟩, le_rfl, rfl, fun _ => rfl,
    fun _ _ _ => rfl, rfl, rfl⟩

end ED.Props
