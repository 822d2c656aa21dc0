import Verif.Props.ParticleHole
import Verif.Lemmas.RingSectors
import Verif.Lemmas.NearAverage

/-! # Averages at equivalent sites, with fixed numbers of particles -/

namespace ED.Props

open Matrix Spec

section Sector

variable {ι κ : Type} [Fintype ι] [DecidableEq ι] [Fintype κ] [DecidableEq κ]

/-- A unitary operator that does not leave the selected space and commutes with the Hamiltonian does not change averages in this
space. -/
theorem sector_invariant {P : Matrix κ ι ℂ} (hP : P * Pᴴ = 1) {U H O O' : Matrix ι ι ℂ} (hl : Uᴴ * U = 1) (hr : U * Uᴴ = 1)
    (hQ : U * (Pᴴ * P) = Pᴴ * P * U) (hc : U * H = H * U) (hO : U * O * Uᴴ = O') [Nonempty κ] {m : ℕ} {V : Matrix κ (Fin (m + 1)) ℂ}
    {E : Fin (m + 1) → ℝ} (h1 : Vᴴ * V = 1) (h2 : V * Vᴴ = 1) (h3 : P * H * Pᴴ * V = V * diagonal fun k => (E k : ℂ))
    (hH : (P * H * Pᴴ).IsHermitian) (T : ℝ) :
    canonical T E (fun k => (expect (P * O' * Pᴴ) (colOf V k)).re) = canonical T E fun k => (expect (P * O * Pᴴ) (colOf V k)).re := by
  have hQ' : Pᴴ * P * Uᴴ = Uᴴ * (Pᴴ * P) := by
    have := congrArg conjTranspose hQ
    simpa only [conjTranspose_mul, conjTranspose_conjTranspose] using this
  have key : ∀ X : Matrix ι ι ℂ, P * U * Pᴴ * (P * X * Pᴴ) * (P * U * Pᴴ)ᴴ = P * (U * X * Uᴴ) * Pᴴ := by
    intro X
    rw [conjTranspose_mul, conjTranspose_mul, conjTranspose_conjTranspose]
    calc _ = P * (U * (Pᴴ * P)) * X * (Pᴴ * P * Uᴴ) * Pᴴ := by simp only [Matrix.mul_assoc]
      _ = P * Pᴴ * P * U * X * Uᴴ * (Pᴴ * (P * Pᴴ)) := by rw [hQ, hQ']; simp only [Matrix.mul_assoc]
      _ = _ := by rw [hP]; simp only [Matrix.mul_assoc, Matrix.one_mul, Matrix.mul_one]
  have u1 : P * U * Pᴴ * (P * U * Pᴴ)ᴴ = 1 := by
    have := key 1
    rwa [Matrix.mul_one, hP, Matrix.mul_one, Matrix.mul_one, hr, Matrix.mul_one, hP] at this
  have u2 : (P * U * Pᴴ)ᴴ * (P * U * Pᴴ) = 1 := mul_eq_one_comm.1 u1
  have h := canonical_all (E := E) (E' := E) (a := 0) (b := 1) (v := fun k => (expect (P * O * Pᴴ) (colOf V k)).re)
    (v' := fun k => (expect (P * O' * Pᴴ) (colOf V k)).re) (fun T hT => ?_) T
  · rw [h, zero_add, one_mul]
  · rw [zero_add, one_mul, ← thermalAvg_eig h1 h2 h3 _ hT, ← thermalAvg_eig h1 h2 h3 _ hT, ← thermalAvg_unitary u1 u2 hH (P * O * Pᴴ) hT, key, key,
      hO, hc, Matrix.mul_assoc H, hr, Matrix.mul_one]

end Sector

section Values

variable {a b : ℕ} {U : Op (a * b) 2} {π : Equiv.Perm (Fin a)}

/-- Moving particles does not change their numbers. -/
theorem moves_counts (hU : MovesFermions (nsites := a) (nspecies := b) U (fun _ => π)) {t t' : Conf (a * b) 2} {s : Fin b}
    (h : speciesCount t s ≠ speciesCount t' s) : U t t' = 0 := by
  rw [← mulVec_ket U]
  obtain ⟨e, -, he⟩ := hU.signed t'
  rw [he, Pi.smul_apply, ket, smul_eq_mul, if_neg, mul_zero]
  rintro rfl
  exact h (speciesCount_perm _ _ _)

variable {d : ℕ} {sel : Fin (d + 1) → Conf (a * b) 2} {p : Conf (a * b) 2 → Prop}

theorem select_unit (hinj : Function.Injective sel) :
    (Matrix.of fun r t => if t = sel r then (1 : ℂ) else 0 : Matrix (Fin (d + 1)) (Conf (a * b) 2) ℂ) *
      (Matrix.of fun r t => if t = sel r then (1 : ℂ) else 0 : Matrix (Fin (d + 1)) (Conf (a * b) 2) ℂ)ᴴ = 1 := by
  ext r r'
  rw [mul_apply, one_apply]
  simp only [conjTranspose_apply, of_apply, apply_ite (star : ℂ → ℂ), star_one, star_zero]
  rw [Finset.sum_eq_single (sel r)]
  · rw [if_pos rfl, one_mul]
    exact if_congr hinj.eq_iff rfl rfl
  · intro t _ ht
    rw [if_neg ht, zero_mul]
  · simp

theorem select_diag (hinj : Function.Injective sel) (hp : ∀ t, p t ↔ ∃ r, sel r = t) [DecidablePred p] :
    (Matrix.of fun r t => if t = sel r then (1 : ℂ) else 0 : Matrix (Fin (d + 1)) (Conf (a * b) 2) ℂ)ᴴ *
      (Matrix.of fun r t => if t = sel r then (1 : ℂ) else 0 : Matrix (Fin (d + 1)) (Conf (a * b) 2) ℂ) =
      diagonal fun t => if p t then 1 else 0 := by
  ext t t'
  rw [mul_apply, diagonal_apply]
  simp only [conjTranspose_apply, of_apply, apply_ite (star : ℂ → ℂ), star_one, star_zero]
  by_cases h : p t
  · obtain ⟨r, hr⟩ := (hp t).1 h
    rw [Finset.sum_eq_single r]
    · rw [if_pos hr.symm, one_mul, if_pos h, hr]
      exact if_congr eq_comm rfl rfl
    · intro r' _ hr'
      rw [if_neg (fun e => hr' (hinj (by rw [← e, hr]))), zero_mul]
    · simp
  · rw [if_neg h, ite_self]
    refine Finset.sum_eq_zero fun r _ => ?_
    rw [if_neg (fun e => h ((hp t).2 ⟨r, e.symm⟩)), zero_mul]

end Values

/-- What the densities are, in terms of energies and eigenstates in a projected space. -/
theorem densities_proj (F : Fermions) {κ : Type} [Fintype κ] [DecidableEq κ] [Basis κ] {m : ℕ} {E : Fin (m + 1) → ℝ} {M P : Mat}
    {V : Matrix κ (Fin (m + 1)) ℂ} {Pm : Matrix κ (Conf (F.nsites * F.nspecies) 2) ℂ} (hM : M.Is V) (hP : P.Is Pm) (hE : Monotone E)
    (s : Fin F.nspecies) (temps : List ℝ) (hT : ∀ T ∈ temps, T ≠ 0 ∨ GappedList (List.ofFn E)) (sites : List (Fin F.nsites)) :
    thermalExpSites F.sys M (List.ofFn E) nOp s temps (some (sites.map fun i : Fin F.nsites => (i : ℕ))) (some P) "boson" =
      .ok (sites.map fun i => temps.map fun T => canonical T E fun k => (expect (Pm * number (mode i s) * Pmᴴ) (colOf V k)).re,
        sites.map fun i : Fin F.nsites => (i : ℕ)) := by
  unfold thermalExpSites
  simp only [Option.getD_some]
  rw [List.mapM_map, mapM_ok _ _ (fun i : Fin F.nsites => temps.map fun T => canonical T E fun k =>
    (expect (Pm * number (mode i s) * Pmᴴ) (colOf V k)).re)]
  · rfl
  · intro i _
    obtain ⟨X, hX, hXi⟩ := F_single F i s
    change (getSingleSiteOp F.sys i s nOp "boson" >>= _) = _
    rw [hX]
    change (sandwich 1 _ X >>= _) = _
    obtain ⟨Y, hY, hYi⟩ := sandwich_gives hP hXi 1
    rw [hY]
    change expValsThermalList M Y _ temps = _
    unfold expValsThermalList
    refine mapM_ok _ _ _ fun T hTm => ?_
    rw [one_smul] at hYi
    refine C19_canonical hM hYi E T ((hT T hTm).imp id fun hg => ⟨hE, fun k l => hg _ ?_ _ ?_⟩)
    · exact List.mem_ofFn.2 ⟨k, rfl⟩
    · exact List.mem_ofFn.2 ⟨l, rfl⟩

/-- What the correlators are, in terms of energies and eigenstates in a projected space. -/
theorem correlators_proj (F : Fermions) {κ : Type} [Fintype κ] [DecidableEq κ] [Basis κ] {m : ℕ} {E : Fin (m + 1) → ℝ} {M P : Mat}
    {V : Matrix κ (Fin (m + 1)) ℂ} {Pm : Matrix κ (Conf (F.nsites * F.nspecies) 2) ℂ} (hM : M.Is V) (hP : P.Is Pm) (hE : Monotone E)
    (s s' : Fin F.nspecies) (temps : List ℝ) (hT : ∀ T ∈ temps, T ≠ 0 ∨ GappedList (List.ofFn E)) (pairs : List (Fin F.nsites × Fin F.nsites)) :
    thermalCorrSites F.sys M (List.ofFn E) s s' nOp nOp temps (some (pairs.map fun q : Fin F.nsites × Fin F.nsites => ((q.1 : ℕ), (q.2 : ℕ)))) (some P) "boson" =
      .ok (pairs.map fun q => temps.map fun T => canonical T E fun k =>
        (expect (Pm * (number (mode q.1 s) * number (mode q.2 s')) * Pmᴴ) (colOf V k)).re, pairs.map fun q : Fin F.nsites × Fin F.nsites => ((q.1 : ℕ), (q.2 : ℕ))) := by
  unfold thermalCorrSites
  simp only [Option.getD_some]
  rw [List.mapM_map, mapM_ok _ _ (fun q : Fin F.nsites × Fin F.nsites => temps.map fun T => canonical T E fun k =>
    (expect (Pm * (number (mode q.1 s) * number (mode q.2 s')) * Pmᴴ) (colOf V k)).re)]
  · rfl
  · intro q _
    obtain ⟨X, hX, hXi⟩ := F_two F q.1 q.2 s s'
    change (getTwoSiteOp F.sys q.1 s q.2 s' nOp nOp "boson" >>= _) = _
    rw [hX]
    change (sandwich 1 _ X >>= _) = _
    obtain ⟨Y, hY, hYi⟩ := sandwich_gives hP hXi 1
    rw [hY]
    change expValsThermalList M Y _ temps = _
    unfold expValsThermalList
    refine mapM_ok _ _ _ fun T hTm => ?_
    rw [one_smul] at hYi
    refine C19_canonical hM hYi E T ((hT T hTm).imp id fun hg => ⟨hE, fun k l => hg _ ?_ _ ?_⟩)
    · exact List.mem_ofFn.2 ⟨k, rfl⟩
    · exact List.mem_ofFn.2 ⟨l, rfl⟩

end ED.Props
