import Verif.Lemmas.PlaneWaves
import Verif.Props.FermiDensity
import Verif.Props.FreeFermions

/-! # Lemmas: plane waves are the states of a single particle on a periodic lattice -/

namespace ED.Props

open ED ED.Geometry Matrix
open scoped BigOperators

variable {n : ℕ} {dim : String} {L : Modes n dim} {g : Geometry}

theorem fermi_occupancy (T mu e : ℝ) : fermi (.fin (1 / T)) mu e = occupancy T (e - mu) := by
  change 1 / (Real.exp (1 / T * (e - mu)) + 1) = _
  unfold occupancy
  rw [one_div_mul_eq_div]

namespace GasSites

/-- The waves, normalized. -/
noncomputable def waves (G : GasSites L g) : Matrix (Fin g.nsites) L.κ ℂ :=
  of fun i k => L.ph (L.r (G.σ i)) k / (Real.sqrt (Fintype.card L.κ) : ℂ)

theorem sqrt_card (L : Modes n dim) : (Real.sqrt (Fintype.card L.κ) : ℂ) ≠ 0 ∧
    (Real.sqrt (Fintype.card L.κ) : ℂ) * (Real.sqrt (Fintype.card L.κ) : ℂ) = (Fintype.card L.κ : ℂ) := by
  have h := L.card_pos
  constructor
  · exact_mod_cast (Real.sqrt_pos.2 h).ne'
  · rw [← Complex.ofReal_mul, Real.mul_self_sqrt h.le]
    simp

theorem ortho (G : GasSites L g) : (G.waves)ᴴ * G.waves = 1 := by
  obtain ⟨h0, h1⟩ := sqrt_card L
  have hc : (Fintype.card L.κ : ℂ) ≠ 0 := by
    have := L.card_pos
    exact_mod_cast this.ne'
  ext k k'
  rw [mul_apply]
  simp only [conjTranspose_apply, waves, of_apply, one_apply]
  have : ∀ i : Fin g.nsites, star (L.ph (L.r (G.σ i)) k / (Real.sqrt (Fintype.card L.κ) : ℂ)) *
      (L.ph (L.r (G.σ i)) k' / (Real.sqrt (Fintype.card L.κ) : ℂ)) =
      ((starRingEnd ℂ) (L.ph (L.r (G.σ i)) k) * L.ph (L.r (G.σ i)) k') / (Fintype.card L.κ : ℂ) := fun i => by
    rw [← starRingEnd_apply, map_div₀, Complex.conj_ofReal, div_mul_div_comm, h1]
  simp only [this]
  rw [← Finset.sum_div, Fintype.sum_equiv G.σ _ (fun i => (starRingEnd ℂ) (L.ph (L.r i) k) * L.ph (L.r i) k')
    fun i => rfl, L.orth]
  split_ifs with h
  · exact div_self hc
  · simp

theorem complete (G : GasSites L g) : G.waves * (G.waves)ᴴ = 1 :=
  (Matrix.mul_eq_one_comm_of_equiv G.σ.symm).1 G.ortho

theorem basis (G : GasSites L g) (t mu : ℝ) :
    IsEigenbasis (oneParticle (fun i j : Fin g.nsites => t * g.adjacency.e i j) fun _ => -mu) G.waves
      fun k => t * L.e k - mu where
  ortho := G.ortho
  complete := G.complete
  eigen := by
    obtain ⟨h0, h1⟩ := sqrt_card L
    ext i k
    rw [mul_apply, mul_diagonal]
    have e : ∀ j : Fin g.nsites, oneParticle (fun i j : Fin g.nsites => t * g.adjacency.e i j) (fun _ => -mu) i j *
        G.waves j k = -(t : ℂ) / (Real.sqrt (Fintype.card L.κ) : ℂ) * ((g.adjacency.e i j : ℂ) * L.ph (L.r (G.σ j)) k) +
        if i = j then -(mu : ℂ) * G.waves j k else 0 := fun j => by
      unfold oneParticle
      simp only [of_apply]
      by_cases hij : i = j
      · subst hij
        rw [if_pos rfl, if_pos rfl, G.diag]
        push_cast
        ring
      · rw [if_neg hij, if_neg hij]
        simp only [waves, of_apply]
        push_cast
        ring
    simp only [e]
    rw [Finset.sum_add_distrib, ← Finset.mul_sum, G.hop, Finset.sum_ite_eq, if_pos (Finset.mem_univ _)]
    simp only [waves, of_apply]
    push_cast
    ring

theorem card_eq (G : GasSites L g) : Fintype.card L.κ = g.nsites := by
  rw [← Fintype.card_congr G.σ, Fintype.card_fin]

/-- The density of the plane waves. -/
theorem siteDensity_eq (G : GasSites L g) (T mu : ℝ) (i : Fin g.nsites) :
    siteDensity G.waves (fun k => 1 * L.e k - mu) T i = rho L (.fin (1 / T)) mu := by
  unfold siteDensity rho
  rw [Finset.mul_sum]
  refine Finset.sum_congr rfl fun k _ => ?_
  simp only [waves, of_apply]
  rw [norm_div, L.norm_ph, Complex.norm_real, Real.norm_eq_abs, abs_of_nonneg (Real.sqrt_nonneg _), div_pow, one_pow,
    Real.sq_sqrt (Nat.cast_nonneg _), fermi_occupancy, one_mul]

/-- The one-particle density matrix of the plane waves. -/
theorem oneDensity_eq (G : GasSites L g) (T mu : ℝ) (i j : Fin g.nsites) :
    Complex.I * oneDensity G.waves (fun k => 1 * L.e k - mu) T i j =
      gL L (.fin (1 / T)) mu ((L.r (G.σ i)).1 - (L.r (G.σ j)).1, (L.r (G.σ i)).2 - (L.r (G.σ j)).2) := by
  obtain ⟨h0, h1⟩ := sqrt_card L
  unfold oneDensity gL
  rw [Finset.mul_sum, Finset.mul_sum]
  refine Finset.sum_congr rfl fun k _ => ?_
  rw [G.sub, fermi_occupancy, ← h1]
  simp only [waves, of_apply, one_mul]
  rw [← starRingEnd_apply, map_div₀, Complex.conj_ofReal]
  field_simp

end GasSites

end ED.Props
