import Verif.Props.FermiDensity

/-! # Property C67 at zero temperature -/

namespace ED.Props

open scoped BigOperators

variable {n : ℕ} {dim : String}

theorem rho_inf_neg (L : Modes n dim) (he : Even n) (mu : ℝ) :
    rho L .inf mu + rho L .inf (-mu) =
      1 + 1 / (Fintype.card L.κ : ℝ) * ∑ j, if L.e j = mu then (1 : ℝ) else 0 := by
  have hN := L.card_pos
  have hsum : ∑ j, fermi .inf (-mu) (L.e j) = ∑ j, if mu ≤ L.e j then (1 : ℝ) else 0 := by
    refine Finset.sum_nbij' (i := L.neg) (j := L.neg) (by simp) (by simp)
      (fun j _ => L.neg_neg he j) (fun j _ => L.neg_neg he j) fun j _ => ?_
    rw [L.e_neg he, C63_fermi.2.2.2.2.2.2]
    by_cases h : L.e j ≤ -mu
    · rw [if_pos h, if_pos (by linarith)]
    · rw [if_neg h, if_neg (fun h' => h (by linarith))]
  unfold rho
  rw [hsum, ← mul_add, ← Finset.sum_add_distrib]
  have e : ∀ j : L.κ, fermi .inf mu (L.e j) + (if mu ≤ L.e j then (1 : ℝ) else 0) =
      1 + if L.e j = mu then (1 : ℝ) else 0 := by
    intro j
    rw [C63_fermi.2.2.2.2.2.2]
    rcases lt_trichotomy (L.e j) mu with h | h | h
    · rw [if_pos h.le, if_neg (not_le.2 h), if_neg h.ne, add_zero]
    · rw [if_pos h.le, if_pos h.ge, if_pos h]
    · rw [if_neg (not_le.2 h), if_pos h.le, if_neg h.ne', zero_add, add_zero]
  simp only [e, Finset.sum_add_distrib, Finset.sum_const, Finset.card_univ, nsmul_eq_mul, mul_one]
  field_simp

/-- C67 at zero temperature: the densities at opposite chemical potentials add up to one plus the
fraction of wavevectors whose energy is the chemical potential. -/
theorem C67_zero_temperature (mu : ℝ) (hn : 2 ≤ n) (hn' : n ≤ 10 ^ 6) (he : Even n) :
    (∃ a b : ℝ, fgDensity .inf mu n "1d" = .ok a ∧ fgDensity .inf (-mu) n "1d" = .ok b ∧
      a + b = 1 + 1 / (n : ℝ) * ∑ j ∈ Finset.range n, if band1 (wave n j) = mu then (1 : ℝ) else 0) ∧
    ∃ a b : ℝ, fgDensity .inf mu n "2d" = .ok a ∧ fgDensity .inf (-mu) n "2d" = .ok b ∧
      a + b = 1 + 1 / (n * n : ℝ) * ∑ i ∈ Finset.range n, ∑ j ∈ Finset.range n,
        if band2 (wave n i) (wave n j) = mu then (1 : ℝ) else 0 := by
  have hw : ∀ j, kval n j = wave n j := fun j => by unfold kval wave; ring
  refine ⟨⟨_, _, density_is (modes1 hn hn') .inf mu, density_is (modes1 hn hn') .inf (-mu), ?_⟩,
    ⟨_, _, density_is (modes2 hn hn') .inf mu, density_is (modes2 hn hn') .inf (-mu), ?_⟩⟩
  · rw [rho_inf_neg _ he]
    simp only [modes1, Fintype.card_fin, hw]
    rw [Finset.sum_range]
    rfl
  · rw [rho_inf_neg _ he]
    have h : (∑ j, if (modes2 hn hn').e j = mu then (1 : ℝ) else 0) =
        ∑ j : Fin n × Fin n, if band2 (kval n j.1) (kval n j.2) = mu then (1 : ℝ) else 0 := rfl
    have hc : (Fintype.card (modes2 hn hn').κ : ℝ) = n * n := by
      have : Fintype.card (modes2 hn hn').κ = Fintype.card (Fin n × Fin n) := rfl
      rw [this]
      simp
    rw [h, hc, Fintype.sum_prod_type, Finset.sum_range]
    simp only [Finset.sum_range, hw]

/-- C67 at zero temperature fails: the chain of four sites at zero chemical potential is filled to
three quarters, not to one half. -/
theorem C67_zero_temperature_violated : fgDensity .inf 0 4 "1d" = .ok (3 / 4) := by
  obtain ⟨a, b, ha, hb, h⟩ := (C67_zero_temperature (n := 4) 0 (by norm_num) (by norm_num) (by decide)).1
  have hab : a = b := by
    rw [neg_zero, ha] at hb
    exact Except.ok.inj hb
  rw [ha]
  have e0 : band1 (wave 4 0) ≠ 0 := by simp [band1, wave]
  have e1 : band1 (wave 4 1) = 0 := by
    have : wave 4 1 = Real.pi / 2 := by unfold wave; push_cast; ring
    rw [this]; simp [band1]
  have e2 : band1 (wave 4 2) ≠ 0 := by
    have : wave 4 2 = Real.pi := by unfold wave; push_cast; ring
    rw [this]; simp [band1]
  have e3 : band1 (wave 4 3) = 0 := by
    have : wave 4 3 = Real.pi / 2 + Real.pi := by unfold wave; push_cast; ring
    rw [this]; simp [band1, Real.cos_add_pi]
  rw [← hab, Finset.sum_range_succ, Finset.sum_range_succ, Finset.sum_range_succ, Finset.sum_range_one,
    if_neg e0, if_pos e1, if_neg e2, if_pos e3] at h
  congr 1
  norm_num at h
  linarith

example : (2 : ℕ) ≤ 6 ∧ 6 ≤ 10 ^ 6 ∧ Even 6 ∧ band1 (wave 6 0) = -2 := by
  refine ⟨by norm_num, by norm_num, by decide, by simp [band1, wave]⟩

end ED.Props
