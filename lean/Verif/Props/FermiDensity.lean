import Verif.Props.FermiGas

/-! # Properties C67–C69, C82–C86: densities, correlations and response of the Fermi gas -/

namespace ED.Props

open scoped BigOperators
open Filter Topology

variable {n : ℕ} {dim : String}

theorem lesser_zero (beta : InvTemp) (mu e : ℝ) :
    kspaceGfn beta mu e 0 "lesser" = .ok (Complex.I * ((fermi beta mu e : ℝ) : ℂ),
      ((fermiDerivatives beta mu e (1 / 10)).1).map fun d : ℝ => Complex.I * (d : ℂ)) := by
  unfold kspaceGfn
  simp

/-- The lesser function at equal times, as computed by the library. -/
noncomputable def gL (L : Modes n dim) (beta : InvTemp) (mu : ℝ) (c : ℤ × ℤ) : ℂ :=
  1 / (Fintype.card L.κ : ℂ) * ∑ j, L.ph c j * (Complex.I * ((fermi beta mu (L.e j) : ℝ) : ℂ))

/-- The density, as computed by the library. -/
noncomputable def rho (L : Modes n dim) (beta : InvTemp) (mu : ℝ) : ℝ :=
  1 / (Fintype.card L.κ : ℝ) * ∑ j, fermi beta mu (L.e j)

theorem realspace_lesser (L : Modes n dim) (beta : InvTemp) (mu : ℝ) (c : ℤ × ℤ) :
    ∃ d, realspaceGfn beta mu c 0 n dim "lesser" = .ok (gL L beta mu c, d) := by
  obtain ⟨d, h, -⟩ := L.realspace (time := 0) c (fun e => lesser_zero beta mu e)
  exact ⟨d, h⟩

theorem norm_gL_zero (L : Modes n dim) (beta : InvTemp) (mu : ℝ) :
    ‖gL L beta mu (0, 0)‖ = rho L beta mu := by
  unfold gL rho
  simp only [L.ph_zero, one_mul]
  rw [← Finset.mul_sum, ← Complex.ofReal_sum, norm_mul, norm_mul, Complex.norm_I, one_mul, norm_div,
    norm_one, Complex.norm_natCast, Complex.norm_real, Real.norm_eq_abs,
    abs_of_nonneg (Finset.sum_nonneg fun j _ => (fermi_mem beta mu _).1)]

theorem density_is (L : Modes n dim) (beta : InvTemp) (mu : ℝ) :
    fgDensity beta mu n dim = .ok (rho L beta mu) := by
  obtain ⟨d, h⟩ := realspace_lesser L beta mu (0, 0)
  unfold fgDensity
  rw [h]
  change Except.ok ‖gL L beta mu (0, 0)‖ = _
  rw [norm_gL_zero]

/-- The compressibility, as computed by the library. -/
noncomputable def kap (L : Modes n dim) (b mu : ℝ) : ℝ :=
  1 / (Fintype.card L.κ : ℝ) *
    ∑ j, b * (fermi (.fin b) mu (L.e j) * (1 - fermi (.fin b) mu (L.e j)))

theorem compressibility_is (L : Modes n dim) {b : ℝ} (hb : 0 ≤ b) (mu : ℝ) :
    fgCompressibility (.fin b) mu n dim = .ok (some (kap L b mu)) := by
  obtain ⟨d, h, hd⟩ := L.realspace (time := 0) (0, 0) (fun e => lesser_zero (.fin b) mu e)
  have hd' := hd (fun e => Complex.I * ((-b * (-fermi (.fin b) mu e * (1 - fermi (.fin b) mu e)) : ℝ) : ℂ))
    fun e => rfl
  unfold fgCompressibility
  rw [h, hd']
  change Except.ok (some ‖_‖) = _
  congr 2
  simp only [L.ph_zero, one_mul]
  rw [← Finset.mul_sum, ← Complex.ofReal_sum, norm_mul, norm_mul, Complex.norm_I, one_mul, norm_div,
    norm_one, Complex.norm_natCast, Complex.norm_real, Real.norm_eq_abs]
  have e1 : (∑ j, -b * (-fermi (.fin b) mu (L.e j) * (1 - fermi (.fin b) mu (L.e j)))) =
      ∑ j, b * (fermi (.fin b) mu (L.e j) * (1 - fermi (.fin b) mu (L.e j))) :=
    Finset.sum_congr rfl fun j _ => by ring
  rw [e1, abs_of_nonneg]
  · rfl
  · refine Finset.sum_nonneg fun j _ => mul_nonneg hb (mul_nonneg (fermi_mem _ _ _).1 ?_)
    linarith [(fermi_mem (.fin b) mu (L.e j)).2]

theorem corr_is (L : Modes n dim) (beta : InvTemp) (mu : ℝ) (c : ℤ × ℤ) :
    fgCorr beta mu c n dim = .ok ((if c = (0, 0) then rho L beta mu else 0) -
      ‖gL L beta mu c‖ ^ 2) := by
  obtain ⟨d, h⟩ := realspace_lesser L beta mu c
  unfold fgCorr
  rw [h]
  change Except.ok ((if c.1 = 0 ∧ c.2 = 0 then (1 : ℝ) else 0) * ‖gL L beta mu c‖ -
    ‖gL L beta mu c‖ ^ 2) = _
  congr 2
  by_cases hc : c = (0, 0)
  · subst hc
    rw [norm_gL_zero]
    simp
  · rw [if_neg hc, if_neg (fun h => hc (Prod.ext h.1 h.2)), zero_mul]

theorem rho_mem (L : Modes n dim) (beta : InvTemp) (mu : ℝ) :
    0 ≤ rho L beta mu ∧ rho L beta mu ≤ 1 := by
  have hN := L.card_pos
  have h1 : ∑ j, fermi beta mu (L.e j) ≤ (Fintype.card L.κ : ℝ) := by
    calc ∑ j, fermi beta mu (L.e j) ≤ ∑ _j : L.κ, (1 : ℝ) :=
          Finset.sum_le_sum fun j _ => (fermi_mem beta mu _).2
      _ = _ := by simp
  have h0 : 0 ≤ ∑ j, fermi beta mu (L.e j) := Finset.sum_nonneg fun j _ => (fermi_mem beta mu _).1
  unfold rho
  exact ⟨by positivity, by rw [one_div, inv_mul_le_iff₀ hN]; linarith⟩

/-! ## C67: density, compressibility and density correlations -/

/-- The two lattices of the library. -/
def IsDim (dim : String) : Prop := dim = "1d" ∨ dim = "2d"

/-- C67: the density is the average of the occupation over the wavevectors. -/
theorem C67_density_formula (beta : InvTemp) (mu : ℝ) (hn : 2 ≤ n) (hn' : n ≤ 10 ^ 6) :
    fgDensity beta mu n "1d" =
      .ok (1 / (n : ℝ) * ∑ j ∈ Finset.range n, fermi beta mu (band1 (wave n j))) ∧
    fgDensity beta mu n "2d" =
      .ok (1 / (n * n : ℝ) * ∑ i ∈ Finset.range n, ∑ j ∈ Finset.range n,
        fermi beta mu (band2 (wave n i) (wave n j))) := by
  have hw : ∀ j, kval n j = wave n j := fun j => by unfold kval wave; ring
  constructor
  · rw [density_is (modes1 hn hn')]
    simp only [rho, modes1, Fintype.card_fin, hw]
    rw [Finset.sum_range]
    rfl
  · rw [density_is (modes2 hn hn')]
    have h : rho (modes2 hn hn') beta mu = 1 / (Fintype.card (Fin n × Fin n) : ℝ) *
        ∑ j : Fin n × Fin n, fermi beta mu (band2 (kval n j.1) (kval n j.2)) := rfl
    rw [h, Fintype.sum_prod_type, Finset.sum_range]
    simp only [Finset.sum_range, Fintype.card_prod, Fintype.card_fin, hw]
    push_cast
    rfl

/-- C67: the density is between zero and one and does not decrease with the chemical potential; on
lattices with an even number of sites it is particle-hole symmetric. -/
theorem C67_density_partial (beta : InvTemp) (hb : beta.Nonneg) (hd : IsDim dim) (hn : 2 ≤ n)
    (hn' : n ≤ 10 ^ 6) :
    ∃ ρ : ℝ → ℝ, (∀ mu, fgDensity beta mu n dim = .ok (ρ mu)) ∧ (∀ mu, 0 ≤ ρ mu ∧ ρ mu ≤ 1) ∧
      Monotone ρ ∧ (Even n → beta ≠ .inf → ∀ mu, ρ mu + ρ (-mu) = 1) := by
  obtain ⟨L⟩ := exists_modes hd hn hn'
  have hN := L.card_pos
  refine ⟨rho L beta, density_is L beta, rho_mem L beta, fun mu mu' h => ?_, fun he hi mu => ?_⟩
  · unfold rho
    have : ∑ j, fermi beta mu (L.e j) ≤ ∑ j, fermi beta mu' (L.e j) :=
      Finset.sum_le_sum fun j _ => C63_fermi.2.2.2.1 beta hb mu mu' _ h
    gcongr
  · cases beta with
    | inf => exact absurd rfl hi
    | fin b =>
      have hsum : ∑ j, fermi (.fin b) (-mu) (L.e j) = ∑ j, (1 - fermi (.fin b) mu (L.e j)) := by
        refine Finset.sum_nbij' (i := L.neg) (j := L.neg) (by simp) (by simp)
          (fun j _ => L.neg_neg he j) (fun j _ => L.neg_neg he j) fun j _ => ?_
        rw [L.e_neg he]
        have := C63_fermi.2.1 b mu (L.e j + mu)
        have e1 : fermi (.fin b) mu (mu - (L.e j + mu)) = fermi (.fin b) mu (-L.e j) := by
          congr 1; ring
        have e2 : fermi (.fin b) mu (mu + (L.e j + mu)) = fermi (.fin b) (-mu) (L.e j) := by
          simp only [fermi]
          congr 4
          ring
        rw [e1, e2] at this
        linarith
      unfold rho
      rw [hsum, ← mul_add, ← Finset.sum_add_distrib]
      simp
      field_simp

/-- C67: the compressibility is the derivative of the density with respect to the chemical
potential. -/
theorem C67_compressibility (b : ℝ) (hb : 0 ≤ b) (hd : IsDim dim) (hn : 2 ≤ n) (hn' : n ≤ 10 ^ 6) :
    ∃ ρ κ : ℝ → ℝ, (∀ mu, fgDensity (.fin b) mu n dim = .ok (ρ mu)) ∧
      (∀ mu, fgCompressibility (.fin b) mu n dim = .ok (some (κ mu))) ∧
      ∀ mu, HasDerivAt ρ (κ mu) mu := by
  obtain ⟨L⟩ := exists_modes hd hn hn'
  refine ⟨rho L (.fin b), kap L b, density_is L _, compressibility_is L hb, fun mu => ?_⟩
  unfold rho kap
  refine HasDerivAt.const_mul _ (HasDerivAt.fun_sum fun j _ => ?_)
  obtain ⟨dmu, de, db, h1, h2, -, -⟩ := C64_derivatives b mu (L.e j) (1 / 10)
  have h : (fermiDerivatives (.fin b) mu (L.e j) (1 / 10)).1 =
    some (-b * (-fermi (.fin b) mu (L.e j) * (1 - fermi (.fin b) mu (L.e j)))) := rfl
  rw [h1] at h
  have h' := Option.some.inj h
  exact h2.congr_deriv (by rw [h']; ring)

/-- C67: density correlations between different sites are not positive, the on-site one is
`n (1 - n)`, and the sum over all displacements is the compressibility divided by the inverse
temperature. -/
theorem C67_correlations (b : ℝ) (hb : 0 ≤ b) (mu : ℝ) (hd : IsDim dim) (hn : 2 ≤ n)
    (hn' : n ≤ 10 ^ 6) :
    ∃ (ρ κ : ℝ) (corr : ℤ × ℤ → ℝ), fgDensity (.fin b) mu n dim = .ok ρ ∧
      fgCompressibility (.fin b) mu n dim = .ok (some κ) ∧
      (∀ c, fgCorr (.fin b) mu c n dim = .ok (corr c)) ∧
      corr (0, 0) = ρ * (1 - ρ) ∧ (∀ c, c ≠ (0, 0) → corr c ≤ 0) ∧
      b * ∑ c ∈ displacements n dim, corr c = κ := by
  obtain ⟨L⟩ := exists_modes hd hn hn'
  have hN := L.card_pos
  refine ⟨rho L (.fin b) mu, kap L b mu, fun c => (if c = (0, 0) then rho L (.fin b) mu else 0) -
      ‖gL L (.fin b) mu c‖ ^ 2, density_is L _ _, compressibility_is L hb mu, corr_is L _ _, ?_, ?_, ?_⟩
  · simp only [if_true, norm_gL_zero]; ring
  · intro c hc
    simp only [if_neg hc, zero_sub, Left.neg_nonpos_iff]
    positivity
  · have h0 : (0, 0) ∈ displacements n dim := by
      unfold displacements
      split_ifs <;> simp <;> omega
    rw [Finset.sum_sub_distrib, Finset.sum_ite_eq', if_pos h0, ← L.image_r,
      Finset.sum_image fun _ _ _ _ h => L.inj_r h]
    have hp := L.parseval fun j => Complex.I * ((fermi (.fin b) mu (L.e j) : ℝ) : ℂ)
    have hp' : ∑ i, ‖gL L (.fin b) mu (L.r i)‖ ^ 2 =
        1 / (Fintype.card L.κ : ℝ) * ∑ j, fermi (.fin b) mu (L.e j) ^ 2 := by
      unfold gL
      rw [hp]
      congr 1
      refine Finset.sum_congr rfl fun j _ => ?_
      rw [norm_mul, Complex.norm_I, one_mul, Complex.norm_real, Real.norm_eq_abs, sq_abs]
    rw [hp']
    unfold rho kap
    rw [← mul_sub, ← Finset.sum_sub_distrib, mul_left_comm, Finset.mul_sum]
    congr 1
    exact Finset.sum_congr rfl fun j _ => by ring

/-- One site per direction is rejected: there is no pair of energies to compare. -/
theorem C67_one_site_fails (beta : InvTemp) (mu : ℝ) :
    fgDensity beta mu 1 "1d" = .error .value := by
  obtain ⟨l, hl, hp⟩ := kvects_balanced (nx := 1) (ny := 1) (by omega) (by omega)
  have hl1 : l = [(bal (kval 1 0), bal (kval 1 0))] := by
    simpa using hp
  unfold fgDensity realspaceGfn realspaceModes
  rw [if_neg (by decide), if_pos rfl, hl, hl1]
  simp [getEnergySpacing, lesser_zero, Bind.bind, Except.bind, Pure.pure, Except.pure, List.mapM_cons]

example : IsDim "2d" ∧ 2 ≤ 4 ∧ 4 ≤ 10 ^ 6 ∧ Even 4 ∧ (InvTemp.fin 3).Nonneg ∧
    InvTemp.fin 3 ≠ .inf :=
  ⟨Or.inr rfl, by norm_num, by norm_num, ⟨2, rfl⟩, by norm_num [InvTemp.Nonneg], by simp⟩

/-! ## C68: two independent components -/

/-- C68: singles and doubles densities. -/
theorem C68_densities (beta : InvTemp) (muUp muDn : ℝ) (hd : IsDim dim) (hn : 2 ≤ n)
    (hn' : n ≤ 10 ^ 6) :
    ∃ u v s d : ℝ, fgDensity beta muUp n dim = .ok u ∧ fgDensity beta muDn n dim = .ok v ∧
      fgSingles beta muUp muDn n dim = .ok s ∧ fgDoubles beta muUp muDn n dim = .ok d ∧
      0 ≤ s ∧ s ≤ 1 ∧ 0 ≤ d ∧ d ≤ 1 ∧ s + 2 * d = u + v ∧ d ≤ u ∧ d ≤ v := by
  obtain ⟨L⟩ := exists_modes hd hn hn'
  obtain ⟨u0, u1⟩ := rho_mem L beta muUp
  obtain ⟨v0, v1⟩ := rho_mem L beta muDn
  refine ⟨rho L beta muUp, rho L beta muDn,
    rho L beta muUp + rho L beta muDn - 2 * rho L beta muUp * rho L beta muDn,
    rho L beta muUp * rho L beta muDn, density_is L _ _, density_is L _ _, ?_, ?_, ?_⟩
  · unfold fgSingles; rw [density_is L, density_is L]; rfl
  · unfold fgDoubles; rw [density_is L, density_is L]; rfl
  · generalize rho L beta muUp = u at *
    generalize rho L beta muDn = v at *
    refine ⟨?_, ?_, ?_, ?_, ?_, ?_, ?_⟩ <;> nlinarith [mul_nonneg u0 v0, mul_nonneg (sub_nonneg.2 u1) v0,
      mul_nonneg u0 (sub_nonneg.2 v1), mul_nonneg (sub_nonneg.2 u1) (sub_nonneg.2 v1)]

section

variable {Ω Ω' : Type} [Fintype Ω] [Fintype Ω']

theorem prod_mean (P : Prob Ω) (Q : Prob Ω') (f : Ω → ℝ) (g : Ω' → ℝ) :
    (P.prod Q).mean (fun w => f w.1 * g w.2) = P.mean f * Q.mean g := by
  unfold Prob.mean Prob.prod
  rw [Fintype.sum_prod_type, Finset.sum_mul_sum]
  exact Finset.sum_congr rfl fun i _ => Finset.sum_congr rfl fun j _ => by ring

theorem mean_add {Ω : Type} [Fintype Ω] (P : Prob Ω) (f g : Ω → ℝ) :
    P.mean (fun w => f w + g w) = P.mean f + P.mean g := by
  unfold Prob.mean
  rw [← Finset.sum_add_distrib]
  exact Finset.sum_congr rfl fun i _ => by ring

theorem mean_smul {Ω : Type} [Fintype Ω] (P : Prob Ω) (a : ℝ) (f : Ω → ℝ) :
    P.mean (fun w => a * f w) = a * P.mean f := by
  unfold Prob.mean
  rw [Finset.mul_sum]
  exact Finset.sum_congr rfl fun i _ => by ring

theorem mean_one {Ω : Type} [Fintype Ω] (P : Prob Ω) : P.mean (fun _ => 1) = 1 := by
  unfold Prob.mean
  simpa using P.sum

/-- C68: whenever the up and down occupations of two sites are independent random variables with the
densities and correlations that the library reports for the two components, the correlators of singly
and of doubly occupied sites and of the magnetisation are those that the library returns. -/
theorem C68_correlators (beta : InvTemp) (muUp muDn : ℝ) (c : ℤ × ℤ) (hd : IsDim dim) (hn : 2 ≤ n)
    (hn' : n ≤ 10 ^ 6) (P : Prob Ω) (Q : Prob Ω') (x x' : Ω → ℝ) (y y' : Ω' → ℝ)
    (hx : fgDensity beta muUp n dim = .ok (P.mean x)) (hx' : P.mean x' = P.mean x)
    (hy : fgDensity beta muDn n dim = .ok (Q.mean y)) (hy' : Q.mean y' = Q.mean y)
    (hxx : fgCorr beta muUp c n dim = .ok (P.cov x x'))
    (hyy : fgCorr beta muDn c n dim = .ok (Q.cov y y')) :
    fgSinglesCorr beta muUp muDn c n dim = .ok ((P.prod Q).cov
      (fun w => x w.1 + y w.2 - 2 * x w.1 * y w.2) fun w => x' w.1 + y' w.2 - 2 * x' w.1 * y' w.2) ∧
    fgDoublesCorr beta muUp muDn c n dim = .ok ((P.prod Q).cov
      (fun w => x w.1 * y w.2) fun w => x' w.1 * y' w.2) ∧
    fgSzCorr beta muUp muDn c n dim = .ok ((P.prod Q).cov
      (fun w => x w.1 - y w.2) fun w => x' w.1 - y' w.2) := by
  have m1 : ∀ f : Ω → ℝ, (P.prod Q).mean (fun w => f w.1) = P.mean f := fun f => by
    have := prod_mean P Q f fun _ => 1
    simpa [mean_one] using this
  have m2 : ∀ g : Ω' → ℝ, (P.prod Q).mean (fun w => g w.2) = Q.mean g := fun g => by
    have := prod_mean P Q (fun _ => 1) g
    simpa [mean_one] using this
  have msub : ∀ f g : Ω × Ω' → ℝ, (P.prod Q).mean (fun w => f w - g w) =
      (P.prod Q).mean f - (P.prod Q).mean g := fun f g => by
    have := mean_add (P.prod Q) f fun w => -1 * g w
    rw [mean_smul] at this
    rw [show (fun w => f w - g w) = fun w => f w + -1 * g w from funext fun w => by ring, this]
    ring
  have pm := fun f g => prod_mean P Q f g
  refine ⟨?_, ?_, ?_⟩
  · unfold fgSinglesCorr
    rw [hx, hy, hxx, hyy]
    change Except.ok _ = _
    congr 1
    have e1 : ∀ (x : Ω → ℝ) (y : Ω' → ℝ),
        (P.prod Q).mean (fun w => x w.1 + y w.2 - 2 * x w.1 * y w.2) =
        P.mean x + Q.mean y - 2 * (P.mean x * Q.mean y) := fun x y => by
      rw [msub, mean_add, m1, m2]
      simp only [mul_assoc]
      rw [mean_smul, pm]
    have e2 : (P.prod Q).mean (fun w => (x w.1 + y w.2 - 2 * x w.1 * y w.2) *
        (x' w.1 + y' w.2 - 2 * x' w.1 * y' w.2)) =
        P.mean (fun w => x w * x' w) + Q.mean (fun w => y w * y' w) + P.mean x * Q.mean y' +
        P.mean x' * Q.mean y + 4 * (P.mean (fun w => x w * x' w) * Q.mean (fun w => y w * y' w)) -
        2 * (P.mean (fun w => x w * x' w) * Q.mean y') -
        2 * (P.mean (fun w => x w * x' w) * Q.mean y) -
        2 * (P.mean x' * Q.mean (fun w => y w * y' w)) -
        2 * (P.mean x * Q.mean (fun w => y w * y' w)) := by
      rw [show (fun w : Ω × Ω' => (x w.1 + y w.2 - 2 * x w.1 * y w.2) *
        (x' w.1 + y' w.2 - 2 * x' w.1 * y' w.2)) = fun w =>
        ((((((((x w.1 * x' w.1) + (y w.2 * y' w.2)) + (x w.1 * y' w.2)) + (x' w.1 * y w.2)) +
          4 * ((x w.1 * x' w.1) * (y w.2 * y' w.2))) - 2 * ((x w.1 * x' w.1) * y' w.2)) -
          2 * ((x w.1 * x' w.1) * y w.2)) - 2 * (x' w.1 * (y w.2 * y' w.2))) -
          2 * (x w.1 * (y w.2 * y' w.2)) from funext fun w => by ring]
      rw [msub, msub, msub, msub, mean_add, mean_add, mean_add, mean_add, mean_smul, mean_smul,
        mean_smul, mean_smul, mean_smul, pm x y', pm x' y, pm (fun w => x w * x' w) y',
        pm (fun w => x w * x' w) y, pm x' (fun w => y w * y' w), pm x (fun w => y w * y' w),
        pm (fun w => x w * x' w) (fun w => y w * y' w), m1 (fun w => x w * x' w),
        m2 (fun w => y w * y' w)]
    unfold Prob.cov
    rw [e2, e1, e1, hx', hy']
    ring
  · unfold fgDoublesCorr
    rw [hx, hy, hxx, hyy]
    change Except.ok _ = _
    congr 1
    have e2 : (P.prod Q).mean (fun w => (x w.1 * y w.2) * (x' w.1 * y' w.2)) =
        P.mean (fun w => x w * x' w) * Q.mean (fun w => y w * y' w) := by
      rw [show (fun w : Ω × Ω' => (x w.1 * y w.2) * (x' w.1 * y' w.2)) = fun w =>
        (x w.1 * x' w.1) * (y w.2 * y' w.2) from funext fun w => by ring]
      exact pm (fun w => x w * x' w) (fun w => y w * y' w)
    unfold Prob.cov
    rw [e2, pm x y, pm x' y', hx', hy']
    ring
  · unfold fgSzCorr
    rw [hxx, hyy]
    change Except.ok _ = _
    congr 1
    have e2 : (P.prod Q).mean (fun w => (x w.1 - y w.2) * (x' w.1 - y' w.2)) =
        P.mean (fun w => x w * x' w) + Q.mean (fun w => y w * y' w) - P.mean x * Q.mean y' -
        P.mean x' * Q.mean y := by
      rw [show (fun w : Ω × Ω' => (x w.1 - y w.2) * (x' w.1 - y' w.2)) = fun w =>
        (((x w.1 * x' w.1) + (y w.2 * y' w.2)) - (x w.1 * y' w.2)) - (x' w.1 * y w.2)
        from funext fun w => by ring]
      rw [msub, msub, mean_add, pm x y', pm x' y, m1 (fun w => x w * x' w), m2 (fun w => y w * y' w)]
    unfold Prob.cov
    rw [e2, msub, msub, m1, m2, m1, m2, hx', hy']
    ring

end

/-- C68: the on-site correlator of singles is `s (1 - s)` and that of doubles `d (1 - d)`. -/
theorem C68_onsite (beta : InvTemp) (muUp muDn : ℝ) (hd : IsDim dim) (hn : 2 ≤ n)
    (hn' : n ≤ 10 ^ 6) :
    ∃ s d : ℝ, fgSingles beta muUp muDn n dim = .ok s ∧ fgDoubles beta muUp muDn n dim = .ok d ∧
      fgSinglesCorr beta muUp muDn (0, 0) n dim = .ok (s * (1 - s)) ∧
      fgDoublesCorr beta muUp muDn (0, 0) n dim = .ok (d * (1 - d)) := by
  obtain ⟨L⟩ := exists_modes hd hn hn'
  refine ⟨rho L beta muUp + rho L beta muDn - 2 * rho L beta muUp * rho L beta muDn,
    rho L beta muUp * rho L beta muDn, ?_, ?_, ?_, ?_⟩
  · unfold fgSingles; rw [density_is L, density_is L]; rfl
  · unfold fgDoubles; rw [density_is L, density_is L]; rfl
  · unfold fgSinglesCorr
    rw [density_is L, density_is L, corr_is L, corr_is L]
    change Except.ok _ = _
    congr 1
    simp only [if_true, norm_gL_zero]
    ring
  · unfold fgDoublesCorr
    rw [density_is L, density_is L, corr_is L, corr_is L]
    change Except.ok _ = _
    congr 1
    simp only [if_true, norm_gL_zero]
    ring

/-- Hypotheses of `C68_correlators`: a two-point distribution with the required means and covariances
exists for the on-site correlator at infinite temperature (where the density is one half). -/
example : ∃ P : Prob Bool, P.mean (fun w => if w then 1 else 0) = 1 / 2 ∧
    P.cov (fun w => if w then 1 else 0) (fun w => if w then 1 else 0) = 1 / 2 * (1 - 1 / 2) := by
  refine ⟨⟨fun _ => 1 / 2, by simp, by simp⟩, ?_, ?_⟩ <;> simp [Prob.cov, Prob.mean] <;> norm_num

end ED.Props
