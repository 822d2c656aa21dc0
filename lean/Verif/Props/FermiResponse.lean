import Verif.Props.FermiDensity

/-! # Properties C69, C82–C87: response, symmetries, chemical potential and density of states -/

namespace ED.Props

open scoped BigOperators
open Filter Topology

variable {n : ℕ} {dim : String}

/-! ## C69: density response -/

theorem fermi_occ (b mu e : ℝ) : fermi (.fin b) mu e = fermiOcc b mu e := rfl

theorem deriv_occ (b mu e : ℝ) :
    (fermiDerivatives (.fin b) mu e 0).1 = some (-deriv (fun x => fermiOcc b mu x) e) := by
  obtain ⟨dmu, de, db, h1, -, h2, -⟩ := C64_derivatives b mu e 0
  have h2' : HasDerivAt (fun x => fermiOcc b mu x) de e := h2
  rw [h2'.deriv]
  have e1 : (fermiDerivatives (.fin b) mu e 0).1 =
    some (-b * (-fermi (.fin b) mu e * (1 - fermi (.fin b) mu e))) := rfl
  have e2 : (fermiDerivatives (.fin b) mu e 0).2.1 =
    some (b * (-fermi (.fin b) mu e * (1 - fermi (.fin b) mu e))) := rfl
  rw [h1] at e2
  rw [e1, Option.some.inj e2]
  congr 1
  ring

theorem response_term (b mu omega eta e e' : ℝ) (h : omega = 0 ∨ eta ≠ 0) :
    (if ((omega + e - e' : ℝ) : ℂ) + Complex.I * (eta : ℝ) = 0 then
        ((fermiDerivatives (.fin b) mu e 0).1).map fun d : ℝ => -(d : ℂ)
      else some (((fermi (.fin b) mu e - fermi (.fin b) mu e' : ℝ) : ℂ) /
        (((omega + e - e' : ℝ) : ℂ) + Complex.I * (eta : ℝ)))) =
      some (lindhardTerm b mu omega eta e e') := by
  have hden : ((omega + e - e' : ℝ) : ℂ) + Complex.I * (eta : ℝ) = 0 ↔
      e = e' ∧ omega = 0 ∧ eta = 0 := by
    rw [Complex.ext_iff]
    simp only [Complex.add_re, Complex.ofReal_re, Complex.mul_re, Complex.I_re, zero_mul,
      Complex.I_im, Complex.ofReal_im, mul_zero, sub_zero, add_zero, Complex.zero_re, Complex.add_im,
      Complex.mul_im, one_mul, zero_add, Complex.zero_im]
    constructor
    · rintro ⟨h1, h2⟩
      rcases h with h | h
      · exact ⟨by rw [h] at h1; linarith, h, h2⟩
      · exact absurd h2 h
    · rintro ⟨rfl, rfl, rfl⟩
      simp
  unfold lindhardTerm
  by_cases hc : e = e' ∧ omega = 0 ∧ eta = 0
  · rw [if_pos (hden.2 hc), if_pos hc, deriv_occ]
    simp
  · rw [if_neg (fun h => hc (hden.1 h)), if_neg hc]
    simp only [fermi_occ]
    push_cast
    rfl

/-- C69 (what holds): on the square lattice the response is the Lindhard sum with the energies at `k`
and `k + q`, at zero frequency or non-zero broadening. The full statement also has the chain, for
which the code is wrong, see `C69_chain_violated`. -/
theorem C69_square_partial (b mu omega eta : ℝ) (q : ℝ × ℝ) (hn : n ≠ 0) (h : omega = 0 ∨ eta ≠ 0) :
    ∃ z : ℂ, z = 1 / (n * n : ℂ) * ∑ i ∈ Finset.range n, ∑ j ∈ Finset.range n,
        lindhardTerm b mu omega eta (band2 (wave n i) (wave n j))
          (band2 (wave n i + q.1) (wave n j + q.2)) ∧
      fgDensityResponse (.fin b) mu q omega eta n "2d" = .ok (some (z.re, z.im)) := by
  obtain ⟨l, hl, hp⟩ := kvects_balanced hn hn
  have hw : ∀ j, kval n j = wave n j := fun j => by unfold kval wave; ring
  set T : ℝ × ℝ → ℂ := fun k => lindhardTerm b mu omega eta (disp2 k) (disp2 (k.1 + q.1, k.2 + q.2))
    with hT
  have hsum : (l.map T).sum = ∑ i ∈ Finset.range n, ∑ j ∈ Finset.range n,
        lindhardTerm b mu omega eta (band2 (wave n i) (wave n j))
          (band2 (wave n i + q.1) (wave n j + q.2)) := by
    rw [(hp.map T).sum_eq, List.map_flatMap, Finset.sum_comm]
    have hr : ∀ (m : ℕ) (f : ℕ → ℂ), ((List.range m).map f).sum = ∑ i ∈ Finset.range m, f i :=
      fun m f => by rw [Finset.sum_range, list_range_map, List.sum_ofFn]
    have hf : ∀ (m : List ℕ) (g : ℕ → List ℂ), (m.flatMap g).sum = (m.map fun a => (g a).sum).sum :=
      fun m g => by induction m with
        | nil => rfl
        | cons a m ih => simp [ih]
    rw [hf, hr]
    refine Finset.sum_congr rfl fun i _ => ?_
    rw [List.map_map, hr]
    refine Finset.sum_congr rfl fun j _ => ?_
    simp only [Function.comp_apply, hT, disp2, band2, cos_bal, cos_bal_add, hw]
  have hlen : (l.length : ℂ) = n * n := by
    rw [hp.length_eq]
    simp
  refine ⟨_, rfl, ?_⟩
  rw [← hsum]
  unfold fgDensityResponse responseEnergies
  rw [if_pos rfl, hl]
  change Except.ok (Option.map _ (nanSum (List.map _ (List.map _ _)))) = _
  have hterms : ∀ (F : ℝ × ℝ → Option ℂ), (∀ k, F (disp2 k, disp2 (k.1 + q.1, k.2 + q.2)) =
      some (T k)) → nanSum ((l.map fun p => (disp2 p, disp2 (p.1 + q.1, p.2 + q.2))).map F) =
        some (l.map T).sum := by
    intro F hF
    rw [List.map_map, ← Modes.nanSum_some, List.map_map]
    congr 1
    exact List.map_congr_left fun k _ => hF k
  rw [hterms _ fun k => response_term b mu omega eta _ _ h]
  simp only [Option.map_some, List.length_map, hlen]
  rw [div_eq_mul_one_div, mul_comm]

/-- C69 fails on the chain: with non-zero broadening the returned response vanishes for every
wavevector and every number of sites. -/
theorem C69_chain_vanishes (b mu omega eta : ℝ) (q : ℝ × ℝ) (hn : n ≠ 0) (h : eta ≠ 0) :
    fgDensityResponse (.fin b) mu q omega eta n "1d" = .ok (some (0, 0)) := by
  obtain ⟨l, hl, hp⟩ := kvects_balanced hn one_ne_zero
  unfold fgDensityResponse responseEnergies
  rw [if_neg (by decide), if_pos rfl, hl]
  change Except.ok (Option.map _ (nanSum (List.map _ (List.map _ _)))) = _
  have hterms : ∀ (F : ℝ × ℝ → Option ℂ), (∀ e, F (e, e) = some 0) →
      nanSum ((l.map fun p => (disp1 p.1, disp1 p.1)).map F) = some 0 := by
    intro F hF
    have := Modes.nanSum_some (l.map fun _ => 0)
    rw [List.map_map] at this ⊢
    have h2 : (l.map fun _ => (0 : ℂ)).sum = 0 := by simp
    rw [h2] at this
    rw [← this]
    congr 1
    exact List.map_congr_left fun k _ => hF _
  rw [hterms _ fun e => ?_]
  · simp
  · simp only
    rw [if_neg]
    · simp
    · intro h0
      have := congrArg Complex.im h0
      simp at this
      exact h this

/-- C69 fails on the chain: with two sites and `q = π` the Lindhard sum does not vanish, at any
non-zero inverse temperature. -/
theorem C69_chain_violated (b eta : ℝ) (hb : b ≠ 0) (he : eta ≠ 0) :
    fgDensityResponse (.fin b) 0 (Real.pi, 0) 0 eta 2 "1d" = .ok (some (0, 0)) ∧
    1 / (2 : ℂ) * ∑ j ∈ Finset.range 2,
      lindhardTerm b 0 0 eta (band1 (wave 2 j)) (band1 (wave 2 j + Real.pi)) ≠ 0 := by
  refine ⟨C69_chain_vanishes b 0 0 eta _ (by norm_num) he, ?_⟩
  have w0 : band1 (wave 2 0) = -2 := by simp [wave, band1]
  have w0' : band1 (wave 2 0 + Real.pi) = 2 := by simp [wave, band1]
  have w1 : band1 (wave 2 1) = 2 := by
    have : wave 2 1 = Real.pi := by unfold wave; push_cast; ring
    simp [this, band1]
  have w1' : band1 (wave 2 1 + Real.pi) = -2 := by
    have : wave 2 1 = Real.pi := by unfold wave; push_cast; ring
    rw [this, band1, Real.cos_add_pi, Real.cos_pi]; norm_num
  rw [Finset.sum_range_succ, Finset.sum_range_one, w0, w0', w1, w1']
  unfold lindhardTerm
  rw [if_neg (by norm_num), if_neg (by norm_num)]
  set d : ℝ := fermiOcc b 0 (-2) - fermiOcc b 0 2 with hd
  have hdne : d ≠ 0 := by
    rw [hd]
    unfold fermiOcc
    intro h0
    have h1 := Real.exp_pos (b * (-2 - 0))
    have h2 := Real.exp_pos (b * (2 - 0))
    have h3 : Real.exp (b * (-2 - 0)) = Real.exp (b * (2 - 0)) := by
      field_simp at h0
      linarith
    rw [Real.exp_eq_exp] at h3
    apply hb
    linarith
  have hd2 : fermiOcc b 0 2 - fermiOcc b 0 (-2) = -d := by rw [hd]; ring
  rw [hd2]
  have hI := Complex.I_sq
  have n1 : ((0 : ℝ) : ℂ) + ((-2 : ℝ) : ℂ) - ((2 : ℝ) : ℂ) + Complex.I * (eta : ℂ) ≠ 0 := by
    intro h0
    have := congrArg Complex.im h0
    simp at this
    exact he this
  have n2 : ((0 : ℝ) : ℂ) + ((2 : ℝ) : ℂ) - ((-2 : ℝ) : ℂ) + Complex.I * (eta : ℂ) ≠ 0 := by
    intro h0
    have := congrArg Complex.im h0
    simp at this
    exact he this
  have hdc : (d : ℂ) ≠ 0 := by exact_mod_cast hdne
  intro h0
  have h8 : (d : ℂ) * 8 = 0 := by
    push_cast at h0 n1 n2
    field_simp at h0
    have h1 := congrArg Complex.re h0
    have h2 := congrArg Complex.im h0
    simp at h1 h2
    first
      | exact absurd h2 (by simpa using hdne)
      | (have : d * 8 = 0 := by linarith
         exact_mod_cast this)
  exact hdc (by simpa using h8)

example : (0 : ℝ) ≠ 1 ∧ (2 : ℕ) ≠ 0 ∧ ((1 : ℝ) = 0 ∨ (1 / 2 : ℝ) ≠ 0) :=
  ⟨by norm_num, by norm_num, Or.inr (by norm_num)⟩

/-! ## C82: symmetries of the density correlator -/

theorem gL_neg (L : Modes n dim) (beta : InvTemp) (mu : ℝ) (c : ℤ × ℤ) :
    ‖gL L beta mu (-c.1, -c.2)‖ = ‖gL L beta mu c‖ := by
  have : gL L beta mu (-c.1, -c.2) = -(starRingEnd ℂ) (gL L beta mu c) := by
    unfold gL
    rw [map_mul, map_div₀, map_one, map_natCast, map_sum, ← mul_neg, ← Finset.sum_neg_distrib]
    congr 1
    refine Finset.sum_congr rfl fun j _ => ?_
    rw [L.ph_neg, map_mul, map_mul, Complex.conj_I, Complex.conj_ofReal]
    ring
  rw [this, norm_neg, Complex.norm_conj]

theorem gL_period (L : Modes n dim) (beta : InvTemp) (mu : ℝ) (c m : ℤ × ℤ) :
    gL L beta mu (c.1 + n * m.1, c.2 + n * m.2) = gL L beta mu c := by
  unfold gL
  simp only [L.ph_period]

/-- C82 (what holds): the density correlator is even in the displacement, and shifting a non-zero
displacement by multiples of the number of sites (to another non-zero one) does not change it. The full
statement has the shift for every displacement, which fails, see `C82_period_violated`. -/
theorem C82_symmetry_partial (beta : InvTemp) (mu : ℝ) (hd : IsDim dim) (hn : 2 ≤ n)
    (hn' : n ≤ 10 ^ 6) (c : ℤ × ℤ) :
    fgCorr beta mu (-c.1, -c.2) n dim = fgCorr beta mu c n dim ∧
    ∀ m : ℤ × ℤ, c ≠ (0, 0) → (c.1 + n * m.1, c.2 + n * m.2) ≠ (0, 0) →
      fgCorr beta mu (c.1 + n * m.1, c.2 + n * m.2) n dim = fgCorr beta mu c n dim := by
  obtain ⟨L⟩ := exists_modes hd hn hn'
  refine ⟨?_, fun m h1 h2 => ?_⟩
  · rw [corr_is L, corr_is L, gL_neg]
    by_cases hc : c = (0, 0)
    · subst hc; simp
    · rw [if_neg hc, if_neg]
      intro h
      apply hc
      simp only [Prod.mk.injEq, neg_eq_zero] at h
      exact Prod.ext h.1 h.2
  · rw [corr_is L, corr_is L, gL_period, if_neg h1, if_neg h2]

theorem rho_pos (L : Modes n dim) (b mu : ℝ) : 0 < rho L (.fin b) mu := by
  have hN := L.card_pos
  have : 0 < ∑ j, fermi (.fin b) mu (L.e j) := by
    refine Finset.sum_pos (fun j _ => ?_) ⟨L.i₀, Finset.mem_univ _⟩
    simp only [fermi]
    have := Real.exp_pos (b * (L.e j - mu))
    positivity
  unfold rho
  positivity

/-- C82 fails: a displacement around the whole lattice is the same site, but the library returns
`-n²` for it instead of `n (1 - n)`; on the chain the same happens for the displacement `(0, 1)`, the
default of `fg_singles_corr`. -/
theorem C82_period_violated (b mu : ℝ) (hd : IsDim dim) (hn : 2 ≤ n) (hn' : n ≤ 10 ^ 6) :
    fgCorr (.fin b) mu (n, 0) n dim ≠ fgCorr (.fin b) mu (0, 0) n dim ∧
    fgCorr (.fin b) mu (0, 1) n "1d" ≠ fgCorr (.fin b) mu (0, 0) n "1d" := by
  constructor
  · obtain ⟨L⟩ := exists_modes hd hn hn'
    have hp := gL_period L (.fin b) mu (0, 0) (1, 0)
    simp only [mul_one, mul_zero, zero_add] at hp
    rw [corr_is L, corr_is L, hp, if_neg (by simp; omega), if_pos rfl]
    intro h
    have := Except.ok.inj h
    linarith [rho_pos L b mu]
  · set L := modes1 hn hn' with hL
    have hp : gL L (.fin b) mu (0, 1) = gL L (.fin b) mu (0, 0) := rfl
    rw [corr_is L, corr_is L, hp, if_neg (by simp), if_pos rfl]
    intro h
    have := Except.ok.inj h
    linarith [rho_pos L b mu]

/-! ## C83: spin rotation symmetry -/

/-- C83: for equal chemical potentials the transverse spin correlator equals the longitudinal one. -/
theorem C83_isotropic (beta : InvTemp) (mu : ℝ) (c : ℤ × ℤ) (hd : IsDim dim) (hn : 2 ≤ n)
    (hn' : n ≤ 10 ^ 6) :
    ∃ v, fgSxCorr beta mu mu c n dim = .ok v ∧ fgSzCorr beta mu mu c n dim = .ok v := by
  obtain ⟨L⟩ := exists_modes hd hn hn'
  obtain ⟨d, h⟩ := realspace_lesser L beta mu c
  refine ⟨((if c = (0, 0) then rho L beta mu else 0) - ‖gL L beta mu c‖ ^ 2) +
    ((if c = (0, 0) then rho L beta mu else 0) - ‖gL L beta mu c‖ ^ 2), ?_, ?_⟩
  · unfold fgSxCorr
    rw [h]
    change Except.ok ((((if c.1 = 0 ∧ c.2 = 0 then (1 : ℝ) else 0) *
      (‖gL L beta mu c‖ + ‖gL L beta mu c‖) : ℝ) : ℂ) - gL L beta mu c *
        (starRingEnd ℂ) (gL L beta mu c) - gL L beta mu c * (starRingEnd ℂ) (gL L beta mu c)).re = _
    congr 1
    rw [Complex.mul_conj, Complex.normSq_eq_norm_sq, ← Complex.ofReal_sub, ← Complex.ofReal_sub,
      Complex.ofReal_re]
    by_cases hc : c = (0, 0)
    · subst hc
      rw [norm_gL_zero]
      simp
      ring
    · rw [if_neg hc, if_neg (fun h => hc (Prod.ext h.1 h.2))]
      ring
  · unfold fgSzCorr
    rw [corr_is L]
    rfl

/-! ## C84: real-space Green's functions -/

/-- C84: the real-space function is the Fourier sum of the momentum-space one, on both lattices. -/
theorem C84_fourier (beta : InvTemp) (mu t : ℝ) (type : String) (c : ℤ × ℤ) (hn : 2 ≤ n)
    (hn' : n ≤ 10 ^ 6) (G : ℝ → ℂ) (D : ℝ → Option ℂ)
    (hG : ∀ e, kspaceGfn beta mu e t type = .ok (G e, D e)) :
    (∃ d, realspaceGfn beta mu c t n "1d" type = .ok (1 / (n : ℂ) * ∑ j ∈ Finset.range n,
      Complex.exp (Complex.I * (wave n j : ℝ) * c.1) * G (band1 (wave n j)), d)) ∧
    ∃ d, realspaceGfn beta mu c t n "2d" type = .ok (1 / (n * n : ℂ) * ∑ i ∈ Finset.range n,
      ∑ j ∈ Finset.range n, Complex.exp (Complex.I * (wave n i : ℝ) * c.1 + Complex.I *
        (wave n j : ℝ) * c.2) * G (band2 (wave n i) (wave n j)), d) := by
  have hw : ∀ j, kval n j = wave n j := fun j => by unfold kval wave; ring
  constructor
  · obtain ⟨d, h, -⟩ := (modes1 hn hn').realspace c hG
    refine ⟨d, h.trans ?_⟩
    have e : (1 / (Fintype.card (modes1 hn hn').κ : ℂ) * ∑ j, (modes1 hn hn').ph c j *
        G ((modes1 hn hn').e j)) = 1 / (Fintype.card (Fin n) : ℂ) * ∑ j : Fin n,
          Complex.exp (Complex.I * (kval n j : ℝ) * c.1) * G (band1 (kval n j)) := rfl
    rw [e, Finset.sum_range]
    simp only [Fintype.card_fin, hw]
  · obtain ⟨d, h, -⟩ := (modes2 hn hn').realspace c hG
    refine ⟨d, h.trans ?_⟩
    have e : (1 / (Fintype.card (modes2 hn hn').κ : ℂ) * ∑ j, (modes2 hn hn').ph c j *
        G ((modes2 hn hn').e j)) = 1 / (Fintype.card (Fin n × Fin n) : ℂ) * ∑ j : Fin n × Fin n,
          (Complex.exp (Complex.I * (kval n j.1 : ℝ) * c.1) *
            Complex.exp (Complex.I * (kval n j.2 : ℝ) * c.2)) * G (band2 (kval n j.1) (kval n j.2)) :=
      rfl
    rw [e, Fintype.sum_prod_type, Finset.sum_range]
    simp only [Finset.sum_range, Fintype.card_prod, Fintype.card_fin, hw, Complex.exp_add]
    push_cast
    rfl

theorem sum_phase (hn : n ≠ 0) (c : ℤ) :
    ∑ j ∈ Finset.range n, Complex.exp (Complex.I * (wave n j : ℝ) * c) =
      if (n : ℤ) ∣ c then (n : ℂ) else 0 := by
  have hnc : (n : ℂ) ≠ 0 := by exact_mod_cast hn
  set z : ℂ := Complex.exp (2 * Real.pi * Complex.I * c / n) with hz
  have hterm : ∀ j : ℕ, Complex.exp (Complex.I * (wave n j : ℝ) * c) = z ^ j := by
    intro j
    rw [hz, ← Complex.exp_nat_mul]
    congr 1
    unfold wave
    push_cast
    field_simp
  simp only [hterm]
  split_ifs with h
  · obtain ⟨m, rfl⟩ := h
    have : z = 1 := by
      rw [hz, Complex.exp_eq_one_iff]
      refine ⟨m, ?_⟩
      push_cast
      field_simp
    simp [this]
  · have h1 : z ≠ 1 := by
      intro he
      rw [hz, Complex.exp_eq_one_iff] at he
      obtain ⟨m, hm⟩ := he
      apply h
      refine ⟨m, ?_⟩
      have hpi : (2 * Real.pi * Complex.I : ℂ) ≠ 0 := Complex.two_pi_I_ne_zero
      have h2 : (c : ℂ) = n * m := by
        field_simp at hm
        linear_combination hm
      exact_mod_cast h2
    have hzn : z ^ n = 1 := by
      rw [hz, ← Complex.exp_nat_mul, Complex.exp_eq_one_iff]
      refine ⟨c, ?_⟩
      field_simp
    rw [geom_sum_eq h1, hzn, sub_self, zero_div]

/-- C84: equal-time anticommutation relation: the difference of greater and lesser function at equal
times is `-i` for displacements around the lattice and zero otherwise. -/
theorem C84_anticommutator (beta : InvTemp) (mu : ℝ) (c : ℤ × ℤ) (hn : 2 ≤ n) (hn' : n ≤ 10 ^ 6) :
    (∃ g l d d', realspaceGfn beta mu c 0 n "1d" "greater" = .ok (g, d) ∧
      realspaceGfn beta mu c 0 n "1d" "lesser" = .ok (l, d') ∧
      g - l = if (n : ℤ) ∣ c.1 then -Complex.I else 0) ∧
    ∃ g l d d', realspaceGfn beta mu c 0 n "2d" "greater" = .ok (g, d) ∧
      realspaceGfn beta mu c 0 n "2d" "lesser" = .ok (l, d') ∧
      g - l = if (n : ℤ) ∣ c.1 ∧ (n : ℤ) ∣ c.2 then -Complex.I else 0 := by
  have hn0 : n ≠ 0 := by omega
  have hnc : (n : ℂ) ≠ 0 := by exact_mod_cast hn0
  have hg : ∀ e, kspaceGfn beta mu e 0 "greater" = .ok (-Complex.I * (1 - ((fermi beta mu e : ℝ) : ℂ)),
      ((fermiDerivatives beta mu e (1 / 10)).1).map fun d : ℝ => Complex.I * (d : ℂ)) := by
    intro e
    unfold kspaceGfn
    simp
  obtain ⟨⟨d1, h1⟩, d2, h2⟩ := C84_fourier beta mu 0 "greater" c hn hn' _ _ hg
  obtain ⟨⟨d1', h1'⟩, d2', h2'⟩ := C84_fourier beta mu 0 "lesser" c hn hn' _ _ (lesser_zero beta mu)
  refine ⟨⟨_, _, d1, d1', h1, h1', ?_⟩, _, _, d2, d2', h2, h2', ?_⟩
  · rw [← mul_sub, ← Finset.sum_sub_distrib]
    have : ∀ j, Complex.exp (Complex.I * (wave n j : ℝ) * c.1) *
        (-Complex.I * (1 - ((fermi beta mu (band1 (wave n j)) : ℝ) : ℂ))) -
        Complex.exp (Complex.I * (wave n j : ℝ) * c.1) *
        (Complex.I * ((fermi beta mu (band1 (wave n j)) : ℝ) : ℂ)) =
        Complex.exp (Complex.I * (wave n j : ℝ) * c.1) * -Complex.I := fun j => by ring
    simp only [this]
    rw [← Finset.sum_mul, sum_phase hn0]
    split_ifs
    · field_simp
    · simp
  · rw [← mul_sub, ← Finset.sum_sub_distrib]
    simp only [← Finset.sum_sub_distrib, Complex.exp_add]
    have : ∀ i j, Complex.exp (Complex.I * (wave n i : ℝ) * c.1) *
        Complex.exp (Complex.I * (wave n j : ℝ) * c.2) *
        (-Complex.I * (1 - ((fermi beta mu (band2 (wave n i) (wave n j)) : ℝ) : ℂ))) -
        Complex.exp (Complex.I * (wave n i : ℝ) * c.1) *
        Complex.exp (Complex.I * (wave n j : ℝ) * c.2) *
        (Complex.I * ((fermi beta mu (band2 (wave n i) (wave n j)) : ℝ) : ℂ)) =
        Complex.exp (Complex.I * (wave n i : ℝ) * c.1) *
        Complex.exp (Complex.I * (wave n j : ℝ) * c.2) * -Complex.I := fun i j => by ring
    simp only [this]
    simp only [← Finset.sum_mul]
    rw [← Finset.sum_mul_sum, sum_phase hn0, sum_phase hn0]
    by_cases a1 : (n : ℤ) ∣ c.1 <;> by_cases a2 : (n : ℤ) ∣ c.2 <;> simp [a1, a2]
    field_simp

/-! ## C85: chemical potential at given density -/

theorem kap_pos (L : Modes n dim) {b : ℝ} (hb : 0 < b) (mu : ℝ) : 0 < kap L b mu := by
  have hN := L.card_pos
  have : 0 < ∑ j, b * (fermi (.fin b) mu (L.e j) * (1 - fermi (.fin b) mu (L.e j))) := by
    refine Finset.sum_pos (fun j _ => ?_) ⟨L.i₀, Finset.mem_univ _⟩
    simp only [fermi]
    have := Real.exp_pos (b * (L.e j - mu))
    rw [one_sub_div (by positivity), add_sub_cancel_right]
    positivity
  unfold kap
  positivity

/-- C85 (what holds): at finite positive inverse temperature, if the root finder returns an exact root
of the function it is given, the density at the returned chemical potential is the requested one,
except that half filling is only right for an even number of sites per direction (see
`C85_half_filling_violated`). -/
theorem C85_mu_partial (root minimizer : (ℝ → Res (Option ℝ)) → Res ℝ)
    (hroot : ∀ g x, root g = .ok x → g x = .ok (some 0)) (b : ℝ) (hb : 0 < b) (density : ℝ)
    (hd : IsDim dim) (hn : 2 ≤ n) (hn' : n ≤ 10 ^ 6) (hodd : density = 1 / 2 → Even n) (mu : ℝ)
    (h : fgMu root minimizer (.fin b) density n dim = .ok mu) :
    fgDensity (.fin b) mu n dim = .ok density := by
  obtain ⟨L⟩ := exists_modes hd hn hn'
  unfold fgMu at h
  simp only at h
  by_cases hh : density = 1 / 2
  · rw [if_pos hh] at h
    have hmu : mu = 0 := (Except.ok.inj h).symm
    obtain ⟨ρ, hρ, -, -, hs⟩ := C67_density_partial (.fin b) hb.le hd hn hn'
    have := hs (hodd hh) (by simp) 0
    rw [neg_zero] at this
    rw [hmu, hρ, hh]
    congr 1
    linarith
  · rw [if_neg hh] at h
    have := hroot _ _ h
    rw [density_is L, compressibility_is L hb.le] at this
    have h2 : some (2 * |rho L (.fin b) mu - density| * kap L b mu) = some 0 := Except.ok.inj this
    have h3 := Option.some.inj h2
    rw [mul_eq_zero, or_iff_left (kap_pos L hb mu).ne', mul_eq_zero,
      or_iff_right (by norm_num), abs_eq_zero, sub_eq_zero] at h3
    rw [density_is L, h3]

/-- C85 fails for three sites: the returned chemical potential at half filling is zero, where the
density is not one half, at every positive inverse temperature. -/
theorem C85_half_filling_violated (root minimizer : (ℝ → Res (Option ℝ)) → Res ℝ) (b : ℝ)
    (hb : 0 < b) :
    fgMu root minimizer (.fin b) (1 / 2) 3 "1d" = .ok 0 ∧
      fgDensity (.fin b) 0 3 "1d" ≠ .ok (1 / 2) := by
  refine ⟨by unfold fgMu; rw [if_pos rfl], ?_⟩
  rw [(C67_density_formula (.fin b) 0 (n := 3) (by norm_num) (by norm_num)).1]
  intro h
  have h := Except.ok.inj h
  have c0 : band1 (wave 3 0) = -2 := by simp [wave, band1]
  have hc : Real.cos (2 * Real.pi / 3) = -1 / 2 := by
    rw [show 2 * Real.pi / 3 = Real.pi - Real.pi / 3 by ring, Real.cos_pi_sub, Real.cos_pi_div_three]
    norm_num
  have c1 : band1 (wave 3 1) = 1 := by
    rw [show wave 3 1 = 2 * Real.pi / 3 by unfold wave; push_cast; ring, band1, hc]; norm_num
  have c2 : band1 (wave 3 2) = 1 := by
    rw [show wave 3 2 = 2 * Real.pi - 2 * Real.pi / 3 by unfold wave; push_cast; ring, band1,
      Real.cos_two_pi_sub, hc]; norm_num
  rw [Finset.sum_range_succ, Finset.sum_range_succ, Finset.sum_range_one, c0, c1, c2] at h
  simp only [fermi] at h
  set y := Real.exp b with hy
  have hy1 : 1 < y := Real.one_lt_exp_iff.2 hb
  have e1 : Real.exp (b * (1 - 0)) = y := by rw [hy]; congr 1; ring
  have e2 : Real.exp (b * (-2 - 0)) = 1 / y ^ 2 := by
    rw [hy, ← Real.exp_nat_mul, one_div, ← Real.exp_neg]; congr 1; push_cast; ring
  rw [e1, e2] at h
  have hy0 : 0 < y := by linarith
  field_simp at h
  have : (y - 1) ^ 3 = 0 := by
    push_cast at h
    nlinarith
  have h2 : y - 1 = 0 := by
    exact pow_eq_zero_iff (by norm_num) |>.1 this
  linarith

/-- Hypotheses of `C85_mu_partial`: a root finder that rejects everything satisfies the contract, and
so does one that returns the chosen root if there is one. -/
example : ∃ root : (ℝ → Res (Option ℝ)) → Res ℝ, (∀ g x, root g = .ok x → g x = .ok (some 0)) ∧
    root (fun x => .ok (some (x - 1))) = .ok 1 := by
  classical
  refine ⟨fun g => if h : ∃ x, g x = .ok (some 0) then .ok h.choose else .error .generic,
    fun g x h => ?_, ?_⟩
  · simp only at h
    split_ifs at h with h'
    have := Except.ok.inj h
    rw [← this]
    exact h'.choose_spec
  · have h : ∃ x : ℝ, (Except.ok (some (x - 1)) : Res (Option ℝ)) = .ok (some 0) := ⟨1, by simp⟩
    simp only [dif_pos h]
    have := Option.some.inj (Except.ok.inj h.choose_spec)
    congr 1
    linarith

/-! ## C86: density of states -/

theorem filter_length_sum (es : List ℝ) (p : ℝ → Prop) [DecidablePred p] :
    ((es.filter fun e => p e).length : ℝ) = (es.map fun e => if p e then (1 : ℝ) else 0).sum := by
  induction es with
  | nil => simp
  | cons a es ih =>
    by_cases h : p a
    · simp [h, ih]; ring
    · simp [h, ih]

/-- C86: for increasing bin edges the density of states is non-negative, and its integral over the bins
is the fraction of energies between the first and the last edge (both included). -/
theorem C86_dos (es ends : List ℝ) (he : es ≠ []) (h2 : 2 ≤ ends.length)
    (hs : ends.Pairwise (· < ·)) :
    (∀ x ∈ getDos es ends, 0 ≤ x) ∧ (getDos es ends).length = ends.length - 1 ∧
    ∑ i ∈ Finset.range (ends.length - 1),
      (getDos es ends).getD i 0 * (ends.getD (i + 1) 0 - ends.getD i 0) =
      ((es.filter fun e => ends.getD 0 0 ≤ e ∧ e ≤ ends.getD (ends.length - 1) 0).length : ℝ) /
        es.length := by
  obtain ⟨m, hm⟩ : ∃ m, ends.length = m + 2 := ⟨ends.length - 2, by omega⟩
  set A : ℕ → ℝ := fun i => ends.getD i 0 with hA
  have hmono : ∀ i j, i < j → j < m + 2 → A i < A j := by
    intro i j hij hj
    have hi : i < ends.length := by omega
    have hj' : j < ends.length := by omega
    simp only [hA, List.getD_eq_getElem?_getD, List.getElem?_eq_getElem hi,
      List.getElem?_eq_getElem hj', Option.getD_some]
    exact List.pairwise_iff_getElem.1 hs i j hi hj' hij
  have hlen : (0 : ℝ) < es.length := by
    exact_mod_cast List.length_pos_iff.2 he
  have hdos : ∀ i, i < m + 1 → (getDos es ends).getD i 0 =
      ((es.filter fun e => A i ≤ e ∧ (e < A (i + 1) ∨ (i = m ∧ e = A (i + 1)))).length : ℝ) /
        (A (i + 1) - A i) / es.length := by
    intro i hi
    unfold getDos
    rw [hm]
    simp [hi, hA]
  refine ⟨?_, by simp [getDos], ?_⟩
  · intro x hx
    unfold getDos at hx
    simp only [List.mem_map, List.mem_range] at hx
    obtain ⟨i, hi, rfl⟩ := hx
    have := hmono i (i + 1) (by omega) (by omega)
    simp only [hA] at this
    have : 0 < ends.getD (i + 1) 0 - ends.getD i 0 := by linarith
    positivity
  · rw [hm, show m + 2 - 1 = m + 1 by omega]
    set g : ℝ → ℕ → ℝ := fun e i => if e < A i ∨ (i = m + 1 ∧ e = A i) then 1 else 0 with hg
    have hbin : ∀ e i, i < m + 1 →
        (if A i ≤ e ∧ (e < A (i + 1) ∨ (i = m ∧ e = A (i + 1))) then (1 : ℝ) else 0) =
          g e (i + 1) - g e i := by
      intro e i hi
      have hlt := hmono i (i + 1) (by omega) (by omega)
      have him : ¬ i = m + 1 := by omega
      have him' : i + 1 = m + 1 ↔ i = m := by omega
      simp only [hg, him', him, false_and, or_false]
      by_cases h1 : A i ≤ e
      · simp [h1, not_lt.2 h1]
      · have h1' := not_le.1 h1
        simp [h1, h1', h1'.trans hlt]
    have hterm : ∀ i ∈ Finset.range (m + 1),
        (getDos es ends).getD i 0 * (ends.getD (i + 1) 0 - ends.getD i 0) =
          (es.map fun e => g e (i + 1) - g e i).sum / es.length := by
      intro i hi
      have hi := Finset.mem_range.1 hi
      have hlt := hmono i (i + 1) (by omega) (by omega)
      have hne : A (i + 1) - A i ≠ 0 := by linarith
      rw [hdos i hi, filter_length_sum]
      change _ * (A (i + 1) - A i) = _
      rw [List.map_congr_left fun e _ => hbin e i hi]
      field_simp
    rw [Finset.sum_congr rfl hterm, ← Finset.sum_div]
    congr 1
    rw [filter_length_sum]
    clear hlen hdos hterm he
    induction es with
    | nil => simp
    | cons e es ih =>
      simp only [List.map_cons, List.sum_cons, Finset.sum_add_distrib]
      rw [ih, Finset.sum_range_sub]
      congr 1
      have h0 := hmono 0 (m + 1) (by omega) (by omega)
      have h00 : ¬ (0 = m + 1) := by omega
      simp only [hg, h00, false_and, or_false, true_and]
      change _ = if A 0 ≤ e ∧ e ≤ A (m + 1) then (1 : ℝ) else 0
      simp only [← le_iff_lt_or_eq]
      by_cases h1 : A 0 ≤ e
      · simp [h1, not_lt.2 h1]
      · have h1' := not_le.1 h1
        simp [h1, h1', (h1'.trans h0).le]

example : ([0, 1, 2] : List ℝ).Pairwise (· < ·) ∧ ([1, 1] : List ℝ) ≠ [] := by
  constructor
  · norm_num
  · simp

/-! ## C87: one site -/

/-- C87 fails for a single site: the density is an error, as `C67_one_site_fails` shows; it is
returned from two sites on. -/
theorem C87_sizes_partial (beta : InvTemp) (mu : ℝ) (hd : IsDim dim) (hn : 2 ≤ n)
    (hn' : n ≤ 10 ^ 6) : ∃ r, fgDensity beta mu n dim = .ok r := by
  obtain ⟨L⟩ := exists_modes hd hn hn'
  exact ⟨_, density_is L beta mu⟩

end ED.Props
