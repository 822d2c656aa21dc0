import Verif.Props.FreeEnergy
import Verif.Lemmas.ApproxSectors

/-! # Property C136: small changes of a Hamiltonian change energies, free energies and averages little -/

namespace ED.Props

open Matrix
open ED.Spec (NormLe)

section

variable {ι : Type} [Fintype ι] [DecidableEq ι]

theorem normLe_quad {B : Matrix ι ι ℂ} {δ : ℝ} (h : NormLe B δ) (c : ι → ℂ) : ‖star c ⬝ᵥ B *ᵥ c‖ ≤ δ * ∑ p, ‖c p‖ ^ 2 := by
  rw [dotProduct_mulVec]
  have hs : 0 ≤ ∑ p, ‖c p‖ ^ 2 := Finset.sum_nonneg fun _ _ => sq_nonneg _
  calc ‖(star c ᵥ* B) ⬝ᵥ c‖ ≤ ∑ p, ‖(star c ᵥ* B) p‖ * ‖c p‖ := by
        unfold dotProduct
        refine (norm_sum_le _ _).trans (Finset.sum_le_sum fun p _ => (norm_mul _ _).le)
    _ ≤ δ * Real.sqrt (∑ p, ‖c p‖ ^ 2) * Real.sqrt (∑ p, ‖c p‖ ^ 2) := by
        refine sum_mul_le (mul_nonneg h.1 (Real.sqrt_nonneg _)) (Real.sqrt_nonneg _) ?_ ?_
        · rw [mul_pow, Real.sq_sqrt hs]
          have := h.2 (star c)
          simpa only [Pi.star_apply, norm_star] using this
        · rw [Real.sq_sqrt hs]
    _ = _ := by rw [mul_assoc, Real.mul_self_sqrt hs]

theorem thermalAvg_le [Nonempty ι] {H O : Matrix ι ι ℂ} (hH : H.IsHermitian) {c : ℝ} (T : ℝ) (hO : NormLe O c) : |thermalAvg H O T| ≤ c := by
  have pZ := partitionFn_pos hH T
  rw [thermalAvg_ratio]
  refine (Complex.abs_re_le_norm _).trans ?_
  rw [norm_div, Complex.norm_real, Real.norm_of_nonneg pZ.le, div_le_iff₀ pZ]
  exact trace_boltz_le hH hO

theorem normLe_neg {B : Matrix ι ι ℂ} {δ : ℝ} (h : NormLe B δ) : NormLe (-B) δ := by
  refine ⟨h.1, fun v => ?_⟩
  have := h.2 v
  rw [vecMul_neg]
  simpa only [Pi.neg_apply, norm_neg] using this

variable [Basis ι] [Nonempty ι]

/-- C136: two Hamiltonians whose difference has norm at most `δ`. Their energies, in order, differ by at most `δ`; so do the free energies,
and the averages of an operator of norm `c` differ by at most `2 δ c / T`. -/
theorem C136_difference (S : EigSolvers) (hS : EigContract S) (A A' : Mat) (H H' : Matrix ι ι ℂ) (hA : A.Is H) (hA' : A'.Is H')
    (hH : H.IsHermitian) (hH' : H'.IsHermitian) (δ : ℝ) (hδ : NormLe (H' - H) δ) :
    ∃ w M w' M', diagList S A = .ok (w, M) ∧ diagList S A' = .ok (w', M') ∧ w.length = w'.length ∧
      (∀ (k : ℕ) (x y : ℝ), w[k]? = some x → w'[k]? = some y → |x - y| ≤ δ) ∧
      ∀ T, 0 < T → |(-T * Real.log (partitionFnHamiltonian A (1 / T))) - (-T * Real.log (partitionFnHamiltonian A' (1 / T)))| ≤ δ ∧
        ∀ (B : Mat) (O : Matrix ι ι ℂ) (c : ℝ), B.Is O → NormLe O c → ∃ b b', expValsThermal M B w T = .ok b ∧
          expValsThermal M' B w' T = .ok b' ∧ |b - b'| ≤ 2 * δ * c / T := by
  obtain ⟨m, E, M, V, h1, h2, h3, h4, h5, h6⟩ := diagList_ok S hS hA hH
  obtain ⟨m', E', M', V', k1, k2, k3, k4, k5, k6⟩ := diagList_ok S hS hA' hH'
  have hc : Fintype.card (Fin (m + 1)) = Fintype.card (Fin (m' + 1)) := by
    have e1 := trace_mul_comm V Vᴴ
    have e2 := trace_mul_comm V' V'ᴴ
    rw [h3, h4, trace_one, trace_one] at e1
    rw [k3, k4, trace_one, trace_one] at e2
    exact_mod_cast e1.symm.trans e2
  rw [Fintype.card_fin, Fintype.card_fin] at hc
  obtain rfl : m = m' := by omega
  have hw : ∀ k, |E k - E' k| ≤ δ := fun k => by
    refine weyl_blocks (X := 1) (D := H') (B := V') (a := E') (V := V) (h := E) (H := H) (by simp) (fun c => ?_) k3 k5 h4 h5 (Equiv.refl _) k6 h6 k
    rw [Matrix.one_mul, conjTranspose_one, Matrix.mul_one, ← neg_sub H' H]
    exact normLe_quad (normLe_neg hδ) c
  refine ⟨_, M, _, M', h1, k1, by simp, fun k x y hx hy => ?_, fun T hT => ⟨?_, fun B O c hB hO => ⟨_, _, C19_canonical h2 hB E T (Or.inl hT.ne'),
    C19_canonical k2 hB E' T (Or.inl hT.ne'), ?_⟩⟩⟩
  · rw [List.getElem?_ofFn] at hx hy
    split at hx
    · rename_i hk
      rw [dif_pos hk] at hy
      injection hx with hx
      injection hy with hy
      rw [← hx, ← hy]
      exact hw _
    · cases hx
  · rw [partition_trace hA hH hT.ne', partition_trace hA' hH' hT.ne']
    change |freeEnergy H T - freeEnergy H' T| ≤ δ
    have g1 := gibbs_variational hH hH' hT
    have g2 := gibbs_variational hH' hH hT
    have n1 := abs_le.1 (thermalAvg_le hH T hδ)
    have n2 := abs_le.1 (thermalAvg_le hH' T (normLe_neg hδ))
    rw [neg_sub] at n2
    exact abs_le.2 ⟨by linarith [n1.2], by linarith [n2.2]⟩
  · rw [← thermalAvg_eig h3 h4 h5 O hT.ne', ← thermalAvg_eig k3 k4 k5 O hT.ne']
    exact thermalAvg_near hH hH' hT hδ hO

end

/-! ## Fermions -/

open scoped Matrix.Norms.L2Operator in
theorem norm_numbers {N : ℕ} {α : Type} (s : Finset α) (c : α → ℝ) (k : α → Fin N) :
    NormLe (∑ p ∈ s, (c p : ℂ) • number (k p)) (∑ p ∈ s, |c p|) := by
  refine normLe_of_transpose ?_
  rw [transpose_sum]
  refine norm_sum_le_of_le _ fun p _ => ?_
  rw [transpose_smul, norm_smul, Complex.norm_real, Real.norm_eq_abs]
  refine mul_le_of_le_one_right (abs_nonneg _) ?_
  unfold number
  rw [diagonal_transpose, l2_opNorm_diagonal]
  refine (pi_norm_le_iff_of_nonneg zero_le_one).2 fun t => ?_
  split_ifs <;> simp

/-- C136, potentials: if the potentials of a fermion model change by amounts whose magnitudes add up to `δ`, no energy changes by more
than `δ` and no density by more than `2 δ / T`. -/
theorem C136_potentials (S : EigSolvers) (hS : EigContract S) (F : Fermions) (hI : InterOk F) (hr : RealParams F) (pots' : ℕ → ℕ → ℝ) (δ : ℝ)
    (hδ : ∑ i : Fin F.nsites, ∑ s : Fin F.nspecies, |pots' i s - (F.pots i s).re| = δ) :
    ∃ A w M A' w' M', F.createH none = .ok A ∧ diagList S A = .ok (w, M) ∧
      ({ F with pots := fun i s => pots' i s } : Fermions).createH none = .ok A' ∧ diagList S A' = .ok (w', M') ∧ w.length = w'.length ∧
      (∀ (k : ℕ) (x y : ℝ), w[k]? = some x → w'[k]? = some y → |x - y| ≤ δ) ∧ ∀ T, 0 < T → ∀ s : Fin F.nspecies, ∃ n n' : Fin F.nsites → ℝ,
        thermalExpSites F.sys M w nOp s [T] none none "boson" = .ok (List.ofFn fun i => [n i], List.range F.nsites) ∧
        thermalExpSites F.sys M' w' nOp s [T] none none "boson" = .ok (List.ofFn fun i => [n' i], List.range F.nsites) ∧
        ∀ i, |n i - n' i| ≤ 2 * δ / T := by
  have hr' : RealParams { F with pots := fun i s => (pots' i s : ℂ) } := ⟨hr.ts, hr.us, hr.same, hr.mus, fun i s => Complex.conj_ofReal _⟩
  obtain ⟨A, hA, hAi⟩ := C27_hamiltonian F hI
  obtain ⟨A', hA', hAi'⟩ := C27_hamiltonian { F with pots := fun i s => (pots' i s : ℂ) } hI
  have hH := F_hermitian hI hr
  have hH' := F_hermitian (F := { F with pots := fun i s => (pots' i s : ℂ) }) hI hr'
  set H : Op (F.nsites * F.nspecies) 2 := hubInter (fun i : Fin F.nsites => F.us i) + hubRest F with hHd
  set H' : Op (F.nsites * F.nspecies) 2 := hubInter (fun i : Fin F.nsites => F.us i) + hubRest { F with pots := fun i s => (pots' i s : ℂ) } with hHd'
  have hd : NormLe (H' - H) δ := by
    have e : H' - H = ∑ p ∈ (Finset.univ : Finset (Fin F.nsites × Fin F.nspecies)), ((pots' p.1 p.2 - (F.pots p.1 p.2).re : ℝ) : ℂ) • number (mode p.1 p.2) := by
      rw [Fintype.sum_prod_type]
      have k4 : ∀ (i : Fin F.nsites) (s : Fin F.nspecies), ((F.pots i s).re : ℂ) = F.pots i s := fun i s => Complex.conj_eq_iff_re.1 (hr.pots i s)
      have q : ∀ P : Fin F.nsites → Fin F.nspecies → ℂ, hubInter (fun i : Fin F.nsites => F.us i) +
          (hubSame (fun (i j : Fin F.nsites) (s : Fin F.nspecies) => F.usSame i j s) +
          hubHop (fun (i j : Fin F.nsites) (s : Fin F.nspecies) => F.ts i j s * hopWeight F i j) + hubPot P) =
          (hubInter (fun i : Fin F.nsites => F.us i) + (hubSame (fun (i j : Fin F.nsites) (s : Fin F.nspecies) => F.usSame i j s) +
          hubHop (fun (i j : Fin F.nsites) (s : Fin F.nspecies) => F.ts i j s * hopWeight F i j))) + hubPot P := fun P => (add_assoc _ _ _).symm
      have e1 : H' = _ := q fun i s => (pots' i s : ℂ) - F.mus s
      have e2 : H = _ := q fun i s => F.pots i s - F.mus s
      rw [e1, e2, add_sub_add_left_eq_sub]
      unfold hubPot
      simp only [← Finset.sum_sub_distrib, ← sub_smul]
      refine Finset.sum_congr rfl fun i _ => Finset.sum_congr rfl fun s _ => ?_
      push_cast
      rw [k4]
      congr 1
      ring
    rw [e, ← hδ, ← Fintype.sum_prod_type' (f := fun (i : Fin F.nsites) (s : Fin F.nspecies) => |pots' i s - (F.pots i s).re|)]
    exact norm_numbers _ _ _
  obtain ⟨w, M, w', M', d1, d2, d3, d4, d5⟩ := C136_difference S hS A A' H H' hAi hAi' hH hH' δ hd
  obtain ⟨m, E, M1, V, a1, a2, a3, a4, a5, a6⟩ := diagList_ok S hS hAi hH
  obtain ⟨m', E', M1', V', b1, b2, b3, b4, b5, b6⟩ := diagList_ok S hS hAi' hH'
  rw [a1] at d1
  rw [b1] at d2
  injection d1 with d1
  injection d2 with d2
  injection d1 with e1 e2
  injection d2 with e3 e4
  subst e1 e2 e3 e4
  refine ⟨A, _, M1, A', _, M1', hA, a1, hA', b1, d3, d4, fun T hT s => ⟨_, _, site_averages F.sys nOp s (fun i => F_single F i s) a2 (Or.inl hT.ne'),
    site_averages F.sys nOp s (fun i => F_single F i s) b2 (Or.inl hT.ne'), fun i => ?_⟩⟩
  rw [← thermalAvg_eig a3 a4 a5 _ hT.ne', ← thermalAvg_eig b3 b4 b5 _ hT.ne']
  have hn : NormLe (number (mode i s) : Op (F.nsites * F.nspecies) 2) 1 := by
    have := norm_numbers (N := F.nsites * F.nspecies) {()} (fun _ => 1) (fun _ => mode i s)
    simpa using this
  have := thermalAvg_near hH hH' hT hd hn
  rwa [mul_one] at this

/-- Two sites with two species, whose potential on the first site is raised. -/
example : ∃ (F : Fermions) (pots' : ℕ → ℕ → ℝ), InterOk F ∧ RealParams F ∧
    ∑ i : Fin F.nsites, ∑ s : Fin F.nspecies, |pots' i s - (F.pots i s).re| = 1 / 2 := by
  refine ⟨⟨2, 2, fun _ _ _ => 1, fun _ => 4, fun _ _ _ => 0, fun _ => 0, fun _ _ => 0, fun _ _ => 1, fun _ _ => 0⟩,
    fun i s => if i = 0 ∧ s = 0 then 1 / 2 else 0, Or.inl le_rfl,
    ⟨fun _ _ _ => star_one _, fun _ => Complex.conj_ofReal 4, fun _ _ _ => star_zero _, fun _ => star_zero _, fun _ _ => star_zero _⟩, ?_⟩
  change ∑ i : Fin 2, ∑ s : Fin 2, |(if (i : ℕ) = 0 ∧ (s : ℕ) = 0 then (1 / 2 : ℝ) else 0) - (0 : ℂ).re| = 1 / 2
  simp [Fin.sum_univ_two]

end ED.Props
