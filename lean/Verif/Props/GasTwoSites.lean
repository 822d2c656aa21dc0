import Verif.Props.GasModel
import Mathlib.Analysis.SpecialFunctions.Trigonometric.DerivHyp

/-! # Property C113: where exact diagonalization and the Fermi gas module disagree -/

namespace ED.Props

open ED ED.Geometry Matrix
open scoped BigOperators

/-- The symmetric and the antisymmetric state of two sites. -/
noncomputable def pairStates (N : ℕ) : Matrix (Fin N) (Fin 2) ℂ :=
  of fun i k => (if (i : ℕ) = 1 ∧ k = 1 then -1 else 1) / (Real.sqrt 2 : ℂ)

theorem pairStates_basis {N : ℕ} (hN : N = 2) {adj : ℕ → ℕ → ℝ}
    (h : ∀ i < N, ∀ j < N, adj i j = if i = j then 0 else 1) (t mu : ℝ) :
    IsEigenbasis (oneParticle (fun i j : Fin N => t * adj i j) fun _ => -mu) (pairStates N)
      (fun k => t * (if k = 0 then -1 else 1) - mu) := by
  subst hN
  have h2 : (Real.sqrt 2 : ℂ) * (Real.sqrt 2 : ℂ) = 2 := by
    rw [← Complex.ofReal_mul, Real.mul_self_sqrt (by norm_num)]; norm_num
  have h0 : (Real.sqrt 2 : ℂ) ≠ 0 := fun h => by rw [h] at h2; norm_num at h2
  have o : (pairStates 2)ᴴ * pairStates 2 = 1 := by
    ext k k'
    rw [mul_apply, Fin.sum_univ_two]
    fin_cases k <;> fin_cases k' <;>
      simp [pairStates, conjTranspose_apply, one_apply, Complex.conj_ofReal] <;> field_simp <;>
      first | (rw [sq, h2]; norm_num; done) | ring
  refine ⟨o, mul_eq_one_comm.1 o, ?_⟩
  have a := h 0 (by norm_num) 1 (by norm_num)
  have a' := h 1 (by norm_num) 0 (by norm_num)
  norm_num at a a'
  ext i k
  rw [mul_apply, mul_diagonal, Fin.sum_univ_two]
  fin_cases i <;> fin_cases k <;> simp [pairStates, oneParticle, a, a'] <;> field_simp <;> ring

theorem sum_occupancy_ne {T t mu : ℝ} (hT : T ≠ 0) (ht : t ≠ 0) (hmu : mu ≠ 0) :
    occupancy T (-t - mu) + occupancy T (t - mu) ≠ occupancy T (-2 * t - mu) + occupancy T (2 * t - mu) := by
  have key : ∀ x : ℝ, occupancy T (-x - mu) + occupancy T (x - mu) =
      (2 + Real.exp (-mu / T) * (2 * Real.cosh (x / T))) /
        (1 + Real.exp (-mu / T) ^ 2 + Real.exp (-mu / T) * (2 * Real.cosh (x / T))) := fun x => by
    unfold occupancy
    rw [show (-x - mu) / T = -(x / T) + -mu / T by ring, show (x - mu) / T = x / T + -mu / T by ring, Real.exp_add,
      Real.exp_add, Real.cosh_eq]
    have hp := Real.exp_pos (-mu / T)
    have h1 := Real.exp_pos (x / T)
    have h2 := Real.exp_pos (-(x / T))
    have h3 : Real.exp (x / T) * Real.exp (-(x / T)) = 1 := by rw [← Real.exp_add]; simp
    generalize Real.exp (-mu / T) = y at *
    generalize Real.exp (x / T) = a at *
    generalize Real.exp (-(x / T)) = b at *
    rw [div_add_div _ _ (by positivity) (by positivity), div_eq_div_iff (by positivity) (by positivity)]
    linear_combination (-(2 + y * (a + b)) * y ^ 2) * h3
  intro h
  have e2 : -2 * t - mu = -(2 * t) - mu := by ring
  rw [e2, key t, key (2 * t)] at h
  have hy := Real.exp_pos (-mu / T)
  have hy1 : Real.exp (-mu / T) ≠ 1 := fun h => by
    rw [Real.exp_eq_one_iff, div_eq_zero_iff] at h
    rcases h with h | h
    · exact hmu (by linarith)
    · exact hT h
  have c1 := Real.cosh_pos (t / T)
  have c2 := Real.cosh_pos (2 * t / T)
  have hc : Real.cosh (t / T) < Real.cosh (2 * t / T) := by
    rw [Real.cosh_lt_cosh, mul_div_assoc, abs_mul]
    have : 0 < |t / T| := abs_pos.2 (div_ne_zero ht hT)
    rw [abs_of_pos (by norm_num : (0 : ℝ) < 2)]
    linarith
  generalize Real.exp (-mu / T) = y at *
  generalize Real.cosh (t / T) = a at *
  generalize Real.cosh (2 * t / T) = b at *
  rw [div_eq_div_iff (by positivity) (by positivity)] at h
  have : y * (y - 1) * (y + 1) * (b - a) = 0 := by linear_combination (-1 / 2) * h
  rcases mul_eq_zero.1 this with h | h
  · rcases mul_eq_zero.1 h with h | h
    · rcases mul_eq_zero.1 h with h | h
      · exact hy.ne' h
      · exact hy1 (by linarith)
    · linarith
  · linarith

/-- C113 fails for two sites: the ring of two sites has a single bond, while the Fermi gas module uses the energies of a
ring in which every site has two neighbors. The densities differ at every temperature away from half filling. -/
theorem C113_two_sites_violated (S : EigSolvers) (hS : EigContract S) {t mu T : ℝ} (ht : t ≠ 0) (hmu : mu ≠ 0)
    (hT : T ≠ 0) : ∃ g F A w M ρ ρ', GasGeometry 2 "1d" g ∧ gasModel g 1 t (fun _ => mu) = .ok F ∧
      F.createH none = .ok A ∧ diagList S A = .ok (w, M) ∧
      thermalExpSites F.sys M w nOp 0 [T] none none "boson" = .ok ([[ρ], [ρ]], [0, 1]) ∧
      fgDensity (.fin (t / T)) (mu / t) 2 "1d" = .ok ρ' ∧ ρ ≠ ρ' := by
  have q1 : 2 = 1 → false = true := by norm_num
  have q2 : 1 = 1 → true = true := fun _ => rfl
  obtain ⟨g, hg, hN, -⟩ := C50_square 2 1 two_pos one_pos 0 0 false true q1 q2
  obtain ⟨g', hg', hlen, hnd, hgrid⟩ := C50_square_grid 2 1 two_pos one_pos (by norm_num) 0 0 false true q1 q2
  rw [hg] at hg'
  injection hg' with e
  subst e
  have hG : GasGeometry 2 "1d" g := Or.inl ⟨rfl, hg⟩
  have hN : g.nsites = 2 := hN
  have pos : ∀ i < g.nsites, ∃ a : ℕ, a < 2 ∧ g.xlocs[i]? = some (a : ℝ) ∧ g.ylocs[i]? = some 0 := by
    intro i hi
    have hi' : i < g.ylocs.length := hlen ▸ hi
    have hm : (g.xlocs[i], g.ylocs[i]) ∈ g.xlocs.zip g.ylocs := by
      rw [List.mem_iff_getElem?]
      refine ⟨i, ?_⟩
      rw [List.getElem?_zip_eq_some]
      exact ⟨List.getElem?_eq_getElem hi, List.getElem?_eq_getElem hi'⟩
    obtain ⟨a, b, ha, hb, e1, e2⟩ := (hgrid _ _).1 hm
    obtain rfl : b = 0 := by omega
    exact ⟨a, ha, by rw [List.getElem?_eq_getElem hi, e1], by rw [List.getElem?_eq_getElem hi', e2]; simp⟩
  have hadj : ∀ i < g.nsites, ∀ j < g.nsites, g.adjacency.e i j = if i = j then 0 else 1 := by
    intro i hi j hj
    obtain ⟨a, ha, hx, hy⟩ := pos i hi
    obtain ⟨a', ha', hx', hy'⟩ := pos j hj
    obtain ⟨h01, hiff⟩ := C51_square 2 1 two_pos one_pos (by norm_num) 0 0 false true q1 q2 hg hx hy hx' hy'
    by_cases hij : i = j
    · rw [if_pos hij]
      subst hij
      rw [hx] at hx'
      have haa : (a : ℝ) = a' := Option.some.inj hx'
      refine h01.resolve_right fun h => ?_
      obtain ⟨k, l, -, hl, hm⟩ := hiff.1 h
      rw [hl rfl, haa] at hm
      simp only [Set.mem_insert_iff, Set.mem_singleton_iff, Prod.mk.injEq, sub_self, zero_add] at hm
      norm_num at hm
      rcases hm with h | h
      · have : k * 2 = (1 : ℤ) := by exact_mod_cast h
        omega
      · have : k * 2 = (-1 : ℤ) := by exact_mod_cast h
        omega
    · rw [if_neg hij, hiff]
      have hne : a ≠ a' := by
        rintro rfl
        have e1 : (g.xlocs.zip g.ylocs)[i]? = some ((a : ℝ), 0) := List.getElem?_zip_eq_some.2 ⟨hx, hy⟩
        have e2 : (g.xlocs.zip g.ylocs)[j]? = some ((a : ℝ), 0) := List.getElem?_zip_eq_some.2 ⟨hx', hy'⟩
        have hl : i < (g.xlocs.zip g.ylocs).length := (List.getElem?_eq_some_iff.1 e1).1
        exact hij ((List.getElem?_inj hl hnd).1 (e1.trans e2.symm))
      refine ⟨0, 0, fun h => rfl, fun _ => rfl, ?_⟩
      have : (a = 0 ∧ a' = 1) ∨ (a = 1 ∧ a' = 0) := by omega
      rcases this with ⟨rfl, rfl⟩ | ⟨rfl, rfl⟩ <;> norm_num
  obtain ⟨p, hp, hNI⟩ := gas_setup le_rfl (by norm_num) hG 1 t fun _ => mu
  obtain ⟨A, w, M, h1, h2, h3⟩ := C112_densities S hS hNI (φ := fun _ => pairStates g.nsites)
    (ε := fun _ k => t * (if k = 0 then -1 else 1) - mu) fun s => pairStates_basis hN hadj t mu
  have hrho := density_is (modes1 (le_refl 2) (by norm_num)) (.fin (t / T)) (mu / t)
  refine ⟨g, p.model g 1, A, w, M, (occupancy T (-t - mu) + occupancy T (t - mu)) / 2, _, hG, hp, h1, h2, ?_, hrho, ?_⟩
  · have := h3 ⟨0, one_pos⟩ [T] (by simpa using hT)
    refine this.trans ?_
    have hs : ∀ i : Fin g.nsites, siteDensity (pairStates g.nsites) (fun k => t * (if k = 0 then -1 else 1) - mu) T i =
        (occupancy T (-t - mu) + occupancy T (t - mu)) / 2 := fun i => by
      unfold siteDensity
      have hn : ∀ k, ‖pairStates g.nsites i k‖ ^ 2 = 1 / 2 := fun k => by
        unfold pairStates
        simp only [of_apply]
        rw [norm_div, Complex.norm_real, Real.norm_eq_abs, abs_of_nonneg (Real.sqrt_nonneg _), div_pow,
          Real.sq_sqrt (by norm_num)]
        split_ifs <;> simp
      rw [Fin.sum_univ_two, hn, hn]
      simp
      ring
    have e1 : (List.ofFn fun i : Fin g.nsites => [T].map fun T =>
        siteDensity (pairStates g.nsites) (fun k => t * (if k = 0 then -1 else 1) - mu) T i) =
        [[(occupancy T (-t - mu) + occupancy T (t - mu)) / 2], [(occupancy T (-t - mu) + occupancy T (t - mu)) / 2]] := by
      simp only [List.map_cons, List.map_nil, hs]
      rw [List.ofFn_const, hN]
      rfl
    have e2 : List.range g.nsites = [0, 1] := by rw [hN]; rfl
    exact congrArg Except.ok (Prod.ext e1 e2)
  · intro h
    unfold rho at h
    have hs : ∑ j : Fin 2, fermi (.fin (t / T)) (mu / t) (-2 * Real.cos (kval 2 j)) =
        occupancy T (-2 * t - mu) + occupancy T (2 * t - mu) := by
      rw [Fin.sum_univ_two, fermi_scaled ht, fermi_scaled ht]
      have k0 : kval 2 ((0 : Fin 2) : ℕ) = 0 := by unfold kval; simp
      have k1 : kval 2 ((1 : Fin 2) : ℕ) = Real.pi := by unfold kval; simp
      rw [k0, k1, Real.cos_zero, Real.cos_pi]
      congr 2 <;> ring
    have hcard : (Fintype.card (modes1 (le_refl 2) (by norm_num)).κ : ℝ) = 2 := by
      change (Fintype.card (Fin 2) : ℝ) = 2
      simp
    rw [hcard] at h
    change _ = 1 / 2 * ∑ j : Fin 2, fermi (.fin (t / T)) (mu / t) (-2 * Real.cos (kval 2 j)) at h
    rw [hs] at h
    exact sum_occupancy_ne hT ht hmu (by linarith)

end ED.Props
