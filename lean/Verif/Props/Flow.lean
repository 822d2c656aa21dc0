import Verif.Props.Larmor
import Verif.Props.Signs
import Verif.Props.Stability
import Verif.Props.Current

/-!
# Property C149: particles move along bonds

After a quench the density at a site changes by the currents along the bonds of that site, and by nothing else.
-/

namespace ED.Props

open Matrix ED.Geometry

/-! ## Specification -/

/-- The amplitude of the bond between two sites; the code reads the couplings of the later site to the earlier one. -/
noncomputable def bondAmplitude (F : Fermions) (i j s : ℕ) : ℝ := if j < i then (Amplitude F i j s).re else if i < j then (Amplitude F j i s).re else 0

/-- Densities as functions of the time: the averages of the number operators in the states of the array. -/
def DensitiesAre (F : Fermions) (states : Mat) (times : List ℝ) (n : Fin F.nsites → Fin F.nspecies → ℝ → ℝ) : Prop :=
  ∀ (i : Fin F.nsites) (s : Fin F.nspecies), ∃ N, getSingleSiteOp F.sys i s nOp "boson" = .ok N ∧ getExpVals states N = .ok (times.map (n i s))

/-- Currents into the first site from the second one: the averages of `i (c†_a c_b - c†_b c_a)` in the states of the array. -/
def CurrentsAre (F : Fermions) (states : Mat) (times : List ℝ) (J : Fin F.nsites → Fin F.nsites → Fin F.nspecies → ℝ → ℝ) : Prop :=
  ∀ (a b : Fin F.nsites) (s : Fin F.nspecies), ∃ X Y D, getTwoSiteOp F.sys a s b s cdagOp cOp "fermion" = .ok X ∧ getTwoSiteOp F.sys b s a s cdagOp cOp "fermion" = .ok Y ∧
    X.sub Y = .ok D ∧ getExpVals states (D.smul Complex.I) = .ok (times.map (J a b s))

/-! ## Proofs -/

section

variable {a b : ℕ}

theorem number_pot (i : Fin a) (s : Fin b) : (number (mode i s) : Op (a * b) 2) = hubPot fun k σ => if k = i ∧ σ = s then 1 else 0 := by
  unfold hubPot
  rw [Finset.sum_eq_single i, Finset.sum_eq_single s]
  · simp
  · intro σ _ h
    simp [h]
  · simp
  · intro k _ h
    simp [h]
  · simp

theorem hop_number (T : Fin a → Fin a → Fin b → ℂ) (i : Fin a) (s : Fin b) :
    (hubHop T * number (mode i s) - number (mode i s) * hubHop T : Op (a * b) 2) =
      ∑ j, (if j < i then T i j s else if i < j then T j i s else 0) •
        (create (mode i s) * annih (mode j s) - create (mode j s) * annih (mode i s)) := by
  have step : ∀ (k l : Fin a) (σ : Fin b),
      (create (mode k σ) * annih (mode l σ) + create (mode l σ) * annih (mode k σ)) * number (mode i s) -
        number (mode i s) * (create (mode k σ) * annih (mode l σ) + create (mode l σ) * annih (mode k σ)) =
      -(((if k = i ∧ σ = s then 1 else 0) - (if l = i ∧ σ = s then 1 else 0) : ℂ) •
        (create (mode k σ) * annih (mode l σ) - create (mode l σ) * annih (mode k σ)) : Op (a * b) 2) := fun k l σ => by
    rw [number_pot, add_mul, mul_add, add_sub_add_comm, pot_hop, pot_hop, smul_sub]
    rw [← neg_sub (if k = i ∧ σ = s then (1 : ℂ) else 0), neg_smul]
    abel
  have e1 : (hubHop T * number (mode i s) - number (mode i s) * hubHop T : Op (a * b) 2) =
      ∑ k, ∑ l, ∑ σ, if l < k then (T k l σ * ((if k = i ∧ σ = s then 1 else 0) - (if l = i ∧ σ = s then 1 else 0))) •
        (create (mode k σ) * annih (mode l σ) - create (mode l σ) * annih (mode k σ)) else 0 := by
    unfold hubHop
    simp only [Finset.sum_mul, Finset.mul_sum, ← Finset.sum_sub_distrib]
    refine Finset.sum_congr rfl fun k _ => Finset.sum_congr rfl fun l _ => Finset.sum_congr rfl fun σ _ => ?_
    by_cases h : l < k
    · rw [if_pos h, if_pos h, neg_mul, mul_neg, smul_mul_assoc, mul_smul_comm, sub_neg_eq_add, neg_add_eq_sub, ← neg_sub, ← smul_sub, step, smul_neg, neg_neg, smul_smul]
    · rw [if_neg h, if_neg h]
      simp
  have e2 : ∀ k l : Fin a, (∑ σ, if l < k then (T k l σ * ((if k = i ∧ σ = s then 1 else 0) - (if l = i ∧ σ = s then 1 else 0))) •
        (create (mode k σ) * annih (mode l σ) - create (mode l σ) * annih (mode k σ)) else 0 : Op (a * b) 2) =
      (if k = i then (if l < i then T i l s • (create (mode i s) * annih (mode l s) - create (mode l s) * annih (mode i s)) else 0) else 0) +
      (if l = i then (if i < k then T k i s • (create (mode i s) * annih (mode k s) - create (mode k s) * annih (mode i s)) else 0) else 0) := fun k l => by
    rw [Finset.sum_eq_single s]
    · by_cases hk : k = i
      · subst hk
        by_cases hl : l = k
        · subst hl
          simp
        · by_cases h : l < k <;> simp [h, hl]
      · by_cases hl : l = i
        · subst hl
          by_cases h : l < k
          · simp only [h, hk, if_true, if_false, false_and, true_and, zero_sub, zero_add, mul_neg, mul_one, neg_smul, ← smul_neg, neg_sub]
          · simp [h, hk]
        · simp [hk, hl]
    · intro σ _ h
      simp [h]
    · simp
  rw [e1]
  simp only [e2, Finset.sum_add_distrib]
  rw [Finset.sum_comm (f := fun k l : Fin a => if k = i then (if l < i then T i l s • (create (mode i s) * annih (mode l s) - create (mode l s) * annih (mode i s)) else 0 : Op (a * b) 2) else 0)]
  simp only [Finset.sum_ite_eq', Finset.mem_univ, if_true]
  rw [← Finset.sum_add_distrib]
  refine Finset.sum_congr rfl fun j _ => ?_
  by_cases h : j < i
  · simp [h, not_lt.2 h.le]
  · by_cases h' : i < j <;> simp [h, h']

end

/-- The number operator changes along the bonds of its site. -/
theorem number_flow (F : Fermions) (hr : RealParams F) (i : Fin F.nsites) (s : Fin F.nspecies) :
    (Complex.I • ((hubInter (fun i => F.us i) + hubRest F) * number (mode i s) - number (mode i s) * (hubInter (fun i => F.us i) + hubRest F)) :
      Op (F.nsites * F.nspecies) 2) =
      ∑ j : Fin F.nsites, ((bondAmplitude F i j s : ℝ) : ℂ) •
        (Complex.I • (create (mode i s) * annih (mode j s) - create (mode j s) * annih (mode i s))) := by
  have c1 : Commute (hubInter (fun i : Fin F.nsites => F.us i) : Op (F.nsites * F.nspecies) 2) (number (mode i s)) := by
    rw [number_pot]
    exact (pot_inter _ _).symm
  have c2 : Commute (hubSame (fun (i j : Fin F.nsites) (s : Fin F.nspecies) => F.usSame i j s)) (number (mode i s)) := by
    rw [number_pot]
    exact (pot_same _ _).symm
  have c3 : Commute (hubPot (fun (i : Fin F.nsites) (s : Fin F.nspecies) => F.pots i s - F.mus s)) (number (mode i s)) := by
    rw [number_pot]
    exact pot_pot _ _
  have e : ((hubInter (fun i => F.us i) + hubRest F) * number (mode i s) - number (mode i s) * (hubInter (fun i => F.us i) + hubRest F) :
      Op (F.nsites * F.nspecies) 2) = hubHop (fun i j s => F.ts i j s * hopWeight F i j) * number (mode i s) -
        number (mode i s) * hubHop (fun i j s => F.ts i j s * hopWeight F i j) := by
    unfold hubRest
    simp only [add_mul, mul_add]
    rw [c1.eq, c2.eq, c3.eq]
    abel
  rw [e, hop_number, Finset.smul_sum]
  refine Finset.sum_congr rfl fun j _ => ?_
  rw [smul_comm]
  congr 1
  have hα : ∀ i j : Fin F.nsites, F.ts i j s * hopWeight F i j = ((Amplitude F i j s).re : ℂ) := fun i j => by
    have h : ((F.ts i j s).re : ℂ) = F.ts i j s := Complex.conj_eq_iff_re.1 (hr.ts i j s)
    unfold Amplitude hopWeight
    rw [← h, ← Complex.ofReal_mul, Complex.ofReal_re]
  unfold bondAmplitude
  simp only [← Fin.lt_def]
  split_ifs
  · exact hα i j
  · exact hα j i
  · simp

/-- C149: for every fermion model and every initial state, the densities in the states returned by the time evolution change at the rate at
which currents arrive along the bonds of the site; the current between two sites leaves the one and reaches the other; and the number of
particles of each species stays the same. -/
theorem C149_flow (S : EigSolvers) (hS : EigContract S) (F : Fermions) (hI : InterOk F) (hr : RealParams F) (hn : 0 < F.nsites) (hs : 0 < F.nspecies) :
    ∃ A w M, F.createH none = .ok A ∧ diagList S A = .ok (w, M) ∧
      ∀ (init : Mat) (ψ : Conf (F.nsites * F.nspecies) 2 → ℂ), init.Is (Matrix.of fun i (_ : Fin 1) => ψ i) →
        ∃ (n : Fin F.nsites → Fin F.nspecies → ℝ → ℝ) (J : Fin F.nsites → Fin F.nsites → Fin F.nspecies → ℝ → ℝ),
          DensitiesAre F init [0] n ∧ CurrentsAre F init [0] J ∧
          (∀ times : List ℝ, ∃ ev, quenchTimeEvolve init M w times = .ok ev ∧ DensitiesAre F ev.asMat times n ∧ CurrentsAre F ev.asMat times J) ∧
          (∀ i s t, HasDerivAt (n i s) (∑ j : Fin F.nsites, bondAmplitude F i j s * J i j s t) t) ∧
          (∀ i j s t, J i j s t = -J j i s t) ∧ ∀ s t, ∑ i, n i s t = ∑ i, n i s 0 := by
  obtain ⟨A, hA, hAi⟩ := createH_gives (F := F) hI
  have hH := F_hermitian hI hr
  have hd : 2 ≤ Fintype.card (Conf (F.nsites * F.nspecies) 2) := by
    rw [Fintype.card_fun, Fintype.card_fin, Fintype.card_fin]
    exact Nat.le_self_pow (Nat.mul_pos hn hs).ne' 2
  obtain ⟨m, E, M, V, d1, d2, d3, d4, d5, -⟩ := diagList_ok S hS hAi hH
  obtain ⟨ev, v1, v2, -, -, -, v6⟩ := C22_evolution_partial E hd d2 d3 d4 d5
  refine ⟨A, List.ofFn E, M, hA, d1, fun init ψ hi => ?_⟩
  set n : Fin F.nsites → Fin F.nspecies → ℝ → ℝ := fun i s t => (expect (number (mode i s)) (ev t ψ)).re with hn'
  set J : Fin F.nsites → Fin F.nsites → Fin F.nspecies → ℝ → ℝ := fun i j s t =>
    (expect (Complex.I • (create (mode i s) * annih (mode j s) - create (mode j s) * annih (mode i s))) (ev t ψ)).re with hJ'
  have der : ∀ i s t, HasDerivAt (n i s) (∑ j : Fin F.nsites, bondAmplitude F i j s * J i j s t) t := fun i s t => by
    have := expect_deriv (O := number (mode i s)) hH (f := fun s => ev s ψ) (fun t i => v6 t ψ i) t
    have h2 := (Complex.reCLM.hasFDerivAt (x := expect (number (mode i s)) (ev t ψ))).comp_hasDerivAt t this
    refine h2.congr_deriv ?_
    have e : ∀ (z : ℂ) (O : Op (F.nsites * F.nspecies) 2) (φ : Conf (F.nsites * F.nspecies) 2 → ℂ), z * expect O φ = expect (z • O) φ := fun z O φ => by
      unfold expect
      rw [Matrix.smul_mulVec, dotProduct_smul, smul_eq_mul]
    have e' : ∀ (f : Fin F.nsites → Op (F.nsites * F.nspecies) 2) (φ : Conf (F.nsites * F.nspecies) 2 → ℂ), expect (∑ j, f j) φ = ∑ j, expect (f j) φ := fun f φ => by
      unfold expect
      rw [Matrix.sum_mulVec, dotProduct_sum]
    change (Complex.I * expect _ (ev t ψ)).re = _
    rw [e, number_flow F hr, e', Complex.re_sum]
    refine Finset.sum_congr rfl fun j _ => ?_
    rw [← e, Complex.re_ofReal_mul]
  have anti : ∀ i j s t, J i j s t = -J j i s t := fun i j s t => by
    simp only [hJ']
    rw [← neg_sub (create (mode j s) * annih (mode i s)), smul_neg]
    unfold expect
    rw [Matrix.neg_mulVec, dotProduct_neg, Complex.neg_re]
  have symm : ∀ (i j : Fin F.nsites) (s : Fin F.nspecies), bondAmplitude F i j s = bondAmplitude F j i s := fun i j s => by
    unfold bondAmplitude
    split_ifs <;> first | rfl | omega
  refine ⟨n, J, fun i s => ?_, fun i j s => ?_, fun times => ?_, der, anti, fun s t => ?_⟩
  · obtain ⟨N, hN, hNi⟩ := F_single F i s
    refine ⟨N, hN, ?_⟩
    rw [getExpVals_is hi hNi]
    simp [hn', v2]
    rfl
  · obtain ⟨X, hX, hXi⟩ := F_hop F i j s s
    obtain ⟨Y, hY, hYi⟩ := F_hop F j i s s
    obtain ⟨D, hD, hDi⟩ := hXi.sub hYi
    refine ⟨X, Y, D, hX, hY, hD, ?_⟩
    rw [getExpVals_is hi (hDi.smul Complex.I)]
    rw [List.map_singleton]
    simp only [hJ', v2]
    rfl
  · obtain ⟨a, a1, a2, a3⟩ := v1 init ψ times hi
    refine ⟨a, a1, fun i s => ?_, fun i j s => ?_⟩
    · obtain ⟨N, hN, hNi⟩ := F_single F i s
      exact ⟨N, hN, expVals_states (f := fun t => ev t ψ) a2 a3 hNi⟩
    · obtain ⟨X, hX, hXi⟩ := F_hop F i j s s
      obtain ⟨Y, hY, hYi⟩ := F_hop F j i s s
      obtain ⟨D, hD, hDi⟩ := hXi.sub hYi
      exact ⟨X, Y, D, hX, hY, hD, expVals_states (f := fun t => ev t ψ) a2 a3 (hDi.smul Complex.I)⟩
  · have hz : ∀ t, HasDerivAt (fun t => ∑ i, n i s t) 0 t := fun t => by
      refine (HasDerivAt.fun_sum fun i _ => der i s t).congr_deriv ?_
      have h : ∑ i : Fin F.nsites, ∑ j : Fin F.nsites, bondAmplitude F i j s * J i j s t =
          -∑ i : Fin F.nsites, ∑ j : Fin F.nsites, bondAmplitude F i j s * J i j s t := by
        conv_lhs => rw [Finset.sum_comm]
        rw [← Finset.sum_neg_distrib]
        refine Finset.sum_congr rfl fun i _ => ?_
        rw [← Finset.sum_neg_distrib]
        refine Finset.sum_congr rfl fun j _ => ?_
        rw [symm j i, anti j i]
        ring
      linarith
    exact is_const_of_deriv_eq_zero (fun t => (hz t).differentiableAt) (fun t => (hz t).deriv) t 0

/-! ## Example -/

/-- Two fermions of two species on three sites in a row, with an interaction, a trap and hoppings of both signs. -/
def threeRow : Fermions where
  nsites := 3
  nspecies := 2
  us _ := 4
  usSame _ _ _ := 0
  ts i j _ := if i = 1 ∧ j = 0 then 1 else if i = 2 ∧ j = 1 then -2 else 0
  xdist i j := (i : ℝ) - j
  ydist _ _ := 0
  pots i _ := i
  mus _ := 1

/-- The density at the middle site changes by what arrives from the left and what arrives, with the other sign, from the right. -/
example (S : EigSolvers) (hS : EigContract S) : ∃ A w M, threeRow.createH none = .ok A ∧ diagList S A = .ok (w, M) ∧
    ∀ (init : Mat) (ψ : Conf (3 * 2) 2 → ℂ), init.Is (Matrix.of fun i (_ : Fin 1) => ψ i) → ∃ n J,
      DensitiesAre threeRow init [0] n ∧ CurrentsAre threeRow init [0] J ∧
      ∀ t, HasDerivAt (n (1 : Fin 3) (0 : Fin 2)) (J (1 : Fin 3) (0 : Fin 3) (0 : Fin 2) t - 2 * J (1 : Fin 3) (2 : Fin 3) (0 : Fin 2) t) t := by
  obtain ⟨A, w, M, h1, h2, h3⟩ := C149_flow S hS threeRow (Or.inl (le_refl 2))
    (by constructor <;> intros <;> simp only [threeRow] <;> (try split_ifs) <;> simp) (by decide) (by decide)
  refine ⟨A, w, M, h1, h2, fun init ψ hi => ?_⟩
  obtain ⟨n, J, a1, a2, -, a4, -⟩ := h3 init ψ hi
  refine ⟨n, J, a1, a2, fun t => (a4 (1 : Fin 3) (0 : Fin 2) t).congr_deriv ?_⟩
  change ∑ j : Fin 3, _ = _
  rw [Fin.sum_univ_three]
  simp [bondAmplitude, Amplitude, threeRow]
  ring

end ED.Props
