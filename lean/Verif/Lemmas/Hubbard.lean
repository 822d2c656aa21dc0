import Verif.Lemmas.Xform
import Verif.Spec.Hubbard

/-! # Helper lemmas: the fermion Hamiltonian -/

namespace ED

open scoped BigOperators
open Matrix

variable {κ : Type} [Fintype κ] [Basis κ]

section terms

variable {F : Fermions} {P : Mat}

theorem sandwich_gives {μ : Type} [Fintype μ] [Basis μ] {P op : Mat} {Pm : Matrix κ μ ℂ}
    {O : Matrix μ μ ℂ} (hP : P.Is Pm) (hO : op.Is O) (z : ℂ) :
    Gives (sandwich z P op) (Pm * (z • O) * Pmᴴ) := by
  unfold sandwich
  refine ((hP.smul z).mul hO).bind' fun A hA => ?_
  refine (hA.mul hP.dagger).of_eq ?_
  rw [Matrix.smul_mul, Matrix.mul_smul]

theorem F_single (F : Fermions) (i : Fin F.nsites) (s : Fin F.nspecies) :
    Gives (getSingleSiteOp F.sys i s nOp "boson")
      (number (mode i s) : Op (F.nsites * F.nspecies) 2) := by
  have h := gives_single_boson (S := F.sys) rfl i s nOp_loc
  have e : bop (mode (nsites := F.nsites) (nspecies := F.nspecies) i s) (nOp.loc 2) =
    number (mode i s) := bop_nl _
  rw [← e]; exact h

theorem F_two (F : Fermions) (i j : Fin F.nsites) (s s' : Fin F.nspecies) :
    Gives (getTwoSiteOp F.sys i s j s' nOp nOp "boson")
      (number (mode i s) * number (mode j s') : Op (F.nsites * F.nspecies) 2) := by
  have h := gives_two_boson (S := F.sys) rfl i j s s' nOp_loc nOp_loc
  have e (i : Fin F.nsites) (s : Fin F.nspecies) : bop (mode i s) (nOp.loc 2) =
    number (mode i s) := bop_nl _
  rw [← e, ← e]; exact h

theorem F_hop (F : Fermions) (i j : Fin F.nsites) (s s' : Fin F.nspecies) :
    Gives (getTwoSiteOp F.sys i s j s' cdagOp cOp "fermion")
      (create (mode i s) * annih (mode j s') : Op (F.nsites * F.nspecies) 2) := by
  have h := gives_two_fermion (S := F.sys) rfl i j s s' cdagOp_loc cOp_loc
  have e1 (i : Fin F.nsites) (s : Fin F.nspecies) : fop (mode i s) (cdagOp.loc 2) =
    create (mode i s) := fop_cdl _
  have e2 (i : Fin F.nsites) (s : Fin F.nspecies) : fop (mode i s) (cOp.loc 2) =
    annih (mode i s) := fop_cl _
  rw [← e1, ← e2]; exact h

variable {Pm : Matrix κ (Conf (F.nsites * F.nspecies) 2) ℂ}

theorem zero_is (hP : P.Is Pm) : (Mat.zero P.rows P.rows).Is (0 : Matrix κ κ ℂ) :=
  Mat.is_zero hP.1 hP.1

theorem conj_sum {ι : Type} (s : Finset ι)
    (T : ι → Op (F.nsites * F.nspecies) 2) :
    Pm * (∑ i ∈ s, T i) * Pmᴴ = ∑ i ∈ s, Pm * T i * Pmᴴ := by
  rw [Matrix.mul_sum, Matrix.sum_mul]

theorem potential_gives (hP : P.Is Pm) :
    Gives (F.potentialOp P) (Pm * hubPot (fun i s => F.pots i s) * Pmᴴ) := by
  unfold Fermions.potentialOp
  refine (foldlM_range_gives F.nsites _
    (fun i => ∑ s : Fin F.nspecies, Pm * (F.pots i s • number (mode i s)) * Pmᴴ)
    (fun i acc A hA => ?_) _ 0 (zero_is hP)).of_eq ?_
  · refine foldlM_range_gives F.nspecies _ _ (fun s acc A hA => ?_) acc A hA
    split_ifs with h
    · refine (F_single F i s).bind' fun M hM => ?_
      refine (sandwich_gives hP hM _).bind' fun M' hM' => ?_
      exact hA.add hM'
    · have h0 : F.pots i s = 0 := not_not.1 h
      refine hA.pure.of_eq ?_
      rw [h0]; simp
  · rw [zero_add, hubPot, conj_sum]
    refine Finset.sum_congr rfl fun i _ => ?_
    rw [conj_sum]

theorem chem_gives (hP : P.Is Pm) :
    Gives (F.chemOp P) (Pm * hubPot (fun _ s => -F.mus s) * Pmᴴ) := by
  unfold Fermions.chemOp
  refine (foldlM_range_gives F.nsites _
    (fun i => ∑ s : Fin F.nspecies, Pm * ((-F.mus s) • number (mode i s)) * Pmᴴ)
    (fun i acc A hA => ?_) _ 0 (zero_is hP)).of_eq ?_
  · refine foldlM_range_gives F.nspecies _ _ (fun s acc A hA => ?_) acc A hA
    split_ifs with h
    · refine (F_single F i s).bind' fun M hM => ?_
      refine (sandwich_gives hP hM _).bind' fun M' hM' => ?_
      refine (hA.sub hM').of_eq ?_
      rw [sub_eq_add_neg, neg_smul, Matrix.mul_neg, Matrix.neg_mul]
    · have h0 : F.mus s = 0 := not_not.1 h
      refine hA.pure.of_eq ?_
      rw [h0]; simp
  · rw [zero_add, hubPot, conj_sum]
    refine Finset.sum_congr rfl fun i _ => ?_
    rw [conj_sum]

theorem inter_gives (hP : P.Is Pm) (h2 : 2 ≤ F.nspecies) :
    Gives (F.uInterOp P) (Pm * hubInter (fun i => F.us i) * Pmᴴ) := by
  unfold Fermions.uInterOp
  refine (foldlM_range_gives F.nsites _
    (fun i => Pm * (F.us i • (number (mode i ⟨0, by omega⟩) * number (mode i ⟨1, by omega⟩))) * Pmᴴ)
    (fun i acc A hA => ?_) _ 0 (zero_is hP)).of_eq ?_
  · split_ifs with h
    · refine (F_two F i i ⟨0, by omega⟩ ⟨1, by omega⟩).bind' fun M hM => ?_
      refine (sandwich_gives hP hM _).bind' fun M' hM' => ?_
      exact hA.add hM'
    · have h0 : F.us i = 0 := not_not.1 h
      refine hA.pure.of_eq ?_
      rw [h0]; simp
  · rw [zero_add, hubInter, dif_pos h2, conj_sum]

theorem inter_gives_zero (hP : P.Is Pm) (h0 : ∀ i : Fin F.nsites, F.us i = 0) :
    Gives (F.uInterOp P) (0 : Matrix κ κ ℂ) := by
  unfold Fermions.uInterOp
  refine (foldlM_range_gives F.nsites _ (fun i => 0)
    (fun i acc A hA => ?_) _ 0 (zero_is hP)).of_eq ?_
  · rw [if_neg (by simp [h0])]
    exact hA.pure.of_eq (by simp)
  · simp

theorem same_gives (hP : P.Is Pm) :
    Gives (F.uSameOp P) (Pm * hubSame (fun i j s => F.usSame i j s) * Pmᴴ) := by
  unfold Fermions.uSameOp
  refine (foldlM_range_gives F.nsites _
    (fun i => ∑ j : Fin F.nsites, ∑ s : Fin F.nspecies, Pm * (if j ≤ i then
      F.usSame i j s • (number (mode i s) * number (mode j s)) else 0) * Pmᴴ)
    (fun i acc A hA => ?_) _ 0 (zero_is hP)).of_eq ?_
  · refine foldlM_range_gives F.nsites _ _ (fun j acc A hA => ?_) acc A hA
    by_cases hij : j ≤ i
    · rw [if_pos (show (i : ℕ) ≥ j from hij)]
      refine foldlM_range_gives F.nspecies _ _ (fun s acc A hA => ?_) acc A hA
      rw [if_pos hij]
      split_ifs with h
      · refine (F_two F i j s s).bind' fun M hM => ?_
        refine (sandwich_gives hP hM _).bind' fun M' hM' => ?_
        exact hA.add hM'
      · have h0 : F.usSame i j s = 0 := not_not.1 h
        refine hA.pure.of_eq ?_
        rw [h0]; simp
    · rw [if_neg (show ¬ (i : ℕ) ≥ j from hij)]
      refine hA.pure.of_eq ?_
      simp [hij]
  · rw [zero_add, hubSame, conj_sum]
    refine Finset.sum_congr rfl fun i _ => ?_
    rw [conj_sum]
    refine Finset.sum_congr rfl fun j _ => ?_
    rw [conj_sum]

theorem kinetic_gives (hP : P.Is Pm) (dx dy : ℝ) :
    Gives (F.kineticOp P dx dy) (Pm * hubHop (fun i j s => F.ts i j s *
      (Real.sqrt ((dx * F.xdist i j) ^ 2 + (dy * F.ydist i j) ^ 2) : ℂ)) * Pmᴴ) := by
  unfold Fermions.kineticOp
  simp only
  split_ifs with hn
  · refine (foldlM_range_gives F.nsites _
      (fun i => ∑ j : Fin F.nsites, ∑ s : Fin F.nspecies, Pm * (if j < i then
        -((F.ts i j s * (Real.sqrt ((dx * F.xdist i j) ^ 2 + (dy * F.ydist i j) ^ 2) : ℂ)) •
          (create (mode i s) * annih (mode j s) + create (mode j s) * annih (mode i s)))
        else 0) * Pmᴴ)
      (fun i acc A hA => ?_) _ 0 (zero_is hP)).of_eq ?_
    · refine foldlM_range_gives F.nsites _ _ (fun j acc A hA => ?_) acc A hA
      by_cases hij : j < i
      · rw [if_pos (show (i : ℕ) > j from hij)]
        refine foldlM_range_gives F.nspecies _ _ (fun s acc A hA => ?_) acc A hA
        rw [if_pos hij]
        split_ifs with h
        · refine (F_hop F i j s s).bind' fun M hM => ?_
          refine (sandwich_gives hP hM _).bind' fun M' hM' => ?_
          refine (F_hop F j i s s).bind' fun L hL => ?_
          refine (sandwich_gives hP hL _).bind' fun L' hL' => ?_
          refine (hM'.sub hL').bind' fun C hC => ?_
          refine (hA.add (hC.smul _)).of_eq ?_
          simp only [one_smul, neg_smul]
          rw [← Matrix.sub_mul, ← Matrix.mul_sub, ← Matrix.smul_mul, ← Matrix.mul_smul, ← smul_neg,
            neg_add, sub_eq_add_neg]
        · have h0 : F.ts i j s = 0 := not_not.1 h
          refine hA.pure.of_eq ?_
          rw [h0]; simp
      · rw [if_neg (show ¬ (i : ℕ) > j from hij)]
        refine hA.pure.of_eq ?_
        simp [hij]
    · rw [zero_add, hubHop, conj_sum]
      refine Finset.sum_congr rfl fun i _ => ?_
      rw [conj_sum]
      refine Finset.sum_congr rfl fun j _ => ?_
      rw [conj_sum]
  · refine (zero_is hP).pure.of_eq ?_
    have : hubHop (fun (i j : Fin F.nsites) (s : Fin F.nspecies) => F.ts i j s *
        (Real.sqrt ((dx * F.xdist i j) ^ 2 + (dy * F.ydist i j) ^ 2) : ℂ)) = 0 := by
      unfold hubHop
      refine Finset.sum_eq_zero fun i _ => Finset.sum_eq_zero fun j _ =>
        Finset.sum_eq_zero fun s _ => ?_
      rw [if_neg]
      intro h
      have : (j : ℕ) < i := h
      have := i.2
      omega
    rw [this]; simp

/-- The weight with which the code multiplies the hopping between `i` and `j`. -/
noncomputable def hopWeight (F : Fermions) (i j : ℕ) : ℂ := ((|F.xdist i j| + |F.ydist i j| : ℝ) : ℂ)

/-- Everything except the inter-species interaction. -/
noncomputable def hubRest (F : Fermions) : Op (F.nsites * F.nspecies) 2 :=
  hubSame (fun i j s => F.usSame i j s) + hubHop (fun i j s => F.ts i j s * hopWeight F i j) +
    hubPot (fun i s => F.pots i s - F.mus s)

theorem hubHop_add {a b : ℕ} (T T' : Fin a → Fin a → Fin b → ℂ) :
    hubHop T + hubHop T' = hubHop (fun i j s => T i j s + T' i j s) := by
  unfold hubHop
  rw [← Finset.sum_add_distrib]
  refine Finset.sum_congr rfl fun i _ => ?_
  rw [← Finset.sum_add_distrib]
  refine Finset.sum_congr rfl fun j _ => ?_
  rw [← Finset.sum_add_distrib]
  refine Finset.sum_congr rfl fun s _ => ?_
  split_ifs
  · rw [add_smul, neg_add]
  · simp

theorem hubPot_add {a b : ℕ} (T T' : Fin a → Fin b → ℂ) :
    hubPot T + hubPot T' = hubPot (fun i s => T i s + T' i s) := by
  unfold hubPot
  rw [← Finset.sum_add_distrib]
  refine Finset.sum_congr rfl fun i _ => ?_
  rw [← Finset.sum_add_distrib]
  exact Finset.sum_congr rfl fun s _ => by rw [add_smul]

theorem createH_gives_core (hP : P.Is Pm) {I : Op (F.nsites * F.nspecies) 2}
    (hI : Gives (F.uInterOp P) (Pm * I * Pmᴴ)) :
    Gives (F.createH (some P)) (Pm * (I + hubRest F) * Pmᴴ) := by
  unfold Fermions.createH
  simp only [Option.getD_some]
  refine hI.bind' fun u hu => ?_
  refine ((zero_is hP).add hu).bind' fun h1 hh1 => ?_
  refine (same_gives hP).bind' fun us hus => ?_
  refine (hh1.add hus).bind' fun h2 hh2 => ?_
  refine (kinetic_gives hP 1 0).bind' fun kx hkx => ?_
  refine (hh2.add hkx).bind' fun h3 hh3 => ?_
  refine (kinetic_gives hP 0 1).bind' fun ky hky => ?_
  refine (hh3.add hky).bind' fun h4 hh4 => ?_
  refine (chem_gives hP).bind' fun mu hmu => ?_
  refine (hh4.add hmu).bind' fun h5 hh5 => ?_
  refine (potential_gives hP).bind' fun v hv => ?_
  refine (hh5.add hv).of_eq ?_
  rw [zero_add]
  simp only [← Matrix.add_mul, ← Matrix.mul_add]
  congr 2
  have e1 : hubHop (fun (i j : Fin F.nsites) (s : Fin F.nspecies) => F.ts i j s *
        (Real.sqrt ((1 * F.xdist i j) ^ 2 + (0 * F.ydist i j) ^ 2) : ℂ)) +
      hubHop (fun (i j : Fin F.nsites) (s : Fin F.nspecies) => F.ts i j s *
        (Real.sqrt ((0 * F.xdist i j) ^ 2 + (1 * F.ydist i j) ^ 2) : ℂ)) =
      hubHop (fun i j s => F.ts i j s * hopWeight F i j) := by
    rw [hubHop_add]
    congr 1
    funext i j s
    rw [← mul_add, hopWeight]
    congr 1
    rw [one_mul, zero_mul, one_mul, zero_mul]
    simp [Real.sqrt_sq_eq_abs]
  have e2 : hubPot (fun (_ : Fin F.nsites) (s : Fin F.nspecies) => -F.mus s) +
      hubPot (fun (i : Fin F.nsites) (s : Fin F.nspecies) => F.pots i s) =
      hubPot (fun i s => F.pots i s - F.mus s) := by
    rw [hubPot_add]
    congr 1
    funext i s
    ring
  rw [hubRest, ← e1, ← e2]
  abel

theorem createH_gives_proj (hP : P.Is Pm)
    (h : 2 ≤ F.nspecies ∨ ∀ i : Fin F.nsites, F.us i = 0) :
    Gives (F.createH (some P)) (Pm * (hubInter (fun i => F.us i) + hubRest F) * Pmᴴ) := by
  refine createH_gives_core hP ?_
  by_cases h2 : 2 ≤ F.nspecies
  · exact inter_gives hP h2
  · refine (inter_gives_zero hP (h.resolve_left h2)).of_eq (by simp [hubInter, h2])

theorem createH_gives (h : 2 ≤ F.nspecies ∨ ∀ i : Fin F.nsites, F.us i = 0) :
    Gives (F.createH none) (hubInter (fun i => F.us i) + hubRest F) := by
  have := createH_gives_proj (F := F) (P := Mat.eye F.sys.nstates)
    (Pm := (1 : Op (F.nsites * F.nspecies) 2)) (Mat.is_eye (by simp [Sys.nstates, Fermions.sys])) h
  simpa [Fermions.createH] using this

end terms

end ED
