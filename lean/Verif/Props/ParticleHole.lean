import Verif.Spec.ParticleHole
import Verif.Lemmas.ParticleHole
import Verif.Props.TwoSites
import Verif.Props.NumberSectors
import Verif.Props.SiteOrder
import Verif.Props.Constructors
import Mathlib.Topology.Order.LeftRightNhds
import Mathlib.Topology.Algebra.Order.Field

/-! # Property C122: exchanging particles and holes; half filling -/

namespace ED.Props

open Matrix ED.Geometry Filter Topology

/-! ## Averages at zero temperature as limits -/

/-- The average in the ground states is the limit of averages at low temperatures. -/
theorem canonical_limit {κ : Type*} [Fintype κ] [Nonempty κ] (E v : κ → ℝ) :
    Tendsto (fun T => canonical T E v) (𝓝[>] 0) (𝓝 (canonical 0 E v)) := by
  obtain ⟨k0, hk0⟩ := Finite.exists_min E
  have hw : ∀ k, Tendsto (fun T : ℝ => Real.exp (-(E k - E k0) / T)) (𝓝[>] 0) (𝓝 (boltz 0 E k)) := by
    intro k
    unfold boltz
    rw [if_pos rfl]
    by_cases h : ∀ l, E k ≤ E l
    · rw [if_pos h, le_antisymm (h k0) (hk0 k)]
      simp
    · rw [if_neg h]
      have hlt : 0 < E k - E k0 := by
        push Not at h
        obtain ⟨l, hl⟩ := h
        linarith [hk0 l]
      refine Real.tendsto_exp_atBot.comp ?_
      have := (tendsto_inv_nhdsGT_zero (𝕜 := ℝ)).const_mul_atTop_of_neg (neg_neg_of_pos hlt)
      refine this.congr fun T => ?_
      rw [div_eq_mul_inv]
  have hpos : ∑ k, boltz 0 E k ≠ 0 := by
    refine (Finset.sum_pos' (fun k _ => ?_) ⟨k0, Finset.mem_univ _, ?_⟩).ne'
    · unfold boltz
      split_ifs <;> simp
    · unfold boltz
      rw [if_pos rfl, if_pos hk0]
      exact one_pos
  have h1 := (tendsto_finset_sum Finset.univ fun k _ => (hw k).mul_const (v k)).div
    (tendsto_finset_sum Finset.univ fun k _ => hw k) hpos
  refine h1.congr' ?_
  filter_upwards [self_mem_nhdsWithin] with T hT
  have hT : T ≠ 0 := ne_of_gt hT
  have e : ∀ k, boltz T E k = Real.exp (-(E k0) / T) * Real.exp (-(E k - E k0) / T) := fun k => by
    unfold boltz
    rw [if_neg hT, ← Real.exp_add]
    congr 1
    ring
  unfold canonical
  simp only [e, mul_assoc, ← Finset.mul_sum]
  exact (mul_div_mul_left _ _ (Real.exp_pos _).ne').symm

/-- An identity of averages that holds at positive temperatures holds at zero temperature. -/
theorem canonical_all {κ κ' : Type*} [Fintype κ] [Nonempty κ] [Fintype κ'] [Nonempty κ'] {E v : κ → ℝ} {E' v' : κ' → ℝ} {a b : ℝ}
    (h : ∀ T ≠ 0, canonical T E' v' = a + b * canonical T E v) (T : ℝ) : canonical T E' v' = a + b * canonical T E v := by
  by_cases hT : T = 0
  · subst hT
    refine tendsto_nhds_unique_of_eventuallyEq (canonical_limit E' v') (((canonical_limit E v).const_mul b).const_add a) ?_
    filter_upwards [self_mem_nhdsWithin] with T hT
    exact h T (ne_of_gt hT)
  · exact h T hT

/-- The eigenstates of the transformed Hamiltonian. -/
theorem eig_flip {ι κ : Type*} [Fintype ι] [DecidableEq ι] [Fintype κ] [DecidableEq κ]
    {H H' P : Matrix ι ι ℂ} {V : Matrix ι κ ℂ} {E : κ → ℝ} {c : ℝ}
    (h1 : Vᴴ * V = 1) (h2 : V * Vᴴ = 1) (h3 : H * V = V * diagonal fun i => (E i : ℂ))
    (hP : Pᴴ * P = 1) (hH : Pᴴ * H * P = H' + (c : ℂ) • 1) :
    (Pᴴ * V)ᴴ * (Pᴴ * V) = 1 ∧ (Pᴴ * V) * (Pᴴ * V)ᴴ = 1 ∧
      H' * (Pᴴ * V) = (Pᴴ * V) * diagonal fun i => ((E i - c : ℝ) : ℂ) := by
  have hP' : P * Pᴴ = 1 := mul_eq_one_comm.1 hP
  have hH' : H' = Pᴴ * H * P - (c : ℂ) • 1 := by rw [hH, add_sub_cancel_right]
  have e3 : H' * (Pᴴ * V) = (Pᴴ * V) * diagonal fun i => ((E i - c : ℝ) : ℂ) := by
    have : (diagonal fun i => ((E i - c : ℝ) : ℂ)) = (diagonal fun i => (E i : ℂ)) - (c : ℂ) • (1 : Matrix κ κ ℂ) := by
      ext i j
      by_cases h : i = j
      · subst h; simp
      · simp [h]
    rw [hH', this, Matrix.sub_mul, Matrix.mul_sub, Matrix.mul_assoc (Pᴴ * H), ← Matrix.mul_assoc P, hP', Matrix.one_mul, Matrix.mul_assoc Pᴴ H,
      h3, Matrix.mul_assoc, Matrix.smul_mul, Matrix.one_mul, Matrix.mul_smul, Matrix.mul_one]
  have e1 : (Pᴴ * V)ᴴ * (Pᴴ * V) = 1 := by
    rw [conjTranspose_mul, conjTranspose_conjTranspose, Matrix.mul_assoc, ← Matrix.mul_assoc P, hP', Matrix.one_mul, h1]
  have e2 : (Pᴴ * V) * (Pᴴ * V)ᴴ = 1 := by
    rw [conjTranspose_mul, conjTranspose_conjTranspose, Matrix.mul_assoc, ← Matrix.mul_assoc V, h2, Matrix.one_mul, hP]
  exact ⟨e1, e2, e3⟩

/-- A unitary transformation that turns `H` into `H'` up to a constant and `O` into `1 - O`. -/
theorem canonical_flip {ι κ κ' : Type*} [Fintype ι] [DecidableEq ι] [Fintype κ] [DecidableEq κ] [Nonempty κ] [Fintype κ'] [DecidableEq κ'] [Nonempty κ']
    {H H' O P : Matrix ι ι ℂ} {V : Matrix ι κ ℂ} {V' : Matrix ι κ' ℂ} {E : κ → ℝ} {E' : κ' → ℝ} {c : ℝ}
    (h1 : Vᴴ * V = 1) (h2 : V * Vᴴ = 1) (h3 : H * V = V * diagonal fun i => (E i : ℂ))
    (k1 : V'ᴴ * V' = 1) (k2 : V' * V'ᴴ = 1) (k3 : H' * V' = V' * diagonal fun i => (E' i : ℂ))
    (hP : Pᴴ * P = 1) (hH : Pᴴ * H * P = H' + (c : ℂ) • 1) (hO : P * O * Pᴴ = 1 - O) (T : ℝ) :
    canonical T E' (fun k => (expect O (colOf V' k)).re) = 1 + (-1) * canonical T E fun k => (expect O (colOf V k)).re := by
  refine canonical_all (fun T hT => ?_) T
  obtain ⟨e1, e2, e3⟩ := eig_flip h1 h2 h3 hP hH
  rw [← thermalAvg_eig k1 k2 k3 O hT, thermalAvg_eig e1 e2 e3 O hT]
  have hx : ∀ k, (expect O (colOf (Pᴴ * V) k)).re = 1 - (expect O (colOf V k)).re := by
    intro k
    have a1 : ∀ (X : Matrix ι κ ℂ), expect O (colOf X k) = (Xᴴ * O * X) k k := fun X => by
      rw [Matrix.mul_assoc, Matrix.mul_apply]
      rfl
    rw [a1, a1, conjTranspose_mul, conjTranspose_conjTranspose]
    have : Vᴴ * P * O * (Pᴴ * V) = 1 - Vᴴ * O * V := by
      calc _ = Vᴴ * (P * O * Pᴴ) * V := by simp only [Matrix.mul_assoc]
        _ = _ := by rw [hO, Matrix.mul_sub, Matrix.mul_one, Matrix.sub_mul, h1]
    rw [this, Matrix.sub_apply, one_apply_eq]
    simp
  simp only [hx]
  unfold canonical boltz
  simp only [if_neg hT]
  have e : ∀ k, Real.exp (-(E k - c) / T) = Real.exp (c / T) * Real.exp (-E k / T) := fun k => by
    rw [← Real.exp_add]
    congr 1
    ring
  simp only [e, mul_assoc, ← Finset.mul_sum]
  rw [mul_div_mul_left _ _ (Real.exp_pos _).ne']
  simp only [mul_sub, mul_one, Finset.sum_sub_distrib]
  rw [sub_div, div_self]
  · ring
  · exact (Finset.sum_pos (fun k _ => Real.exp_pos _) Finset.univ_nonempty).ne'

theorem flip_back {ι : Type*} [Fintype ι] [DecidableEq ι] {P N : Matrix ι ι ℂ} (hP : Pᴴ * P = 1) (h : Pᴴ * N * P = 1 - N) :
    P * N * Pᴴ = 1 - N := by
  have hP' : P * Pᴴ = 1 := mul_eq_one_comm.1 hP
  have h3 : N = 1 - Pᴴ * N * P := by rw [h, sub_sub_cancel]
  have h4 : P * (Pᴴ * N * P) * Pᴴ = N := by
    calc _ = (P * Pᴴ) * N * (P * Pᴴ) := by simp only [Matrix.mul_assoc]
      _ = N := by rw [hP', Matrix.one_mul, Matrix.mul_one]
  calc P * N * Pᴴ = P * (1 - Pᴴ * N * P) * Pᴴ := by rw [← h3]
    _ = 1 - N := by rw [Matrix.mul_sub, Matrix.sub_mul, Matrix.mul_one, hP', h4]

/-! ## The model -/

/-- The Hamiltonian after the exchange of particles and holes. -/
theorem ph_hamiltonian (F : Fermions) (hb : F.Bipartite) (mus' : ℕ → ℂ) (pots' : ℕ → ℕ → ℂ)
    (h : ∀ (i : Fin F.nsites) (s : Fin F.nspecies), pots' i s - mus' s = -(F.pots i s - F.mus s) - F.filledEnergy i s) :
    ∃ P : Op (F.nsites * F.nspecies) 2, Pᴴ * P = 1 ∧ (∀ i s, P * number (mode i s) * Pᴴ = 1 - number (mode i s)) ∧
      Pᴴ * (hubInter (fun i => F.us i) + hubRest F) * P =
        hubInter (fun i => F.us i) + hubRest { F with mus := mus', pots := pots' } + F.fullEnergy • 1 := by
  obtain ⟨c, hc⟩ := hb
  let σ : Fin F.nsites → ℤ := fun i => if c i then 1 else -1
  have hσ : ∀ i, σ i * σ i = 1 := fun i => by
    simp only [σ]
    split_ifs <;> norm_num
  refine ⟨phOp (modeSign σ), phOp_unitary (modeSign_sq hσ), fun i s => ?_, ?_⟩
  · exact flip_back (phOp_unitary (modeSign_sq hσ)) (phConj_number hσ _)
  · change phConj σ _ = _
    unfold hubRest hopWeight
    simp only [phConj_add, phConj_hubInter hσ, phConj_hubSame hσ, phConj_hubPot hσ]
    rw [phConj_hubHop hσ]
    · have e : (hubPot fun i s => pots' i s - mus' s : Op (F.nsites * F.nspecies) 2) = hubPot (fun i s => -(F.pots i s - F.mus s)) +
          hubPot (fun (i : Fin F.nsites) (s : Fin F.nspecies) => -if 2 ≤ F.nspecies ∧ (s : ℕ) < 2 then F.us i else 0) +
          hubPot (fun (i : Fin F.nsites) (s : Fin F.nspecies) => -((∑ j : Fin F.nsites, if j ≤ i then F.usSame i j s else 0) + ∑ j : Fin F.nsites, if i ≤ j then F.usSame j i s else 0)) := by
        unfold hubPot
        simp only [← Finset.sum_add_distrib, ← add_smul]
        refine Finset.sum_congr rfl fun i _ => Finset.sum_congr rfl fun s _ => ?_
        rw [h]
        unfold Fermions.filledEnergy
        rw [Finset.sum_add_distrib]
        congr 1
        ring
      rw [e]
      unfold Fermions.fullEnergy
      simp only [add_smul]
      abel
    · intro i j s hij
      by_cases h0 : F.ts i j s * ((|F.xdist i j| + |F.ydist i j| : ℝ) : ℂ) = 0
      · exact Or.inl h0
      · right
        have := hc i j s hij h0
        simp only [σ]
        cases hi : c i <;> cases hj : c j <;> simp_all

/-- What the densities are, in terms of energies and eigenstates. -/
theorem densities_diag (F : Fermions) {m : ℕ} {E : Fin (m + 1) → ℝ} {M : Mat} {V : Matrix (Conf (F.nsites * F.nspecies) 2) (Fin (m + 1)) ℂ}
    (hM : M.Is V) (hE : Monotone E) (s : Fin F.nspecies) (temps : List ℝ) (hT : ∀ T ∈ temps, T ≠ 0 ∨ GappedList (List.ofFn E)) :
    thermalExpSites F.sys M (List.ofFn E) nOp s temps none none "boson" = .ok (List.ofFn fun i : Fin F.nsites => temps.map fun T =>
      canonical T E fun k => (expect (number (mode i s)) (colOf V k)).re, List.range F.nsites) := by
  unfold thermalExpSites
  simp only [Option.getD_none]
  have hr : List.range F.nsites = List.ofFn fun i : Fin F.nsites => (i : ℕ) := by
    simpa using list_range_map F.nsites id
  rw [hr, mapM_ofFn _ _ (fun i => temps.map fun T => canonical T E fun k => (expect (number (mode i s)) (colOf V k)).re)]
  · rfl
  · intro i
    obtain ⟨X, hX, hXi⟩ := F_single F i s
    rw [hX]
    change (sandwich 1 _ X >>= _) = _
    have hP : (Mat.eye M.rows).Is (1 : Op (F.nsites * F.nspecies) 2) := Mat.is_eye (by rw [hM.1])
    obtain ⟨Y, hY, hYi⟩ := sandwich_gives hP hXi 1
    rw [hY]
    change expValsThermalList M Y _ temps = _
    unfold expValsThermalList
    refine mapM_ok _ _ _ fun T hTm => ?_
    rw [one_smul, Matrix.one_mul, conjTranspose_one, Matrix.mul_one] at hYi
    refine C19_canonical hM hYi E T ((hT T hTm).imp id fun hg => ⟨hE, fun k l => hg _ ?_ _ ?_⟩)
    · exact List.mem_ofFn.2 ⟨k, rfl⟩
    · exact List.mem_ofFn.2 ⟨l, rfl⟩

/-- C122: on a lattice with two sublattices, exchanging particles and holes relates the model to the one whose local potentials
are the negative ones, lowered by the interaction energy of a particle in the filled system. The energies agree up to the energy
of the filled system, and the densities add up to one. -/
theorem C122_conjugate (S : EigSolvers) (hS : EigContract S) (F : Fermions) (hI : InterOk F) (hr : RealParams F) (hb : F.Bipartite)
    (mus' : ℕ → ℂ) (pots' : ℕ → ℕ → ℂ)
    (h : ∀ (i : Fin F.nsites) (s : Fin F.nspecies), pots' i s - mus' s = -(F.pots i s - F.mus s) - F.filledEnergy i s) :
    ∃ A w M A' M' c, F.createH none = .ok A ∧ diagList S A = .ok (w, M) ∧
      ({ F with mus := mus', pots := pots' } : Fermions).createH none = .ok A' ∧
      diagList S A' = .ok (w.map (· - c), M') ∧ (c : ℂ) = F.fullEnergy ∧
      ∀ (s : Fin F.nspecies) (temps : List ℝ), (∀ T ∈ temps, T ≠ 0 ∨ GappedList w) →
        ∃ d : Fin F.nsites → List ℝ, (∀ i, (d i).length = temps.length) ∧
          thermalExpSites F.sys M w nOp s temps none none "boson" = .ok (List.ofFn d, List.range F.nsites) ∧
          thermalExpSites F.sys M' (w.map (· - c)) nOp s temps none none "boson" =
            .ok (List.ofFn fun i => (d i).map (1 - ·), List.range F.nsites) := by
  obtain ⟨P, hP, hn, hH⟩ := ph_hamiltonian F hb mus' pots' h
  have hc : ((F.fullEnergy.re : ℝ) : ℂ) = F.fullEnergy := by
    refine Complex.conj_eq_iff_re.1 ?_
    have k1 : ∀ i : Fin F.nsites, (starRingEnd ℂ) (F.us i) = F.us i := hr.us
    have k2 : ∀ (i j : Fin F.nsites) (s : Fin F.nspecies), (starRingEnd ℂ) (F.usSame i j s) = F.usSame i j s := hr.same
    have k3 : ∀ s : Fin F.nspecies, (starRingEnd ℂ) (F.mus s) = F.mus s := hr.mus
    have k4 : ∀ (i : Fin F.nsites) (s : Fin F.nspecies), (starRingEnd ℂ) (F.pots i s) = F.pots i s := hr.pots
    unfold Fermions.fullEnergy
    simp only [map_add, map_sum, map_sub, apply_ite (starRingEnd ℂ), map_zero, k1, k2, k3, k4]
  have hH1 : (hubInter (fun i : Fin F.nsites => F.us i) + hubRest F).IsHermitian := by
    obtain ⟨H, hH', hiff⟩ := C25_hermitian_iff F hI hr.us hr.same hr.mus hr.pots
    have hu : hubInter (fun i : Fin F.nsites => F.us i) + hubRest F = H := gives_unique (C27_hamiltonian F hI) hH'
    rw [hu]
    exact hiff.2 fun i j s _ => Or.inl (hr.ts i j s)
  obtain ⟨A, hA, hAi⟩ := C27_hamiltonian F hI
  obtain ⟨A', hA', hAi'⟩ := C27_hamiltonian { F with mus := mus', pots := pots' } hI
  change A.Is (hubInter (fun i : Fin F.nsites => F.us i) + hubRest F) at hAi
  change A'.Is (hubInter (fun i : Fin F.nsites => F.us i) + hubRest { F with mus := mus', pots := pots' }) at hAi'
  have hH2 : (hubInter (fun i : Fin F.nsites => F.us i) + hubRest { F with mus := mus', pots := pots' } :
      Op (F.nsites * F.nspecies) 2).IsHermitian := by
    rw [eq_sub_of_add_eq hH.symm, ← hc]
    refine IsHermitian.sub ?_ ?_
    · exact isHermitian_conjTranspose_mul_mul _ hH1
    · unfold IsHermitian
      rw [conjTranspose_smul, conjTranspose_one, RCLike.star_def, Complex.conj_ofReal]
  obtain ⟨m, E, M, V, a1, a2, a3, a4, a5, a6⟩ := diagList_ok S hS hAi hH1
  obtain ⟨m', E', M', V', b1, b2, b3, b4, b5, b6⟩ := diagList_ok S hS hAi' hH2
  have hw : List.ofFn E' = (List.ofFn E).map (· - F.fullEnergy.re) := by
    obtain ⟨e1, e2, e3⟩ := eig_flip (c := F.fullEnergy.re) a3 a4 a5 hP (by rw [hc]; exact hH)
    rw [List.map_ofFn]
    refine List.Perm.eq_of_pairwise' (r := (· ≤ ·)) ?_ ?_ ?_
    · rw [List.pairwise_ofFn]
      exact fun i j hij => b6 hij.le
    · rw [List.pairwise_ofFn]
      exact fun i j hij => sub_le_sub_right (a6 hij.le) _
    · refine perm_of_roots ?_
      rw [← Fin.univ_val_map, ← Fin.univ_val_map, Multiset.map_map, Multiset.map_map]
      exact (roots_of_eig b3 b4 b5).symm.trans (roots_of_eig e1 e2 e3)
  refine ⟨A, _, M, A', M', F.fullEnergy.re, hA, a1, hA', by rw [← hw]; exact b1, hc, fun s temps hT => ?_⟩
  refine ⟨_, fun i => ?_, densities_diag F a2 a6 s temps hT, ?_⟩
  · simp
  · rw [← hw, densities_diag F b2 b6 s temps]
    · refine congrArg (fun x => Except.ok (x, List.range F.nsites)) (congrArg List.ofFn (funext fun i => ?_))
      rw [List.map_map]
      refine List.map_congr_left fun T hTm => ?_
      rw [canonical_flip a3 a4 a5 b3 b4 b5 hP (by rw [hc]; exact hH) (hn i s) T]
      simp only [Function.comp_apply]
      ring
    · intro T hTm
      refine (hT T hTm).imp id fun hg => ?_
      rw [hw]
      intro x hx y hy
      obtain ⟨x, hx', rfl⟩ := List.mem_map.1 hx
      obtain ⟨y, hy', rfl⟩ := List.mem_map.1 hy
      rcases hg x hx' y hy' with h | h
      · exact Or.inl (by rw [h])
      · right
        rwa [sub_sub_sub_cancel_right]

/-- C122, half filling: if every local potential is minus half the interaction energy of a particle in the filled system, the
density of every species at every site is one half at every temperature. -/
theorem C122_half_filling (S : EigSolvers) (hS : EigContract S) (F : Fermions) (hI : InterOk F) (hr : RealParams F) (hb : F.Bipartite)
    (h : ∀ (i : Fin F.nsites) (s : Fin F.nspecies), F.pots i s - F.mus s = -F.filledEnergy i s / 2) :
    ∃ A w M, F.createH none = .ok A ∧ diagList S A = .ok (w, M) ∧
      ∀ (s : Fin F.nspecies) (temps : List ℝ), (∀ T ∈ temps, T ≠ 0 ∨ GappedList w) →
        thermalExpSites F.sys M w nOp s temps none none "boson" =
          .ok (List.replicate F.nsites (List.replicate temps.length (1 / 2)), List.range F.nsites) := by
  obtain ⟨A, w, M, A', M', c, h1, h2, h3, h4, -, h5⟩ := C122_conjugate S hS F hI hr hb F.mus F.pots fun i s => by
    rw [h]
    ring
  have e : ({ F with mus := F.mus, pots := F.pots } : Fermions) = F := rfl
  rw [e, h1] at h3
  obtain rfl := Except.ok.inj h3
  rw [h2] at h4
  obtain ⟨e1, rfl⟩ := Prod.mk.inj (Except.ok.inj h4)
  refine ⟨A, w, M, h1, h2, fun s temps hT => ?_⟩
  obtain ⟨d, hl, hd, hd'⟩ := h5 s temps hT
  rw [← e1, hd] at hd'
  have e2 := List.ofFn_injective (Prod.mk.inj (Except.ok.inj hd')).1
  rw [hd]
  refine congrArg (fun x => Except.ok (x, List.range F.nsites)) ?_
  rw [List.eq_replicate_iff]
  refine ⟨by simp, fun b hb => ?_⟩
  obtain ⟨i, rfl⟩ := List.mem_ofFn.1 hb
  rw [List.eq_replicate_iff]
  refine ⟨hl i, fun x hx => ?_⟩
  obtain ⟨k, hk, rfl⟩ := List.getElem_of_mem hx
  have := congrArg (fun l => l[k]?) (congrFun e2 i)
  simp only [List.getElem?_map, List.getElem?_eq_getElem hk, Option.map_some, Option.some.injEq] at this
  linarith

/-! ## The constructors -/

/-- The rectangles of the library have two sublattices, unless they are closed over an odd number of sites. -/
theorem square_colour {nx ny : ℕ} (hx : 0 < nx) (hy : 0 < ny) (harea : nx * ny < 10 ^ 14) {o1 o2 : Bool}
    (h1 : nx = 1 → o1 = true) (h2 : ny = 1 → o2 = true) (e1 : o1 = false → Even nx) (e2 : o2 = false → Even ny)
    {g : Geometry} (hg : createSquare nx ny 0 0 o1 o2 = .ok g) {i j : ℕ} (hi : i < nx * ny) (hj : j < nx * ny)
    (h : g.adjacency.e i j = 1) : (i / ny + i % ny) % 2 ≠ (j / ny + j % ny) % 2 := by
  have pi := C50_square_order nx ny hx hy harea.le 0 0 o1 o2 h1 h2 hg hi
  have pj := C50_square_order nx ny hx hy harea.le 0 0 o1 o2 h1 h2 hg hj
  obtain ⟨k, l, hk, hl, hd⟩ := (C51_square nx ny hx hy harea 0 0 o1 o2 h1 h2 hg pi.1 pi.2 pj.1 pj.2).2.1 h
  have hk2 : ∃ a : ℤ, k * nx = 2 * a := by
    cases o1 with
    | true => exact ⟨0, by rw [hk rfl]; simp⟩
    | false =>
      obtain ⟨r, hr⟩ := e1 rfl
      exact ⟨k * r, by rw [hr]; push_cast; ring⟩
  have hl2 : ∃ a : ℤ, l * ny = 2 * a := by
    cases o2 with
    | true => exact ⟨0, by rw [hl rfl]; simp⟩
    | false =>
      obtain ⟨r, hr⟩ := e2 rfl
      exact ⟨l * r, by rw [hr]; push_cast; ring⟩
  obtain ⟨a, ha⟩ := hk2
  obtain ⟨b, hb⟩ := hl2
  have key : ∀ x y : ℤ, ((((i / ny : ℕ) : ℝ) - ((j / ny : ℕ) : ℝ) + k * nx = x ∧ ((i % ny : ℕ) : ℝ) - ((j % ny : ℕ) : ℝ) + l * ny = y)) →
      ((i / ny : ℕ) : ℤ) - ((j / ny : ℕ) : ℤ) + 2 * a = x ∧ ((i % ny : ℕ) : ℤ) - ((j % ny : ℕ) : ℤ) + 2 * b = y := by
    rintro x y ⟨q1, q2⟩
    rw [← ha, ← hb]
    exact ⟨by exact_mod_cast q1, by exact_mod_cast q2⟩
  simp only [Set.mem_insert_iff, Set.mem_singleton_iff, Prod.mk.injEq] at hd
  rcases hd with hd | hd | hd | hd
  · obtain ⟨q1, q2⟩ := key 1 0 (by simpa using hd)
    omega
  · obtain ⟨q1, q2⟩ := key (-1) 0 (by simpa using hd)
    omega
  · obtain ⟨q1, q2⟩ := key 0 1 (by simpa using hd)
    omega
  · obtain ⟨q1, q2⟩ := key 0 (-1) (by simpa using hd)
    omega

/-- C122 for the Hubbard model made by the constructors: with the chemical potential `U / 2` there is one particle per two
modes, at every temperature. -/
theorem C122_hubbard (S : EigSolvers) (hS : EigContract S) {nx ny : ℕ} (hx : 0 < nx) (hy : 0 < ny) (harea : nx * ny < 10 ^ 14)
    {o1 o2 : Bool} (h1 : nx = 1 → o1 = true) (h2 : ny = 1 → o2 = true) (e1 : o1 = false → Even nx) (e2 : o2 = false → Even ny)
    (U t : ℝ) :
    ∃ g F A w M, createSquare nx ny 0 0 o1 o2 = .ok g ∧
      fermionModel g ⟨[], fun _ => (U : ℂ)⟩ ⟨[], fun _ => (t : ℂ)⟩ ⟨[2], fun _ => ((U / 2 : ℝ) : ℂ)⟩ ⟨[], fun _ => ((0 : ℝ) : ℂ)⟩
        ⟨[], fun _ => ((0 : ℝ) : ℂ)⟩ 2 = .ok F ∧ F.createH none = .ok A ∧ diagList S A = .ok (w, M) ∧
      ∀ s < 2, ∀ temps : List ℝ, (∀ T ∈ temps, T ≠ 0 ∨ GappedList w) →
        thermalExpSites F.sys M w nOp s temps none none "boson" =
          .ok (List.replicate (nx * ny) (List.replicate temps.length (1 / 2)), List.range (nx * ny)) := by
  obtain ⟨g, hg, hN, -⟩ := C50_square nx ny hx hy 0 0 o1 o2 h1 h2
  obtain ⟨p, hp, hus, hall⟩ := fermionModel_square hx hy harea h1 h2 hg 2 U t 0 0 fun _ => U / 2
  have hN' : (p.model g 2).nsites = nx * ny := hN
  have hlt : ∀ i : Fin (p.model g 2).nsites, (i : ℕ) < g.nsites := fun i => i.2
  have hadj : ∀ i j : Fin (p.model g 2).nsites, g.adjacency.e i j = 0 ∨ g.adjacency.e i j = 1 := fun i j => by
    have pi := C50_square_order nx ny hx hy harea.le 0 0 o1 o2 h1 h2 hg (i := i) (by have := i.2; omega)
    have pj := C50_square_order nx ny hx hy harea.le 0 0 o1 o2 h1 h2 hg (i := j) (by have := j.2; omega)
    exact (C51_square nx ny hx hy harea 0 0 o1 o2 h1 h2 hg pi.1 pi.2 pj.1 pj.2).1
  obtain ⟨A, w, M, a1, a2, a3⟩ := C122_half_filling S hS (p.model g 2) (Or.inl le_rfl) (by
    refine ⟨fun i j s => ?_, fun i => ?_, fun i j s => ?_, fun s => ?_, fun i s => ?_⟩
    · rw [((hall i (hlt i) s s.2).2.2 j (hlt j)).1]
      rcases hadj i j with h | h <;> simp [h]
    · rw [hus i (hlt i)]
      simp
    · rw [((hall i (hlt i) s s.2).2.2 j (hlt j)).2.1]
      simp
    · rw [(hall 0 (by rw [hN]; positivity) s s.2).1]
      simp
    · rw [(hall i (hlt i) s s.2).2.1]
      simp) (by
    refine ⟨fun i => (((i : ℕ) / ny + (i : ℕ) % ny) % 2 == 0), fun i j s hij hne => ?_⟩
    rw [((hall i (hlt i) s s.2).2.2 j (hlt j)).2.2] at hne
    have hone : g.adjacency.e i j = 1 := (hadj i j).resolve_left fun h0 => hne (by simp [h0])
    have := square_colour hx hy harea h1 h2 e1 e2 hg (i := i) (j := j) (by have := i.2; omega) (by have := j.2; omega) hone
    intro hc
    have hc' := (Bool.eq_iff_iff.1 hc)
    simp only [beq_iff_eq] at hc'
    omega) (fun i s => by
    unfold Fermions.filledEnergy
    have hz : ∀ i j : Fin (p.model g 2).nsites, (p.model g 2).usSame i j s = 0 := fun i j => by
      rw [((hall i (hlt i) s s.2).2.2 j (hlt j)).2.1]
      simp
    rw [if_pos ⟨le_rfl, s.2⟩, hus i (hlt i), (hall i (hlt i) s s.2).1, (hall i (hlt i) s s.2).2.1]
    simp only [hz, ite_self, Finset.sum_const_zero, add_zero]
    push_cast
    ring)
  refine ⟨g, _, A, w, M, hg, hp, a1, a2, fun s hs temps hT => ?_⟩
  rw [← hN']
  exact a3 ⟨s, hs⟩ temps hT

/-- The neighbours of a site of a ring. -/
theorem ring_adjacency {n : ℕ} (hn : 3 ≤ n) (hn' : n < 10 ^ 14) {g : Geometry} (hg : createSquare n 1 0 0 false true = .ok g)
    {i j : ℕ} (hi : i < n) (hj : j < n) : g.adjacency.e i j =
      (if j = (if i + 1 = n then 0 else i + 1) then 1 else 0) + if j = (if i = 0 then n - 1 else i - 1) then 1 else 0 := by
  obtain ⟨-, hadj⟩ := chain_adjacency (by omega) hn' (fun h => by omega) hg
  obtain ⟨h1, h2⟩ := hadj i hi j hj
  have h3 : g.adjacency.e i j = 1 ↔ (i = j + 1 ∨ j = i + 1 ∨ (j = 0 ∧ i + 1 = n) ∨ (i = 0 ∧ j + 1 = n)) := by
    rw [h2]
    constructor
    · rintro ⟨k, -, h⟩
      have k1 : k < 2 := by
        by_contra hk
        have : (2 : ℤ) * n ≤ k * n := mul_le_mul_of_nonneg_right (by omega) (by omega)
        omega
      have k2 : -2 < k := by
        by_contra hk
        have : k * n ≤ (-2 : ℤ) * n := mul_le_mul_of_nonneg_right (by omega) (by omega)
        omega
      obtain rfl | rfl | rfl : k = -1 ∨ k = 0 ∨ k = 1 := by omega
      · omega
      · omega
      · omega
    · rintro (h | h | h | h)
      · exact ⟨0, by simp, by omega⟩
      · exact ⟨0, by simp, by omega⟩
      · exact ⟨-1, by simp, by omega⟩
      · exact ⟨1, by simp, by omega⟩
  by_cases ha : j = if i + 1 = n then 0 else i + 1
  · have hb : ¬ j = if i = 0 then n - 1 else i - 1 := by
      split_ifs at ha ⊢ <;> omega
    rw [if_pos ha, if_neg hb, add_zero, h3]
    split_ifs at ha <;> omega
  · by_cases hb : j = if i = 0 then n - 1 else i - 1
    · rw [if_neg ha, if_pos hb, zero_add, h3]
      split_ifs at hb <;> omega
    · rw [if_neg ha, if_neg hb, add_zero]
      refine h1.resolve_right fun h => ?_
      rw [h3] at h
      split_ifs at ha hb <;> omega

/-- Each site of a ring has two neighbours. -/
theorem ring_neighbours {n : ℕ} (hn : 3 ≤ n) (hn' : n < 10 ^ 14) {g : Geometry} (hg : createSquare n 1 0 0 false true = .ok g) (i : Fin n) :
    ∑ j : Fin n, g.adjacency.e i j = 2 := by
  have hi := i.2
  simp only [fun j : Fin n => ring_adjacency hn hn' hg i.2 j.2, Finset.sum_add_distrib]
  have key : ∀ a : ℕ, a < n → (∑ j : Fin n, if (j : ℕ) = a then (1 : ℝ) else 0) = 1 := fun a ha => by
    rw [Finset.sum_eq_single ⟨a, ha⟩]
    · simp
    · intro j _ hj
      rw [if_neg fun h => hj (Fin.ext h)]
    · simp
  rw [key _ (by split_ifs <;> omega), key _ (by split_ifs <;> omega)]
  norm_num

theorem ring_half (S : EigSolvers) (hS : EigContract S) {n : ℕ} (hn : 3 ≤ n) (he : Even n) (hn' : n < 10 ^ 14) (t v : ℝ) {g : Geometry}
    (hg : createSquare n 1 0 0 false true = .ok g) {F : Fermions} (f1 : F.nsites = n) (f2 : F.nspecies = 1) (f3 : ∀ i < n, F.us i = 0)
    (f4 : F.mus 0 = v) (f5 : ∀ i < n, F.pots i 0 = (0 : ℝ) ∧ ∀ j < n, F.ts i j 0 = t * g.adjacency.e i j ∧
      F.usSame i j 0 = v * g.adjacency.e i j ∧ F.ts i j 0 * ((|F.xdist i j| + |F.ydist i j| : ℝ) : ℂ) = t * g.adjacency.e i j) :
    ∃ A w M, F.createH none = .ok A ∧ diagList S A = .ok (w, M) ∧ ∀ temps : List ℝ, (∀ T ∈ temps, T ≠ 0 ∨ GappedList w) →
      thermalExpSites F.sys M w nOp 0 temps none none "boson" =
        .ok (List.replicate F.nsites (List.replicate temps.length (1 / 2)), List.range F.nsites) := by
  have ho : n = 1 → false = true := fun h => by omega
  have h0 : 0 < n := by omega
  obtain ⟨-, hadj⟩ := chain_adjacency h0 hn' ho hg
  have hsym : ∀ i < n, ∀ j < n, g.adjacency.e i j = g.adjacency.e j i := by
    intro i hi j hj
    rw [ring_adjacency hn hn' hg hi hj, ring_adjacency hn hn' hg hj hi]
    split_ifs <;> first | (exfalso; omega) | norm_num
  have hdiag : ∀ i < n, g.adjacency.e i i = 0 := by
    intro i hi
    rw [ring_adjacency hn hn' hg hi hi]
    split_ifs <;> first | (exfalso; omega) | norm_num
  subst f1
  have hs0 : ∀ s : Fin F.nspecies, (s : ℕ) = 0 := fun s => by have := s.2; omega
  obtain ⟨A, w, M, a1, a2, a3⟩ := C122_half_filling S hS F (Or.inr fun i => f3 i i.2) (by
    refine ⟨fun i j s => ?_, fun i => ?_, fun i j s => ?_, fun s => ?_, fun i s => ?_⟩
    · rw [hs0 s, ((f5 i i.2).2 j j.2).1]
      simp
    · rw [f3 i i.2]
      simp
    · rw [hs0 s, ((f5 i i.2).2 j j.2).2.1]
      simp
    · rw [hs0 s, f4]
      simp
    · rw [hs0 s, (f5 i i.2).1]
      simp) (by
    refine ⟨fun i => ((i : ℕ) % 2 == 0), fun i j s hij hne => ?_⟩
    rw [hs0 s] at hne
    have e0 : F.ts i j 0 * ((|F.xdist i j| + |F.ydist i j| : ℝ) : ℂ) = t * g.adjacency.e i j := ((f5 i i.2).2 j j.2).2.2
    rw [e0] at hne
    have hone : g.adjacency.e i j = 1 := (hadj i i.2 j j.2).1.resolve_left fun h0 => hne (by simp [h0])
    have := square_colour h0 one_pos (by omega) ho (fun _ => rfl) (fun _ => he) (by simp) hg (i := i) (j := j) (by have := i.2; omega)
      (by have := j.2; omega) hone
    intro hc
    have hc' := (Bool.eq_iff_iff.1 hc)
    simp only [beq_iff_eq] at hc'
    omega) (fun i s => by
    unfold Fermions.filledEnergy
    have hz : ∀ i j : Fin F.nsites, F.usSame i j s = v * g.adjacency.e i j := fun i j => by
      rw [hs0 s]
      exact ((f5 i i.2).2 j j.2).2.1
    rw [if_neg (by omega), hs0 s, (f5 i i.2).1, f4]
    rw [hs0 s] at hz
    have e1 : (∑ j : Fin F.nsites, if j ≤ i then F.usSame i j 0 else 0) + (∑ j : Fin F.nsites, if i ≤ j then F.usSame j i 0 else 0) =
        ∑ j : Fin F.nsites, (v : ℂ) * g.adjacency.e i j := by
      rw [← Finset.sum_add_distrib]
      refine Finset.sum_congr rfl fun j _ => ?_
      rw [hz, hz, hsym j j.2 i i.2]
      rcases lt_trichotomy i j with h | h | h
      · rw [if_neg (not_le.2 h), if_pos h.le, zero_add]
      · subst h
        rw [hdiag i i.2]
        simp
      · rw [if_pos h.le, if_neg (not_le.2 h), add_zero]
    rw [e1, ← Finset.mul_sum]
    have e2 : (∑ j : Fin F.nsites, (g.adjacency.e i j : ℂ)) = 2 := by
      rw [← Complex.ofReal_sum, ring_neighbours hn hn' hg i]
      norm_num
    rw [e2]
    push_cast
    ring)
  exact ⟨A, w, M, a1, a2, fun temps hT => a3 ⟨0, by omega⟩ temps hT⟩

/-- C122 for spinless fermions on a ring of an even number of sites, as in the example script: with the chemical potential equal
to the interaction between neighbours, half the sites are occupied. -/
theorem C122_ring (S : EigSolvers) (hS : EigContract S) {n : ℕ} (hn : 3 ≤ n) (he : Even n) (hn' : n < 10 ^ 14) (t v : ℝ) :
    ∃ g F A w M, createSquare n 1 0 0 false true = .ok g ∧ spinless g t v 0 v = .ok F ∧ F.createH none = .ok A ∧
      diagList S A = .ok (w, M) ∧ ∀ temps : List ℝ, (∀ T ∈ temps, T ≠ 0 ∨ GappedList w) →
        thermalExpSites F.sys M w nOp 0 temps none none "boson" =
          .ok (List.replicate n (List.replicate temps.length (1 / 2)), List.range n) := by
  have ho : n = 1 → false = true := fun h => by omega
  have h0 : 0 < n := by omega
  obtain ⟨g, hg, hN, -⟩ := C50_square n 1 h0 one_pos 0 0 false true ho (fun _ => rfl)
  obtain ⟨F, hF, f1, f2, f3, f4, f5⟩ := spinless_ok h0 hn' ho hg t v 0 v
  obtain ⟨A, w, M, a1, a2, a3⟩ := ring_half S hS hn he hn' t v hg f1 f2 f3 f4 f5
  subst f1
  exact ⟨g, F, A, w, M, hg, hF, a1, a2, a3⟩

/-- Three sites in a row with different interactions and potentials, and the model with the potentials exchanged. -/
example : ∃ (F : Fermions) (mus' : ℕ → ℂ) (pots' : ℕ → ℕ → ℂ), F.nsites = 3 ∧ InterOk F ∧ RealParams F ∧ F.Bipartite ∧
    F.us 0 ≠ F.us 1 ∧ F.ts 1 0 0 ≠ 0 ∧ ∀ (i : Fin F.nsites) (s : Fin F.nspecies), pots' i s - mus' s = -(F.pots i s - F.mus s) - F.filledEnergy i s := by
  refine ⟨⟨3, 2, fun i j _ => if i = j + 1 ∨ j = i + 1 then 1 else 0, fun i => i + 1, fun _ _ _ => 0, fun s => s, fun i _ => i,
    fun i j => i - j, fun _ _ => 0⟩, fun _ => 0, fun i s => s - i - (i + 1), rfl, Or.inl le_rfl, ⟨fun i j s => ?_, fun i => ?_, fun i j s => ?_,
      fun s => ?_, fun i s => ?_⟩, ⟨fun i => ((i : ℕ) % 2 == 0), fun i j s hij h => ?_⟩, ?_, ?_, fun i s => ?_⟩
  · dsimp only
    split_ifs <;> simp
  · simp
  · simp
  · simp
  · simp
  · intro hc
    have hc' := (Bool.eq_iff_iff.1 hc)
    simp only [beq_iff_eq] at hc'
    dsimp only at h
    rw [if_neg (by omega)] at h
    simp at h
  · norm_num
  · norm_num
  · unfold Fermions.filledEnergy
    have hs : (s : ℕ) < 2 := s.2
    simp only [le_refl, hs, and_self, if_true, ite_self, Finset.sum_const_zero, add_zero, sub_zero]
    ring

example : GappedList [-1, 0, 3, 4] := by
  intro x hx y hy
  simp only [List.mem_cons, List.not_mem_nil, or_false] at hx hy
  rcases hx with rfl | rfl | rfl | rfl <;> rcases hy with rfl | rfl | rfl | rfl <;> norm_num

/-- A ladder that is closed in one direction. -/
example (S : EigSolvers) (hS : EigContract S) : ∃ g F A w M, createSquare 2 4 0 0 true false = .ok g ∧
    fermionModel g ⟨[], fun _ => ((8 : ℝ) : ℂ)⟩ ⟨[], fun _ => ((1 : ℝ) : ℂ)⟩ ⟨[2], fun _ => ((8 / 2 : ℝ) : ℂ)⟩ ⟨[], fun _ => ((0 : ℝ) : ℂ)⟩
      ⟨[], fun _ => ((0 : ℝ) : ℂ)⟩ 2 = .ok F ∧ F.createH none = .ok A ∧ diagList S A = .ok (w, M) ∧
    thermalExpSites F.sys M w nOp 1 [1 / 2, 2] none none "boson" =
      .ok (List.replicate 8 [1 / 2, 1 / 2], List.range 8) := by
  obtain ⟨g, F, A, w, M, h1, h2, h3, h4, h5⟩ := C122_hubbard S hS (nx := 2) (ny := 4) (by norm_num) (by norm_num) (by norm_num)
    (o1 := true) (o2 := false) (by simp) (by simp) (by simp) (fun _ => ⟨2, rfl⟩) 8 1
  exact ⟨g, F, A, w, M, h1, h2, h3, h4, h5 1 (by norm_num) [1 / 2, 2] fun T hT => by
    left
    simp only [List.mem_cons, List.not_mem_nil, or_false] at hT
    rcases hT with rfl | rfl <;> norm_num⟩

end ED.Props
