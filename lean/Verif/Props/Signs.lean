import Verif.Lemmas.Signs
import Verif.Props.EquivalentSites
import Verif.Props.Multiplets
import Mathlib.Combinatorics.SimpleGraph.Star

/-! # Property C140: signs of hopping amplitudes -/

namespace ED.Props

open Matrix Spec ED.Geometry

/-- Two models with the same numbers of sites and species have the same energies and the same thermal averages of densities and
their products in the space with the given numbers of particles. -/
def SameAverages (S : EigSolvers) (F F' : Fermions) (ns : List (Option ℤ)) : Prop :=
  ∃ P A A' w M M', F.nProjector (some ns) = .ok P ∧ F'.nProjector (some ns) = .ok P ∧
    F.createH (some P) = .ok A ∧ diagList S A = .ok (w, M) ∧ F'.createH (some P) = .ok A' ∧ diagList S A' = .ok (w, M') ∧
    ∀ (s s' : Fin F.nspecies) (temps : List ℝ), (∀ T ∈ temps, T ≠ 0 ∨ GappedList w) →
      (∃ d, thermalExpSites F.sys M w nOp s temps none (some P) "boson" = .ok d ∧
        thermalExpSites F'.sys M' w nOp s temps none (some P) "boson" = .ok d) ∧
      ∀ pairs : List (Fin F.nsites × Fin F.nsites), ∃ c,
        thermalCorrSites F.sys M w s s' nOp nOp temps (some (pairs.map fun q => ((q.1 : ℕ), (q.2 : ℕ)))) (some P) "boson" = .ok c ∧
        thermalCorrSites F'.sys M' w s s' nOp nOp temps (some (pairs.map fun q => ((q.1 : ℕ), (q.2 : ℕ)))) (some P) "boson" = .ok c

/-- What the hopping operator between two sites is multiplied with. -/
noncomputable def Amplitude (F : Fermions) (i j s : ℕ) : ℂ := F.ts i j s * ((|F.xdist i j| + |F.ydist i j| : ℝ) : ℂ)

section

variable {ι κ : Type} [Fintype ι] [DecidableEq ι] [Fintype κ] [DecidableEq κ] [Nonempty κ]

/-- Averages in two models that are related by an operator which does not leave the selected space. -/
theorem sector_related {P : Matrix κ ι ℂ} (hP : P * Pᴴ = 1) {U H H' : Matrix ι ι ℂ} (hl : Uᴴ * U = 1) (hr : U * Uᴴ = 1)
    (hQ : U * (Pᴴ * P) = Pᴴ * P * U) (hc : U * H * Uᴴ = H') {m m' : ℕ} {V : Matrix κ (Fin (m + 1)) ℂ}
    {E : Fin (m + 1) → ℝ} (h1 : Vᴴ * V = 1) (h2 : V * Vᴴ = 1) (h3 : P * H * Pᴴ * V = V * diagonal fun k => (E k : ℂ))
    (hH : (P * H * Pᴴ).IsHermitian) (hm : Monotone E) {V' : Matrix κ (Fin (m' + 1)) ℂ}
    {E' : Fin (m' + 1) → ℝ} (h1' : V'ᴴ * V' = 1) (h2' : V' * V'ᴴ = 1) (h3' : P * H' * Pᴴ * V' = V' * diagonal fun k => (E' k : ℂ))
    (hm' : Monotone E') :
    List.ofFn E = List.ofFn E' ∧ ∀ O O' : Matrix ι ι ℂ, U * O * Uᴴ = O' → ∀ T : ℝ,
    canonical T E' (fun k => (expect (P * O' * Pᴴ) (colOf V' k)).re) = canonical T E fun k => (expect (P * O * Pᴴ) (colOf V k)).re := by
  have hQ' : Pᴴ * P * Uᴴ = Uᴴ * (Pᴴ * P) := by
    have := congrArg conjTranspose hQ
    simpa only [conjTranspose_mul, conjTranspose_conjTranspose] using this
  have key : ∀ X : Matrix ι ι ℂ, P * U * Pᴴ * (P * X * Pᴴ) * (P * U * Pᴴ)ᴴ = P * (U * X * Uᴴ) * Pᴴ := by
    intro X
    rw [conjTranspose_mul, conjTranspose_mul, conjTranspose_conjTranspose]
    calc _ = P * (U * (Pᴴ * P)) * X * (Pᴴ * P * Uᴴ) * Pᴴ := by simp only [Matrix.mul_assoc]
      _ = P * Pᴴ * P * U * X * Uᴴ * (Pᴴ * (P * Pᴴ)) := by rw [hQ, hQ']; simp only [Matrix.mul_assoc]
      _ = _ := by rw [hP]; simp only [Matrix.mul_assoc, Matrix.one_mul, Matrix.mul_one]
  have u1 : P * U * Pᴴ * (P * U * Pᴴ)ᴴ = 1 := by
    have := key 1
    rwa [Matrix.mul_one, hP, Matrix.mul_one, Matrix.mul_one, hr, Matrix.mul_one, hP] at this
  have u2 : (P * U * Pᴴ)ᴴ * (P * U * Pᴴ) = 1 := mul_eq_one_comm.1 u1
  have hE : List.ofFn E = List.ofFn E' := by
    have k1 : (P * U * Pᴴ * V)ᴴ * (P * U * Pᴴ * V) = 1 := by
      rw [conjTranspose_mul, Matrix.mul_assoc, ← Matrix.mul_assoc _ _ V, u2, Matrix.one_mul, h1]
    have k2 : P * U * Pᴴ * V * (P * U * Pᴴ * V)ᴴ = 1 := by
      rw [conjTranspose_mul, Matrix.mul_assoc, ← Matrix.mul_assoc V, h2, Matrix.one_mul, u1]
    have k3 : P * H' * Pᴴ * (P * U * Pᴴ * V) = P * U * Pᴴ * V * diagonal fun k => (E k : ℂ) := by
      rw [← hc, ← key]
      calc _ = P * U * Pᴴ * (P * H * Pᴴ) * ((P * U * Pᴴ)ᴴ * (P * U * Pᴴ)) * V := by simp only [Matrix.mul_assoc]
        _ = P * U * Pᴴ * (P * H * Pᴴ * V) := by rw [u2, Matrix.mul_one]; simp only [Matrix.mul_assoc]
        _ = _ := by rw [h3]; simp only [Matrix.mul_assoc]
    refine List.Perm.eq_of_pairwise' (r := (· ≤ ·)) ?_ ?_ ?_
    · rw [List.pairwise_ofFn]
      exact fun i j hij => hm hij.le
    · rw [List.pairwise_ofFn]
      exact fun i j hij => hm' hij.le
    · refine perm_of_roots ?_
      rw [← Fin.univ_val_map, ← Fin.univ_val_map, Multiset.map_map, Multiset.map_map]
      exact (roots_of_eig k1 k2 k3).symm.trans (roots_of_eig h1' h2' h3')
  refine ⟨hE, fun O O' hO T => ?_⟩
  have h := canonical_all (E := E) (E' := E') (a := 0) (b := 1) (v := fun k => (expect (P * O * Pᴴ) (colOf V k)).re)
    (v' := fun k => (expect (P * O' * Pᴴ) (colOf V' k)).re) (fun T hT => ?_) T
  · rw [h, zero_add, one_mul]
  · rw [zero_add, one_mul, ← thermalAvg_eig h1 h2 h3 _ hT, ← thermalAvg_eig h1' h2' h3' _ hT, ← thermalAvg_unitary u1 u2 hH (P * O * Pᴴ) hT, key, key,
      hO, hc]

end

variable (S : EigSolvers) (hS : EigContract S) (F : Fermions) (hI : InterOk F) (hr : RealParams F) (hn : 0 < F.nsites)
  {ns : List (Option ℤ)} (hlen : ns.length = F.nspecies) (hf : Fits F.nsites ns)

include hS hI hr hn hlen hf

/-- The second model has the same interactions and potentials, and the first one's amplitudes up to signs of the sites. -/
theorem signs_general {ts' : ℕ → ℕ → ℕ → ℂ} {us' : ℕ → ℂ} {same' : ℕ → ℕ → ℕ → ℂ} {mus' : ℕ → ℂ} {pots' : ℕ → ℕ → ℂ} {xd' yd' : ℕ → ℕ → ℝ}
    (g1 : ∀ i : Fin F.nsites, us' i = F.us i) (g2 : ∀ (i j : Fin F.nsites) (s : Fin F.nspecies), same' i j s = F.usSame i j s)
    (g3 : ∀ s : Fin F.nspecies, mus' s = F.mus s) (g4 : ∀ (i : Fin F.nsites) (s : Fin F.nspecies), pots' i s = F.pots i s)
    (ε : Fin F.nsites → Fin F.nspecies → ℤ) (hε : ∀ i s, ε i s = 1 ∨ ε i s = -1)
    (h : ∀ (i j : Fin F.nsites) (s : Fin F.nspecies), j < i →
      Amplitude ⟨F.nsites, F.nspecies, ts', us', same', mus', pots', xd', yd'⟩ i j s = ε i s * ε j s * Amplitude F i j s) :
    SameAverages S F ⟨F.nsites, F.nspecies, ts', us', same', mus', pots', xd', yd'⟩ ns := by
  classical
  have hε' : ∀ i s, ε i s * ε i s = 1 := fun i s => by rcases hε i s with h | h <;> rw [h] <;> norm_num
  obtain ⟨P, hP, hsel⟩ := C16_number_projector F hn ns hlen
  have hne : ∃ t : Conf (F.nsites * F.nspecies) 2, ∀ (s : Fin F.nspecies) (v : ℤ), ns[s]? = some (some v) → (speciesCount t s : ℤ) = v := by
    obtain ⟨t, ht⟩ := exists_counts (nsites := F.nsites) (nspecies := F.nspecies)
      (fun s => match ns[s]? with | some (some v) => v.toNat | _ => 0) (fun s => by
        split
        · rename_i v hv
          have := hf v (List.mem_of_getElem? hv)
          omega
        · omega)
    refine ⟨t, fun s v hv => ?_⟩
    have := hf v (List.mem_of_getElem? hv)
    rw [ht]
    simp only [hv]
    omega
  obtain ⟨d, sel, hinj, hrange, hPi⟩ := hsel.is hne
  set Pm : Matrix (Fin (d + 1)) (Conf (F.nsites * F.nspecies) 2) ℂ := Matrix.of fun r t => if t = sel r then (1 : ℂ) else 0 with hPm
  obtain ⟨A, hA, hAi⟩ := createH_gives_proj hPi hI
  obtain ⟨A', hA', hAi'⟩ := createH_gives_proj (F := ⟨F.nsites, F.nspecies, ts', us', same', mus', pots', xd', yd'⟩) hPi
    (hI.imp id fun h i => (g1 i).trans (h i))
  have hH : (hubInter (fun i : Fin F.nsites => F.us i) + hubRest F : Op (F.nsites * F.nspecies) 2).IsHermitian := by
    obtain ⟨H, hH', hiff⟩ := C25_hermitian_iff F hI hr.us hr.same hr.mus hr.pots
    rw [gives_unique (createH_gives hI) hH']
    exact hiff.2 fun i j s _ => Or.inl (hr.ts i j s)
  let U : Op (F.nsites * F.nspecies) 2 := signOp (signOfMode ε)
  have hU : Uᴴ = U := signOp_star _
  have hUU : U * U = 1 := signOp_sq (signOfMode_sq hε')
  have hc : U * (hubInter (fun i : Fin F.nsites => F.us i) + hubRest F) * Uᴴ =
      hubInter (fun i : Fin F.nsites => us' i) + hubRest ⟨F.nsites, F.nspecies, ts', us', same', mus', pots', xd', yd'⟩ := by
    rw [hU]
    have hsu : (fun i : Fin F.nsites => us' i) = fun i : Fin F.nsites => F.us i := funext g1
    unfold hubRest
    simp only [Matrix.mul_add, Matrix.add_mul, hsu, g2, g3, g4]
    rw [signOp_hubInter hε', signOp_hubSame hε', signOp_hubPot hε', signOp_hubHop hε']
    congr 3
    unfold hubHop
    refine Finset.sum_congr rfl fun i _ => Finset.sum_congr rfl fun j _ => Finset.sum_congr rfl fun s _ => ?_
    split_ifs with hij
    · refine congrArg (fun z : ℂ => -(z • _)) (Eq.trans ?_ (h i j s hij).symm)
      push_cast
      rfl
    · rfl
  have hHp := isHermitian_mul_mul_conjTranspose Pm hH
  have hH' : (Pm * (hubInter (fun i : Fin F.nsites => us' i) + hubRest ⟨F.nsites, F.nspecies, ts', us', same', mus', pots', xd', yd'⟩) * Pmᴴ).IsHermitian := by
    rw [← hc]
    exact isHermitian_mul_mul_conjTranspose Pm (isHermitian_mul_mul_conjTranspose U hH)
  obtain ⟨m, E, M, V, a1, a2, a3, a4, a5, a6⟩ := diagList_ok S hS hAi hHp
  obtain ⟨m', E', M', V', b1, b2, b3, b4, b5, b6⟩ := diagList_ok S hS hAi' hH'
  have hPP : Pm * Pmᴴ = 1 := select_unit hinj
  have hQ : U * (Pmᴴ * Pm) = Pmᴴ * Pm * U := by
    rw [select_diag hinj hrange]
    simp only [U, signOp, diagonal_mul_diagonal]
    congr 1
    funext t
    exact mul_comm _ _
  obtain ⟨hw, hav⟩ := sector_related hPP (by rw [hU, hUU]) (by rw [hU, hUU]) hQ hc a3 a4 a5 hHp a6 b3 b4 b5 b6
  refine ⟨P, A, A', List.ofFn E, M, M', hP, ?_, hA, a1, hA', by rw [hw]; exact b1, fun s s' temps hT => ⟨?_, fun pairs => ?_⟩⟩
  · exact hP
  · have e1 := densities_proj F a2 hPi a6 s temps hT (List.finRange F.nsites)
    have e2 := densities_proj ⟨F.nsites, F.nspecies, ts', us', same', mus', pots', xd', yd'⟩ b2 hPi b6 s temps (by rw [← hw]; exact hT) (List.finRange F.nsites)
    rw [List.map_coe_finRange_eq_range] at e1 e2
    refine ⟨_, e1, ?_⟩
    rw [hw]
    refine e2.trans ?_
    refine congrArg (fun x => Except.ok (x, _)) (List.map_congr_left fun i _ => List.map_congr_left fun T _ => ?_)
    refine hav _ _ ?_ T
    rw [hU]
    exact signOp_number hε' _
  · refine ⟨_, correlators_proj F a2 hPi a6 s s' temps hT pairs, ?_⟩
    rw [hw] at hT ⊢
    refine (correlators_proj ⟨F.nsites, F.nspecies, ts', us', same', mus', pots', xd', yd'⟩ b2 hPi b6 s s' temps hT pairs).trans ?_
    refine congrArg (fun x => Except.ok (x, _)) (List.map_congr_left fun q _ => List.map_congr_left fun T _ => ?_)
    refine hav _ _ ?_ T
    rw [hU]
    exact signOp_two hε' _ _

/-- C140 (signs of the sites): multiplying each hopping amplitude by the signs of its two sites changes neither energies nor averages
of densities and their products, with any fixed or variable numbers of particles. -/
theorem C140_signs (ts' : ℕ → ℕ → ℕ → ℂ) (ε : Fin F.nsites → Fin F.nspecies → ℤ) (hε : ∀ i s, ε i s = 1 ∨ ε i s = -1)
    (h : ∀ (i j : Fin F.nsites) (s : Fin F.nspecies), j < i → Amplitude { F with ts := ts' } i j s = ε i s * ε j s * Amplitude F i j s) :
    SameAverages S F { F with ts := ts' } ns :=
  signs_general S hS F hI hr hn hlen hf (fun _ => rfl) (fun _ _ _ => rfl) (fun _ => rfl) (fun _ _ => rfl) ε hε h

/-- C140 (two sublattices): if particles hop only between sites of different colours, the sign of all amplitudes does not matter. -/
theorem C140_bipartite (hb : F.Bipartite) : SameAverages S F { F with ts := fun i j s => -F.ts i j s } ns := by
  obtain ⟨c, hc⟩ := hb
  refine C140_signs S hS F hI hr hn hlen hf _ (fun i _ => if c i then 1 else -1) (fun i s => by split_ifs <;> simp) fun i j s hij => ?_
  unfold Amplitude
  by_cases h0 : F.ts i j s * ((|F.xdist i j| + |F.ydist i j| : ℝ) : ℂ) = 0
  · rw [h0, mul_zero]
    change -F.ts i j s * ((|F.xdist i j| + |F.ydist i j| : ℝ) : ℂ) = 0
    rw [neg_mul, h0, neg_zero]
  · have := hc i j s hij h0
    change -F.ts i j s * ((|F.xdist i j| + |F.ydist i j| : ℝ) : ℂ) = _
    cases hi : c i <;> cases hj : c j <;> simp_all

/-- The sites between which particles of a species hop. -/
def HopGraph (F : Fermions) (s : Fin F.nspecies) : SimpleGraph (Fin F.nsites) where
  Adj i j := i ≠ j ∧ Amplitude F (max i j : Fin F.nsites) (min i j : Fin F.nsites) s ≠ 0
  symm := ⟨fun i j h => ⟨h.1.symm, by rw [max_comm, min_comm]; exact h.2⟩⟩
  loopless := ⟨fun i h => h.1 rfl⟩

/-- C140 (trees): if there are no closed loops, no sign of any amplitude matters. -/
theorem C140_tree (hG : ∀ s, (HopGraph F s).IsAcyclic) (ts' : ℕ → ℕ → ℕ → ℂ)
    (h : ∀ (i j : Fin F.nsites) (s : Fin F.nspecies), j < i → ts' i j s = F.ts i j s ∨ ts' i j s = -F.ts i j s) :
    SameAverages S F { F with ts := ts' } ns := by
  classical
  have hs := fun s => signs_acyclic (G := HopGraph F s)
    (fun i j => if ts' (max i j : Fin F.nsites) (min i j : Fin F.nsites) s = F.ts (max i j : Fin F.nsites) (min i j : Fin F.nsites) s then 1 else -1)
    (hG s) (fun i j => by rw [max_comm, min_comm]) (fun i j _ => by split_ifs <;> norm_num)
  choose ε h1 h2 using hs
  refine C140_signs S hS F hI hr hn hlen hf ts' (fun i s => ε s i) (fun i s => mul_self_eq_one_iff.1 (h1 s i)) fun i j s hij => ?_
  by_cases h0 : Amplitude F i j s = 0
  · rw [h0, mul_zero]
    unfold Amplitude at h0 ⊢
    rcases h i j s hij with e | e
    · change ts' i j s * ((|F.xdist i j| + |F.ydist i j| : ℝ) : ℂ) = 0
      rw [e, h0]
    · change ts' i j s * ((|F.xdist i j| + |F.ydist i j| : ℝ) : ℂ) = 0
      rw [e, neg_mul, h0, neg_zero]
  · have e := h2 s i j ⟨hij.ne', by rw [max_eq_left hij.le, min_eq_right hij.le]; exact h0⟩
    rw [max_eq_left hij.le, min_eq_right hij.le] at e
    have e' : ((ε s i : ℤ) : ℂ) * ((ε s j : ℤ) : ℂ) = ((ε s i * ε s j : ℤ) : ℂ) := by push_cast; rfl
    rw [e', e]
    change ts' i j s * ((|F.xdist i j| + |F.ydist i j| : ℝ) : ℂ) = _ * (F.ts i j s * ((|F.xdist i j| + |F.ydist i j| : ℝ) : ℂ))
    split_ifs with e1
    · rw [e1, Int.cast_one, one_mul]
    · rw [(h i j s hij).resolve_left e1]
      push_cast
      ring

/-- C140 (rings): on a ring only the product of all signs matters. -/
theorem C140_ring (hring : ∀ (i j : Fin F.nsites) (s : Fin F.nspecies), j < i → Amplitude F i j s ≠ 0 →
      (j : ℕ) + 1 = i ∨ ((j : ℕ) = 0 ∧ (i : ℕ) + 1 = F.nsites)) (ts' : ℕ → ℕ → ℕ → ℂ) (σ : ℕ → Fin F.nspecies → ℤ)
    (hσ : ∀ k s, σ k s = 1 ∨ σ k s = -1) (hp : ∀ s, ∏ k ∈ Finset.range F.nsites, σ k s = 1)
    (h1 : ∀ k (s : Fin F.nspecies), k + 1 < F.nsites → Amplitude { F with ts := ts' } (k + 1) k s = σ k s * Amplitude F (k + 1) k s)
    (h2 : ∀ s : Fin F.nspecies, 1 < F.nsites →
      Amplitude { F with ts := ts' } (F.nsites - 1) 0 s = σ (F.nsites - 1) s * Amplitude F (F.nsites - 1) 0 s)
    (h3 : ∀ (i j : Fin F.nsites) (s : Fin F.nspecies), j < i → Amplitude F i j s = 0 → Amplitude { F with ts := ts' } i j s = 0) :
    SameAverages S F { F with ts := ts' } ns := by
  have hs := fun s => signs_ring (n := F.nsites) (fun k => σ k s) (fun k => by rcases hσ k s with e | e <;> rw [e] <;> norm_num) (hp s)
  choose ε e1 e2 e3 using hs
  refine C140_signs S hS F hI hr hn hlen hf ts' (fun i s => ε s i) (fun i s => mul_self_eq_one_iff.1 (e1 s i)) fun i j s hij => ?_
  have hij' : (j : ℕ) < i := hij
  have hi := i.2
  have e' : ((ε s i : ℤ) : ℂ) * ((ε s j : ℤ) : ℂ) = ((ε s i * ε s j : ℤ) : ℂ) := by push_cast; rfl
  by_cases h0 : Amplitude F i j s = 0
  · rw [h0, mul_zero, h3 i j s hij h0]
  · rcases hring i j s hij h0 with e | ⟨e, e4⟩
    · have := h1 j s (by omega)
      rw [← e2 s, e] at this
      rw [this, e']
    · have := h2 s (by omega)
      rw [← e3 s hn] at this
      rw [show F.nsites - 1 = (i : ℕ) by omega] at this
      rw [e', e, this]

omit hS hI hr hn hlen hf

/-! ## The constructors -/

/-- C140 (rectangles): the Hubbard model on any rectangle whose periodic directions have an even number of sites does not depend on
the sign of the hopping. -/
theorem C140_lattice (S : EigSolvers) (hS : EigContract S) {nx ny : ℕ} (hx : 0 < nx) (hy : 0 < ny) (harea : nx * ny < 10 ^ 14)
    {o1 o2 : Bool} (h1 : nx = 1 → o1 = true) (h2 : ny = 1 → o2 = true) (e1 : o1 = false → Even nx) (e2 : o2 = false → Even ny) (U t mu : ℝ) :
    ∃ g F F', createSquare nx ny 0 0 o1 o2 = .ok g ∧
      fermionModel g ⟨[], fun _ => (U : ℂ)⟩ ⟨[], fun _ => (t : ℂ)⟩ ⟨[2], fun _ => (mu : ℂ)⟩ ⟨[], fun _ => ((0 : ℝ) : ℂ)⟩
        ⟨[], fun _ => ((0 : ℝ) : ℂ)⟩ 2 = .ok F ∧
      fermionModel g ⟨[], fun _ => (U : ℂ)⟩ ⟨[], fun _ => ((-t : ℝ) : ℂ)⟩ ⟨[2], fun _ => (mu : ℂ)⟩ ⟨[], fun _ => ((0 : ℝ) : ℂ)⟩
        ⟨[], fun _ => ((0 : ℝ) : ℂ)⟩ 2 = .ok F' ∧
      ∀ n1 n2 : Option ℤ, Fits (nx * ny) [n1, n2] → SameAverages S F F' [n1, n2] := by
  obtain ⟨g, hg, hN, -⟩ := C50_square nx ny hx hy 0 0 o1 o2 h1 h2
  obtain ⟨p, hp, hus, hall⟩ := fermionModel_square hx hy harea h1 h2 hg 2 U t 0 0 fun _ => mu
  obtain ⟨p', hp', hus', hall'⟩ := fermionModel_square hx hy harea h1 h2 hg 2 U (-t) 0 0 fun _ => mu
  obtain ⟨g', F, hg', hF, hN', hr, -, hb⟩ := square_hubbard hx hy harea h1 h2 U t mu
  rw [hg] at hg'
  obtain rfl := Except.ok.inj hg'
  obtain rfl : p.model g 2 = F := Except.ok.inj (hp.symm.trans hF)
  obtain ⟨c, hc⟩ := (hb e1 e2).bipartite
  have h0 : 0 < g.nsites := by rw [hN]; positivity
  refine ⟨g, _, p'.model g 2, hg, hp, hp', fun n1 n2 hf => ?_⟩
  refine signs_general S hS (p.model g 2) (Or.inl le_rfl) hr h0 rfl (by rw [hN']; exact hf) (fun i => ?_) (fun i j s => ?_) (fun s => ?_) (fun i s => ?_)
    (fun i _ => if c i then 1 else -1) (fun i s => by split_ifs <;> simp) fun i j s hij => ?_
  · exact (hus' i i.2).trans (hus i i.2).symm
  · exact ((hall' i i.2 s s.2).2.2 j j.2).2.1.trans ((hall i i.2 s s.2).2.2 j j.2).2.1.symm
  · exact (hall' 0 h0 s s.2).1.trans (hall 0 h0 s s.2).1.symm
  · exact (hall' i i.2 s s.2).2.1.trans (hall i i.2 s s.2).2.1.symm
  · have k1 : Amplitude (p.model g 2) i j s = _ := ((hall i i.2 s s.2).2.2 j j.2).2.2
    have k2 : Amplitude (p'.model g 2) i j s = _ := ((hall' i i.2 s s.2).2.2 j j.2).2.2
    refine k2.trans ?_
    by_cases h0 : Amplitude (p.model g 2) i j s = 0
    · rw [h0, mul_zero]
      rw [k1] at h0
      push_cast
      rw [neg_mul, h0, neg_zero]
    · have := hc i j s hij h0
      rw [k1]
      cases hi : c i <;> cases hj : c j <;> simp_all

/-! ## Cases that meet the hypotheses -/

/-- The attractive Hubbard model on four by two sites, periodic in the first direction, with three particles of the first species. -/
example (S : EigSolvers) (hS : EigContract S) : ∃ g F F', createSquare 4 2 0 0 false true = .ok g ∧
    fermionModel g ⟨[], fun _ => ((-8 : ℝ) : ℂ)⟩ ⟨[], fun _ => ((1 : ℝ) : ℂ)⟩ ⟨[2], fun _ => ((3 : ℝ) : ℂ)⟩ ⟨[], fun _ => ((0 : ℝ) : ℂ)⟩
      ⟨[], fun _ => ((0 : ℝ) : ℂ)⟩ 2 = .ok F ∧
    fermionModel g ⟨[], fun _ => ((-8 : ℝ) : ℂ)⟩ ⟨[], fun _ => ((-1 : ℝ) : ℂ)⟩ ⟨[2], fun _ => ((3 : ℝ) : ℂ)⟩ ⟨[], fun _ => ((0 : ℝ) : ℂ)⟩
      ⟨[], fun _ => ((0 : ℝ) : ℂ)⟩ 2 = .ok F' ∧ SameAverages S F F' [some 3, none] := by
  obtain ⟨g, F, F', h1, h2, h3, h4⟩ := C140_lattice S hS (nx := 4) (ny := 2) (by norm_num) (by norm_num) (by norm_num) (o1 := false) (o2 := true)
    (by norm_num) (by norm_num) (fun _ => ⟨2, rfl⟩) (by simp) (-8) 1 3
  refine ⟨g, F, F', h1, h2, h3, h4 _ _ fun v hv => ?_⟩
  obtain rfl : v = 3 := by simpa using hv
  norm_num

/-- A site with three neighbours, with two signs changed. -/
noncomputable def star4 : Fermions :=
  ⟨4, 1, fun _ j _ => if j = 0 then 1 else 0, fun _ => 0, fun _ _ _ => 2, fun _ => 1, fun i _ => i, fun _ _ => 1, fun _ _ => 0⟩

example (S : EigSolvers) (hS : EigContract S) :
    SameAverages S star4 { star4 with ts := fun i j _ => if j = 0 then (if i = 2 then 1 else -1) else 0 } [some 2] := by
  refine C140_tree S hS star4 (Or.inr fun _ => rfl) ?_ (by decide) rfl (fun v hv => ?_) (fun s => ?_) _ fun i j s hij => ?_
  · refine ⟨fun i j s => ?_, fun i => ?_, fun i j s => ?_, fun s => ?_, fun i s => ?_⟩ <;> simp [star4]
  · obtain rfl : v = 2 := by simpa using hv
    decide
  · refine SimpleGraph.IsAcyclic.anti (G' := SimpleGraph.starGraph (0 : Fin 4)) (fun i j h => ?_) (SimpleGraph.isAcyclic_starGraph _)
    obtain ⟨h1, h2⟩ := h
    refine SimpleGraph.starGraph_adj.2 ⟨h1, ?_⟩
    by_contra h3
    push_neg at h3
    refine h2 ?_
    have : ((min i j : Fin star4.nsites) : ℕ) ≠ 0 := by
      intro h4
      rcases min_choice i j with h | h
      · rw [h] at h4
        exact h3.1 (Fin.ext h4)
      · rw [h] at h4
        exact h3.2 (Fin.ext h4)
    have e : star4.ts (max i j : Fin star4.nsites) (min i j : Fin star4.nsites) s = 0 := if_neg this
    unfold Amplitude
    rw [e, zero_mul]
  · simp only [star4]
    split_ifs <;> simp

end ED.Props
