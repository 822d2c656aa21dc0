import Verif.Lemmas.EquivalentSites
import Verif.Model.SpinlessScript
import Verif.Props.RingScript
import Verif.Lemmas.Multiplets
import Verif.Lemmas.Atomic
import Verif.Props.SiteValues

/-! # Property C139: averages at equivalent sites -/

namespace ED.Props

open Matrix Spec ED.Geometry

/-- The numbers of particles can be placed on the lattice. -/
def Fits (nsites : ℕ) (ns : List (Option ℤ)) : Prop := ∀ v : ℤ, some v ∈ ns → 0 ≤ v ∧ v ≤ nsites

variable (S : EigSolvers) (hS : EigContract S) (F : Fermions) (hI : InterOk F) (hr : RealParams F) (hn : 0 < F.nsites)
  {ns : List (Option ℤ)} (hlen : ns.length = F.nspecies) (hf : Fits F.nsites ns)

include hS hI hr hn hlen hf

/-- The states with fixed numbers of particles. -/
theorem number_sector : ∃ P A m, ∃ E : Fin (m + 1) → ℝ, ∃ M d, ∃ Pm : Matrix (Fin (d + 1)) (Conf (F.nsites * F.nspecies) 2) ℂ,
    ∃ V : Matrix (Fin (d + 1)) (Fin (m + 1)) ℂ, F.nProjector (some ns) = .ok P ∧ P.Is Pm ∧ F.createH (some P) = .ok A ∧
      diagList S A = .ok (List.ofFn E, M) ∧ M.Is V ∧ Monotone E ∧
      (∀ (s : Fin F.nspecies) (v : ℤ), ns[s]? = some (some v) → ∀ k, ∑ i, (expect (Pm * number (mode i s) * Pmᴴ) (colOf V k)).re = v) ∧
      (FermionBonds F → ∀ π, FermionInvariant F π → ∀ (s s' : Fin F.nspecies) (i j : Fin F.nsites) (T : ℝ),
        canonical T E (fun k => (expect (Pm * number (mode (π i) s) * Pmᴴ) (colOf V k)).re) =
          canonical T E (fun k => (expect (Pm * number (mode i s) * Pmᴴ) (colOf V k)).re) ∧
        canonical T E (fun k => (expect (Pm * (number (mode (π i) s) * number (mode (π j) s')) * Pmᴴ) (colOf V k)).re) =
          canonical T E fun k => (expect (Pm * (number (mode i s) * number (mode j s')) * Pmᴴ) (colOf V k)).re) := by
  classical
  obtain ⟨P, hP, hsel⟩ := C16_number_projector F hn ns hlen
  have hne : ∃ t : Conf (F.nsites * F.nspecies) 2, ∀ (s : Fin F.nspecies) (v : ℤ), ns[s]? = some (some v) → (speciesCount t s : ℤ) = v := by
    obtain ⟨t, ht⟩ := exists_counts (nsites := F.nsites) (nspecies := F.nspecies)
      (fun s => match ns[s]? with | some (some v) => v.toNat | _ => 0) (fun s => by
        split
        · rename_i v hv
          have := hf v (List.mem_of_getElem? hv)
          omega
        · omega)
    refine ⟨t, fun s v hv => ?_⟩
    have := hf v (List.mem_of_getElem? hv)
    rw [ht]
    simp only [hv]
    omega
  obtain ⟨d, sel, hinj, hrange, hPi⟩ := hsel.is hne
  set Pm : Matrix (Fin (d + 1)) (Conf (F.nsites * F.nspecies) 2) ℂ := Matrix.of fun r t => if t = sel r then (1 : ℂ) else 0 with hPm
  obtain ⟨A, hA, hAi⟩ := createH_gives_proj hPi hI
  obtain ⟨A0, hA0, hAi0⟩ := createH_gives (F := F) hI
  have hH : (hubInter (fun i : Fin F.nsites => F.us i) + hubRest F : Op (F.nsites * F.nspecies) 2).IsHermitian := by
    obtain ⟨H, hH', hiff⟩ := C25_hermitian_iff F hI hr.us hr.same hr.mus hr.pots
    rw [gives_unique (createH_gives hI) hH']
    exact hiff.2 fun i j s _ => Or.inl (hr.ts i j s)
  have hHp := isHermitian_mul_mul_conjTranspose Pm hH
  obtain ⟨m, E, M, V, a1, a2, a3, a4, a5, a6⟩ := diagList_ok S hS hAi hHp
  have hPP : Pm * Pmᴴ = 1 := select_unit hinj
  refine ⟨P, A, m, E, M, d, Pm, V, hP, hPi, hA, a1, a2, a6, fun s v hv k => ?_, fun hb π hπ s s' i j T => ?_⟩
  · have e : ∑ i : Fin F.nsites, Pm * number (mode i s) * Pmᴴ = (v : ℂ) • (1 : Matrix (Fin (d + 1)) (Fin (d + 1)) ℂ) := by
      rw [← Matrix.sum_mul, ← Matrix.mul_sum]
      have : (∑ i : Fin F.nsites, number (mode i s) : Op (F.nsites * F.nspecies) 2) = diagonal fun t => (speciesCount t s : ℂ) :=
        speciesNumber_diagonal s
      rw [this]
      have : Pm * (diagonal fun t : Conf (F.nsites * F.nspecies) 2 => (speciesCount t s : ℂ)) = (v : ℂ) • Pm := by
        ext r t
        rw [mul_diagonal, Matrix.smul_apply, smul_eq_mul, mul_comm, hPm, of_apply]
        by_cases h : t = sel r
        · have := (hrange t).2 ⟨r, h.symm⟩ s v hv
          have h' : (speciesCount t s : ℂ) = (v : ℂ) := by exact_mod_cast congrArg (Int.cast : ℤ → ℂ) this
          rw [h']
        · rw [if_neg h, mul_zero, mul_zero]
      rw [this, Matrix.smul_mul, hPP]
    have h := congrArg (fun X => ((Vᴴ * X * V) k k).re) e
    simp only [Matrix.mul_sum, Matrix.sum_mul, Matrix.sum_apply, Complex.re_sum] at h
    simp only [expect_entry]
    rw [h, Matrix.mul_smul, Matrix.mul_one, Matrix.smul_mul, a3, Matrix.smul_apply, one_apply_eq, smul_eq_mul, mul_one, Complex.intCast_re]
  · obtain ⟨v, U, -, -, hU, hc⟩ := xform_commutes F hI hb (permCycles_cyclesOf π) hπ hA0 hAi0
    have hQ : U * (Pmᴴ * Pm) = Pmᴴ * Pm * U := by
      rw [select_diag hinj hrange]
      ext t t'
      rw [mul_diagonal, diagonal_mul]
      by_cases h : ∃ s, speciesCount t s ≠ speciesCount t' s
      · obtain ⟨s, hs⟩ := h
        rw [moves_counts hU hs, zero_mul, mul_zero]
      · push_neg at h
        rw [mul_comm]
        simp only [h]
    refine ⟨sector_invariant hPP hU.left_inv hU.right_inv hQ hc (moves_number hU s i) a3 a4 a5 hHp T,
      sector_invariant hPP hU.left_inv hU.right_inv hQ hc ?_ a3 a4 a5 hHp T⟩
    rw [← moves_number hU, ← moves_number hU]
    calc U * (number (mode i s) * number (mode j s')) * Uᴴ = U * number (mode i s) * (1 * (number (mode j s') * Uᴴ)) := by
          simp only [Matrix.mul_assoc, Matrix.one_mul]
      _ = _ := by rw [← hU.left_inv]; simp only [Matrix.mul_assoc]

/-- C139 (fermions, fixed numbers of particles): permuting the sites in a way that does not change the parameters does not change
densities and correlations of densities, at any temperature. -/
theorem C139_fixed_numbers (hb : FermionBonds F) : ∃ P A w M, F.nProjector (some ns) = .ok P ∧ F.createH (some P) = .ok A ∧
    diagList S A = .ok (w, M) ∧ ∀ (s s' : Fin F.nspecies) (temps : List ℝ), (∀ T ∈ temps, T ≠ 0 ∨ GappedList w) →
      ∃ (d : Fin F.nsites → List ℝ) (c : Fin F.nsites → Fin F.nsites → List ℝ),
        thermalExpSites F.sys M w nOp s temps none (some P) "boson" = .ok (List.ofFn d, List.range F.nsites) ∧
        (∀ pairs : List (Fin F.nsites × Fin F.nsites), thermalCorrSites F.sys M w s s' nOp nOp temps
          (some (pairs.map fun q => ((q.1 : ℕ), (q.2 : ℕ)))) (some P) "boson" =
            .ok (pairs.map fun q => c q.1 q.2, pairs.map fun q => ((q.1 : ℕ), (q.2 : ℕ)))) ∧
        (∀ i j, (d i).length = temps.length ∧ (c i j).length = temps.length) ∧
        ∀ π, FermionInvariant F π → ∀ i j, d (π i) = d i ∧ c (π i) (π j) = c i j := by
  obtain ⟨P, A, m, E, M, d, Pm, V, h1, h2, h3, h4, h5, h6, -, h8⟩ := number_sector S hS F hI hr hn hlen hf
  refine ⟨P, A, List.ofFn E, M, h1, h3, h4, fun s s' temps hT => ⟨
    fun i => temps.map fun T => canonical T E fun k => (expect (Pm * number (mode i s) * Pmᴴ) (colOf V k)).re,
    fun i j => temps.map fun T => canonical T E fun k => (expect (Pm * (number (mode i s) * number (mode j s')) * Pmᴴ) (colOf V k)).re,
    ?_, correlators_proj F h5 h2 h6 s s' temps hT, fun i j => ⟨by simp, by simp⟩, fun π hπ i j => ⟨?_, ?_⟩⟩⟩
  · have h := densities_proj F h5 h2 h6 s temps hT (List.finRange F.nsites)
    rw [List.map_coe_finRange_eq_range, ← List.ofFn_eq_map] at h
    exact h
  · exact List.map_congr_left fun T _ => (h8 hb π hπ s s' i j T).1
  · exact List.map_congr_left fun T _ => (h8 hb π hπ s s' i j T).2

/-- C139 (uniform density): if any site can be moved to any other one, every site has the same share of a fixed number of particles,
at every temperature. -/
theorem C139_uniform (hb : FermionBonds F) (heq : ∀ i j : Fin F.nsites, ∃ π, FermionInvariant F π ∧ π i = j) :
    ∃ P A w M, F.nProjector (some ns) = .ok P ∧ F.createH (some P) = .ok A ∧
      diagList S A = .ok (w, M) ∧ ∀ (s : Fin F.nspecies) (v : ℤ), ns[s]? = some (some v) →
        ∀ temps : List ℝ, (∀ T ∈ temps, T ≠ 0 ∨ GappedList w) → ∀ sites : List (Fin F.nsites),
          thermalExpSites F.sys M w nOp s temps (some (sites.map fun i : Fin F.nsites => (i : ℕ))) (some P) "boson" =
            .ok (List.replicate sites.length (List.replicate temps.length ((v : ℝ) / F.nsites)), sites.map fun i : Fin F.nsites => (i : ℕ)) := by
  obtain ⟨P, A, m, E, M, d, Pm, V, h1, h2, h3, h4, h5, h6, h7, h8⟩ := number_sector S hS F hI hr hn hlen hf
  refine ⟨P, A, List.ofFn E, M, h1, h3, h4, fun s v hv temps hT sites => ?_⟩
  rw [densities_proj F h5 h2 h6 s temps hT sites]
  have key : ∀ (i : Fin F.nsites) (T : ℝ), canonical T E (fun k => (expect (Pm * number (mode i s) * Pmᴴ) (colOf V k)).re) = (v : ℝ) / F.nsites := by
    intro i T
    have hsum : ∑ j : Fin F.nsites, canonical T E (fun k => (expect (Pm * number (mode j s) * Pmᴴ) (colOf V k)).re) = v := by
      rw [← ED.canonical_sum]
      simp only [h7 s v hv]
      have := canonical_all (E := E) (E' := E) (a := (v : ℝ)) (b := 0) (v := fun _ => (v : ℝ)) (v' := fun _ => (v : ℝ))
        (fun T hT => by rw [canonical_const hT, zero_mul, add_zero]) T
      rw [this, zero_mul, add_zero]
    have hall : ∀ j : Fin F.nsites, canonical T E (fun k => (expect (Pm * number (mode j s) * Pmᴴ) (colOf V k)).re) =
        canonical T E (fun k => (expect (Pm * number (mode i s) * Pmᴴ) (colOf V k)).re) := by
      intro j
      obtain ⟨π, hπ, rfl⟩ := heq i j
      exact (h8 hb π hπ s s i i T).1
    rw [Finset.sum_congr rfl fun j _ => hall j, Finset.sum_const, Finset.card_univ, Fintype.card_fin, nsmul_eq_mul] at hsum
    rw [eq_div_iff (by exact_mod_cast hn.ne'), mul_comm]
    exact hsum
  simp only [key, List.map_const']

omit hS hI hr hn hlen hf

/-! ## The ring -/

theorem invariant_mul {F : Fermions} {π σ : Equiv.Perm (Fin F.nsites)} (hπ : FermionInvariant F π) (hσ : FermionInvariant F σ) :
    FermionInvariant F (π * σ) :=
  ⟨fun i j s => (hπ.hop _ _ s).trans (hσ.hop i j s), fun i j s => (hπ.same _ _ s).trans (hσ.same i j s),
    fun i => (hπ.inter _).trans (hσ.inter i), fun i s => (hπ.pot _ s).trans (hσ.pot i s)⟩

theorem invariant_pow {F : Fermions} {π : Equiv.Perm (Fin F.nsites)} (hπ : FermionInvariant F π) (k : ℕ) : FermionInvariant F (π ^ k) := by
  induction k with
  | zero => exact ⟨fun _ _ _ => rfl, fun _ _ _ => rfl, fun _ => rfl, fun _ _ => rfl⟩
  | succ k ih =>
    rw [pow_succ]
    exact invariant_mul ih hπ

theorem step_pow {N : ℕ} {π : Equiv.Perm (Fin N)} (hπ : ∀ i, (π i : ℕ) = (i + 1) % N) (k : ℕ) (i : Fin N) : ((π ^ k) i : ℕ) = (i + k) % N := by
  induction k generalizing i with
  | zero => exact (Nat.mod_eq_of_lt i.2).symm
  | succ k ih =>
    rw [pow_succ, Equiv.Perm.mul_apply, ih, hπ, Nat.mod_add_mod, add_assoc, add_comm 1 k]

theorem step_any {F : Fermions} {π : Equiv.Perm (Fin F.nsites)} (hi : FermionInvariant F π) (hπ : ∀ i, (π i : ℕ) = (i + 1) % F.nsites)
    (i j : Fin F.nsites) : ∃ σ, FermionInvariant F σ ∧ σ i = j := by
  refine ⟨π ^ ((j : ℕ) + F.nsites - i), invariant_pow hi _, Fin.ext ?_⟩
  rw [step_pow hπ]
  have h1 := i.2
  have h2 := j.2
  rw [show (i : ℕ) + ((j : ℕ) + F.nsites - i) = j + F.nsites by omega, Nat.add_mod_right, Nat.mod_eq_of_lt h2]

/-- Free or interacting spinless fermions on a ring. -/
theorem ring_steps {n : ℕ} (hn : 2 ≤ n) (hn' : n < 10 ^ 14) (t v mu : ℝ) : ∃ g F, createSquare n 1 0 0 false true = .ok g ∧
    fermionModel g ⟨[], fun _ => 0⟩ ⟨[], fun _ => (t : ℂ)⟩ ⟨[], fun _ => (mu : ℂ)⟩ ⟨[], fun _ => 0⟩ ⟨[], fun _ => (v : ℂ)⟩ 1 = .ok F ∧
    F.nsites = n ∧ F.nspecies = 1 ∧ InterOk F ∧ RealParams F ∧ FermionBonds F ∧ (∀ i < n, F.us i = 0) ∧ F.mus 0 = mu ∧
    (∀ i < n, F.pots i 0 = (0 : ℝ) ∧ ∀ j < n, F.ts i j 0 = t * g.adjacency.e i j ∧
        F.usSame i j 0 = v * g.adjacency.e i j ∧ F.ts i j 0 * ((|F.xdist i j| + |F.ydist i j| : ℝ) : ℂ) = t * g.adjacency.e i j) ∧
    ∀ i j : Fin F.nsites, ∃ π, FermionInvariant F π ∧ π i = j := by
  obtain ⟨g, hg, hN, -⟩ := C50_square n 1 (by omega) one_pos 0 0 false true (fun h => by omega) (fun _ => rfl)
  obtain ⟨G⟩ := ring_of hn hn' hg
  obtain ⟨p, m1, m2, m3, m4, m5, m6, m7, m8⟩ := ring_model hn hn' hg G t v mu
  rw [Complex.ofReal_zero] at m1
  have hNs := G.nsites
  have hFn : (p.model g 1).nsites = n := hNs
  refine ⟨g, p.model g 1, hg, m1, hFn, rfl, m5, m6, m7, m2, m3, m4, step_any m8 fun i => ?_⟩
  have e1 : ((finRotate n (G.σ i) : Fin n) : ℕ) = (G.perm (finRotate n) i : Fin g.nsites) :=
    (congrArg Fin.val (G.perm_apply (finRotate n) i)).symm.trans (G.site hn hn' hg (G.perm (finRotate n) i))
  have e2 := G.site hn hn' hg i
  obtain ⟨k, hk⟩ := rotate_val (G.σ i)
  rw [e1, e2] at hk
  have h3 : ((G.perm (finRotate n) i : Fin g.nsites) : ℕ) < n := (Fin.is_lt _).trans_eq hNs
  have h4 : (((G.perm (finRotate n) i : Fin g.nsites) : ℕ) : ℤ) % n = ((i : ℕ) + 1) % n := by
    rw [hk, Int.add_mul_emod_self_right]
  have h5 : ((G.perm (finRotate n) i : Fin g.nsites) : ℕ) % n = ((i : ℕ) + 1) % n := by exact_mod_cast h4
  rw [Nat.mod_eq_of_lt h3] at h5
  exact h5.trans (congrArg (fun m => ((i : ℕ) + 1) % m) hFn.symm)

/-- C139 (the script, fixed number of particles): `spinless_fermion_example.py` subtracts the product of the densities of the first
site at the first two temperatures instead of the densities of the two sites; since all sites have the same density at all
temperatures, it finds the connected correlation of the two sites. -/
theorem C139_script_number (S : EigSolvers) (hS : EigContract S) {n : ℕ} (hn : 2 ≤ n) (hn' : n < 10 ^ 14) {N : ℕ} (hN : N ≤ n) (t : ℝ) :
    ∃ g F P A w M, createSquare n 1 0 0 false true = .ok g ∧
      fermionModel g ⟨[], fun _ => 0⟩ ⟨[], fun _ => (t : ℂ)⟩ ⟨[], fun _ => 0⟩ ⟨[], fun _ => 0⟩ ⟨[], fun _ => 0⟩ 1 = .ok F ∧
      F.nProjector (some [some (N : ℤ)]) = .ok P ∧ F.createH (some P) = .ok A ∧ diagList S A = .ok (w, M) ∧
      ∀ temps : List ℝ, 2 ≤ temps.length → (∀ T ∈ temps, T ≠ 0 ∨ GappedList w) → ∃ d0 d1 c r : List ℝ,
        thermalExpSites F.sys M w nOp 0 temps (some [0, 1]) (some P) "boson" = .ok ([d0, d1], [0, 1]) ∧
        thermalCorrSites F.sys M w 0 0 nOp nOp temps (some [(0, 1)]) (some P) "boson" = .ok ([c], [(0, 1)]) ∧
        spinlessNumber S n N t temps = .ok r ∧ r.length = temps.length ∧ d0.length = temps.length ∧ d1.length = temps.length ∧
        c.length = temps.length ∧ ∀ k < temps.length, r.getD k 0 = c.getD k 0 - d0.getD k 0 * d1.getD k 0 ∧
          d0.getD k 0 = (N : ℝ) / n := by
  obtain ⟨g, F, h1, h2, h3, h4, h5, h6, h7, -, -, -, h8⟩ := ring_steps hn hn' t 0 0
  rw [Complex.ofReal_zero] at h2
  have hfit : Fits F.nsites [some (N : ℤ)] := by
    intro v hv
    obtain rfl : (N : ℤ) = v := by simpa [eq_comm] using hv
    exact ⟨by omega, by rw [h3]; exact_mod_cast hN⟩
  obtain ⟨P, A, w, M, a1, a2, a3, a4⟩ := C139_uniform S hS F h5 h6 (by omega) (ns := [some (N : ℤ)]) (by rw [h4]; rfl) hfit h7 h8
  obtain ⟨P', A', w', M', b1, b2, b3, b4⟩ := C139_fixed_numbers S hS F h5 h6 (by omega) (ns := [some (N : ℤ)]) (by rw [h4]; rfl) hfit h7
  rw [a1] at b1
  obtain rfl := Except.ok.inj b1
  rw [a2] at b2
  obtain rfl := Except.ok.inj b2
  rw [a3] at b3
  obtain ⟨rfl, rfl⟩ := Prod.mk.inj (Except.ok.inj b3)
  refine ⟨g, F, P, A, w, M, h1, h2, a1, a2, a3, fun temps hl hT => ?_⟩
  let u : Fin F.nspecies := ⟨0, by omega⟩
  let i0 : Fin F.nsites := ⟨0, by omega⟩
  let i1 : Fin F.nsites := ⟨1, by omega⟩
  obtain ⟨d, c, -, c2, c3, -⟩ := b4 u u temps hT
  have e1 := a4 u N rfl temps hT [i0, i1]
  have e2 := a4 u N rfl temps hT [i0]
  have e3 := c2 [(i0, i1)]
  have hc : (c i0 i1).length = temps.length := (c3 i0 i1).2
  refine ⟨_, _, c i0 i1, (c i0 i1).map fun z => z - (N : ℝ) / n * ((N : ℝ) / n), e1, e3, ?_, by simpa using hc, by simp, by simp, hc, fun k hk => ?_⟩
  · unfold spinlessNumber
    simp only [h1, h2, a1, a2, a3, bind, Except.bind]
    have e2' : thermalExpSites F.sys M w nOp 0 temps (some [0]) (some P) "boson" = _ := e2
    have e3' : thermalCorrSites F.sys M w 0 0 nOp nOp temps (some [(0, 1)]) (some P) "boson" = _ := e3
    rw [e2', e3']
    obtain ⟨x, y, l, rfl⟩ : ∃ x y l, temps = x :: y :: l := by
      match temps, hl with
      | x :: y :: l, _ => exact ⟨x, y, l, rfl⟩
    simp only [List.length_cons, List.length_nil, List.replicate_succ, List.replicate_zero, subtractProduct, List.map_cons, List.map_nil, h3]
    rfl
  · have hk' : k < (c i0 i1).length := hc ▸ hk
    simp only [List.getD_eq_getElem?_getD, List.getElem?_map, List.getElem?_replicate, if_pos hk, Option.getD_some, List.getElem?_eq_getElem hk',
      Option.map_some, h3, Int.cast_natCast, and_self]

/-! ## All numbers of particles -/

/-- C139 (fermions, all numbers of particles): the same for averages over the whole space. -/
theorem C139_all_numbers (S : EigSolvers) (hS : EigContract S) (F : Fermions) (hI : InterOk F) (hr : RealParams F) (hb : FermionBonds F) :
    ∃ A w M, F.createH none = .ok A ∧ diagList S A = .ok (w, M) ∧ ∀ (s s' : Fin F.nspecies) (temps : List ℝ),
      (∀ T ∈ temps, T ≠ 0 ∨ GappedList w) → ∃ (d : Fin F.nsites → List ℝ) (c : Fin F.nsites → Fin F.nsites → List ℝ),
        thermalExpSites F.sys M w nOp s temps none none "boson" = .ok (List.ofFn d, List.range F.nsites) ∧
        (∀ sites : List (Fin F.nsites), thermalExpSites F.sys M w nOp s temps (some (sites.map fun i : Fin F.nsites => (i : ℕ))) none "boson" =
          .ok (sites.map d, sites.map fun i : Fin F.nsites => (i : ℕ))) ∧
        (∀ pairs : List (Fin F.nsites × Fin F.nsites), thermalCorrSites F.sys M w s s' nOp nOp temps
          (some (pairs.map fun q => ((q.1 : ℕ), (q.2 : ℕ)))) none "boson" =
            .ok (pairs.map fun q => c q.1 q.2, pairs.map fun q => ((q.1 : ℕ), (q.2 : ℕ)))) ∧
        (∀ i j, (d i).length = temps.length ∧ (c i j).length = temps.length) ∧
        ∀ π, FermionInvariant F π → ∀ i j, d (π i) = d i ∧ c (π i) (π j) = c i j := by
  obtain ⟨A, hA, hAi⟩ := createH_gives (F := F) hI
  have hH : (hubInter (fun i : Fin F.nsites => F.us i) + hubRest F : Op (F.nsites * F.nspecies) 2).IsHermitian := by
    obtain ⟨H, hH', hiff⟩ := C25_hermitian_iff F hI hr.us hr.same hr.mus hr.pots
    rw [gives_unique (createH_gives hI) hH']
    exact hiff.2 fun i j s _ => Or.inl (hr.ts i j s)
  obtain ⟨m, E, M, V, a1, a2, a3, a4, a5, a6⟩ := diagList_ok S hS hAi hH
  have hE : (Mat.eye M.rows).Is (1 : Op (F.nsites * F.nspecies) 2) := Mat.is_eye a2.1
  have e1 : ∀ X : Op (F.nsites * F.nspecies) 2, (1 : Op (F.nsites * F.nspecies) 2) * X * (1 : Op (F.nsites * F.nspecies) 2)ᴴ = X := by
    intro X
    rw [conjTranspose_one, Matrix.one_mul, Matrix.mul_one]
  refine ⟨A, List.ofFn E, M, hA, a1, fun s s' temps hT => ⟨
    fun i => temps.map fun T => canonical T E fun k => (expect ((1 : Op (F.nsites * F.nspecies) 2) * number (mode i s) * (1 : Op (F.nsites * F.nspecies) 2)ᴴ) (colOf V k)).re,
    fun i j => temps.map fun T => canonical T E fun k => (expect ((1 : Op (F.nsites * F.nspecies) 2) * (number (mode i s) * number (mode j s')) * (1 : Op (F.nsites * F.nspecies) 2)ᴴ) (colOf V k)).re,
    ?_, densities_proj F a2 hE a6 s temps hT, correlators_proj F a2 hE a6 s s' temps hT, fun i j => ⟨by simp, by simp⟩, fun π hπ i j => ?_⟩⟩
  · have h := densities_proj F a2 hE a6 s temps hT (List.finRange F.nsites)
    rw [List.map_coe_finRange_eq_range, ← List.ofFn_eq_map] at h
    exact h
  · obtain ⟨v, U, -, -, hU, hc⟩ := xform_commutes F hI hb (permCycles_cyclesOf π) hπ hA hAi
    have hQ : U * ((1 : Op (F.nsites * F.nspecies) 2)ᴴ * 1) = (1 : Op (F.nsites * F.nspecies) 2)ᴴ * 1 * U := by
      rw [conjTranspose_one, Matrix.one_mul, Matrix.mul_one, Matrix.one_mul]
    have h1 : (1 : Op (F.nsites * F.nspecies) 2) * (1 : Op (F.nsites * F.nspecies) 2)ᴴ = 1 := by
      rw [conjTranspose_one, Matrix.mul_one]
    have key := fun {O O' : Op (F.nsites * F.nspecies) 2} (hO : U * O * Uᴴ = O') (T : ℝ) =>
      sector_invariant h1 hU.left_inv hU.right_inv hQ hc hO a3 a4 (by rw [e1]; exact a5) (by rw [e1]; exact hH) T
    refine ⟨List.map_congr_left fun T _ => key (moves_number hU s i) T, List.map_congr_left fun T _ => key ?_ T⟩
    rw [← moves_number hU, ← moves_number hU]
    calc U * (number (mode i s) * number (mode j s')) * Uᴴ = U * number (mode i s) * (1 * (number (mode j s') * Uᴴ)) := by
          simp only [Matrix.mul_assoc, Matrix.one_mul]
      _ = _ := by rw [← hU.left_inv]; simp only [Matrix.mul_assoc]

/-- C139 (the script, fixed chemical potential): with chemical potential zero on a ring with an even number of sites, as in
`spinless_fermion_example.py`, the result is again the connected correlation of the two sites. -/
theorem C139_script_mu (S : EigSolvers) (hS : EigContract S) {n : ℕ} (hn : 3 ≤ n) (he : Even n) (hn' : n < 10 ^ 14) (t : ℝ) :
    ∃ g F A w M, createSquare n 1 0 0 false true = .ok g ∧
      fermionModel g ⟨[], fun _ => 0⟩ ⟨[], fun _ => (t : ℂ)⟩ ⟨[], fun _ => 0⟩ ⟨[], fun _ => 0⟩ ⟨[], fun _ => 0⟩ 1 = .ok F ∧
      F.createH none = .ok A ∧ diagList S A = .ok (w, M) ∧
      ∀ temps : List ℝ, 2 ≤ temps.length → (∀ T ∈ temps, T ≠ 0 ∨ GappedList w) → ∃ (d : List (List ℝ)) (c r : List ℝ),
        thermalExpSites F.sys M w nOp 0 temps none none "boson" = .ok (d, List.range n) ∧
        thermalCorrSites F.sys M w 0 0 nOp nOp temps (some [(0, 1)]) none "boson" = .ok ([c], [(0, 1)]) ∧
        spinlessMu S n t 0 temps = .ok r ∧ r.length = temps.length ∧
        c.length = temps.length ∧ ∀ k < temps.length, r.getD k 0 = c.getD k 0 - (d.getD 0 []).getD k 0 * (d.getD 1 []).getD k 0 ∧
          ∀ i < n, (d.getD i []).getD k 0 = 1 / 2 := by
  obtain ⟨g, F, h1, h2, h3, h4, h5, h6, h7, f3, f4, f5, h8⟩ := ring_steps (by omega : 2 ≤ n) hn' t 0 0
  obtain ⟨A, w, M, a1, a2, a3⟩ := ring_half S hS hn he hn' t 0 h1 h3 h4 f3 f4 f5
  obtain ⟨A', w', M', b1, b2, b3⟩ := C139_all_numbers S hS F h5 h6 h7
  rw [a1] at b1
  obtain rfl := Except.ok.inj b1
  rw [a2] at b2
  obtain ⟨rfl, rfl⟩ := Prod.mk.inj (Except.ok.inj b2)
  refine ⟨g, F, A, w, M, h1, by rw [Complex.ofReal_zero] at h2; exact h2, a1, a2, fun temps hl hT => ?_⟩
  let u : Fin F.nspecies := ⟨0, by omega⟩
  let i0 : Fin F.nsites := ⟨0, by omega⟩
  let i1 : Fin F.nsites := ⟨1, by omega⟩
  obtain ⟨d, c, d1, d2, c2, c3, -⟩ := b3 u u temps hT
  have e1 := a3 temps hT
  have e3 := c2 [(i0, i1)]
  have hc : (c i0 i1).length = temps.length := (c3 i0 i1).2
  have hd : List.ofFn d = List.replicate F.nsites (List.replicate temps.length (1 / 2)) := by
    have d1' : thermalExpSites F.sys M w nOp 0 temps none none "boson" = _ := d1
    rw [e1] at d1'
    exact (Prod.mk.inj (Except.ok.inj d1')).1.symm
  have hd' : ∀ i, d i = List.replicate temps.length (1 / 2) := fun i => by
    have := congrArg (fun l => l.getD (i : ℕ) []) hd
    simpa [List.getD_eq_getElem?_getD, List.getElem?_replicate] using this
  have e2 : thermalExpSites F.sys M w nOp 0 temps (some [0]) none "boson" = .ok ([List.replicate temps.length (1 / 2)], [0]) := by
    have := d2 [i0]
    simp only [List.map_cons, List.map_nil, hd'] at this
    exact this
  refine ⟨_, c i0 i1, (c i0 i1).map fun z => z - 1 / 2 * (1 / 2), by rw [e1, h3], e3, ?_, by simpa using hc, hc, fun k hk => ?_⟩
  · unfold spinlessMu
    simp only [Complex.ofReal_zero] at h2 ⊢
    simp only [h1, h2, a1, a2, bind, Except.bind]
    have e3' : thermalCorrSites F.sys M w 0 0 nOp nOp temps (some [(0, 1)]) none "boson" = _ := e3
    rw [e2, e3']
    obtain ⟨x, y, l, rfl⟩ : ∃ x y l, temps = x :: y :: l := by
      match temps, hl with
      | x :: y :: l, _ => exact ⟨x, y, l, rfl⟩
    simp only [List.length_cons, List.replicate_succ, subtractProduct, List.map_cons, List.map_nil]
  · have hk' : k < (c i0 i1).length := hc ▸ hk
    have hg : ∀ i < n, ((List.replicate n (List.replicate temps.length (1 / 2 : ℝ))).getD i []).getD k 0 = 1 / 2 := by
      intro i hi
      simp only [List.getD_eq_getElem?_getD, List.getElem?_replicate, if_pos hk, if_pos hi, Option.getD_some]
    refine ⟨?_, hg⟩
    rw [hg 0 (by omega), hg 1 (by omega)]
    simp only [List.getD_eq_getElem?_getD, List.getElem?_map, Option.getD_some, List.getElem?_eq_getElem hk', Option.map_some]

/-! ## Spins -/

/-- C139 (spins): permuting the sites in a way that does not change couplings and fields does not change averages of products of any
two operators at different sites. Averages of any operator at one site do not change either, for spin one half. -/
theorem C139_spins (S : EigSolvers) (hS : EigContract S) (F : Spins) (hok : F.Ok) (hb : SpinBonds F)
    (hjx : ∀ i j : Fin F.nsites, star (F.jx i j) = F.jx i j) (hjy : ∀ i j : Fin F.nsites, star (F.jy i j) = F.jy i j)
    (hjz : ∀ i j : Fin F.nsites, star (F.jz i j) = F.jz i j) (hhx : ∀ i : Fin F.nsites, star (F.hx i) = F.hx i)
    (hhy : ∀ i : Fin F.nsites, star (F.hy i) = F.hy i) (hhz : ∀ i : Fin F.nsites, star (F.hz i) = F.hz i) :
    ∃ A w M, F.createH none = .ok A ∧ diagList S A = .ok (w, M) ∧ ∀ (o o' : Mat) (X Y : Matrix (Fin (F.twoS + 1)) (Fin (F.twoS + 1)) ℂ),
      o.Is X → o'.Is Y → ∀ temps : List ℝ, (∀ T ∈ temps, T ≠ 0 ∨ GappedList w) →
        ∃ (d : Fin F.nsites → List ℝ) (c : Fin F.nsites → Fin F.nsites → List ℝ),
          (∀ pairs : List (Fin F.nsites × Fin F.nsites), (∀ q ∈ pairs, q.1 ≠ q.2) → thermalCorrSites F.sys M w 0 0 o o' temps
            (some (pairs.map fun q => ((q.1 : ℕ), (q.2 : ℕ)))) none "boson" =
              .ok (pairs.map fun q => c q.1 q.2, pairs.map fun q => ((q.1 : ℕ), (q.2 : ℕ)))) ∧
          (F.twoS = 1 → thermalExpSites F.sys M w o 0 temps none none "boson" = .ok (List.ofFn d, List.range F.nsites)) ∧
          (∀ i j, (d i).length = temps.length ∧ (c i j).length = temps.length) ∧
          ∀ π, Spec.SpinInvariant F π → ∀ i j, d (π i) = d i ∧ c (π i) (π j) = c i j := by
  obtain ⟨A, hA, hAi⟩ := spin_createH F hok
  obtain ⟨⟨H, hG, hH⟩, -⟩ := C33_hermitian_partial F hok hjx hjy hjz hhx hhy hhz
  obtain rfl := gives_unique ⟨A, hA, hAi⟩ hG
  obtain ⟨m, E, M, V, a1, a2, a3, a4, a5, a6⟩ := diagList_ok S hS hAi hH
  have hE : (Mat.eye M.rows).Is (1 : Op F.nsites (F.twoS + 1)) := Mat.is_eye a2.1
  have e1 : ∀ X : Op F.nsites (F.twoS + 1), (1 : Op F.nsites (F.twoS + 1)) * X * (1 : Op F.nsites (F.twoS + 1))ᴴ = X := by
    intro X
    rw [conjTranspose_one, Matrix.one_mul, Matrix.mul_one]
  refine ⟨A, List.ofFn E, M, hA, a1, fun o o' X Y ho ho' temps hT => ⟨
    fun i => temps.map fun T => canonical T E fun k => (expect ((1 : Op F.nsites (F.twoS + 1)) * siteOp X i * (1 : Op F.nsites (F.twoS + 1))ᴴ) (colOf V k)).re,
    fun i j => temps.map fun T => canonical T E fun k => (expect ((1 : Op F.nsites (F.twoS + 1)) * (siteOp X i * siteOp Y j) * (1 : Op F.nsites (F.twoS + 1))ᴴ) (colOf V k)).re,
    fun pairs hne => ?_, fun h1 => ?_, fun i j => ⟨by simp, by simp⟩, fun π hπ i j => ?_⟩⟩
  · unfold thermalCorrSites
    simp only [Option.getD_some, Option.getD_none]
    rw [List.mapM_map, mapM_ok _ _ (fun q : Fin F.nsites × Fin F.nsites => temps.map fun T => canonical T E fun k =>
      (expect ((1 : Op F.nsites (F.twoS + 1)) * (siteOp X q.1 * siteOp Y q.2) * (1 : Op F.nsites (F.twoS + 1))ᴴ) (colOf V k)).re)]
    · rfl
    · intro q hq
      obtain ⟨Z, hZ, hZi⟩ := spin_two (hne q hq) ho ho'
      change (getTwoSiteOp F.sys q.1 0 q.2 0 o o' "boson" >>= _) = _
      rw [hZ]
      change (sandwich 1 _ Z >>= _) = _
      obtain ⟨W, hW, hWi⟩ := sandwich_gives hE hZi 1
      rw [hW]
      change expValsThermalList M W _ temps = _
      unfold expValsThermalList
      refine mapM_ok _ _ _ fun T hTm => ?_
      rw [one_smul] at hWi
      refine C19_canonical a2 hWi E T ((hT T hTm).imp id fun hg => ⟨a6, fun k l => hg _ ?_ _ ?_⟩)
      · exact List.mem_ofFn.2 ⟨k, rfl⟩
      · exact List.mem_ofFn.2 ⟨l, rfl⟩
  · have hs : ∀ i : Fin F.nsites, Gives (getSingleSiteOp F.sys i 0 o "boson") (siteOp X i : Op F.nsites (F.twoS + 1)) := by
      intro i
      obtain ⟨n, d, _, _, _, _, _, _⟩ := F
      simp only at h1
      subst h1
      exact spin_single i ho
    unfold thermalExpSites
    simp only [Option.getD_none]
    rw [← List.map_coe_finRange_eq_range, List.mapM_map, mapM_ok _ _ (fun i : Fin F.nsites => temps.map fun T => canonical T E fun k =>
      (expect ((1 : Op F.nsites (F.twoS + 1)) * siteOp X i * (1 : Op F.nsites (F.twoS + 1))ᴴ) (colOf V k)).re)]
    · rw [List.ofFn_eq_map]
      rfl
    · intro i _
      obtain ⟨Z, hZ, hZi⟩ := hs i
      change (getSingleSiteOp F.sys i 0 o "boson" >>= _) = _
      rw [hZ]
      change (sandwich 1 _ Z >>= _) = _
      obtain ⟨W, hW, hWi⟩ := sandwich_gives hE hZi 1
      rw [hW]
      change expValsThermalList M W _ temps = _
      unfold expValsThermalList
      refine mapM_ok _ _ _ fun T hTm => ?_
      rw [one_smul] at hWi
      refine C19_canonical a2 hWi E T ((hT T hTm).imp id fun hg => ⟨a6, fun k l => hg _ ?_ _ ?_⟩)
      · exact List.mem_ofFn.2 ⟨k, rfl⟩
      · exact List.mem_ofFn.2 ⟨l, rfl⟩
  · have hu := relMat_unitary (confPerm (n := F.nsites) (b := F.twoS + 1) π)
    have hh := conj_heis hu.1 (conj_siteOp π (sxM F.twoS)) (conj_siteOp π (syM F.twoS)) (conj_siteOp π (szM F.twoS))
      (jx := fun i j => F.jx i j) (jy := fun i j => F.jy i j) (jz := fun i j => F.jz i j)
      (hx := fun i => F.hx i) (hy := fun i => F.hy i) (hz := fun i => F.hz i)
      hb.x hb.y hb.z hπ.jx hπ.jy hπ.jz hπ.hx hπ.hy hπ.hz
    set U : Op F.nsites (F.twoS + 1) := relMat (confPerm π) with hUdef
    have hc := commute_of_conj hu.1 hh
    have hQ : U * ((1 : Op F.nsites (F.twoS + 1))ᴴ * 1) = (1 : Op F.nsites (F.twoS + 1))ᴴ * 1 * U := by
      rw [conjTranspose_one, Matrix.one_mul, Matrix.mul_one, Matrix.one_mul]
    have h1 : (1 : Op F.nsites (F.twoS + 1)) * (1 : Op F.nsites (F.twoS + 1))ᴴ = 1 := by
      rw [conjTranspose_one, Matrix.mul_one]
    have key := fun {O O' : Op F.nsites (F.twoS + 1)} (hO : U * O * Uᴴ = O') (T : ℝ) =>
      sector_invariant h1 hu.1 hu.2 hQ hc hO a3 a4 (by rw [e1]; exact a5) (by rw [e1]; exact hH) T
    refine ⟨List.map_congr_left fun T _ => key (conj_siteOp π X i) T, List.map_congr_left fun T _ => key ?_ T⟩
    rw [← conj_siteOp π X i, ← conj_siteOp π Y j, ← hUdef]
    calc U * (siteOp X i * siteOp Y j) * Uᴴ = U * siteOp X i * (1 * (siteOp Y j * Uᴴ)) := by
          simp only [Matrix.mul_assoc, Matrix.one_mul]
      _ = _ := by rw [← hu.1]; simp only [Matrix.mul_assoc]

/-! ## Cases that meet the hypotheses -/

/-- Three spins coupled to each other in a field can be permuted in any way. -/
example (S : EigSolvers) (hS : EigContract S) (o o' : Mat) (X Y : Matrix (Fin 2) (Fin 2) ℂ) (ho : o.Is X) (ho' : o'.Is Y) (T : ℝ) (hT : T ≠ 0) :
    ∃ A w M c, Spins.createH ⟨3, 1, fun _ _ => 1, fun _ _ => 1, fun _ _ => -2, fun _ => 0, fun _ => 0, fun _ => 5⟩ none = .ok A ∧
      diagList S A = .ok (w, M) ∧ thermalCorrSites ⟨3, 1, 2⟩ M w 0 0 o o' [T] (some [(0, 1), (1, 2), (2, 0), (1, 0)]) none "boson" =
        .ok ([c, c, c, c], [(0, 1), (1, 2), (2, 0), (1, 0)]) := by
  let F : Spins := ⟨3, 1, fun _ _ => 1, fun _ _ => 1, fun _ _ => -2, fun _ => 0, fun _ => 0, fun _ => 5⟩
  obtain ⟨A, w, M, h1, h2, h3⟩ := C139_spins S hS F (Or.inl rfl) ⟨fun _ _ => rfl, fun _ _ => rfl, fun _ _ => rfl⟩
    (by simp [F]) (by simp [F]) (by simp [F]) (by simp [F]) (by simp [F]) (by simp [F])
  obtain ⟨d, c, h4, -, -, h5⟩ := h3 o o' X Y ho ho' [T] (fun T' h => Or.inl (by rw [List.mem_singleton.1 h]; exact hT))
  have hi : ∀ π : Equiv.Perm (Fin 3), Spec.SpinInvariant F π := fun π =>
    ⟨fun _ _ => rfl, fun _ _ => rfl, fun _ _ => rfl, fun _ => rfl, fun _ => rfl, fun _ => rfl⟩
  refine ⟨A, w, M, c (0 : Fin 3) (1 : Fin 3), h1, h2, ?_⟩
  have h := h4 [((0 : Fin 3), (1 : Fin 3)), (1, 2), (2, 0), (1, 0)] (by decide)
  have c1 : c (1 : Fin 3) (2 : Fin 3) = c (0 : Fin 3) (1 : Fin 3) := (h5 (finRotate 3) (hi _) (0 : Fin 3) (1 : Fin 3)).2
  have c2 : c (2 : Fin 3) (0 : Fin 3) = c (1 : Fin 3) (2 : Fin 3) := (h5 (finRotate 3) (hi _) (1 : Fin 3) (2 : Fin 3)).2
  have c3 : c (1 : Fin 3) (0 : Fin 3) = c (0 : Fin 3) (1 : Fin 3) := (h5 (Equiv.swap (0 : Fin 3) 1) (hi _) (0 : Fin 3) (1 : Fin 3)).2
  refine h.trans ?_
  change Except.ok ([c (0 : Fin 3) (1 : Fin 3), c (1 : Fin 3) (2 : Fin 3), c (2 : Fin 3) (0 : Fin 3), c (1 : Fin 3) (0 : Fin 3)], _) = _
  rw [c2, c1, c3]
  rfl

/-- The ring of the script: ten sites, two particles, hopping one. -/
example (S : EigSolvers) (hS : EigContract S) : ∃ r, spinlessNumber S 10 2 1 [1 / 4, 5] = .ok r ∧ r.length = 2 := by
  obtain ⟨g, F, P, A, w, M, -, -, -, -, -, h⟩ := C139_script_number S hS (n := 10) (by norm_num) (by norm_num) (N := 2) (by norm_num) 1
  obtain ⟨d0, d1, c, r, -, -, h1, h2, -⟩ := h [1 / 4, 5] le_rfl (fun T hT => Or.inl (by
    rcases List.mem_cons.1 hT with rfl | hT
    · norm_num
    · rw [List.mem_singleton.1 hT]; norm_num))
  exact ⟨r, h1, h2⟩

example (S : EigSolvers) (hS : EigContract S) : ∃ r, spinlessMu S 10 1 0 [1 / 4, 5] = .ok r ∧ r.length = 2 := by
  obtain ⟨g, F, A, w, M, -, -, -, -, h⟩ := C139_script_mu S hS (n := 10) (by norm_num) ⟨5, rfl⟩ (by norm_num) 1
  obtain ⟨d, c, r, -, -, h1, h2, -⟩ := h [1 / 4, 5] le_rfl (fun T hT => Or.inl (by
    rcases List.mem_cons.1 hT with rfl | hT
    · norm_num
    · rw [List.mem_singleton.1 hT]; norm_num))
  exact ⟨r, h1, h2⟩

end ED.Props
