import Verif.Props.Repulsion
import Verif.Props.NumberSectors
import Verif.Props.Sublattice
import Mathlib.LinearAlgebra.Matrix.Rank

/-!
# Property C153: evolution in a sector

If the Hamiltonian does not lead out of a sector and the initial state belongs to it, then evolving in the sector is evolving in the whole space.
-/

namespace ED.Props

open Matrix

/-! ## Specification -/

/-- The evolution of `ψ` with the energies `wp` and states `Mp` from the sector of the projector `P` is the evolution with the energies `w` and states `M`
from the whole space: the states are the same if they are mapped back, and so are the averages of all operators. -/
def SameInSector {ι : Type} [Fintype ι] [Basis ι] (P : Mat) (w : List ℝ) (M : Mat) (wp : List ℝ) (Mp : Mat) (ψ : ι → ℂ) : Prop :=
  ∀ init : Mat, init.Is (Matrix.of fun i (_ : Fin 1) => ψ i) → ∀ times : List ℝ, ∃ ip ev evp B, ∃ Φ : Matrix ι (Fin times.length) ℂ,
    P.mul init = .ok ip ∧ quenchTimeEvolve init M w times = .ok ev ∧ quenchTimeEvolve ip Mp wp times = .ok evp ∧
    P.dagger.mul evp.asMat = .ok B ∧ ev.asMat.Is Φ ∧ B.Is Φ ∧
    ∀ (X : Mat) (O : Matrix ι ι ℂ), X.Is O → ∃ Xp d, inSector P X = .ok Xp ∧ getExpVals ev.asMat X = .ok d ∧ getExpVals evp.asMat Xp = .ok d

/-- The configuration has the given numbers of particles; those of some species may be left open. -/
def HasNumbers {nsites nspecies : ℕ} (ns : List (Option ℤ)) (t : Conf (nsites * nspecies) 2) : Prop :=
  ∀ (s : Fin nspecies) (v : ℤ), ns[s]? = some (some v) → (speciesCount t s : ℤ) = v

/-! ## Proofs -/

section Generic

variable {ι κ : Type} [Fintype ι] [DecidableEq ι] [Basis ι] [Fintype κ] [DecidableEq κ] [Basis κ]

theorem expect_sandwich (Pm : Matrix κ ι ℂ) (O : Matrix ι ι ℂ) (φ : κ → ℂ) : expect (Pm * O * Pmᴴ) φ = expect O (Pmᴴ *ᵥ φ) := by
  unfold expect
  rw [star_mulVec, conjTranspose_conjTranspose, ← dotProduct_mulVec, mulVec_mulVec, mulVec_mulVec]

theorem rows_le {k : ℕ} {Pm : Matrix (Fin k) ι ℂ} (h : Pm * Pmᴴ = 1) : k ≤ Fintype.card ι := by
  have h1 := (rank_mul_le_left Pm Pmᴴ).trans (rank_le_card_width Pm)
  rw [h, rank_one, Fintype.card_fin] at h1
  exact h1

theorem states_is {a : ND ℂ} {times : List ℝ} {f : ℝ → ι → ℂ} (hs : a.shape = [Fintype.card ι, times.length])
    (ha : ∀ (i : ι) (t : Fin times.length), a.data [Basis.num i, t] = f times[t] i) :
    a.asMat.Is (Matrix.of fun (i : ι) (t : Fin times.length) => f times[t] i) := by
  refine ⟨?_, ?_, fun i t => ha i t⟩
  · simp [ND.asMat, hs]
  · simp [ND.asMat, hs]

/-- Evolution in a sector, for a pair of matrices. -/
theorem evolve_sector (S : EigSolvers) (hS : EigContract S) (hd : 2 ≤ Fintype.card ι) (hk : 2 ≤ Fintype.card κ) {A Ap P : Mat} {H : Matrix ι ι ℂ}
    {Pm : Matrix κ ι ℂ} (hP : P.Is Pm) (hPP : Pm * Pmᴴ = 1) (hA : A.Is H) (hAp : Ap.Is (Pm * H * Pmᴴ)) (hH : H.IsHermitian) :
    ∃ w M wp Mp, diagList S A = .ok (w, M) ∧ diagList S Ap = .ok (wp, Mp) ∧
      (Pmᴴ * Pm * H = H * (Pmᴴ * Pm) → ∀ ψ : ι → ℂ, (Pmᴴ * Pm) *ᵥ ψ = ψ → SameInSector P w M wp Mp ψ) := by
  haveI : Nonempty ι := Fintype.card_pos_iff.1 (by omega)
  haveI : Nonempty κ := Fintype.card_pos_iff.1 (by omega)
  have hHp : (Pm * H * Pmᴴ).IsHermitian := by
    unfold Matrix.IsHermitian
    rw [conjTranspose_mul, conjTranspose_mul, conjTranspose_conjTranspose, hH.eq, Matrix.mul_assoc]
  obtain ⟨m, E, M, V, d1, d2, d3, d4, d5, -⟩ := diagList_ok S hS hA hH
  obtain ⟨m', E', M', V', d1', d2', d3', d4', d5', -⟩ := diagList_ok S hS hAp hHp
  obtain ⟨ev, v1, v2, -, -, -, v6⟩ := C22_evolution_partial E hd d2 d3 d4 d5
  obtain ⟨ev', v1', v2', -, -, -, v6'⟩ := C22_evolution_partial E' hk d2' d3' d4' d5'
  refine ⟨_, M, _, M', d1, d1', fun hc ψ hψ init hi times => ?_⟩
  obtain ⟨ip, hip, hipi⟩ := hP.mul hi
  have hipi' : ip.Is (Matrix.of fun i (_ : Fin 1) => (Pm *ᵥ ψ) i) := hipi
  obtain ⟨a, a1, a2, a3⟩ := v1 init ψ times hi
  obtain ⟨a', a1', a2', a3'⟩ := v1' ip (Pm *ᵥ ψ) times hipi'
  have e : H * Pmᴴ = Pmᴴ * (Pm * H * Pmᴴ) := by
    calc _ = H * (Pmᴴ * (Pm * Pmᴴ)) := by rw [hPP, Matrix.mul_one]
      _ = H * (Pmᴴ * Pm) * Pmᴴ := by simp only [Matrix.mul_assoc]
      _ = _ := by rw [← hc]; simp only [Matrix.mul_assoc]
  have key : ∀ t, ev t ψ = Pmᴴ *ᵥ ev' t (Pm *ᵥ ψ) := fun t => by
    refine schroedinger_unique hH (f := fun t => ev t ψ) (g := fun t => Pmᴴ *ᵥ ev' t (Pm *ᵥ ψ)) (fun t i => v6 t ψ i) (fun t i => ?_) ?_ t
    · have h2 : HasDerivAt (fun s => (Pmᴴ *ᵥ ev' s (Pm *ᵥ ψ)) i) (∑ j, Pmᴴ i j * (-Complex.I * ((Pm * H * Pmᴴ) *ᵥ ev' t (Pm *ᵥ ψ)) j)) t :=
        HasDerivAt.fun_sum fun j _ => (v6' t (Pm *ᵥ ψ) j).const_mul _
      refine h2.congr_deriv ?_
      rw [mulVec_mulVec, e, ← mulVec_mulVec (N := Pm * H * Pmᴴ), mulVec, dotProduct, Finset.mul_sum]
      exact Finset.sum_congr rfl fun j _ => by ring
    · simp only [v2, v2']
      rw [mulVec_mulVec, hψ]
  have hs' := states_is (f := fun t => ev' t (Pm *ᵥ ψ)) a2' a3'
  obtain ⟨B, hB, hBi⟩ := hP.dagger.mul hs'
  refine ⟨ip, a, a', B, _, hip, a1, a1', hB, states_is (f := fun t => ev t ψ) a2 a3, ?_, fun X O hX => ?_⟩
  · have : (Matrix.of fun (i : ι) (t : Fin times.length) => ev times[t] ψ i) = Pmᴴ * Matrix.of fun i (t : Fin times.length) => ev' times[t] (Pm *ᵥ ψ) i := by
      ext i t
      rw [of_apply, key]
      rfl
    rw [this]
    exact hBi
  · obtain ⟨Xp, x1, x2⟩ := hP.inSector hX
    refine ⟨Xp, _, x1, expVals_states (f := fun t => ev t ψ) a2 a3 hX, (expVals_states (f := fun t => ev' t (Pm *ᵥ ψ)) a2' a3' x2).trans ?_⟩
    refine congrArg Except.ok (List.map_congr_left fun t _ => ?_)
    rw [expect_sandwich, key]

end Generic

/-- C153 for every projector with orthonormal rows that commutes with the Hamiltonian of a fermion model: from states in the sector, evolution in the
sector is evolution in the whole space. -/
theorem C153_fermions (S : EigSolvers) (hS : EigContract S) (F : Fermions) (hI : InterOk F) (hr : RealParams F) {k : ℕ} (hk : 2 ≤ k) (P : Mat)
    (Pm : Matrix (Fin k) (Conf (F.nsites * F.nspecies) 2) ℂ) (hP : P.Is Pm) (hPP : Pm * Pmᴴ = 1) :
    ∃ A Ap w M wp Mp, ∃ H : Op (F.nsites * F.nspecies) 2, F.createH none = .ok A ∧ F.createH (some P) = .ok Ap ∧ A.Is H ∧
      diagList S A = .ok (w, M) ∧ diagList S Ap = .ok (wp, Mp) ∧
      (Pmᴴ * Pm * H = H * (Pmᴴ * Pm) → ∀ ψ : Conf (F.nsites * F.nspecies) 2 → ℂ, (Pmᴴ * Pm) *ᵥ ψ = ψ → SameInSector P w M wp Mp ψ) := by
  obtain ⟨A, hA, hAi⟩ := createH_gives (F := F) hI
  obtain ⟨Ap, hAp, hApi⟩ := createH_gives_proj hP hI
  obtain ⟨w, M, wp, Mp, h1, h2, h3⟩ := evolve_sector S hS (hk.trans (rows_le hPP)) (by simpa using hk) hP hPP hAi hApi (F_hermitian hI hr)
  exact ⟨A, Ap, w, M, wp, Mp, _, hA, hAp, hAi, h1, h2, h3⟩

/-- C153 for spins of any size. -/
theorem C153_spins (S : EigSolvers) (hS : EigContract S) (F : Spins) (hF : F.Ok) (hr : RealCouplings F) {k : ℕ} (hk : 2 ≤ k) (P : Mat)
    (Pm : Matrix (Fin k) (Conf F.nsites (F.twoS + 1)) ℂ) (hP : P.Is Pm) (hPP : Pm * Pmᴴ = 1) :
    ∃ A Ap w M wp Mp, ∃ H : Op F.nsites (F.twoS + 1), F.createH none = .ok A ∧ F.createH (some P) = .ok Ap ∧ A.Is H ∧
      diagList S A = .ok (w, M) ∧ diagList S Ap = .ok (wp, Mp) ∧
      (Pmᴴ * Pm * H = H * (Pmᴴ * Pm) → ∀ ψ : Conf F.nsites (F.twoS + 1) → ℂ, (Pmᴴ * Pm) *ᵥ ψ = ψ → SameInSector P w M wp Mp ψ) := by
  obtain ⟨A, hA, hAi⟩ := spin_createH F hF
  obtain ⟨Ap, hAp, hApi⟩ := spin_createH_proj F hF hP
  obtain ⟨w, M, wp, Mp, h1, h2, h3⟩ := evolve_sector S hS (hk.trans (rows_le hPP)) (by simpa using hk) hP hPP hAi hApi (spins_hermitian hr)
  exact ⟨A, Ap, w, M, wp, Mp, _, hA, hAp, hAi, h1, h2, h3⟩

/-- C153 for particle numbers: states with given particle numbers evolve in the sector that the library selects for these numbers as in the whole space. -/
theorem C153_numbers (S : EigSolvers) (hS : EigContract S) (F : Fermions) (hI : InterOk F) (hr : RealParams F) (hn : 0 < F.nsites)
    (ns : List (Option ℤ)) (hlen : ns.length = F.nspecies) (h2 : ∃ t t' : Conf (F.nsites * F.nspecies) 2, t ≠ t' ∧ HasNumbers ns t ∧ HasNumbers ns t') :
    ∃ P A Ap w M wp Mp, F.nProjector (some ns) = .ok P ∧ F.createH none = .ok A ∧ F.createH (some P) = .ok Ap ∧
      diagList S A = .ok (w, M) ∧ diagList S Ap = .ok (wp, Mp) ∧
      ∀ ψ : Conf (F.nsites * F.nspecies) 2 → ℂ, (∀ t, ψ t ≠ 0 → HasNumbers ns t) → SameInSector P w M wp Mp ψ := by
  obtain ⟨P, hP, hsel⟩ := C16_number_projector F hn ns hlen
  obtain ⟨t, t', hne, ht, ht'⟩ := h2
  obtain ⟨d, sel, hinj, hsel, hPi⟩ := Mat.Selects.is (p := HasNumbers ns) hsel ⟨t, ht⟩
  obtain ⟨r, hr1⟩ := (hsel t).1 ht
  obtain ⟨r', hr2⟩ := (hsel t').1 ht'
  have hd : 2 ≤ d + 1 := by
    by_contra h
    have : d = 0 := by omega
    subst this
    exact hne (by rw [← hr1, ← hr2, Fin.ext (by omega : (r : ℕ) = r')])
  set Pm : Matrix (Fin (d + 1)) (Conf (F.nsites * F.nspecies) 2) ℂ := Matrix.of fun r t => if t = sel r then (1 : ℂ) else 0 with hPm
  have hPP : Pm * Pmᴴ = 1 := by
    ext x y
    rw [mul_apply, Finset.sum_eq_single (sel x)]
    · simp only [hPm, of_apply, conjTranspose_apply, if_true, one_mul, one_apply, hinj.eq_iff]
      split_ifs <;> simp
    · intro t _ ht
      simp [hPm, ht]
    · simp
  classical
  have hQ : Pmᴴ * Pm = diagonal fun t => if HasNumbers ns t then (1 : ℂ) else 0 := by
    ext x y
    rw [mul_apply, diagonal_apply]
    simp only [hPm, conjTranspose_apply, of_apply]
    by_cases hx : HasNumbers ns x
    · obtain ⟨q, hq⟩ := (hsel x).1 hx
      rw [Finset.sum_eq_single q]
      · by_cases hxy : x = y
        · subst hxy
          simp [hq, hx]
        · have : y ≠ sel q := fun h => hxy (by rw [h, hq])
          simp [hxy, this]
      · intro q' _ hq'
        have : x ≠ sel q' := fun h => hq' (hinj (by rw [← h, hq]))
        simp [this]
      · simp
    · rw [if_neg hx, ite_self]
      refine Finset.sum_eq_zero fun q _ => ?_
      have : x ≠ sel q := fun h => hx ((hsel x).2 ⟨q, h.symm⟩)
      simp [this]
  obtain ⟨A, Ap, w, M, wp, Mp, H, h1, h2, h3, h4, h5, h6⟩ := C153_fermions S hS F hI hr hd P Pm hPi hPP
  obtain ⟨H', hH', hcons⟩ := C26_number_conservation F hI
  have hHH : H = H' := gives_unique ⟨A, h1, h3⟩ hH'
  refine ⟨P, A, Ap, w, M, wp, Mp, hP, h1, h2, h4, h5, fun ψ hψ => h6 ?_ ψ ?_⟩
  · rw [hQ]
    ext x y
    rw [diagonal_mul, mul_diagonal]
    by_cases h0 : H x y = 0
    · rw [h0, mul_zero, zero_mul]
    · have : HasNumbers ns x ↔ HasNumbers ns y := by
        refine forall_congr' fun s => forall_congr' fun v => imp_congr_right fun _ => ?_
        obtain ⟨N, -, -, hN⟩ := hcons s hn
        have : speciesCount x s = speciesCount y s := by
          by_contra hne
          exact h0 (by rw [hHH]; exact hN x y hne)
        rw [this]
      simp only [this]
      ring
  · rw [hQ]
    funext t
    rw [mulVec_diagonal]
    by_cases h : ψ t = 0
    · rw [h, mul_zero]
    · rw [if_pos (hψ t h), one_mul]

/-! ## Examples -/

/-- One particle of each species on two sites, with any real parameters; the initial state is any superposition of the four configurations. -/
example (S : EigSolvers) (hS : EigContract S) (t u mu v : ℝ) : ∃ P A Ap w M wp Mp, (dimer t u mu v).nProjector (some [some 1, some 1]) = .ok P ∧
    (dimer t u mu v).createH none = .ok A ∧ (dimer t u mu v).createH (some P) = .ok Ap ∧ diagList S A = .ok (w, M) ∧ diagList S Ap = .ok (wp, Mp) ∧
    ∀ ψ : Conf (2 * 2) 2 → ℂ, (∀ c, ψ c ≠ 0 → HasNumbers (nsites := 2) (nspecies := 2) [some 1, some 1] c) → SameInSector P w M wp Mp ψ := by
  refine C153_numbers S hS (dimer t u mu v) (.inl (le_refl 2)) ⟨fun i j s => by simp only [dimer]; split_ifs <;> simp,
    fun _ => Complex.conj_ofReal _, fun _ _ _ => by simp [dimer], fun _ => Complex.conj_ofReal _, fun _ _ => Complex.conj_ofReal _⟩ (by simp [dimer])
    [some 1, some 1] rfl ?_
  have one : ∀ s : Fin 2, ∀ v : ℤ, [some (1 : ℤ), some 1][(s : ℕ)]? = some (some v) → v = 1 := fun s v h => by
    fin_cases s <;> simp at h <;> exact h.symm
  have h : ∃ t t' : Conf (2 * 2) 2, t ≠ t' ∧ (∀ s : Fin 2, speciesCount t s = 1) ∧ ∀ s : Fin 2, speciesCount t' s = 1 :=
    ⟨![1, 0, 1, 0], ![0, 1, 0, 1], by decide, by decide, by decide⟩
  obtain ⟨c, c', h1, h2, h3⟩ := h
  exact ⟨c, c', h1, fun s v hv => (congrArg Nat.cast (h2 s)).trans (one s v hv).symm, fun s v hv => (congrArg Nat.cast (h3 s)).trans (one s v hv).symm⟩

/-- Two spins with a coupling and fields along z. -/
noncomputable def isingPair : Spins := ⟨2, 1, fun _ _ => 0, fun _ _ => 0, fun _ _ => 3, fun _ => 0, fun _ => 0, fun i => i + 1⟩

/-- The two configurations of the pair with the first spin up. -/
example (S : EigSolvers) (hS : EigContract S) (α β : ℂ) : ∃ A Ap w M wp Mp,
    isingPair.createH none = .ok A ∧ isingPair.createH (some ⟨2, 4, fun i j => if i = j then 1 else 0⟩) = .ok Ap ∧ diagList S A = .ok (w, M) ∧
    diagList S Ap = .ok (wp, Mp) ∧
    SameInSector (ι := Conf 2 2) ⟨2, 4, fun i j => if i = j then 1 else 0⟩ w M wp Mp fun t => if idx t = 0 then α else if idx t = 1 then β else 0 := by
  set Pm : Matrix (Fin 2) (Conf 2 2) ℂ := Matrix.of fun r t => if (r : ℕ) = Basis.num t then 1 else 0 with hPm
  have hQ : ∀ x y, (Pmᴴ * Pm) x y = if x = y ∧ Basis.num x < 2 then 1 else 0 := fun x y => by
    rw [mul_apply, Fin.sum_univ_two]
    simp only [hPm, conjTranspose_apply, of_apply, Fin.val_zero, Fin.val_one]
    by_cases hxy : x = y
    · subst hxy
      by_cases h0 : Basis.num x = 0
      · simp [h0]
      · by_cases h1 : Basis.num x = 1
        · simp [h1]
        · have : ¬ Basis.num x < 2 := by omega
          simp [this, Ne.symm h0, Ne.symm h1]
    · have hne : Basis.num x ≠ Basis.num y := fun h => hxy (Basis.inj h)
      rw [if_neg (show ¬(x = y ∧ Basis.num x < 2) from fun h => hxy h.1)]
      by_cases h0 : 0 = Basis.num x
      · have h2 : ¬ 0 = Basis.num y := by omega
        have h3 : ¬ 1 = Basis.num x := by omega
        simp [h2, h3]
      · by_cases h1 : 1 = Basis.num x
        · have h2 : ¬ 1 = Basis.num y := by omega
          simp [h2, h0]
        · simp [h0, h1]
  have hPP : Pm * Pmᴴ = 1 := by
    ext x y
    rw [mul_apply]
    change ∑ t : Conf 2 2, (if (x : ℕ) = Basis.num t then (1 : ℂ) else 0) * star (if (y : ℕ) = Basis.num t then (1 : ℂ) else 0) = _
    rw [← Basis.sum_range (ι := Conf 2 2) (fun k => (if (x : ℕ) = k then (1 : ℂ) else 0) * star (if (y : ℕ) = k then (1 : ℂ) else 0))]
    have : Fintype.card (Conf 2 2) = 4 := by simp [Conf]
    rw [this]
    fin_cases x <;> fin_cases y <;> simp [Finset.sum_range_succ]
  have hcomm : ∀ d : Conf 2 2 → ℂ, Pmᴴ * Pm * diagonal d = diagonal d * (Pmᴴ * Pm) := fun d => by
    ext x y
    rw [mul_diagonal, diagonal_mul, hQ]
    by_cases hxy : x = y
    · subst hxy
      ring
    · simp [hxy]
  have hψ : ((Pmᴴ * Pm) *ᵥ fun t : Conf 2 2 => if idx t = 0 then α else if idx t = 1 then β else 0) =
      fun t => if idx t = 0 then α else if idx t = 1 then β else 0 := by
    funext t
    rw [mulVec, dotProduct, Finset.sum_eq_single t]
    · rw [hQ, num_conf]
      by_cases h : idx t < 2
      · simp [h]
      · have h0 : idx t ≠ 0 := by omega
        have h1 : idx t ≠ 1 := by omega
        simp [h0, h1]
    · intro t' _ hne
      rw [hQ, if_neg (show ¬(t = t' ∧ Basis.num t < 2) from fun h => hne h.1.symm), zero_mul]
    · simp
  obtain ⟨A, Ap, w, M, wp, Mp, H, h1, h2, h3, h4, h5, h6⟩ := C153_spins S hS isingPair (.inl rfl)
    ⟨fun i j => by simp [isingPair], fun i j => by simp [isingPair], fun i j => by simp [isingPair], fun i => by simp [isingPair], fun i => by simp [isingPair],
      fun i => by simp [isingPair]⟩ (le_refl 2) ⟨2, 4, fun i j => if i = j then 1 else 0⟩ Pm ⟨rfl, rfl, fun i j => rfl⟩ hPP
  have hd := gives_unique ⟨A, h1, h3⟩ (C34_ising isingPair rfl (fun _ _ => rfl) (fun _ _ => rfl) (fun _ => rfl) (fun _ => rfl))
  subst hd
  exact ⟨A, Ap, w, M, wp, Mp, h1, h2, h4, h5, h6 (hcomm _) _ hψ⟩

end ED.Props
