import Verif.Lemmas.ChainConnected
import Verif.Props.EquivalentSites
import Verif.Props.Signs
import Verif.Props.JordanWigner
import Verif.Props.Independent

/-! # Property C145: lowest states that are unique -/

namespace ED.Props

open Matrix ED.Geometry

/-! ## Specification -/

/-- The first energy is smaller than all others, and no amplitude of its state vanishes. -/
def UniqueLowest (w : List ℝ) (M : Mat) : Prop :=
  ∃ e rest, w = e :: rest ∧ (∀ x ∈ rest, e < x) ∧ ∀ r < M.rows, M.e r 0 ≠ 0

/-! ## Proofs -/

section

variable {ι : Type} [Fintype ι] [DecidableEq ι] [Basis ι] {H : Matrix ι ι ℂ} {θ : ι → ℂ} {c : ι → ι → ℝ}

theorem unique_lowest (hC : Connected H θ c) {M : Mat} {m : ℕ} {E : Fin (m + 1) → ℝ} {V : Matrix ι (Fin (m + 1)) ℂ} (hM : M.Is V) (h3 : Vᴴ * V = 1)
    (h4 : V * Vᴴ = 1) (h5 : H * V = V * diagonal fun k => (E k : ℂ)) (h6 : Monotone E) :
    UniqueLowest (List.ofFn E) M ∧ ∃ z : ℂ, ‖z‖ = 1 ∧ ∀ s, V s 0 = z * θ s * (‖V s 0‖ : ℂ) := by
  have he : ∀ k, E 0 ≤ E k := fun k => h6 (Fin.zero_le k)
  have hcol : ∀ k, H *ᵥ (fun s => V s k) = (E k : ℂ) • fun s => V s k := fun k => by
    funext s
    have := congrFun (congrFun h5 s) k
    rw [mul_diagonal, mul_apply] at this
    simp only [mulVec, dotProduct, Pi.smul_apply, smul_eq_mul]
    rw [this, mul_comm]
  have hone : ∀ k l, ∑ s, star (V s k) * V s l = if k = l then 1 else 0 := fun k l => by
    have := congrFun (congrFun h3 k) l
    rw [mul_apply, one_apply] at this
    simpa only [conjTranspose_apply] using this
  have h0 : (fun s => V s 0) ≠ 0 := fun e => by
    have := hone 0 0
    have e' : ∀ s, V s 0 = 0 := fun s => congrFun e s
    simp [e'] at this
  have hne := hC.ne_zero h4 h5 he (hcol 0) h0
  refine ⟨⟨E 0, List.ofFn fun k : Fin m => E k.succ, List.ofFn_succ, fun x hx => ?_, fun r hr => ?_⟩, ?_⟩
  · obtain ⟨k, rfl⟩ := (List.mem_ofFn' _ x).1 hx
    refine lt_of_le_of_ne (he _) fun e => ?_
    have hk := hcol k.succ
    have e' : E 0 = E k.succ := e
    rw [← e'] at hk
    obtain ⟨s, -⟩ := Function.ne_iff.1 h0
    have hu := hC.unique h4 h5 he (hcol 0) hk s
    have h1 := hone 0 k.succ
    rw [if_neg (Fin.succ_ne_zero k).symm] at h1
    have h2 : V s k.succ = 0 := by
      have : ∑ t, star (V t 0) * (V s k.succ * V t 0) = ∑ t, star (V t 0) * (V s 0 * V t k.succ) :=
        Finset.sum_congr rfl fun t _ => by
          have := congrFun hu t
          simp only [Pi.smul_apply, smul_eq_mul] at this
          rw [this]
      simp only [mul_left_comm (star _) (V s _), ← Finset.mul_sum] at this
      rw [h1, hone 0 0, if_pos rfl, mul_one, mul_zero] at this
      exact this
    have h0' : (fun s => V s k.succ) ≠ 0 := fun e => by
      have := hone k.succ k.succ
      have e' : ∀ s, V s k.succ = 0 := fun s => congrFun e s
      simp [e'] at this
    exact hC.ne_zero h4 h5 he hk h0' s h2
  · rw [hM.1] at hr
    obtain ⟨s, rfl⟩ := Basis.surj (ι := ι) r hr
    have := hM.2.2 s 0
    rw [show Basis.num (0 : Fin (m + 1)) = 0 from rfl] at this
    rw [this]
    exact hne s
  · obtain ⟨s, -⟩ := Function.ne_iff.1 h0
    have hp := hC.positive h4 h5 he (hcol 0)
    have hu := hC.unique h4 h5 he (hcol 0) hp s
    have hθ : ∀ s, ‖θ s‖ = 1 := fun s => by
      have := hC.phase s
      rw [Complex.normSq_eq_norm_sq] at this
      exact (pow_eq_one_iff_of_nonneg (norm_nonneg _) two_ne_zero).1 this
    have hs : (‖V s 0‖ : ℂ) ≠ 0 := by exact_mod_cast norm_ne_zero_iff.2 (hne s)
    have hs' : θ s ≠ 0 := fun e => by have := hθ s; rw [e, norm_zero] at this; exact zero_ne_one this
    refine ⟨V s 0 / (θ s * ‖V s 0‖), ?_, fun t => ?_⟩
    · rw [norm_div, norm_mul, hθ, one_mul, Complex.norm_real, norm_norm, div_self (norm_ne_zero_iff.2 (hne s))]
    · have := congrFun hu t
      simp only [Pi.smul_apply, smul_eq_mul] at this
      field_simp
      linear_combination this

end

section Spins

/-- States that differ at one site after another are connected. -/
theorem connected_by_sites {n b : ℕ} {r : Conf n b → Conf n b → Prop} (h : ∀ (s : Conf n b) (i : Fin n) (a : Fin b), s i ≠ a → r s (Function.update s i a))
    (s t : Conf n b) : Relation.ReflTransGen r s t := by
  induction hk : (Finset.univ.filter fun i => s i ≠ t i).card generalizing s with
  | zero =>
    have : s = t := funext fun i => by
      by_contra hi
      have := Finset.card_eq_zero.1 hk
      exact absurd (Finset.mem_filter.2 ⟨Finset.mem_univ i, hi⟩) (by rw [this]; simp)
    rw [this]
  | succ k ih =>
    obtain ⟨i, hi⟩ := Finset.card_pos.1 (by rw [hk]; omega : 0 < (Finset.univ.filter fun i => s i ≠ t i).card)
    have hi' := (Finset.mem_filter.1 hi).2
    refine Relation.ReflTransGen.head (h s i (t i) hi') (ih _ ?_)
    have : (Finset.univ.filter fun j => Function.update s i (t i) j ≠ t j) = (Finset.univ.filter fun j => s j ≠ t j).erase i := by
      ext j
      by_cases hj : j = i
      · subst hj; simp
      · simp [hj]
    rw [this, Finset.card_erase_of_mem hi, hk]
    rfl

/-- The phase of the transverse field. -/
noncomputable def fieldPhase (hx hy : ℝ) : ℂ := ((hx : ℂ) - hy * Complex.I) / (Real.sqrt (hx ^ 2 + hy ^ 2) : ℂ)

theorem fieldPhase_norm {hx hy : ℝ} (h : hx ≠ 0 ∨ hy ≠ 0) : Complex.normSq (fieldPhase hx hy) = 1 := by
  have hp : 0 < hx ^ 2 + hy ^ 2 := by
    rcases h with h | h
    · have := sq_pos_of_ne_zero h
      have := sq_nonneg hy
      linarith
    · have := sq_pos_of_ne_zero h
      have := sq_nonneg hx
      linarith
  unfold fieldPhase
  rw [Complex.normSq_div, Complex.normSq_ofReal, Real.mul_self_sqrt hp.le, Complex.normSq_apply]
  simp only [Complex.sub_re, Complex.ofReal_re, Complex.mul_re, Complex.I_re, mul_zero, Complex.ofReal_im, Complex.I_im, mul_one, sub_self, sub_zero,
    Complex.sub_im, Complex.mul_im, add_zero, zero_sub]
  rw [div_eq_one_iff_eq hp.ne']
  ring

/-- The product of the phases at the sites in the second state. -/
noncomputable def confPhase {n : ℕ} (φ : Fin n → ℂ) (s : Conf n 2) : ℂ := ∏ i, if s i = 1 then φ i else 1

theorem confPhase_norm {n : ℕ} {φ : Fin n → ℂ} (hφ : ∀ i, Complex.normSq (φ i) = 1) (s : Conf n 2) : Complex.normSq (confPhase φ s) = 1 := by
  unfold confPhase
  rw [map_prod]
  refine Finset.prod_eq_one fun i _ => ?_
  split_ifs
  · exact hφ i
  · simp

theorem confPhase_mul {n : ℕ} {φ : Fin n → ℂ} (hφ : ∀ i, Complex.normSq (φ i) = 1) {i : Fin n} {s t : Conf n 2} (h : AgreeOff i s t) :
    confPhase φ s * star (confPhase φ t) = (if s i = 1 then φ i else 1) * star (if t i = 1 then φ i else 1) := by
  unfold confPhase
  rw [star_prod, ← Finset.prod_mul_distrib]
  refine Finset.prod_eq_single i (fun k _ hk => ?_) (by simp)
  rw [← h k hk, Complex.star_def, Complex.mul_conj]
  split_ifs
  · rw [hφ, Complex.ofReal_one]
  · simp

/-- Couplings along z only. -/
structure Ising (F : Spins) : Prop where
  jx : ∀ i j : Fin F.nsites, F.jx i j = 0
  jy : ∀ i j : Fin F.nsites, F.jy i j = 0

/-- Every site feels a field that is not along z. -/
def Transverse (F : Spins) : Prop := ∀ i : Fin F.nsites, F.hx i ≠ 0 ∨ F.hy i ≠ 0

open Classical in
theorem ising_connected {n : ℕ} (jz : Fin n → Fin n → ℂ) (hx hy : Fin n → ℝ) (hz : Fin n → ℂ) (ht : ∀ i, hx i ≠ 0 ∨ hy i ≠ 0) :
    Connected (heis (sxM 1) (syM 1) (szM 1) (fun _ _ => 0) (fun _ _ => 0) jz (fun i => (hx i : ℂ)) (fun i => (hy i : ℂ)) hz : Op n 2)
      (confPhase fun i => fieldPhase (hx i) (hy i)) fun s t => ∑ i, if AgreeOff i s t ∧ s ≠ t then Real.sqrt (hx i ^ 2 + hy i ^ 2) / 2 else 0 := by
  have hφ := fun i => fieldPhase_norm (ht i)
  have hp : ∀ i, 0 < hx i ^ 2 + hy i ^ 2 := fun i => by
    rcases ht i with h | h
    · have := sq_pos_of_ne_zero h
      have := sq_nonneg (hy i)
      linarith
    · have := sq_pos_of_ne_zero h
      have := sq_nonneg (hx i)
      linarith
  refine ⟨fun s => confPhase_norm hφ s, fun s t => Finset.sum_nonneg fun i _ => ?_, fun s t hst => ?_, fun s t => connected_by_sites (fun s i a hi => ?_) s t⟩
  · split_ifs
    · positivity
    · exact le_rfl
  · have hz0 : ∀ i : Fin n, (siteOp (szM 1) i : Op n 2) s t = 0 := fun i => by
      rw [siteOp, of_apply]
      split_ifs with h
      · have : s i ≠ t i := fun e => hst (funext fun k => by
          by_cases hk : k = i
          · rw [hk, e]
          · exact h k hk)
        rw [szM, diagonal_apply_ne _ this]
      · rfl
    have hzz : ∀ i j : Fin n, (siteOp (szM 1) i * siteOp (szM 1) j : Op n 2) s t = 0 := fun i j => by
      have hd : ∀ i : Fin n, ∃ f, (siteOp (szM 1) i : Op n 2) = diagonal f := fun i => by
        refine ⟨fun s => szM 1 (s i) (s i), ?_⟩
        ext s t
        by_cases e : s = t
        · subst e
          rw [diagonal_apply_eq, siteOp, of_apply]
          exact if_pos (show AgreeOff i s s from fun _ _ => rfl)
        · rw [diagonal_apply_ne _ e, siteOp, of_apply]
          split_ifs with h
          · have : s i ≠ t i := fun e' => e (funext fun k => by
              by_cases hk : k = i
              · rw [hk, e']
              · exact h k hk)
            rw [szM, diagonal_apply_ne _ this]
          · rfl
      obtain ⟨f, hf⟩ := hd i
      obtain ⟨g, hg⟩ := hd j
      rw [hf, hg, diagonal_mul_diagonal, diagonal_apply_ne _ hst]
    rw [heis, Matrix.sub_apply, Matrix.sum_apply, Finset.sum_eq_zero, Matrix.sum_apply, zero_sub, Complex.ofReal_sum, Finset.sum_mul]
    · congr 1
      refine Finset.sum_congr rfl fun i _ => ?_
      rw [Matrix.add_apply, Matrix.add_apply, Matrix.smul_apply, Matrix.smul_apply, Matrix.smul_apply, hz0, smul_zero, add_zero]
      by_cases h : AgreeOff i s t
      · rw [if_pos ⟨h, hst⟩, confPhase_mul hφ h, siteOp, siteOp, of_apply, of_apply, if_pos h, if_pos h]
        have hne : s i ≠ t i := fun e => hst (funext fun k => by
          by_cases hk : k = i
          · rw [hk, e]
          · exact h k hk)
        have hr : ((Real.sqrt (hx i ^ 2 + hy i ^ 2) : ℝ) : ℂ) ≠ 0 := by exact_mod_cast (Real.sqrt_pos.2 (hp i)).ne'
        have hcases : (s i = 1 ∧ t i = 0) ∨ (s i = 0 ∧ t i = 1) := by omega
        rcases hcases with ⟨h1, h2⟩ | ⟨h1, h2⟩
        · rw [h1, h2]
          have e1 : sxM 1 1 0 = 1 / 2 := by simp [sxM, spM, smM]
          have e2 : syM 1 1 0 = -Complex.I / 2 := by simp [syM, spM, smM]; ring
          rw [e1, e2, if_pos rfl, if_neg (by decide), star_one, mul_one, fieldPhase]
          push_cast
          simp only [smul_eq_mul]
          field_simp
          ring
        · rw [h1, h2]
          have e1 : sxM 1 0 1 = 1 / 2 := by simp [sxM, spM, smM]
          have e2 : syM 1 0 1 = Complex.I / 2 := by simp [syM, spM, smM]; ring
          rw [e1, e2, if_pos rfl, if_neg (by decide), one_mul, fieldPhase, star_div₀, star_sub, star_mul', Complex.star_def, Complex.conj_ofReal, Complex.conj_ofReal,
            Complex.conj_ofReal, Complex.conj_I]
          push_cast
          simp only [smul_eq_mul]
          field_simp
          ring
      · rw [if_neg fun h' => h h'.1, siteOp, siteOp, of_apply, of_apply, if_neg h, if_neg h]
        simp
    · intro i _
      rw [Matrix.sum_apply]
      refine Finset.sum_eq_zero fun j _ => ?_
      split_ifs
      · rw [mul_zero, zero_smul, zero_smul, zero_add, zero_add, Matrix.smul_apply, hzz, smul_zero]
      · rfl
  · have hne : s ≠ Function.update s i a := fun e => hi (by rw [e, Function.update_self])
    refine ⟨hne, ?_⟩
    refine Finset.sum_pos' (fun j _ => ?_) ⟨i, Finset.mem_univ i, ?_⟩
    · split_ifs
      · positivity
      · exact le_rfl
    · rw [if_pos ⟨fun k hk => by rw [Function.update_of_ne hk], hne⟩]
      have := Real.sqrt_pos.2 (hp i)
      linarith

/-- C145 (spins): spins one half with couplings along z in a field that has a transverse part at every site have one lowest state, and
every configuration has a probability that is not zero in it. -/
theorem C145_ising (S : EigSolvers) (hS : EigContract S) (F : Spins) (h1 : F.twoS = 1) (hr : RealCouplings F) (hI : Ising F) (ht : Transverse F) :
    ∃ A w M, F.createH none = .ok A ∧ diagList S A = .ok (w, M) ∧ w.length = 2 ^ F.nsites ∧ UniqueLowest w M := by
  obtain ⟨n, b, jx, jy, jz, hx, hy, hz⟩ := F
  simp only at h1
  subst h1
  set F : Spins := ⟨n, 1, jx, jy, jz, hx, hy, hz⟩ with hF
  obtain ⟨A, hA, hAi⟩ := spin_createH F (.inl rfl)
  obtain ⟨k, E, M, V, p0, p1, p2, p3, p4, p5⟩ := diagList_ok S hS hAi (spins_hermitian hr)
  refine ⟨A, _, M, hA, p0, ?_, ?_⟩
  · rw [List.length_ofFn]
    have h := congrArg trace p2
    rw [trace_mul_comm, p3, trace_one, trace_one] at h
    have h' : Fintype.card (Conf n 2) = Fintype.card (Fin (k + 1)) := by exact_mod_cast h
    simpa using h'.symm
  · have rx : ∀ i : Fin n, ((hx i).re : ℂ) = hx i := fun i => Complex.conj_eq_iff_re.1 (hr.hx i)
    have ry : ∀ i : Fin n, ((hy i).re : ℂ) = hy i := fun i => Complex.conj_eq_iff_re.1 (hr.hy i)
    have hC := ising_connected (fun i j : Fin n => jz i j) (fun i => (hx i).re) (fun i => (hy i).re) (fun i => hz i) fun i => by
      refine (ht i).imp (fun h e => h ?_) fun h e => h ?_
      · change hx i = 0
        rw [← rx, e, Complex.ofReal_zero]
      · change hy i = 0
        rw [← ry, e, Complex.ofReal_zero]
    simp only [rx, ry] at hC
    refine (unique_lowest hC p1 p2 p3 ?_ p5).1
    have e1 : (fun i j : Fin n => jx i j) = fun _ _ => 0 := by funext i j; exact hI.jx i j
    have e2 : (fun i j : Fin n => jy i j) = fun _ _ => 0 := by funext i j; exact hI.jy i j
    simp only [F, e1, e2] at p4
    exact p4

end Spins

section Chain

/-- Particles of every species move between neighbours of a chain, and between no other sites. -/
def OpenChain (F : Fermions) : Prop :=
  ∀ (i j : Fin F.nsites) (s : Fin F.nspecies), j < i → (Amplitude F i j s ≠ 0 ↔ (i : ℕ) = j + 1)

/-- The numbers of particles of all species are given. -/
def AllFixed (ns : List (Option ℤ)) : Prop := none ∉ ns

open Classical in
/-- What is diagonalised on an open chain with given numbers of particles. -/
theorem chain_sector (S : EigSolvers) (hS : EigContract S) (F : Fermions) (hI : InterOk F) (hr : RealParams F) (hn : 0 < F.nsites) (hc : OpenChain F)
    {ns : List (Option ℤ)} (hlen : ns.length = F.nspecies) (hf : Fits F.nsites ns) (ha : AllFixed ns) :
    ∃ (P A M : Mat) (m d : ℕ) (E : Fin (m + 1) → ℝ) (sel : Fin (d + 1) → Conf (F.nsites * F.nspecies) 2) (V : Matrix (Fin (d + 1)) (Fin (m + 1)) ℂ)
      (H : Op (F.nsites * F.nspecies) 2),
      F.nProjector (some ns) = .ok P ∧ P.Is (Matrix.of fun r t => if t = sel r then (1 : ℂ) else 0 : Matrix (Fin (d + 1)) (Conf (F.nsites * F.nspecies) 2) ℂ) ∧
      F.createH (some P) = .ok A ∧ diagList S A = .ok (List.ofFn E, M) ∧ M.Is V ∧ Vᴴ * V = 1 ∧ V * Vᴴ = 1 ∧
      H.submatrix sel sel * V = V * diagonal (fun k => (E k : ℂ)) ∧ Monotone E ∧ (H.submatrix sel sel).IsHermitian ∧ Function.Injective sel ∧
      (∀ r (s : Fin F.nspecies) (v : ℤ), ns[s]? = some (some v) → (speciesCount (sel r) s : ℤ) = v) ∧
      (∀ t, (∀ s, ∃ r, speciesCount t s = speciesCount (sel r) s) → ∃ r, sel r = t) ∧
      Connected (H.submatrix sel sel) (fun r => occSign (chainModeSign fun s j => (Amplitude F (j + 1) j s).re) (sel r)) fun r r' =>
        ∑ i : Fin F.nsites, ∑ j : Fin F.nsites, ∑ s : Fin F.nspecies,
          if (i : ℕ) = j + 1 ∧ Moves2 (mode i s) (mode j s) (sel r) (sel r') then |(Amplitude F (j + 1) j s).re| else 0 := by
  obtain ⟨P, hP, hsel⟩ := C16_number_projector F hn ns hlen
  have hfix : ∀ s : Fin F.nspecies, ∃ v : ℤ, ns[(s : ℕ)]? = some (some v) := fun s => by
    have hs : (s : ℕ) < ns.length := by rw [hlen]; exact s.2
    have h := List.getElem?_eq_getElem hs
    cases e : ns[(s : ℕ)] with
    | none => exact absurd (e ▸ List.getElem_mem hs) ha
    | some v => exact ⟨v, by rw [h, e]⟩
  have hne : ∃ t : Conf (F.nsites * F.nspecies) 2, ∀ (s : Fin F.nspecies) (v : ℤ), ns[s]? = some (some v) → (speciesCount t s : ℤ) = v := by
    obtain ⟨t, ht⟩ := exists_counts (nsites := F.nsites) (nspecies := F.nspecies)
      (fun s => match ns[s]? with | some (some v) => v.toNat | _ => 0) (fun s => by
        split
        · rename_i v hv
          have := hf v (List.mem_of_getElem? hv)
          omega
        · omega)
    refine ⟨t, fun s v hv => ?_⟩
    have := hf v (List.mem_of_getElem? hv)
    rw [ht]
    simp only [hv]
    omega
  obtain ⟨d, sel, hinj, hrange, hPi⟩ := hsel.is hne
  set Pm : Matrix (Fin (d + 1)) (Conf (F.nsites * F.nspecies) 2) ℂ := Matrix.of fun r t => if t = sel r then (1 : ℂ) else 0 with hPm
  obtain ⟨A, hA, hAi⟩ := createH_gives_proj hPi hI
  have hH : (hubInter (fun i : Fin F.nsites => F.us i) + hubRest F : Op (F.nsites * F.nspecies) 2).IsHermitian := by
    obtain ⟨H, hH', hiff⟩ := C25_hermitian_iff F hI hr.us hr.same hr.mus hr.pots
    rw [gives_unique (createH_gives hI) hH']
    exact hiff.2 fun i j s _ => Or.inl (hr.ts i j s)
  have hHp := isHermitian_mul_mul_conjTranspose Pm hH
  obtain ⟨m, E, M, V, a1, a2, a3, a4, a5, a6⟩ := diagList_ok S hS hAi hHp
  rw [hPm, select_conj] at a5 hHp
  have hreal : ∀ (i j : Fin F.nsites) (s : Fin F.nspecies), F.ts i j s * hopWeight F i j = ((Amplitude F i j s).re : ℂ) := fun i j s => by
    have : ((F.ts i j s).re : ℂ) = F.ts i j s := Complex.conj_eq_iff_re.1 (hr.ts i j s)
    unfold Amplitude hopWeight
    rw [← this, ← Complex.ofReal_mul, Complex.ofReal_re]
  have hcounts : ∀ r (s : Fin F.nspecies) (v : ℤ), ns[s]? = some (some v) → (speciesCount (sel r) s : ℤ) = v := fun r => (hrange (sel r)).2 ⟨r, rfl⟩
  refine ⟨P, A, M, m, d, E, sel, V, _, hP, hPi, hA, a1, a2, a3, a4, a5, a6, hHp, hinj, hcounts, fun t ht => (hrange t).1 fun s v hv => ?_, chain_connected hinj (fun s j => (Amplitude F (j + 1) j s).re) (fun i j s => F.ts i j s * hopWeight F i j)
    (fun i j s hij => ?_) (fun s i j hij => ?_) (fun r r' s => ?_) (fun t ht => ?_) fun s t hst => ?_⟩
  · obtain ⟨r, hr'⟩ := ht s
    rw [hr']
    exact hcounts r s v hv
  · split_ifs with h
    · rw [hreal, h]
    · rw [hreal, not_not.1 fun h' => h ((hc i j s hij).1 h')]
      simp
  · have h := (hc i j s (Fin.lt_def.2 (by omega))).2 hij
    rw [hij] at h
    intro e
    refine h ?_
    have := hreal i j s
    rw [show F.ts i j s * hopWeight F i j = Amplitude F i j s from rfl, hij] at this
    rw [this, e, Complex.ofReal_zero]
  · obtain ⟨v, hv⟩ := hfix s
    exact_mod_cast (hcounts r s v hv).trans (hcounts r' s v hv).symm
  · obtain ⟨r, hr'⟩ := ht
    exact (hrange t).1 fun s v hv => by rw [hr']; exact hcounts r s v hv
  · rw [Matrix.add_apply, hubInter_off _ hst, zero_add, hubRest, Matrix.add_apply, Matrix.add_apply, hubSame_apply, if_neg hst, hubPot_apply, if_neg hst,
      zero_add, add_zero]

/-- C145 (fermions): on an open chain the numbers of particles of all species determine the lowest state: its energy occurs once, and
every arrangement of the particles has a probability that is not zero in it, whatever the signs of the hoppings, the interactions and
the potentials are. -/
theorem C145_chain (S : EigSolvers) (hS : EigContract S) (F : Fermions) (hI : InterOk F) (hr : RealParams F) (hn : 0 < F.nsites) (hc : OpenChain F)
    {ns : List (Option ℤ)} (hlen : ns.length = F.nspecies) (hf : Fits F.nsites ns) (ha : AllFixed ns) :
    ∃ P A w M, F.nProjector (some ns) = .ok P ∧ F.createH (some P) = .ok A ∧ diagList S A = .ok (w, M) ∧ M.rows = P.rows ∧ UniqueLowest w M := by
  obtain ⟨P, A, M, m, d, E, sel, V, H, h1, h2, h3, h4, h5, h6, h7, h8, h9, -, -, -, -, hC⟩ := chain_sector S hS F hI hr hn hc hlen hf ha
  exact ⟨P, A, _, M, h1, h3, h4, by rw [h5.1, h2.1], (unique_lowest hC h5 h6 h7 h8 h9).1⟩

/-- C145 (fermions, as made by the library): the Hubbard model on an open chain, with repulsion or attraction and hopping of either
sign. -/
theorem C145_lattice (S : EigSolvers) (hS : EigContract S) {n : ℕ} (hn : 0 < n) (hn' : n < 10 ^ 14) (U t mu : ℝ) (ht : t ≠ 0) :
    ∃ g F, createSquare n 1 0 0 true true = .ok g ∧
      fermionModel g ⟨[], fun _ => (U : ℂ)⟩ ⟨[], fun _ => (t : ℂ)⟩ ⟨[2], fun _ => (mu : ℂ)⟩ ⟨[], fun _ => ((0 : ℝ) : ℂ)⟩
        ⟨[], fun _ => ((0 : ℝ) : ℂ)⟩ 2 = .ok F ∧
      ∀ n1 n2 : ℕ, n1 ≤ n → n2 ≤ n → ∃ P A w M, F.nProjector (some [some (n1 : ℤ), some (n2 : ℤ)]) = .ok P ∧ F.createH (some P) = .ok A ∧
        diagList S A = .ok (w, M) ∧ M.rows = P.rows ∧ UniqueLowest w M := by
  obtain ⟨g, F, hg, hF, hN, hr, -⟩ := square_hubbard hn one_pos (by omega : n * 1 < 10 ^ 14) (o1 := true) (o2 := true) (fun _ => rfl) (fun _ => rfl) U t mu
  obtain ⟨p, hp, -, hall⟩ := fermionModel_square hn one_pos (by omega : n * 1 < 10 ^ 14) (fun _ => rfl) (fun _ => rfl) hg 2 U t 0 0 fun _ => mu
  obtain rfl : p.model g 2 = F := Except.ok.inj (hp.symm.trans hF)
  obtain ⟨hgn, hadj⟩ := chain_adjacency hn hn' (fun _ => rfl) hg
  have hN' : (p.model g 2).nsites = n := hgn
  refine ⟨g, _, hg, hF, fun n1 n2 h1 h2 => C145_chain S hS _ (Or.inl le_rfl) hr (by rw [hN']; exact hn) (fun i j s hij => ?_) rfl (fun v hv => ?_) ?_⟩
  · have k1 : Amplitude (p.model g 2) i j s = _ := ((hall i i.2 s s.2).2.2 j j.2).2.2
    have hi : (i : ℕ) < n := i.2.trans_eq hgn
    have hj : (j : ℕ) < n := j.2.trans_eq hgn
    obtain ⟨b1, b2⟩ := hadj i hi j hj
    rw [k1]
    have hij' : (j : ℕ) < i := hij
    constructor
    · intro h
      have : g.adjacency.e i j = 1 := b1.resolve_left fun e => h (by rw [e]; simp)
      obtain ⟨k, k1, k2⟩ := b2.1 this
      rw [k1 rfl] at k2
      omega
    · intro h
      rw [b2.2 ⟨0, fun _ => rfl, by omega⟩]
      simpa using ht
  · have : v = n1 ∨ v = n2 := by simpa using hv
    rw [hN']
    omega
  · simp [AllFixed]

end Chain

/-! ## Examples -/

/-- Three spins in fields along different directions. -/
noncomputable def threeIsing : Spins :=
  ⟨3, 1, fun _ _ => 0, fun _ _ => 0, fun i j => if i = j + 1 ∨ j = i + 1 then -3 else 1, fun i => if i = 0 then 0 else 1, fun i => if i = 0 then -2 else 0, fun _ => 4⟩

example (S : EigSolvers) (hS : EigContract S) : ∃ A w M, threeIsing.createH none = .ok A ∧ diagList S A = .ok (w, M) ∧ w.length = 8 ∧ UniqueLowest w M :=
  C145_ising S hS threeIsing rfl
    (by constructor <;> intros <;> simp only [threeIsing] <;> (try split_ifs) <;> simp)
    ⟨fun _ _ => rfl, fun _ _ => rfl⟩ fun i => by
      by_cases h : (i : ℕ) = 0
      · right; simp [threeIsing, h]
      · left; simp [threeIsing, h]

/-- Two species on a chain of three sites, with hoppings of both signs. -/
noncomputable def threeChain : Fermions :=
  ⟨3, 2, fun i j s => if i = j + 1 then (if s = 0 then 1 else -2) else 0, fun _ => -7, fun _ _ _ => 5, fun _ => 1, fun i _ => i, fun i j => i - j, fun _ _ => 0⟩

example (S : EigSolvers) (hS : EigContract S) : ∃ P A w M, threeChain.nProjector (some [some 2, some 1]) = .ok P ∧ threeChain.createH (some P) = .ok A ∧
    diagList S A = .ok (w, M) ∧ M.rows = P.rows ∧ UniqueLowest w M := by
  refine C145_chain S hS threeChain (Or.inl (le_refl 2)) ?_ (by decide) ?_ rfl (fun v hv => ?_) (by simp [AllFixed])
  · constructor <;> intros <;> simp only [threeChain] <;> (try split_ifs) <;> simp
  · intro i j s hij
    unfold Amplitude
    by_cases h : (i : ℕ) = j + 1
    · simp only [threeChain, h]
      split_ifs <;> simp
    · simp [threeChain, h]
  · have : v = 2 ∨ v = 1 := by simpa using hv
    rcases this with rfl | rfl <;> decide

end ED.Props
