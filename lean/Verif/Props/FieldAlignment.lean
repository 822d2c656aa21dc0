import Verif.Lemmas.PositiveAverage
import Verif.Props.UniqueGround

/-!
# Property C147: the directions in which fields and hoppings pull

Spins one half that are coupled along z point along the transverse field they feel, and on an open chain every bond lowers the kinetic
energy, at every temperature.
-/

namespace ED.Props

open Matrix ED.Geometry

/-! ## Specification -/

/-- The sign of a bond: the amplitude times the average of the hopping across the bond. It is positive when particles of the species can
move, and the average vanishes when the species is absent or fills the chain. -/
def BondSign (nsites : ℕ) (v : ℤ) (amplitude x : ℝ) : Prop := if 0 < v ∧ v < nsites then 0 < amplitude * x else x = 0

/-! ## Proofs -/

section

variable {ι : Type} [Fintype ι] [DecidableEq ι] [Basis ι] [Nonempty ι] {H : Matrix ι ι ℂ} {θ : ι → ℂ} {c : ι → ι → ℝ}

omit [DecidableEq ι] [Basis ι] [Nonempty ι] in
theorem expect_half (O : Matrix ι ι ℂ) (ψ : ι → ℂ) : (expect O ψ).re = 1 / 2 * (expect (O + Oᴴ) ψ).re := by
  have h : expect Oᴴ ψ = star (expect O ψ) := by
    unfold expect
    rw [star_dotProduct, star_mulVec, conjTranspose_conjTranspose, dotProduct_mulVec]
  have : expect (O + Oᴴ) ψ = expect O ψ + expect Oᴴ ψ := by
    unfold expect
    rw [Matrix.add_mulVec, dotProduct_add]
  rw [this, h, Complex.add_re, Complex.star_def, Complex.conj_re]
  ring

theorem canonical_scale {κ : Type} [Fintype κ] (T a : ℝ) (E v : κ → ℝ) : canonical T E (fun k => a * v k) = a * canonical T E v := by
  unfold canonical
  rw [mul_div_assoc', Finset.mul_sum]
  congr 1
  exact Finset.sum_congr rfl fun k _ => by ring

theorem canonical_lowest {m : ℕ} {E : Fin (m + 1) → ℝ} (hE : ∀ k, k ≠ 0 → E 0 < E k) (v : Fin (m + 1) → ℝ) : canonical 0 E v = v 0 := by
  have hb : ∀ k, boltz 0 E k = if k = 0 then 1 else 0 := fun k => by
    unfold boltz
    rw [if_pos rfl]
    by_cases hk : k = 0
    · subst hk
      rw [if_pos rfl, if_pos]
      intro l
      by_cases hl : l = 0
      · rw [hl]
      · exact (hE l hl).le
    · rw [if_neg hk, if_neg fun h => absurd (h 0) (not_le.2 (hE k hk))]
  unfold canonical
  simp [hb]

theorem connected_values (hC : Connected H θ c) (hH : H.IsHermitian) {M : Mat} {m : ℕ} {E : Fin (m + 1) → ℝ} {V : Matrix ι (Fin (m + 1)) ℂ} (hM : M.Is V)
    (h3 : Vᴴ * V = 1) (h4 : V * Vᴴ = 1) (h5 : H * V = V * diagonal fun k => (E k : ℂ)) (h6 : Monotone E) {O : Matrix ι ι ℂ} {o : ι → ι → ℝ}
    (hO : ∀ s t, O s t = (o s t : ℂ) * (θ s * star (θ t))) (hn : ∀ s t, 0 ≤ o s t) (hp : ∃ s t, 0 < o t s) {T : ℝ} (hT : 0 ≤ T) :
    0 < canonical T E fun k => (expect O (colOf V k)).re := by
  rcases hT.eq_or_lt with rfl | hT
  · obtain ⟨⟨e, rest, u1, u2, u3⟩, z, hz, hv⟩ := unique_lowest hC hM h3 h4 h5 h6
    rw [List.ofFn_succ, List.cons.injEq] at u1
    have hE : ∀ k, k ≠ 0 → E 0 < E k := fun k hk => by
      rw [u1.1]
      obtain ⟨l, rfl⟩ := Fin.exists_succ_eq.2 hk
      refine u2 _ ?_
      rw [← u1.2]
      exact List.mem_ofFn.2 ⟨l, rfl⟩
    have hne : ∀ s, 0 < ‖V s 0‖ := fun s => norm_pos_iff.2 fun e => by
      have := hM.2.2 s 0
      rw [show Basis.num (0 : Fin (m + 1)) = 0 from rfl, e] at this
      exact u3 _ (by rw [hM.1]; exact Basis.lt s) this
    rw [canonical_lowest hE, expect, expect_positive hC.phase hO hn hz (v := colOf V 0) hv]
    obtain ⟨s, t, hs⟩ := hp
    have hnn : ∀ s t, 0 ≤ ‖colOf V 0 s‖ * ‖colOf V 0 t‖ * o s t := fun s t => mul_nonneg (by positivity) (hn s t)
    refine Finset.sum_pos' (fun s _ => Finset.sum_nonneg fun t _ => hnn s t) ⟨t, Finset.mem_univ t, ?_⟩
    exact Finset.sum_pos' (fun r _ => hnn t r) ⟨s, Finset.mem_univ s, mul_pos (mul_pos (hne t) (hne s)) hs⟩
  · rw [← thermalAvg_eig h3 h4 h5 O hT.ne']
    obtain ⟨s, t, hs⟩ := hp
    exact (hC.gauged.average hH hT hO hn).2 ⟨s, t, hC.conn s t, hs⟩

end

section Spins

open Classical in
theorem field_entries {n : ℕ} (hx hy : Fin n → ℝ) (ht : ∀ i, hx i ≠ 0 ∨ hy i ≠ 0) (i : Fin n) (s t : Conf n 2) :
    ((hx i : ℂ) • siteOp (sxM 1) i + (hy i : ℂ) • siteOp (syM 1) i : Op n 2) s t =
      ((if AgreeOff i s t ∧ s ≠ t then Real.sqrt (hx i ^ 2 + hy i ^ 2) / 2 else 0 : ℝ) : ℂ) *
        (confPhase (fun i => fieldPhase (hx i) (hy i)) s * star (confPhase (fun i => fieldPhase (hx i) (hy i)) t)) := by
  have hφ := fun i => fieldPhase_norm (ht i)
  have hp : 0 < hx i ^ 2 + hy i ^ 2 := by
    rcases ht i with h | h
    · have := sq_pos_of_ne_zero h
      have := sq_nonneg (hy i)
      linarith
    · have := sq_pos_of_ne_zero h
      have := sq_nonneg (hx i)
      linarith
  rw [Matrix.add_apply, Matrix.smul_apply, Matrix.smul_apply]
  by_cases h : AgreeOff i s t
  · rw [siteOp, siteOp, of_apply, of_apply, if_pos h, if_pos h]
    by_cases hst : s = t
    · subst hst
      have e1 : ∀ a, sxM 1 a a = 0 := fun a => by fin_cases a <;> simp [sxM, spM, smM]
      have e2 : ∀ a, syM 1 a a = 0 := fun a => by fin_cases a <;> simp [syM, spM, smM]
      rw [if_neg fun h' => h'.2 rfl, e1, e2]
      simp
    · rw [if_pos ⟨h, hst⟩, confPhase_mul hφ h]
      have hne : s i ≠ t i := fun e => hst (funext fun k => by
        by_cases hk : k = i
        · rw [hk, e]
        · exact h k hk)
      have hr : ((Real.sqrt (hx i ^ 2 + hy i ^ 2) : ℝ) : ℂ) ≠ 0 := by exact_mod_cast (Real.sqrt_pos.2 hp).ne'
      have hcases : (s i = 1 ∧ t i = 0) ∨ (s i = 0 ∧ t i = 1) := by omega
      rcases hcases with ⟨h1, h2⟩ | ⟨h1, h2⟩
      · rw [h1, h2]
        have e1 : sxM 1 1 0 = 1 / 2 := by simp [sxM, spM, smM]
        have e2 : syM 1 1 0 = -Complex.I / 2 := by simp [syM, spM, smM]; ring
        rw [e1, e2, if_pos rfl, if_neg (by decide), star_one, mul_one, fieldPhase]
        push_cast
        simp only [smul_eq_mul]
        field_simp
        ring
      · rw [h1, h2]
        have e1 : sxM 1 0 1 = 1 / 2 := by simp [sxM, spM, smM]
        have e2 : syM 1 0 1 = Complex.I / 2 := by simp [syM, spM, smM]; ring
        rw [e1, e2, if_pos rfl, if_neg (by decide), one_mul, fieldPhase, star_div₀, star_sub, star_mul', Complex.star_def, Complex.conj_ofReal, Complex.conj_ofReal,
          Complex.conj_ofReal, Complex.conj_I]
        push_cast
        simp only [smul_eq_mul]
        field_simp
        ring
  · rw [if_neg fun h' => h h'.1, siteOp, siteOp, of_apply, of_apply, if_neg h, if_neg h]
    simp

open Classical in
theorem field_positive {n k : ℕ} (jz : Fin n → Fin n → ℂ) (hx hy : Fin n → ℝ) (hz : Fin n → ℂ) (ht : ∀ i, hx i ≠ 0 ∨ hy i ≠ 0) {H : Op n 2}
    (hH : H.IsHermitian) (e : H = heis (sxM 1) (syM 1) (szM 1) (fun _ _ => 0) (fun _ _ => 0) jz (fun i => (hx i : ℂ)) (fun i => (hy i : ℂ)) hz)
    {M : Mat} {E : Fin (k + 1) → ℝ} {V : Matrix (Conf n 2) (Fin (k + 1)) ℂ} (hM : M.Is V) (h3 : Vᴴ * V = 1) (h4 : V * Vᴴ = 1)
    (h5 : H * V = V * diagonal fun k => (E k : ℂ)) (h6 : Monotone E) (i : Fin n) {T : ℝ} (hT : 0 ≤ T) :
    0 < hx i * canonical T E (fun k => (expect (siteOp (sxM 1) i) (colOf V k)).re) + hy i * canonical T E (fun k => (expect (siteOp (syM 1) i) (colOf V k)).re) := by
  have hC := ising_connected jz hx hy hz ht
  rw [← e] at hC
  have hlin : ∀ k, (expect ((hx i : ℂ) • siteOp (sxM 1) i + (hy i : ℂ) • siteOp (syM 1) i : Op n 2) (colOf V k)).re =
      hx i * (expect (siteOp (sxM 1) i) (colOf V k)).re + hy i * (expect (siteOp (syM 1) i) (colOf V k)).re := fun k => by
    unfold expect
    rw [Matrix.add_mulVec, dotProduct_add, Matrix.smul_mulVec, Matrix.smul_mulVec, dotProduct_smul, dotProduct_smul, smul_eq_mul, smul_eq_mul, Complex.add_re,
      Complex.re_ofReal_mul, Complex.re_ofReal_mul]
  have hsum : canonical T E (fun k => (expect ((hx i : ℂ) • siteOp (sxM 1) i + (hy i : ℂ) • siteOp (syM 1) i : Op n 2) (colOf V k)).re) =
      hx i * canonical T E (fun k => (expect (siteOp (sxM 1) i) (colOf V k)).re) + hy i * canonical T E (fun k => (expect (siteOp (syM 1) i) (colOf V k)).re) := by
    rw [← canonical_scale, ← canonical_scale]
    simp only [hlin]
    unfold canonical
    rw [← add_div, ← Finset.sum_add_distrib]
    congr 1
    exact Finset.sum_congr rfl fun k _ => by ring
  rw [← hsum]
  have hp : 0 < hx i ^ 2 + hy i ^ 2 := by
    rcases ht i with h | h
    · have := sq_pos_of_ne_zero h
      have := sq_nonneg (hy i)
      linarith
    · have := sq_pos_of_ne_zero h
      have := sq_nonneg (hx i)
      linarith
  have hpos := Real.sqrt_pos.2 hp
  refine connected_values hC hH hM h3 h4 h5 h6 (field_entries hx hy ht i) (fun s t => ?_) ?_ hT
  · split_ifs
    · positivity
    · exact le_rfl
  · have hne : (fun _ => 0 : Conf n 2) ≠ Function.update (fun _ => 0) i 1 := fun e => by
      have := congrFun e i
      rw [Function.update_self] at this
      exact absurd this (by decide)
    have hag : AgreeOff i (fun _ => 0 : Conf n 2) (Function.update (fun _ => 0) i 1) := fun k hk => by rw [Function.update_of_ne hk]
    refine ⟨fun _ => 0, Function.update (fun _ => 0) i 1, ?_⟩
    rw [if_pos ⟨fun k hk => (hag k hk).symm, hne.symm⟩]
    linarith

/-- C147 (spins): spins one half with couplings along z point along the transverse part of the field at their site, whatever the
couplings, the fields along z and the fields at other sites are. -/
theorem C147_field (S : EigSolvers) (hS : EigContract S) (F : Spins) (h1 : F.twoS = 1) (hr : RealCouplings F) (hI : Ising F) (ht : Transverse F) :
    ∃ A w M X Y, F.createH none = .ok A ∧ diagList S A = .ok (w, M) ∧ getSx F.twoS = .ok X ∧ getSy F.twoS = .ok Y ∧
      ∃ x y : Fin F.nsites → ℝ → ℝ, SiteAverages F w M X x ∧ SiteAverages F w M Y y ∧
        ∀ (i : Fin F.nsites) (T : ℝ), 0 ≤ T → 0 < (F.hx i).re * x i T + (F.hy i).re * y i T := by
  obtain ⟨n, b, jx, jy, jz, hx, hy, hz⟩ := F
  simp only at h1
  subst h1
  set F : Spins := ⟨n, 1, jx, jy, jz, hx, hy, hz⟩ with hF
  obtain ⟨A, hA, hAi⟩ := spin_createH F (.inl rfl)
  have hH := spins_hermitian hr
  obtain ⟨k, E, M, V, p0, p1, p2, p3, p4, p5⟩ := diagList_ok S hS hAi hH
  obtain ⟨X, hX, hXi⟩ := getSx_gives 1
  obtain ⟨Y, hY, hYi⟩ := getSy_gives 1
  obtain ⟨a1, -⟩ := averages_all F p1 p5 (X := sxM 1) (Y := sxM 1) hXi hXi
  obtain ⟨a2, -⟩ := averages_all F p1 p5 (X := syM 1) (Y := syM 1) hYi hYi
  refine ⟨A, _, M, X, Y, hA, p0, hX, hY, _, _, a1 rfl, a2 rfl, fun i T hT => ?_⟩
  have rx : ∀ i : Fin n, ((hx i).re : ℂ) = hx i := fun i => Complex.conj_eq_iff_re.1 (hr.hx i)
  have ry : ∀ i : Fin n, ((hy i).re : ℂ) = hy i := fun i => Complex.conj_eq_iff_re.1 (hr.hy i)
  have ht' : ∀ i : Fin n, (hx i).re ≠ 0 ∨ (hy i).re ≠ 0 := fun i => by
    refine (ht i).imp (fun h e => h ?_) fun h e => h ?_
    · change hx i = 0
      rw [← rx, e, Complex.ofReal_zero]
    · change hy i = 0
      rw [← ry, e, Complex.ofReal_zero]
  refine field_positive (fun i j : Fin n => jz i j) (fun i => (hx i).re) (fun i => (hy i).re) (fun i => hz i) ht' hH ?_ p1 p2 p3 p4 p5 i hT
  have e1 : (fun i j : Fin n => jx i j) = fun _ _ => 0 := by funext i j; exact hI.jx i j
  have e2 : (fun i j : Fin n => jy i j) = fun _ _ => 0 := by funext i j; exact hI.jy i j
  simp only [rx, ry]
  change heis (sxM 1) (syM 1) (szM 1) (fun i j : Fin n => jx i j) (fun i j : Fin n => jy i j) (fun i j : Fin n => jz i j) (fun i => hx i) (fun i => hy i)
    (fun i => hz i) = _
  rw [e1, e2]

end Spins

section Chain

/-- What the averages of hopping are, in terms of energies and eigenstates in a projected space. -/
theorem hopping_proj (F : Fermions) {κ : Type} [Fintype κ] [DecidableEq κ] [Basis κ] {m : ℕ} {E : Fin (m + 1) → ℝ} {M P : Mat}
    {V : Matrix κ (Fin (m + 1)) ℂ} {Pm : Matrix κ (Conf (F.nsites * F.nspecies) 2) ℂ} (hM : M.Is V) (hP : P.Is Pm) (hE : Monotone E)
    (s : Fin F.nspecies) (temps : List ℝ) (hT : ∀ T ∈ temps, T ≠ 0 ∨ GappedList (List.ofFn E)) (pairs : List (Fin F.nsites × Fin F.nsites)) :
    thermalCorrSites F.sys M (List.ofFn E) s s cdagOp cOp temps (some (pairs.map fun q : Fin F.nsites × Fin F.nsites => ((q.1 : ℕ), (q.2 : ℕ)))) (some P) "fermion" =
      .ok (pairs.map fun q => temps.map fun T => canonical T E fun k =>
        (expect (Pm * (create (mode q.1 s) * annih (mode q.2 s)) * Pmᴴ) (colOf V k)).re, pairs.map fun q : Fin F.nsites × Fin F.nsites => ((q.1 : ℕ), (q.2 : ℕ))) := by
  unfold thermalCorrSites
  simp only [Option.getD_some]
  rw [List.mapM_map, mapM_ok _ _ (fun q : Fin F.nsites × Fin F.nsites => temps.map fun T => canonical T E fun k =>
    (expect (Pm * (create (mode q.1 s) * annih (mode q.2 s)) * Pmᴴ) (colOf V k)).re)]
  · rfl
  · intro q _
    obtain ⟨X, hX, hXi⟩ := F_hop F q.1 q.2 s s
    change (getTwoSiteOp F.sys q.1 s q.2 s cdagOp cOp "fermion" >>= _) = _
    rw [hX]
    change (sandwich 1 _ X >>= _) = _
    obtain ⟨Y, hY, hYi⟩ := sandwich_gives hP hXi 1
    rw [hY]
    change expValsThermalList M Y _ temps = _
    unfold expValsThermalList
    refine mapM_ok _ _ _ fun T hTm => ?_
    rw [one_smul] at hYi
    refine C19_canonical hM hYi E T ((hT T hTm).imp id fun hg => ⟨hE, fun k l => hg _ ?_ _ ?_⟩)
    · exact List.mem_ofFn.2 ⟨k, rfl⟩
    · exact List.mem_ofFn.2 ⟨l, rfl⟩

/-- A permutation with two given values. -/
theorem exists_perm_two {α : Type} [DecidableEq α] {i j k l : α} (hij : i ≠ j) (hkl : k ≠ l) : ∃ π : Equiv.Perm α, π i = k ∧ π j = l := by
  refine ⟨(Equiv.swap i k).trans (Equiv.swap (Equiv.swap i k j) l), ?_, ?_⟩
  · have h : k ≠ Equiv.swap i k j := fun e => hij ((Equiv.swap i k).injective (by rw [Equiv.swap_apply_left]; exact e))
    rw [Equiv.trans_apply, Equiv.swap_apply_left, Equiv.swap_apply_of_ne_of_ne h hkl]
  · rw [Equiv.trans_apply, Equiv.swap_apply_left]

/-- Sites of one species can be emptied and filled at will, as long as the number of particles allows it. -/
theorem exists_occupied {a b : ℕ} (t : Conf (a * b) 2) (σ : Fin b) (h0 : 0 < speciesCount t σ) (h1 : speciesCount t σ < a) {i j : Fin a} (hij : i ≠ j) :
    ∃ t' : Conf (a * b) 2, (∀ τ, speciesCount t' τ = speciesCount t τ) ∧ t' (mode i σ) = 1 ∧ t' (mode j σ) = 0 := by
  obtain ⟨k, hk⟩ := Finset.card_pos.1 h0
  have hk' := (Finset.mem_filter.1 hk).2
  obtain ⟨l, hl⟩ : ∃ l, t (mode l σ) ≠ 1 := by
    by_contra hcon
    push Not at hcon
    have : speciesCount t σ = a := by
      unfold speciesCount
      rw [Finset.filter_true_of_mem fun i _ => hcon i, Finset.card_univ, Fintype.card_fin]
    omega
  have hkl : k ≠ l := fun e => hl (e ▸ hk')
  obtain ⟨π, p1, p2⟩ := exists_perm_two hij hkl
  have hm : ∀ (m : Fin a) (τ : Fin b), (modeEquiv a b).symm (mode m τ) = (τ, m) := fun m τ => (modeEquiv a b).symm_apply_eq.2 rfl
  refine ⟨fun q => t (mode (π ((modeEquiv a b).symm q).2) ((modeEquiv a b).symm q).1), fun τ => ?_, ?_, ?_⟩
  · unfold speciesCount
    simp only [hm]
    refine Finset.card_bij (fun m _ => π m) (fun m hm => ?_) (fun m _ m' _ e => π.injective e) fun m hm => ⟨π.symm m, ?_, by simp⟩
    · simpa using hm
    · simpa using hm
  · simp only [hm]
    rw [p1, hk']
  · simp only [hm]
    rw [p2]
    omega

/-- C147 (fermions): on an open chain with given numbers of particles the hopping across every bond follows the sign of its amplitude, at
every temperature and for all interactions and potentials; it vanishes only for species that are absent or fill the chain. -/
theorem C147_bonds (S : EigSolvers) (hS : EigContract S) (F : Fermions) (hI : InterOk F) (hr : RealParams F) (hn : 0 < F.nsites) (hc : OpenChain F)
    {ns : List (Option ℤ)} (hlen : ns.length = F.nspecies) (hf : Fits F.nsites ns) (ha : AllFixed ns) :
    ∃ P A w M, F.nProjector (some ns) = .ok P ∧ F.createH (some P) = .ok A ∧ diagList S A = .ok (w, M) ∧
      ∀ (s : Fin F.nspecies) (v : ℤ) (i j : Fin F.nsites), ns[s]? = some (some v) → (i : ℕ) = j + 1 → ∀ T : ℝ, 0 < T ∨ (T = 0 ∧ GappedList w) →
        ∃ x, thermalCorrSites F.sys M w s s cdagOp cOp [T] (some [((i : ℕ), (j : ℕ))]) (some P) "fermion" = .ok ([[x]], [((i : ℕ), (j : ℕ))]) ∧
          BondSign F.nsites v (Amplitude F i j s).re x := by
  classical
  obtain ⟨P, A, M, m, d, E, sel, V, H, h1, h2, h3, h4, h5, h6, h7, h8, h9, hH, hinj, hcount, hall, hC⟩ := chain_sector S hS F hI hr hn hc hlen hf ha
  refine ⟨P, A, _, M, h1, h3, h4, fun s v i j hv hij T hT => ?_⟩
  have hT0 : T ≠ 0 ∨ GappedList (List.ofFn E) := hT.imp (fun h => h.ne') fun h => h.2
  have hTn : 0 ≤ T := hT.elim le_of_lt fun h => h.1.ge
  refine ⟨_, hopping_proj F h5 h2 h9 s [T] (by simpa using hT0) [(i, j)], ?_⟩
  simp only
  rw [select_conj]
  set O : Matrix (Fin (d + 1)) (Fin (d + 1)) ℂ := (create (mode i s) * annih (mode j s) : Op (F.nsites * F.nspecies) 2).submatrix sel sel with hO
  have hsum : O + Oᴴ = (create (mode i s) * annih (mode j s) + create (mode j s) * annih (mode i s) : Op (F.nsites * F.nspecies) 2).submatrix sel sel := by
    rw [hO, conjTranspose_submatrix, conjTranspose_mul, annih_star, create_star]
    rfl
  have hent : ∀ r r', (O + Oᴴ) r r' = if Moves2 (mode i s) (mode j s) (sel r) (sel r') then 1 else 0 := fun r r' => by
    rw [hsum, submatrix_apply, hop_moves (mode_next hij s)]
  have hhalf : ∀ k, (expect O (colOf V k)).re = 1 / 2 * (expect (O + Oᴴ) (colOf V k)).re := fun k => expect_half O _
  simp only [hhalf]
  rw [canonical_scale]
  unfold BondSign
  split_ifs with hvn
  · have hα : Amplitude F (j + 1) j s = Amplitude F i j s := by rw [hij]
    set α : ℝ := (Amplitude F i j s).re with hαdef
    set τ : ℕ → ℕ → ℝ := fun s j => (Amplitude F (j + 1) j s).re with hτ
    have hτα : τ s j = α := by rw [hτ, hαdef, ← hα]
    set χ : Fin (F.nsites * F.nspecies) → ℤ := chainModeSign τ with hχdef
    have hχ : ∀ k, χ k * χ k = 1 := fun k => chainSign_sq _ _
    have hαχ : α = |α| * ((χ (mode i s) * χ (mode j s) : ℤ) : ℝ) := by
      have := chainSign_mul (τ s) j
      rw [hχdef, chainModeSign_mode, chainModeSign_mode, hij, ← hτα]
      exact this
    have hα0 : 0 < |α| := by
      refine abs_pos.2 fun e => (hc i j s (Fin.lt_def.2 (by omega))).2 hij ?_
      have h : ((F.ts i j s).re : ℂ) = F.ts i j s := Complex.conj_eq_iff_re.1 (hr.ts i j s)
      rw [hαdef] at e
      unfold Amplitude at e ⊢
      rw [← h, ← Complex.ofReal_mul, Complex.ofReal_re] at e
      rw [← h, ← Complex.ofReal_mul, e, Complex.ofReal_zero]
    have hsgn : ∀ r r', (((χ (mode i s) * χ (mode j s) : ℤ) : ℂ) • (O + Oᴴ)) r r' =
        ((if Moves2 (mode i s) (mode j s) (sel r) (sel r') then 1 else 0 : ℝ) : ℂ) * (occSign χ (sel r) * star (occSign χ (sel r'))) := fun r r' => by
      have hs0 : signOp χ * (create (mode i s) * annih (mode j s) + create (mode j s) * annih (mode i s)) * signOp χ =
          ((χ (mode i s) * χ (mode j s) : ℤ) : ℂ) • (create (mode i s) * annih (mode j s) + create (mode j s) * annih (mode i s)) := by
        rw [Matrix.mul_add, Matrix.add_mul, signOp_hop hχ, signOp_hop hχ, mul_comm (χ (mode j s)), smul_add]
      have hs := congrFun (congrFun hs0 (sel r)) (sel r')
      rw [signOp, mul_diagonal, diagonal_mul] at hs
      rw [hsum, Matrix.smul_apply, submatrix_apply, ← Matrix.smul_apply, ← hs, hop_moves (mode_next hij s), star_occSign]
      split_ifs
      · push_cast; ring
      · push_cast; ring
    have hval := connected_values hC hH h5 h6 h7 h8 h9 hsgn (fun r r' => by split_ifs <;> norm_num) ?_ hTn
    · have hre : ∀ k, (expect (((χ (mode i s) * χ (mode j s) : ℤ) : ℂ) • (O + Oᴴ)) (colOf V k)).re =
          ((χ (mode i s) * χ (mode j s) : ℤ) : ℝ) * (expect (O + Oᴴ) (colOf V k)).re := fun k => by
        unfold expect
        rw [Matrix.smul_mulVec, dotProduct_smul, smul_eq_mul, ← Complex.ofReal_intCast, Complex.re_ofReal_mul]
      simp only [hre] at hval
      rw [canonical_scale] at hval
      rw [hαχ, mul_left_comm, mul_assoc]
      have := mul_pos hα0 hval
      linarith
    · have h0 := hcount 0 s v hv
      obtain ⟨t, t1, t2, t3⟩ := exists_occupied (sel 0) s (by omega) (by omega) (show i ≠ j from fun e => by rw [e] at hij; omega)
      obtain ⟨r, rfl⟩ := hall t fun τ => ⟨0, t1 τ⟩
      obtain ⟨m1, -⟩ := spread_lt (mode_next hij s) t2 t3
      have m2 : Step (sel r) _ := ⟨s, i, j, hij, m1⟩
      obtain ⟨r', hr'⟩ := hall _ fun τ => ⟨r, (m2.count τ).symm⟩
      rw [← hr'] at m1
      refine ⟨r, r', ?_⟩
      rw [if_pos m1.symm]
      exact one_pos
  · have hz : O + Oᴴ = 0 := by
      ext r r'
      rw [hent, if_neg, Matrix.zero_apply]
      rintro ⟨-, -, -, hm⟩
      have hcnt := hcount r' s v hv
      have hle : speciesCount (sel r') s ≤ F.nsites := by
        unfold speciesCount
        exact (Finset.card_le_univ _).trans_eq (Fintype.card_fin _)
      have hcase : speciesCount (sel r') s = 0 ∨ speciesCount (sel r') s = F.nsites := by
        push Not at hvn
        rcases Nat.eq_zero_or_pos (speciesCount (sel r') s) with h | h
        · exact Or.inl h
        · have := hvn (by omega)
          right
          omega
      rcases hcase with h | h
      · have hemp : ∀ k : Fin F.nsites, sel r' (mode k s) ≠ 1 := fun k hk => by
          have : k ∈ Finset.univ.filter fun i : Fin F.nsites => sel r' (mode i s) = 1 := Finset.mem_filter.2 ⟨Finset.mem_univ k, hk⟩
          rw [Finset.card_eq_zero.1 h] at this
          simp at this
        have q1 := hemp i
        have q2 := hemp j
        omega
      · have hful : ∀ k : Fin F.nsites, sel r' (mode k s) = 1 := fun k => by
          have : (Finset.univ.filter fun i : Fin F.nsites => sel r' (mode i s) = 1) = Finset.univ :=
            (Finset.card_eq_iff_eq_univ _).1 (by rw [Fintype.card_fin]; exact h)
          have hk : k ∈ Finset.univ.filter fun i : Fin F.nsites => sel r' (mode i s) = 1 := by rw [this]; exact Finset.mem_univ k
          exact (Finset.mem_filter.1 hk).2
        exact hm (by rw [hful, hful])
    rw [hz]
    simp [expect, canonical]

end Chain

/-! ## Examples -/

example (S : EigSolvers) (hS : EigContract S) : ∃ A w M X Y, threeIsing.createH none = .ok A ∧ diagList S A = .ok (w, M) ∧
    getSx 1 = .ok X ∧ getSy 1 = .ok Y ∧ ∃ x y : Fin 3 → ℝ → ℝ, SiteAverages threeIsing w M X x ∧ SiteAverages threeIsing w M Y y ∧
      ∀ T, 0 ≤ T → y 0 T < 0 ∧ 0 < x 1 T := by
  obtain ⟨A, w, M, X, Y, h1, h2, h3, h4, x, y, h5, h6, h7⟩ := C147_field S hS threeIsing rfl
    (by constructor <;> intros <;> simp only [threeIsing] <;> (try split_ifs) <;> simp)
    ⟨fun _ _ => rfl, fun _ _ => rfl⟩ fun i => by
      by_cases h : (i : ℕ) = 0
      · right; simp [threeIsing, h]
      · left; simp [threeIsing, h]
  refine ⟨A, w, M, X, Y, h1, h2, h3, h4, x, y, h5, h6, fun T hT => ⟨?_, ?_⟩⟩
  · have := h7 ⟨0, by decide⟩ T hT
    have e : (⟨0, by decide⟩ : Fin threeIsing.nsites) = (0 : Fin 3) := rfl
    rw [e] at this
    simp [threeIsing] at this
    linarith
  · have := h7 ⟨1, by decide⟩ T hT
    have e : (⟨1, by decide⟩ : Fin threeIsing.nsites) = (1 : Fin 3) := rfl
    rw [e] at this
    simpa [threeIsing] using this

/-- Hopping of the second species, which has an amplitude with the other sign, between the first two sites. -/
example (S : EigSolvers) (hS : EigContract S) : ∃ P A w M, threeChain.nProjector (some [some 2, some 1]) = .ok P ∧ threeChain.createH (some P) = .ok A ∧
    diagList S A = .ok (w, M) ∧ ∀ T : ℝ, 0 < T → ∃ x, x < 0 ∧
      thermalCorrSites threeChain.sys M w 1 1 cdagOp cOp [T] (some [(1, 0)]) (some P) "fermion" = .ok ([[x]], [(1, 0)]) := by
  obtain ⟨P, A, w, M, h1, h2, h3, h4⟩ := C147_bonds S hS threeChain (Or.inl (le_refl 2))
    (by constructor <;> intros <;> simp only [threeChain] <;> (try split_ifs) <;> simp) (by decide)
    (fun i j s hij => by
      unfold Amplitude
      by_cases h : (i : ℕ) = j + 1
      · simp only [threeChain, h]
        split_ifs <;> simp
      · simp [threeChain, h]) (ns := [some 2, some 1]) rfl
    (fun v hv => by
      have : v = 2 ∨ v = 1 := by simpa using hv
      rcases this with rfl | rfl <;> decide) (by simp [AllFixed])
  refine ⟨P, A, w, M, h1, h2, h3, fun T hT => ?_⟩
  obtain ⟨x, x1, x2⟩ := h4 ⟨1, by decide⟩ 1 ⟨1, by decide⟩ ⟨0, by decide⟩ rfl rfl T (Or.inl hT)
  refine ⟨x, ?_, x1⟩
  unfold BondSign at x2
  rw [if_pos (by decide)] at x2
  simp [Amplitude, threeChain] at x2
  linarith

end ED.Props
