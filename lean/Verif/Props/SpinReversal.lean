import Verif.Props.Repulsion
import Verif.Props.Sublattice
import Verif.Props.Snapshots

/-!
# Property C152: ferromagnets and antiferromagnets evolve alike

From states with real amplitudes, averages evolve in the same way if all couplings and fields change their signs; on two sublattices also if
only those along z do.
-/

namespace ED.Props

open Matrix

/-! ## Specification -/

/-- All couplings and fields with the opposite signs. -/
def AllReversed (F : Spins) : Spins :=
  { F with
    jx := fun i j => -F.jx i j, jy := fun i j => -F.jy i j, jz := fun i j => -F.jz i j
    hx := fun i => -F.hx i, hy := fun i => -F.hy i, hz := fun i => -F.hz i }

/-- Couplings and fields along z with the opposite signs. -/
def AxisReversed (F : Spins) : Spins := { F with jz := fun i j => -F.jz i j, hz := fun i => -F.hz i }

/-- The number of reversed spins on the sites of the first colour. -/
def downCount {n : ℕ} (c : Fin n → Bool) (t : Conf n 2) : ℕ := ∑ i : Fin n, if c i = true ∧ t i = 1 then 1 else 0

/-- Averages of a component of each spin in the two lists of states agree up to the sign. -/
def SameSpins (F : Spins) (o : Mat) (sign : ℝ) (states states' : Mat) : Prop :=
  ∀ i : Fin F.nsites, ∃ X d, getSingleSiteOp F.sys i 0 o "boson" = .ok X ∧ getExpVals states X = .ok d ∧ getExpVals states' X = .ok (d.map (sign * ·))

/-- Averages of products of a component of two spins in the two lists of states agree. -/
def SamePairs (F : Spins) (o : Mat) (states states' : Mat) : Prop :=
  ∀ i j : Fin F.nsites, i ≠ j → ∃ X d, getTwoSiteOp F.sys i 0 j 0 o o "boson" = .ok X ∧ getExpVals states X = .ok d ∧ getExpVals states' X = .ok d

/-! ## Proofs -/

section Generic

variable {ι : Type} [Fintype ι] [DecidableEq ι] [Basis ι]

/-- All entries are imaginary. -/
def ImagEntries (A : Matrix ι ι ℂ) : Prop := ∀ i j, star (A i j) = -A i j

theorem ImagEntries.mul {A B : Matrix ι ι ℂ} (hA : ImagEntries A) (hB : ImagEntries B) : RealEntries (A * B) := fun i j => by
  rw [Matrix.mul_apply, star_sum]
  exact Finset.sum_congr rfl fun k _ => by rw [star_mul', hA, hB, neg_mul_neg]

theorem expect_imag {O : Matrix ι ι ℂ} (hO : ImagEntries O) (φ : ι → ℂ) : (expect O (star φ)).re = -(expect O φ).re := by
  have h : RealEntries (Complex.I • O) := fun i j => by
    rw [Matrix.smul_apply, smul_eq_mul, star_mul', hO, Complex.star_def, Complex.conj_I, neg_mul_neg]
  have e : expect O (star φ) = -star (expect O φ) := by
    have h1 : star (O *ᵥ φ) = -(O *ᵥ star φ) := by
      funext i
      rw [Pi.star_apply, Pi.neg_apply]
      unfold Matrix.mulVec dotProduct
      rw [star_sum, ← Finset.sum_neg_distrib]
      exact Finset.sum_congr rfl fun j _ => by rw [star_mul', hO, Pi.star_apply, neg_mul]
    unfold expect
    rw [star_star, ← star_dotProduct_star, star_star, h1, neg_dotProduct, neg_neg]
    exact dotProduct_comm _ _
  rw [e, Complex.neg_re, Complex.star_def, Complex.conj_re]

/-- Two evolutions that are related by a sign operator. -/
theorem evolve_pair (S : EigSolvers) (hS : EigContract S) (hd : 2 ≤ Fintype.card ι) {A A' : Mat} {H H' W : Matrix ι ι ℂ} (hAi : A.Is H) (hAi' : A'.Is H')
    (hH : H.IsHermitian) (hH' : H'.IsHermitian) (hre' : RealEntries H') (hW : RealEntries W) (hWs : Wᴴ = W) (hWW : W * W = 1) (hconj : W * H * W = -H') :
    ∃ w M w' M', diagList S A = .ok (w, M) ∧ diagList S A' = .ok (w', M') ∧
      ∀ (init : Mat) (ψ : ι → ℂ), init.Is (Matrix.of fun i (_ : Fin 1) => ψ i) → (W *ᵥ star ψ = ψ ∨ W *ᵥ star ψ = -ψ) → ∀ times : List ℝ,
        ∃ ev ev' : ND ℂ, quenchTimeEvolve init M w times = .ok ev ∧ quenchTimeEvolve init M' w' times = .ok ev' ∧ ∀ (X : Mat) (O : Matrix ι ι ℂ), X.Is O →
          (RealEntries O → W * O * W = O → ∃ d, getExpVals ev.asMat X = .ok d ∧ getExpVals ev'.asMat X = .ok d) ∧
          (ImagEntries O → W = 1 → ∃ d, getExpVals ev.asMat X = .ok d ∧ getExpVals ev'.asMat X = .ok (d.map (-1 * ·))) := by
  haveI : Nonempty ι := Fintype.card_pos_iff.1 (by omega)
  obtain ⟨m, E, M, V, d1, d2, d3, d4, d5, -⟩ := diagList_ok S hS hAi hH
  obtain ⟨m', E', M', V', d1', d2', d3', d4', d5', -⟩ := diagList_ok S hS hAi' hH'
  obtain ⟨ev, v1, v2, -, -, -, v6⟩ := C22_evolution_partial E hd d2 d3 d4 d5
  obtain ⟨ev', v1', v2', -, -, -, v6'⟩ := C22_evolution_partial E' hd d2' d3' d4' d5'
  refine ⟨_, M, _, M', d1, d1', fun init ψ hi hψ times => ?_⟩
  obtain ⟨a, a1, a2, a3⟩ := v1 init ψ times hi
  obtain ⟨a', a1', a2', a3'⟩ := v1' init ψ times hi
  have key : ∀ t, ev t ψ = W *ᵥ star (ev' t ψ) ∨ ev t ψ = (-W) *ᵥ star (ev' t ψ) := fun t => by
    rcases hψ with h | h
    · exact .inl (evolution_opposite hH hre' hW hWW hconj (f := fun t => ev t ψ) (g := fun t => ev' t ψ) (fun t i => v6 t ψ i) (fun t i => v6' t ψ i)
        (by rw [v2, v2', h]) t)
    · exact .inr (evolution_opposite hH hre' hW.neg (by rw [neg_mul_neg, hWW]) (by rw [neg_mul, neg_mul_neg, hconj]) (f := fun t => ev t ψ) (g := fun t => ev' t ψ) (fun t i => v6 t ψ i)
        (fun t i => v6' t ψ i) (by rw [v2, v2', neg_mulVec, h, neg_neg]) t)
  refine ⟨a, a', a1, a1', fun X O hX => ⟨fun hO hWO => ?_, fun hO h1 => ?_⟩⟩
  · refine ⟨_, expVals_states (f := fun t => ev t ψ) a2 a3 hX, (expVals_states (f := fun t => ev' t ψ) a2' a3' hX).trans ?_⟩
    refine congrArg Except.ok (List.map_congr_left fun t _ => ?_)
    rcases key t with h | h <;> rw [h]
    · exact (expect_opposite hO hWs hWO _).symm
    · exact (expect_opposite hO (by rw [conjTranspose_neg, hWs]) (by rw [neg_mul, neg_mul_neg, hWO]) _).symm
  · refine ⟨_, expVals_states (f := fun t => ev t ψ) a2 a3 hX, (expVals_states (f := fun t => ev' t ψ) a2' a3' hX).trans ?_⟩
    rw [List.map_map]
    refine congrArg Except.ok (List.map_congr_left fun t _ => ?_)
    have e : (expect O (ev t ψ)).re = (expect O (star (ev' t ψ))).re := by
      rcases key t with h | h <;> rw [h, h1]
      · rw [one_mulVec]
      · rw [neg_mulVec, one_mulVec]
        unfold expect
        rw [mulVec_neg, star_neg, neg_dotProduct_neg]
    rw [Function.comp_apply, e, expect_imag hO, neg_one_mul, neg_neg]

end Generic

section Halves

variable {n : ℕ}

theorem siteOp_real {X : Matrix (Fin 2) (Fin 2) ℂ} (hX : ∀ i j, star (X i j) = X i j) (k : Fin n) : RealEntries (siteOp X k : Op n 2) := fun s t => by
  rw [siteOp, of_apply]
  split_ifs
  · exact hX _ _
  · simp

theorem siteOp_imag {X : Matrix (Fin 2) (Fin 2) ℂ} (hX : ∀ i j, star (X i j) = -X i j) (k : Fin n) : ImagEntries (siteOp X k : Op n 2) := fun s t => by
  rw [siteOp, of_apply]
  split_ifs
  · exact hX _ _
  · simp

theorem heis_real {X Y Z : Matrix (Fin 2) (Fin 2) ℂ} (hX : ∀ i j, star (X i j) = X i j) (hY : ∀ i j, star (Y i j) = -Y i j) (hZ : ∀ i j, star (Z i j) = Z i j)
    {jx jy jz : Fin n → Fin n → ℂ} {hx hz : Fin n → ℂ} (h1 : ∀ i j, star (jx i j) = jx i j) (h2 : ∀ i j, star (jy i j) = jy i j) (h3 : ∀ i j, star (jz i j) = jz i j)
    (h4 : ∀ i, star (hx i) = hx i) (h6 : ∀ i, star (hz i) = hz i) : RealEntries (heis X Y Z jx jy jz hx (fun _ => 0) hz) := by
  have two : ∀ z : ℂ, star z = z → star (2 * z) = 2 * z := fun z h => by rw [star_mul', h]; simp
  unfold heis
  rw [sub_eq_add_neg]
  refine .add (.sum fun i => .sum fun j => ?_) (.neg (.sum fun i => ?_))
  · split_ifs
    · exact .add (.add (((siteOp_real hX _).mul (siteOp_real hX _)).smul (two _ (h1 i j))) (((siteOp_imag hY _).mul (siteOp_imag hY _)).smul (two _ (h2 i j))))
        (((siteOp_real hZ _).mul (siteOp_real hZ _)).smul (two _ (h3 i j)))
    · exact .zero
  · rw [zero_smul, add_zero]
    exact .add ((siteOp_real hX _).smul (h4 i)) ((siteOp_real hZ _).smul (h6 i))

theorem heis_neg {b : ℕ} (X Y Z : Matrix (Fin b) (Fin b) ℂ) (jx jy jz : Fin n → Fin n → ℂ) (hx hy hz : Fin n → ℂ) :
    heis X Y Z (fun i j => -jx i j) (fun i j => -jy i j) (fun i j => -jz i j) (fun i => -hx i) (fun i => -hy i) (fun i => -hz i) = -heis X Y Z jx jy jz hx hy hz := by
  unfold heis
  rw [neg_sub', sub_neg_eq_add, ← Finset.sum_neg_distrib, sub_eq_add_neg, ← Finset.sum_neg_distrib]
  congr 1
  · refine Finset.sum_congr rfl fun i _ => ?_
    rw [← Finset.sum_neg_distrib]
    refine Finset.sum_congr rfl fun j _ => ?_
    split_ifs
    · simp only [mul_neg, neg_smul, neg_add]
    · rw [neg_zero]
  · refine Finset.sum_congr rfl fun i _ => ?_
    simp only [neg_smul, neg_add, neg_neg]

theorem signOp_off {χ : Fin n → ℤ} (hχ : ∀ i, χ i * χ i = 1) {X : Matrix (Fin 2) (Fin 2) ℂ} (h0 : ∀ a, X a a = 0) (k : Fin n) :
    signOp χ * siteOp X k * signOp χ = (χ k : ℂ) • siteOp X k := by
  ext s t
  rw [signOp, mul_diagonal, diagonal_mul, Matrix.smul_apply, smul_eq_mul, siteOp, of_apply]
  split_ifs with h
  · have h2 : ∀ a : Fin 2, a = 0 ∨ a = 1 := by decide
    rcases h2 (s k) with e | e <;> rcases h2 (t k) with e' | e' <;> rw [e, e']
    · simp [h0]
    · rw [mul_right_comm, occSign_mul hχ h e e']
    · rw [mul_right_comm, mul_comm (occSign χ s), occSign_mul hχ (fun j hj => (h j hj).symm) e' e]
    · simp [h0]
  · simp

theorem signOp_on {χ : Fin n → ℤ} (hχ : ∀ i, χ i * χ i = 1) {X : Matrix (Fin 2) (Fin 2) ℂ} (h0 : ∀ a b, a ≠ b → X a b = 0) (k : Fin n) :
    signOp χ * siteOp X k * signOp χ = siteOp X k := by
  have : (siteOp X k : Op n 2) = diagonal fun s => X (s k) (s k) := by
    ext s t
    by_cases e : s = t
    · subst e
      rw [diagonal_apply_eq, siteOp, of_apply]
      exact if_pos (show AgreeOff k s s from fun _ _ => rfl)
    · rw [diagonal_apply_ne _ e, siteOp, of_apply]
      split_ifs with h
      · refine h0 _ _ fun h' => e (funext fun j => ?_)
        by_cases hj : j = k
        · rw [hj, h']
        · exact h j hj
      · rfl
  rw [this]
  exact signOp_diag hχ _

theorem signOp_prod {χ : Fin n → ℤ} (hχ : ∀ i, χ i * χ i = 1) (P Q : Op n 2) : signOp χ * (P * Q) * signOp χ = signOp χ * P * signOp χ * (signOp χ * Q * signOp χ) := by
  calc _ = signOp χ * P * 1 * Q * signOp χ := by simp only [Matrix.mul_assoc, Matrix.one_mul]
    _ = _ := by rw [← signOp_sq hχ]; simp only [Matrix.mul_assoc]

theorem heis_signs {χ : Fin n → ℤ} (hχ : ∀ i, χ i * χ i = 1) {X Y Z : Matrix (Fin 2) (Fin 2) ℂ} (hX : ∀ a, X a a = 0) (hY : ∀ a, Y a a = 0)
    (hZ : ∀ a b, a ≠ b → Z a b = 0) (jx jy jz : Fin n → Fin n → ℂ) (hz : Fin n → ℂ) :
    signOp χ * heis X Y Z jx jy jz (fun _ => 0) (fun _ => 0) hz * signOp χ =
      heis X Y Z (fun i j => ((χ i * χ j : ℤ) : ℂ) * jx i j) (fun i j => ((χ i * χ j : ℤ) : ℂ) * jy i j) jz (fun _ => 0) (fun _ => 0) hz := by
  unfold heis
  rw [Matrix.mul_sub, Matrix.sub_mul]
  simp only [Matrix.mul_sum, Matrix.sum_mul]
  congr 1
  · refine Finset.sum_congr rfl fun i _ => Finset.sum_congr rfl fun j _ => ?_
    split_ifs
    · simp only [Matrix.mul_add, Matrix.add_mul, Matrix.mul_smul, Matrix.smul_mul, signOp_prod hχ, signOp_off hχ hX, signOp_off hχ hY, signOp_on hχ hZ, smul_smul]
      congr 2 <;> congr 1 <;> push_cast <;> ring_nf
    · rw [Matrix.mul_zero, Matrix.zero_mul]
  · refine Finset.sum_congr rfl fun i _ => ?_
    simp only [zero_smul, zero_add, Matrix.mul_smul, Matrix.smul_mul, signOp_on hχ hZ]

theorem occSign_down (c : Fin n → Bool) (t : Conf n 2) : occSign (fun i : Fin n => if c i then -1 else 1) t = (-1) ^ downCount c t := by
  unfold occSign downCount
  rw [← Finset.prod_pow_eq_pow_sum]
  refine Finset.prod_congr rfl fun i _ => ?_
  by_cases h1 : c i = true <;> by_cases h2 : t i = 1 <;> simp [h1, h2]

end Halves

theorem sxM_real (a b : Fin 2) : star (sxM 1 a b) = sxM 1 a b := by
  rw [sxM_one]
  fin_cases a <;> fin_cases b <;> simp [sigmaX]

theorem syM_imag (a b : Fin 2) : star (syM 1 a b) = -syM 1 a b := by
  rw [syM_one]
  fin_cases a <;> fin_cases b <;> simp [sigmaY]

theorem szM_real (a b : Fin 2) : star (szM 1 a b) = szM 1 a b := by
  rw [szM_one]
  fin_cases a <;> fin_cases b <;> simp [sigmaZ]

theorem half_card {n : ℕ} (hn : 0 < n) : 2 ≤ Fintype.card (Conf n 2) := by
  rw [Fintype.card_fun, Fintype.card_fin, Fintype.card_fin]
  exact Nat.le_self_pow hn.ne' 2

theorem star_of_im {ι : Type} {ψ : ι → ℂ} (h : ∀ t, (ψ t).im = 0) : star ψ = ψ := by
  funext t
  rw [Pi.star_apply, Complex.star_def]
  exact Complex.conj_eq_iff_im.2 (h t)

/-- C152 (all couplings): from every state with real amplitudes spins one half without fields along y evolve in the same way with all couplings and
fields as with the opposite ones, except that the components along y are opposite. -/
theorem C152_all (S : EigSolvers) (hS : EigContract S) (F : Spins) (h1 : F.twoS = 1) (hn : 0 < F.nsites) (hr : RealCouplings F) (hy : ∀ i < F.nsites, F.hy i = 0) :
    ∃ A w M A' w' M', F.createH none = .ok A ∧ diagList S A = .ok (w, M) ∧ (AllReversed F).createH none = .ok A' ∧ diagList S A' = .ok (w', M') ∧
      ∀ (init : Mat) (ψ : Conf F.nsites 2 → ℂ), init.Is (Matrix.of fun i (_ : Fin 1) => ψ i) → (∀ t, (ψ t).im = 0) → ∀ times : List ℝ,
        ∃ ev ev', quenchTimeEvolve init M w times = .ok ev ∧ quenchTimeEvolve init M' w' times = .ok ev' ∧
          SameSpins F pauliX 1 ev.asMat ev'.asMat ∧ SameSpins F pauliY (-1) ev.asMat ev'.asMat ∧ SameSpins F pauliZ 1 ev.asMat ev'.asMat ∧
          SamePairs F pauliX ev.asMat ev'.asMat ∧ SamePairs F pauliY ev.asMat ev'.asMat ∧ SamePairs F pauliZ ev.asMat ev'.asMat := by
  obtain ⟨n, b, jx, jy, jz, hx, hy', hz⟩ := F
  simp only at h1
  subst h1
  set F : Spins := ⟨n, 1, jx, jy, jz, hx, hy', hz⟩ with hF
  have hr' : RealCouplings (AllReversed F) := ⟨fun i j => (star_neg _).trans (congrArg Neg.neg (hr.jx i j)), fun i j => (star_neg _).trans (congrArg Neg.neg (hr.jy i j)),
    fun i j => (star_neg _).trans (congrArg Neg.neg (hr.jz i j)), fun i => (star_neg _).trans (congrArg Neg.neg (hr.hx i)),
    fun i => (star_neg _).trans (congrArg Neg.neg (hr.hy i)), fun i => (star_neg _).trans (congrArg Neg.neg (hr.hz i))⟩
  obtain ⟨A, hA, hAi⟩ := spin_createH F (.inl rfl)
  obtain ⟨A', hA', hAi'⟩ := spin_createH (AllReversed F) (.inl rfl)
  have hneg : spinHam (AllReversed F) = -spinHam F := heis_neg (n := n) (sxM 1) (syM 1) (szM 1) _ _ _ _ _ _
  have hre : RealEntries (spinHam F) := by
    have e : spinHam F = heis (n := n) (sxM 1) (syM 1) (szM 1) (fun i j => jx i j) (fun i j => jy i j) (fun i j => jz i j) (fun i => hx i) (fun _ => 0) fun i => hz i :=
      heis_congr _ _ _ (fun _ _ _ => rfl) (fun _ _ _ => rfl) (fun _ _ _ => rfl) (fun _ => rfl) (fun i => hy i i.2) (fun _ => rfl)
    rw [e]
    exact heis_real sxM_real syM_imag szM_real hr.jx hr.jy hr.jz hr.hx hr.hz
  have hAi'' : A'.Is (-spinHam F) := by rw [← hneg]; exact hAi'
  obtain ⟨w, M, w', M', d1, d2, d3⟩ := evolve_pair S hS (half_card hn) (W := 1) hAi hAi'' (spins_hermitian hr) (spins_hermitian hr).neg hre.neg
    (fun i j => by rw [one_apply]; split_ifs <;> simp) conjTranspose_one (Matrix.one_mul 1) (by rw [Matrix.one_mul, Matrix.mul_one, neg_neg])
  refine ⟨A, w, M, A', w', M', hA, d1, hA', d2, fun init ψ hi hre times => ?_⟩
  obtain ⟨ev, ev', e1, e2, e3⟩ := d3 init ψ hi (.inl (by rw [one_mulVec, star_of_im hre])) times
  have hreal : ∀ a : Fin 3, a ≠ 1 → ∀ i j, star (sigmas a i j) = sigmas a i j := fun a ha i j => by
    fin_cases a
    · fin_cases i <;> fin_cases j <;> simp [sigmas, sigmaX]
    · exact absurd rfl ha
    · fin_cases i <;> fin_cases j <;> simp [sigmas, sigmaZ]
  have himag : ∀ i j, star (sigmas 1 i j) = -sigmas 1 i j := fun i j => by
    fin_cases i <;> fin_cases j <;> simp [sigmas, sigmaY]
  have single : ∀ a : Fin 3, a ≠ 1 → SameSpins F (pauliMats a) 1 ev.asMat ev'.asMat := fun a ha i => by
    obtain ⟨X, hX, hXi⟩ := spin_single_half F rfl (pauliMats_is a) i
    obtain ⟨d, q1, q2⟩ := (e3 X _ hXi).1 (siteOp_real (hreal a ha) i) (by rw [Matrix.one_mul, Matrix.mul_one])
    exact ⟨X, d, hX, q1, by simpa using q2⟩
  have pair : ∀ a : Fin 3, SamePairs F (pauliMats a) ev.asMat ev'.asMat := fun a i j hij => by
    obtain ⟨X, hX, hXi⟩ := spin_two (n := n) hij (pauliMats_is a) (pauliMats_is a)
    refine ⟨X, ?_⟩
    obtain ⟨d, q1, q2⟩ := (e3 X _ hXi).1 (by
      by_cases ha : a = 1
      · subst ha
        exact (siteOp_imag himag i).mul (siteOp_imag himag j)
      · exact (siteOp_real (hreal a ha) i).mul (siteOp_real (hreal a ha) j)) (by rw [Matrix.one_mul, Matrix.mul_one])
    exact ⟨d, hX, q1, q2⟩
  refine ⟨ev, ev', e1, e2, single 0 (by decide), fun i => ?_, single 2 (by decide), pair 0, pair 1, pair 2⟩
  obtain ⟨X, hX, hXi⟩ := spin_single_half F rfl (pauliMats_is 1) i
  obtain ⟨d, q1, q2⟩ := (e3 X _ hXi).2 (siteOp_imag himag i) rfl
  exact ⟨X, d, hX, q1, q2⟩

/-- C152 (couplings along z): if couplings along x and y act only between two sublattices and fields are along z, then from every
state with real amplitudes and with an even or with an odd number of reversed spins on the first sublattice, components along z and their products
evolve in the same way with the opposite couplings and fields along z. -/
theorem C152_axis (S : EigSolvers) (hS : EigContract S) (F : Spins) (h1 : F.twoS = 1) (hn : 0 < F.nsites) (hr : RealCouplings F)
    (hx : ∀ i < F.nsites, F.hx i = 0 ∧ F.hy i = 0) {c : Fin F.nsites → Bool}
    (hc : ∀ i j : Fin F.nsites, j < i → c i = c j → F.jx i j = 0 ∧ F.jy i j = 0) :
    ∃ A w M A' w' M', F.createH none = .ok A ∧ diagList S A = .ok (w, M) ∧ (AxisReversed F).createH none = .ok A' ∧ diagList S A' = .ok (w', M') ∧
      ∀ (init : Mat) (ψ : Conf F.nsites 2 → ℂ), init.Is (Matrix.of fun i (_ : Fin 1) => ψ i) → (∀ t, (ψ t).im = 0) →
        (∀ t t', ψ t ≠ 0 → ψ t' ≠ 0 → downCount c t % 2 = downCount c t' % 2) → ∀ times : List ℝ,
        ∃ ev ev', quenchTimeEvolve init M w times = .ok ev ∧ quenchTimeEvolve init M' w' times = .ok ev' ∧
          SameSpins F pauliZ 1 ev.asMat ev'.asMat ∧ SamePairs F pauliZ ev.asMat ev'.asMat := by
  obtain ⟨n, b, jx, jy, jz, hx', hy', hz⟩ := F
  simp only at h1
  subst h1
  revert c
  set F : Spins := ⟨n, 1, jx, jy, jz, hx', hy', hz⟩ with hF
  intro c hc
  have hr' : RealCouplings (AxisReversed F) := ⟨hr.jx, hr.jy, fun i j => (star_neg _).trans (congrArg Neg.neg (hr.jz i j)), hr.hx, hr.hy,
    fun i => (star_neg _).trans (congrArg Neg.neg (hr.hz i))⟩
  obtain ⟨A, hA, hAi⟩ := spin_createH F (.inl rfl)
  obtain ⟨A', hA', hAi'⟩ := spin_createH (AxisReversed F) (.inl rfl)
  set χ : Fin n → ℤ := fun i => if c i then -1 else 1 with hχd
  have hχ : ∀ i, χ i * χ i = 1 := fun i => by simp only [hχd]; split_ifs <;> norm_num
  have hE : spinHam F = heis (n := n) (sxM 1) (syM 1) (szM 1) (fun i j => jx i j) (fun i j => jy i j) (fun i j => jz i j) (fun _ => 0) (fun _ => 0) fun i => hz i :=
    heis_congr _ _ _ (fun _ _ _ => rfl) (fun _ _ _ => rfl) (fun _ _ _ => rfl) (fun i => (hx i i.2).1) (fun i => (hx i i.2).2) (fun _ => rfl)
  have hE' : spinHam (AxisReversed F) =
      heis (n := n) (sxM 1) (syM 1) (szM 1) (fun i j => jx i j) (fun i j => jy i j) (fun i j => -jz i j) (fun _ => 0) (fun _ => 0) fun i => -hz i :=
    heis_congr _ _ _ (fun _ _ _ => rfl) (fun _ _ _ => rfl) (fun _ _ _ => rfl) (fun i => (hx i i.2).1) (fun i => (hx i i.2).2) (fun _ => rfl)
  have hre : RealEntries (spinHam (AxisReversed F)) := by
    rw [hE']
    exact heis_real sxM_real syM_imag szM_real hr.jx hr.jy hr'.jz (fun _ => star_zero _) hr'.hz
  have hsg : ∀ i j : Fin n, c i ≠ c j → χ i * χ j = -1 := fun i j h => by
    simp only [hχd]
    cases hi : c i <;> cases hj : c j <;> simp_all
  have hconj : signOp χ * spinHam F * signOp χ = -spinHam (AxisReversed F) := by
    rw [hE, hE', heis_signs hχ (fun a => by rw [sxM_one]; fin_cases a <;> simp [sigmaX]) (fun a => by rw [syM_one]; fin_cases a <;> simp [sigmaY])
      (fun a b h => by rw [szM_one]; fin_cases a <;> fin_cases b <;> simp [sigmaZ] at h ⊢)]
    have key : ∀ i j : Fin n, j < i → ∀ z : ℂ, (c i = c j → z = 0) → ((χ i * χ j : ℤ) : ℂ) * z = -z := fun i j _ z h => by
      by_cases hcij : c i = c j
      · rw [h hcij, mul_zero, neg_zero]
      · rw [hsg i j hcij]
        simp
    refine Eq.trans ?_ (heis_neg (n := n) (sxM 1) (syM 1) (szM 1) (fun i j => jx i j) (fun i j => jy i j) (fun i j => -jz i j) (fun _ => 0) (fun _ => 0) fun i => -hz i)
    exact heis_congr _ _ _ (fun i j h => key i j h _ fun e => (hc i j h e).1) (fun i j h => key i j h _ fun e => (hc i j h e).2) (fun _ _ _ => (neg_neg _).symm)
      (fun _ => neg_zero.symm) (fun _ => neg_zero.symm) (fun _ => (neg_neg _).symm)
  obtain ⟨w, M, w', M', d1, d2, d3⟩ := evolve_pair S hS (half_card hn) (W := signOp χ) hAi hAi' (spins_hermitian hr) (spins_hermitian hr') hre
    (fun i j => by
      rw [signOp, diagonal_apply]
      split_ifs
      · exact star_occSign _ _
      · simp) (signOp_star χ) (signOp_sq hχ) hconj
  refine ⟨A, w, M, A', w', M', hA, d1, hA', d2, fun init ψ hi him hpar times => ?_⟩
  have hWψ : ∀ t, (signOp χ *ᵥ star ψ) t = (-1) ^ downCount c t * ψ t := fun t => by
    rw [star_of_im him, signOp, mulVec_diagonal, occSign_down]
  obtain ⟨ev, ev', e1, e2, e3⟩ := d3 init ψ hi (by
    by_cases h0 : ∃ t, ψ t ≠ 0 ∧ downCount c t % 2 = 1
    · obtain ⟨t0, h1, h2⟩ := h0
      refine .inr (funext fun t => ?_)
      rw [hWψ, Pi.neg_apply]
      by_cases h : ψ t = 0
      · rw [h, mul_zero, neg_zero]
      · have h3 := hpar t t0 h h1
        rw [h2] at h3
        rw [(Nat.odd_iff.2 h3).neg_one_pow]
        ring
    · refine .inl (funext fun t => ?_)
      rw [hWψ]
      by_cases h : ψ t = 0
      · rw [h, mul_zero]
      · have h3 : downCount c t % 2 = 0 := by
          by_contra h4
          exact h0 ⟨t, h, by omega⟩
        rw [(Nat.even_iff.2 h3).neg_one_pow, one_mul]) times
  have hz2 : ∀ a b : Fin 2, a ≠ b → sigmas 2 a b = 0 := fun a b h => by
    fin_cases a <;> fin_cases b <;> simp [sigmas, sigmaZ] at h ⊢
  have hzr : ∀ i j, star (sigmas 2 i j) = sigmas 2 i j := fun i j => by
    fin_cases i <;> fin_cases j <;> simp [sigmas, sigmaZ]
  refine ⟨ev, ev', e1, e2, fun i => ?_, fun i j hij => ?_⟩
  · obtain ⟨X, hX, hXi⟩ := spin_single_half F rfl (pauliMats_is 2) i
    obtain ⟨d, q1, q2⟩ := (e3 X _ hXi).1 (siteOp_real hzr i) (signOp_on hχ hz2 i)
    exact ⟨X, d, hX, q1, by simpa using q2⟩
  · obtain ⟨X, hX, hXi⟩ := spin_two (n := n) hij (pauliMats_is 2) (pauliMats_is 2)
    obtain ⟨d, q1, q2⟩ := (e3 X _ hXi).1 ((siteOp_real hzr i).mul (siteOp_real hzr j)) (by rw [signOp_prod hχ, signOp_on hχ hz2, signOp_on hχ hz2])
    exact ⟨X, d, hX, q1, q2⟩

/-! ## Examples -/

/-- A triangle of spins with fields along x and z. -/
noncomputable def tiltedTriangle : Spins := ⟨3, 1, fun i j => i + j, fun _ _ => -2, fun i j => i * j, fun _ => 1, fun _ => 0, fun i => i⟩

example (S : EigSolvers) (hS : EigContract S) (conf : Conf 3 2) (init : Mat)
    (hi : init.Is (Matrix.of fun i (_ : Fin 1) => (Pi.single conf (1 : ℂ) : Conf 3 2 → ℂ) i)) (times : List ℝ) :
    ∃ A w M A' w' M' ev ev', tiltedTriangle.createH none = .ok A ∧ diagList S A = .ok (w, M) ∧ (AllReversed tiltedTriangle).createH none = .ok A' ∧
      diagList S A' = .ok (w', M') ∧ quenchTimeEvolve init M w times = .ok ev ∧ quenchTimeEvolve init M' w' times = .ok ev' ∧
      SameSpins tiltedTriangle pauliX 1 ev.asMat ev'.asMat := by
  obtain ⟨A, w, M, A', w', M', h1, h2, h3, h4, h5⟩ := C152_all S hS tiltedTriangle rfl (by simp [tiltedTriangle])
    ⟨fun i j => by simp [tiltedTriangle], fun i j => by simp [tiltedTriangle], fun i j => by simp [tiltedTriangle], fun i => by simp [tiltedTriangle],
      fun i => by simp [tiltedTriangle], fun i => by simp [tiltedTriangle]⟩ (fun _ _ => rfl)
  obtain ⟨ev, ev', e1, e2, e3, -⟩ := h5 init _ hi (fun t => by
    have h : ∀ x : Conf 3 2, ((Pi.single conf (1 : ℂ) : Conf 3 2 → ℂ) x).im = 0 := fun x => by rw [Pi.single_apply]; split_ifs <;> simp
    exact h t) times
  exact ⟨A, w, M, A', w', M', ev, ev', h1, h2, h3, h4, e1, e2, e3⟩

/-- Four spins in a row, with the ratio of the couplings along z to the others. -/
noncomputable def spinRow (d : ℝ) : Spins :=
  ⟨4, 1, fun i j => if i = j + 1 then 1 else 0, fun i j => if i = j + 1 then 1 else 0, fun i j => if i = j + 1 then d else 0, fun _ => 0, fun _ => 0, fun _ => 0⟩

/-- The Néel state of the antiferromagnet decays as in the ferromagnet. -/
example (S : EigSolvers) (hS : EigContract S) (d : ℝ) (conf : Conf 4 2) (init : Mat)
    (hi : init.Is (Matrix.of fun i (_ : Fin 1) => (Pi.single conf (1 : ℂ) : Conf 4 2 → ℂ) i)) (times : List ℝ) :
    ∃ A w M A' w' M' ev ev', (spinRow d).createH none = .ok A ∧ diagList S A = .ok (w, M) ∧ (AxisReversed (spinRow d)).createH none = .ok A' ∧
      diagList S A' = .ok (w', M') ∧ quenchTimeEvolve init M w times = .ok ev ∧ quenchTimeEvolve init M' w' times = .ok ev' ∧
      SameSpins (spinRow d) pauliZ 1 ev.asMat ev'.asMat := by
  obtain ⟨A, w, M, A', w', M', h1, h2, h3, h4, h5⟩ := C152_axis S hS (spinRow d) rfl (by simp [spinRow])
    (by constructor <;> intros <;> simp only [spinRow] <;> (try split_ifs) <;> simp) (fun _ _ => ⟨rfl, rfl⟩) (c := fun i => decide ((i : ℕ) % 2 = 0))
    (fun i j _ h => by
      have : (i : ℕ) ≠ j + 1 := fun e => by
        simp only [e, decide_eq_decide] at h
        omega
      simp [spinRow, this])
  obtain ⟨ev, ev', e1, e2, e3, -⟩ := h5 init _ hi (fun t => by
    have h : ∀ x : Conf 4 2, ((Pi.single conf (1 : ℂ) : Conf 4 2 → ℂ) x).im = 0 := fun x => by rw [Pi.single_apply]; split_ifs <;> simp
    exact h t) (fun t t' a b => by
    have h : ∀ x, (Pi.single conf (1 : ℂ) : Conf 4 2 → ℂ) x ≠ 0 → x = conf := fun x hx => by
      by_contra hne
      exact hx (Pi.single_eq_of_ne hne _)
    rw [h t a, h t' b]) times
  exact ⟨A, w, M, A', w', M', ev, ev', h1, h2, h3, h4, e1, e2, e3⟩

end ED.Props
