import Verif.Props.Flow
import Verif.Props.Signs
import Verif.Lemmas.FreeModes

/-!
# Property C151: repulsion and attraction are indistinguishable in an expansion

On two sublattices densities and their products evolve in the same way from states with real amplitudes if all interactions and potentials
change their signs.
-/

namespace ED.Props

open Matrix

/-! ## Specification -/

/-- The model with the opposite interactions, potentials and chemical potentials, and the same hopping. -/
def Opposite (F : Fermions) : Fermions :=
  { F with us := fun i => -F.us i, usSame := fun i j s => -F.usSame i j s, mus := fun s => -F.mus s, pots := fun i s => -F.pots i s }

/-- Particles hop only between sites of different colours. -/
def Coloured (F : Fermions) (c : Fin F.nsites → Bool) : Prop :=
  ∀ (i j : Fin F.nsites) (s : Fin F.nspecies), j < i → F.ts i j s * ((|F.xdist i j| + |F.ydist i j| : ℝ) : ℂ) ≠ 0 → c i ≠ c j

/-- The number of particles on the sites of the first colour. -/
def colourCount {a b : ℕ} (c : Fin a → Bool) (t : Conf (a * b) 2) : ℕ := ∑ s : Fin b, ∑ i : Fin a, if c i = true ∧ t (mode i s) = 1 then 1 else 0

/-- Averages of densities and of products of densities in the two lists of states agree. -/
def SameDensities (F : Fermions) (states states' : Mat) : Prop :=
  (∀ (i : Fin F.nsites) (s : Fin F.nspecies), ∃ X d, getSingleSiteOp F.sys i s nOp "boson" = .ok X ∧ getExpVals states X = .ok d ∧ getExpVals states' X = .ok d) ∧
  ∀ (i j : Fin F.nsites) (s s' : Fin F.nspecies), ∃ X d, getTwoSiteOp F.sys i s j s' nOp nOp "boson" = .ok X ∧ getExpVals states X = .ok d ∧
    getExpVals states' X = .ok d

/-! ## Real matrices -/

section Reals

variable {ι : Type} [Fintype ι] [DecidableEq ι]

/-- All entries are real. -/
def RealEntries (A : Matrix ι ι ℂ) : Prop := ∀ i j, star (A i j) = A i j

theorem RealEntries.add {A B : Matrix ι ι ℂ} (hA : RealEntries A) (hB : RealEntries B) : RealEntries (A + B) := fun i j => by
  rw [Matrix.add_apply, star_add, hA, hB]

theorem RealEntries.neg {A : Matrix ι ι ℂ} (hA : RealEntries A) : RealEntries (-A) := fun i j => by rw [Matrix.neg_apply, star_neg, hA]

theorem RealEntries.zero : RealEntries (0 : Matrix ι ι ℂ) := fun i j => by simp

theorem RealEntries.smul {A : Matrix ι ι ℂ} (hA : RealEntries A) {z : ℂ} (hz : star z = z) : RealEntries (z • A) := fun i j => by
  rw [Matrix.smul_apply, smul_eq_mul, star_mul', hz, hA]

theorem RealEntries.sum {α : Type} {u : Finset α} {A : α → Matrix ι ι ℂ} (hA : ∀ a, RealEntries (A a)) : RealEntries (∑ a ∈ u, A a) := fun i j => by
  rw [Matrix.sum_apply, star_sum]
  exact Finset.sum_congr rfl fun a _ => hA a i j

theorem RealEntries.mul {A B : Matrix ι ι ℂ} (hA : RealEntries A) (hB : RealEntries B) : RealEntries (A * B) := fun i j => by
  rw [Matrix.mul_apply, star_sum]
  exact Finset.sum_congr rfl fun k _ => by rw [star_mul', hA, hB]

theorem RealEntries.mulVec {A : Matrix ι ι ℂ} (hA : RealEntries A) (f : ι → ℂ) : star (A *ᵥ f) = A *ᵥ star f := by
  funext i
  rw [Pi.star_apply]
  unfold Matrix.mulVec dotProduct
  rw [star_sum]
  exact Finset.sum_congr rfl fun j _ => by rw [star_mul', hA, Pi.star_apply]

end Reals

theorem create_real {n : ℕ} (k : Fin n) : RealEntries (create k) := fun s t => by
  rw [create, of_apply]
  split_ifs <;> simp

theorem annih_real {n : ℕ} (k : Fin n) : RealEntries (annih k) := fun s t => by
  rw [annih, conjTranspose_apply, create_real, create_real]

theorem number_real {n : ℕ} (k : Fin n) : RealEntries (number k) := fun s t => by
  rw [number, diagonal_apply]
  split_ifs <;> simp

theorem F_real {F : Fermions} (hr : RealParams F) : RealEntries (hubInter (fun i : Fin F.nsites => F.us i) + hubRest F : Op (F.nsites * F.nspecies) 2) := by
  unfold hubRest hubInter hubSame hubHop hubPot
  refine .add ?_ (.add (.add ?_ ?_) ?_)
  · split_ifs
    · exact .sum fun i => ((number_real _).mul (number_real _)).smul (hr.us i)
    · exact .zero
  · refine .sum fun i => .sum fun j => .sum fun s => ?_
    split_ifs
    · exact ((number_real _).mul (number_real _)).smul (hr.same i j s)
    · exact .zero
  · refine .sum fun i => .sum fun j => .sum fun s => ?_
    split_ifs
    · refine .neg (.smul (.add ((create_real _).mul (annih_real _)) ((create_real _).mul (annih_real _))) ?_)
      rw [star_mul', hr.ts]
      unfold hopWeight
      rw [Complex.star_def, Complex.conj_ofReal]
    · exact .zero
  · exact .sum fun i => .sum fun s => (number_real _).smul (by rw [star_sub, hr.pots, hr.mus])

/-! ## Evolution -/

section Evolution

variable {ι : Type} [Fintype ι] [DecidableEq ι]

/-- States that obey the same equation and agree at the beginning agree always. -/
theorem schroedinger_unique {H : Matrix ι ι ℂ} (hH : H.IsHermitian) {f g : ℝ → ι → ℂ} (hf : ∀ t i, HasDerivAt (fun s => f s i) (-Complex.I * (H *ᵥ f t) i) t)
    (hg : ∀ t i, HasDerivAt (fun s => g s i) (-Complex.I * (H *ᵥ g t) i) t) (h0 : f 0 = g 0) (t : ℝ) : f t = g t := by
  have hd : ∀ t i, HasDerivAt (fun s => (f s - g s) i) (-Complex.I * (H *ᵥ (f t - g t)) i) t := fun t i => by
    refine ((hf t i).sub (hg t i)).congr_deriv ?_
    rw [mulVec_sub, Pi.sub_apply]
    ring
  have hc : ∀ t, HasDerivAt (fun s => expect (1 : Matrix ι ι ℂ) (f s - g s)) 0 t := fun t => by
    refine (expect_deriv (O := 1) hH (f := fun s => f s - g s) hd t).congr_deriv ?_
    rw [Matrix.mul_one, Matrix.one_mul, sub_self]
    unfold expect
    rw [zero_mulVec, dotProduct_zero, mul_zero]
  have := is_const_of_deriv_eq_zero (fun t => (hc t).differentiableAt) (fun t => (hc t).deriv) t 0
  simp only [h0, sub_self] at this
  unfold expect at this
  rw [one_mulVec, mulVec_zero, dotProduct_zero] at this
  open ComplexOrder in
  exact sub_eq_zero.1 (dotProduct_star_self_eq_zero.1 this)

/-- A sign operator that maps a real Hamiltonian to minus the other one relates their evolutions. -/
theorem evolution_opposite {H H' W : Matrix ι ι ℂ} (hH : H.IsHermitian) (hr' : RealEntries H') (hW : RealEntries W)
    (hWW : W * W = 1) (hc : W * H * W = -H') {f g : ℝ → ι → ℂ} (hf : ∀ t i, HasDerivAt (fun s => f s i) (-Complex.I * (H *ᵥ f t) i) t)
    (hg : ∀ t i, HasDerivAt (fun s => g s i) (-Complex.I * (H' *ᵥ g t) i) t) (h0 : f 0 = W *ᵥ star (g 0)) (t : ℝ) : f t = W *ᵥ star (g t) := by
  refine schroedinger_unique hH hf (g := fun t => W *ᵥ star (g t)) (fun t i => ?_) h0 t
  have h1 : ∀ j, HasDerivAt (fun s => W i j * star (g s) j) (W i j * star (-Complex.I * (H' *ᵥ g t) j)) t := fun j => ((hg t j).star).const_mul _
  have h2 : HasDerivAt (fun s => (W *ᵥ star (g s)) i) (∑ j, W i j * star (-Complex.I * (H' *ᵥ g t) j)) t := HasDerivAt.fun_sum fun j _ => h1 j
  refine h2.congr_deriv ?_
  have e : H * W = -(W * H') := by
    calc _ = W * W * (H * W) := by rw [hWW, Matrix.one_mul]
      _ = W * (W * H * W) := by simp only [Matrix.mul_assoc]
      _ = _ := by rw [hc, Matrix.mul_neg]
  rw [mulVec_mulVec, e, neg_mulVec, ← mulVec_mulVec, ← hr'.mulVec, Pi.neg_apply, mul_neg, neg_mul, neg_neg]
  unfold Matrix.mulVec dotProduct
  rw [Finset.mul_sum]
  refine Finset.sum_congr rfl fun j _ => ?_
  rw [star_mul', star_neg, Complex.star_def, Complex.conj_I, neg_neg, Pi.star_apply]
  change W i j * (Complex.I * star _) = _
  ring

theorem expect_opposite {O W : Matrix ι ι ℂ} (hO : RealEntries O) (hs : Wᴴ = W) (hc : W * O * W = O) (φ : ι → ℂ) :
    (expect O (W *ᵥ star φ)).re = (expect O φ).re := by
  have : expect O (W *ᵥ star φ) = star (expect O φ) := by
    unfold expect
    rw [star_mulVec, star_star, hs, ← dotProduct_mulVec, mulVec_mulVec, mulVec_mulVec, hc, ← star_dotProduct_star, star_star, hO.mulVec]
    exact dotProduct_comm _ _
  rw [this, Complex.star_def, Complex.conj_re]

end Evolution

theorem occSign_colours {a b : ℕ} (c : Fin a → Bool) (t : Conf (a * b) 2) :
    occSign (signOfMode fun (i : Fin a) (_ : Fin b) => if c i then -1 else 1) t = (-1) ^ colourCount c t := by
  unfold occSign colourCount
  rw [← Fintype.prod_equiv (modeEquiv a b) (fun x => if t (mode x.2 x.1) = 1 then ((signOfMode (fun (i : Fin a) (_ : Fin b) => if c i then -1 else 1) (mode x.2 x.1) : ℤ) : ℂ) else 1)
    _ fun x => rfl, Fintype.prod_prod_type, ← Finset.prod_pow_eq_pow_sum]
  refine Finset.prod_congr rfl fun s _ => ?_
  rw [← Finset.prod_pow_eq_pow_sum]
  refine Finset.prod_congr rfl fun i _ => ?_
  rw [signOfMode_mode]
  by_cases h1 : c i = true <;> by_cases h2 : t (mode i s) = 1 <;> simp [h1, h2]

theorem opposite_terms {a b : ℕ} {ε : Fin a → Fin b → ℤ} (hε : ∀ i s, ε i s * ε i s = 1) {T : Fin a → Fin a → Fin b → ℂ}
    (hT : ∀ i j s, j < i → ((ε i s * ε j s : ℤ) : ℂ) * T i j s = -T i j s) (U : Fin a → ℂ) (X : Fin a → Fin a → Fin b → ℂ) (P : Fin a → Fin b → ℂ) :
    signOp (signOfMode ε) * (hubInter U + (hubSame X + hubHop T + hubPot P)) * signOp (signOfMode ε) =
      -(hubInter (fun i => -U i) + (hubSame (fun i j s => -X i j s) + hubHop T + hubPot fun i s => -P i s) : Op (a * b) 2) := by
  simp only [Matrix.mul_add, Matrix.add_mul]
  rw [signOp_hubInter hε, signOp_hubSame hε, signOp_hubPot hε, signOp_hubHop hε]
  have h1 : (hubInter (fun i => -U i) : Op (a * b) 2) = -hubInter U := by
    unfold hubInter
    split_ifs
    · simp only [neg_smul, Finset.sum_neg_distrib]
    · rw [neg_zero]
  have h2 : (hubSame (fun i j s => -X i j s) : Op (a * b) 2) = -hubSame X := by
    unfold hubSame
    simp only [← Finset.sum_neg_distrib]
    refine Finset.sum_congr rfl fun i _ => Finset.sum_congr rfl fun j _ => Finset.sum_congr rfl fun s _ => ?_
    split_ifs
    · rw [neg_smul]
    · rw [neg_zero]
  have h3 : (hubPot (fun i s => -P i s) : Op (a * b) 2) = -hubPot P := by
    unfold hubPot
    simp only [neg_smul, Finset.sum_neg_distrib]
  have h4 : (hubHop (fun i j s => ((ε i s * ε j s : ℤ) : ℂ) * T i j s) : Op (a * b) 2) = -hubHop T := by
    unfold hubHop
    simp only [← Finset.sum_neg_distrib]
    refine Finset.sum_congr rfl fun i _ => Finset.sum_congr rfl fun j _ => Finset.sum_congr rfl fun s _ => ?_
    split_ifs with h
    · rw [hT i j s h, neg_smul]
    · rw [neg_zero]
  rw [h1, h2, h3, h4]
  abel

theorem opposite_core (S : EigSolvers) (hS : EigContract S) (F : Fermions) (hn : 0 < F.nsites) (hs : 0 < F.nspecies) {A A' : Mat}
    {H H' : Op (F.nsites * F.nspecies) 2} (hAi : A.Is H) (hAi' : A'.Is H') (hH : H.IsHermitian) (hH' : H'.IsHermitian) (hre' : RealEntries H') (c : Fin F.nsites → Bool)
    (hconj : signOp (signOfMode fun (i : Fin F.nsites) (_ : Fin F.nspecies) => if c i then -1 else 1) * H *
      signOp (signOfMode fun (i : Fin F.nsites) (_ : Fin F.nspecies) => if c i then -1 else 1) = -H') :
    ∃ w M w' M', diagList S A = .ok (w, M) ∧ diagList S A' = .ok (w', M') ∧
      ∀ (init : Mat) (ψ : Conf (F.nsites * F.nspecies) 2 → ℂ), init.Is (Matrix.of fun i (_ : Fin 1) => ψ i) → (∀ t, (ψ t).im = 0) →
        (∀ t t', ψ t ≠ 0 → ψ t' ≠ 0 → colourCount c t % 2 = colourCount c t' % 2) → ∀ times : List ℝ,
          ∃ ev ev', quenchTimeEvolve init M w times = .ok ev ∧ quenchTimeEvolve init M' w' times = .ok ev' ∧ SameDensities F ev.asMat ev'.asMat := by
  have hd : 2 ≤ Fintype.card (Conf (F.nsites * F.nspecies) 2) := by
    rw [Fintype.card_fun, Fintype.card_fin, Fintype.card_fin]
    exact Nat.le_self_pow (Nat.mul_pos hn hs).ne' 2
  obtain ⟨m, E, M, V, d1, d2, d3, d4, d5, -⟩ := diagList_ok S hS hAi hH
  obtain ⟨m', E', M', V', d1', d2', d3', d4', d5', -⟩ := diagList_ok S hS hAi' hH'
  obtain ⟨ev, v1, v2, -, -, -, v6⟩ := C22_evolution_partial E hd d2 d3 d4 d5
  obtain ⟨ev', v1', v2', -, -, -, v6'⟩ := C22_evolution_partial E' hd d2' d3' d4' d5'
  refine ⟨_, M, _, M', d1, d1', fun init ψ hi hre hpar times => ?_⟩
  set ε : Fin F.nsites → Fin F.nspecies → ℤ := fun i _ => if c i then -1 else 1 with hε
  have hε' : ∀ i s, ε i s * ε i s = 1 := fun i s => by simp only [hε]; split_ifs <;> norm_num
  set W : Op (F.nsites * F.nspecies) 2 := signOp (signOfMode ε) with hWd
  have hWs : Wᴴ = W := signOp_star _
  have hWW : W * W = 1 := signOp_sq (signOfMode_sq hε')
  have hWr : RealEntries W := fun s t => by
    rw [hWd, signOp, diagonal_apply]
    split_ifs
    · exact star_occSign _ _
    · simp
  obtain ⟨W', hW', hψ⟩ : ∃ W' : Op (F.nsites * F.nspecies) 2, (W' = W ∨ W' = -W) ∧ W' *ᵥ star ψ = ψ := by
    have hstar : star ψ = ψ := by
      funext t
      rw [Pi.star_apply, Complex.star_def]
      exact Complex.conj_eq_iff_im.2 (hre t)
    have hWψ : ∀ t, (W *ᵥ star ψ) t = (-1) ^ colourCount c t * ψ t := fun t => by
      rw [hstar, hWd, signOp, mulVec_diagonal, occSign_colours]
    by_cases h0 : ∃ t, ψ t ≠ 0 ∧ colourCount c t % 2 = 1
    · obtain ⟨t0, h1, h2⟩ := h0
      refine ⟨-W, .inr rfl, ?_⟩
      funext t
      rw [neg_mulVec, Pi.neg_apply, hWψ]
      by_cases h : ψ t = 0
      · rw [h, mul_zero, neg_zero]
      · have h3 := hpar t t0 h h1
        rw [h2] at h3
        rw [(Nat.odd_iff.2 h3).neg_one_pow]
        ring
    · refine ⟨W, .inl rfl, ?_⟩
      funext t
      rw [hWψ]
      by_cases h : ψ t = 0
      · rw [h, mul_zero]
      · have h3 : colourCount c t % 2 = 0 := by
          by_contra h4
          exact h0 ⟨t, h, by omega⟩
        rw [(Nat.even_iff.2 h3).neg_one_pow, one_mul]
  have q1 : ∀ O : Op (F.nsites * F.nspecies) 2, W' * O * W' = W * O * W := fun O => by
    rcases hW' with h | h <;> rw [h]
    simp
  have q2 : W'ᴴ = W' := by
    rcases hW' with h | h <;> rw [h]
    · exact hWs
    · rw [conjTranspose_neg, hWs]
  have q3 : RealEntries W' := by
    rcases hW' with h | h <;> rw [h]
    · exact hWr
    · exact hWr.neg
  have q4 : W' * W' = 1 := by
    have := q1 1
    rwa [Matrix.mul_one, Matrix.mul_one, hWW] at this
  have hev := evolution_opposite hH (hre') q3 q4 ((q1 _).trans hconj) (f := fun t => ev t ψ) (g := fun t => ev' t ψ) (fun t i => v6 t ψ i) (fun t i => v6' t ψ i)
    (by rw [v2, v2', hψ])
  obtain ⟨a, a1, a2, a3⟩ := v1 init ψ times hi
  obtain ⟨a', a1', a2', a3'⟩ := v1' init ψ times hi
  have hval : ∀ {X : Mat} {O : Op (F.nsites * F.nspecies) 2}, X.Is O → RealEntries O → W * O * W = O →
      ∃ d, getExpVals a.asMat X = .ok d ∧ getExpVals a'.asMat X = .ok d := fun {X O} hX hO hWO => by
    refine ⟨_, expVals_states (f := fun t => ev t ψ) a2 a3 hX, (expVals_states (f := fun t => ev' t ψ) a2' a3' hX).trans ?_⟩
    refine congrArg Except.ok (List.map_congr_left fun t _ => ?_)
    rw [hev t]
    exact (expect_opposite hO q2 ((q1 O).trans hWO) _).symm
  refine ⟨a, a', a1, a1', fun i s => ?_, fun i j s s' => ?_⟩
  · obtain ⟨X, hX, hXi⟩ := F_single F i s
    obtain ⟨d, h1, h2⟩ := hval hXi (number_real _) (signOp_number hε' _)
    exact ⟨X, d, hX, h1, h2⟩
  · obtain ⟨X, hX, hXi⟩ := F_two F i j s s'
    obtain ⟨d, h1, h2⟩ := hval hXi ((number_real _).mul (number_real _)) (signOp_two hε' _ _)
    exact ⟨X, d, hX, h1, h2⟩

/-- C151: if particles hop only between two sublattices, then from every state with real amplitudes and with an even or with an odd number of
particles on the first sublattice, densities and products of densities evolve in the same way with all interactions and potentials as with the
opposite ones. -/
theorem C151_opposite (S : EigSolvers) (hS : EigContract S) (F : Fermions) (hI : InterOk F) (hr : RealParams F) (hn : 0 < F.nsites) (hs : 0 < F.nspecies)
    {c : Fin F.nsites → Bool} (hc : Coloured F c) :
    ∃ A w M A' w' M', F.createH none = .ok A ∧ diagList S A = .ok (w, M) ∧ (Opposite F).createH none = .ok A' ∧ diagList S A' = .ok (w', M') ∧
      ∀ (init : Mat) (ψ : Conf (F.nsites * F.nspecies) 2 → ℂ), init.Is (Matrix.of fun i (_ : Fin 1) => ψ i) → (∀ t, (ψ t).im = 0) →
        (∀ t t', ψ t ≠ 0 → ψ t' ≠ 0 → colourCount c t % 2 = colourCount c t' % 2) → ∀ times : List ℝ,
          ∃ ev ev', quenchTimeEvolve init M w times = .ok ev ∧ quenchTimeEvolve init M' w' times = .ok ev' ∧ SameDensities F ev.asMat ev'.asMat := by
  have hI' : InterOk (Opposite F) := hI.imp id fun h i => by change -F.us i = 0; rw [h i, neg_zero]
  have hr' : RealParams (Opposite F) := by
    exact ⟨hr.ts, fun i => (star_neg _).trans (congrArg Neg.neg (hr.us i)), fun i j s => (star_neg _).trans (congrArg Neg.neg (hr.same i j s)),
      fun s => (star_neg _).trans (congrArg Neg.neg (hr.mus s)), fun i s => (star_neg _).trans (congrArg Neg.neg (hr.pots i s))⟩
  obtain ⟨A, hA, hAi⟩ := createH_gives (F := F) hI
  obtain ⟨A', hA', hAi'⟩ := createH_gives (F := Opposite F) hI'
  have hH := F_hermitian hI hr
  have hH' := F_hermitian hI' hr'
  set ε : Fin F.nsites → Fin F.nspecies → ℤ := fun i _ => if c i then -1 else 1 with hε
  have hε' : ∀ i s, ε i s * ε i s = 1 := fun i s => by simp only [hε]; split_ifs <;> norm_num
  have hconj : signOp (signOfMode ε) * (hubInter (fun i : Fin F.nsites => F.us i) + hubRest F) * signOp (signOfMode ε) =
      -(hubInter (fun i : Fin F.nsites => (Opposite F).us i) + hubRest (Opposite F) : Op (F.nsites * F.nspecies) 2) := by
    have e := opposite_terms (T := fun i j s => F.ts i j s * hopWeight F i j) hε' (fun i j s hij => ?_) (fun i : Fin F.nsites => F.us i)
      (fun i j s => F.usSame i j s) (fun i s => F.pots i s - F.mus s)
    · refine e.trans ?_
      unfold hubRest
      have : (fun (i : Fin F.nsites) (s : Fin F.nspecies) => -(F.pots i s - F.mus s)) = fun (i : Fin F.nsites) (s : Fin F.nspecies) => -F.pots i s - -F.mus s := by
        funext i s
        ring
      rw [this]
      rfl
    · by_cases h0 : F.ts i j s * hopWeight F i j = 0
      · rw [h0, mul_zero, neg_zero]
      · have := hc i j s hij h0
        simp only [hε]
        cases hi : c i <;> cases hj : c j <;> simp_all
  obtain ⟨w, M, w', M', h1, h2, h3⟩ := opposite_core S hS F hn hs hAi hAi' hH hH' (F_real hr') c hconj
  exact ⟨A, w, M, A', w', M', hA, h1, hA', h2, h3⟩

/-! ## Example -/

/-- Two species of particles on four sites in a row with an interaction; every configuration can be the initial state. -/
def row4 (u : ℝ) : Fermions where
  nsites := 4
  nspecies := 2
  us _ := u
  usSame _ _ _ := 0
  ts i j _ := if i = j + 1 then 1 else 0
  xdist i j := (i : ℝ) - j
  ydist _ _ := 0
  pots _ _ := 0
  mus _ := 0

example (S : EigSolvers) (hS : EigContract S) (u : ℝ) (conf : Conf (4 * 2) 2) (init : Mat)
    (hi : init.Is (Matrix.of fun i (_ : Fin 1) => (Pi.single conf (1 : ℂ) : Conf (4 * 2) 2 → ℂ) i)) (times : List ℝ) :
    ∃ A w M A' w' M' ev ev', (row4 u).createH none = .ok A ∧ diagList S A = .ok (w, M) ∧ (row4 (-u)).createH none = .ok A' ∧ diagList S A' = .ok (w', M') ∧
      quenchTimeEvolve init M w times = .ok ev ∧ quenchTimeEvolve init M' w' times = .ok ev' ∧ SameDensities (row4 u) ev.asMat ev'.asMat := by
  have ho : Opposite (row4 u) = row4 (-u) := by
    simp [Opposite, row4]
  obtain ⟨A, w, M, A', w', M', h1, h2, h3, h4, h5⟩ := C151_opposite S hS (row4 u) (.inl (le_refl 2))
    (by constructor <;> intros <;> simp only [row4] <;> (try split_ifs) <;> simp) (by simp [row4]) (by simp [row4]) (c := fun i => decide ((i : ℕ) % 2 = 0)) (fun i j s hij h => by
      have : (i : ℕ) = j + 1 := by
        by_contra h'
        simp [row4, h'] at h
      simp only [this, ne_eq, decide_eq_decide]
      omega)
  rw [ho] at h3
  obtain ⟨ev, ev', e1, e2, e3⟩ := h5 init _ hi (fun t => by
    have h : ∀ x : Conf (4 * 2) 2, ((Pi.single conf (1 : ℂ) : Conf (4 * 2) 2 → ℂ) x).im = 0 := fun x => by rw [Pi.single_apply]; split_ifs <;> simp
    exact h t) (fun t t' a b => by
    have h : ∀ x, (Pi.single conf (1 : ℂ) : Conf (4 * 2) 2 → ℂ) x ≠ 0 → x = conf := fun x hx => by
      by_contra hne
      exact hx (Pi.single_eq_of_ne hne _)
    rw [h t a, h t' b]) times
  exact ⟨A, w, M, A', w', M', ev, ev', h1, h2, h3, h4, e1, e2, e3⟩

end ED.Props
