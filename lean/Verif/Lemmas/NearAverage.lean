import Verif.Lemmas.NearSectors
import Verif.Lemmas.GibbsIneq
import Verif.Props.Robust
import Mathlib.Analysis.CStarAlgebra.Matrix

/-! # Thermal averages from sectors, up to rounding errors -/

namespace ED

open Matrix Spec

section Norm

open scoped Matrix.Norms.L2Operator

variable {m n : Type} [Fintype m] [DecidableEq m] [Fintype n] [DecidableEq n]

theorem star_mulVec_conj (M : Matrix m n ℂ) (v : m → ℂ) : Mᴴ *ᵥ star v = star (v ᵥ* M) := by rw [star_vecMul]

theorem euclid_sq (v : m → ℂ) : ‖(WithLp.toLp 2 v : EuclideanSpace ℂ m)‖ = Real.sqrt (∑ i, ‖v i‖ ^ 2) := EuclideanSpace.norm_eq _

theorem l2_row (M : Matrix m n ℂ) (v : m → ℂ) : Real.sqrt (∑ j, ‖(v ᵥ* M) j‖ ^ 2) ≤ ‖M‖ * Real.sqrt (∑ i, ‖v i‖ ^ 2) := by
  have h := l2_opNorm_mulVec Mᴴ (WithLp.toLp 2 (star v))
  rw [l2_opNorm_conjTranspose] at h
  have e : (EuclideanSpace.equiv n ℂ).symm (Mᴴ *ᵥ (WithLp.toLp 2 (star v) : EuclideanSpace ℂ m).ofLp) = WithLp.toLp 2 (star (v ᵥ* M)) := by
    rw [← star_mulVec_conj]
    rfl
  rw [e, euclid_sq, euclid_sq] at h
  simpa only [Pi.star_apply, norm_star] using h

theorem l2_le {M : Matrix m n ℂ} {c : ℝ} (hc : 0 ≤ c)
    (h : ∀ v : m → ℂ, Real.sqrt (∑ j, ‖(v ᵥ* M) j‖ ^ 2) ≤ c * Real.sqrt (∑ i, ‖v i‖ ^ 2)) : ‖M‖ ≤ c := by
  rw [← l2_opNorm_conjTranspose, l2_opNorm_def]
  refine ContinuousLinearMap.opNorm_le_bound _ hc fun x => ?_
  have := h (star x.ofLp)
  have e : Mᴴ *ᵥ x.ofLp = star (star x.ofLp ᵥ* M) := by rw [← star_mulVec_conj, star_star]
  have e2 : (toEuclideanLin (𝕜 := ℂ) ≪≫ₗ LinearMap.toContinuousLinearMap) Mᴴ x = WithLp.toLp 2 (Mᴴ *ᵥ x.ofLp) := rfl
  rw [e2, e, euclid_sq, EuclideanSpace.norm_eq]
  simpa only [Pi.star_apply, norm_star] using this

theorem normLe_iff {M : Matrix m m ℂ} {c : ℝ} : NormLe M c ↔ ‖M‖ ≤ c := by
  constructor
  · rintro ⟨hc, h⟩
    refine l2_le hc fun v => Real.sqrt_le_iff.2 ⟨by positivity, ?_⟩
    rw [mul_pow, Real.sq_sqrt (Finset.sum_nonneg fun _ _ => by positivity)]
    exact h v
  · intro h
    refine ⟨(norm_nonneg _).trans h, fun v => ?_⟩
    have := l2_row M v
    have h0 : 0 ≤ ∑ i, ‖v i‖ ^ 2 := Finset.sum_nonneg fun _ _ => by positivity
    have h1 := pow_le_pow_left₀ (Real.sqrt_nonneg _) (this.trans (mul_le_mul_of_nonneg_right h (Real.sqrt_nonneg _))) 2
    rwa [mul_pow, Real.sq_sqrt h0, Real.sq_sqrt (Finset.sum_nonneg fun _ _ => by positivity)] at h1

theorem l2_isometry {X : Matrix m n ℂ} (h : X * Xᴴ = 1) : ‖X‖ ≤ 1 := by
  refine l2_le zero_le_one fun v => ?_
  have := sq_mulVec (X := Xᴴ) (by rw [conjTranspose_conjTranspose, h]) (star v)
  rw [star_mulVec_conj] at this
  simp only [Pi.star_apply, norm_star] at this
  rw [this, one_mul]

/-- The compressions of an operator to close subspaces are close. -/
theorem compress_near {X W : Matrix m n ℂ} {O : Matrix n n ℂ} {κ c : ℝ} (hX : X * Xᴴ = 1) (h : ‖W - X‖ ≤ κ) (hO : NormLe O c) :
    NormLe (X * O * Xᴴ) c ∧ NormLe (W * O * Wᴴ - X * O * Xᴴ) (c * κ * (2 + κ)) := by
  have h1 := l2_isometry hX
  have hc := normLe_iff.1 hO
  have hc0 := hO.1
  have hκ : 0 ≤ κ := (norm_nonneg _).trans h
  have hW : ‖W‖ ≤ 1 + κ := by
    have := norm_add_le (W - X) X
    rw [sub_add_cancel] at this
    linarith
  have mul3 : ∀ (A B : Matrix m n ℂ) (a b : ℝ), ‖A‖ ≤ a → ‖B‖ ≤ b → 0 ≤ a → ‖A * O * Bᴴ‖ ≤ a * c * b := by
    intro A B a b ha hb ha0
    refine (l2_opNorm_mul _ _).trans ?_
    rw [l2_opNorm_conjTranspose]
    refine mul_le_mul ((l2_opNorm_mul _ _).trans (mul_le_mul ha hc (norm_nonneg _) ha0)) hb (norm_nonneg _) (by positivity)
  refine ⟨normLe_iff.2 ?_, normLe_iff.2 ?_⟩
  · have := mul3 X X 1 1 h1 h1 zero_le_one
    linarith
  · have e : W * O * Wᴴ - X * O * Xᴴ = (W - X) * O * Wᴴ + X * O * (W - X)ᴴ := by
      rw [conjTranspose_sub, Matrix.mul_sub, Matrix.sub_mul, Matrix.sub_mul]
      abel
    rw [e]
    refine (norm_add_le _ _).trans ?_
    have b1 := mul3 (W - X) W κ (1 + κ) h hW hκ
    have b2 := mul3 X (W - X) 1 κ h1 h zero_le_one
    linarith

end Norm

section Blocks

variable {r : ℕ} {m : Fin r → ℕ}

theorem normLe_blocks {M : ∀ i, Matrix (Fin (m i)) (Fin (m i)) ℂ} {c : ℝ} (hc : 0 ≤ c) (h : ∀ i, NormLe (M i) c) :
    NormLe (blockDiagonal' M) c := by
  refine ⟨hc, fun v => ?_⟩
  have e : ∀ (i : Fin r) (x : Fin (m i)), (v ᵥ* blockDiagonal' M) ⟨i, x⟩ = ((fun y => v ⟨i, y⟩) ᵥ* M i) x := by
    intro i x
    simp only [vecMul, dotProduct]
    rw [Fintype.sum_sigma, Finset.sum_eq_single i]
    · simp only [blockDiagonal'_apply_eq]
    · intro j _ hj
      refine Finset.sum_eq_zero fun y _ => ?_
      rw [blockDiagonal'_apply_ne _ _ _ hj, mul_zero]
    · simp
  rw [Fintype.sum_sigma, Fintype.sum_sigma, Finset.mul_sum]
  refine Finset.sum_le_sum fun i _ => ?_
  simp only [e]
  exact (h i).2 _

/-- The average of the diagonal blocks in the ensemble of a block diagonal Hamiltonian. -/
theorem thermalAvg_blocks {D : ∀ i, Matrix (Fin (m i)) (Fin (m i)) ℂ} (hD : ∀ i, (D i).IsHermitian)
    (Z : Matrix (Σ i, Fin (m i)) (Σ i, Fin (m i)) ℂ) {T : ℝ} (hT : T ≠ 0) :
    thermalAvg (blockDiagonal' D) Z T = thermalAvg (blockDiagonal' D) (blockDiagonal' fun i => Matrix.of fun x y => Z ⟨i, x⟩ ⟨i, y⟩) T := by
  choose V E h1 h2 h3 using fun i => eig_exists (hD i)
  have k1 : (blockDiagonal' V)ᴴ * blockDiagonal' V = 1 := by
    rw [blockDiagonal'_conjTranspose, ← blockDiagonal'_mul]
    simp only [h1]
    exact blockDiagonal'_one
  have k2 : blockDiagonal' V * (blockDiagonal' V)ᴴ = 1 := by
    rw [blockDiagonal'_conjTranspose, ← blockDiagonal'_mul]
    simp only [h2]
    exact blockDiagonal'_one
  have k3 : blockDiagonal' D * blockDiagonal' V = blockDiagonal' V * diagonal fun p : Σ i, Fin (m i) => (E p.1 p.2 : ℂ) := by
    rw [← blockDiagonal'_mul]
    simp only [h3]
    rw [blockDiagonal'_mul, blockDiagonal'_diagonal]
  rw [thermalAvg_eig k1 k2 k3 _ hT, thermalAvg_eig k1 k2 k3 _ hT]
  congr 1
  funext ⟨i, k⟩
  congr 1
  unfold expect
  have hc : ∀ p : Σ i, Fin (m i), p.1 ≠ i → colOf (blockDiagonal' V) ⟨i, k⟩ p = 0 := by
    rintro ⟨j, y⟩ hj
    exact blockDiagonal'_apply_ne V _ _ hj
  have hs : ∀ f : (Σ i, Fin (m i)) → ℂ, (∀ p, p.1 ≠ i → f p = 0) → ∑ p, f p = ∑ x, f ⟨i, x⟩ := by
    intro f hf
    rw [Fintype.sum_sigma, Finset.sum_eq_single i]
    · intro j _ hj
      exact Finset.sum_eq_zero fun y _ => hf _ hj
    · simp
  simp only [dotProduct, mulVec, Pi.star_apply]
  rw [hs _ fun p hp => by rw [hc p hp, star_zero, zero_mul], hs _ fun p hp => by rw [hc p hp, star_zero, zero_mul]]
  refine Finset.sum_congr rfl fun x _ => ?_
  congr 1
  rw [hs _ fun p hp => by rw [hc p hp, mul_zero], hs _ fun p hp => by rw [hc p hp, mul_zero]]
  refine Finset.sum_congr rfl fun y _ => ?_
  rw [blockDiagonal'_apply_eq, of_apply]

end Blocks

theorem thermalAvg_unitary {ι κ : Type} [Fintype ι] [DecidableEq ι] [Fintype κ] [DecidableEq κ] {X : Matrix κ ι ℂ} (h1 : X * Xᴴ = 1)
    (h2 : Xᴴ * X = 1) {H : Matrix ι ι ℂ} (hH : H.IsHermitian) (O : Matrix ι ι ℂ) {T : ℝ} (hT : T ≠ 0) :
    thermalAvg (X * H * Xᴴ) (X * O * Xᴴ) T = thermalAvg H O T := by
  obtain ⟨V, E, v1, v2, v3⟩ := eig_exists hH
  have k1 : (X * V)ᴴ * (X * V) = 1 := by
    rw [conjTranspose_mul, Matrix.mul_assoc, ← Matrix.mul_assoc Xᴴ, h2, Matrix.one_mul, v1]
  have k2 : X * V * (X * V)ᴴ = 1 := by
    rw [conjTranspose_mul, Matrix.mul_assoc, ← Matrix.mul_assoc V, v2, Matrix.one_mul, h1]
  have k3 : X * H * Xᴴ * (X * V) = X * V * diagonal fun k => (E k : ℂ) := by
    calc X * H * Xᴴ * (X * V) = X * H * (Xᴴ * X) * V := by simp only [Matrix.mul_assoc]
      _ = X * (H * V) := by rw [h2, Matrix.mul_one, Matrix.mul_assoc]
      _ = _ := by rw [v3, Matrix.mul_assoc]
  rw [thermalAvg_eig k1 k2 k3 _ hT, thermalAvg_eig v1 v2 v3 _ hT]
  congr 1
  funext k
  rw [expect_entry, expect_entry]
  refine congrArg (fun M : Matrix _ _ ℂ => (M k k).re) ?_
  calc (X * V)ᴴ * (X * O * Xᴴ) * (X * V) = Vᴴ * (Xᴴ * X) * O * (Xᴴ * X) * V := by
        rw [conjTranspose_mul]
        simp only [Matrix.mul_assoc]
    _ = _ := by rw [h2, Matrix.mul_one, Matrix.mul_one]

theorem thermalAvg_sub {ι : Type} [Fintype ι] [DecidableEq ι] (H O O' : Matrix ι ι ℂ) (T : ℝ) :
    thermalAvg H (O - O') T = thermalAvg H O T - thermalAvg H O' T := by
  unfold thermalAvg
  rw [Matrix.mul_sub, trace_sub, Complex.sub_re]

/-- Averages in sectors that are close to exact sectors, and what they are combined to. -/
theorem near_blocks (S : EigSolvers) (hS : EigContract S) {d : ℕ} (hd : 0 < d) {projs : List (Rows d)}
    {H : Matrix (Fin d) (Fin d) ℂ} {κ C : ℝ} (h : NearSectors projs H κ) (hκ : 0 ≤ κ)
    (hC : NormLe H C) (hH : H.IsHermitian) {A : Mat} (hA : A.Is H) {Ms : List Mat} (hMs : List.Forall₂ RowsOf Ms projs) :
    ∃ (r : ℕ) (Q : Fin (r + 1) → Mat) (n : Fin (r + 1) → ℕ) (P : ∀ i, Matrix (Fin (n i)) (Fin d) ℂ) (A' : Fin (r + 1) → Mat)
      (w : Fin (r + 1) → List ℝ) (M : Fin (r + 1) → Mat), Ms = List.ofFn Q ∧ (∀ i, (Q i).Is (P i)) ∧ (∀ i, inSector (Q i) A = .ok (A' i)) ∧
      (∀ i, diagList S (A' i) = .ok (w i, M i)) ∧
      (∀ i, ∃ (m : ℕ) (E : Fin (m + 1) → ℝ) (V : Matrix (Fin (n i)) (Fin (m + 1)) ℂ), w i = List.ofFn E ∧ (M i).Is V) ∧
      ∀ (O : Matrix (Fin d) (Fin d) ℂ) (c : ℝ), NormLe O c → ∀ B' : Fin (r + 1) → Mat, (∀ i, (B' i).Is (P i * O * (P i)ᴴ)) →
        ∀ T : ℝ, 0 < T → ∃ (a : Fin (r + 1) → ℝ) (x : ℝ), (∀ i, expValsThermal (M i) (B' i) (w i) T = .ok (a i)) ∧
          thermalAvgCombine (List.ofFn a) (List.ofFn w) T = .ok x ∧ |x - thermalAvg H O T| ≤ c * κ * (2 + κ) * (1 + 2 * C / T) := by
  have hr : projs ≠ [] := by
    rintro rfl
    obtain ⟨X, hX, -⟩ := h.exact
    have e := congrArg (fun M : Matrix (Fin d) (Fin d) ℂ => M ⟨0, hd⟩ ⟨0, hd⟩) hX.complete
    simp only [one_apply_eq] at e
    haveI : IsEmpty (Fin ([] : List (Rows d)).length) := ⟨fun i => absurd i.2 (by simp)⟩
    rw [Finset.univ_eq_empty, Finset.sum_empty] at e
    exact zero_ne_one e
  obtain ⟨Q0, rest, rfl⟩ := List.exists_cons_of_ne_nil hr
  set projs := Q0 :: rest with hprojs
  set P : ∀ i : Fin projs.length, Matrix (Fin (projs[i]).length) (Fin d) ℂ := fun i => Matrix.of fun a j => (projs[i])[a] j with hP
  have hMl : Ms.length = projs.length := hMs.length_eq
  have hPi : ∀ i : Fin projs.length, (Ms[(i : ℕ)]'(by rw [hMl]; exact i.2)).Is (P i) := fun i =>
    hMs.get (by rw [hMl]; exact i.2) i.2
  choose A' a1 a2 using fun i => (hPi i).inSector hA
  have hne : ∀ i : Fin projs.length, Nonempty (Fin (projs[i]).length) := fun i =>
    ⟨⟨0, List.length_pos_of_ne_nil (h.nonempty _ (List.getElem_mem _))⟩⟩
  have herm : ∀ {m : ℕ} (W : Matrix (Fin m) (Fin d) ℂ), (W * H * Wᴴ).IsHermitian := by
    intro m W
    unfold Matrix.IsHermitian
    rw [conjTranspose_mul, conjTranspose_mul, conjTranspose_conjTranspose, hH, Matrix.mul_assoc]
  choose m E' M' V' k1 k2 k3 k4 k5 _ using fun i => Props.diagList_ok S hS (a2 i) (herm (P i))
  obtain ⟨X, hX, hn⟩ := h.exact
  set XX : Matrix (Σ i : Fin projs.length, Fin (projs[i]).length) (Fin d) ℂ := Matrix.of fun p j => X p.1 p.2 j with hXX
  have hXX1 : XX * XXᴴ = 1 := by
    ext ⟨i, x⟩ ⟨j, y⟩
    have e : (XX * XXᴴ) ⟨i, x⟩ ⟨j, y⟩ = (X i * (X j)ᴴ) x y := rfl
    rw [e]
    by_cases hij : i = j
    · subst hij
      rw [hX.normal, one_apply, one_apply]
      refine if_congr ?_ rfl rfl
      rw [Sigma.mk.injEq]
      simp
    · rw [hX.orthogonal i j hij, one_apply_ne (fun e => hij (congrArg Sigma.fst e))]
      rfl
  have hXX2 : XXᴴ * XX = 1 := by
    rw [← hX.complete]
    ext i j
    rw [mul_apply, Matrix.sum_apply, Fintype.sum_sigma]
    rfl
  haveI : Nonempty (Σ i : Fin projs.length, Fin (projs[i]).length) := ⟨⟨⟨0, by simp [hprojs]⟩, (hne _).some⟩⟩
  have hnear : ∀ i, letI := Matrix.instL2OpNormedAddCommGroup (m := Fin (projs[i]).length) (n := Fin d) (𝕜 := ℂ); ‖P i - X i‖ ≤ κ := by
    intro i
    refine l2_le hκ fun v => ?_
    have := hn i v
    rw [rnorm_eq] at this
    exact this
  have cH := fun i => compress_near (hX.normal i) (hnear i) hC
  have C0 := hC.1
  -- the blocks
  have hblk : ∀ Z : Matrix (Fin d) (Fin d) ℂ, (fun i => Matrix.of fun x y => (XX * Z * XXᴴ) ⟨i, x⟩ ⟨i, y⟩) = fun i => X i * Z * (X i)ᴴ := by
    intro Z
    funext i
    rfl
  have hD0 : XX * H * XXᴴ = blockDiagonal' fun i => X i * H * (X i)ᴴ := by
    ext ⟨i, x⟩ ⟨j, y⟩
    have e : (XX * H * XXᴴ) ⟨i, x⟩ ⟨j, y⟩ = (X i * H * (X j)ᴴ) x y := rfl
    rw [e]
    by_cases hij : i = j
    · subst hij
      rw [blockDiagonal'_apply_eq]
    · rw [blockDiagonal'_apply_ne _ _ _ hij, hX.block i j hij]
      rfl
  have hherm : ∀ W : ∀ i : Fin projs.length, Matrix (Fin (projs[i]).length) (Fin d) ℂ,
      (blockDiagonal' fun i => W i * H * (W i)ᴴ).IsHermitian := by
    intro W
    unfold Matrix.IsHermitian
    rw [blockDiagonal'_conjTranspose]
    congr 1
    funext i
    exact herm (W i)
  refine ⟨rest.length, fun i : Fin projs.length => Ms[(i : ℕ)]'(by rw [hMl]; exact i.2), fun i : Fin projs.length => (projs[i]).length, P, A',
    fun i => List.ofFn (E' i), M', ?_, hPi, a1, k1, fun i => ⟨m i, E' i, V' i, rfl, k2 i⟩, fun O c hc B' b2 T hT => ?_⟩
  · apply List.ext_getElem
    · rw [List.length_ofFn, hMl]
      rfl
    · intro k h1 h2
      rw [List.getElem_ofFn]
  have c0 := hc.1
  have cO := fun i => compress_near (hX.normal i) (hnear i) hc
  have t1 : thermalAvg H O T = thermalAvg (blockDiagonal' fun i => X i * H * (X i)ᴴ) (blockDiagonal' fun i => X i * O * (X i)ᴴ) T := by
    rw [← thermalAvg_unitary hXX1 hXX2 hH O hT.ne', hD0, thermalAvg_blocks (fun i => herm (X i)) _ hT.ne', hblk]
  have t2 : |thermalAvg (blockDiagonal' fun i => X i * H * (X i)ᴴ) (blockDiagonal' fun i => X i * O * (X i)ᴴ) T -
      thermalAvg (blockDiagonal' fun i => P i * H * (P i)ᴴ) (blockDiagonal' fun i => X i * O * (X i)ᴴ) T| ≤
      2 * (C * κ * (2 + κ)) * c / T := by
    refine thermalAvg_near (hherm X) (hherm P) hT ?_ (normLe_blocks c0 fun i => (cO i).1)
    rw [← blockDiagonal'_sub]
    exact normLe_blocks (by positivity) fun i => (cH i).2
  have t3 : |thermalAvg (blockDiagonal' fun i => P i * H * (P i)ᴴ) (blockDiagonal' fun i => P i * O * (P i)ᴴ) T -
      thermalAvg (blockDiagonal' fun i => P i * H * (P i)ᴴ) (blockDiagonal' fun i => X i * O * (X i)ᴴ) T| ≤ c * κ * (2 + κ) := by
    rw [← thermalAvg_sub, ← blockDiagonal'_sub]
    exact Props.thermalAvg_le (hherm P) T (normLe_blocks (by positivity) fun i => (cO i).2)
  obtain ⟨a, e1, e2⟩ := Props.C21_combine (r := rest.length) (ι := fun i : Fin projs.length => Fin (projs[i]).length) (fun i => k2 i)
    (fun i => b2 i) E' T (Or.inl hT.ne')
  have q1 : (blockDiagonal' V')ᴴ * blockDiagonal' V' = 1 := by
    rw [blockDiagonal'_conjTranspose, ← blockDiagonal'_mul]
    simp only [k3]
    exact blockDiagonal'_one
  have q2 : blockDiagonal' V' * (blockDiagonal' V')ᴴ = 1 := by
    rw [blockDiagonal'_conjTranspose, ← blockDiagonal'_mul]
    simp only [k4]
    exact blockDiagonal'_one
  have q3 : (blockDiagonal' fun i => P i * H * (P i)ᴴ) * blockDiagonal' V' =
      blockDiagonal' V' * diagonal fun p : Σ i : Fin projs.length, Fin (m i + 1) => (E' p.1 p.2 : ℂ) := by
    rw [← blockDiagonal'_mul]
    simp only [k5]
    rw [blockDiagonal'_mul, blockDiagonal'_diagonal]
  have e3 : ∀ p : Σ i : Fin projs.length, Fin (m i + 1), expect (blockDiagonal' fun i => P i * O * (P i)ᴴ) (colOf (blockDiagonal' V') p) =
      expect (P p.1 * O * (P p.1)ᴴ) (colOf (V' p.1) p.2) := by
    rintro ⟨i, k⟩
    rw [expect_entry, expect_entry, blockDiagonal'_conjTranspose, ← blockDiagonal'_mul, ← blockDiagonal'_mul, blockDiagonal'_apply_eq]
  have e4 := thermalAvg_eig q1 q2 q3 (blockDiagonal' fun i => P i * O * (P i)ᴴ) hT.ne'
  simp only [e3] at e4
  refine ⟨a, _, e1, e2, ?_⟩
  have e5 : |thermalAvg (blockDiagonal' fun i => P i * H * (P i)ᴴ) (blockDiagonal' fun i => P i * O * (P i)ᴴ) T - thermalAvg H O T| ≤
      c * κ * (2 + κ) * (1 + 2 * C / T) := by
    rw [t1]
    have := abs_sub_le (thermalAvg (blockDiagonal' fun i => P i * H * (P i)ᴴ) (blockDiagonal' fun i => P i * O * (P i)ᴴ) T)
      (thermalAvg (blockDiagonal' fun i => P i * H * (P i)ᴴ) (blockDiagonal' fun i => X i * O * (X i)ᴴ) T)
      (thermalAvg (blockDiagonal' fun i => X i * H * (X i)ᴴ) (blockDiagonal' fun i => X i * O * (X i)ᴴ) T)
    rw [abs_sub_comm] at t2
    have e : c * κ * (2 + κ) * (1 + 2 * C / T) = c * κ * (2 + κ) + 2 * (C * κ * (2 + κ)) * c / T := by
      field_simp
    rw [e]
    linarith
  rw [e4] at e5
  exact e5

/-- The average from sectors that are close to exact sectors is close to the average in the ensemble of the whole Hamiltonian. -/
theorem near_average (S : EigSolvers) (hS : EigContract S) {d : ℕ} (hd : 0 < d) {projs : List (Rows d)}
    {H O : Matrix (Fin d) (Fin d) ℂ} {κ C c : ℝ} (h : NearSectors projs H κ) (hκ : 0 ≤ κ)
    (hC : NormLe H C) (hc : NormLe O c) (hH : H.IsHermitian) {A B : Mat} (hA : A.Is H) (hB : B.Is O) {Ms : List Mat}
    (hMs : List.Forall₂ RowsOf Ms projs) {T : ℝ} (hT : 0 < T) :
    ∃ a, sectorAverage S A Ms B T = .ok a ∧ |a - thermalAvg H O T| ≤ c * κ * (2 + κ) * (1 + 2 * C / T) := by
  obtain ⟨r, Q, n, P, A', w, M, rfl, q1, q2, q3, -, q4⟩ := near_blocks S hS hd h hκ hC hH hA hMs
  choose B' b1 b2 using fun i => (q1 i).inSector hB
  obtain ⟨a, x, e1, e2, e3⟩ := q4 O c hc B' b2 T hT
  refine ⟨x, ?_, e3⟩
  unfold sectorAverage
  rw [mapM_ofFn _ _ (fun i => (a i, w i)) fun i => by simp only [q2, b1, q3, e1, bind, Except.bind, pure, Except.pure]]
  simp only [bind, Except.bind, List.map_ofFn]
  exact e2

end ED
