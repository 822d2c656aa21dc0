import Verif.Spec.Eig
import Verif.Lemmas.Gives
import Mathlib.Analysis.Matrix.Spectrum
import Mathlib.Data.Fin.Tuple.Sort

/-! # Property C101: diagonalization -/

namespace ED.Props

open Matrix

/-- Reordering the eigenpairs. -/
private theorem EigPairs.perm {n k : ℕ} {H : Matrix (Fin n) (Fin n) ℂ} {w : Fin k → ℝ} {V : Matrix (Fin n) (Fin k) ℂ}
    (h : EigPairs H w V) (σ : Equiv.Perm (Fin k)) :
    EigPairs H (fun i => w (σ i)) (V.submatrix id σ) := by
  constructor
  · have e : (V.submatrix id σ)ᴴ * V.submatrix id σ = (Vᴴ * V).submatrix σ σ := by
      ext i j
      simp [Matrix.mul_apply]
    rw [e, h.orthonormal]
    ext i j
    simp [Matrix.one_apply]
  · ext i j
    have := congrFun (congrFun h.eigen i) (σ j)
    rw [Matrix.mul_diagonal] at this ⊢
    simpa [Matrix.mul_apply] using this

private theorem lowerHerm_of {n : ℕ} {H : Matrix (Fin n) (Fin n) ℂ} (h : H.IsHermitian) : lowerHerm H = H := by
  ext i j
  unfold lowerHerm
  rcases lt_trichotomy i j with hij | rfl | hij
  · rw [if_neg (not_lt.2 hij.le), if_pos hij]
    exact congrFun (congrFun h i) j
  · rw [if_neg (lt_irrefl _), if_neg (lt_irrefl _)]
    exact Complex.conj_eq_iff_re.1 (congrFun (congrFun h i) i)
  · rw [if_pos hij]

private theorem lowerHerm_isHermitian {n : ℕ} (H : Matrix (Fin n) (Fin n) ℂ) : (lowerHerm H).IsHermitian := by
  ext i j
  rw [conjTranspose_apply]
  unfold lowerHerm
  rcases lt_trichotomy i j with hij | rfl | hij
  · rw [if_pos hij, if_neg (not_lt.2 hij.le), if_pos hij]
  · rw [if_neg (lt_irrefl _), if_neg (lt_irrefl _)]
    exact Complex.conj_ofReal _
  · rw [if_neg (not_lt.2 hij.le), if_pos hij, if_pos hij, star_star]

/-- What the dense branch returns for any square matrix. -/
private theorem dense {S : EigSolvers} (hS : EigContract S) {n : ℕ} {A : Mat} {H : Matrix (Fin n) (Fin n) ℂ}
    (hA : A.Is H) (neigs : ℕ) :
    ∃ (w : ℕ → ℝ) (M : Mat) (V : Matrix (Fin n) (Fin n) ℂ), diagH S A neigs false = .ok (n, w, M) ∧ M.Is V ∧
      EigPairs (lowerHerm H) (fun i => w i) V ∧ Monotone fun i : Fin n => w i := by
  have hr : A.rows = n := by simpa using hA.1
  have hc : A.cols = n := by simpa using hA.2.1
  obtain ⟨V, hV, hp⟩ := hS.eigh n A H hA
  obtain ⟨σ, hσ, hmon⟩ := hS.argsort n (S.eigh A).1
  refine ⟨fun i => (S.eigh A).1 (S.argsort n (S.eigh A).1 i),
    ⟨(S.eigh A).2.rows, n, fun r c => (S.eigh A).2.e r (S.argsort n (S.eigh A).1 c)⟩, V.submatrix id σ, ?_, ?_, ?_, ?_⟩
  · unfold diagH
    simp only [Bool.false_eq_true, if_false]
    rw [if_pos (hr.trans hc.symm), hr]
    rfl
  · refine ⟨hV.1, by simp, fun i j => ?_⟩
    have := hV.2.2 i (σ j)
    simp only [Matrix.submatrix_apply, id]
    rw [← this]
    change (S.eigh A).2.e i (S.argsort n (S.eigh A).1 j) = _
    rw [hσ]
    rfl
  · have := EigPairs.perm hp σ
    simp only [← hσ] at this
    exact this
  · simp only [← hσ] at hmon
    exact hmon

/-- C101, dense: for every Hermitian matrix the energies are returned in ascending order and the columns are a complete
orthonormal set of eigenvectors, in the order of the energies. -/
theorem C101_dense (S : EigSolvers) (hS : EigContract S) {n : ℕ} (A : Mat) (H : Matrix (Fin n) (Fin n) ℂ)
    (hA : A.Is H) (hH : H.IsHermitian) (neigs : ℕ) :
    ∃ (w : ℕ → ℝ) (M : Mat) (V : Matrix (Fin n) (Fin n) ℂ), diagH S A neigs false = .ok (n, w, M) ∧ M.Is V ∧
      Vᴴ * V = 1 ∧ V * Vᴴ = 1 ∧ H * V = V * Matrix.diagonal (fun i : Fin n => (w i : ℂ)) ∧
      (∀ i j : Fin n, i ≤ j → w i ≤ w j) := by
  obtain ⟨w, M, V, h1, h2, h3, h4⟩ := dense hS hA neigs
  rw [lowerHerm_of hH] at h3
  exact ⟨w, M, V, h1, h2, h3.orthonormal, mul_eq_one_comm.1 h3.orthonormal, h3.eigen, h4⟩

/-- C101, dense, the assumption is needed: for every square matrix that is not Hermitian what is returned are not
eigenpairs; they are those of another matrix. -/
theorem C101_dense_not_hermitian (S : EigSolvers) (hS : EigContract S) {n : ℕ} (A : Mat)
    (H : Matrix (Fin n) (Fin n) ℂ) (hA : A.Is H) (hH : ¬ H.IsHermitian) (neigs : ℕ) :
    ∃ (w : ℕ → ℝ) (M : Mat) (V : Matrix (Fin n) (Fin n) ℂ), diagH S A neigs false = .ok (n, w, M) ∧ M.Is V ∧
      H * V ≠ V * Matrix.diagonal (fun i : Fin n => (w i : ℂ)) := by
  obtain ⟨w, M, V, h1, h2, h3, h4⟩ := dense hS hA neigs
  refine ⟨w, M, V, h1, h2, fun h => hH ?_⟩
  have hV : V * Vᴴ = 1 := mul_eq_one_comm.1 h3.orthonormal
  have e : H = lowerHerm H := by
    calc H = H * V * Vᴴ := by rw [Matrix.mul_assoc, hV, Matrix.mul_one]
      _ = lowerHerm H * V * Vᴴ := by rw [h, h3.eigen]
      _ = lowerHerm H := by rw [Matrix.mul_assoc, hV, Matrix.mul_one]
  rw [e]
  exact lowerHerm_isHermitian H

/-- What the sparse branch returns. -/
private theorem sparse {S : EigSolvers} (hS : EigContract S) {n : ℕ} {A : Mat} {H : Matrix (Fin n) (Fin n) ℂ}
    (hA : A.Is H) (hH : H.IsHermitian) {neigs : ℕ} (h0 : 0 < neigs) (hn : neigs < n) :
    ∃ (w : ℕ → ℝ) (M : Mat) (V : Matrix (Fin n) (Fin neigs) ℂ), diagH S A neigs true = .ok (neigs, w, M) ∧ M.Is V ∧
      EigPairs H (fun i => w i) V ∧ (Monotone fun i : Fin neigs => w i) ∧
      ∀ (μ : ℝ) (v : Fin n → ℂ), v ≠ 0 → H.mulVec v = (μ : ℂ) • v → Vᴴ.mulVec v = 0 →
        ∀ i : Fin neigs, |μ + 100| ≤ |w i + 100| := by
  have hr : A.rows = n := by simpa using hA.1
  have hc : A.cols = n := by simpa using hA.2.1
  have heye : (Mat.eye A.rows).Is (1 : Matrix (Fin n) (Fin n) ℂ) := Mat.is_eye (by simpa using hr)
  obtain ⟨B, hB, hB'⟩ := hA.add (heye.smul 100)
  have hBr : B.rows = n := by simpa using hB'.1
  have hHB : (H + (100 : ℂ) • (1 : Matrix (Fin n) (Fin n) ℂ)).IsHermitian := by
    unfold IsHermitian
    rw [conjTranspose_add, conjTranspose_smul, conjTranspose_one, hH]
    simp
  obtain ⟨V, hV, hp, ho⟩ := hS.eigsh n neigs B _ hB' hHB hn
  obtain ⟨σ, hσ, hmon⟩ := hS.argsort neigs (fun i => (S.eigsh B neigs).1 i - 100)
  have hp' : EigPairs H (fun i : Fin neigs => (S.eigsh B neigs).1 i - 100) V := by
    refine ⟨hp.orthonormal, ?_⟩
    have := hp.eigen
    rw [Matrix.add_mul, Matrix.smul_mul, Matrix.one_mul] at this
    rw [eq_sub_of_add_eq this]
    ext i j
    rw [Matrix.sub_apply, Matrix.mul_diagonal, Matrix.mul_diagonal, Matrix.smul_apply]
    push_cast
    rw [smul_eq_mul]
    ring
  let x : ℕ → ℝ := fun i => (S.eigsh B neigs).1 i - 100
  refine ⟨fun i => x (S.argsort neigs x i),
    ⟨(S.eigsh B neigs).2.rows, neigs, fun r c => (S.eigsh B neigs).2.e r (S.argsort neigs x c)⟩, V.submatrix id σ,
    ?_, ?_, ?_, ?_, ?_⟩
  · unfold diagH
    simp only [if_true]
    rw [hB]
    simp only [bind, Except.bind]
    rw [if_neg h0.ne', if_neg (by omega)]
    rfl
  · refine ⟨hV.1, by simp, fun i j => ?_⟩
    have := hV.2.2 i (σ j)
    simp only [Matrix.submatrix_apply, id]
    rw [← this]
    change (S.eigsh B neigs).2.e i (S.argsort neigs (fun i => (S.eigsh B neigs).1 i - 100) j) = _
    rw [hσ]
    rfl
  · have := EigPairs.perm hp' σ
    simp only [← hσ] at this
    exact this
  · simp only [← hσ] at hmon
    exact hmon
  · intro μ v hv hμ hVv i
    simp only [x]
    rw [hσ, sub_add_cancel]
    refine ho (μ + 100) v hv ?_ ?_ (σ i)
    · rw [Matrix.add_mulVec, hμ, Matrix.smul_mulVec, Matrix.one_mulVec, ← add_smul]
      push_cast
      rfl
    · funext j
      have := congrFun hVv (σ.symm j)
      simpa [Matrix.mulVec, dotProduct] using this

/-- C101 (what holds of the sparse branch): `neigs` orthonormal eigenvectors with ascending energies. Missing for the
full claim: that they are the lowest ones, see the next two theorems. -/
theorem C101_sparse_partial (S : EigSolvers) (hS : EigContract S) {n : ℕ} (A : Mat) (H : Matrix (Fin n) (Fin n) ℂ)
    (hA : A.Is H) (hH : H.IsHermitian) (neigs : ℕ) (h0 : 0 < neigs) (hn : neigs < n) :
    ∃ (w : ℕ → ℝ) (M : Mat) (V : Matrix (Fin n) (Fin neigs) ℂ), diagH S A neigs true = .ok (neigs, w, M) ∧ M.Is V ∧
      Vᴴ * V = 1 ∧ H * V = V * Matrix.diagonal (fun i : Fin neigs => (w i : ℂ)) ∧ (∀ i j : Fin neigs, i ≤ j → w i ≤ w j) := by
  obtain ⟨w, M, V, h1, h2, h3, h4, _⟩ := sparse hS hA hH h0 hn
  exact ⟨w, M, V, h1, h2, h3.orthonormal, h3.eigen, h4⟩

/-- C101 fails for the sparse branch: if all energies are at least -100 the states returned are the highest ones: every
other eigenvector (orthogonal to the returned ones) has an energy not above any returned energy. -/
theorem C101_sparse_highest (S : EigSolvers) (hS : EigContract S) {n : ℕ} (A : Mat) (H : Matrix (Fin n) (Fin n) ℂ)
    (hA : A.Is H) (hH : H.IsHermitian) (neigs : ℕ) (h0 : 0 < neigs) (hn : neigs < n)
    (hlow : ∀ (μ : ℝ) (v : Fin n → ℂ), v ≠ 0 → H.mulVec v = (μ : ℂ) • v → -100 ≤ μ) :
    ∃ (w : ℕ → ℝ) (M : Mat) (V : Matrix (Fin n) (Fin neigs) ℂ), diagH S A neigs true = .ok (neigs, w, M) ∧ M.Is V ∧
      ∀ (μ : ℝ) (v : Fin n → ℂ), v ≠ 0 → H.mulVec v = (μ : ℂ) • v → Vᴴ.mulVec v = 0 → ∀ i : Fin neigs, μ ≤ w i := by
  obtain ⟨w, M, V, h1, h2, h3, h4, h5⟩ := sparse hS hA hH h0 hn
  refine ⟨w, M, V, h1, h2, fun μ v hv hμ ho i => ?_⟩
  have hcol : V.col i ≠ 0 := by
    intro h
    have := congrFun (congrFun h3.orthonormal i) i
    rw [Matrix.mul_apply, Matrix.one_apply_eq] at this
    have hz : ∀ j, V j i = 0 := fun j => congrFun h j
    simp [hz] at this
  have hei : H.mulVec (V.col i) = ((w i : ℝ) : ℂ) • V.col i := by
    funext j
    have := congrFun (congrFun h3.eigen j) i
    rw [Matrix.mul_diagonal] at this
    simp only [Pi.smul_apply, smul_eq_mul, Matrix.col_apply]
    rw [mul_comm, ← this]
    rfl
  have a1 := hlow (w i) _ hcol hei
  have a2 := hlow μ v hv hμ
  have := h5 μ v hv hμ ho i
  rw [abs_of_nonneg (by linarith), abs_of_nonneg (by linarith)] at this
  linarith

/-- C101 fails for the sparse branch: of the energies 0 and 1 of a two-level system the single one returned is 1. -/
theorem C101_sparse_ground_state_violated (S : EigSolvers) (hS : EigContract S) :
    ∃ (w : ℕ → ℝ) (M : Mat), diagH S (Mat.lit2 0 0 0 1) 1 true = .ok (1, w, M) ∧ w 0 = 1 := by
  have hA : (Mat.lit2 0 0 0 1).Is (Matrix.diagonal ![0, 1] : Matrix (Fin 2) (Fin 2) ℂ) := by
    refine ⟨rfl, rfl, fun i j => ?_⟩
    fin_cases i <;> fin_cases j <;> simp [Mat.lit2, Basis.num]
  have hH : (Matrix.diagonal ![0, 1] : Matrix (Fin 2) (Fin 2) ℂ).IsHermitian := by
    ext i j
    fin_cases i <;> fin_cases j <;> simp
  obtain ⟨w, M, V, h1, h2, h3, h4, h5⟩ := sparse hS hA hH (neigs := 1) one_pos one_lt_two
  refine ⟨w, M, h1, ?_⟩
  have e0 := congrFun (congrFun h3.eigen 0) 0
  have e1 := congrFun (congrFun h3.eigen 1) 0
  have en := congrFun (congrFun h3.orthonormal 0) 0
  simp [Matrix.mul_apply, Fin.sum_univ_two, Matrix.diagonal] at e0 e1 en
  by_contra hw
  have hV1 : V 1 0 = 0 := by
    by_contra hv
    apply hw
    have : V 1 0 * ((w 0 : ℝ) : ℂ) = V 1 0 * 1 := by rw [← e1, mul_one]
    exact_mod_cast mul_left_cancel₀ hv this
  have hV0 : V 0 0 ≠ 0 := by
    intro h
    rw [h, hV1] at en
    simp at en
  have hw0 : w 0 = 0 := by
    rcases e0 with h | h
    · exact absurd h hV0
    · exact_mod_cast h
  have := h5 1 ![0, 1] (by intro h; simpa using congrFun h 1)
    (by funext i; fin_cases i <;> simp [Matrix.mulVec, dotProduct, Fin.sum_univ_two, Matrix.diagonal])
    (by funext i; fin_cases i; simp [Matrix.mulVec, dotProduct, Fin.sum_univ_two, hV1]) 0
  rw [show w ((0 : Fin 1) : ℕ) = 0 from hw0] at this
  norm_num at this

/-- C101 fails for the sparse branch: with at most `neigs` states (200 by default) it raises. -/
theorem C101_sparse_small_fails (S : EigSolvers) {n : ℕ} (A : Mat) (H : Matrix (Fin n) (Fin n) ℂ) (hA : A.Is H)
    (neigs : ℕ) (hn : n ≤ neigs) : ∃ e, diagH S A neigs true = .error e := by
  have hr : A.rows = n := by simpa using hA.1
  have heye : (Mat.eye A.rows).Is (1 : Matrix (Fin n) (Fin n) ℂ) := Mat.is_eye (by simpa using hr)
  obtain ⟨B, hB, hB'⟩ := hA.add (heye.smul 100)
  have hBr : B.rows = n := by simpa using hB'.1
  unfold diagH
  simp only [if_true]
  rw [hB]
  simp only [bind, Except.bind]
  split_ifs with h1 h2
  · exact ⟨_, rfl⟩
  · exact ⟨_, rfl⟩
  · omega

/-! ### The contracts can be met -/

/-- A full set of eigenpairs of a Hermitian matrix. -/
private theorem exists_eig {n : ℕ} (H : Matrix (Fin n) (Fin n) ℂ) (hH : H.IsHermitian) :
    ∃ (w : Fin n → ℝ) (V : Matrix (Fin n) (Fin n) ℂ), EigPairs H w V := by
  refine ⟨hH.eigenvalues, hH.eigenvectorUnitary, ?_, ?_⟩
  · have := hH.eigenvectorUnitary.2
    rw [Matrix.mem_unitaryGroup_iff'] at this
    exact this
  · ext i j
    rw [Matrix.mul_diagonal]
    have := congrFun (hH.mulVec_eigenvectorBasis j) i
    rw [Matrix.mul_apply]
    simp only [Matrix.IsHermitian.eigenvectorUnitary_apply]
    simp only [Matrix.mulVec, dotProduct] at this
    rw [this]
    simp [mul_comm]

/-- The eigenvectors of the `k` eigenvalues of largest magnitude. -/
private theorem exists_largest {n k : ℕ} (hk : k < n) (H : Matrix (Fin n) (Fin n) ℂ) (hH : H.IsHermitian) :
    ∃ (w : Fin k → ℝ) (V : Matrix (Fin n) (Fin k) ℂ), EigPairs H w V ∧
      ∀ (μ : ℝ) (v : Fin n → ℂ), v ≠ 0 → H.mulVec v = (μ : ℂ) • v → Vᴴ.mulVec v = 0 → ∀ i : Fin k, |μ| ≤ |w i| := by
  obtain ⟨d, U, hU⟩ := exists_eig H hH
  let σ := Tuple.sort fun i => -|d i|
  have hσ : Monotone ((fun i => -|d i|) ∘ σ) := Tuple.monotone_sort _
  have hp := EigPairs.perm hU σ
  set d' : Fin n → ℝ := fun i => d (σ i) with hd'
  set U' : Matrix (Fin n) (Fin n) ℂ := U.submatrix id σ with hU'
  have hUU : U' * U'ᴴ = 1 := mul_eq_one_comm.1 hp.orthonormal
  refine ⟨fun i => d' (Fin.castLE hk.le i), U'.submatrix id (Fin.castLE hk.le), ⟨?_, ?_⟩, ?_⟩
  · have e : (U'.submatrix id (Fin.castLE hk.le))ᴴ * U'.submatrix id (Fin.castLE hk.le) =
        (U'ᴴ * U').submatrix (Fin.castLE hk.le) (Fin.castLE hk.le) := by
      ext i j
      simp [Matrix.mul_apply]
    rw [e, hp.orthonormal]
    ext i j
    simp [Matrix.one_apply, Fin.ext_iff]
  · ext i j
    have := congrFun (congrFun hp.eigen i) (Fin.castLE hk.le j)
    rw [Matrix.mul_diagonal] at this ⊢
    simpa [Matrix.mul_apply] using this
  · intro μ v hv hμ ho i
    set c := U'ᴴ.mulVec v with hc
    have hvc : v = U'.mulVec c := by rw [hc, Matrix.mulVec_mulVec, hUU, Matrix.one_mulVec]
    have hdc : ∀ j, (d' j : ℂ) * c j = μ * c j := by
      have h1 : U'ᴴ.mulVec (H.mulVec v) = (Matrix.diagonal fun i => (d' i : ℂ)).mulVec c := by
        rw [hvc, Matrix.mulVec_mulVec, Matrix.mulVec_mulVec, Matrix.mul_assoc, hp.eigen, ← Matrix.mul_assoc, hp.orthonormal,
          Matrix.one_mul]
      rw [hμ, Matrix.mulVec_smul, ← hc] at h1
      intro j
      have := congrFun h1 j
      rw [Matrix.mulVec_diagonal] at this
      exact this.symm
    obtain ⟨j, hj⟩ : ∃ j, c j ≠ 0 := by
      by_contra h
      push Not at h
      apply hv
      rw [hvc, show c = 0 from funext h, Matrix.mulVec_zero]
    have hjk : k ≤ (j : ℕ) := by
      by_contra h
      apply hj
      have := congrFun ho ⟨j, by omega⟩
      simpa [Matrix.mulVec, dotProduct, hc] using this
    have e : d' j = μ := by exact_mod_cast mul_right_cancel₀ hj (hdc j)
    have := hσ (show Fin.castLE hk.le i ≤ j from by
      rw [Fin.le_def]
      simp only [Fin.val_castLE]
      omega)
    simp only [Function.comp, neg_le_neg_iff] at this
    rw [← e]
    exact this

open Classical in
/-- There are routines that meet the contracts, so the theorems above are not empty. -/
theorem C101_contract_satisfiable : ∃ S : EigSolvers, EigContract S := by
  let toMat : ∀ {r c : ℕ}, Matrix (Fin r) (Fin c) ℂ → Mat := fun {r c} V =>
    ⟨r, c, fun i j => if h : i < r ∧ j < c then V ⟨i, h.1⟩ ⟨j, h.2⟩ else 0⟩
  have toMat_is : ∀ {r c : ℕ} (V : Matrix (Fin r) (Fin c) ℂ), (toMat V).Is V := by
    intro r c V
    refine ⟨by simp [toMat], by simp [toMat], fun i j => ?_⟩
    simp [toMat, Basis.num]
  let ofMat : Mat → (n : ℕ) → Matrix (Fin n) (Fin n) ℂ := fun A n => fun i j => A.e i j
  have ofMat_eq : ∀ {n : ℕ} {A : Mat} {H : Matrix (Fin n) (Fin n) ℂ}, A.Is H → ofMat A n = H := by
    intro n A H h
    ext i j
    exact h.2.2 i j
  have hrow : ∀ {n : ℕ} {A : Mat} {H : Matrix (Fin n) (Fin n) ℂ}, A.Is H → A.rows = n := by
    intro n A H h
    simpa using h.1
  have ext : ∀ {k : ℕ} (w : Fin k → ℝ) (i : Fin k), (fun m : ℕ => if h : m < k then w ⟨m, h⟩ else 0) i = w i := by
    intro k w i
    simp
  choose w1 V1 h1 using fun (p : Σ n : ℕ, Matrix (Fin n) (Fin n) ℂ) =>
    exists_eig (lowerHerm p.2) (lowerHerm_isHermitian p.2)
  choose w2 V2 h2 h2' using fun (p : {p : (Σ n : ℕ, Matrix (Fin n) (Fin n) ℂ) × ℕ // p.1.2.IsHermitian ∧ p.2 < p.1.1}) =>
    exists_largest p.2.2 p.1.1.2 p.2.1
  refine ⟨⟨fun A => (fun m => if h : m < A.rows then w1 ⟨A.rows, ofMat A A.rows⟩ ⟨m, h⟩ else 0,
      toMat (V1 ⟨A.rows, ofMat A A.rows⟩)),
    fun A k => if hp : (ofMat A A.rows).IsHermitian ∧ k < A.rows then
      (fun m => if h : m < k then w2 ⟨⟨⟨A.rows, ofMat A A.rows⟩, k⟩, hp⟩ ⟨m, h⟩ else 0,
        toMat (V2 ⟨⟨⟨A.rows, ofMat A A.rows⟩, k⟩, hp⟩)) else (fun _ => 0, Mat.zero 0 0),
    fun n x m => if h : m < n then (Tuple.sort (fun i : Fin n => x i) ⟨m, h⟩ : ℕ) else 0⟩, ?_, ?_, ?_⟩
  · intro n A H hA
    have hn := hrow hA
    subst hn
    have := h1 ⟨A.rows, ofMat A A.rows⟩
    refine ⟨V1 ⟨A.rows, ofMat A A.rows⟩, toMat_is _, ?_⟩
    simp only [Fin.is_lt, dif_pos, Fin.eta]
    rw [← ofMat_eq hA]
    exact this
  · intro n k A H hA hH hk
    have hn := hrow hA
    subst hn
    have hp : (ofMat A A.rows).IsHermitian ∧ k < A.rows := ⟨by rw [ofMat_eq hA]; exact hH, hk⟩
    have e1 := h2 ⟨⟨⟨A.rows, ofMat A A.rows⟩, k⟩, hp⟩
    have e2 := h2' ⟨⟨⟨A.rows, ofMat A A.rows⟩, k⟩, hp⟩
    simp only [dif_pos hp]
    refine ⟨V2 ⟨⟨⟨A.rows, ofMat A A.rows⟩, k⟩, hp⟩, toMat_is _, ?_, ?_⟩
    · have := ofMat_eq hA
      simp only [Fin.is_lt, dif_pos, Fin.eta]
      rw [← this]
      exact e1
    · simp only [Fin.is_lt, dif_pos, Fin.eta]
      rw [← ofMat_eq hA]
      exact e2
  · intro n x
    refine ⟨Tuple.sort fun i : Fin n => x i, fun i => by simp, ?_⟩
    exact Tuple.monotone_sort fun i : Fin n => x i

/-- A two-level system meets the hypotheses. -/
example (S : EigSolvers) (hS : EigContract S) : ∃ (w : ℕ → ℝ) (M : Mat) (V : Matrix (Fin 2) (Fin 2) ℂ),
    diagH S (Mat.lit2 0 (-Complex.I) Complex.I 0) 200 false = .ok (2, w, M) ∧ M.Is V ∧ Vᴴ * V = 1 ∧ V * Vᴴ = 1 ∧
    !![0, -Complex.I; Complex.I, 0] * V = V * Matrix.diagonal (fun i : Fin 2 => (w i : ℂ)) ∧
    (∀ i j : Fin 2, i ≤ j → w i ≤ w j) :=
  C101_dense S hS _ _ ⟨rfl, rfl, fun i j => by fin_cases i <;> fin_cases j <;> simp [Mat.lit2, Basis.num]⟩
    (by ext i j; fin_cases i <;> fin_cases j <;> simp) 200

end ED.Props
