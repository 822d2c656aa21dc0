import Verif.Lemmas.FreeModes

/-! # Lemmas: thermal averages of several species without interactions -/

namespace ED

open Matrix

section

variable {ι : Type*} [Fintype ι] [DecidableEq ι]

/-- The trace with the density matrix. -/
noncomputable def cAvg (H : Matrix ι ι ℂ) (T : ℝ) (O : Matrix ι ι ℂ) : ℂ := trace (gibbs H T * O)

theorem thermalAvg_re (H O : Matrix ι ι ℂ) (T : ℝ) : thermalAvg H O T = (cAvg H T O).re := rfl

theorem cAvg_eq (H : Matrix ι ι ℂ) (T : ℝ) (O : Matrix ι ι ℂ) :
    cAvg H T O = (1 / partitionFn H T : ℂ) * trace (boltzOp H T * O) := by
  unfold cAvg gibbs
  rw [Matrix.smul_mul, trace_smul, smul_eq_mul]

theorem cAvg_add (H : Matrix ι ι ℂ) (T : ℝ) (A B : Matrix ι ι ℂ) : cAvg H T (A + B) = cAvg H T A + cAvg H T B := by
  unfold cAvg
  rw [Matrix.mul_add, trace_add]

theorem cAvg_sub (H : Matrix ι ι ℂ) (T : ℝ) (A B : Matrix ι ι ℂ) : cAvg H T (A - B) = cAvg H T A - cAvg H T B := by
  unfold cAvg
  rw [Matrix.mul_sub, trace_sub]

theorem cAvg_smul (H : Matrix ι ι ℂ) (T : ℝ) (z : ℂ) (A : Matrix ι ι ℂ) : cAvg H T (z • A) = z * cAvg H T A := by
  unfold cAvg
  rw [Matrix.mul_smul, trace_smul, smul_eq_mul]

theorem cAvg_sum {α : Type*} (s : Finset α) (H : Matrix ι ι ℂ) (T : ℝ) (f : α → Matrix ι ι ℂ) :
    cAvg H T (∑ x ∈ s, f x) = ∑ x ∈ s, cAvg H T (f x) := by
  unfold cAvg
  rw [Matrix.mul_sum, trace_sum]

theorem cAvg_one [Nonempty ι] {H : Matrix ι ι ℂ} (hH : H.IsHermitian) (T : ℝ) : cAvg H T 1 = 1 := by
  set V : Matrix ι ι ℂ := (hH.eigenvectorUnitary : Matrix ι ι ℂ) with hV
  have h1 : Vᴴ * V = 1 := Matrix.mem_unitaryGroup_iff'.1 hH.eigenvectorUnitary.2
  have h2 : V * Vᴴ = 1 := Matrix.mem_unitaryGroup_iff.1 hH.eigenvectorUnitary.2
  set w := hH.eigenvalues
  have h3 : H * V = V * diagonal fun i => (w i : ℂ) := by
    have := hH.spectral_theorem
    rw [Unitary.conjStarAlgAut_apply] at this
    have h := congrArg (fun A => A * V) this
    rw [h, Matrix.mul_assoc _ _ V]
    have e : star (hH.eigenvectorUnitary : Matrix ι ι ℂ) * V = 1 := h1
    rw [e, Matrix.mul_one]
    rfl
  rw [cAvg_eq, partitionFn_eig h1 h2 h3, Matrix.mul_one, boltzOp_eig h1 h2 h3, Matrix.mul_assoc, trace_mul_comm,
    Matrix.mul_assoc, h1, Matrix.mul_one, trace_diagonal, ← Complex.ofReal_sum, one_div, inv_mul_cancel₀]
  have : 0 < ∑ k, Real.exp (-w k / T) := Finset.sum_pos (fun k _ => Real.exp_pos _) Finset.univ_nonempty
  exact_mod_cast this.ne'

end

variable {a b : ℕ} {κ : Type*} [Fintype κ] [DecidableEq κ]

theorem oneDensity_self {ι : Type*} (φ : Matrix ι κ ℂ) (ε : κ → ℝ) (T : ℝ) (i : ι) :
    oneDensity φ ε T i i = (siteDensity φ ε T i : ℂ) := by
  unfold oneDensity siteDensity
  push_cast
  refine Finset.sum_congr rfl fun k _ => ?_
  have : φ i k * star (φ i k) = ((‖φ i k‖ ^ 2 : ℝ) : ℂ) := by
    rw [Complex.star_def, Complex.mul_conj, Complex.normSq_eq_norm_sq]
  push_cast at this
  rw [← this]
  ring

theorem oneDensity_star {ι : Type*} (φ : Matrix ι κ ℂ) (ε : κ → ℝ) (T : ℝ) (i j : ι) :
    oneDensity φ ε T j i = star (oneDensity φ ε T i j) := by
  unfold oneDensity
  rw [star_sum]
  refine Finset.sum_congr rfl fun k _ => ?_
  simp only [star_mul', Complex.star_def, Complex.conj_ofReal, Complex.conj_conj]
  ring

theorem oneDensity_mul {ι : Type*} (φ : Matrix ι κ ℂ) (ε : κ → ℝ) (T : ℝ) (i j : ι) :
    oneDensity φ ε T j i * oneDensity φ ε T i j = ((‖oneDensity φ ε T i j‖ ^ 2 : ℝ) : ℂ) := by
  rw [oneDensity_star φ ε T i j, mul_comm, Complex.star_def, Complex.mul_conj, Complex.normSq_eq_norm_sq]

/-- The setting of the lemmas: an eigenbasis for each species. -/
structure FreeData (h : Fin b → Matrix (Fin a) (Fin a) ℂ) (φ : Fin b → Matrix (Fin a) κ ℂ) (ε : Fin b → κ → ℝ) :
    Prop where
  herm : ∀ s, (h s).IsHermitian
  basis : ∀ s, IsEigenbasis (h s) (φ s) (ε s)

namespace FreeData

variable {h : Fin b → Matrix (Fin a) (Fin a) ℂ} {φ : Fin b → Matrix (Fin a) κ ℂ} {ε : Fin b → κ → ℝ}

/-- One pair of operators. -/
theorem wick2 (D : FreeData h φ ε) (T : ℝ) (i j : Fin a) (s s' : Fin b) (Y : Op (a * b) 2)
    (hY : ∀ l, Y * create (mode l s) = create (mode l s) * Y) :
    cAvg (secondQuant (modeMat h)) T (create (mode i s) * annih (mode j s') * Y) =
      (if s = s' then oneDensity (φ s) (ε s) T j i else 0) * cAvg (secondQuant (modeMat h)) T Y := by
  rw [cAvg_eq, trace_wick2 (modeMat_star D.herm) (modeStates_complete fun s => (D.basis s).complete)
    (modeStates_eigen fun s => (D.basis s).eigen), cAvg_eq, fermiMat_mode]
  · by_cases hs : s = s'
    · subst hs; rw [if_pos rfl]; ring
    · rw [if_neg hs, if_neg (Ne.symm hs)]; ring
  · intro l hl
    obtain ⟨l, s'', rfl⟩ := mode_surj l
    rw [fermiMat_mode] at hl
    have : s'' = s := by
      by_contra hc
      exact hl (if_neg hc)
    subst this
    exact hY l

/-- Two pairs of operators. -/
theorem wick4 (D : FreeData h φ ε) (T : ℝ) (i j k l : Fin a) (s s1 s2 s3 : Fin b) (Y : Op (a * b) 2)
    (hY : ∀ l, Y * create (mode l s) = create (mode l s) * Y)
    (hY' : ∀ l, Y * create (mode l s2) = create (mode l s2) * Y) :
    cAvg (secondQuant (modeMat h)) T
        (create (mode i s) * annih (mode j s1) * (create (mode k s2) * annih (mode l s3)) * Y) =
      ((if s1 = s then oneDensity (φ s1) (ε s1) T j i else 0) * (if s3 = s2 then oneDensity (φ s3) (ε s3) T l k else 0) +
        (if s3 = s then oneDensity (φ s3) (ε s3) T l i else 0) *
        ((if j = k ∧ s1 = s2 then 1 else 0) - if s1 = s2 then oneDensity (φ s1) (ε s1) T j k else 0)) *
      cAvg (secondQuant (modeMat h)) T Y := by
  have hc : ∀ s, (∀ l, Y * create (mode l s) = create (mode l s) * Y) → ∀ i l,
      fermiMat (modeStates φ) (fun p : κ × Fin b => ε p.2 p.1) T l (mode i s) ≠ 0 → Y * create l = create l * Y := by
    intro s hY i l hl
    obtain ⟨l, s'', rfl⟩ := mode_surj l
    rw [fermiMat_mode] at hl
    have : s'' = s := by
      by_contra hc
      exact hl (if_neg hc)
    subst this
    exact hY l
  rw [cAvg_eq, trace_wick4 (modeMat_star D.herm) (modeStates_complete fun s => (D.basis s).complete)
    (modeStates_eigen fun s => (D.basis s).eigen) _ _ _ _ _ _ (hc s hY i) (hc s2 hY' k), cAvg_eq]
  simp only [fermiMat_mode, mode_eq_iff]
  ring

/-- A density. -/
theorem one (D : FreeData h φ ε) (T : ℝ) (i : Fin a) (s : Fin b) (Y : Op (a * b) 2)
    (hY : ∀ l, Y * create (mode l s) = create (mode l s) * Y) :
    cAvg (secondQuant (modeMat h)) T (number (mode i s) * Y) =
      siteDensity (φ s) (ε s) T i * cAvg (secondQuant (modeMat h)) T Y := by
  rw [← create_annih, D.wick2 T i i s s Y hY, if_pos rfl, oneDensity_self]

/-- Two densities of the same species. -/
theorem two (D : FreeData h φ ε) (T : ℝ) (i j : Fin a) (s : Fin b) (Y : Op (a * b) 2)
    (hY : ∀ l, Y * create (mode l s) = create (mode l s) * Y) :
    cAvg (secondQuant (modeMat h)) T (number (mode i s) * number (mode j s) * Y) =
      ((siteDensity (φ s) (ε s) T i * siteDensity (φ s) (ε s) T j +
        ((if i = j then siteDensity (φ s) (ε s) T i else 0) - ‖oneDensity (φ s) (ε s) T i j‖ ^ 2) : ℝ) : ℂ) *
      cAvg (secondQuant (modeMat h)) T Y := by
  rw [← create_annih, ← create_annih, D.wick4 T i i j j s s s s Y hY hY]
  simp only [if_true, and_true]
  congr 1
  rw [oneDensity_self, oneDensity_self, mul_sub, oneDensity_mul]
  push_cast
  congr 2
  split_ifs with hij
  · subst hij
    rw [mul_one, oneDensity_self]
  · rw [mul_zero]
    simp

end FreeData

/-- Operators of other modes. -/
theorem number_create_comm {N : ℕ} {k i : Fin N} (h : k ≠ i) : number k * create i = create i * number k := by
  rw [number_create, if_neg h, add_zero]

end ED
