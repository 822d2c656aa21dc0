import Verif.Lemmas.Snapshots
import Verif.Props.EquivalentSites
import Verif.Props.Independent

/-! # Property C142: averages are averages over snapshots -/

namespace ED.Props

open Matrix Spec

/-- The number of particles of one species at a site. -/
def occupation {a b : ℕ} (t : Conf (a * b) 2) (s : Fin b) (i : Fin a) : ℝ := ((t (mode i s) : ℕ) : ℝ)

/-- The densities `d` and the averages `c` of products of densities that are computed at temperature `T`. -/
def DensityValues (F : Fermions) (w : List ℝ) (M : Mat) (P : Option Mat) (T : ℝ) (d : Fin F.nspecies → Fin F.nsites → ℝ)
    (c : Fin F.nspecies → Fin F.nspecies → Fin F.nsites → Fin F.nsites → ℝ) : Prop :=
  (∀ s : Fin F.nspecies, thermalExpSites F.sys M w nOp s [T] none P "boson" = .ok (List.ofFn fun i => [d s i], List.range F.nsites)) ∧
    ∀ (s s' : Fin F.nspecies) (pairs : List (Fin F.nsites × Fin F.nsites)),
      thermalCorrSites F.sys M w s s' nOp nOp [T] (some (pairs.map fun q => ((q.1 : ℕ), (q.2 : ℕ)))) P "boson" =
        .ok (pairs.map fun q => [c s s' q.1 q.2], pairs.map fun q => ((q.1 : ℕ), (q.2 : ℕ)))

/-- Probabilities of the arrangements of particles that give the densities and the averages of their products. -/
structure Snapshots (F : Fermions) (d : Fin F.nspecies → Fin F.nsites → ℝ)
    (c : Fin F.nspecies → Fin F.nspecies → Fin F.nsites → Fin F.nsites → ℝ) (p : Conf (F.nsites * F.nspecies) 2 → ℝ) : Prop where
  nonneg : ∀ t, 0 ≤ p t
  sum_one : ∑ t, p t = 1
  density : ∀ s i, d s i = ∑ t, p t * occupation t s i
  product : ∀ s s' i j, c s s' i j = ∑ t, p t * (occupation t s i * occupation t s' j)

/-- Densities are probabilities, averages of products are probabilities of two simultaneous events, and connected correlations are
positive semidefinite. -/
structure Consistent {a b : ℕ} (d : Fin b → Fin a → ℝ) (c : Fin b → Fin b → Fin a → Fin a → ℝ) : Prop where
  density : ∀ s i, 0 ≤ d s i ∧ d s i ≤ 1
  lower : ∀ s s' i j, max 0 (d s i + d s' j - 1) ≤ c s s' i j
  upper : ∀ s s' i j, c s s' i j ≤ min (d s i) (d s' j)
  same : ∀ s i, c s s i i = d s i
  positive : ∀ f : Fin b × Fin a → ℂ, 0 ≤ (∑ x, ∑ y, f x * star (f y) * ((c x.1 y.1 x.2 y.2 - d x.1 x.2 * d y.1 y.2 : ℝ) : ℂ)).re

/-! ## Proofs -/

theorem occupation_cases {a b : ℕ} (t : Conf (a * b) 2) (s : Fin b) (i : Fin a) : occupation t s i = 0 ∨ occupation t s i = 1 := by
  unfold occupation
  rcases h : t (mode i s) with ⟨v, hv⟩
  interval_cases v <;> simp

theorem Snapshots.consistent {F : Fermions} {d : Fin F.nspecies → Fin F.nsites → ℝ}
    {c : Fin F.nspecies → Fin F.nspecies → Fin F.nsites → Fin F.nsites → ℝ} {p : Conf (F.nsites * F.nspecies) 2 → ℝ} (h : Snapshots F d c p) :
    Consistent d c := by
  have h0 : ∀ (t : Conf (F.nsites * F.nspecies) 2) s i, 0 ≤ occupation t s i := fun t s i => by
    rcases occupation_cases t s i with e | e <;> rw [e] <;> norm_num
  have h1 : ∀ (t : Conf (F.nsites * F.nspecies) 2) s i, occupation t s i ≤ 1 := fun t s i => by
    rcases occupation_cases t s i with e | e <;> rw [e] <;> norm_num
  refine ⟨fun s i => ⟨?_, ?_⟩, fun s s' i j => max_le ?_ ?_, fun s s' i j => le_min ?_ ?_, fun s i => ?_, fun f => ?_⟩
  · rw [h.density]
    exact Finset.sum_nonneg fun t _ => mul_nonneg (h.nonneg t) (h0 t s i)
  · rw [h.density, ← h.sum_one]
    exact Finset.sum_le_sum fun t _ => mul_le_of_le_one_right (h.nonneg t) (h1 t s i)
  · rw [h.product]
    exact Finset.sum_nonneg fun t _ => mul_nonneg (h.nonneg t) (mul_nonneg (h0 t s i) (h0 t s' j))
  · rw [h.product, h.density, h.density, ← h.sum_one, ← Finset.sum_add_distrib, ← Finset.sum_sub_distrib]
    refine Finset.sum_le_sum fun t _ => ?_
    have := mul_nonneg (h.nonneg t) (mul_nonneg (sub_nonneg.2 (h1 t s i)) (sub_nonneg.2 (h1 t s' j)))
    nlinarith
  · rw [h.product, h.density]
    refine Finset.sum_le_sum fun t _ => mul_le_mul_of_nonneg_left ?_ (h.nonneg t)
    exact mul_le_of_le_one_right (h0 t s i) (h1 t s' j)
  · rw [h.product, h.density]
    refine Finset.sum_le_sum fun t _ => mul_le_mul_of_nonneg_left ?_ (h.nonneg t)
    exact mul_le_of_le_one_left (h0 t s' j) (h1 t s i)
  · rw [h.product, h.density]
    refine Finset.sum_congr rfl fun t _ => ?_
    rcases occupation_cases t s i with e | e <;> rw [e] <;> norm_num
  · simp only [h.product, h.density]
    exact snapshot_covariance h.nonneg h.sum_one (fun x : Fin F.nspecies × Fin F.nsites => fun t => occupation t x.1 x.2) f

theorem number_occupation {a b : ℕ} (s : Fin b) (i : Fin a) :
    (number (mode i s) : Op (a * b) 2) = diagonal fun t => ((occupation t s i : ℝ) : ℂ) := by
  unfold number
  congr 1
  funext t
  unfold occupation
  rcases h : t (mode i s) with ⟨v, hv⟩
  interval_cases v <;> simp

theorem number_occupations {a b : ℕ} (s s' : Fin b) (i j : Fin a) :
    (number (mode i s) * number (mode j s') : Op (a * b) 2) = diagonal fun t => ((occupation t s i * occupation t s' j : ℝ) : ℂ) := by
  rw [number_occupation, number_occupation, diagonal_mul_diagonal]
  push_cast
  rfl

theorem snapshots_proj (F : Fermions) {κ : Type} [Fintype κ] [DecidableEq κ] [Basis κ] {m : ℕ} {E : Fin (m + 1) → ℝ} {M P : Mat}
    {V : Matrix κ (Fin (m + 1)) ℂ} {Pm : Matrix κ (Conf (F.nsites * F.nspecies) 2) ℂ} (hM : M.Is V) (hP : P.Is Pm) (hE : Monotone E)
    (hPP : Pm * Pmᴴ = 1) (hV : Vᴴ * V = 1) {T : ℝ} (hT : T ≠ 0 ∨ GappedList (List.ofFn E)) :
    ∃ d c p, DensityValues F (List.ofFn E) M (some P) T d c ∧ Snapshots F d c p ∧ ∀ t, (∀ r, Pm r t = 0) → p t = 0 := by
  obtain ⟨p, p1, p2, p3, p4⟩ := canonical_snapshots hPP hV T E
  refine ⟨fun s i => ∑ t, p t * occupation t s i, fun s s' i j => ∑ t, p t * (occupation t s i * occupation t s' j), p, ⟨fun s => ?_, fun s s' pairs => ?_⟩,
    ⟨p1, p2, fun s i => rfl, fun s s' i j => rfl⟩, p3⟩
  · have h := densities_proj F hM hP hE s [T] (fun T' h => by rw [List.mem_singleton.1 h]; exact hT) (List.finRange F.nsites)
    rw [List.map_coe_finRange_eq_range, ← List.ofFn_eq_map] at h
    refine h.trans ?_
    simp only [List.map_cons, List.map_nil, number_occupation, p4]
  · have h := correlators_proj F hM hP hE s s' [T] (fun T' h => by rw [List.mem_singleton.1 h]; exact hT) pairs
    refine h.trans ?_
    simp only [List.map_cons, List.map_nil, number_occupations, p4]

/-- C142 (fermions, all numbers of particles): at every temperature there are probabilities of the arrangements of particles of which
all densities and averages of products of densities are averages. -/
theorem C142_snapshots (S : EigSolvers) (hS : EigContract S) (F : Fermions) (hI : InterOk F) (hr : RealParams F) :
    ∃ A w M, F.createH none = .ok A ∧ diagList S A = .ok (w, M) ∧ ∀ T : ℝ, T ≠ 0 ∨ GappedList w →
      ∃ d c p, DensityValues F w M none T d c ∧ Snapshots F d c p ∧ Consistent d c := by
  obtain ⟨A, hA, hAi⟩ := createH_gives (F := F) hI
  obtain ⟨m, E, M, V, a1, a2, a3, a4, a5, a6⟩ := diagList_ok S hS hAi (fermions_hermitian hI hr)
  refine ⟨A, _, M, hA, a1, fun T hT => ?_⟩
  obtain ⟨d, c, p, h1, h2, -⟩ := snapshots_proj F a2 (Mat.is_eye a2.1 : (Mat.eye M.rows).Is (1 : Op (F.nsites * F.nspecies) 2)) a6
    (by rw [conjTranspose_one, Matrix.mul_one]) a3 hT
  exact ⟨d, c, p, h1, h2, h2.consistent⟩

/-- C142 (fermions, fixed numbers of particles): only arrangements with these numbers have a probability, so that densities add up to
the numbers of particles, and products with a density to the number of particles times the density. -/
theorem C142_fixed_numbers (S : EigSolvers) (hS : EigContract S) (F : Fermions) (hI : InterOk F) (hr : RealParams F) (hn : 0 < F.nsites)
    {ns : List (Option ℤ)} (hlen : ns.length = F.nspecies) (hf : Fits F.nsites ns) :
    ∃ P A w M, F.nProjector (some ns) = .ok P ∧ F.createH (some P) = .ok A ∧ diagList S A = .ok (w, M) ∧ ∀ T : ℝ, T ≠ 0 ∨ GappedList w →
      ∃ d c p, DensityValues F w M (some P) T d c ∧ Snapshots F d c p ∧ Consistent d c ∧ ∀ (s' : Fin F.nspecies) (v : ℤ), ns[s']? = some (some v) →
        (∀ t, p t ≠ 0 → (speciesCount t s' : ℤ) = v) ∧ ∑ j, d s' j = v ∧ ∀ s i, ∑ j, c s s' i j = v * d s i := by
  classical
  obtain ⟨P, hP, hsel⟩ := C16_number_projector F hn ns hlen
  have hne : ∃ t : Conf (F.nsites * F.nspecies) 2, ∀ (s : Fin F.nspecies) (v : ℤ), ns[s]? = some (some v) → (speciesCount t s : ℤ) = v := by
    obtain ⟨t, ht⟩ := exists_counts (nsites := F.nsites) (nspecies := F.nspecies)
      (fun s => match ns[s]? with | some (some v) => v.toNat | _ => 0) (fun s => by
        split
        · rename_i v hv
          have := hf v (List.mem_of_getElem? hv)
          omega
        · omega)
    refine ⟨t, fun s v hv => ?_⟩
    have := hf v (List.mem_of_getElem? hv)
    rw [ht]
    simp only [hv]
    omega
  obtain ⟨d, sel, hinj, hrange, hPi⟩ := hsel.is hne
  obtain ⟨A, hA, hAi⟩ := createH_gives_proj hPi hI
  obtain ⟨m, E, M, V, a1, a2, a3, a4, a5, a6⟩ := diagList_ok S hS hAi (isHermitian_mul_mul_conjTranspose _ (fermions_hermitian hI hr))
  refine ⟨P, A, _, M, hP, hA, a1, fun T hT => ?_⟩
  obtain ⟨d, c, p, h1, h2, h3⟩ := snapshots_proj F a2 hPi a6 (select_unit hinj) a3 hT
  refine ⟨d, c, p, h1, h2, h2.consistent, fun s' v hv => ?_⟩
  have key : ∀ t, p t ≠ 0 → (speciesCount t s' : ℤ) = v := by
    intro t ht
    by_contra hne
    refine ht (h3 t fun r => ?_)
    rw [of_apply, if_neg]
    rintro rfl
    exact hne ((hrange _).2 ⟨r, rfl⟩ s' v hv)
  have hsum : ∀ t, p t * ∑ j, occupation t s' j = p t * v := by
    intro t
    by_cases ht : p t = 0
    · rw [ht, zero_mul, zero_mul]
    · rw [← key t ht]
      congr 1
      unfold speciesCount
      rw [Finset.card_filter]
      push_cast
      refine Finset.sum_congr rfl fun j _ => ?_
      unfold occupation
      rcases h : t (mode j s') with ⟨v, hv⟩
      interval_cases v <;> simp
  refine ⟨key, ?_, fun s i => ?_⟩
  · simp only [h2.density]
    rw [Finset.sum_comm]
    simp only [← Finset.mul_sum, hsum, ← Finset.sum_mul, h2.sum_one, one_mul]
  · simp only [h2.product, h2.density]
    rw [Finset.sum_comm, Finset.mul_sum]
    refine Finset.sum_congr rfl fun t _ => ?_
    rw [← Finset.mul_sum, ← Finset.mul_sum]
    calc p t * (occupation t s i * ∑ j, occupation t s' j) = occupation t s i * (p t * ∑ j, occupation t s' j) := by ring
      _ = _ := by rw [hsum]; ring

/-! ## Spins -/

/-- The Pauli matrices of the library. -/
noncomputable def pauliMats : Fin 3 → Mat := ![pauliX, pauliY, pauliZ]

/-- The average of the product of two components of spins, at the same or at different sites. -/
def pairValue {n : ℕ} (c : Fin 3 → Fin 3 → Fin n → Fin n → ℝ → ℝ) (T : ℝ) (x y : Fin n × Fin 3) : ℝ :=
  if x.1 = y.1 then (if x.2 = y.2 then 1 else 0) else c x.2 y.2 x.1 y.1 T

section Averages

variable {ι κ : Type*} [Fintype ι] [DecidableEq ι] [Fintype κ] [DecidableEq κ]

/-- The average of an operator over states with probabilities. -/
noncomputable def mixed (q : κ → ℝ) (V : Matrix ι κ ℂ) (X : Matrix ι ι ℂ) : ℝ := ∑ k, q k * (expect X (colOf V k)).re

theorem mixed_add (q : κ → ℝ) (V : Matrix ι κ ℂ) (X Y : Matrix ι ι ℂ) : mixed q V (X + Y) = mixed q V X + mixed q V Y := by
  unfold mixed
  simp only [expect_col, Matrix.mul_add, Matrix.add_mul, Matrix.add_apply, Complex.add_re, mul_add, Finset.sum_add_distrib]

theorem mixed_smul (q : κ → ℝ) (V : Matrix ι κ ℂ) (r : ℝ) (X : Matrix ι ι ℂ) : mixed q V ((r : ℂ) • X) = r * mixed q V X := by
  unfold mixed
  simp only [expect_col, Matrix.mul_smul, Matrix.smul_mul, Matrix.smul_apply, smul_eq_mul, Complex.re_ofReal_mul, Finset.mul_sum]
  exact Finset.sum_congr rfl fun k _ => by ring

theorem mixed_sum {α : Type*} (q : κ → ℝ) (V : Matrix ι κ ℂ) (s : Finset α) (X : α → Matrix ι ι ℂ) :
    mixed q V (∑ a ∈ s, X a) = ∑ a ∈ s, mixed q V (X a) := by
  unfold mixed
  simp only [expect_col, Matrix.mul_sum, Matrix.sum_mul, Matrix.sum_apply, Complex.re_sum, Finset.mul_sum]
  exact Finset.sum_comm

theorem mixed_one {q : κ → ℝ} (h1 : ∑ k, q k = 1) {V : Matrix ι κ ℂ} (hV : Vᴴ * V = 1) : mixed q V 1 = 1 := by
  unfold mixed
  simp only [expect_col, Matrix.mul_one, hV, one_apply_eq, Complex.one_re, mul_one, h1]

theorem mixed_nonneg {q : κ → ℝ} (hq : ∀ k, 0 ≤ q k) (V : Matrix ι κ ℂ) (X : Matrix ι ι ℂ) : 0 ≤ mixed q V (Xᴴ * X) := by
  unfold mixed
  refine Finset.sum_nonneg fun k _ => mul_nonneg (hq k) ?_
  rw [expect_col]
  have e : Vᴴ * (Xᴴ * X) * V = (X * V)ᴴ * (X * V) := by
    rw [conjTranspose_mul]
    simp only [Matrix.mul_assoc]
  rw [e, mul_apply, Complex.re_sum]
  refine Finset.sum_nonneg fun t _ => ?_
  rw [conjTranspose_apply, Complex.star_def, ← Complex.normSq_eq_conj_mul_self, Complex.ofReal_re]
  exact Complex.normSq_nonneg _

/-- The variance is not negative. -/
theorem mixed_variance {q : κ → ℝ} (hq : ∀ k, 0 ≤ q k) (h1 : ∑ k, q k = 1) {V : Matrix ι κ ℂ} (hV : Vᴴ * V = 1) {X : Matrix ι ι ℂ}
    (hX : Xᴴ = X) : mixed q V X ^ 2 ≤ mixed q V (X * X) := by
  have h := mixed_nonneg hq V (X + ((-mixed q V X : ℝ) : ℂ) • (1 : Matrix ι ι ℂ))
  rw [conjTranspose_add, conjTranspose_smul, conjTranspose_one, hX, Complex.star_def, Complex.conj_ofReal, Matrix.add_mul, Matrix.mul_add, Matrix.mul_add,
    Matrix.mul_smul, Matrix.smul_mul, Matrix.smul_mul, Matrix.mul_smul, Matrix.one_mul, Matrix.mul_one, Matrix.one_mul, mixed_add, mixed_add, mixed_add,
    mixed_smul, mixed_smul, mixed_smul, mixed_one h1 hV] at h
  nlinarith

theorem mixed_skew {q : κ → ℝ} {V : Matrix ι κ ℂ} {X : Matrix ι ι ℂ} (hX : Xᴴ = -X) : mixed q V X = 0 := by
  unfold mixed
  refine Finset.sum_eq_zero fun k _ => ?_
  rw [expect_col]
  have : (Vᴴ * X * V)ᴴ = -(Vᴴ * X * V) := by
    rw [conjTranspose_mul, conjTranspose_mul, conjTranspose_conjTranspose, hX, Matrix.neg_mul, Matrix.mul_neg, Matrix.mul_assoc]
  have h := congrArg Complex.re (congrFun (congrFun this k) k)
  rw [conjTranspose_apply, Complex.star_def, Complex.conj_re, Matrix.neg_apply, Complex.neg_re] at h
  have : ((Vᴴ * X * V) k k).re = 0 := by linarith
  rw [this, mul_zero]

end Averages

/-- The Pauli matrices. -/
def sigmas : Fin 3 → Matrix (Fin 2) (Fin 2) ℂ := ![sigmaX, sigmaY, sigmaZ]

theorem pauliMats_is (a : Fin 3) : (pauliMats a).Is (sigmas a) := by
  fin_cases a
  all_goals
    refine ⟨rfl, rfl, fun i j => ?_⟩
    fin_cases i <;> fin_cases j <;>
      simp [pauliMats, sigmas, pauliX, pauliY, pauliZ, Mat.lit2, sigmaX, sigmaY, sigmaZ] <;> rfl

theorem sigmas_star (a : Fin 3) : (sigmas a)ᴴ = sigmas a := by
  fin_cases a <;> (ext i j; fin_cases i <;> fin_cases j <;> simp [sigmas, sigmaX, sigmaY, sigmaZ])

theorem sigmas_sq (a : Fin 3) : sigmas a * sigmas a = 1 := by
  fin_cases a <;> (ext i j; fin_cases i <;> fin_cases j <;> simp [sigmas, sigmaX, sigmaY, sigmaZ, Matrix.mul_apply])

theorem sigmas_anti {a b : Fin 3} (h : a ≠ b) : sigmas a * sigmas b = -(sigmas b * sigmas a) := by
  fin_cases a <;> fin_cases b <;> first | exact absurd rfl h | (ext i j; fin_cases i <;> fin_cases j <;> simp [sigmas, sigmaX, sigmaY, sigmaZ, Matrix.mul_apply])

theorem siteOp_mul_same {n : ℕ} (A B : Matrix (Fin 2) (Fin 2) ℂ) (i : Fin n) : siteOp A i * siteOp B i = siteOp (A * B) i := by
  rw [siteOp_eq_bop, siteOp_eq_bop, siteOp_eq_bop, bop_mul]

/-- A component of the spin at a site. -/
def spinAt {n : ℕ} (x : Fin n × Fin 3) : Op n 2 := siteOp (sigmas x.2) x.1

theorem spinAt_star {n : ℕ} (x : Fin n × Fin 3) : (spinAt x)ᴴ = spinAt x := by
  unfold spinAt
  rw [siteOp_conj, sigmas_star]

theorem spinAt_sq {n : ℕ} (x : Fin n × Fin 3) : spinAt x * spinAt x = 1 := by
  unfold spinAt
  rw [siteOp_mul_same, sigmas_sq, siteOp_eq_bop, bop_one]

theorem spinAt_anti {n : ℕ} (i : Fin n) {a b : Fin 3} (h : a ≠ b) : spinAt (i, a) * spinAt (i, b) = -(spinAt (i, b) * spinAt (i, a)) := by
  unfold spinAt
  rw [siteOp_mul_same, siteOp_mul_same, sigmas_anti h, ← neg_one_smul ℂ, siteOp_smul, neg_one_smul]

theorem spinAt_comm {n : ℕ} {i j : Fin n} (h : i ≠ j) (a b : Fin 3) : spinAt (i, a) * spinAt (j, b) = spinAt (j, b) * spinAt (i, a) :=
  siteOp_comm h _ _

/-- The product of two spins. -/
def spinDot {n : ℕ} (i j : Fin n) : Op n 2 := ∑ a, spinAt (i, a) * spinAt (j, a)

theorem spinDot_star {n : ℕ} {i j : Fin n} (h : i ≠ j) : (spinDot i j)ᴴ = spinDot i j := by
  unfold spinDot
  rw [conjTranspose_sum]
  refine Finset.sum_congr rfl fun a _ => ?_
  rw [conjTranspose_mul, spinAt_star, spinAt_star, spinAt_comm h]

theorem spinAt_cyc {n : ℕ} (i : Fin n) : spinAt (i, 0) * spinAt (i, 1) = Complex.I • spinAt (i, 2) ∧ spinAt (i, 1) * spinAt (i, 2) = Complex.I • spinAt (i, 0) ∧
    spinAt (i, 2) * spinAt (i, 0) = Complex.I • spinAt (i, 1) := by
  unfold spinAt
  simp only [siteOp_mul_same, ← siteOp_smul]
  refine ⟨?_, ?_, ?_⟩ <;> congr 1 <;> (ext i j; fin_cases i <;> fin_cases j <;> simp [sigmas, sigmaX, sigmaY, sigmaZ, Matrix.mul_apply])

theorem spinDot_sq {n : ℕ} {i j : Fin n} (h : i ≠ j) : spinDot i j * spinDot i j = (3 : ℂ) • (1 : Op n 2) - (2 : ℂ) • spinDot i j := by
  have hc : ∀ a b, spinAt (i, a) * spinAt (j, a) * (spinAt (i, b) * spinAt (j, b)) = spinAt (i, a) * spinAt (i, b) * (spinAt (j, a) * spinAt (j, b)) := by
    intro a b
    rw [Matrix.mul_assoc, ← Matrix.mul_assoc (spinAt (j, a)), ← spinAt_comm h b a]
    simp only [Matrix.mul_assoc]
  have hd : ∀ k : Fin n, ∀ a b c, spinAt (k, a) * spinAt (k, b) = Complex.I • spinAt (k, c) → a ≠ b → spinAt (k, b) * spinAt (k, a) = -(Complex.I • spinAt (k, c)) := by
    intro k a b c h1 h2
    rw [spinAt_anti k h2.symm, h1]
  obtain ⟨i1, i2, i3⟩ := spinAt_cyc i
  obtain ⟨j1, j2, j3⟩ := spinAt_cyc j
  have i1' := hd i _ _ _ i1 (by decide)
  have i2' := hd i _ _ _ i2 (by decide)
  have i3' := hd i _ _ _ i3 (by decide)
  have j1' := hd j _ _ _ j1 (by decide)
  have j2' := hd j _ _ _ j2 (by decide)
  have j3' := hd j _ _ _ j3 (by decide)
  unfold spinDot
  simp only [Fin.sum_univ_three, Matrix.add_mul, Matrix.mul_add, hc, spinAt_sq, i1, i2, i3, j1, j2, j3, i1', i2', i3', j1', j2', j3', Matrix.mul_one,
    Matrix.neg_mul, Matrix.mul_neg, neg_neg, Matrix.smul_mul, Matrix.mul_smul, smul_smul, Complex.I_mul_I, neg_smul, one_smul, smul_neg]
  module

/-- C142 (spins one half): averages of spins are not longer than one, averages of products of two spins are between those of a singlet
and a triplet, and the correlations between all components of all spins are positive semidefinite, at every temperature. -/
theorem C142_spins (S : EigSolvers) (hS : EigContract S) (F : Spins) (h1 : F.twoS = 1) (hr : RealCouplings F) :
    ∃ A w M, F.createH none = .ok A ∧ diagList S A = .ok (w, M) ∧ ∃ (d : Fin 3 → Fin F.nsites → ℝ → ℝ) (c : Fin 3 → Fin 3 → Fin F.nsites → Fin F.nsites → ℝ → ℝ),
      (∀ a, SiteAverages F w M (pauliMats a) (d a)) ∧ (∀ a b, PairAverages F w M (pauliMats a) (pauliMats b) (c a b)) ∧ ∀ T : ℝ,
        (∀ i, ∑ a, d a i T ^ 2 ≤ 1) ∧ (∀ i j, i ≠ j → -3 ≤ ∑ a, c a a i j T ∧ ∑ a, c a a i j T ≤ 1 ∧ ∀ a b, |c a b i j T| ≤ 1) ∧
        ∀ f : Fin F.nsites × Fin 3 → ℝ, 0 ≤ ∑ x, ∑ y, f x * f y * (pairValue c T x y - d x.2 x.1 T * d y.2 y.1 T) := by
  obtain ⟨n, b, jx, jy, jz, hx, hy, hz⟩ := F
  simp only at h1
  subst h1
  set F : Spins := ⟨n, 1, jx, jy, jz, hx, hy, hz⟩ with hF
  obtain ⟨A, hA, hAi⟩ := spin_createH F (.inl rfl)
  obtain ⟨k, E, M, V, p0, p1, p2, p3, p4, p5⟩ := diagList_ok S hS hAi (spins_hermitian hr)
  refine ⟨A, _, M, hA, p0, fun a i T => canonical T E fun k => (expect (spinAt (i, a)) (colOf V k)).re,
    fun a b i j T => canonical T E fun k => (expect (spinAt (i, a) * spinAt (j, b)) (colOf V k)).re,
    fun a => (averages_all F p1 p5 (pauliMats_is a) (pauliMats_is a)).1 rfl, fun a b => (averages_all F p1 p5 (pauliMats_is a) (pauliMats_is b)).2, fun T => ?_⟩
  obtain ⟨q, q1, q2, q3⟩ := canonical_probability T E
  have hm : ∀ X : Op n 2, canonical T E (fun k => (expect X (colOf V k)).re) = mixed q V X := fun X => q3 _
  simp only [pairValue, hm]
  have hv : ∀ x y : Fin n × Fin 3, (if x.1 = y.1 then (if x.2 = y.2 then (1 : ℝ) else 0) else mixed q V (spinAt (x.1, x.2) * spinAt (y.1, y.2))) =
      mixed q V (spinAt x * spinAt y) := by
    rintro ⟨i, a⟩ ⟨j, b⟩
    dsimp only
    split_ifs with h h'
    · rw [h, h', spinAt_sq, mixed_one q2 p2]
    · rw [h, mixed_skew]
      rw [conjTranspose_mul, spinAt_star, spinAt_star, spinAt_anti j h', neg_neg]
    · rfl
  have hpos : ∀ f : Fin n × Fin 3 → ℝ, 0 ≤ ∑ x, ∑ y, f x * f y * (mixed q V (spinAt x * spinAt y) - mixed q V (spinAt x) * mixed q V (spinAt y)) := by
    intro f
    set O : Op n 2 := ∑ x, (f x : ℂ) • spinAt x with hO
    have hOs : Oᴴ = O := by
      rw [hO, conjTranspose_sum]
      refine Finset.sum_congr rfl fun x _ => ?_
      rw [conjTranspose_smul, spinAt_star, Complex.star_def, Complex.conj_ofReal]
    have e1 : mixed q V O = ∑ x, f x * mixed q V (spinAt x) := by
      rw [hO, mixed_sum]
      simp only [mixed_smul]
    have e2 : mixed q V (O * O) = ∑ x, ∑ y, f x * f y * mixed q V (spinAt x * spinAt y) := by
      rw [hO, Matrix.sum_mul, mixed_sum]
      refine Finset.sum_congr rfl fun x _ => ?_
      rw [Matrix.mul_sum, mixed_sum]
      refine Finset.sum_congr rfl fun y _ => ?_
      rw [Matrix.smul_mul, Matrix.mul_smul, mixed_smul, mixed_smul]
      ring
    have h := mixed_variance q1 q2 p2 hOs
    rw [e1, e2, sq, Finset.sum_mul_sum] at h
    have : (∑ x, ∑ y, f x * f y * (mixed q V (spinAt x * spinAt y) - mixed q V (spinAt x) * mixed q V (spinAt y))) =
        (∑ x, ∑ y, f x * f y * mixed q V (spinAt x * spinAt y)) - ∑ x, ∑ y, f x * mixed q V (spinAt x) * (f y * mixed q V (spinAt y)) := by
      rw [← Finset.sum_sub_distrib]
      refine Finset.sum_congr rfl fun x _ => ?_
      rw [← Finset.sum_sub_distrib]
      exact Finset.sum_congr rfl fun y _ => by ring
    rw [this]
    linarith
  have hle : ∀ X : Op n 2, Xᴴ = X → X * X = 1 → |mixed q V X| ≤ 1 := by
    intro X hX hX1
    have := mixed_variance q1 q2 p2 hX
    rw [hX1, mixed_one q2 p2] at this
    exact (sq_le_one_iff_abs_le_one _).1 this
  refine ⟨fun i => ?_, fun i j hij => ⟨?_, ?_, fun a b => ?_⟩, fun f => ?_⟩
  · set D : ℝ := ∑ a, mixed q V (spinAt (i, a)) ^ 2 with hD
    set O : Op n 2 := ∑ a, (mixed q V (spinAt (i, a)) : ℂ) • spinAt (i, a) with hO
    have hOs : Oᴴ = O := by
      rw [hO, conjTranspose_sum]
      refine Finset.sum_congr rfl fun x _ => ?_
      rw [conjTranspose_smul, spinAt_star, Complex.star_def, Complex.conj_ofReal]
    have e1 : mixed q V O = D := by
      rw [hO, mixed_sum, hD]
      exact Finset.sum_congr rfl fun a _ => by rw [mixed_smul, sq]
    have e2 : mixed q V (O * O) = D := by
      rw [hO, Matrix.sum_mul, mixed_sum, hD]
      refine Finset.sum_congr rfl fun a _ => ?_
      rw [Matrix.mul_sum, mixed_sum, Finset.sum_eq_single a]
      · rw [Matrix.smul_mul, Matrix.mul_smul, mixed_smul, mixed_smul, spinAt_sq, mixed_one q2 p2]
        ring
      · intro b _ hb
        rw [Matrix.smul_mul, Matrix.mul_smul, mixed_smul, mixed_smul, ← hv, if_pos rfl, if_neg (Ne.symm hb), mul_zero, mul_zero]
      · simp
    have h := mixed_variance q1 q2 p2 hOs
    rw [e1, e2] at h
    by_contra hc
    push Not at hc
    nlinarith
  · have : ∀ a, -1 ≤ mixed q V (spinAt (i, a) * spinAt (j, a)) := fun a => by
      refine (abs_le.1 (hle _ ?_ ?_)).1
      · rw [conjTranspose_mul, spinAt_star, spinAt_star, spinAt_comm hij]
      · rw [Matrix.mul_assoc, ← Matrix.mul_assoc (spinAt (j, a)), ← spinAt_comm hij, Matrix.mul_assoc, spinAt_sq, Matrix.mul_one, spinAt_sq]
    rw [Fin.sum_univ_three]
    linarith [this 0, this 1, this 2]
  · rw [← mixed_sum]
    change mixed q V (spinDot i j) ≤ 1
    have h := mixed_nonneg q1 V ((1 : Op n 2) + ((-1 : ℝ) : ℂ) • spinDot i j)
    have e : ((1 : Op n 2) + ((-1 : ℝ) : ℂ) • spinDot i j)ᴴ * ((1 : Op n 2) + ((-1 : ℝ) : ℂ) • spinDot i j) =
        ((4 : ℝ) : ℂ) • (1 : Op n 2) + ((-4 : ℝ) : ℂ) • spinDot i j := by
      rw [conjTranspose_add, conjTranspose_smul, conjTranspose_one, spinDot_star hij, Complex.star_def, Complex.conj_ofReal, Matrix.add_mul, Matrix.mul_add,
        Matrix.mul_add, Matrix.mul_smul, Matrix.smul_mul, Matrix.smul_mul, Matrix.mul_smul, Matrix.one_mul, Matrix.mul_one, Matrix.one_mul, spinDot_sq hij]
      push_cast
      module
    rw [e, mixed_add, mixed_smul, mixed_smul, mixed_one q2 p2] at h
    linarith
  · refine hle _ ?_ ?_
    · rw [conjTranspose_mul, spinAt_star, spinAt_star, spinAt_comm hij]
    · rw [Matrix.mul_assoc, ← Matrix.mul_assoc (spinAt (j, b)), ← spinAt_comm hij, Matrix.mul_assoc, spinAt_sq, Matrix.mul_one, spinAt_sq]
  · simp only [hv]
    exact hpos f

/-! ## Cases that meet the hypotheses -/

example (S : EigSolvers) (hS : EigContract S) : ∃ P A w M, twoPairs.nProjector (some [some 1, some 3]) = .ok P ∧ twoPairs.createH (some P) = .ok A ∧
    diagList S A = .ok (w, M) ∧ ∃ d c, DensityValues twoPairs w M (some P) 1 d c ∧ Consistent d c ∧ ∑ j, d ⟨1, by decide⟩ j = 3 := by
  have h2 : RealParams twoPairs := by
    refine ⟨fun i j s => ?_, fun i => ?_, fun i j s => ?_, fun s => ?_, fun i s => ?_⟩
    · simp only [twoPairs]
      split_ifs <;> simp
    · simp [twoPairs]
    · simp [twoPairs]
    · simp [twoPairs]
    · simp [twoPairs]
  have h3 : Fits twoPairs.nsites [some 1, some 3] := by
    intro v hv
    simp only [List.mem_cons, Option.some.injEq, List.not_mem_nil, or_false] at hv
    change 0 ≤ v ∧ v ≤ 4
    omega
  obtain ⟨P, A, w, M, a1, a2, a3, a4⟩ := C142_fixed_numbers S hS twoPairs (.inl le_rfl) h2 (by decide) rfl h3
  obtain ⟨d, c, p, b1, -, b3, b4⟩ := a4 1 (.inl one_ne_zero)
  exact ⟨P, A, w, M, a1, a2, a3, d, c, b1, b3, by simpa using (b4 ⟨1, by decide⟩ 3 rfl).2.1⟩

example : freeMiddle.twoS = 1 ∧ RealCouplings freeMiddle := by
  refine ⟨rfl, fun i j => ?_, fun i j => ?_, fun i j => ?_, fun i => ?_, fun i => ?_, fun i => ?_⟩ <;> simp only [freeMiddle] <;>
    (try split_ifs) <;> simp

end ED.Props
