import Verif.Lemmas.NearZn
import Verif.Lemmas.Select

/-! # Symmetries in a sector of basis states, and the sectors of both together -/

namespace ED

open Matrix Spec

variable {d : ℕ}

/-! ## Selected states -/

section selected

variable {r : ℕ} {sel : Fin r → Fin d}

/-- The rows of selected states. -/
def selMat (sel : Fin r → Fin d) : Matrix (Fin r) (Fin d) ℂ := Matrix.of fun a j => if j = sel a then 1 else 0

theorem selMat_mul (sel : Fin r → Fin d) {κ : Type} (T : Matrix (Fin d) κ ℂ) : selMat sel * T = T.submatrix sel id := by
  ext a j
  rw [mul_apply, Finset.sum_eq_single (sel a)]
  · simp [selMat]
  · intro b _ hb
    simp [selMat, hb]
  · simp

theorem selMat_unit (hi : Function.Injective sel) : selMat sel * (selMat sel)ᴴ = 1 := by
  rw [selMat_mul]
  ext a b
  simp only [submatrix_apply, conjTranspose_apply, selMat, of_apply, id, one_apply]
  by_cases h : a = b
  · simp [h]
  · rw [if_neg (fun e => h (hi e)), if_neg h, star_zero]

variable {α : Type} {lab : Fin d → α} {x : α}

theorem selMat_comm (hi : Function.Injective sel) (hr : ∀ j, lab j = x ↔ ∃ a, sel a = j) {T : Matrix (Fin d) (Fin d) ℂ}
    (hT : ∀ i j, lab i ≠ lab j → T i j = 0) : selMat sel * T = (selMat sel * T * (selMat sel)ᴴ) * selMat sel := by
  rw [selMat_mul]
  ext a j
  have e : ∀ b, (T.submatrix sel id * (selMat sel)ᴴ) a b = T (sel a) (sel b) := by
    intro b
    rw [mul_apply, Finset.sum_eq_single (sel b)]
    · simp [selMat]
    · intro k _ hk
      simp [selMat, hk]
    · simp
  rw [mul_apply, submatrix_apply, Finset.sum_congr rfl fun b _ => by rw [e]]
  simp only [selMat, of_apply, id]
  by_cases hj : ∃ b, sel b = j
  · obtain ⟨b, rfl⟩ := hj
    rw [Finset.sum_eq_single b]
    · simp
    · intro c _ hc
      rw [if_neg (fun e => hc (hi e).symm), mul_zero]
    · simp
  · rw [hT (sel a) j, Finset.sum_eq_zero]
    · intro b _
      rw [if_neg (fun e => hj ⟨b, e.symm⟩), mul_zero]
    · intro e
      exact hj ((hr j).1 (by rw [← e]; exact (hr _).2 ⟨a, rfl⟩))

/-- Symmetries that keep the label act in the sector. -/
theorem selMat_phase (hi : Function.Injective sel) (hr : ∀ j, lab j = x ↔ ∃ a, sel a = j) {T : Matrix (Fin d) (Fin d) ℂ}
    (hT : ∀ i j, lab i ≠ lab j → T i j = 0) (hp : PhasePermutation T) :
    PhasePermutation (selMat sel * T * (selMat sel)ᴴ) := by
  obtain ⟨σ, u, hu, he⟩ := hp
  have hσ : ∀ a, ∃ b, sel b = σ (sel a) := by
    intro a
    refine (hr _).1 ?_
    have : T (sel a) (σ (sel a)) ≠ 0 := by
      rw [he, if_pos rfl]
      intro h0
      have := hu (sel a)
      rw [h0, norm_zero] at this
      exact zero_ne_one this
    have h2 : lab (sel a) = lab (σ (sel a)) := by
      by_contra hne
      exact this (hT _ _ hne)
    rw [← h2]
    exact (hr _).2 ⟨a, rfl⟩
  choose τ hτ using hσ
  have hinj : Function.Injective τ := by
    intro a b e
    refine hi (σ.injective ?_)
    rw [← hτ, ← hτ, e]
  refine ⟨Equiv.ofBijective τ (Finite.injective_iff_bijective.1 hinj), fun a => u (sel a), fun a => hu _, fun a b => ?_⟩
  rw [selMat_mul, mul_apply, Finset.sum_eq_single (sel b)]
  · have : (selMat sel)ᴴ (sel b) b = 1 := by simp [selMat]
    rw [this, mul_one, submatrix_apply, id, he, Equiv.ofBijective_apply]
    refine if_congr ?_ rfl rfl
    rw [← hτ]
    exact ⟨fun e => hi e, fun e => congrArg sel e⟩
  · intro k _ hk
    have : (selMat sel)ᴴ k b = 0 := by simp [selMat, hk]
    rw [this, mul_zero]
  · simp

theorem compress_pow {E : Matrix (Fin r) (Fin d) ℂ} (hE : E * Eᴴ = 1) {T : Matrix (Fin d) (Fin d) ℂ}
    (h : E * T = E * T * Eᴴ * E) {n : ℕ} (hp : T ^ n = 1) : (E * T * Eᴴ) ^ n = 1 := by
  have key : ∀ k : ℕ, (E * T * Eᴴ) ^ k * E = E * T ^ k := by
    intro k
    induction k with
    | zero => simp
    | succ k ih =>
      rw [pow_succ', Matrix.mul_assoc, ih, pow_succ', ← Matrix.mul_assoc, ← Matrix.mul_assoc, ← h]
  have h1 := key n
  rw [hp, Matrix.mul_one] at h1
  calc (E * T * Eᴴ) ^ n = (E * T * Eᴴ) ^ n * E * Eᴴ := by
        rw [Matrix.mul_assoc ((E * T * Eᴴ) ^ n), hE, Matrix.mul_one]
    _ = 1 := by rw [h1, hE]

theorem compress_mul {E : Matrix (Fin r) (Fin d) ℂ} {S T : Matrix (Fin d) (Fin d) ℂ} (hS : E * S = E * S * Eᴴ * E) :
    (E * S * Eᴴ) * (E * T * Eᴴ) = E * (S * T) * Eᴴ := by
  calc (E * S * Eᴴ) * (E * T * Eᴴ) = (E * S * Eᴴ * E) * T * Eᴴ := by simp only [Matrix.mul_assoc]
    _ = _ := by rw [← hS]; simp only [Matrix.mul_assoc]

end selected

/-! ## Rows in a sector -/

/-- Rows of the sector as rows of the whole space. -/
noncomputable def liftRows {r : ℕ} (E : Matrix (Fin r) (Fin d) ℂ) (Q : Rows r) : Rows d := Q.map fun x => x ᵥ* E

theorem liftRows_is {r : ℕ} {E : Matrix (Fin r) (Fin d) ℂ} {P : Mat} (hP : P.Is E) (Q : Rows r) :
    ∃ p, (rowsMat Q).mul P = .ok p ∧ RowsOf p (liftRows E Q) := by
  obtain ⟨p, h1, h2⟩ := (rowsMat_is Q).mul hP
  refine ⟨p, h1, ?_, h2.2.1, fun a j => ?_⟩
  · rw [h2.1]
    simp [liftRows]
  · have := h2.2.2 (Fin.cast (by simp [liftRows]) a) j
    refine this.trans ?_
    have e : (liftRows E Q)[a] = Q[(a : ℕ)]'(by simpa [liftRows] using a.2) ᵥ* E := List.getElem_map ..
    rw [of_apply, e]
    rfl

theorem rnorm_vecMul {p r : ℕ} {Z : Matrix (Fin p) (Fin r) ℂ} (hZ : Z * Zᴴ = 1) (v : Fin p → ℂ) : rnorm (v ᵥ* Z) = rnorm v := by
  have := sq_mulVec (X := Zᴴ) (by rw [conjTranspose_conjTranspose, hZ]) (star v)
  rw [rnorm_eq, rnorm_eq]
  have e : Zᴴ *ᵥ star v = star (v ᵥ* Z) := by rw [star_vecMul]
  rw [e] at this
  simp only [Pi.star_apply, norm_star] at this
  rw [this]

theorem liftRows_near {r m : ℕ} {E : Matrix (Fin r) (Fin d) ℂ} (hE : E * Eᴴ = 1) {Q : Rows r} {X : Matrix (Fin m) (Fin r) ℂ} {κ : ℝ}
    (h : NearRows Q X κ) : NearRows (liftRows E Q) (X * E) κ := by
  refine ⟨by simp [liftRows, h.1], fun c => le_of_eq_of_le ?_ (h.2 c)⟩
  rw [← rnorm_vecMul hE]
  congr 1
  have e1 : (fun j => ∑ a : Fin m, c a * (Q.getD a 0 j - X a j)) = ∑ a, c a • (Q.getD a 0 - X a) := by
    funext j
    simp [Finset.sum_apply]
  have e2 : ∀ a : Fin m, (liftRows E Q).getD a 0 = Q.getD a 0 ᵥ* E := by
    intro a
    have ha : (a : ℕ) < Q.length := by rw [h.1]; exact a.2
    rw [getD_get _ _ ha, getD_get _ _ (by simpa [liftRows] using ha)]
    simp [liftRows]
  have e3 : (fun j => ∑ a : Fin m, c a * ((liftRows E Q).getD a 0 j - (X * E) a j)) =
      ∑ a, c a • ((Q.getD a 0 - X a) ᵥ* E) := by
    funext j
    simp only [e2, Finset.sum_apply, sub_vecMul, Pi.smul_apply, Pi.sub_apply, smul_eq_mul]
    rfl
  rw [e1, e3, Matrix.sum_vecMul]
  simp only [smul_vecMul]

/-! ## Sectors of labels and symmetries -/

/-- Sectors of a label of the basis states and a list of symmetries. -/
theorem NearSectors.of_labels {τ α : Type} {L : List τ} {Q : τ → Rows d} {syms : List (Matrix (Fin d) (Fin d) ℂ)}
    {ω : τ → List ℂ} {lab : Fin d → α} {ℓ : τ → α} {H : Matrix (Fin d) (Fin d) ℂ} {κ : ℝ} (hL : L.Nodup) (hne : ∀ t ∈ L, Q t ≠ [])
    (hQ : ∀ t ∈ L, ∃ (m : ℕ) (X : Matrix (Fin m) (Fin d) ℂ), NearRows (Q t) X κ ∧ X * Xᴴ = 1 ∧
      (∀ s ∈ syms.zip (ω t), X * s.1 = s.2 • X) ∧ ∀ i j, lab j ≠ ℓ t → X i j = 0)
    (hlen : ∀ t ∈ L, (ω t).length = syms.length)
    (hnorm : ∀ t ∈ L, ∀ z ∈ ω t, ‖z‖ = 1) (hω : ∀ t ∈ L, ∀ t' ∈ L, t ≠ t' → ℓ t = ℓ t' → ω t ≠ ω t')
    (hU : ∀ U ∈ syms, U * Uᴴ = 1 ∧ U * H = H * U) (hH : ∀ i j, lab i ≠ lab j → H i j = 0)
    (htot : (L.map fun t => (Q t).length).sum = d) :
    NearSectors (L.map Q) H κ := by
  have hex : ∀ t, ∃ (m : ℕ) (X : Matrix (Fin m) (Fin d) ℂ), t ∈ L → NearRows (Q t) X κ ∧ X * Xᴴ = 1 ∧
      (∀ s ∈ syms.zip (ω t), X * s.1 = s.2 • X) ∧ ∀ i j, lab j ≠ ℓ t → X i j = 0 := by
    intro t
    by_cases ht : t ∈ L
    · obtain ⟨m, X, hX⟩ := hQ t ht
      exact ⟨m, X, fun _ => hX⟩
    · exact ⟨0, 0, fun h => absurd h ht⟩
  choose m X hX using hex
  have key : ∀ H' : Matrix (Fin d) (Fin d) ℂ, (∀ U ∈ syms, U * H' = H' * U) → (∀ i j, lab i ≠ lab j → H' i j = 0) →
      ∀ t ∈ L, ∀ t' ∈ L, t ≠ t' → X t * H' * (X t')ᴴ = 0 := by
    intro H' hH' hl t ht t' ht' hne
    by_cases hll : ℓ t = ℓ t'
    swap
    · ext i k
      rw [mul_apply, Matrix.zero_apply]
      refine Finset.sum_eq_zero fun b _ => ?_
      by_cases hb : lab b = ℓ t'
      · rw [mul_apply, Finset.sum_eq_zero, zero_mul]
        intro a _
        by_cases ha : lab a = ℓ t
        · rw [hl a b (by rw [ha, hb]; exact hll), mul_zero]
        · rw [(hX t ht).2.2.2 i a ha, zero_mul]
      · rw [conjTranspose_apply, (hX t' ht').2.2.2 k b hb, star_zero, mul_zero]
    have h1 := hω t ht t' ht' hne hll
    obtain ⟨i, hi1, hi2, hi⟩ : ∃ (i : ℕ) (h1 : i < (ω t).length) (h2 : i < (ω t').length), (ω t)[i] ≠ (ω t')[i] := by
      by_contra hc
      push Not at hc
      exact h1 (List.ext_getElem (by rw [hlen t ht, hlen t' ht']) hc)
    have hs : i < syms.length := by rw [← hlen t ht]; exact hi1
    have m1 : (syms[i], (ω t)[i]) ∈ syms.zip (ω t) := by
      have hz : i < (syms.zip (ω t)).length := by rw [List.length_zip]; omega
      have := List.getElem_mem hz
      rwa [List.getElem_zip] at this
    have m2 : (syms[i], (ω t')[i]) ∈ syms.zip (ω t') := by
      have hz : i < (syms.zip (ω t')).length := by rw [List.length_zip]; omega
      have := List.getElem_mem hz
      rwa [List.getElem_zip] at this
    exact eigen_block (hU _ (List.getElem_mem hs)).1 (hH' _ (List.getElem_mem hs)) ((hX t ht).2.2.1 _ m1)
      ((hX t' ht').2.2.1 _ m2) (hnorm t' ht' _ (List.getElem_mem _)) hi
  refine NearSectors.of (m := m) (X := X) hL hne (fun t ht => (hX t ht).1) (fun t ht => (hX t ht).2.1) (fun t ht t' ht' h => ?_)
    (key H (fun U h => (hU U h).2) hH) htot
  have := key 1 (fun U _ => by rw [Matrix.mul_one, Matrix.one_mul])
    (fun i j hij => one_apply_ne fun e => hij (congrArg lab e)) t ht t' ht' h
  rwa [Matrix.mul_one] at this

theorem NearSectors.of_eigen {τ : Type} {L : List τ} {Q : τ → Rows d} {syms : List (Matrix (Fin d) (Fin d) ℂ)}
    {ω : τ → List ℂ} {H : Matrix (Fin d) (Fin d) ℂ} {κ : ℝ} (hL : L.Nodup) (hne : ∀ t ∈ L, Q t ≠ [])
    (hQ : ∀ t ∈ L, NearEigen (Q t) (syms.zip (ω t)) κ) (hlen : ∀ t ∈ L, (ω t).length = syms.length)
    (hnorm : ∀ t ∈ L, ∀ z ∈ ω t, ‖z‖ = 1) (hω : ∀ t ∈ L, ∀ t' ∈ L, t ≠ t' → ω t ≠ ω t')
    (hU : ∀ U ∈ syms, U * Uᴴ = 1 ∧ U * H = H * U) (htot : (L.map fun t => (Q t).length).sum = d) :
    NearSectors (L.map Q) H κ :=
  NearSectors.of_labels (lab := fun _ => ()) (ℓ := fun _ => ()) hL hne (fun t ht => by
      obtain ⟨m, X, h1, h2, h3⟩ := hQ t ht
      exact ⟨m, X, h1, h2, h3, fun i j h => absurd rfl h⟩)
    hlen hnorm (fun t ht t' ht' h _ => hω t ht t' ht' h) hU (fun i j h => absurd rfl h) htot

/-- The sectors of a cyclic symmetry that are not empty. -/
theorem zn_near {U H : Matrix (Fin d) (Fin d) ℂ} (hU : PhasePermutation U) {n : ℕ} (hn : 0 < n) (hn' : n < 10 ^ 4)
    (hp : U ^ n = 1) (hc : U * H = H * U) :
    ∃ projs, getZnProjectors U n = .ok (projs, (List.range n).map fun k : ℕ => 2 * Real.pi * (k : ℝ) / (n : ℝ)) ∧
      NearSectors (projs.filter fun Q => decide (Q.length ≠ 0)) H (3 * (1 / 10 ^ 14)) := by
  obtain ⟨σ, u, hu, hent⟩ := hU
  have h := znData_of (U := U) ⟨hu, hent⟩ hn.ne' hn' hp (δ := 1 / 10 ^ 14) (by positivity) le_rfl (fun k _ l _ => table_near n k l)
  refine ⟨h.projs, zn_ok h hn', ?_⟩
  rw [h.projs_sector, List.filter_map]
  set p : ℕ → Bool := (fun Q : Rows d => decide (Q.length ≠ 0)) ∘ h.sector with hp
  have hm : ∀ k ∈ (List.range n).filter p, k < n ∧ h.sector k ≠ [] := by
    intro k hk
    obtain ⟨h1, h2⟩ := List.mem_filter.1 hk
    refine ⟨List.mem_range.1 h1, fun h0 => ?_⟩
    rw [hp] at h2
    simp only [Function.comp, decide_eq_true_eq] at h2
    exact h2 (by rw [h0]; rfl)
  refine NearSectors.of_eigen (syms := [U]) (ω := fun k => [omega n k]) (List.nodup_range.filter _) (fun k hk => (hm k hk).2)
    (fun k hk => h.near_eigen (hm k hk).1) (fun _ _ => rfl) (fun k _ z hz => ?_) (fun k hk l hl hkl e => ?_) (fun V hV => ?_) ?_
  · rw [List.mem_singleton] at hz
    rw [hz, omega_norm]
  · exact hkl (omega_inj hn.ne' (hm k hk).1 (hm l hl).1 (List.singleton_injective e))
  · rw [List.mem_singleton] at hV
    rw [hV]
    exact ⟨h.mono.unitary', hc⟩
  · have := h.good.total
    rw [h.projs_sector, List.map_map] at this
    refine Eq.trans ?_ this
    have key : ∀ l : List ℕ, ((l.filter p).map fun k => (h.sector k).length).sum = (l.map (List.length ∘ h.sector)).sum := by
      intro l
      induction l with
      | nil => rfl
      | cons k l ih =>
        by_cases hk : p k = true
        · rw [List.filter_cons_of_pos hk, List.map_cons, List.map_cons, List.sum_cons, List.sum_cons, ih]
          rfl
        · rw [List.filter_cons_of_neg hk, List.map_cons, List.sum_cons, ih]
          have : (h.sector k).length = 0 := by
            rw [hp] at hk
            simp only [Function.comp, decide_eq_true_eq, not_not] at hk
            exact hk
          simp only [Function.comp, this, zero_add]
    exact key _

/-- The sizes of the sectors of a label add up. -/
theorem label_total {α : Type} (lab : Fin d → α) (L : List (α × Mat)) (hnd : (L.map Prod.fst).Nodup)
    (hmem : ∀ j, lab j ∈ L.map Prod.fst) (hsel : ∀ s ∈ L, s.2.Selects d fun j => lab j = s.1) :
    (L.map fun s => s.2.rows).sum = d := by
  classical
  have e1 : ∀ s ∈ L, s.2.rows = (Finset.univ.filter fun j => lab j = s.1).card := by
    intro s hs
    obtain ⟨-, sel, hmono, hrange, -⟩ := hsel s hs
    have : (Finset.univ.filter fun j => lab j = s.1) = Finset.univ.image sel := by
      ext j
      have := Set.ext_iff.1 hrange j
      simp only [Set.mem_range, Set.mem_setOf_eq] at this
      simp [this]
    rw [this, Finset.card_image_of_injective _ hmono.injective, Finset.card_fin]
  have e2 : (L.map fun s => s.2.rows) = (L.map Prod.fst).map fun a => (Finset.univ.filter fun j => lab j = a).card := by
    rw [List.map_map]
    exact List.map_congr_left e1
  rw [e2, ← List.sum_toFinset _ hnd]
  rw [← Finset.card_eq_sum_card_fiberwise (f := lab) (s := Finset.univ) (fun j _ => by simpa using hmem j), Finset.card_fin]

end ED
