import Verif.Lemmas.SelectNear
import Verif.Model.HeisenbergScript

/-! # Nested sectors: rows supported on different cells of the basis -/

namespace ED

open Matrix Spec

variable {d : ℕ}

/-! ## Cells -/

/-- Cells joined along the cycles of a permutation which moves cells to cells. -/
def joinCells (r : Setoid (Fin d)) (ρ : Equiv.Perm (Fin d)) (hr : ∀ i j, r (ρ i) (ρ j) ↔ r i j) : Setoid (Fin d) where
  r i j := ∃ m : ℤ, r ((ρ ^ m) i) j
  iseqv := by
    have hz : ∀ (m : ℤ) i j, r ((ρ ^ m) i) ((ρ ^ m) j) ↔ r i j := by
      have hn : ∀ (m : ℕ) i j, r ((ρ ^ m) i) ((ρ ^ m) j) ↔ r i j := by
        intro m
        induction m with
        | zero => intro i j; rfl
        | succ m ih =>
          intro i j
          rw [pow_succ', Equiv.Perm.mul_apply, Equiv.Perm.mul_apply, hr, ih]
      intro m i j
      obtain ⟨k, rfl | rfl⟩ := m.eq_nat_or_neg
      · rw [zpow_natCast]
        exact hn k i j
      · have := hn k ((ρ ^ (-(k : ℤ))) i) ((ρ ^ (-(k : ℤ))) j)
        rw [← Equiv.Perm.mul_apply, ← Equiv.Perm.mul_apply, ← zpow_natCast, ← _root_.zpow_add, add_neg_cancel, zpow_zero] at this
        exact this.symm
    refine ⟨fun i => ⟨0, r.refl _⟩, ?_, ?_⟩
    · rintro i j ⟨m, h⟩
      refine ⟨-m, r.symm ?_⟩
      have := (hz (-m) _ _).2 h
      rwa [← Equiv.Perm.mul_apply, ← _root_.zpow_add, neg_add_cancel, zpow_zero] at this
    · rintro i j k ⟨m, h⟩ ⟨l, h'⟩
      refine ⟨l + m, ?_⟩
      rw [_root_.zpow_add, Equiv.Perm.mul_apply]
      exact r.trans ((hz l _ _).2 h) h'

theorem joinCells_iff (r : Setoid (Fin d)) (ρ : Equiv.Perm (Fin d)) (hr : ∀ i j, r (ρ i) (ρ j) ↔ r i j) (i j : Fin d) :
    joinCells r ρ hr i j ↔ ∃ m : ℤ, r ((ρ ^ m) i) j := Iff.rfl

theorem cells_zpow {r : Setoid (Fin d)} {ρ : Equiv.Perm (Fin d)} (hr : ∀ i j, r (ρ i) (ρ j) ↔ r i j) {m : ℤ} {i j : Fin d}
    (h : r i j) : r ((ρ ^ m) i) ((ρ ^ m) j) := by
  have h1 : ∀ (k : ℕ) i j, r ((ρ ^ k) i) ((ρ ^ k) j) ↔ r i j := by
    intro k
    induction k with
    | zero => intro i j; rfl
    | succ m ih =>
      intro i j
      rw [pow_succ', Equiv.Perm.mul_apply, Equiv.Perm.mul_apply, hr, ih]
  obtain ⟨k, rfl | rfl⟩ := m.eq_nat_or_neg
  · rw [zpow_natCast]
    exact (h1 k i j).2 h
  · have := h1 k ((ρ ^ (-(k : ℤ))) i) ((ρ ^ (-(k : ℤ))) j)
    rw [← Equiv.Perm.mul_apply, ← Equiv.Perm.mul_apply, ← zpow_natCast, ← _root_.zpow_add, add_neg_cancel, zpow_zero] at this
    exact this.1 h

/-- A permutation moves joined cells to joined cells if it moves cells to cells and takes the cycles to cycles. -/
theorem joinCells_move {r : Setoid (Fin d)} {ρ ρ' : Equiv.Perm (Fin d)} (hr : ∀ i j, r (ρ i) (ρ j) ↔ r i j)
    (hr' : ∀ i j, r (ρ' i) (ρ' j) ↔ r i j) {e : ℤ} (he : e = 1 ∨ e = -1) (hc : ρ' * ρ = ρ ^ e * ρ') (i j : Fin d) :
    joinCells r ρ hr (ρ' i) (ρ' j) ↔ joinCells r ρ hr i j := by
  have h1 : SemiconjBy ρ' ρ (ρ ^ e) := hc
  have h2 : ∀ (m : ℤ) i, ρ' ((ρ ^ m) i) = (ρ ^ (e * m)) (ρ' i) := by
    intro m i
    have := congrArg (fun f : Equiv.Perm (Fin d) => f i) (h1.zpow_right m)
    simp only [Equiv.Perm.mul_apply] at this
    rw [this, _root_.zpow_mul]
  rw [joinCells_iff, joinCells_iff]
  have he2 : ∀ m : ℤ, e * (e * m) = m := by
    intro m
    rcases he with rfl | rfl <;> ring
  constructor
  · rintro ⟨m, h⟩
    refine ⟨e * m, (hr' _ _).1 ?_⟩
    rw [h2, he2]
    exact h
  · rintro ⟨m, h⟩
    refine ⟨e * m, ?_⟩
    rw [← h2]
    exact (hr' _ _).2 h

/-! ## Rows on cells -/

/-- Rows close to orthonormal rows, each on one cell, and different rows on different cells. -/
structure CellRows {m : ℕ} (r : Setoid (Fin d)) (Q : Rows d) (X : Matrix (Fin m) (Fin d) ℂ) (κ : ℝ) : Prop where
  unit : X * Xᴴ = 1
  near : NearRows Q X κ
  cell : ∃ rep : Fin m → Fin d, (∀ a b, r (rep a) (rep b) → a = b) ∧
    ∀ (a : Fin m) j, (Q.getD a 0 j ≠ 0 ∨ X a j ≠ 0) → r (rep a) j

theorem vecMul_mono {V : Matrix (Fin d) (Fin d) ℂ} {ρ : Equiv.Perm (Fin d)} {v : Fin d → ℂ} (hV : Mono V ρ v) (x : Fin d → ℂ)
    (i : Fin d) : (x ᵥ* V) (ρ i) = x i * v i := by
  rw [vecMul, dotProduct, Finset.sum_eq_single i]
  · rw [hV.entry, if_pos rfl]
  · intro b _ hb
    rw [hV.entry, if_neg (fun hh => hb (ρ.injective hh).symm), mul_zero]
  · simp

/-- The product of a moved row with another row. -/
theorem rowInner_mono {V : Matrix (Fin d) (Fin d) ℂ} {ρ : Equiv.Perm (Fin d)} {v : Fin d → ℂ} (hV : Mono V ρ v) (x y : Fin d → ℂ) :
    rowInner (x ᵥ* V) y = ∑ i, x i * v i * (starRingEnd ℂ) (y (ρ i)) := by
  unfold rowInner
  rw [← Equiv.sum_comp ρ]
  exact Finset.sum_congr rfl fun i _ => by rw [vecMul_mono hV]

theorem rnorm_mono {V : Matrix (Fin d) (Fin d) ℂ} {ρ : Equiv.Perm (Fin d)} {v : Fin d → ℂ} (hV : Mono V ρ v) (x : Fin d → ℂ) :
    rnorm (x ᵥ* V) = rnorm x := rnorm_vecMul hV.unitary' x

namespace CellRows

variable {m : ℕ} {r : Setoid (Fin d)} {Q : Rows d} {X : Matrix (Fin m) (Fin d) ℂ} {κ : ℝ}

theorem mono_le (h : CellRows r Q X κ) {κ' : ℝ} (hk : κ ≤ κ') : CellRows r Q X κ' := ⟨h.unit, h.near.mono hk, h.cell⟩

theorem row_near (h : CellRows r Q X κ) (a : Fin m) : rnorm (Q.getD a 0 - X a) ≤ κ := by
  classical
  have := h.near.2 (Pi.single a 1)
  have e1 : Real.sqrt (∑ b, ‖(Pi.single a (1 : ℂ) : Fin m → ℂ) b‖ ^ 2) = 1 := by
    rw [Finset.sum_eq_single a]
    · simp
    · intro b _ hb
      simp [hb]
    · simp
  rw [e1, mul_one] at this
  refine le_of_eq_of_le (congrArg rnorm ?_) this
  funext j
  rw [Finset.sum_eq_single a]
  · simp
  · intro b _ hb
    simp [hb]
  · simp

theorem row_unit (h : CellRows r Q X κ) (a : Fin m) : rnorm (X a) = 1 := by
  have := congrFun (congrFun h.unit a) a
  rw [one_apply_eq, mul_apply] at this
  have e : ∑ j, X a j * Xᴴ j a = ((∑ j, ‖X a j‖ ^ 2 : ℝ) : ℂ) := by
    push_cast
    refine Finset.sum_congr rfl fun j _ => ?_
    rw [conjTranspose_apply, ← starRingEnd_apply, Complex.mul_conj, Complex.normSq_eq_norm_sq]
    push_cast
    rfl
  rw [e] at this
  rw [rnorm_eq, show (∑ j, ‖X a j‖ ^ 2 : ℝ) = 1 by exact_mod_cast this, Real.sqrt_one]

/-- A symmetry in the space of the rows permutes the rows. -/
theorem move (h : CellRows r Q X κ) {rep : Fin m → Fin d} (hrep : ∀ a b, r (rep a) (rep b) → a = b)
    (hsupp : ∀ (a : Fin m) j, (Q.getD a 0 j ≠ 0 ∨ X a j ≠ 0) → r (rep a) j) {V : Matrix (Fin d) (Fin d) ℂ} {ρ : Equiv.Perm (Fin d)}
    {v : Fin d → ℂ} (hV : Mono V ρ v) (hr : ∀ i j, r (ρ i) (ρ j) ↔ r i j) {M : Matrix (Fin m) (Fin m) ℂ} (hM : X * V = M * X) :
    ∃ (τ : Equiv.Perm (Fin m)) (w : Fin m → ℂ), Mono M τ w ∧ ∀ a, r (ρ (rep a)) (rep (τ a)) := by
  have hMe : M = X * V * Xᴴ := by rw [hM, Matrix.mul_assoc, h.unit, Matrix.mul_one]
  have hent : ∀ a b, M a b = ∑ i, X a i * v i * (starRingEnd ℂ) (X b (ρ i)) := by
    intro a b
    rw [← rowInner_mono hV, hMe]
    rfl
  have hne : ∀ a b, M a b ≠ 0 → r (ρ (rep a)) (rep b) := by
    intro a b hab
    rw [hent] at hab
    obtain ⟨i, -, hi⟩ := Finset.exists_ne_zero_of_sum_ne_zero hab
    have h1 : X a i ≠ 0 := left_ne_zero_of_mul (left_ne_zero_of_mul hi)
    have h2 : X b (ρ i) ≠ 0 := fun h0 => hi (by rw [h0, map_zero, mul_zero])
    exact r.trans ((hr _ _).2 (hsupp a i (Or.inr h1))) (r.symm (hsupp b _ (Or.inr h2)))
  have hMM : M * Mᴴ = 1 := by
    have : (X * V) * (X * V)ᴴ = 1 := by
      rw [conjTranspose_mul, Matrix.mul_assoc, ← Matrix.mul_assoc V, hV.unitary', Matrix.one_mul, h.unit]
    rw [hM, conjTranspose_mul, Matrix.mul_assoc, ← Matrix.mul_assoc X, h.unit, Matrix.one_mul] at this
    exact this
  have hex : ∀ a, ∃ b, M a b ≠ 0 := by
    intro a
    by_contra hc
    push Not at hc
    have := congrFun (congrFun hMM a) a
    rw [one_apply_eq, mul_apply, Finset.sum_eq_zero fun b _ => by rw [hc b, zero_mul]] at this
    exact zero_ne_one this
  choose f hf using hex
  have hinj : Function.Injective f := by
    intro a b hab
    have h1 := hne _ _ (hf a)
    rw [hab] at h1
    exact hrep a b ((hr _ _).1 (r.trans h1 (r.symm (hne _ _ (hf b)))))
  have h0 : ∀ a b, b ≠ f a → M a b = 0 := by
    intro a b hb
    by_contra hc
    exact hb (hrep _ _ (r.trans (r.symm (hne _ _ hc)) (hne _ _ (hf a))))
  refine ⟨Equiv.ofBijective f (Finite.injective_iff_bijective.1 hinj), fun a => M a (f a), ⟨fun a => ?_, fun a b => ?_⟩,
    fun a => hne _ _ (hf a)⟩
  · have := congrFun (congrFun hMM a) a
    rw [one_apply_eq, mul_apply, Finset.sum_eq_single (f a), conjTranspose_apply, ← starRingEnd_apply, Complex.mul_conj,
      Complex.normSq_eq_norm_sq] at this
    · have h2 : ‖M a (f a)‖ ^ 2 = 1 := by exact_mod_cast this
      exact (pow_eq_one_iff_of_nonneg (norm_nonneg _) two_ne_zero).1 h2
    · intro b _ hb
      rw [h0 a b hb, zero_mul]
    · simp
  · rw [Equiv.ofBijective_apply]
    split_ifs with hb
    · rw [hb]
    · exact h0 a b hb

end CellRows

/-- The symmetry restricted to the rows themselves. -/
theorem restrictOp_rowInner (Q : Rows d) (V : Matrix (Fin d) (Fin d) ℂ) (a b : Fin Q.length) :
    restrictOp Q V a b = rowInner (Q[a] ᵥ* V) Q[b] := rfl

theorem getD_fin (Q : Rows d) (a : Fin Q.length) : Q.getD a 0 = Q[a] := getD_get _ _ a.2

namespace CellRows

variable {r : Setoid (Fin d)} {Q : Rows d} {X : Matrix (Fin Q.length) (Fin d) ℂ} {κ : ℝ}

theorem restrict_off {rep : Fin Q.length → Fin d} (hrep : ∀ a b, r (rep a) (rep b) → a = b)
    (hsupp : ∀ (a : Fin Q.length) j, (Q.getD a 0 j ≠ 0 ∨ X a j ≠ 0) → r (rep a) j) {V : Matrix (Fin d) (Fin d) ℂ} {ρ : Equiv.Perm (Fin d)}
    {v : Fin d → ℂ} (hV : Mono V ρ v) (hr : ∀ i j, r (ρ i) (ρ j) ↔ r i j) {τ : Equiv.Perm (Fin Q.length)}
    (hτ : ∀ a, r (ρ (rep a)) (rep (τ a))) {a b : Fin Q.length} (hb : b ≠ τ a) : restrictOp Q V a b = 0 := by
  rw [restrictOp_rowInner, rowInner_mono hV]
  refine Finset.sum_eq_zero fun i _ => ?_
  by_contra hi
  have h1 : Q[a] i ≠ 0 := left_ne_zero_of_mul (left_ne_zero_of_mul hi)
  have h2 : Q[b] (ρ i) ≠ 0 := fun h0 => hi (by rw [h0, map_zero, mul_zero])
  rw [← getD_fin] at h1 h2
  have h3 := (hr _ _).2 (hsupp a i (Or.inl h1))
  have h4 := hsupp b _ (Or.inl h2)
  exact hb (hrep _ _ (r.trans h4 (r.trans (r.symm h3) (hτ a))))

theorem restrict_near (h : CellRows r Q X κ) {V : Matrix (Fin d) (Fin d) ℂ} {ρ : Equiv.Perm (Fin d)}
    {v : Fin d → ℂ} (hV : Mono V ρ v) {M : Matrix (Fin Q.length) (Fin Q.length) ℂ} (hM : X * V = M * X) (a b : Fin Q.length) :
    ‖restrictOp Q V a b - M a b‖ ≤ κ * (2 + κ) := by
  have hMe : M a b = rowInner (X a ᵥ* V) (X b) := by
    have : M = X * V * Xᴴ := by rw [hM, Matrix.mul_assoc, h.unit, Matrix.mul_one]
    rw [this]
    rfl
  have ha := h.row_near a
  have hb := h.row_near b
  rw [getD_fin] at ha hb
  have hκ : 0 ≤ κ := (rnorm_nonneg _).trans ha
  have hbn : rnorm Q[b] ≤ 1 + κ := by
    have := rnorm_add_le (Q[b] - X b) (X b)
    rw [sub_add_cancel, h.row_unit] at this
    linarith
  have e : rowInner (Q[a] ᵥ* V) Q[b] - rowInner (X a ᵥ* V) (X b) =
      rowInner ((Q[a] - X a) ᵥ* V) Q[b] + rowInner (X a ᵥ* V) (Q[b] - X b) := by
    rw [sub_vecMul, rowInner_sub_left, rowInner_sub_right]
    ring
  rw [restrictOp_rowInner, hMe, e]
  refine (norm_add_le _ _).trans ?_
  have b1 := rowInner_norm_le ((Q[a] - X a) ᵥ* V) Q[b]
  have b2 := rowInner_norm_le (X a ᵥ* V) (Q[b] - X b)
  rw [rnorm_mono hV] at b1 b2
  rw [h.row_unit, one_mul] at b2
  have b3 : rnorm (Q[a] - X a) * rnorm Q[b] ≤ κ * (1 + κ) := mul_le_mul ha hbn (rnorm_nonneg _) hκ
  nlinarith

end CellRows

/-- Orthonormal rows which are as many as the columns are complete. -/
theorem stack_complete {ι : Type} [Fintype ι] [DecidableEq ι] {m : ι → ℕ} (X : ∀ i, Matrix (Fin (m i)) (Fin d) ℂ)
    (h1 : ∀ i, X i * (X i)ᴴ = 1) (h2 : ∀ i j, i ≠ j → X i * (X j)ᴴ = 0) (hd : ∑ i, m i = d) : ∑ i, (X i)ᴴ * X i = 1 := by
  set Z : Matrix (Σ i, Fin (m i)) (Fin d) ℂ := Matrix.of fun p j => X p.1 p.2 j with hZ
  have z1 : Z * Zᴴ = 1 := by
    ext ⟨i, x⟩ ⟨j, y⟩
    have e : (Z * Zᴴ) ⟨i, x⟩ ⟨j, y⟩ = (X i * (X j)ᴴ) x y := rfl
    rw [e]
    by_cases hij : i = j
    · subst hij
      rw [h1, one_apply, one_apply]
      refine if_congr ?_ rfl rfl
      rw [Sigma.mk.injEq]
      simp
    · rw [h2 i j hij, one_apply_ne (fun e => hij (congrArg Sigma.fst e))]
      rfl
  have hcard : Fintype.card (Σ i, Fin (m i)) = Fintype.card (Fin d) := by
    rw [Fintype.card_sigma, Fintype.card_fin, ← hd]
    simp
  have z2 : Zᴴ * Z = 1 := (mul_eq_one_comm_of_card_eq _ _ _ hcard).1 z1
  rw [← z2]
  ext i j
  rw [mul_apply, Matrix.sum_apply, Fintype.sum_sigma]
  rfl

/-! ## Sectors inside sectors -/

/-- The sectors of a symmetry in the space of the rows. -/
theorem CellRows.split {m : ℕ} {r : Setoid (Fin d)} {Q : Rows d} {X : Matrix (Fin m) (Fin d) ℂ} {κ : ℝ} (h : CellRows r Q X κ)
    {V : Matrix (Fin d) (Fin d) ℂ} {ρ : Equiv.Perm (Fin d)} {v : Fin d → ℂ} (hV : Mono V ρ v)
    (hr : ∀ i j, r (ρ i) (ρ j) ↔ r i j) (hinv : ∃ M, X * V = M * X) {n : ℕ} (hn : 0 < n) (hn' : n < 10 ^ 4) (hp : V ^ n = 1)
    (hκ : 0 ≤ κ) {δ : ℝ} (hδ : (1 + 1 / 10 ^ 14) * (1 + κ * (2 + κ)) ^ n - 1 ≤ δ) (hs : (n : ℝ) * δ < (10 : ℝ) ^ (-10 : ℤ))
    {P A : Mat} (hP : RowsOf P Q) (hA : A.Is V) :
    ∃ (Qs : ℕ → Rows d) (Ms : ℕ → Mat),
      splitBy P A n = .ok ((List.range n).map fun k : ℕ => (2 * Real.pi * (k : ℝ) / (n : ℝ), Ms k)) ∧
      ((List.range n).map fun k => (Qs k).length).sum = Q.length ∧
      ∀ k < n, RowsOf (Ms k) (Qs k) ∧ ∃ (m' : ℕ) (X' : Matrix (Fin m') (Fin d) ℂ),
        CellRows (joinCells r ρ hr) (Qs k) X' (κ * (1 + 3 * δ) + 3 * δ) ∧ X' * V = omega n k • X' ∧ (∃ Y : Matrix (Fin m') (Fin m) ℂ, X' = Y * X) ∧
        ∀ W : Matrix (Fin m') (Fin d) ℂ, (∃ Z : Matrix (Fin m') (Fin m) ℂ, W = Z * X) → W * V = omega n k • W → ∃ Z : Matrix (Fin m') (Fin m') ℂ, W = Z * X' := by
  obtain ⟨rep, hrep, hsupp⟩ := h.cell
  obtain ⟨M, hM⟩ := hinv
  obtain rfl := h.near.1
  obtain ⟨τ, w, hMm, hτ⟩ := h.move hrep hsupp hV hr hM
  have hpowX : ∀ l : ℕ, M ^ l * X = X * V ^ l := by
    intro l
    induction l with
    | zero => simp
    | succ l ih => rw [pow_succ', Matrix.mul_assoc, ih, ← Matrix.mul_assoc, ← hM, Matrix.mul_assoc, ← pow_succ']
  have hMp : M ^ n = 1 := by
    have := hpowX n
    rw [hp, Matrix.mul_one] at this
    calc M ^ n = M ^ n * X * Xᴴ := by rw [Matrix.mul_assoc, h.unit, Matrix.mul_one]
      _ = 1 := by rw [this, h.unit]
  have hd := znData_near (W := restrictOp Q V) hMm (v := fun a => restrictOp Q V a (τ a)) (fun a b => by
      split_ifs with hb
      · rw [hb]
      · exact CellRows.restrict_off hrep hsupp hV hr hτ hb) (η := κ * (2 + κ)) (by positivity) (fun a => by
      have := h.restrict_near hV hM a (τ a)
      rwa [hMm.entry, if_pos rfl] at this) hn.ne' hMp (δ := 1 / 10 ^ 14) (by positivity) (fun k _ l _ => table_near n k l) hδ hs
  have hok := zn_ok hd hn'
  -- the exact rows
  set Y : ∀ k, Matrix (Fin (hd.sector k).length) (Fin Q.length) ℂ := fun k => Reps.exactMat hd k (hd.sectorRep k) with hY
  have y1 : ∀ k < n, Y k * (Y k)ᴴ = 1 := fun k hk => (hd.reps hk).exactMat_unit
  have y2 : ∀ k, Y k * M = omega n k • Y k := fun k => hd.exactMat_eigen k _
  have htot : ((List.range n).map fun k => (hd.sector k).length).sum = Q.length := by
    have := hd.good.total
    rw [hd.projs_sector, List.map_map] at this
    exact this
  have y3 : ∑ k : Fin n, (Y k)ᴴ * Y k = 1 := by
    refine stack_complete (fun k : Fin n => Y k) (fun k => y1 k k.2) (fun k l hkl => ?_) ?_
    · have := eigen_block (H := 1) hMm.unitary' (by rw [Matrix.mul_one, Matrix.one_mul]) (y2 k) (y2 l) (omega_norm _ _)
        (fun e => hkl (Fin.ext (omega_inj hn.ne' k.2 l.2 e)))
      rwa [Matrix.mul_one] at this
    · rw [Fin.sum_univ_eq_sum_range (fun k => (hd.sector k).length), ← list_range_sum]
      exact htot
  -- the matrices
  obtain ⟨pr, pc, pe⟩ := P
  have hrows : pr = Q.length := by
    have := hP.1
    simpa using this
  subst hrows
  obtain ⟨t, t1, t2⟩ := Mat.Is.inSector hP hA
  have ht : (Matrix.of fun i j => t.e i j : Matrix (Fin Q.length) (Fin Q.length) ℂ) = restrictOp Q V := by
    ext a b
    have := t2.2.2 a b
    refine this.trans ?_
    rw [restrictOp_rowInner]
    rfl
  choose Ms m1 m2 using fun k => liftRows_is hP (hd.sector k)
  have hlift : ∀ k, liftRows (Matrix.of fun (a : Fin Q.length) (j : Fin d) => Q[a] j) (hd.sector k) = mulRows Q (hd.sector k) := by
    intro k
    rfl
  refine ⟨fun k => mulRows Q (hd.sector k), Ms, ?_, ?_, fun k hk => ⟨?_, _, Y k * X, ⟨?_, ?_, ?_⟩, ?_, ⟨Y k, rfl⟩, ?_⟩⟩
  · unfold splitBy
    rw [t1]
    simp only [bind, Except.bind]
    rw [ht, hok]
    simp only
    rw [hd.projs_sector, List.zip_map', mapM_ok (g := fun k : ℝ × Rows Q.length => (k.1, match (rowsMat k.2).mul ⟨Q.length, pc, pe⟩ with
      | .ok p => p
      | .error _ => ⟨0, 0, fun _ _ => 0⟩))]
    · rw [List.map_map]
      congr 1
      refine List.map_congr_left fun k _ => ?_
      simp only [Function.comp, m1]
    · intro k hk
      obtain ⟨x, -, rfl⟩ := List.mem_map.1 hk
      simp only [m1, pure, Except.pure]
  · simp only [mulRows, List.length_map]
    exact htot
  · have := m2 k
    rw [hlift] at this
    exact this
  · rw [conjTranspose_mul, Matrix.mul_assoc, ← Matrix.mul_assoc X, h.unit, Matrix.one_mul, y1 k hk]
  · exact NearRows.mul hκ h.unit (y1 k hk) h.near (hd.near_sector hk)
  · have hstep : ∀ (e : ℤ) a, r ((ρ ^ e) (rep a)) (rep ((τ ^ e) a)) := by
      have hnat : ∀ (e : ℕ) a, r ((ρ ^ e) (rep a)) (rep ((τ ^ e) a)) := by
        intro e
        induction e with
        | zero => intro a; exact r.refl _
        | succ e ih =>
          intro a
          rw [pow_succ', pow_succ', Equiv.Perm.mul_apply, Equiv.Perm.mul_apply]
          exact r.trans ((hr _ _).2 (ih a)) (hτ _)
      intro e a
      obtain ⟨k, rfl | rfl⟩ := e.eq_nat_or_neg
      · rw [zpow_natCast, zpow_natCast]
        exact hnat k a
      · have := cells_zpow hr (m := -(k : ℤ)) (hnat k ((τ ^ (-(k : ℤ))) a))
        rw [← zpow_natCast, ← zpow_natCast, ← Equiv.Perm.mul_apply, ← Equiv.Perm.mul_apply, ← _root_.zpow_add, ← _root_.zpow_add, neg_add_cancel, add_neg_cancel, zpow_zero,
          zpow_zero] at this
        exact r.symm this
    refine ⟨fun c => rep (hd.sectorRep k c), fun a b => ?_, fun c j hj => ?_⟩
    · rintro ⟨e, he⟩
      have := hrep _ _ (r.trans (r.symm (hstep e (hd.sectorRep k a))) he)
      exact (hd.reps hk).same ⟨e, this⟩
    · have hex : ∃ a, τ.SameCycle (hd.sectorRep k c) a ∧ (Q.getD a 0 j ≠ 0 ∨ X a j ≠ 0) := by
        rcases hj with hj | hj
        · have hc : (c : ℕ) < (mulRows Q (hd.sector k)).length := by simp [mulRows]
          rw [getD_get _ _ hc] at hj
          have e : (mulRows Q (hd.sector k))[(c : ℕ)] j = ∑ a, (hd.sector k)[c] a * Q[a] j := by
            have e' : (mulRows Q (hd.sector k))[(c : ℕ)] = fun j => ∑ a, (hd.sector k)[c] a * Q[a] j := List.getElem_map _
            rw [e']
          rw [e] at hj
          obtain ⟨a, -, ha⟩ := Finset.exists_ne_zero_of_sum_ne_zero hj
          refine ⟨a, ?_, Or.inl ?_⟩
          · by_contra hc
            exact left_ne_zero_of_mul ha (hd.sector_off hk hc)
          · rw [getD_fin]
            exact right_ne_zero_of_mul ha
        · rw [mul_apply] at hj
          obtain ⟨a, -, ha⟩ := Finset.exists_ne_zero_of_sum_ne_zero hj
          refine ⟨a, ?_, Or.inr (right_ne_zero_of_mul ha)⟩
          by_contra hc
          exact left_ne_zero_of_mul ha (Reps.exactRow_off hc)
      obtain ⟨a, ⟨e, rfl⟩, ha⟩ := hex
      exact ⟨e, r.trans (hstep e _) (hsupp _ _ ha)⟩
  · rw [Matrix.mul_assoc, hM, ← Matrix.mul_assoc, y2, Matrix.smul_mul]
  · rintro W ⟨Z, rfl⟩ hW
    have hZ : Z * M = omega n k • Z := by
      have : Z * M * X = omega n k • Z * X := by
        rw [Matrix.mul_assoc, ← hM, ← Matrix.mul_assoc, hW, Matrix.smul_mul]
      calc Z * M = Z * M * X * Xᴴ := by rw [Matrix.mul_assoc (Z * M), h.unit, Matrix.mul_one]
        _ = _ := by rw [this, Matrix.mul_assoc, h.unit, Matrix.mul_one]
    have hsum : Z = Z * (Y k)ᴴ * Y k := by
      calc Z = Z * ∑ l : Fin n, (Y l)ᴴ * Y l := by rw [y3, Matrix.mul_one]
        _ = ∑ l : Fin n, Z * (Y l)ᴴ * Y l := by
          rw [Matrix.mul_sum]
          exact Finset.sum_congr rfl fun l _ => (Matrix.mul_assoc _ _ _).symm
        _ = _ := by
          rw [Finset.sum_eq_single ⟨k, hk⟩]
          · intro l _ hl
            have := eigen_block (H := 1) hMm.unitary' (by rw [Matrix.mul_one, Matrix.one_mul]) hZ (y2 l) (omega_norm _ _)
              (fun e => hl (Fin.ext (omega_inj hn.ne' l.2 hk e.symm)))
            rw [Matrix.mul_one] at this
            rw [this, Matrix.zero_mul]
          · simp
    refine ⟨Z * (Y k)ᴴ, ?_⟩
    rw [← Matrix.mul_assoc, ← hsum]

end ED
