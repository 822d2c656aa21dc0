import Verif.Lemmas.ApproxSectors
import Verif.Lemmas.NumberSectors
import Verif.Spec.NearSectors
import Verif.Lemmas.ReduceApprox
import Verif.Model.Translation

/-! # Energies of sectors up to rounding errors -/

namespace ED

open Matrix Spec

theorem rowsMat_is {d : ℕ} (p : Rows d) : (rowsMat p).Is (Matrix.of fun (a : Fin p.length) (j : Fin d) => p[a] j) := by
  refine ⟨by simp [rowsMat], by simp [rowsMat], fun i j => ?_⟩
  have : (rowsMat p).e i j = p[i] j := by simp [rowsMat, i.2, j.2]
  exact this

/-- The matrix has these rows. -/
def RowsOf {d : ℕ} (M : Mat) (Q : Rows d) : Prop := M.Is (Matrix.of fun (a : Fin Q.length) (j : Fin d) => Q[a] j)

theorem forall₂_rowsOf {d : ℕ} (projs : List (Rows d)) : List.Forall₂ RowsOf (projs.map rowsMat) projs := by
  rw [List.forall₂_map_left_iff]
  exact List.forall₂_same.2 fun Q _ => rowsMat_is Q

theorem mergeSort_ofFn {α : Type} [LinearOrder α] {N : ℕ} (f : Fin N → α) (hf : Monotone f) (l : List α) (h : l.Perm (List.ofFn f)) :
    l.mergeSort (fun a b => decide (a ≤ b)) = List.ofFn f := by
  refine List.Perm.eq_of_pairwise (le := (· ≤ ·)) ?_ ?_ ?_ ((List.mergeSort_perm _ _).trans h)
  · exact fun a b _ _ h1 h2 => le_antisymm h1 h2
  · have := List.pairwise_mergeSort (le := fun a b : α => decide (a ≤ b)) (by
      intro a b c
      simp only [decide_eq_true_eq]
      exact le_trans) (by
      intro a b
      simp only [Bool.or_eq_true, decide_eq_true_eq]
      exact le_total a b) l
    simpa using this
  · rw [List.pairwise_ofFn]
    exact fun i j hij => hf hij.le

theorem foldl_max_le {l : List ℝ} {a c : ℝ} (ha : a ≤ c) (h : ∀ x ∈ l, x ≤ c) : l.foldl max a ≤ c := by
  induction l generalizing a with
  | nil => exact ha
  | cons x l ih => exact ih (max_le ha (h x (by simp))) fun y hy => h y (by simp [hy])

theorem Spec.NormLe.row_le {d : ℕ} {H : Matrix (Fin d) (Fin d) ℂ} {C : ℝ} (h : NormLe H C) (v : Fin d → ℂ) :
    rnorm (v ᵥ* H) ≤ C * rnorm v := by
  rw [rnorm_eq, rnorm_eq]
  refine Real.sqrt_le_iff.2 ⟨mul_nonneg h.1 (Real.sqrt_nonneg _), ?_⟩
  rw [mul_pow, Real.sq_sqrt (Finset.sum_nonneg fun _ _ => by positivity)]
  exact h.2 v

theorem quad_rowInner {d m : ℕ} (X : Matrix (Fin m) (Fin d) ℂ) (H : Matrix (Fin d) (Fin d) ℂ) (c : Fin m → ℂ) :
    star c ⬝ᵥ (X * H * Xᴴ) *ᵥ c = rowInner ((star c ᵥ* X) ᵥ* H) (star c ᵥ* X) := by
  have : rowInner ((star c ᵥ* X) ᵥ* H) (star c ᵥ* X) = (star c ᵥ* X) ᵥ* H ⬝ᵥ star (star c ᵥ* X) := rfl
  rw [this, star_vecMul, star_star, dotProduct_mulVec, dotProduct_mulVec, ← vecMul_vecMul, ← vecMul_vecMul]

/-- The rows of the projectors are close to rows that belong exactly to sectors of the Hamiltonian. -/
structure NearSectors {d : ℕ} (projs : List (Rows d)) (H : Matrix (Fin d) (Fin d) ℂ) (κ : ℝ) : Prop where
  nonempty : ∀ Q ∈ projs, Q ≠ []
  exact : ∃ X : ∀ i : Fin projs.length, Matrix (Fin (projs[i]).length) (Fin d) ℂ, IsSectors X H ∧
    ∀ (i : Fin projs.length) (c : Fin (projs[i]).length → ℂ),
      rnorm (fun j => ∑ a, c a * ((projs[i])[a] j - X i a j)) ≤ κ * Real.sqrt (∑ a, ‖c a‖ ^ 2)

theorem quad_near {d m : ℕ} {X W : Matrix (Fin m) (Fin d) ℂ} {H : Matrix (Fin d) (Fin d) ℂ} {κ C : ℝ} (hκ : 0 ≤ κ)
    (hX : X * Xᴴ = 1) (hC : NormLe H C)
    (h : ∀ c : Fin m → ℂ, rnorm (fun j => ∑ a, c a * (W a j - X a j)) ≤ κ * Real.sqrt (∑ a, ‖c a‖ ^ 2)) (c : Fin m → ℂ) :
    ‖star c ⬝ᵥ (X * H * Xᴴ - W * H * Wᴴ) *ᵥ c‖ ≤ C * κ * (2 + κ) * ∑ a, ‖c a‖ ^ 2 := by
  set x := star c ᵥ* X with hx
  set w := star c ᵥ* W with hw
  set q := Real.sqrt (∑ a, ‖c a‖ ^ 2) with hq
  have hq0 : 0 ≤ q := Real.sqrt_nonneg _
  have hq2 : ∑ a, ‖c a‖ ^ 2 = q ^ 2 := by rw [hq, Real.sq_sqrt (Finset.sum_nonneg fun _ _ => by positivity)]
  have hxn : rnorm x = q := by
    have := sq_mulVec (X := Xᴴ) (by rw [conjTranspose_conjTranspose, hX]) c
    rw [rnorm_eq, hq, ← this]
    congr 1
    refine Finset.sum_congr rfl fun j _ => ?_
    have e : Xᴴ *ᵥ c = star x := by rw [hx, star_vecMul, star_star]
    rw [e, Pi.star_apply, norm_star]
  have hd : rnorm (w - x) ≤ κ * q := by
    have := h (star c)
    simp only [Pi.star_apply, norm_star] at this
    refine le_of_eq_of_le (congrArg rnorm ?_) this
    funext j
    simp only [hw, hx, vecMul, dotProduct, Pi.sub_apply, Pi.star_apply, mul_sub, Finset.sum_sub_distrib]
  have hwn : rnorm w ≤ (1 + κ) * q := by
    have := rnorm_add_le (w - x) x
    rw [sub_add_cancel, hxn] at this
    linarith
  have e : star c ⬝ᵥ (X * H * Xᴴ - W * H * Wᴴ) *ᵥ c = rowInner ((x - w) ᵥ* H) x + rowInner (w ᵥ* H) (x - w) := by
    rw [sub_mulVec, dotProduct_sub, quad_rowInner, quad_rowInner, sub_vecMul, rowInner_sub_left, rowInner_sub_right]
    ring
  have hd' : rnorm (x - w) ≤ κ * q := by
    have : rnorm (x - w) = rnorm (w - x) := norm_sub_rev (WithLp.toLp 2 x : EuclideanSpace ℂ (Fin d)) (WithLp.toLp 2 w)
    rw [this]
    exact hd
  rw [e, hq2]
  refine (norm_add_le _ _).trans ?_
  have b1 : ‖rowInner ((x - w) ᵥ* H) x‖ ≤ C * (κ * q) * q := by
    refine (rowInner_norm_le _ _).trans ?_
    rw [hxn]
    exact mul_le_mul_of_nonneg_right ((hC.row_le _).trans (mul_le_mul_of_nonneg_left hd' hC.1)) hq0
  have b2 : ‖rowInner (w ᵥ* H) (x - w)‖ ≤ C * ((1 + κ) * q) * (κ * q) := by
    refine (rowInner_norm_le _ _).trans ?_
    have := hC.1
    exact mul_le_mul ((hC.row_le _).trans (mul_le_mul_of_nonneg_left hwn hC.1)) hd' (rnorm_nonneg _) (by positivity)
  nlinarith

theorem near_energies (S : EigSolvers) (hS : EigContract S) {d : ℕ} (hd : 0 < d) {projs : List (Rows d)}
    {H : Matrix (Fin d) (Fin d) ℂ} {κ C : ℝ} (h : NearSectors projs H κ) (hκ : 0 ≤ κ)
    (hC : NormLe H C) (hH : H.IsHermitian) {A : Mat} (hA : A.Is H) {Ms : List Mat} (hMs : List.Forall₂ RowsOf Ms projs) :
    ∃ w M L, diagList S A = .ok (w, M) ∧ sectorEigs S A Ms = .ok L ∧ NearSpectrum L H (C * κ * (2 + κ)) ∧
      w.length = d ∧ L.length = d ∧ ∀ (k : ℕ) (x y : ℝ), (L.mergeSort fun a b => decide (a ≤ b))[k]? = some x → w[k]? = some y →
        |x - y| ≤ C * κ * (2 + κ) := by
  haveI : Nonempty (Fin d) := ⟨⟨0, hd⟩⟩
  obtain ⟨n, E, M, V, h1, h2, h3, h4, h5, h6⟩ := Props.diagList_ok S hS hA hH
  have hnd : n + 1 = d := by
    have := Matrix.trace_mul_comm Vᴴ V
    rw [h3, h4, trace_one, trace_one, Fintype.card_fin, Fintype.card_fin] at this
    exact_mod_cast this
  set P : ∀ i : Fin projs.length, Matrix (Fin (projs[i]).length) (Fin d) ℂ := fun i => Matrix.of fun a j => (projs[i])[a] j with hP
  have hMl : Ms.length = projs.length := hMs.length_eq
  have hPi : ∀ i : Fin projs.length, (Ms[(i : ℕ)]'(by rw [hMl]; exact i.2)).Is (P i) := fun i =>
    hMs.get (by rw [hMl]; exact i.2) i.2
  choose A' a1 a2 using fun i => (hPi i).inSector hA
  have hne : ∀ i : Fin projs.length, Nonempty (Fin (projs[i]).length) := fun i =>
    ⟨⟨0, List.length_pos_of_ne_nil (h.nonempty _ (List.getElem_mem _))⟩⟩
  have hh : ∀ i, (P i * H * (P i)ᴴ).IsHermitian := by
    intro i
    unfold Matrix.IsHermitian
    rw [conjTranspose_mul, conjTranspose_mul, conjTranspose_conjTranspose, hH, Matrix.mul_assoc]
  choose m E' M' V' k1 k2 k3 k4 k5 _ using fun i => Props.diagList_ok S hS (a2 i) (hh i)
  obtain ⟨X, hX, hn⟩ := h.exact
  have hm : ∀ i, m i + 1 = (projs[i]).length := by
    intro i
    have := Matrix.trace_mul_comm (V' i)ᴴ (V' i)
    rw [k3, k4, trace_one, trace_one, Fintype.card_fin, Fintype.card_fin] at this
    exact_mod_cast this
  set XX : Matrix (Σ i : Fin projs.length, Fin (projs[i]).length) (Fin d) ℂ := Matrix.of fun p j => X p.1 p.2 j with hXX
  have hXX1 : XX * XXᴴ = 1 := by
    ext ⟨i, x⟩ ⟨j, y⟩
    have e : (XX * XXᴴ) ⟨i, x⟩ ⟨j, y⟩ = (X i * (X j)ᴴ) x y := rfl
    rw [e]
    by_cases hij : i = j
    · subst hij
      rw [hX.normal, one_apply, one_apply]
      refine if_congr ?_ rfl rfl
      rw [Sigma.mk.injEq]
      simp
    · rw [hX.orthogonal i j hij, one_apply_ne (fun e => hij (congrArg Sigma.fst e))]
      rfl
  have hXX2 : XXᴴ * XX = 1 := by
    rw [← hX.complete]
    ext i j
    rw [mul_apply, Matrix.sum_apply, Fintype.sum_sigma]
    rfl
  have hcard : Fintype.card (Σ i : Fin projs.length, Fin (projs[i]).length) = n + 1 := by
    have := Matrix.trace_mul_comm XX XXᴴ
    rw [hXX1, hXX2, trace_one, trace_one, Fintype.card_fin] at this
    rw [hnd]
    exact_mod_cast this
  have hcard' : Fintype.card (Σ i : Fin projs.length, Fin (m i + 1)) = n + 1 := by
    rw [← hcard, Fintype.card_sigma, Fintype.card_sigma]
    simp [hm]
  set a : (Σ i : Fin projs.length, Fin (m i + 1)) → ℝ := fun p => E' p.1 p.2 with ha
  let e0 : Fin (n + 1) ≃ (Σ i : Fin projs.length, Fin (m i + 1)) := (Fintype.equivFinOfCardEq hcard').symm
  let e := (Tuple.sort (a ∘ e0)).trans e0
  have hmono : Monotone (a ∘ e) := Tuple.monotone_sort (a ∘ e0)
  have key : ∀ k, |E k - a (e k)| ≤ C * κ * (2 + κ) := by
    refine weyl_blocks (X := XX) (D := blockDiagonal' fun i => P i * H * (P i)ᴴ) (B := blockDiagonal' V') hXX1 ?_ ?_ ?_
      h4 h5 e hmono h6
    · intro c
      have hb : XX * H * XXᴴ - (blockDiagonal' fun i => P i * H * (P i)ᴴ) =
          blockDiagonal' fun i => X i * H * (X i)ᴴ - P i * H * (P i)ᴴ := by
        have : XX * H * XXᴴ = blockDiagonal' fun i => X i * H * (X i)ᴴ := by
          ext ⟨i, x⟩ ⟨j, y⟩
          have e : (XX * H * XXᴴ) ⟨i, x⟩ ⟨j, y⟩ = (X i * H * (X j)ᴴ) x y := rfl
          rw [e]
          by_cases hij : i = j
          · subst hij
            rw [blockDiagonal'_apply_eq]
          · rw [blockDiagonal'_apply_ne _ _ _ hij, hX.block i j hij]
            rfl
        rw [this, ← blockDiagonal'_sub]
        rfl
      rw [hb, quad_block, Fintype.sum_sigma, Finset.mul_sum]
      exact (norm_sum_le _ _).trans (Finset.sum_le_sum fun i _ => quad_near hκ (hX.normal i) hC (hn i) _)
    · rw [blockDiagonal'_conjTranspose, ← blockDiagonal'_mul]
      simp only [k3]
      exact blockDiagonal'_one
    · rw [← blockDiagonal'_mul]
      simp only [k5]
      rw [blockDiagonal'_mul, blockDiagonal'_diagonal]
  have hperm : ((List.ofFn fun i => List.ofFn (E' i)).flatten).Perm (List.ofFn (a ∘ e)) := by
    rw [← Multiset.coe_eq_coe, coe_flatten, ← Fin.univ_val_map, ← Multiset.map_map]
    congr 1
    exact (congrArg Finset.val (Finset.map_univ_equiv e)).symm
  refine ⟨_, M, (List.ofFn fun i => List.ofFn (E' i)).flatten, h1, ?_,
    ⟨n + 1, a ∘ e, E, V, hperm, h3, h4, h5, fun k => by rw [abs_sub_comm]; exact key k⟩, by simp [hnd],
    by rw [hperm.length_eq]; simp [hnd], ?_⟩
  · unfold sectorEigs
    rw [show Ms = List.ofFn fun i : Fin projs.length => Ms[(i : ℕ)]'(by rw [hMl]; exact i.2) by
      apply List.ext_getElem <;> simp [hMl]]
    rw [mapM_ofFn _ _ (fun i => List.ofFn (E' i)) fun i => by simp only [a1, k1, bind, Except.bind, pure, Except.pure]]
    rfl
  · intro k x y hx hy
    rw [mergeSort_ofFn _ hmono _ hperm] at hx
    rw [List.getElem?_ofFn] at hx hy
    by_cases hk : k < n + 1
    · rw [dif_pos hk] at hx hy
      injection hx with hx
      injection hy with hy
      rw [← hx, ← hy, abs_sub_comm]
      exact key ⟨k, hk⟩
    · rw [dif_neg hk] at hx
      simp at hx

theorem zipWith_mem {α β γ : Type} {f : α → β → γ} {l : List α} {l' : List β} {x : γ} (h : x ∈ List.zipWith f l l') :
    ∃ (k : ℕ) (a : α) (b : β), l[k]? = some a ∧ l'[k]? = some b ∧ x = f a b := by
  obtain ⟨k, hk, e⟩ := List.mem_iff_getElem.1 h
  rw [List.length_zipWith, lt_min_iff] at hk
  refine ⟨k, l[k], l'[k], List.getElem?_eq_getElem hk.1, List.getElem?_eq_getElem hk.2, ?_⟩
  rw [← e, List.getElem_zipWith]

theorem _root_.ED.Spec.NearSpectrum.mono {ι : Type} [Fintype ι] [DecidableEq ι] {E : List ℝ} {H : Matrix ι ι ℂ} {ε ε' : ℝ}
    (h : NearSpectrum E H ε) (hε : ε ≤ ε') : NearSpectrum E H ε' := by
  obtain ⟨n, a, b, V, h1, h2, h3, h4, h5⟩ := h
  exact ⟨n, a, b, V, h1, h2, h3, h4, fun k => (h5 k).trans hε⟩

theorem near_maxDiff (S : EigSolvers) (hS : EigContract S) {d : ℕ} (hd : 0 < d) {projs : List (Rows d)}
    {H : Matrix (Fin d) (Fin d) ℂ} {κ C : ℝ} (h : NearSectors projs H κ) (hκ : 0 ≤ κ)
    (hC : NormLe H C) (hH : H.IsHermitian) {A : Mat} (hA : A.Is H) {Ms : List Mat} (hMs : List.Forall₂ RowsOf Ms projs) :
    ∃ L x, sectorEigs S A Ms = .ok L ∧ NearSpectrum L H (C * κ * (2 + κ)) ∧ maxDiff S A Ms = .ok x ∧ x ≤ C * κ * (2 + κ) := by
  obtain ⟨w, M, L, h1, h2, h0, h3, h4, h5⟩ := near_energies S hS hd h hκ hC hH hA hMs
  refine ⟨L, (List.zipWith (fun a b => |a - b|) (L.mergeSort fun a b => decide (a ≤ b)) w).foldl max 0, h2, h0, ?_, ?_⟩
  · unfold maxDiff
    rw [h1, h2]
    simp only [bind, Except.bind]
    rw [if_neg (by rw [List.length_mergeSort, h3, h4]; simp)]
    rfl
  · have := hC.1
    refine foldl_max_le (by positivity) fun x hx => ?_
    obtain ⟨k, a, b, e1, e2, rfl⟩ := zipWith_mem hx
    exact h5 k a b e1 e2

/-! ## Rows close to given rows -/

/-- Combinations of the rows are close to the same combinations of the rows of a matrix. -/
def NearRows {d m : ℕ} (Q : Rows d) (X : Matrix (Fin m) (Fin d) ℂ) (κ : ℝ) : Prop :=
  Q.length = m ∧ ∀ c : Fin m → ℂ, rnorm (fun j => ∑ a, c a * (Q.getD a 0 j - X a j)) ≤ κ * Real.sqrt (∑ a, ‖c a‖ ^ 2)

/-- Rows with entries in different columns. -/
theorem nearRows_disjoint {d m : ℕ} {Q : Rows d} {X : Matrix (Fin m) (Fin d) ℂ} {κ : ℝ} (hκ : 0 ≤ κ) (hm : Q.length = m)
    (hs : ∀ (a b : Fin m) j, Q.getD a 0 j - X a j ≠ 0 → Q.getD b 0 j - X b j ≠ 0 → a = b)
    (hn : ∀ a : Fin m, rnorm (fun j => Q.getD a 0 j - X a j) ≤ κ) : NearRows Q X κ := by
  refine ⟨hm, fun c => ?_⟩
  rw [rnorm_eq]
  refine Real.sqrt_le_iff.2 ⟨by positivity, ?_⟩
  rw [mul_pow, Real.sq_sqrt (Finset.sum_nonneg fun _ _ => by positivity)]
  have e : ∀ j, ‖∑ a, c a * (Q.getD a 0 j - X a j)‖ ^ 2 = ∑ a, ‖c a‖ ^ 2 * ‖Q.getD a 0 j - X a j‖ ^ 2 := by
    intro j
    by_cases h : ∃ a : Fin m, Q.getD a 0 j - X a j ≠ 0
    · obtain ⟨a, ha⟩ := h
      have hz : ∀ b, b ≠ a → Q.getD b 0 j - X b j = 0 := fun b hb => by
        by_contra h0
        exact hb (hs b a j h0 ha)
      rw [Finset.sum_eq_single a, Finset.sum_eq_single a, norm_mul, mul_pow]
      · intro b _ hb
        rw [hz b hb]
        simp
      · simp
      · intro b _ hb
        rw [hz b hb]
        simp
      · simp
    · push Not at h
      simp only [h]
      simp
  rw [Finset.sum_congr rfl fun j _ => e j, Finset.sum_comm, Finset.mul_sum]
  refine Finset.sum_le_sum fun a _ => ?_
  rw [← Finset.mul_sum, mul_comm]
  refine mul_le_mul_of_nonneg_right ?_ (by positivity)
  have h1 := hn a
  rw [rnorm_eq] at h1
  have h2 := Real.sqrt_le_iff.1 h1
  exact h2.2

theorem getD_get {α : Type} (l : List α) (a : α) {i : ℕ} (h : i < l.length) : l.getD i a = l[i] := by
  rw [List.getD_eq_getElem?_getD, List.getElem?_eq_getElem h, Option.getD_some]

/-- Rows of rows. -/
theorem NearRows.mul {d m : ℕ} {P : Rows d} {S : Rows P.length} {X : Matrix (Fin P.length) (Fin d) ℂ}
    {Y : Matrix (Fin m) (Fin P.length) ℂ} {κ κ' : ℝ} (hκ : 0 ≤ κ) (hX : X * Xᴴ = 1) (hY : Y * Yᴴ = 1) (h : NearRows P X κ)
    (h' : NearRows S Y κ') : NearRows (mulRows P S) (Y * X) (κ * (1 + κ') + κ') := by
  obtain ⟨-, h⟩ := h
  obtain ⟨hm, h'⟩ := h'
  refine ⟨by simp [mulRows, hm], fun c => ?_⟩
  set q := Real.sqrt (∑ a, ‖c a‖ ^ 2) with hq
  -- coefficients of the rows of `P`
  set w : Fin P.length → ℂ := fun b => ∑ a, c a * S.getD a 0 b with hw
  set y : Fin P.length → ℂ := c ᵥ* Y with hy
  have hiso : ∀ {p r : ℕ} (Z : Matrix (Fin p) (Fin r) ℂ), Z * Zᴴ = 1 → ∀ v : Fin p → ℂ,
      rnorm (v ᵥ* Z) = Real.sqrt (∑ a, ‖v a‖ ^ 2) := by
    intro p r Z hZ v
    have := sq_mulVec (X := Zᴴ) (by rw [conjTranspose_conjTranspose, hZ]) (star v)
    rw [rnorm_eq]
    have e : Zᴴ *ᵥ star v = star (v ᵥ* Z) := by rw [star_vecMul]
    rw [e] at this
    simp only [Pi.star_apply, norm_star] at this
    rw [this]
  have hyn : rnorm y = q := hiso Y hY c
  have hwy : rnorm (w - y) ≤ κ' * q := by
    refine le_of_eq_of_le (congrArg rnorm ?_) (h' c)
    funext b
    simp only [hw, hy, vecMul, dotProduct, Pi.sub_apply, mul_sub, Finset.sum_sub_distrib]
  have hwn : rnorm w ≤ (1 + κ') * q := by
    have := rnorm_add_le (w - y) y
    rw [sub_add_cancel, hyn] at this
    linarith
  have e : (fun j => ∑ a, c a * ((mulRows P S).getD a 0 j - (Y * X) a j)) =
      (fun j => ∑ b, w b * (P.getD b 0 j - X b j)) + (w - y) ᵥ* X := by
    funext j
    have e1 : ∀ a : Fin m, (mulRows P S).getD a 0 j = ∑ b, S.getD a 0 b * P[b] j := by
      intro a
      have ha : (a : ℕ) < S.length := by rw [hm]; exact a.2
      rw [mulRows, getD_get _ _ (by simpa using ha), List.getElem_map, getD_get _ _ ha]
    have e2 : ∀ b : Fin P.length, P.getD b 0 j = P[b] j := fun b => by
      rw [getD_get _ _ b.2]
      rfl
    rw [Pi.add_apply, sub_vecMul, Pi.sub_apply]
    have e3 : (y ᵥ* X) j = ∑ a, c a * (Y * X) a j := by
      rw [hy, vecMul_vecMul]
      rfl
    have e4 : (w ᵥ* X) j = ∑ b, w b * X b j := rfl
    have e5 : ∑ b, w b * P[b] j = ∑ a, c a * ∑ b, S.getD a 0 b * P[b] j := by
      simp only [hw, Finset.sum_mul, Finset.mul_sum]
      rw [Finset.sum_comm]
      exact Finset.sum_congr rfl fun a _ => Finset.sum_congr rfl fun b _ => by ring
    rw [e3, e4]
    simp only [e1, e2, mul_sub, Finset.sum_sub_distrib, e5]
    ring
  rw [e]
  refine (rnorm_add_le _ _).trans ?_
  have b1 := h w
  rw [← rnorm_eq] at b1
  have b2 : rnorm ((w - y) ᵥ* X) = rnorm (w - y) := by rw [hiso X hX, rnorm_eq]
  rw [b2]
  nlinarith [mul_le_mul_of_nonneg_left hwn hκ]

theorem NearRows.mono {d m : ℕ} {Q : Rows d} {X : Matrix (Fin m) (Fin d) ℂ} {κ κ' : ℝ} (h : NearRows Q X κ) (hk : κ ≤ κ') :
    NearRows Q X κ' :=
  ⟨h.1, fun c => (h.2 c).trans (mul_le_mul_of_nonneg_right hk (Real.sqrt_nonneg _))⟩

/-! ## Sectors from rows -/

/-- Sectors labelled by `τ` whose rows are close to the rows of the matrices `X`. -/
theorem NearSectors.of {d : ℕ} {τ : Type} {L : List τ} {Q : τ → Rows d} {m : τ → ℕ} {X : ∀ t, Matrix (Fin (m t)) (Fin d) ℂ}
    {H : Matrix (Fin d) (Fin d) ℂ} {κ : ℝ} (hL : L.Nodup) (hne : ∀ t ∈ L, Q t ≠ []) (hQ : ∀ t ∈ L, NearRows (Q t) (X t) κ)
    (hX : ∀ t ∈ L, X t * (X t)ᴴ = 1) (hO : ∀ t ∈ L, ∀ t' ∈ L, t ≠ t' → X t * (X t')ᴴ = 0)
    (hB : ∀ t ∈ L, ∀ t' ∈ L, t ≠ t' → X t * H * (X t')ᴴ = 0) (htot : (L.map fun t => (Q t).length).sum = d) :
    NearSectors (L.map Q) H κ := by
  refine ⟨fun q hq => ?_, ?_⟩
  · obtain ⟨t, ht, rfl⟩ := List.mem_map.1 hq
    exact hne t ht
  have hlen : ∀ i : Fin (L.map Q).length, (i : ℕ) < L.length := fun i => by simpa using i.2
  set t : Fin (L.map Q).length → τ := fun i => L[(i : ℕ)]'(hlen i) with ht
  have htm : ∀ i, t i ∈ L := fun i => List.getElem_mem _
  have htQ : ∀ i, (L.map Q)[i] = Q (t i) := fun i => by simp [ht]
  have htl : ∀ i, ((L.map Q)[i]).length = m (t i) := fun i => by rw [htQ]; exact (hQ _ (htm i)).1
  have hinj : ∀ i j, i ≠ j → t i ≠ t j := by
    intro i j hij e
    exact hij (Fin.ext ((List.Nodup.getElem_inj_iff hL).1 e))
  set Z : ∀ i : Fin (L.map Q).length, Matrix (Fin ((L.map Q)[i]).length) (Fin d) ℂ := fun i =>
    (X (t i)).submatrix (Fin.cast (htl i)) id with hZ
  have z1 : ∀ i, Z i * (Z i)ᴴ = 1 := by
    intro i
    have e : Z i * (Z i)ᴴ = (X (t i) * (X (t i))ᴴ).submatrix (Fin.cast (htl i)) (Fin.cast (htl i)) := rfl
    rw [e, hX _ (htm i)]
    exact submatrix_one _ (Fin.cast_injective _)
  have z2 : ∀ i j, i ≠ j → Z i * (Z j)ᴴ = 0 := by
    intro i j hij
    have e : Z i * (Z j)ᴴ = (X (t i) * (X (t j))ᴴ).submatrix (Fin.cast (htl i)) (Fin.cast (htl j)) := rfl
    rw [e, hO _ (htm i) _ (htm j) (hinj i j hij)]
    rfl
  have z3 : ∀ i j, i ≠ j → Z i * H * (Z j)ᴴ = 0 := by
    intro i j hij
    have e : Z i * H * (Z j)ᴴ = (X (t i) * H * (X (t j))ᴴ).submatrix (Fin.cast (htl i)) (Fin.cast (htl j)) := rfl
    rw [e, hB _ (htm i) _ (htm j) (hinj i j hij)]
    rfl
  set ZZ : Matrix (Σ i : Fin (L.map Q).length, Fin ((L.map Q)[i]).length) (Fin d) ℂ := Matrix.of fun p j => Z p.1 p.2 j with hZZ
  have zz1 : ZZ * ZZᴴ = 1 := by
    ext ⟨i, x⟩ ⟨j, y⟩
    have e : (ZZ * ZZᴴ) ⟨i, x⟩ ⟨j, y⟩ = (Z i * (Z j)ᴴ) x y := rfl
    rw [e]
    by_cases hij : i = j
    · subst hij
      rw [z1, one_apply, one_apply]
      refine if_congr ?_ rfl rfl
      rw [Sigma.mk.injEq]
      simp
    · rw [z2 i j hij, one_apply_ne (fun e => hij (congrArg Sigma.fst e))]
      rfl
  have hcard : Fintype.card (Σ i : Fin (L.map Q).length, Fin ((L.map Q)[i]).length) = Fintype.card (Fin d) := by
    rw [Fintype.card_sigma, Fintype.card_fin]
    simp only [Fintype.card_fin]
    refine Eq.trans ?_ htot
    have := Fin.sum_univ_fun_getElem (L.map Q) List.length
    rw [List.map_map] at this
    exact this
  have zz2 : ZZᴴ * ZZ = 1 := (mul_eq_one_comm_of_card_eq _ _ _ hcard).1 zz1
  refine ⟨Z, ⟨z1, z2, ?_, z3⟩, fun i c => ?_⟩
  · rw [← zz2]
    ext i j
    rw [mul_apply, Matrix.sum_apply, Fintype.sum_sigma]
    rfl
  · have := (hQ _ (htm i)).2 (c ∘ Fin.cast (htl i).symm)
    have e1 : ∀ f : Fin (m (t i)) → ℝ, ∑ a, f a = ∑ a, f (Fin.cast (htl i) a) := fun f =>
      (Equiv.sum_comp (finCongr (htl i)) f).symm
    have e2 : ∀ f : Fin (m (t i)) → ℂ, ∑ a, f a = ∑ a, f (Fin.cast (htl i) a) := fun f =>
      (Equiv.sum_comp (finCongr (htl i)) f).symm
    rw [e1] at this
    simp only [e2, Function.comp] at this
    refine le_of_eq_of_le (congrArg rnorm ?_) this
    funext j
    refine Finset.sum_congr rfl fun a _ => ?_
    have : (Q (t i)).getD (a : ℕ) 0 = (L.map Q)[i][a] := by
      have ha : (a : ℕ) < (Q (t i)).length := by rw [← htQ]; exact a.2
      rw [getD_get _ _ ha]
      simp only [Fin.getElem_fin, List.getElem_map]
      rfl
    rw [Fin.val_cast, this]
    rfl

/-- Eigenvectors of a symmetry with different eigenvalues. -/
theorem eigen_block {d m m' : ℕ} {U H : Matrix (Fin d) (Fin d) ℂ} {X : Matrix (Fin m) (Fin d) ℂ} {Y : Matrix (Fin m') (Fin d) ℂ}
    {a b : ℂ} (hU : U * Uᴴ = 1) (hc : U * H = H * U) (hX : X * U = a • X) (hY : Y * U = b • Y) (hb : ‖b‖ = 1) (hab : a ≠ b) :
    X * H * Yᴴ = 0 := by
  have e : X * H * Yᴴ = (a * star b) • (X * H * Yᴴ) := by
    calc X * H * Yᴴ = X * H * (U * Uᴴ) * Yᴴ := by rw [hU, Matrix.mul_one]
      _ = X * (H * U) * (Uᴴ * Yᴴ) := by simp only [Matrix.mul_assoc]
      _ = (X * U) * H * (Y * U)ᴴ := by rw [← hc, conjTranspose_mul]; simp only [Matrix.mul_assoc]
      _ = _ := by
        rw [hX, hY, conjTranspose_smul, Matrix.smul_mul, Matrix.smul_mul, Matrix.mul_smul, smul_smul]
  have h1 : (1 - a * star b) • (X * H * Yᴴ) = 0 := by
    rw [sub_smul, one_smul, ← e, sub_self]
  rcases smul_eq_zero.1 h1 with h2 | h2
  · exfalso
    apply hab
    have h3 : a * star b = 1 := (sub_eq_zero.1 h2).symm
    have h4 : star b * b = 1 := by
      have := Complex.mul_conj b
      rw [Complex.normSq_eq_norm_sq, hb] at this
      rw [mul_comm]
      simpa using this
    calc a = a * (star b * b) := by rw [h4, mul_one]
      _ = b := by rw [← mul_assoc, h3, one_mul]
  · exact h2

end ED
