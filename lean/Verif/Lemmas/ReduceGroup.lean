import Verif.Lemmas.ReduceLine
import Verif.Lemmas.PointGroups
import Verif.Spec.Reduced

/-! # Reduced projectors of a finite group of signed permutations -/

namespace ED

open scoped BigOperators Matrix
open Classical GroupAlg Spec

variable {d : ℕ}

section
variable {ε η : ℝ} {rows rows' : Rows d} {E E' : Matrix (Fin d) (Fin d) ℂ} {O O' : Finset (Fin d)}

private theorem fixed' {vs : Rows d} (a2 : ∀ v ∈ vs, rowInner v v = 1)
    (a3 : vs.Pairwise (fun v w => rowInner v w = 0))
    (a5 : ∀ i j, (vs.map fun v => (starRingEnd ℂ) (v i) * v j).sum = E i j) {v : Fin d → ℂ} (hv : v ∈ vs) :
    v ᵥ* E = v := funext fun j => Approx.fixed a2 a3 a5 hv j

theorem rnorm_le_of_sq {H : Matrix (Fin d) (Fin d) ℂ} {C : ℝ} (hC : 0 ≤ C)
    (h : ∀ v : Fin d → ℂ, ∑ j, ‖(v ᵥ* H) j‖ ^ 2 ≤ C ^ 2 * ∑ j, ‖v j‖ ^ 2) (v : Fin d → ℂ) :
    rnorm (v ᵥ* H) ≤ C * rnorm v := by
  rw [rnorm_eq, rnorm_eq]
  apply Real.sqrt_le_iff.2
  refine ⟨by positivity, ?_⟩
  rw [mul_pow, Real.sq_sqrt (by positivity)]
  exact h v

/-- An operator that commutes with a projection has small elements between its rows and those of an
orthogonal one. -/
theorem Approx.blocks (h : Approx ε η rows E O) (h' : Approx ε η rows' E' O') (hE : E'ᴴ = E') (h0 : E * E' = 0)
    {H : Matrix (Fin d) (Fin d) ℂ} (hH : H * E = E * H) {C : ℝ} (hC : 0 ≤ C)
    (hb : ∀ v : Fin d → ℂ, ∑ j, ‖(v ᵥ* H) j‖ ^ 2 ≤ C ^ 2 * ∑ j, ‖v j‖ ^ 2)
    {r s : Fin d → ℂ} (hr : r ∈ rows) (hs : s ∈ rows') : ‖rowInner (r ᵥ* H) s‖ ≤ C * (2 * ε) := by
  obtain ⟨vs, a1, a2, a3, a4, a5⟩ := h.near
  obtain ⟨ws, b1, b2, b3, b4, b5⟩ := h'.near
  obtain ⟨a, ha, rfl⟩ := List.mem_iff_getElem.1 hr
  obtain ⟨b, hb', rfl⟩ := List.mem_iff_getElem.1 hs
  have hl := a1.length_eq
  have hl' := b1.length_eq
  have hn := (List.forall₂_iff_get.1 a1).2 a ha (by omega)
  have hn' := (List.forall₂_iff_get.1 b1).2 b hb' (by omega)
  simp only [List.get_eq_getElem] at hn hn'
  have hv : vs[a] ∈ vs := List.getElem_mem _
  have hw : ws[b] ∈ ws := List.getElem_mem _
  have hsu := rnorm_one (h'.unit _ (List.getElem_mem hb'))
  generalize rows[a] = r at hn
  generalize rows'[b] = s at hn' hsu
  generalize vs[a] = v at hv hn
  generalize ws[b] = w at hw hn'
  have hz : rowInner (v ᵥ* H) w = 0 := by
    have f1 := fixed' a2 a3 a5 hv
    have f2 := fixed' b2 b3 b5 hw
    have e1 : E' *ᵥ (fun k => (starRingEnd ℂ) (w k)) = fun k => (starRingEnd ℂ) (w k) := by
      have := congrArg star f2
      rw [Matrix.star_vecMul, hE] at this
      exact this
    change (v ᵥ* H) ⬝ᵥ (fun k => (starRingEnd ℂ) (w k)) = 0
    rw [← e1, Matrix.dotProduct_mulVec, ← f1, Matrix.vecMul_vecMul, Matrix.vecMul_vecMul, ← Matrix.mul_assoc, ← hH,
      Matrix.mul_assoc, h0, Matrix.mul_zero, Matrix.vecMul_zero, zero_dotProduct]
  have e : rowInner (r ᵥ* H) s = rowInner ((r - v) ᵥ* H) s + rowInner (v ᵥ* H) (s - w) := by
    rw [Matrix.sub_vecMul, rowInner_sub_left, rowInner_sub_right, hz]
    ring
  rw [e]
  refine (norm_add_le _ _).trans ?_
  have x1 := rowInner_norm_le ((r - v) ᵥ* H) s
  have x2 := rowInner_norm_le (v ᵥ* H) (s - w)
  have y1 := rnorm_le_of_sq hC hb (r - v)
  have y2 := rnorm_le_of_sq hC hb v
  rw [rnorm_one (a2 v hv), mul_one] at y2
  rw [hsu, mul_one] at x1
  have z1 : C * rnorm (r - v) ≤ C * ε := mul_le_mul_of_nonneg_left hn hC
  have z2 : rnorm (v ᵥ* H) * rnorm (s - w) ≤ C * ε := mul_le_mul y2 hn' (rnorm_nonneg _) hC
  linarith

end

/-- What is needed of the tables of a group for the reduction. -/
structure Tables.Red {K : Type} [CommRing K] (T : Tables K) (F : ℕ → ℕ → K) (φ : K →+* ℂ) : Prop where
  inv : ∀ x < T.m, T.ldiv (T.ldiv x 0) 0 = x
  real : ∀ i < T.rows.length, ∀ x < T.m, F i (T.ldiv x 0) = F i x
  cover : ∀ x < T.m, ∃ l ∈ T.codes, x ∈ l
  dims : ∀ i < T.rows.length, (T.rows.getD i []).getD 0 0 = T.s * (T.dims.getD i 0 : K)
  dpos : ∀ i < T.rows.length, T.dims.getD i 0 ≠ 0
  line : ∀ i < T.rows.length, T.dims.getD i 0 = 1 → ∀ x < T.m, ∀ y < T.m,
    T.s * F i (T.mul x y) = F i x * F i y
  lineunit : ∀ i < T.rows.length, T.dims.getD i 0 = 1 → ∀ x < T.m, F i x * F i x = T.s * T.s
  gap : ∀ i < T.rows.length, ∀ f : ℕ → ℤ, (∀ x, |f x| ≤ 1) →
    (∑ x ∈ Finset.range T.m, φ (F i x) * (f x : ℂ)) = 0 ∨
      (10 : ℝ) ^ (-10 : ℤ) ≤ ‖(φ T.s)⁻¹ * ∑ x ∈ Finset.range T.m, φ (F i x) * (f x : ℂ)‖
  order : T.m ≤ 72

/-- A signed permutation with its data. -/
structure Signed (U : Matrix (Fin d) (Fin d) ℂ) (σ : Equiv.Perm (Fin d)) (u : Fin d → ℤ) : Prop where
  sign : ∀ i, u i = 1 ∨ u i = -1
  entry : ∀ i j, U i j = if j = σ i then (u i : ℂ) else 0

theorem signed_iff {U : Matrix (Fin d) (Fin d) ℂ} : SignedPermutation U ↔ ∃ σ u, Signed U σ u := by
  constructor
  · rintro ⟨σ, u, hu, he⟩
    refine ⟨σ, fun i => if u i = 1 then 1 else -1, fun i => ?_, fun i j => ?_⟩
    · by_cases hc : u i = 1
      · exact Or.inl (if_pos hc)
      · exact Or.inr (if_neg hc)
    · rw [he]
      refine if_congr Iff.rfl ?_ rfl
      rcases hu i with h | h
      · rw [h]; simp
      · rw [h, if_neg (by norm_num)]; simp
  · rintro ⟨σ, u, hu, he⟩
    refine ⟨σ, fun i => (u i : ℂ), fun i => ?_, he⟩
    dsimp only
    rcases hu i with h | h <;> rw [h] <;> simp

theorem Signed.mul {U W : Matrix (Fin d) (Fin d) ℂ} {σ τ : Equiv.Perm (Fin d)} {u w : Fin d → ℤ} (h : Signed U σ u)
    (h' : Signed W τ w) : Signed (U * W) (τ * σ) (fun i => u i * w (σ i)) := by
  refine ⟨fun i => ?_, fun i j => ?_⟩
  · rcases h.sign i with e | e <;> rcases h'.sign (σ i) with e' | e' <;> rw [e, e'] <;> simp
  · rw [Matrix.mul_apply, Finset.sum_eq_single (σ i)]
    · rw [h.entry, if_pos rfl, h'.entry, Equiv.Perm.mul_apply]
      split_ifs
      · push_cast; rfl
      · rw [mul_zero]
    · intro b _ hb
      rw [h.entry, if_neg hb, zero_mul]
    · exact fun hh => absurd (Finset.mem_univ _) hh

theorem signed_one : Signed (1 : Matrix (Fin d) (Fin d) ℂ) 1 (fun _ => 1) :=
  ⟨fun _ => Or.inl rfl, fun i j => by
    rw [Matrix.one_apply]
    simp only [Equiv.Perm.one_apply, Int.cast_one, eq_comm]⟩

theorem SignedPermutation.mul {U W : Matrix (Fin d) (Fin d) ℂ} (h : SignedPermutation U) (h' : SignedPermutation W) :
    SignedPermutation (U * W) := by
  obtain ⟨σ, u, hu⟩ := signed_iff.1 h
  obtain ⟨τ, w, hw⟩ := signed_iff.1 h'
  exact signed_iff.2 ⟨_, _, hu.mul hw⟩

theorem SignedPermutation.pow {U : Matrix (Fin d) (Fin d) ℂ} (h : SignedPermutation U) (k : ℕ) : SignedPermutation (U ^ k) := by
  induction k with
  | zero => rw [pow_zero]; exact signed_iff.2 ⟨_, _, signed_one⟩
  | succ k ih => rw [pow_succ]; exact SignedPermutation.mul ih h

theorem Signed.mono {U : Matrix (Fin d) (Fin d) ℂ} {σ : Equiv.Perm (Fin d)} {u : Fin d → ℤ} (h : Signed U σ u) :
    Mono U σ fun i => (u i : ℂ) :=
  ⟨fun i => by rcases h.sign i with e | e <;> simp only [e] <;> simp, h.entry⟩

namespace Tables.Rep

variable {K : Type} [CommRing K] {T : Tables K} {F : ℕ → ℕ → K} {φ : K →+* ℂ}
  {ρ : ℕ → Matrix (Fin d) (Fin d) ℂ} {table : List (List ℂ)} {classes : List (List (Matrix (Fin d) (Fin d) ℂ))}

/-- The projector of representation `i`. -/
noncomputable def proj (T : Tables K) (F : ℕ → ℕ → K) (φ : K →+* ℂ) (ρ : ℕ → Matrix (Fin d) (Fin d) ℂ) (i : ℕ) :
    Matrix (Fin d) (Fin d) ℂ := (φ T.s)⁻¹ • E T.m ρ fun x => φ (F i x)

variable (h : T.Rep F φ ρ table classes) (hR : T.Red F φ) (hρ : ∀ x < T.m, SignedPermutation (ρ x))
include h hR hρ

theorem rho_star {x : ℕ} (hx : x < T.m) : (ρ x)ᴴ = ρ (T.ldiv x 0) := by
  obtain ⟨σ, u, hu⟩ := signed_iff.1 (hρ x hx)
  have h1 := hu.mono.unitary
  have h2 := h.base.table x hx 0 h.base.pos
  have h3 : ρ x * ρ (T.ldiv x 0) = 1 := by
    rw [h.mul x hx _ h2.2.1, h2.2.2.2, h.one]
  calc (ρ x)ᴴ = (ρ x)ᴴ * (ρ x * ρ (T.ldiv x 0)) := by rw [h3, mul_one]
    _ = ρ (T.ldiv x 0) := by rw [← mul_assoc, h1, one_mul]

theorem proj_entry (i : ℕ) (a b : Fin d) :
    proj T F φ ρ i a b = (φ T.s)⁻¹ * ∑ x ∈ Finset.range T.m, φ (F i x) * ρ x a b := by
  unfold proj GroupAlg.E
  rw [Matrix.smul_apply, Matrix.sum_apply, smul_eq_mul]
  rfl

theorem proj_herm {i : ℕ} (hi : i < T.rows.length) : (proj T F φ ρ i)ᴴ = proj T F φ ρ i := by
  unfold proj GroupAlg.E
  rw [Matrix.conjTranspose_smul, Matrix.conjTranspose_sum, star_inv₀]
  have e : star (φ T.s) = φ T.s := h.conj T.s
  rw [e]
  congr 1
  refine Finset.sum_bij' (fun x _ => T.ldiv x 0) (fun x _ => T.ldiv x 0) ?_ ?_ ?_ ?_ ?_
  · intro x hx
    exact Finset.mem_range.2 (h.base.table x (Finset.mem_range.1 hx) 0 h.base.pos).2.1
  · intro x hx
    exact Finset.mem_range.2 (h.base.table x (Finset.mem_range.1 hx) 0 h.base.pos).2.1
  · intro x hx
    exact hR.inv x (Finset.mem_range.1 hx)
  · intro x hx
    exact hR.inv x (Finset.mem_range.1 hx)
  · intro x hx
    have hx := Finset.mem_range.1 hx
    rw [Matrix.conjTranspose_smul, h.rho_star hR hρ hx]
    have e2 : star (φ (F i x)) = φ (F i x) := h.conj _
    rw [e2]
    dsimp only
    rw [hR.real i hi x hx]

/-- The matrix of related states. -/
noncomputable def relMat (ρ : ℕ → Matrix (Fin d) (Fin d) ℂ) (codes : List (List ℕ)) : Fin d → Fin d → ℂ := fun i j =>
  (codes.map fun cc => (cc.map fun x => ((‖ρ x i j‖ : ℝ) : ℂ)).sum).sum

theorem related_eq : statesRelated classes = List.ofFn (relMat ρ T.codes) := by
  unfold statesRelated relMat
  rw [h.classes]
  congr 1
  funext i j
  simp only [List.map_map, Function.comp_def]

theorem relMat_ne (i j : Fin d) : relMat ρ T.codes i j ≠ 0 ↔ ∃ x < T.m, ρ x i j ≠ 0 := by
  have e : relMat ρ T.codes i j = (((T.codes.map fun cc => (cc.map fun x => ‖ρ x i j‖).sum).sum : ℝ) : ℂ) := by
    unfold relMat
    rw [← Complex.ofRealHom_eq_coe, map_list_sum, List.map_map]
    congr 1
    refine List.map_congr_left fun cc _ => ?_
    simp only [Function.comp]
    rw [map_list_sum, List.map_map]
    rfl
  rw [e, Complex.ofReal_ne_zero]
  constructor
  · intro hne
    by_contra hall
    push Not at hall
    apply hne
    refine List.sum_eq_zero fun y hy => ?_
    obtain ⟨cc, hcc, rfl⟩ := List.mem_map.1 hy
    refine List.sum_eq_zero fun z hz => ?_
    obtain ⟨x, hx, rfl⟩ := List.mem_map.1 hz
    rw [hall x (h.base.codes cc hcc x hx), norm_zero]
  · rintro ⟨x, hx, hne⟩
    obtain ⟨cc, hcc, hxc⟩ := hR.cover x hx
    have h1 : ‖ρ x i j‖ ≤ (cc.map fun x => ‖ρ x i j‖).sum :=
      List.single_le_sum (by
        intro y hy
        obtain ⟨z, -, rfl⟩ := List.mem_map.1 hy
        exact norm_nonneg _) _ (List.mem_map.2 ⟨x, hxc, rfl⟩)
    have h2 : (cc.map fun x => ‖ρ x i j‖).sum ≤ (T.codes.map fun cc => (cc.map fun x => ‖ρ x i j‖).sum).sum :=
      List.single_le_sum (by
        intro y hy
        obtain ⟨z, -, rfl⟩ := List.mem_map.1 hy
        refine List.sum_nonneg fun w hw => ?_
        obtain ⟨v, -, rfl⟩ := List.mem_map.1 hw
        exact norm_nonneg _) _ (List.mem_map.2 ⟨cc, hcc, rfl⟩)
    have h3 := norm_pos_iff.2 hne
    linarith [h1.trans h2]

/-- The projector meets the requirements of the reduction. -/
theorem blockData {i : ℕ} (hi : i < T.rows.length) (hF : T.Idem F i) :
    BlockData (proj T F φ ρ i) (relMat ρ T.codes) ((T.m : ℂ) / (T.dims.getD i 0 : ℂ)) := by
  have hne := h.relMat_ne hR hρ
  have hm : (T.m : ℂ) ≠ 0 := by exact_mod_cast h.base.pos.ne'
  have hd : (T.dims.getD i 0 : ℂ) ≠ 0 := by exact_mod_cast hR.dpos i hi
  refine ⟨?_, ?_, ?_, ?_, h.proj_herm hR hρ hi, ?_, div_ne_zero hm hd, ?_, ?_, ?_⟩
  · intro a
    rw [hne]
    exact ⟨0, h.base.pos, by rw [h.one, Matrix.one_apply_eq]; exact one_ne_zero⟩
  · intro a b hab
    rw [hne] at hab ⊢
    obtain ⟨x, hx, hxe⟩ := hab
    refine ⟨T.ldiv x 0, (h.base.table x hx 0 h.base.pos).2.1, ?_⟩
    rw [← h.rho_star hR hρ hx, Matrix.conjTranspose_apply]
    exact star_ne_zero.2 hxe
  · intro a b e hab hbe
    rw [hne] at hab hbe ⊢
    obtain ⟨x, hx, hxe⟩ := hab
    obtain ⟨y, hy, hye⟩ := hbe
    refine ⟨T.mul x y, (h.base.table x hx y hy).1, ?_⟩
    rw [← h.mul x hx y hy]
    obtain ⟨σ, u, hu⟩ := signed_iff.1 (hρ x hx)
    have hb : b = σ a := by
      by_contra hb
      rw [hu.entry, if_neg hb] at hxe
      exact hxe rfl
    rw [hu.mono.mul_entry, ← hb]
    exact mul_ne_zero (hu.mono.ne_zero a) hye
  · intro a b h0
    rw [h.proj_entry hR hρ]
    rw [Finset.sum_eq_zero, mul_zero]
    intro x hx
    have : ρ x a b = 0 := by
      by_contra hxe
      exact (hne a b).2 ⟨x, Finset.mem_range.1 hx, hxe⟩ h0
    rw [this, mul_zero]
  · have hl : i < (table.map fun chars => symmProjFull chars classes).length := by rw [h.length]; exact hi
    have := h.idem i hF hl (h.base.len ▸ hi)
    rw [h.get i hl] at this
    change (T.dims[i]'(h.base.len ▸ hi) : ℂ) • (proj T F φ ρ i * proj T F φ ρ i) = (T.m : ℂ) • proj T F φ ρ i at this
    have e : T.dims.getD i 0 = T.dims[i]'(h.base.len ▸ hi) := by
      rw [List.getD_eq_getElem?_getD, List.getElem?_eq_getElem (h.base.len ▸ hi), Option.getD_some]
    rw [e] at hd ⊢
    rw [div_eq_inv_mul, mul_smul, ← this, smul_smul, inv_mul_cancel₀ hd, one_smul]
  · intro a b
    have e : (starRingEnd ℂ) (proj T F φ ρ i a b) = proj T F φ ρ i a b := by
      rw [h.proj_entry hR hρ, map_mul, map_inv₀, h.conj, map_sum]
      congr 1
      refine Finset.sum_congr rfl fun x hx => ?_
      rw [map_mul, h.conj]
      congr 1
      obtain ⟨σ, u, hu⟩ := signed_iff.1 (hρ x (Finset.mem_range.1 hx))
      rw [hu.entry]
      split_ifs <;> simp
    exact Complex.conj_eq_iff_im.1 e
  · intro a b
    have hf : ∀ x, ∃ k : ℤ, |k| ≤ 1 ∧ (x < T.m → ρ x a b = (k : ℂ)) := by
      intro x
      by_cases hx : x < T.m
      · obtain ⟨σ, u, hu⟩ := signed_iff.1 (hρ x hx)
        by_cases hb : b = σ a
        · refine ⟨u a, ?_, fun _ => by rw [hu.entry, if_pos hb]⟩
          rcases hu.sign a with e | e <;> rw [e] <;> simp
        · exact ⟨0, by simp, fun _ => by rw [hu.entry, if_neg hb]; simp⟩
      · exact ⟨0, by simp, fun hx' => absurd hx' hx⟩
    choose f hf1 hf2 using hf
    have e : ∑ x ∈ Finset.range T.m, φ (F i x) * ρ x a b = ∑ x ∈ Finset.range T.m, φ (F i x) * (f x : ℂ) :=
      Finset.sum_congr rfl fun x hx => by rw [hf2 x (Finset.mem_range.1 hx)]
    rw [h.proj_entry hR hρ, e]
    rcases hR.gap i hi f hf1 with h0 | h0
    · left
      rw [h0, mul_zero]
    · right
      exact h0
  · intro a
    have hsub : (Finset.univ.filter fun b => relMat ρ T.codes a b ≠ 0) ⊆ (Finset.range T.m).image
        (fun x => if hx : x < T.m then (signed_iff.1 (hρ x hx)).choose a else a) := by
      intro b hb
      rw [Finset.mem_filter, hne] at hb
      obtain ⟨x, hx, hxe⟩ := hb.2
      rw [Finset.mem_image]
      refine ⟨x, Finset.mem_range.2 hx, ?_⟩
      rw [dif_pos hx]
      obtain ⟨u, hu⟩ := (signed_iff.1 (hρ x hx)).choose_spec
      by_contra hb'
      rw [hu.entry, if_neg (fun e => hb' e.symm)] at hxe
      exact hxe rfl
    refine (Finset.card_le_card hsub).trans (Finset.card_image_le.trans ?_)
    rw [Finset.card_range]
    exact hR.order

theorem lineData {i : ℕ} (hi : i < T.rows.length) (hF : T.Idem F i) (h1 : T.dims.getD i 0 = 1) :
    LineData (proj T F φ ρ i) (relMat ρ T.codes) ((T.m : ℂ) / (T.dims.getD i 0 : ℂ)) := by
  refine ⟨h.blockData hR hρ hi hF, fun a a' haa => ?_⟩
  obtain ⟨x, hx, hxe⟩ := (h.relMat_ne hR hρ a a').1 haa
  obtain ⟨σ, u, hu⟩ := signed_iff.1 (hρ x hx)
  have ha : a' = σ a := by
    by_contra hb
    rw [hu.entry, if_neg hb] at hxe
    exact hxe rfl
  -- multiplication by a group element multiplies the projector by its character
  have key : (φ T.s) • (ρ x * proj T F φ ρ i) = φ (F i x) • proj T F φ ρ i := by
    have hmul : ρ x * E T.m ρ (fun y => φ (F i y)) = E T.m ρ (fun z => φ (F i (T.ldiv x z))) := by
      unfold GroupAlg.E
      rw [Finset.mul_sum]
      refine Finset.sum_bij' (fun y _ => T.mul x y) (fun z _ => T.ldiv x z) ?_ ?_ ?_ ?_ ?_
      · intro y hy; exact Finset.mem_range.2 (h.base.table x hx y (Finset.mem_range.1 hy)).1
      · intro y hy; exact Finset.mem_range.2 (h.base.table x hx y (Finset.mem_range.1 hy)).2.1
      · intro y hy; exact (h.base.table x hx y (Finset.mem_range.1 hy)).2.2.1
      · intro y hy; exact (h.base.table x hx y (Finset.mem_range.1 hy)).2.2.2
      · intro y hy
        dsimp only
        rw [(h.base.table x hx y (Finset.mem_range.1 hy)).2.2.1, mul_smul_comm, h.mul x hx y (Finset.mem_range.1 hy)]
    unfold proj
    rw [Matrix.mul_smul, hmul, smul_comm (φ T.s), smul_comm (φ (F i x))]
    congr 1
    rw [GroupAlg.E_smul, GroupAlg.E_smul]
    refine GroupAlg.E_congr fun z hz => ?_
    have hl := h.base.table x hx z hz
    have e1 := hR.line i hi h1 x hx _ hl.2.1
    rw [hl.2.2.2] at e1
    have e2 := hR.lineunit i hi h1 x hx
    have e3 := congrArg φ e1
    have e4 := congrArg φ e2
    simp only [map_mul] at e3 e4
    have hs := h.ne
    apply mul_left_cancel₀ hs
    linear_combination -φ (F i (T.ldiv x z)) * e4 - φ (F i x) * e3
  have hun : φ (F i x) * φ (F i x) = φ T.s * φ T.s := by
    have := congrArg φ (hR.lineunit i hi h1 x hx)
    simpa only [map_mul] using this
  have hs := h.ne
  have hux : u a = 1 ∨ u a = -1 := hu.sign a
  have huu : ((u a : ℤ) : ℂ) * ((u a : ℤ) : ℂ) = 1 := by
    rcases hux with e | e <;> rw [e] <;> simp
  refine ⟨(u a : ℂ) * (φ (F i x) / φ T.s), ?_, fun j => ?_⟩
  · have hq : ((u a : ℂ) * (φ (F i x) / φ T.s)) * ((u a : ℂ) * (φ (F i x) / φ T.s)) = 1 := by
      rw [mul_mul_mul_comm, huu, one_mul, div_mul_div_comm, hun, div_self (mul_ne_zero hs hs)]
    have hq' := congrArg norm hq
    rw [norm_mul, norm_one] at hq'
    have h0 := norm_nonneg ((u a : ℂ) * (φ (F i x) / φ T.s))
    nlinarith
  · have := congrFun (congrFun key a) j
    rw [Matrix.smul_apply, Matrix.smul_apply, hu.mono.mul_entry, ← ha, smul_eq_mul, smul_eq_mul] at this
    have e : (u a : ℂ) * proj T F φ ρ i a' j = φ (F i x) / φ T.s * proj T F φ ρ i a j := by
      field_simp
      linear_combination this
    calc proj T F φ ρ i a' j = ((u a : ℂ) * (u a : ℂ)) * proj T F φ ρ i a' j := by rw [huu, one_mul]
      _ = (u a : ℂ) * ((u a : ℂ) * proj T F φ ρ i a' j) := by ring
      _ = _ := by rw [e]; ring

/-- The reduction of the projectors of a group. -/
theorem reduces {svd : Svd} (hsvd : svd.Correct) (hV : T.Valid)
    (ho : ∀ i < T.rows.length, ∀ j < T.rows.length, i ≠ j → T.Orth F i j)
    (hI : ∀ i < T.rows.length, T.Idem F i) (hc : T.Complete F) :
    ∃ projs, getReducedProjectors svd table classes = .ok projs ∧
      Reduces T.m T.dims (table.map fun chars => symmProjFull chars classes) projs := by
  -- the projectors one by one
  set red : List (Rows d) := table.map fun chars =>
    reduceProjector svd (chars.getD 0 0) (List.ofFn fun i j => symmProjFull chars classes i j) (statesRelated classes)
    with hred
  have hlen : table.length = T.rows.length := by rw [h.table, List.length_map]
  have hget : ∀ k (hk : k < T.rows.length), ∃ O Q, red[k]? = some Q ∧
      Approx (1 / 10 ^ 14) (1 / 10 ^ 11) Q (((T.m : ℂ) / (T.dims.getD k 0 : ℂ))⁻¹ • proj T F φ ρ k) O := by
    intro k hk
    have hP := h.get k (by rw [h.length]; exact hk)
    rw [List.getElem_map] at hP
    have hQ : red[k]? = some (reduceProjector svd ((table[k]'(by omega)).getD 0 0)
        (List.ofFn fun i j => symmProjFull (table[k]'(by omega)) classes i j) (statesRelated classes)) := by
      rw [hred, List.getElem?_map, List.getElem?_eq_getElem (by omega), Option.map_some]
    rw [hP, h.related_eq hR hρ] at hQ
    have hdim : (table[k]'(by omega)).getD 0 0 = (T.dims.getD k 0 : ℂ) := by
      have h1 : (table[k]'(by omega)) = (T.rows[k].map fun q => φ q / φ T.s) := by
        simp only [h.table, List.getElem_map]
      have h2 := hR.dims k hk
      rw [List.getD_eq_getElem?_getD (l := T.rows), List.getElem?_eq_getElem hk, Option.getD_some] at h2
      rw [h1]
      have hs := h.ne
      cases hr : T.rows[k] with
      | nil =>
        rw [hr] at h2
        simp only [List.getD_nil] at h2
        have h3 := congrArg φ h2
        rw [map_zero, map_mul, map_natCast] at h3
        rcases mul_eq_zero.1 h3.symm with h4 | h4
        · exact absurd h4 hs
        · rw [h4]; simp
      | cons q l =>
        rw [hr] at h2
        simp only [List.getD_cons_zero] at h2
        rw [List.map_cons, List.getD_cons_zero, h2, map_mul, map_natCast, mul_div_cancel_left₀ _ hs]
    rw [hdim] at hQ
    by_cases h1 : T.dims.getD k 0 = 1
    · obtain ⟨O, hO⟩ := (h.lineData hR hρ hk (hI k hk) h1).reduce_approx (ε := 1 / 10 ^ 14) (η := 1 / 10 ^ 11)
        (by positivity) (by positivity)
      refine ⟨O, _, hQ, ?_⟩
      unfold reduceProjector
      rw [if_pos (by rw [h1]; simp)]
      exact hO
    · obtain ⟨O, hO⟩ := (h.blockData hR hρ hk (hI k hk)).reduceBySvd_approx hsvd
      refine ⟨O, _, hQ, ?_⟩
      unfold reduceProjector
      rw [if_neg (by exact_mod_cast h1)]
      exact hO
  have hrl : red.length = T.rows.length := by rw [hred, List.length_map, hlen]
  have hlt : ∀ k Q, red[k]? = some Q → k < T.rows.length := fun k Q hQ => by
    have := (List.getElem?_eq_some_iff.1 hQ).1
    omega
  have hap : ∀ k Q, red[k]? = some Q → ∃ O,
      Approx (1 / 10 ^ 14) (1 / 10 ^ 11) Q (((T.m : ℂ) / (T.dims.getD k 0 : ℂ))⁻¹ • proj T F φ ρ k) O := by
    intro k Q hQ
    obtain ⟨O, Q', hQ', hO⟩ := hget k (hlt k Q hQ)
    rw [hQ] at hQ'
    cases hQ'
    exact ⟨O, hO⟩
  have hPget : ∀ k (hk : k < T.rows.length), (table.map fun chars => symmProjFull chars classes)[k]'(by rw [h.length]; exact hk) =
      proj T F φ ρ k := fun k hk => h.get k (by rw [h.length]; exact hk)
  have horth : ∀ k < T.rows.length, ∀ l < T.rows.length, k ≠ l → proj T F φ ρ k * proj T F φ ρ l = 0 := by
    intro k hk l hl hkl
    rw [← hPget k hk, ← hPget l hl]
    exact h.orth k l (ho k hk l hl hkl) _ _
  have hm : (T.m : ℂ) ≠ 0 := by exact_mod_cast h.base.pos.ne'
  -- the dimensions
  have htot : (red.map List.length).sum = d := by
    have h1 : (((red.map List.length).sum : ℕ) : ℂ) =
        ∑ k ∈ Finset.range T.rows.length, (((T.m : ℂ) / (T.dims.getD k 0 : ℂ))⁻¹ • proj T F φ ρ k).trace := by
      have e : (red.map List.length).sum = ∑ k ∈ Finset.range red.length, (red.getD k []).length := by
        clear_value red
        clear hred hget hrl hlt hap
        induction red with
        | nil => simp
        | cons Q l ih =>
          rw [List.map_cons, List.sum_cons, List.length_cons, Finset.sum_range_succ', ih, add_comm]
          simp
      rw [e, Nat.cast_sum, hrl]
      refine Finset.sum_congr rfl fun k hk => ?_
      obtain ⟨O, Q, hQ, hO⟩ := hget k (Finset.mem_range.1 hk)
      rw [List.getD_eq_getElem?_getD, hQ, Option.getD_some]
      exact hO.length
    have h2 : ∑ k ∈ Finset.range T.rows.length, ((T.m : ℂ) / (T.dims.getD k 0 : ℂ))⁻¹ • proj T F φ ρ k = 1 := by
      have := h.complete hc
      rw [zipWith_sum _ _ (h.length.trans h.base.len), h.length] at this
      have e : ∀ k ∈ Finset.range T.rows.length, ((T.m : ℂ) / (T.dims.getD k 0 : ℂ))⁻¹ • proj T F φ ρ k =
          (T.m : ℂ)⁻¹ • (((T.dims.getD k 0 : ℕ) : ℂ) • (table.map fun chars => symmProjFull chars classes).getD k 0) := by
        intro k hk
        rw [h.getD k (Finset.mem_range.1 hk), smul_smul, inv_div, div_eq_inv_mul]
        rfl
      rw [Finset.sum_congr rfl e, ← Finset.smul_sum, this, smul_smul, inv_mul_cancel₀ hm, one_smul]
    rw [← Matrix.trace_sum, h2, Matrix.trace_one, Fintype.card_fin] at h1
    exact_mod_cast h1
  refine ⟨red, ?_, ?_⟩
  · have hval := h.validate hV
    unfold getSymmetryProjectors at hval
    have hv : validateCharTable table.length (tableOf table) (fun c => (classes.getD c []).length) := by
      by_contra hv
      rw [if_neg hv] at hval
      cases hval
    unfold getReducedProjectors
    simp only [bind, Except.bind, pure, Except.pure]
    rw [if_neg (by simpa using hv)]
    exact if_neg (not_not.2 htot)
  · refine ⟨?_, htot, ?_, ?_, ?_, ?_, ?_⟩
    · rw [hrl, h.base.len]
    · intro Q hQ r hr
      obtain ⟨k, hk, rfl⟩ := List.mem_iff_getElem.1 hQ
      obtain ⟨O, hO⟩ := hap k _ (List.getElem?_eq_getElem hk)
      exact hO.unit r hr
    · intro Q hQ a b ha hb hab
      obtain ⟨k, hk, rfl⟩ := List.mem_iff_getElem.1 hQ
      obtain ⟨O, hO⟩ := hap k _ (List.getElem?_eq_getElem hk)
      exact (hO.orth ha hb hab).trans (by norm_num)
    · intro k l Q Q' hQ hQ' hkl r hr s hs
      obtain ⟨O, hO⟩ := hap k Q hQ
      obtain ⟨O', hO'⟩ := hap l Q' hQ'
      have hk := hlt k Q hQ
      have hl := hlt l Q' hQ'
      refine (hO.across hO' ?_ ?_ hr hs).trans (by norm_num)
      · rw [Matrix.conjTranspose_smul, h.proj_herm hR hρ hl]
        congr 1
        simp
      · rw [Matrix.smul_mul, Matrix.mul_smul, horth k hk l hl hkl, smul_zero, smul_zero]
    · intro k n Q p hQ hp hn i j
      obtain ⟨O, hO⟩ := hap k Q hQ
      have hk := hlt k Q hQ
      have := hO.res i j
      rw [Matrix.smul_apply, smul_eq_mul, inv_div] at this
      have e1 : T.dims.getD k 0 = n := by rw [List.getD_eq_getElem?_getD, hn, Option.getD_some]
      have e2 : p = proj T F φ ρ k := by
        rw [← hPget k hk]
        exact (List.getElem?_eq_some_iff.1 hp).2.symm
      rwa [e1, ← e2] at this
    · intro H C hC hH hb k l Q Q' hQ hQ' hkl r hr s hs
      obtain ⟨O, hO⟩ := hap k Q hQ
      obtain ⟨O', hO'⟩ := hap l Q' hQ'
      have hk := hlt k Q hQ
      have hl := hlt l Q' hQ'
      refine (hO.blocks hO' ?_ ?_ ?_ hC hb hr hs).trans ?_
      · rw [Matrix.conjTranspose_smul, h.proj_herm hR hρ hl]
        congr 1
        simp
      · rw [Matrix.smul_mul, Matrix.mul_smul, horth k hk l hl hkl, smul_zero, smul_zero]
      · rw [Matrix.mul_smul, Matrix.smul_mul]
        congr 1
        have := hH _ (List.getElem_mem (by rw [h.length]; exact hk : k < _))
        rwa [hPget k hk] at this
      · rw [div_eq_mul_inv]
        exact mul_le_mul_of_nonneg_left (by norm_num) hC

end Tables.Rep

end ED
