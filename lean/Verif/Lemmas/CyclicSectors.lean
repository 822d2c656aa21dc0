import Verif.Lemmas.MomentumSectors
import Verif.Model.RingScript

/-! # Sectors of a label of the basis states and one momentum -/

namespace ED.Props

open Matrix Spec

variable {d : ℕ}

/-- Rows close to unit vectors are not zero. -/
theorem near_row_ne {m : ℕ} {Q : Rows d} {X : Matrix (Fin m) (Fin d) ℂ} {κ : ℝ} (h : NearRows Q X κ) (hX : X * Xᴴ = 1) (hκ : κ < 1)
    (a : Fin m) : Q.getD a 0 ≠ 0 := by
  intro h0
  have := h.2 (Pi.single a 1)
  have e1 : Real.sqrt (∑ b, ‖(Pi.single a (1 : ℂ) : Fin m → ℂ) b‖ ^ 2) = 1 := by
    rw [Finset.sum_eq_single a]
    · simp
    · intro b _ hb
      simp [hb]
    · simp
  rw [e1, mul_one] at this
  have e2 : (fun j => ∑ b, (Pi.single a (1 : ℂ) : Fin m → ℂ) b * (Q.getD b 0 j - X b j)) = -(X a) := by
    funext j
    rw [Finset.sum_eq_single a]
    · rw [Pi.single_eq_same, one_mul, h0]
      simp
    · intro b _ hb
      rw [Pi.single_eq_of_ne hb, zero_mul]
    · simp
  rw [e2] at this
  have e3 : rnorm (-(X a)) = 1 := by
    have h1 := congrFun (congrFun hX a) a
    rw [one_apply_eq, mul_apply] at h1
    have e : ∑ j, X a j * Xᴴ j a = ((∑ j, ‖X a j‖ ^ 2 : ℝ) : ℂ) := by
      push_cast
      refine Finset.sum_congr rfl fun j _ => ?_
      rw [conjTranspose_apply, ← starRingEnd_apply, Complex.mul_conj, Complex.normSq_eq_norm_sq]
      push_cast
      rfl
    rw [e] at h1
    have h2 : ∑ j, ‖X a j‖ ^ 2 = 1 := by exact_mod_cast h1
    rw [rnorm_eq]
    simp [h2]
  rw [e3] at this
  linarith

/-- A cyclic symmetry. -/
structure Cyclic (T H : Matrix (Fin d) (Fin d) ℂ) (n : ℕ) : Prop where
  phase : PhasePermutation T
  pos : 0 < n
  small : n < 10 ^ 4
  pow : T ^ n = 1
  comm : T * H = H * T

variable {T H : Matrix (Fin d) (Fin d) ℂ} {n : ℕ} {α : Type} {lab : Fin d → α} {M : Mat}

/-- The sectors of `ringStep` in the states with one label. -/
theorem cyclic_step (h : Cyclic T H n) (m1 : M.Is T) (l1 : ∀ i j, lab i ≠ lab j → T i j = 0) (s : α × Mat)
    (hP : s.2.Selects d fun j => lab j = s.1) (hne : ∃ j, lab j = s.1) :
    ∃ secs : List (ℕ × Rows d × Mat),
      ringStep M n s = .ok (secs.map fun x => (s.1, 2 * Real.pi * (x.1 : ℝ) / (n : ℝ), x.2.2)) ∧
      (secs.map fun x => x.1).Nodup ∧ (secs.map fun x => x.2.1.length).sum = s.2.rows ∧
      ∀ x ∈ secs, x.1 < n ∧ x.2.1 ≠ [] ∧ RowsOf x.2.2 x.2.1 ∧
        ∃ (m : ℕ) (X : Matrix (Fin m) (Fin d) ℂ), NearRows x.2.1 X (3 * (1 / 10 ^ 14)) ∧ X * Xᴴ = 1 ∧
          (∀ t ∈ [T].zip [omega n x.1], X * t.1 = t.2 • X) ∧ ∀ i j, lab j ≠ s.1 → X i j = 0 := by
  classical
  obtain ⟨sel, hi, hr, hI⟩ := selects_is hP
  have hE := selMat_unit hi
  have e1 := selMat_comm hi hr l1
  obtain ⟨t1, a1, b1⟩ := hI.inSector m1
  have f1 : (Matrix.of fun i j => t1.e i j : Matrix (Fin s.2.rows) (Fin s.2.rows) ℂ) = selMat sel * T * (selMat sel)ᴴ := by
    ext i j
    exact b1.2.2 i j
  obtain ⟨σ, u, hu, hent⟩ := selMat_phase hi hr l1 h.phase
  have hz := znData_of (U := selMat sel * T * (selMat sel)ᴴ) ⟨hu, hent⟩ h.pos.ne' h.small (compress_pow hE e1 h.pow) (δ := 1 / 10 ^ 14)
    (by positivity) le_rfl (fun k _ l _ => table_near n k l)
  have hlen : ∀ Q : Rows s.2.rows, (liftRows (selMat sel) Q).length = Q.length := fun Q => by simp [liftRows]
  choose p hp1 hp2 using fun k : ℕ => liftRows_is hI (hz.sector k)
  have near : ∀ k < n, ∃ (m : ℕ) (X : Matrix (Fin m) (Fin d) ℂ), NearRows (liftRows (selMat sel) (hz.sector k)) X (3 * (1 / 10 ^ 14)) ∧ X * Xᴴ = 1 ∧
      (∀ t ∈ [T].zip [omega n k], X * t.1 = t.2 • X) ∧ ∀ i j, lab j ≠ s.1 → X i j = 0 := by
    intro k hk
    obtain ⟨m, X, x1, x2, x3⟩ := hz.near_eigen hk
    refine ⟨m, X * selMat sel, liftRows_near hE x1, ?_, ?_, fun i j hj => ?_⟩
    · rw [conjTranspose_mul, Matrix.mul_assoc, ← Matrix.mul_assoc _ _ Xᴴ, hE, Matrix.one_mul, x2]
    · intro t ht
      simp only [List.zip_cons_cons, List.zip_nil_right, List.mem_cons, List.not_mem_nil, or_false] at ht
      subst ht
      have := x3 _ (List.mem_singleton_self _)
      simp only at this ⊢
      rw [Matrix.mul_assoc, e1, ← Matrix.mul_assoc, this, Matrix.smul_mul]
    · rw [mul_apply]
      refine Finset.sum_eq_zero fun a _ => ?_
      have : selMat sel a j = 0 := by
        unfold selMat
        rw [of_apply, if_neg]
        intro e
        exact hj ((hr j).2 ⟨a, e.symm⟩)
      rw [this, mul_zero]
  have nonzero : ∀ k < n, (∃ i < (p k).rows, ∃ j < (p k).cols, (p k).e i j ≠ 0) ↔ hz.sector k ≠ [] := by
    intro k hk
    constructor
    · rintro ⟨i, hi', -⟩ h0
      have := (hp2 k).1
      rw [Fintype.card_fin, hlen, h0] at this
      simp only [List.length_nil] at this
      omega
    · intro h0
      obtain ⟨m, X, x1, x2, -⟩ := near k hk
      have hpos : 0 < (hz.sector k).length := List.length_pos_of_ne_nil h0
      have hm : 0 < m := by rw [← x1.1, hlen]; exact hpos
      have := near_row_ne x1 x2 (by norm_num) ⟨0, hm⟩
      obtain ⟨j, hj⟩ := Function.ne_iff.1 this
      have hl : 0 < (liftRows (selMat sel) (hz.sector k)).length := by rw [hlen]; exact hpos
      refine ⟨0, ?_, j, ?_, ?_⟩
      · rw [(hp2 k).1, Fintype.card_fin]
        exact hl
      · rw [(hp2 k).2.1, Fintype.card_fin]
        exact j.2
      · have e := (hp2 k).2.2 ⟨0, hl⟩ j
        rw [show (p k).e 0 j = _ from e, of_apply]
        simp only [Fin.getElem_fin]
        rw [List.getD_eq_getElem?_getD, List.getElem?_eq_getElem hl, Option.getD_some] at hj
        exact hj
  set c : ℕ → Bool := fun k => decide (hz.sector k ≠ []) with hc
  refine ⟨((List.range n).filter c).map fun k => (k, liftRows (selMat sel) (hz.sector k), p k), ?_, ?_, ?_, fun y hy => ?_⟩
  · unfold ringStep splitBy
    rw [a1]
    simp only [bind, Except.bind]
    rw [f1, zn_ok hz h.small]
    simp only
    rw [hz.projs_sector, List.zip_map', mapM_ok _ _ (fun k : ℝ × Rows s.2.rows => (k.1, match (rowsMat k.2).mul s.2 with
      | .ok p => p
      | .error _ => s.2))]
    swap
    · intro k hk
      obtain ⟨x, -, rfl⟩ := List.mem_map.1 hk
      simp only [hp1, pure, Except.pure]
    simp only [pure, Except.pure]
    congr 1
    rw [List.map_map, List.filter_map, List.map_map, List.map_map]
    have ef : (List.range n).filter c = (List.range n).filter ((fun x : ℝ × Mat => decide (∃ i < x.2.rows, ∃ j < x.2.cols, x.2.e i j ≠ 0)) ∘
        ((fun k : ℝ × Rows s.2.rows => (k.1, match (rowsMat k.2).mul s.2 with
          | .ok p => p
          | .error _ => s.2)) ∘ fun k : ℕ => (2 * Real.pi * (k : ℝ) / (n : ℝ), hz.sector k))) := by
      refine List.filter_congr fun k hk => ?_
      simp only [hc, Function.comp, hp1]
      rw [decide_eq_decide]
      exact (nonzero k (List.mem_range.1 hk)).symm
    rw [ef]
    refine List.map_congr_left fun k _ => ?_
    simp only [Function.comp, hp1]
  · rw [List.map_map]
    exact (List.nodup_range.filter _).map fun a b h => h
  · rw [List.map_map]
    have := hz.good.total
    rw [hz.projs_sector, List.map_map] at this
    refine Eq.trans ?_ this
    have key : ∀ l : List ℕ, ((l.filter c).map ((fun x : ℕ × Rows d × Mat => x.2.1.length) ∘ fun k =>
        (k, liftRows (selMat sel) (hz.sector k), p k))).sum = (l.map (List.length ∘ hz.sector)).sum := by
      intro l
      induction l with
      | nil => rfl
      | cons k l ih =>
        by_cases hk : c k = true
        · rw [List.filter_cons_of_pos hk, List.map_cons, List.map_cons, List.sum_cons, List.sum_cons, ih]
          simp only [Function.comp, hlen]
        · rw [List.filter_cons_of_neg hk, List.map_cons, List.sum_cons, ih]
          have : hz.sector k = [] := by
            rw [hc] at hk
            simp only [decide_eq_true_eq, not_not] at hk
            exact hk
          simp only [Function.comp, this, List.length_nil, zero_add]
    exact key _
  · obtain ⟨k, hk, rfl⟩ := List.mem_map.1 hy
    obtain ⟨h1, h2⟩ := List.mem_filter.1 hk
    have hk' := List.mem_range.1 h1
    refine ⟨hk', fun h0 => ?_, hp2 k, near k hk'⟩
    rw [hc] at h2
    simp only [decide_eq_true_eq] at h2
    have := congrArg List.length h0
    simp only [hlen, List.length_nil, List.length_eq_zero_iff] at this
    exact h2 this

/-- The sectors of all labels. -/
theorem cyclic_all (h : Cyclic T H n) (m1 : M.Is T) (l1 : ∀ i j, lab i ≠ lab j → T i j = 0)
    (lH : ∀ i j, lab i ≠ lab j → H i j = 0) (L : List (α × Mat)) (hnd : (L.map Prod.fst).Nodup)
    (hmem : ∀ a, a ∈ L.map Prod.fst ↔ ∃ j, lab j = a)
    (hsel : ∀ s ∈ L, s.2.Selects d fun j => lab j = s.1) :
    ∃ ls projs, L.mapM (ringStep M n) = .ok ls ∧
      List.Forall₂ RowsOf (ls.flatten.map fun x => x.2.2) projs ∧ NearSectors projs H (3 * (1 / 10 ^ 14)) ∧
      (ls.flatten.map fun x => (x.1, x.2.1)).Nodup ∧
      ∀ x ∈ ls.flatten, x.1 ∈ L.map Prod.fst ∧ ∃ q : ℕ, q < n ∧ x.2.1 = 2 * Real.pi * (q : ℝ) / (n : ℝ) := by
  have step : ∀ s : α × Mat, s ∈ L → _ := fun s hs =>
    cyclic_step h m1 l1 s (hsel s hs) ((hmem _).1 (List.mem_map_of_mem hs))
  choose! secs k1 k2 k3 k4 using step
  set mom : ℕ × Rows d × Mat → ℝ := fun x => 2 * Real.pi * (x.1 : ℝ) / (n : ℝ) with hmom
  set LL : List (α × ℕ × Rows d × Mat) := (L.map fun s => (secs s).map fun x => (s.1, x)).flatten with hLL
  have hm : ∀ t ∈ LL, ∃ s ∈ L, t.1 = s.1 ∧ t.2 ∈ secs s := by
    intro t ht
    obtain ⟨l, hl, ht⟩ := List.mem_flatten.1 ht
    obtain ⟨s, hs, rfl⟩ := List.mem_map.1 hl
    obtain ⟨x, hx, rfl⟩ := List.mem_map.1 ht
    exact ⟨s, hs, rfl, hx⟩
  have hfl : (L.map fun s => (secs s).map fun x => (s.1, mom x, x.2.2)).flatten = LL.map fun t => (t.1, mom t.2, t.2.2.2) := by
    rw [hLL, List.map_flatten, List.map_map]
    congr 1
    refine List.map_congr_left fun s _ => ?_
    simp only [Function.comp, List.map_map]
    rfl
  have hnodup : (LL.map fun t => (t.1, t.2.1)).Nodup := by
    rw [hLL, List.map_flatten, List.map_map, List.nodup_flatten]
    constructor
    · intro l hl
      obtain ⟨s, hs, rfl⟩ := List.mem_map.1 hl
      simp only [Function.comp_apply, List.map_map]
      have e : ((fun t : α × ℕ × Rows d × Mat => (t.1, t.2.1)) ∘ fun x => (s.1, x)) =
          (fun b => (s.1, b)) ∘ fun x : ℕ × Rows d × Mat => x.1 := rfl
      rw [e, ← List.map_map]
      exact (k2 s hs).map fun a b h => (Prod.mk.inj h).2
    · rw [List.pairwise_map]
      rw [List.Nodup, List.pairwise_map] at hnd
      refine hnd.imp fun {a b} hab x hx hy => hab ?_
      simp only [Function.comp_apply, List.map_map, List.mem_map] at hx hy
      obtain ⟨p, -, rfl⟩ := hx
      obtain ⟨q, -, hq⟩ := hy
      exact (congrArg Prod.fst hq).symm
  have hn1 : (n : ℝ) ≠ 0 := by exact_mod_cast h.pos.ne'
  have hinj : ∀ {a b : ℕ}, 2 * Real.pi * (a : ℝ) / (n : ℝ) = 2 * Real.pi * (b : ℝ) / (n : ℝ) → a = b := by
    intro a b e
    rw [div_left_inj' hn1, mul_right_inj' (by positivity)] at e
    exact_mod_cast e
  refine ⟨L.map fun s => (secs s).map fun x => (s.1, mom x, x.2.2), LL.map fun t => t.2.2.1, ?_, ?_, ?_, ?_, ?_⟩
  · exact mapM_ok _ _ _ fun s hs => k1 s hs
  · rw [hfl, List.map_map, List.forall₂_map_left_iff, List.forall₂_map_right_iff]
    refine List.forall₂_same.2 fun t ht => ?_
    obtain ⟨s, hs, e, hx⟩ := hm t ht
    exact (k4 s hs t.2 hx).2.2.1
  · refine NearSectors.of_labels (syms := [T]) (ω := fun t : α × ℕ × Rows d × Mat => [omega n t.2.1])
      (lab := lab) (ℓ := fun t => t.1) hnodup.of_map (fun t ht => ?_) (fun t ht => ?_) (fun _ _ => rfl) (fun t _ z hz => ?_)
      (fun t ht t' ht' hne hl e => hne ?_) (fun V hV => ?_) lH ?_
    · obtain ⟨s, hs, e, hx⟩ := hm t ht
      exact (k4 s hs t.2 hx).2.1
    · obtain ⟨s, hs, e, hx⟩ := hm t ht
      rw [e]
      exact (k4 s hs t.2 hx).2.2.2
    · rw [List.mem_singleton] at hz
      rw [hz]
      exact omega_norm _ _
    · obtain ⟨s, hs, e1, hx⟩ := hm t ht
      obtain ⟨s', hs', e1', hx'⟩ := hm t' ht'
      have c1 := k4 s hs t.2 hx
      have c2 := k4 s' hs' t'.2 hx'
      refine List.inj_on_of_nodup_map hnodup ht ht' ?_
      rw [hl, omega_inj h.pos.ne' c1.1 c2.1 (List.singleton_injective e)]
    · rw [List.mem_singleton] at hV
      rw [hV]
      exact ⟨phase_unitary h.phase, h.comm⟩
    · rw [hLL, List.map_flatten, List.map_map, List.sum_flatten, List.map_map]
      refine Eq.trans ?_ (label_total lab L hnd (fun j => (hmem _).2 ⟨j, rfl⟩) hsel)
      congr 1
      refine List.map_congr_left fun s hs => ?_
      rw [← k3 s hs]
      simp only [Function.comp, List.map_map]
      rfl
  · rw [hfl, List.map_map]
    refine List.Nodup.map_on ?_ hnodup.of_map
    intro t ht t' ht' e
    simp only [Function.comp, hmom, Prod.mk.injEq] at e
    refine List.inj_on_of_nodup_map hnodup ht ht' ?_
    rw [e.1, hinj e.2]
  · rw [hfl]
    intro x hx
    obtain ⟨t, ht, rfl⟩ := List.mem_map.1 hx
    obtain ⟨s, hs, e, hx⟩ := hm t ht
    have c := k4 s hs t.2 hx
    exact ⟨by simp only [e]; exact List.mem_map_of_mem hs, _, c.1, rfl⟩

end ED.Props
