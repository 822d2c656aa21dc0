import Verif.Lemmas.Reduce

/-!
# Reduction modulo periodicity vectors and reciprocal vectors (C48, C49)
-/

namespace ED.Props

open ED

/-- The point of one column of the result. -/
private theorem col_point (p1 p2 : ℝ × ℝ) (r : (ℝ × ℝ) × (ℝ × ℝ)) (c : Bool) (x y : ℝ) :
    ((reduceCol p1 p2 r c x y).x, (reduceCol p1 p2 r c x y).y) = redPoint p1 p2 r c (x, y) := by
  rw [reduceCol_eq]

private theorem get_zip {α β γ : Type} (f : α → β → γ) (xs : List α) (ys : List β) (k : ℕ) (x : α)
    (y : β) (hx : xs[k]? = some x) (hy : ys[k]? = some y) :
    (List.zipWith f xs ys)[k]? = some (f x y) := by
  rw [List.getElem?_zipWith, hx, hy]

/-- C48: for admissible periodicity vectors and both modes every vector is reduced by an integer
combination of the periodicity vectors, which is reported. -/
theorem C48_subtracts {p1 p2 : ℝ × ℝ} (h : Periods p1 p2) {xs ys : List ℝ}
    (hl : xs.length = ys.length) {mode : String} (hm : mode = "positive" ∨ mode = "centered") :
    ∃ rs, reduceVectors p1 p2 xs ys mode = .ok rs ∧ rs.length = xs.length ∧
      ∀ (k : ℕ) x y, xs[k]? = some x → ys[k]? = some y →
        ∃ c : Reduced, rs[k]? = some c ∧ (x, y) = (c.x, c.y) + c.n1 • p1 + c.n2 • p2 := by
  obtain ⟨r, hr, hd⟩ := projRows_ok h
  refine ⟨_, reduceVectors_ok hr xs ys hl hm, by simp [hl], fun k x y hx hy => ?_⟩
  refine ⟨_, get_zip _ xs ys k x y hx hy, ?_⟩
  rw [col_point, reduceCol_eq]
  simp only [redPoint]
  abel

/-- C48: for independent periodicity vectors the coordinates of the reduced vectors lie in the cell,
up to half a unit of the 14th decimal (to which the library rounds the coordinates). -/
theorem C48_window {p1 p2 : ℝ × ℝ} (h1 : NonNegligible p1) (h2 : NonNegligible p2)
    (h : Indep p1 p2) {xs ys : List ℝ} (hl : xs.length = ys.length) {mode : String} {lo : ℝ}
    (hm : (mode = "positive" ∧ lo = 0) ∨ (mode = "centered" ∧ lo = -(1 / 2))) :
    ∃ rs, reduceVectors p1 p2 xs ys mode = .ok rs ∧ rs.length = xs.length ∧
      ∀ c ∈ rs, InCell lo p1 p2 (c.x, c.y) := by
  have hlo : lo = cellLow (mode = "centered") := by
    rcases hm with ⟨rfl, rfl⟩ | ⟨rfl, rfl⟩ <;> simp [cellLow]
  refine ⟨_, reduceVectors_ok (projRows_indep h1 h2 h) xs ys hl
    (by rcases hm with h | h <;> simp [h.1]), by simp [hl], fun c hc => ?_⟩
  obtain ⟨x, y, rfl⟩ : ∃ x y, reduceCol p1 p2 _ _ x y = c := by
    rw [← List.map_uncurry_zip_eq_zipWith] at hc
    obtain ⟨⟨x, y⟩, -, hc⟩ := List.mem_map.1 hc
    exact ⟨x, y, hc⟩
  rw [col_point]
  obtain ⟨a1, a2⟩ := cellIndex_window (mode = "centered")
    (dot2 (p2.2 / det2 p1 p2, -p2.1 / det2 p1 p2) (x, y))
  obtain ⟨b1, b2⟩ := cellIndex_window (mode = "centered")
    (dot2 (-p1.2 / det2 p1 p2, p1.1 / det2 p1 p2) (x, y))
  rw [← hlo] at a1 a2 b1 b2
  refine ⟨_, _, ?_, a1, a2, b1, b2⟩
  have hdet := det2_ne h
  have hd : ((x, y) : ℝ × ℝ) = dot2 (p2.2 / det2 p1 p2, -p2.1 / det2 p1 p2) (x, y) • p1 +
      dot2 (-p1.2 / det2 p1 p2, p1.1 / det2 p1 p2) (x, y) • p2 := by
    ext
    · simp only [dot2, Prod.fst_add, Prod.smul_fst, smul_eq_mul]
      field_simp
      unfold det2
      ring
    · simp only [dot2, Prod.snd_add, Prod.smul_snd, smul_eq_mul]
      field_simp
      unfold det2
      ring
  rw [sub_smul, sub_smul, Int.cast_smul_eq_zsmul, Int.cast_smul_eq_zsmul, sub_add_sub_comm, ← hd]
  unfold redPoint idx1 idx2
  abel

/-- C48: a vector whose coordinates have at most 14 decimals is reduced exactly. -/
theorem C48_window_exact {p1 p2 : ℝ × ℝ} (h1 : NonNegligible p1) (h2 : NonNegligible p2)
    (h : Indep p1 p2) (s t : ℤ) {mode : String} {lo : ℝ}
    (hm : (mode = "positive" ∧ lo = 0) ∨ (mode = "centered" ∧ lo = -(1 / 2))) (v : ℝ × ℝ)
    (hv : v = ((s : ℝ) / 10 ^ 14) • p1 + ((t : ℝ) / 10 ^ 14) • p2) :
    ∃ c, reduceVectors p1 p2 [v.1] [v.2] mode = .ok [c] ∧ InCellExact lo p1 p2 (c.x, c.y) := by
  have hlo : lo = cellLow (mode = "centered") := by
    rcases hm with ⟨rfl, rfl⟩ | ⟨rfl, rfl⟩ <;> simp [cellLow]
  refine ⟨_, reduceVectors_ok (projRows_indep h1 h2 h) [v.1] [v.2] rfl
    (by rcases hm with h | h <;> simp [h.1]), ?_⟩
  rw [col_point]
  obtain ⟨d1, d2, d3, d4⟩ := dual_indep h
  have lin : ∀ r : ℝ × ℝ, dot2 r v = (s : ℝ) / 10 ^ 14 * dot2 r p1 + (t : ℝ) / 10 ^ 14 * dot2 r p2 := by
    intro r
    rw [hv]
    simp only [dot2, Prod.fst_add, Prod.snd_add, Prod.smul_fst, Prod.smul_snd, smul_eq_mul]
    ring
  have e1 : dot2 (p2.2 / det2 p1 p2, -p2.1 / det2 p1 p2) v = (s : ℝ) / 10 ^ 14 := by
    rw [lin, d1, d2]
    ring
  have e2 : dot2 (-p1.2 / det2 p1 p2, p1.1 / det2 p1 p2) v = (t : ℝ) / 10 ^ 14 := by
    rw [lin, d3, d4]
    ring
  obtain ⟨a1, a2⟩ := cellIndex_exact (mode = "centered") s
  obtain ⟨b1, b2⟩ := cellIndex_exact (mode = "centered") t
  rw [← hlo] at a1 a2 b1 b2
  refine ⟨_, _, ?_, a1, a2, b1, b2⟩
  rw [sub_smul, sub_smul, Int.cast_smul_eq_zsmul, Int.cast_smul_eq_zsmul, sub_add_sub_comm, ← hv]
  unfold redPoint idx1 idx2
  rw [Prod.mk.eta, e1, e2]
  abel

/-- C48: reducing the reduced vectors again changes nothing and subtracts nothing. -/
theorem C48_idempotent {p1 p2 : ℝ × ℝ} (h : Periods p1 p2) {xs ys : List ℝ} {mode : String}
    {rs : List Reduced} (hrs : reduceVectors p1 p2 xs ys mode = .ok rs) :
    ∃ rs', reduceVectors p1 p2 (rs.map (·.x)) (rs.map (·.y)) mode = .ok rs' ∧
      rs'.map (·.x) = rs.map (·.x) ∧ rs'.map (·.y) = rs.map (·.y) ∧
      ∀ c ∈ rs', c.n1 = 0 ∧ c.n2 = 0 := by
  obtain ⟨r, hr, hd⟩ := projRows_ok h
  by_cases hl : xs.length = ys.length
  swap
  · unfold reduceVectors at hrs
    rw [if_pos hl] at hrs
    cases hrs
  by_cases hm : mode = "positive" ∨ mode = "centered"
  swap
  · unfold reduceVectors at hrs
    rw [if_neg (by simpa using hl), if_pos (by tauto)] at hrs
    cases hrs
  rw [reduceVectors_ok hr xs ys hl hm] at hrs
  cases hrs
  refine ⟨_, reduceVectors_ok hr _ _ (by simp) hm, ?_⟩
  have key : ∀ x y, reduceCol p1 p2 r (mode = "centered")
      (reduceCol p1 p2 r (mode = "centered") x y).x (reduceCol p1 p2 r (mode = "centered") x y).y =
      ⟨(reduceCol p1 p2 r (mode = "centered") x y).x, (reduceCol p1 p2 r (mode = "centered") x y).y,
        0, 0⟩ := by
    intro x y
    rw [reduceCol_eq p1 p2 r _ (reduceCol p1 p2 r (mode = "centered") x y).x, col_point]
    obtain ⟨i1, i2, i3⟩ := redPoint_idem hd (mode = "centered") (x, y)
    rw [i1, i2, i3, ← col_point]
  have hz : ∀ l : List Reduced, (∀ c ∈ l, ∃ x y, reduceCol p1 p2 r (mode = "centered") x y = c) →
      List.zipWith (reduceCol p1 p2 r (mode = "centered")) (l.map (·.x)) (l.map (·.y)) =
        l.map fun c => ⟨c.x, c.y, 0, 0⟩ := by
    intro l hall
    induction l with
    | nil => rfl
    | cons c l ih =>
      obtain ⟨x, y, rfl⟩ := hall c (List.mem_cons_self ..)
      simp only [List.map_cons, List.zipWith_cons_cons]
      rw [key, ih fun c hc => hall c (List.mem_cons_of_mem _ hc)]
  rw [hz _ fun c hc => by
    rw [← List.map_uncurry_zip_eq_zipWith] at hc
    obtain ⟨⟨x, y⟩, -, hc⟩ := List.mem_map.1 hc
    exact ⟨x, y, hc⟩]
  refine ⟨by simp, by simp, fun c hc => ?_⟩
  obtain ⟨c', -, rfl⟩ := List.mem_map.1 hc
  exact ⟨rfl, rfl⟩

/-- C48: vectors that differ by integer combinations of the periodicity vectors have the same reduced
vector. -/
theorem C48_invariant {p1 p2 : ℝ × ℝ} (h : Periods p1 p2) {xs ys xs' ys' : List ℝ}
    (hl : xs.length = ys.length) (hl' : xs'.length = ys'.length) (hn : xs'.length = xs.length)
    {mode : String} (hm : mode = "positive" ∨ mode = "centered")
    (hsame : ∀ (k : ℕ) x y x' y', xs[k]? = some x → ys[k]? = some y → xs'[k]? = some x' →
      ys'[k]? = some y' → SameClass p1 p2 (x, y) (x', y')) :
    ∃ rs rs', reduceVectors p1 p2 xs ys mode = .ok rs ∧ reduceVectors p1 p2 xs' ys' mode = .ok rs' ∧
      rs'.map (·.x) = rs.map (·.x) ∧ rs'.map (·.y) = rs.map (·.y) := by
  obtain ⟨r, hr, hd⟩ := projRows_ok h
  refine ⟨_, _, reduceVectors_ok hr xs ys hl hm, reduceVectors_ok hr xs' ys' hl' hm, ?_⟩
  have key : ∀ k : ℕ, ((List.zipWith (reduceCol p1 p2 r (mode = "centered")) xs' ys')[k]?).map
        (fun c : Reduced => (c.x, c.y)) =
      ((List.zipWith (reduceCol p1 p2 r (mode = "centered")) xs ys)[k]?).map
        fun c : Reduced => (c.x, c.y) := by
    intro k
    by_cases hk : k < xs.length
    · have h1 : xs[k]? = some xs[k] := List.getElem?_eq_getElem hk
      have h2 : ys[k]? = some ys[k] := List.getElem?_eq_getElem (hl ▸ hk)
      have h3 : xs'[k]? = some (xs'[k]'(hn ▸ hk)) := List.getElem?_eq_getElem (hn ▸ hk)
      have h4 : ys'[k]? = some (ys'[k]'(by omega)) := List.getElem?_eq_getElem (by omega)
      rw [get_zip _ _ _ _ _ _ h1 h2, get_zip _ _ _ _ _ _ h3 h4]
      simp only [Option.map_some, col_point]
      rw [redPoint_shift h hd _ _ _ (hsame k _ _ _ _ h1 h2 h3 h4)]
    · rw [List.getElem?_eq_none (by simp; omega), List.getElem?_eq_none (by simp; omega)]
  have hx : ∀ l l' : List Reduced, (∀ k : ℕ, (l'[k]?).map (fun c => (c.x, c.y)) =
      (l[k]?).map fun c => (c.x, c.y)) → l'.map (·.x) = l.map (·.x) ∧ l'.map (·.y) = l.map (·.y) := by
    intro l l' hk
    have : l'.map (fun c => (c.x, c.y)) = l.map fun c => (c.x, c.y) := by
      apply List.ext_getElem?
      intro k
      rw [List.getElem?_map, List.getElem?_map]
      exact hk k
    constructor
    · have := congrArg (List.map Prod.fst) this
      rw [List.map_map, List.map_map] at this
      exact this
    · have := congrArg (List.map Prod.snd) this
      rw [List.map_map, List.map_map] at this
      exact this
  exact hx _ _ key

/-- C48: a zero periodicity vector is not used, and the other one reduces the coordinate along it. -/
theorem C48_one_period {p : ℝ × ℝ} (h : NonNegligible p) {xs ys : List ℝ}
    (hl : xs.length = ys.length) {mode : String} {lo : ℝ}
    (hm : (mode = "positive" ∧ lo = 0) ∨ (mode = "centered" ∧ lo = -(1 / 2))) :
    (∃ rs, reduceVectors p 0 xs ys mode = .ok rs ∧ rs.length = xs.length ∧
      ∀ c ∈ rs, c.n2 = 0 ∧ lo - 1 / 2 / 10 ^ 14 ≤ inner2 (c.x, c.y) p / inner2 p p ∧
        inner2 (c.x, c.y) p / inner2 p p ≤ lo + 1 - 1 / 2 / 10 ^ 14) ∧
    (∃ rs, reduceVectors 0 p xs ys mode = .ok rs ∧ rs.length = xs.length ∧
      ∀ c ∈ rs, c.n1 = 0 ∧ lo - 1 / 2 / 10 ^ 14 ≤ inner2 (c.x, c.y) p / inner2 p p ∧
        inner2 (c.x, c.y) p / inner2 p p ≤ lo + 1 - 1 / 2 / 10 ^ 14) := by
  have hlo : lo = cellLow (mode = "centered") := by
    rcases hm with ⟨rfl, rfl⟩ | ⟨rfl, rfl⟩ <;> simp [cellLow]
  have hm' : mode = "positive" ∨ mode = "centered" := by rcases hm with h | h <;> simp [h.1]
  have hmem : ∀ (p1 p2 : ℝ × ℝ) r c, c ∈ List.zipWith (reduceCol p1 p2 r (mode = "centered")) xs ys →
      ∃ x y, reduceCol p1 p2 r (mode = "centered") x y = c := by
    intro p1 p2 r c hc
    rw [← List.map_uncurry_zip_eq_zipWith] at hc
    obtain ⟨⟨x, y⟩, -, hc⟩ := List.mem_map.1 hc
    exact ⟨x, y, hc⟩
  have hne : inner2 p p ≠ 0 := h.sq_ne
  have hproj : ∀ (v : ℝ × ℝ) (n : ℤ), inner2 (v - n • p) p / inner2 p p =
      dot2 (p.1 / len2 p ^ 2, p.2 / len2 p ^ 2) v - n := by
    intro v n
    rw [len2_sq, div_eq_iff hne]
    have e : dot2 (p.1 / (p.1 * p.1 + p.2 * p.2), p.2 / (p.1 * p.1 + p.2 * p.2)) v =
        inner2 v p / inner2 p p := by
      simp only [dot2, inner2]
      ring
    rw [e, sub_mul, div_mul_cancel₀ _ hne]
    simp only [inner2, Prod.fst_sub, Prod.snd_sub, Prod.smul_fst, Prod.smul_snd]
    simp only [zsmul_eq_mul]
    ring
  refine ⟨⟨_, reduceVectors_ok (projRows_first h not_nonNegligible_zero) xs ys hl hm', by simp [hl],
    fun c hc => ?_⟩, ⟨_, reduceVectors_ok (projRows_second not_nonNegligible_zero h) xs ys hl hm',
    by simp [hl], fun c hc => ?_⟩⟩
  · obtain ⟨x, y, rfl⟩ := hmem _ _ _ c hc
    rw [col_point]
    refine ⟨by rw [reduceCol_eq]; exact idx2_zero _ _ rfl, ?_⟩
    have : redPoint p 0 ((p.1 / len2 p ^ 2, p.2 / len2 p ^ 2), (0, 0)) (mode = "centered") (x, y) =
        (x, y) - (cellIndex (mode = "centered")
          (dot2 (p.1 / len2 p ^ 2, p.2 / len2 p ^ 2) (x, y))) • p := by
      unfold redPoint
      rw [smul_zero, sub_zero]
      rfl
    rw [this, hproj, hlo]
    exact cellIndex_window _ _
  · obtain ⟨x, y, rfl⟩ := hmem _ _ _ c hc
    rw [col_point]
    refine ⟨by rw [reduceCol_eq]; exact idx1_zero _ _ rfl, ?_⟩
    have : redPoint 0 p ((0, 0), (p.1 / len2 p ^ 2, p.2 / len2 p ^ 2)) (mode = "centered") (x, y) =
        (x, y) - (cellIndex (mode = "centered")
          (dot2 (p.1 / len2 p ^ 2, p.2 / len2 p ^ 2) (x, y))) • p := by
      unfold redPoint
      rw [smul_zero, sub_zero]
      rfl
    rw [this, hproj, hlo]
    exact cellIndex_window _ _

/-- C48: without periodicity vectors nothing is reduced. -/
theorem C48_no_period {xs ys : List ℝ} (hl : xs.length = ys.length) {mode : String}
    (hm : mode = "positive" ∨ mode = "centered") :
    ∃ rs, reduceVectors 0 0 xs ys mode = .ok rs ∧ rs.map (·.x) = xs ∧ rs.map (·.y) = ys := by
  refine ⟨_, reduceVectors_ok (projRows_none not_nonNegligible_zero not_nonNegligible_zero) xs ys hl hm,
    ?_⟩
  have h0 : ∀ x y, reduceCol 0 0 ((0, 0), (0, 0)) (mode = "centered") x y = ⟨x, y, 0, 0⟩ := by
    intro x y
    rw [reduceCol_eq]
    have h1 := idx1_zero (r := ((0, 0), (0, 0))) (mode = "centered") (x, y) rfl
    have h2 := idx2_zero (r := ((0, 0), (0, 0))) (mode = "centered") (x, y) rfl
    simp [redPoint, h1, h2]
  induction xs generalizing ys with
  | nil => cases ys <;> simp at hl ⊢
  | cons x xs ih =>
    cases ys with
    | nil => simp at hl
    | cons y ys =>
      have := ih (ys := ys) (by simpa using hl)
      simp only [List.zipWith_cons_cons, List.map_cons]
      rw [h0]
      exact ⟨by rw [this.1], by rw [this.2]⟩

/-- C48: any other mode is rejected. -/
theorem C48_mode {p1 p2 : ℝ × ℝ} {xs ys : List ℝ} {mode : String}
    (hm : mode ≠ "positive" ∧ mode ≠ "centered") :
    reduceVectors p1 p2 xs ys mode = .error .value := by
  unfold reduceVectors
  by_cases hl : xs.length = ys.length
  · rw [if_neg (by simpa using hl), if_pos hm]
    rfl
  · rw [if_pos hl]
    rfl

/-- The bound of `C48_window` cannot be replaced by the exact interval: the coordinate `-1/4 10^-14` is
rounded to zero, so the vector is not changed. -/
theorem C48_exact_violated : ∃ c, reduceVectors (1, 0) (0, 1) [-(1 / 4 / 10 ^ 14)] [0] "positive" =
    .ok [c] ∧ ¬ InCellExact 0 (1, 0) (0, 1) (c.x, c.y) := by
  have h1 : NonNegligible (1, 0) := by unfold NonNegligible; norm_num
  have h2 : NonNegligible (0, 1) := by unfold NonNegligible; norm_num
  have h : Indep (1, 0) (0, 1) := by unfold Indep; norm_num
  have hz : npRound 14 (-(1 / 4 / 10 ^ 14) : ℝ) = 0 := by
    rw [npRound_eq_zero, abs_neg, abs_of_pos (by positivity)]
    norm_num
  have hc : reduceCol (1, 0) (0, 1) ((1, 0), (0, 1)) false (-(1 / 4 / 10 ^ 14)) 0 =
      ⟨-(1 / 4 / 10 ^ 14), 0, 0, 0⟩ := by
    simp only [reduceCol, dot2, cellIndex_positive, one_mul, zero_mul, add_zero, zero_add, hz,
      npRound_zero, Int.floor_zero, Int.cast_zero, mul_zero, sub_zero]
  have hr : projRows (1, 0) (0, 1) = .ok ((1, 0), (0, 1)) := by
    rw [projRows_indep h1 h2 h]
    norm_num [det2]
  have hv := reduceVectors_ok hr [-(1 / 4 / 10 ^ 14)] [0] rfl (mode := "positive") (Or.inl rfl)
  rw [show decide ("positive" = "centered") = false by decide, List.zipWith_cons_cons, hc,
    List.zipWith_nil_left] at hv
  refine ⟨_, hv, ?_⟩
  rintro ⟨s, t, hst, hs, -⟩
  have := congrArg Prod.fst hst
  simp only [Prod.fst_add, Prod.smul_fst, smul_eq_mul, mul_zero, mul_one, add_zero] at this
  rw [← this] at hs
  norm_num at hs

/-! ## Reciprocal vectors -/

/-- C49: for independent vectors the reciprocal vectors are the dual basis. -/
theorem C49_dual {v1 v2 : ℝ × ℝ} (h : Indep v1 v2) : ∃ b1 b2, getReciprocalVects v1 v2 = .ok (b1, b2) ∧
    inner2 v1 b1 = 1 ∧ inner2 v1 b2 = 0 ∧ inner2 v2 b1 = 0 ∧ inner2 v2 b2 = 1 := by
  have hd := det2_ne h
  have n1 : v1 ≠ (0, 0) := by
    rintro rfl
    exact h (by simp)
  have n2 : v2 ≠ (0, 0) := by
    rintro rfl
    exact h (by simp)
  refine ⟨(v2.2 / det2 v1 v2, -v2.1 / det2 v1 v2), (-v1.2 / det2 v1 v2, v1.1 / det2 v1 v2), ?_,
    ?_, ?_, ?_, ?_⟩
  · unfold getReciprocalVects
    rw [if_pos ⟨n1, n2⟩]
    simp only
    rw [if_neg hd]
  all_goals
    unfold inner2
    simp only
    field_simp
    try unfold det2
    try ring

/-- C49: if one vector is zero, its reciprocal vector is zero and the other one is the multiple of the
remaining vector with scalar product one. -/
theorem C49_one_zero {v : ℝ × ℝ} (hv : v ≠ 0) :
    (∃ b, getReciprocalVects 0 v = .ok (0, b) ∧ inner2 v b = 1 ∧ ∃ a : ℝ, b = a • v) ∧
    (∃ b, getReciprocalVects v 0 = .ok (b, 0) ∧ inner2 v b = 1 ∧ ∃ a : ℝ, b = a • v) := by
  have hsq : v.1 * v.1 + v.2 * v.2 ≠ 0 := by
    intro h0
    apply hv
    have h1 : v.1 = 0 := by nlinarith [mul_self_nonneg v.1, mul_self_nonneg v.2]
    have h2 : v.2 = 0 := by nlinarith [mul_self_nonneg v.1, mul_self_nonneg v.2]
    exact Prod.ext h1 h2
  have hb : inner2 v (v.1 / len2 v ^ 2, v.2 / len2 v ^ 2) = 1 := by
    unfold inner2
    rw [len2_sq, mul_div_assoc', mul_div_assoc', ← add_div, div_self hsq]
  have ha : ((v.1 / len2 v ^ 2, v.2 / len2 v ^ 2) : ℝ × ℝ) = (1 / len2 v ^ 2) • v := by
    ext <;> simp [div_eq_inv_mul]
  have hv' : v ≠ (0, 0) := hv
  refine ⟨⟨_, ?_, hb, _, ha⟩, ⟨_, ?_, hb, _, ha⟩⟩
  · unfold getReciprocalVects
    rw [if_neg (by rintro ⟨h, -⟩; exact h rfl), if_pos ⟨rfl, hv'⟩]
    rfl
  · unfold getReciprocalVects
    rw [if_neg (by rintro ⟨-, h⟩; exact h rfl), if_neg (by rintro ⟨h, -⟩; exact hv' h),
      if_pos ⟨hv', rfl⟩]
    rfl

/-- C49: two zero vectors have zero reciprocal vectors. -/
theorem C49_both_zero : getReciprocalVects 0 0 = .ok (0, 0) := by
  unfold getReciprocalVects
  rw [if_neg (by rintro ⟨h, -⟩; exact h rfl), if_neg (by rintro ⟨-, h⟩; exact h rfl),
    if_neg (by rintro ⟨h, -⟩; exact h rfl)]
  rfl

/-- C49: dependent non-zero vectors are rejected. -/
theorem C49_dependent {v1 v2 : ℝ × ℝ} (h1 : v1 ≠ 0) (h2 : v2 ≠ 0) (h : ¬ Indep v1 v2) :
    getReciprocalVects v1 v2 = .error .value := by
  have hd : det2 v1 v2 = 0 := sub_eq_zero.2 (not_not.1 h)
  unfold getReciprocalVects
  rw [if_pos ⟨h1, h2⟩]
  simp only
  rw [if_pos hd]

/-! ## Examples -/

/-- The period vectors of the tilted square with ten sites. -/
private theorem tilted : Indep (3, 1) (-1, 3) ∧ NonNegligible (3, 1) ∧ NonNegligible (-1, 3) := by
  have : (1 : ℝ) / 2 / 10 ^ 14 < Real.sqrt 10 := by
    have : (3 : ℝ) < Real.sqrt 10 := by
      rw [Real.lt_sqrt (by norm_num)]
      norm_num
    linarith [show (1 : ℝ) / 2 / 10 ^ 14 < 3 by norm_num]
  refine ⟨by unfold Indep; norm_num, ?_, ?_⟩
  · unfold NonNegligible
    rwa [show ((3 : ℝ)) ^ 2 + 1 ^ 2 = 10 by norm_num]
  · unfold NonNegligible
    rwa [show ((-1 : ℝ)) ^ 2 + 3 ^ 2 = 10 by norm_num]

example : ∃ rs, reduceVectors (3, 1) (-1, 3) [7, -2] [5, 4] "centered" = .ok rs ∧ rs.length = 2 ∧
    ∀ c ∈ rs, InCell (-(1 / 2)) (3, 1) (-1, 3) (c.x, c.y) :=
  C48_window (xs := [7, -2]) (ys := [5, 4]) tilted.2.1 tilted.2.2 tilted.1 rfl (Or.inr ⟨rfl, rfl⟩)

example : Periods (3, 1) (-1, 3) :=
  ⟨Or.inr tilted.2.1, Or.inr tilted.2.2, fun _ _ => tilted.1⟩

example : Periods (3, 1) 0 := ⟨Or.inr tilted.2.1, Or.inl rfl, fun _ h => absurd rfl h⟩

example : ∃ c, reduceVectors (3, 1) (-1, 3) [((7 : ℝ), (5 : ℝ)).1] [((7 : ℝ), (5 : ℝ)).2] "positive" =
    .ok [c] ∧ InCellExact 0 (3, 1) (-1, 3) (c.x, c.y) :=
  C48_window_exact tilted.2.1 tilted.2.2 tilted.1 260000000000000 80000000000000 (Or.inl ⟨rfl, rfl⟩) (7, 5) (by
    ext <;> simp <;> norm_num)

example : SameClass (3, 1) (-1, 3) (0, 0) (2, 4) := ⟨1, 1, by ext <;> norm_num⟩

example : ∃ b1 b2, getReciprocalVects (3, 1) (-1, 3) = .ok (b1, b2) ∧ inner2 (3, 1) b1 = 1 := by
  obtain ⟨b1, b2, h, h1, -⟩ := C49_dual tilted.1
  exact ⟨b1, b2, h, h1⟩

example : getReciprocalVects (1, 2) (2, 4) = .error .value :=
  C49_dependent (by simp) (by simp) (by unfold Indep; norm_num)

end ED.Props
