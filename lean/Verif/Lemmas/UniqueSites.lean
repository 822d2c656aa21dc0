import Verif.Lemmas.Reduce
import Verif.Spec.LatticeCell

/-! # The sites of a lattice cell -/

namespace ED

open Classical

theorem mem_uniqueCols (l : List (ℝ × ℝ)) (p : ℝ × ℝ) : p ∈ Lattice.uniqueCols l ↔ p ∈ l := by
  unfold Lattice.uniqueCols
  rw [List.mem_insertionSort, List.mem_dedup]

theorem nodup_uniqueCols (l : List (ℝ × ℝ)) : (Lattice.uniqueCols l).Nodup := by
  unfold Lattice.uniqueCols
  exact (List.perm_insertionSort _ _).nodup_iff.2 (List.nodup_dedup l)

instance : IsTotal (ℝ × ℝ) Lattice.colLE := ⟨fun p q => by
  unfold Lattice.colLE
  rcases lt_trichotomy p.1 q.1 with h | h | h
  · exact Or.inl (Or.inl h)
  · rcases le_total p.2 q.2 with h' | h'
    · exact Or.inl (Or.inr ⟨h, h'⟩)
    · exact Or.inr (Or.inr ⟨h.symm, h'⟩)
  · exact Or.inr (Or.inl h)⟩

instance : IsTrans (ℝ × ℝ) Lattice.colLE := ⟨fun p q r => by
  unfold Lattice.colLE
  rintro (h | ⟨h, h'⟩) (k | ⟨k, k'⟩)
  · exact Or.inl (h.trans k)
  · exact Or.inl (k ▸ h)
  · exact Or.inl (h ▸ k)
  · exact Or.inr ⟨h.trans k, h'.trans k'⟩⟩

theorem sorted_uniqueCols (l : List (ℝ × ℝ)) : (Lattice.uniqueCols l).Pairwise Lattice.colLE := by
  unfold Lattice.uniqueCols
  exact List.pairwise_insertionSort _ _

/-- The integers tried as multiples of a lattice vector. -/
theorem mem_multiples (a b k : ℤ) (h1 : min 0 a + min 0 b ≤ k) (h2 : k < max 0 a + max 0 b) :
    k ∈ Lattice.multiples a b := by
  unfold Lattice.multiples
  have hlo : min (min 0 a) (min b (a + b)) = min 0 a + min 0 b := by omega
  have hhi : max (max 0 a) (max b (a + b)) = max 0 a + max 0 b := by omega
  simp only [hlo, hhi]
  rw [if_neg (by omega), List.mem_map]
  exact ⟨(k - (min 0 a + min 0 b)).toNat, List.mem_range.2 (by omega), by omega⟩

/-- Every class of integer pairs modulo `(n, m)` and `(i, j)` has a representative among the pairs that
the library tries. -/
theorem exists_rep (n m i j a b : ℤ) (hD : n * j - m * i ≠ 0) : ∃ u w : ℤ,
    a - u * n - w * i ∈ Lattice.multiples n i ∧ b - u * m - w * j ∈ Lattice.multiples m j := by
  have hDq : ((n : ℚ) * j - m * i) ≠ 0 := by exact_mod_cast hD
  -- coordinates of the centre of the square with lower corner `(a, b)`
  set s : ℚ := (((a : ℚ) + 1 / 2) * j - (b + 1 / 2) * i) / (n * j - m * i) with hs
  set t : ℚ := (-((a : ℚ) + 1 / 2) * m + (b + 1 / 2) * n) / (n * j - m * i) with ht
  have ea : (a : ℚ) + 1 / 2 = s * n + t * i := by
    rw [hs, ht, div_mul_eq_mul_div, div_mul_eq_mul_div, ← add_div, eq_div_iff hDq]
    ring
  have eb : (b : ℚ) + 1 / 2 = s * m + t * j := by
    rw [hs, ht, div_mul_eq_mul_div, div_mul_eq_mul_div, ← add_div, eq_div_iff hDq]
    ring
  have s0 := Int.floor_le s
  have s1 := Int.lt_floor_add_one s
  have t0 := Int.floor_le t
  have t1 := Int.lt_floor_add_one t
  have bound : ∀ (x : ℚ) (k : ℤ), 0 ≤ x → x < 1 → ((min 0 k : ℤ) : ℚ) ≤ x * k ∧
      x * k ≤ ((max 0 k : ℤ) : ℚ) := by
    intro x k h0 h1
    rcases le_total 0 k with hk | hk
    · have hk' : (0 : ℚ) ≤ k := by exact_mod_cast hk
      rw [min_eq_left hk, max_eq_right hk]
      exact ⟨by simpa using mul_nonneg h0 hk', by nlinarith⟩
    · have hk' : (k : ℚ) ≤ 0 := by exact_mod_cast hk
      rw [min_eq_right hk, max_eq_left hk]
      exact ⟨by nlinarith, by simpa using mul_nonpos_of_nonneg_of_nonpos h0 hk'⟩
  have key : ∀ (c p q : ℤ), (c : ℚ) + 1 / 2 = s * p + t * q →
      c - ⌊s⌋ * p - ⌊t⌋ * q ∈ Lattice.multiples p q := by
    intro c p q h
    obtain ⟨b1, b2⟩ := bound (s - ⌊s⌋) p (by linarith) (by linarith)
    obtain ⟨b3, b4⟩ := bound (t - ⌊t⌋) q (by linarith) (by linarith)
    have e : ((c - ⌊s⌋ * p - ⌊t⌋ * q : ℤ) : ℚ) + 1 / 2 = (s - ⌊s⌋) * p + (t - ⌊t⌋) * q := by
      push_cast
      linear_combination h
    apply mem_multiples
    · have : ((min 0 p + min 0 q : ℤ) : ℚ) < ((c - ⌊s⌋ * p - ⌊t⌋ * q + 1 : ℤ) : ℚ) := by
        rw [Int.cast_add, Int.cast_add (c - ⌊s⌋ * p - ⌊t⌋ * q), Int.cast_one]
        linarith
      have := Int.cast_lt.1 this
      omega
    · have : ((c - ⌊s⌋ * p - ⌊t⌋ * q : ℤ) : ℚ) < ((max 0 p + max 0 q : ℤ) : ℚ) := by
        rw [Int.cast_add (max 0 p)]
        linarith
      exact Int.cast_lt.1 this
  exact ⟨⌊s⌋, ⌊t⌋, key a n i ea, key b m j eb⟩

theorem zsmul_pair (a : ℤ) (v : ℝ × ℝ) : a • v = ((a : ℝ) * v.1, (a : ℝ) * v.2) := by
  ext
  · rw [Prod.smul_fst, zsmul_eq_mul]
  · rw [Prod.smul_snd, zsmul_eq_mul]

namespace LatticePeriods

variable {L : Lattice} {n m i j : ℤ}

theorem per_indep (h : LatticePeriods L n m i j) : Indep L.per1 L.per2 := by
  unfold Indep
  rw [h.per1, h.per2]
  simp only [zsmul_pair, Prod.mk_add_mk]
  have e : ((n : ℝ) * L.latt1.1 + m * L.latt2.1) * (i * L.latt1.2 + j * L.latt2.2) -
      ((n : ℝ) * L.latt1.2 + m * L.latt2.2) * (i * L.latt1.1 + j * L.latt2.1) =
      ((n : ℝ) * j - m * i) * (L.latt1.1 * L.latt2.2 - L.latt1.2 * L.latt2.1) := by ring
  have h1 : ((n : ℝ) * j - m * i) ≠ 0 := by exact_mod_cast h.det
  have h2 := mul_ne_zero h1 (sub_ne_zero.2 h.indep)
  rw [← e] at h2
  exact sub_ne_zero.1 h2

theorem periods (h : LatticePeriods L n m i j) : Periods L.per1 L.per2 :=
  ⟨Or.inr h.nonneg1, Or.inr h.nonneg2, fun _ _ => h.per_indep⟩

theorem coords (h : LatticePeriods L n m i j) (a b : ℤ) (p : ℝ × ℝ)
    (hp : p = a • L.latt1 + b • L.latt2) : ∃ c : Reduced,
      reduceVectors L.latt1 L.latt2 [p.1] [p.2] "positive" = .ok [c] ∧ c.n1 = a ∧ c.n2 = b := by
  obtain ⟨d1, d2, d3, d4⟩ := dual_indep h.indep
  have lin : ∀ r : ℝ × ℝ, dot2 r p = a * dot2 r L.latt1 + b * dot2 r L.latt2 := by
    intro r
    rw [hp]
    simp only [dot2, zsmul_pair, Prod.mk_add_mk]
    ring
  refine ⟨_, reduceVectors_ok (projRows_indep h.latt1 h.latt2 h.indep) [p.1] [p.2] rfl
    (Or.inl rfl), ?_, ?_⟩
  · rw [reduceCol_eq]
    simp only [idx1]
    rw [Prod.mk.eta, lin, d1, d2, mul_one, mul_zero, add_zero, cellIndex_int]
  · rw [reduceCol_eq]
    simp only [idx2]
    rw [Prod.mk.eta, lin, d3, d4, mul_one, mul_zero, zero_add, cellIndex_int]

/-- The rows for the periodicity vectors. -/
noncomputable def rows (L : Lattice) : (ℝ × ℝ) × (ℝ × ℝ) :=
  ((L.per2.2 / det2 L.per1 L.per2, -L.per2.1 / det2 L.per1 L.per2),
    (-L.per1.2 / det2 L.per1 L.per2, L.per1.1 / det2 L.per1 L.per2))

/-- The representative of a point in the cell. -/
noncomputable def rep (L : Lattice) (v : ℝ × ℝ) : ℝ × ℝ := redPoint L.per1 L.per2 (rows L) false v

theorem dualRows (h : LatticePeriods L n m i j) : DualRows L.per1 L.per2 (rows L) := by
  obtain ⟨a, b, c, d⟩ := dual_indep h.per_indep
  exact ⟨Or.inr ⟨a, Or.inl b⟩, Or.inr ⟨d, Or.inl c⟩⟩

theorem rep_same (h : LatticePeriods L n m i j) (v w : ℝ × ℝ) (hs : SameClass L.per1 L.per2 v w) :
    rep L w = rep L v :=
  redPoint_shift h.periods h.dualRows false v w hs

theorem same_rep (L : Lattice) (v : ℝ × ℝ) : SameClass L.per1 L.per2 v (rep L v) :=
  ⟨-idx1 (rows L) false v, -idx2 (rows L) false v, by
    rw [neg_smul, neg_smul]
    unfold rep redPoint
    abel⟩

theorem reduce_point (h : LatticePeriods L n m i j) (v : ℝ × ℝ) : ∃ c : Reduced,
    reduceVectors L.per1 L.per2 [v.1] [v.2] "positive" = .ok [c] ∧ (c.x, c.y) = rep L v := by
  refine ⟨_, reduceVectors_ok (projRows_indep h.nonneg1 h.nonneg2 h.per_indep) [v.1] [v.2] rfl
    (Or.inl rfl), ?_⟩
  rw [reduceCol_eq]
  rfl

/-- The sites of the cell are the rounded representatives of the lattice points. -/
theorem uniqueSites_ok (h : LatticePeriods L n m i j) : ∃ sites, L.uniqueSites = .ok sites ∧
    sites.Nodup ∧ sites.Pairwise Lattice.colLE ∧
    ∀ p, p ∈ sites ↔ ∃ a b : ℤ, ∃ v ∈ L.basis,
      p = (npRound 14 (rep L (a • L.latt1 + b • L.latt2 + v)).1,
        npRound 14 (rep L (a • L.latt1 + b • L.latt2 + v)).2) := by
  obtain ⟨c1, r1, n1, m1⟩ := h.coords n m _ h.per1
  obtain ⟨c2, r2, n2, m2⟩ := h.coords i j _ h.per2
  set vects : List (ℝ × ℝ) := L.cellVects (Lattice.multiples n i) (Lattice.multiples m j) with hv
  have hpt : ∀ (a b : ℤ) (v : ℝ × ℝ), (((a : ℝ) * L.latt1.1 + (b : ℝ) * L.latt2.1 + v.1,
      (a : ℝ) * L.latt1.2 + (b : ℝ) * L.latt2.2 + v.2) : ℝ × ℝ) = a • L.latt1 + b • L.latt2 + v := by
    intro a b v
    simp only [zsmul_pair]
    rfl
  have hmem : ∀ p, p ∈ vects ↔ ∃ b ∈ Lattice.multiples m j, ∃ a ∈ Lattice.multiples n i, ∃ v ∈ L.basis,
      a • L.latt1 + b • L.latt2 + v = p := by
    intro p
    rw [hv]
    unfold Lattice.cellVects
    simp only [List.mem_flatMap, List.mem_map, hpt]
  have hred := reduceVectors_ok (projRows_indep h.nonneg1 h.nonneg2 h.per_indep) (vects.map Prod.fst)
    (vects.map Prod.snd) (by simp) (mode := "positive") (Or.inl rfl)
  have hzip : List.zipWith (reduceCol L.per1 L.per2 (rows L) (decide ("positive" = "centered")))
      (vects.map Prod.fst) (vects.map Prod.snd) =
      vects.map fun p => reduceCol L.per1 L.per2 (rows L) false p.1 p.2 := by
    rw [List.zipWith_map, List.zipWith_self]
    rfl
  refine ⟨Lattice.uniqueCols ((vects.map fun p => reduceCol L.per1 L.per2 (rows L) false p.1 p.2).map
    fun c => (npRound 14 c.x, npRound 14 c.y)), ?_, nodup_uniqueCols _, sorted_uniqueCols _, ?_⟩
  · unfold Lattice.uniqueSites
    rw [r1]
    change (do
      let r2 ← reduceVectors L.latt1 L.latt2 [L.per2.1] [L.per2.2] "positive"
      _) = _
    rw [r2]
    change (do
      let red ← reduceVectors L.per1 L.per2
        ((L.cellVects (Lattice.multiples c1.n1 c2.n1) (Lattice.multiples c1.n2 c2.n2)).map Prod.fst)
        ((L.cellVects (Lattice.multiples c1.n1 c2.n1) (Lattice.multiples c1.n2 c2.n2)).map Prod.snd)
        "positive"
      pure (Lattice.uniqueCols (red.map fun c : Reduced => (npRound 14 c.x, npRound 14 c.y)))) = _
    rw [n1, n2, m1, m2, ← hv, hred]
    change Except.ok (Lattice.uniqueCols (List.map _ (List.zipWith (reduceCol L.per1 L.per2 (rows L)
      (decide ("positive" = "centered"))) (vects.map Prod.fst) (vects.map Prod.snd)))) = _
    rw [hzip]
  · intro p
    rw [mem_uniqueCols, List.map_map, List.mem_map]
    have hround : ∀ q : ℝ × ℝ, (((fun c : Reduced => (npRound 14 c.x, npRound 14 c.y)) ∘
        fun p : ℝ × ℝ => reduceCol L.per1 L.per2 (rows L) false p.1 p.2) q) =
        (npRound 14 (rep L q).1, npRound 14 (rep L q).2) := by
      intro q
      simp only [Function.comp, reduceCol_eq]
      rfl
    constructor
    · rintro ⟨q, hq, rfl⟩
      obtain ⟨b, -, a, -, v, hvb, rfl⟩ := (hmem q).1 hq
      exact ⟨a, b, v, hvb, hround _⟩
    · rintro ⟨a, b, v, hvb, rfl⟩
      obtain ⟨u, w, hu, hw⟩ := exists_rep n m i j a b h.det
      refine ⟨_, (hmem _).2 ⟨_, hw, _, hu, v, hvb, rfl⟩, ?_⟩
      rw [hround]
      have : rep L ((a - u * n - w * i) • L.latt1 + (b - u * m - w * j) • L.latt2 + v) =
          rep L (a • L.latt1 + b • L.latt2 + v) := by
        apply h.rep_same
        refine ⟨-u, -w, ?_⟩
        rw [h.per1, h.per2]
        simp only [sub_smul, neg_smul, smul_add, mul_smul]
        abel
      rw [this]

end LatticePeriods

end ED
