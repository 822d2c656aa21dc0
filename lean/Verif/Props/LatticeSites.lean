import Verif.Lemmas.UniqueSites
import Mathlib.LinearAlgebra.FreeModule.Finite.CardQuotient
import Mathlib.LinearAlgebra.Matrix.ToLinearEquiv
import Mathlib.LinearAlgebra.Matrix.Determinant.Basic
import Mathlib.LinearAlgebra.Matrix.Notation

/-!
# The sites of a lattice cell (C50)
-/

namespace ED.Props

open ED LatticePeriods

variable {L : Lattice} {n m i j : ℤ}

/-- C50 for any lattice: the sites are, without repetition, the reduced lattice points with coordinates
rounded to 14 decimals (C48 describes the reduction). -/
theorem C50_sites (h : LatticePeriods L n m i j) : ∃ sites, L.uniqueSites = .ok sites ∧ sites.Nodup ∧
    ∀ p, p ∈ sites ↔ ∃ a b : ℤ, ∃ v ∈ L.basis, ∃ c : Reduced,
      reduceVectors L.per1 L.per2 [(a • L.latt1 + b • L.latt2 + v).1] [(a • L.latt1 + b • L.latt2 + v).2]
        "positive" = .ok [c] ∧ p = (npRound 14 c.x, npRound 14 c.y) := by
  obtain ⟨sites, hs, hn, -, hm⟩ := h.uniqueSites_ok
  refine ⟨sites, hs, hn, fun p => ?_⟩
  rw [hm]
  constructor
  · rintro ⟨a, b, v, hv, rfl⟩
    obtain ⟨c, hc, hr⟩ := h.reduce_point (a • L.latt1 + b • L.latt2 + v)
    exact ⟨a, b, v, hv, c, hc, by rw [← hr]⟩
  · rintro ⟨a, b, v, hv, c, hc, rfl⟩
    obtain ⟨c', hc', hr⟩ := h.reduce_point (a • L.latt1 + b • L.latt2 + v)
    rw [hc] at hc'
    cases hc'
    exact ⟨a, b, v, hv, by rw [← hr]⟩

/-- The representative of a lattice point is a lattice point. -/
private theorem rep_lattice (h : LatticePeriods L n m i j) (a b : ℤ) (v : ℝ × ℝ) : ∃ a' b' : ℤ,
    rep L (a • L.latt1 + b • L.latt2 + v) = a' • L.latt1 + b' • L.latt2 + v := by
  obtain ⟨u, w, e⟩ := same_rep L (a • L.latt1 + b • L.latt2 + v)
  refine ⟨a + u * n + w * i, b + u * m + w * j, ?_⟩
  rw [e, h.per1, h.per2]
  simp only [add_smul, smul_add, mul_smul]
  abel

private theorem integral_round {p : ℝ × ℝ} (h : Integral p) : (npRound 14 p.1, npRound 14 p.2) = p := by
  obtain ⟨k, l, rfl⟩ := h
  simp only [npRound_int]

private theorem integral_comb {p q v : ℝ × ℝ} (hp : Integral p) (hq : Integral q) (hv : Integral v)
    (a b : ℤ) : Integral (a • p + b • q + v) := by
  obtain ⟨k, l, rfl⟩ := hp
  obtain ⟨k', l', rfl⟩ := hq
  obtain ⟨x, y, rfl⟩ := hv
  refine ⟨a * k + b * k' + x, a * l + b * l' + y, ?_⟩
  rw [zsmul_pair, zsmul_pair]
  push_cast
  rfl

private theorem sameClass_trans {p1 p2 u v w : ℝ × ℝ} (h1 : SameClass p1 p2 u v)
    (h2 : SameClass p1 p2 v w) : SameClass p1 p2 u w := by
  obtain ⟨a, b, rfl⟩ := h1
  obtain ⟨c, d, rfl⟩ := h2
  exact ⟨a + c, b + d, by rw [add_smul, add_smul]; abel⟩

private theorem rep_cell (h : LatticePeriods L n m i j) (v : ℝ × ℝ) :
    InCell 0 L.per1 L.per2 (rep L v) := by
  obtain ⟨a1, a2⟩ := cellIndex_window false (dot2 (rows L).1 v)
  obtain ⟨b1, b2⟩ := cellIndex_window false (dot2 (rows L).2 v)
  simp only [cellLow] at a1 a2 b1 b2
  refine ⟨_, _, ?_, a1, a2, b1, b2⟩
  have hdet := det2_ne h.per_indep
  have hd : v = dot2 (rows L).1 v • L.per1 + dot2 (rows L).2 v • L.per2 := by
    ext
    · simp only [rows, dot2, Prod.fst_add, Prod.smul_fst, smul_eq_mul]
      field_simp
      unfold det2
      ring
    · simp only [rows, dot2, Prod.snd_add, Prod.smul_snd, smul_eq_mul]
      field_simp
      unfold det2
      ring
  rw [sub_smul, sub_smul, Int.cast_smul_eq_zsmul, Int.cast_smul_eq_zsmul, sub_add_sub_comm, ← hd]
  unfold rep redPoint idx1 idx2
  abel

/-- C50 for lattices with integer coordinates: the sites are lattice points inside the cell, pairwise
inequivalent, and every lattice point is equivalent to one of them. -/
theorem C50_integer (h : LatticePeriods L n m i j) (h1 : Integral L.latt1) (h2 : Integral L.latt2)
    (hb : ∀ v ∈ L.basis, Integral v) : ∃ sites, L.uniqueSites = .ok sites ∧ sites.Nodup ∧
    (∀ p ∈ sites, InCell 0 L.per1 L.per2 p ∧
      ∃ a b : ℤ, ∃ v ∈ L.basis, p = a • L.latt1 + b • L.latt2 + v) ∧
    (∀ p ∈ sites, ∀ q ∈ sites, SameClass L.per1 L.per2 p q → p = q) ∧
    ∀ a b : ℤ, ∀ v ∈ L.basis, ∃ p ∈ sites, SameClass L.per1 L.per2 (a • L.latt1 + b • L.latt2 + v) p := by
  obtain ⟨sites, hs, hn, -, hm⟩ := h.uniqueSites_ok
  have hround : ∀ a b : ℤ, ∀ v ∈ L.basis, (npRound 14 (rep L (a • L.latt1 + b • L.latt2 + v)).1,
      npRound 14 (rep L (a • L.latt1 + b • L.latt2 + v)).2) = rep L (a • L.latt1 + b • L.latt2 + v) := by
    intro a b v hv
    obtain ⟨a', b', e⟩ := rep_lattice h a b v
    rw [e]
    exact integral_round (integral_comb h1 h2 (hb v hv) a' b')
  refine ⟨sites, hs, hn, fun p hp => ?_, fun p hp q hq hpq => ?_, fun a b v hv => ?_⟩
  · obtain ⟨a, b, v, hv, rfl⟩ := (hm p).1 hp
    rw [hround a b v hv]
    obtain ⟨a', b', e⟩ := rep_lattice h a b v
    exact ⟨rep_cell h _, a', b', v, hv, e⟩
  · obtain ⟨a, b, v, hv, rfl⟩ := (hm p).1 hp
    obtain ⟨a', b', v', hv', rfl⟩ := (hm q).1 hq
    rw [hround a b v hv, hround a' b' v' hv'] at *
    have e := h.rep_same _ _ hpq
    unfold rep at e
    rw [(redPoint_idem h.dualRows false _).2.2, (redPoint_idem h.dualRows false _).2.2] at e
    exact e.symm
  · refine ⟨_, (hm _).2 ⟨a, b, v, hv, rfl⟩, ?_⟩
    rw [hround a b v hv]
    exact same_rep L _

/-- C50: for integer coordinates and a cell of area at most `10 ^ 14` the rounding in the reduction has no
effect, and the coordinates of the sites lie exactly in `[0, 1)`. -/
theorem C50_exact_cell (h : LatticePeriods L n m i j) (h1 : Integral L.latt1) (h2 : Integral L.latt2)
    (hb : ∀ v ∈ L.basis, Integral v)
    (harea : |L.per1.1 * L.per2.2 - L.per1.2 * L.per2.1| ≤ 10 ^ 14) :
    ∃ sites, L.uniqueSites = .ok sites ∧ ∀ p ∈ sites, InCellExact 0 L.per1 L.per2 p := by
  obtain ⟨sites, hs, -, hc, -⟩ := C50_integer h h1 h2 hb
  refine ⟨sites, hs, fun p hp => ?_⟩
  obtain ⟨⟨s, t, e, s0, s1, t0, t1⟩, a, b, v, hv, hpv⟩ := hc p hp
  have hint : Integral p := hpv ▸ integral_comb h1 h2 (hb v hv) a b
  have hz : Integral (0 : ℝ × ℝ) := ⟨0, 0, by simp only [Int.cast_zero]; rfl⟩
  have hp1 : Integral L.per1 := by
    have := integral_comb h1 h2 hz n m
    rwa [add_zero, ← h.per1] at this
  have hp2 : Integral L.per2 := by
    have := integral_comb h1 h2 hz i j
    rwa [add_zero, ← h.per2] at this
  obtain ⟨x, y, hxy⟩ := hint
  obtain ⟨k1, l1, hk⟩ := hp1
  obtain ⟨k2, l2, hl⟩ := hp2
  have hD := h.per_indep
  unfold Indep at hD
  rw [hk, hl] at harea hD e
  rw [hxy] at e
  have e1 := congrArg Prod.fst e
  have e2 := congrArg Prod.snd e
  simp only [Prod.fst_add, Prod.snd_add, Prod.smul_fst, Prod.smul_snd, smul_eq_mul] at e1 e2 harea hD
  -- a coordinate that is not negative up to rounding is not negative
  have key : ∀ (r : ℝ) (k : ℤ), r * ((k1 : ℝ) * l2 - l1 * k2) = k → 0 - 1 / 2 / 10 ^ 14 ≤ r → 0 ≤ r := by
    intro r k hk hr
    by_contra hneg
    have hneg' : r < 0 := not_le.1 hneg
    have hd0 : ((k1 : ℝ) * l2 - l1 * k2) ≠ 0 := sub_ne_zero.2 hD
    have hk0 : (k : ℝ) ≠ 0 := by
      rw [← hk]
      exact mul_ne_zero hneg'.ne hd0
    have hk1 : (1 : ℝ) ≤ |(k : ℝ)| := by
      rw [← Int.cast_abs]
      have : (1 : ℤ) ≤ |k| := Int.one_le_abs (by exact_mod_cast hk0)
      exact_mod_cast this
    rw [← hk, abs_mul, abs_of_neg hneg'] at hk1
    have h3 : -r * |(k1 : ℝ) * l2 - l1 * k2| ≤ 1 / 2 / 10 ^ 14 * 10 ^ 14 := by
      apply mul_le_mul _ harea (abs_nonneg _) (by positivity)
      linarith
    have h4 : (1 : ℝ) / 2 / 10 ^ 14 * 10 ^ 14 = 1 / 2 := by norm_num
    linarith
  have hpos : (0 : ℝ) < 1 / 2 / 10 ^ 14 := by positivity
  refine ⟨s, t, ?_, key s (x * l2 - y * k2) ?_ s0, by linarith, key t (y * k1 - x * l1) ?_ t0,
    by linarith⟩
  · rw [hxy, hk, hl]
    exact e
  · push_cast
    rw [e1, e2]
    ring
  · push_cast
    rw [e1, e2]
    ring

/-- C50: the number of sites is the determinant of the periodicity vectors in units of the lattice
vectors, times the number of sites per unit cell. -/
theorem C50_count (h : LatticePeriods L n m i j) (hr : Resolved L) (hb : L.basis.Nodup) :
    ∃ sites, L.uniqueSites = .ok sites ∧ sites.length = (n * j - m * i).natAbs * L.basis.length := by
  classical
  obtain ⟨sites, hs, hn, -, hm⟩ := h.uniqueSites_ok
  refine ⟨sites, hs, ?_⟩
  set A : Matrix (Fin 2) (Fin 2) ℤ := !![n, i; m, j] with hA
  have hdet : A.det = n * j - i * m := by rw [hA, Matrix.det_fin_two_of]
  have hdet0 : A.det ≠ 0 := by
    rw [hdet, mul_comm i m]
    exact h.det
  have hinj : Function.Injective (Matrix.toLin' A) := by
    rw [injective_iff_map_eq_zero]
    intro x hx
    by_contra hne
    exact hdet0 (Matrix.exists_mulVec_eq_zero_iff.1 ⟨x, hne, hx⟩)
  set N : Submodule ℤ (Fin 2 → ℤ) := LinearMap.range (Matrix.toLin' A) with hN
  have hcard : Nat.card ((Fin 2 → ℤ) ⧸ N) = A.det.natAbs := by
    rw [← Submodule.natAbs_det_equiv N (LinearEquiv.ofInjective (Matrix.toLin' A) hinj),
      ← LinearMap.det_toLin' A]
    rfl
  -- the site of a lattice point
  set g : (Fin 2 → ℤ) → {v // v ∈ L.basis} → ℝ × ℝ := fun x v =>
    (npRound 14 (rep L (x 0 • L.latt1 + x 1 • L.latt2 + v.1)).1,
      npRound 14 (rep L (x 0 • L.latt1 + x 1 • L.latt2 + v.1)).2) with hg
  have hfaith : ∀ v ∈ L.basis, ∀ w ∈ L.basis, ∀ a b a' b' : ℤ,
      npRound 14 (a • L.latt1 + b • L.latt2 + v).1 = npRound 14 (a' • L.latt1 + b' • L.latt2 + w).1 →
      npRound 14 (a • L.latt1 + b • L.latt2 + v).2 = npRound 14 (a' • L.latt1 + b' • L.latt2 + w).2 →
      a = a' ∧ b = b' ∧ v = w := by
    intro v hv w hw a b a' b' e1 e2
    by_contra hne
    have close : ∀ x y : ℝ, npRound 14 x = npRound 14 y → |x - y| ≤ 1 / 10 ^ 14 := by
      intro x y e
      have hx := abs_le.1 (abs_npRound_sub 14 x)
      have hy := abs_le.1 (abs_npRound_sub 14 y)
      rw [e] at hx
      have h5 : (1 : ℝ) / 2 / 10 ^ 14 + 1 / 2 / 10 ^ 14 = 1 / 10 ^ 14 := by norm_num
      rw [abs_le]
      constructor <;> linarith
    have hab : (a - a') ≠ 0 ∨ (b - b') ≠ 0 ∨ v ≠ w := by
      by_contra hc
      push Not at hc
      exact hne ⟨by omega, by omega, hc.2.2⟩
    have hd : (a - a') • L.latt1 + (b - b') • L.latt2 + (v - w) =
        (a • L.latt1 + b • L.latt2 + v) - (a' • L.latt1 + b' • L.latt2 + w) := by
      rw [sub_smul, sub_smul]
      abel
    rcases hr v hv w hw (a - a') (b - b') hab with hc | hc
    · rw [hd] at hc
      exact absurd (close _ _ e1) (not_le.2 hc)
    · rw [hd] at hc
      exact absurd (close _ _ e2) (not_le.2 hc)
  have hmemN : ∀ x : Fin 2 → ℤ, x ∈ N ↔ ∃ u w : ℤ, x 0 = n * u + i * w ∧ x 1 = m * u + j * w := by
    intro x
    rw [hN, LinearMap.mem_range]
    constructor
    · rintro ⟨y, rfl⟩
      refine ⟨y 0, y 1, ?_, ?_⟩ <;> simp [hA, Matrix.mulVec, dotProduct, Fin.sum_univ_two]
    · rintro ⟨u, w, e0, e1⟩
      refine ⟨![u, w], ?_⟩
      ext k
      fin_cases k <;> simp [hA, Matrix.mulVec, dotProduct, Fin.sum_univ_two, e0, e1]
  have hgN : ∀ (x y : Fin 2 → ℤ) (v w : {v // v ∈ L.basis}), g x v = g y w ↔ x - y ∈ N ∧ v = w := by
    intro x y v v'
    rw [hmemN]
    constructor
    · intro e
      have e1 := congrArg Prod.fst e
      have e2 := congrArg Prod.snd e
      simp only [hg] at e1 e2
      obtain ⟨u, w, hx⟩ := same_rep L (x 0 • L.latt1 + x 1 • L.latt2 + v.1)
      obtain ⟨u', w', hy⟩ := same_rep L (y 0 • L.latt1 + y 1 • L.latt2 + v'.1)
      have hx' : rep L (x 0 • L.latt1 + x 1 • L.latt2 + v.1) =
          (x 0 + u * n + w * i) • L.latt1 + (x 1 + u * m + w * j) • L.latt2 + v.1 := by
        rw [hx, h.per1, h.per2]
        simp only [add_smul, smul_add, mul_smul]
        abel
      have hy' : rep L (y 0 • L.latt1 + y 1 • L.latt2 + v'.1) =
          (y 0 + u' * n + w' * i) • L.latt1 + (y 1 + u' * m + w' * j) • L.latt2 + v'.1 := by
        rw [hy, h.per1, h.per2]
        simp only [add_smul, smul_add, mul_smul]
        abel
      rw [hx', hy'] at e1 e2
      obtain ⟨r0, r1, r2⟩ := hfaith _ v.2 _ v'.2 _ _ _ _ e1 e2
      refine ⟨⟨u' - u, w' - w, ?_, ?_⟩, Subtype.ext r2⟩
      · simp only [Pi.sub_apply]
        linear_combination r0
      · simp only [Pi.sub_apply]
        linear_combination r1
    · rintro ⟨⟨u, w, e0, e1⟩, rfl⟩
      have hrep : rep L (x 0 • L.latt1 + x 1 • L.latt2 + v.1) =
          rep L (y 0 • L.latt1 + y 1 • L.latt2 + v.1) := by
        apply h.rep_same
        refine ⟨u, w, ?_⟩
        simp only [Pi.sub_apply] at e0 e1
        rw [show x 0 = y 0 + u * n + w * i by linear_combination e0,
          show x 1 = y 1 + u * m + w * j by linear_combination e1, h.per1, h.per2]
        simp only [add_smul, smul_add, mul_smul]
        abel
      simp only [hg, hrep]
  set G : (Fin 2 → ℤ) × {v // v ∈ L.basis} → ℝ × ℝ := fun z => g z.1 z.2 with hG
  have hlift : Nat.card (((Fin 2 → ℤ) ⧸ N) × {v // v ∈ L.basis}) = Nat.card (Set.range G) := by
    refine Nat.card_congr (Equiv.ofBijective
      (fun q => ⟨Quotient.liftOn' q.1 (fun x => g x q.2) fun x y hxy => (hgN x y _ _).2 ⟨?_, rfl⟩, ?_⟩)
      ⟨?_, ?_⟩)
    · exact (Submodule.quotientRel_def N).1 hxy
    · obtain ⟨q, v⟩ := q
      induction q using Quotient.inductionOn' with
      | h x => exact ⟨(x, v), rfl⟩
    · rintro ⟨q, v⟩ ⟨q', v'⟩ e
      induction q using Quotient.inductionOn' with
      | h x =>
        induction q' using Quotient.inductionOn' with
        | h y =>
          obtain ⟨e1, e2⟩ := (hgN x y v v').1 (congrArg Subtype.val e)
          exact Prod.ext (Quotient.sound' ((Submodule.quotientRel_def N).2 e1)) e2
    · rintro ⟨p, ⟨x, v⟩, rfl⟩
      exact ⟨(Quotient.mk'' x, v), rfl⟩
  have hrange : Set.range G = {p | p ∈ sites.toFinset} := by
    ext p
    rw [Set.mem_setOf_eq, List.mem_toFinset, hm, Set.mem_range]
    constructor
    · rintro ⟨⟨x, v⟩, rfl⟩
      exact ⟨x 0, x 1, v.1, v.2, rfl⟩
    · rintro ⟨a, b, v', hv', rfl⟩
      exact ⟨(![a, b], ⟨v', hv'⟩), rfl⟩
  have hlen : Nat.card (Set.range G) = sites.length := by
    rw [hrange, ← List.toFinset_card_of_nodup hn]
    exact Nat.card_eq_card_toFinset _ |>.trans (by simp)
  have hbas : Nat.card {v // v ∈ L.basis} = L.basis.length := by
    rw [← List.toFinset_card_of_nodup hb, ← Nat.card_eq_finsetCard]
    exact Nat.card_congr (Equiv.subtypeEquivRight fun v => by rw [List.mem_toFinset])
  rw [← hlen, ← hlift, Nat.card_prod, hcard, hdet, mul_comm i m, hbas]

/-! ## Examples -/

/-- The cell of the tilted square lattice with ten sites. -/
private noncomputable def tenSites : Lattice :=
  ⟨(1, 0), (0, 1), (1, 0), (0, 1), [(0, 0)], (3, 1), (-1, 3), (0.3, 0.1), (-0.1, 0.3), 0, 0⟩

private theorem tenSites_periods : LatticePeriods tenSites 3 1 (-1) 3 := by
  have hten : (1 : ℝ) / 2 / 10 ^ 14 < Real.sqrt 10 := by
    have : (3 : ℝ) < Real.sqrt 10 := by
      rw [Real.lt_sqrt (by norm_num)]
      norm_num
    linarith [show (1 : ℝ) / 2 / 10 ^ 14 < 3 by norm_num]
  refine ⟨?_, ?_, ?_, ?_, ?_, by norm_num, ?_, ?_⟩
  · unfold NonNegligible tenSites; norm_num
  · unfold NonNegligible tenSites; norm_num
  · unfold Indep tenSites; norm_num
  · simp only [tenSites, zsmul_pair]; norm_num
  · simp only [tenSites, zsmul_pair]; norm_num
  · unfold NonNegligible tenSites
    rwa [show ((3 : ℝ)) ^ 2 + 1 ^ 2 = 10 by norm_num]
  · unfold NonNegligible tenSites
    rwa [show ((-1 : ℝ)) ^ 2 + 3 ^ 2 = 10 by norm_num]

private theorem tenSites_resolved : Resolved tenSites := by
  intro v hv w hw a b hab
  simp only [tenSites, List.mem_singleton] at hv hw
  subst hv hw
  replace hab : a ≠ 0 ∨ b ≠ 0 := by tauto
  have e : a • tenSites.latt1 + b • tenSites.latt2 + ((0, 0) - (0, 0)) = ((a : ℝ), (b : ℝ)) := by
    simp only [tenSites, zsmul_pair]
    norm_num
  rw [e]
  have big : ∀ k : ℤ, k ≠ 0 → (1 : ℝ) / 10 ^ 14 < |(k : ℝ)| := by
    intro k hk
    have h1 : (1 : ℝ) ≤ |(k : ℝ)| := by
      rw [← Int.cast_abs]
      have : (1 : ℤ) ≤ |k| := Int.one_le_abs hk
      exact_mod_cast this
    linarith [show (1 : ℝ) / 10 ^ 14 < 1 by norm_num]
  exact hab.imp (big a) (big b)

example : ∃ sites, tenSites.uniqueSites = .ok sites ∧ sites.length = 10 :=
  by simpa [tenSites] using C50_count tenSites_periods tenSites_resolved (by simp [tenSites])

example : ∃ sites, tenSites.uniqueSites = .ok sites ∧
    ∀ p ∈ sites, InCellExact 0 tenSites.per1 tenSites.per2 p :=
  C50_exact_cell tenSites_periods ⟨1, 0, by simp [tenSites]⟩ ⟨0, 1, by simp [tenSites]⟩
    (by simp only [tenSites, List.mem_singleton, forall_eq]; exact ⟨0, 0, by simp⟩)
    (by simp only [tenSites]; norm_num)

end ED.Props
