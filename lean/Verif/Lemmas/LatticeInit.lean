import Verif.Lemmas.Periodic
import Verif.Lemmas.UniqueSites

/-! # Lattices accepted by the constructor -/

namespace ED

open Geometry Classical

namespace Lattice

theorem recip_ok {v w : ℝ × ℝ} (h : v ≠ 0 → w ≠ 0 → Indep v w) :
    ∃ r, getReciprocalVects v w = .ok r := by
  unfold getReciprocalVects
  split_ifs with h1 h2 h3
  · simp only
    rw [if_neg (det2_ne (h h1.1 h1.2))]
    exact ⟨_, rfl⟩
  · exact ⟨_, rfl⟩
  · exact ⟨_, rfl⟩
  · exact ⟨_, rfl⟩

/-- A point of the lattice passes the compatibility check. -/
theorem compatible_ok {L : Lattice} (h1 : NonNegligible L.latt1) (h2 : NonNegligible L.latt2)
    (hi : Indep L.latt1 L.latt2) {p : ℝ × ℝ} {a b : ℤ} (hp : p = a • L.latt1 + b • L.latt2) :
    L.compatible p = .ok true := by
  obtain ⟨d1, d2, d3, d4⟩ := dual_indep hi
  have lin : ∀ r : ℝ × ℝ, dot2 r p = a * dot2 r L.latt1 + b * dot2 r L.latt2 := by
    intro r
    rw [hp]
    simp only [dot2, zsmul_pair, Prod.mk_add_mk]
    ring
  unfold compatible
  rw [reduceVectors_ok (projRows_indep h1 h2 hi) [p.1] [p.2] rfl (Or.inl rfl)]
  simp only [List.zipWith_cons_cons, List.zipWith_nil_left, bind, Except.bind, pure, Except.pure,
    List.mem_singleton, forall_eq]
  rw [reduceCol_eq]
  congr 1
  rw [decide_eq_true_iff]
  rintro ⟨hx, -⟩
  apply hx
  unfold redPoint
  simp only [Prod.mk.eta, idx1, idx2]
  rw [lin, lin, d1, d2, d3, d4, mul_one, mul_zero, add_zero, mul_one, mul_zero, zero_add, cellIndex_int,
    cellIndex_int]
  rw [hp]
  simp

/-- The constructor accepts lattice vectors and periodicity vectors that are numerically independent,
with periodicity vectors that are zero or lattice vectors of non-negligible length. -/
theorem init_ok {l1 l2 p1 p2 : ℝ × ℝ} {a b c d : ℤ} (basis : List (ℝ × ℝ)) (f1 f2 : ℝ)
    (h1 : NonNegligible l1) (h2 : NonNegligible l2) (hd : 1 / 2 / 10 ^ 14 < |det2 l1 l2|)
    (hp1 : p1 = a • l1 + b • l2) (hp2 : p2 = c • l1 + d • l2)
    (hp : p1 ≠ 0 → p2 ≠ 0 → 1 / 2 / 10 ^ 14 < |det2 p1 p2|) :
    ∃ L, Lattice.init l1 l2 basis p1 p2 f1 f2 = .ok L := by
  have toIndep : ∀ {v w : ℝ × ℝ}, 1 / 2 / 10 ^ 14 < |det2 v w| → Indep v w := by
    intro v w hvw
    apply round_det_ne
    rw [ne_eq, npRound_eq_zero, not_le]
    exact hvw
  have hi := toIndep hd
  obtain ⟨rl, hrl⟩ := recip_ok fun _ _ => hi
  obtain ⟨rp, hrp⟩ := recip_ok fun n1 n2 => toIndep (hp n1 n2)
  refine ⟨⟨l1, l2, rl.1, rl.2, basis, p1, p2, rp.1, rp.2, f1, f2⟩, ?_⟩
  unfold Lattice.init
  rw [hrl, hrp]
  simp only [bind, Except.bind]
  have hv : Lattice.validate ⟨l1, l2, rl.1, rl.2, basis, p1, p2, rp.1, rp.2, f1, f2⟩ = .ok true := by
    unfold validate
    rw [if_neg, if_neg]
    · rw [compatible_ok (L := ⟨l1, l2, rl.1, rl.2, basis, p1, p2, rp.1, rp.2, f1, f2⟩) h1 h2 hi hp1,
        compatible_ok (L := ⟨l1, l2, rl.1, rl.2, basis, p1, p2, rp.1, rp.2, f1, f2⟩) h1 h2 hi hp2]
      simp [bind, Except.bind, pure, Except.pure]
    · rw [not_not]
      unfold validPer
      rintro ⟨n1, n2, hz⟩
      simp only at n1 n2 hz
      rw [ne_eq, round_len2, not_not] at n1 n2
      rw [npRound_eq_zero, ← not_lt] at hz
      exact hz (hp n1.ne_zero n2.ne_zero)
    · rw [not_not]
      unfold validLatt
      simp only [round_len2]
      rintro (h | h | h)
      · exact h h1
      · exact h h2
      · rw [npRound_eq_zero, ← not_lt] at h
        exact h hd
  rw [hv]
  rfl

end Lattice

/-- Periodicity vectors that are numerically independent combinations of the lattice vectors. -/
structure CellData (l1 l2 : ℝ × ℝ) (p1 p2 : ℝ × ℝ) (n m i j : ℤ) : Prop where
  latt1 : NonNegligible l1
  latt2 : NonNegligible l2
  det : 1 / 2 / 10 ^ 14 < |det2 l1 l2|
  per1 : p1 = n • l1 + m • l2
  per2 : p2 = i • l1 + j • l2
  idet : n * j - m * i ≠ 0
  nonneg1 : NonNegligible p1
  nonneg2 : NonNegligible p2

theorem CellData.perDet {l1 l2 p1 p2 : ℝ × ℝ} {n m i j : ℤ} (h : CellData l1 l2 p1 p2 n m i j) :
    1 / 2 / 10 ^ 14 < |det2 p1 p2| := by
  have e : det2 p1 p2 = ((n * j - m * i : ℤ) : ℝ) * det2 l1 l2 := by
    rw [h.per1, h.per2]
    simp only [det2, zsmul_pair, Prod.mk_add_mk]
    push_cast
    ring
  rw [e, abs_mul, ← Int.cast_abs]
  have h1 : (1 : ℝ) ≤ ((|n * j - m * i| : ℤ) : ℝ) := by exact_mod_cast Int.one_le_abs h.idet
  exact lt_of_lt_of_le h.det (le_mul_of_one_le_left (abs_nonneg _) h1)

/-- Lattice geometries exist for open and periodic boundaries. -/
theorem CellData.create {l1 l2 p1 p2 : ℝ × ℝ} {n m i j : ℤ} (h : CellData l1 l2 p1 p2 n m i j)
    (basis : List (ℝ × ℝ)) (f1 f2 : ℝ) (o1 o2 : Bool) : ∃ (H L : Lattice) (sites : List (ℝ × ℝ)) (g : Geometry),
      Lattice.init l1 l2 basis p1 p2 f1 f2 = .ok H ∧ LatticePeriods H n m i j ∧ H.uniqueSites = .ok sites ∧
      Lattice.init l1 l2 basis (if o1 then (0, 0) else p1) (if o2 then (0, 0) else p2) f1 f2 = .ok L ∧
      ((if o1 then (0, 0) else p1) = (0 : ℝ × ℝ) ∨ NonNegligible (if o1 then (0, 0) else p1)) ∧
      ((if o2 then (0, 0) else p2) = (0 : ℝ × ℝ) ∨ NonNegligible (if o2 then (0, 0) else p2)) ∧
      Geometry.init (sites.map Prod.fst) (sites.map Prod.snd) none none (some L) = .ok g ∧
      g.xlocs = sites.map Prod.fst ∧ g.ylocs = sites.map Prod.snd ∧ g.lattice = some L ∧
      Geometry.createLattice l1 l2 basis p1 p2 f1 f2 o1 o2 = .ok g := by
  obtain ⟨H, hH⟩ := Lattice.init_ok basis f1 f2 h.latt1 h.latt2 h.det h.per1 h.per2
    (fun _ _ => h.perDet)
  obtain ⟨e1, e2, e3, e4, e5, -⟩ := Lattice.init_fields hH
  have hlp : LatticePeriods H n m i j := by
    have hi : Indep l1 l2 := by
      apply Lattice.round_det_ne
      rw [ne_eq, npRound_eq_zero, not_le]
      exact h.det
    exact ⟨e1 ▸ h.latt1, e2 ▸ h.latt2, by rw [e1, e2]; exact hi, by rw [e4, e1, e2]; exact h.per1,
      by rw [e5, e1, e2]; exact h.per2, h.idet, e4 ▸ h.nonneg1, e5 ▸ h.nonneg2⟩
  obtain ⟨sites, hs, -⟩ := hlp.uniqueSites_ok
  have c1 : (if o1 then (0, 0) else p1) = (0 : ℝ × ℝ) ∨ NonNegligible (if o1 then (0, 0) else p1) := by
    cases o1
    · exact Or.inr h.nonneg1
    · exact Or.inl rfl
  have c2 : (if o2 then (0, 0) else p2) = (0 : ℝ × ℝ) ∨ NonNegligible (if o2 then (0, 0) else p2) := by
    cases o2
    · exact Or.inr h.nonneg2
    · exact Or.inl rfl
  have hq1 : (if o1 then (0, 0) else p1) = (if o1 then 0 else n) • l1 + (if o1 then 0 else m) • l2 := by
    cases o1
    · exact h.per1
    · simp only [if_true, zero_smul, add_zero]; rfl
  have hq2 : (if o2 then (0, 0) else p2) = (if o2 then 0 else i) • l1 + (if o2 then 0 else j) • l2 := by
    cases o2
    · exact h.per2
    · simp only [if_true, zero_smul, add_zero]; rfl
  obtain ⟨L, hL⟩ := Lattice.init_ok (p1 := if o1 then (0, 0) else p1) (p2 := if o2 then (0, 0) else p2)
    basis f1 f2 h.latt1 h.latt2 h.det hq1 hq2 (by
      intro n1 n2
      cases o1
      · cases o2
        · exact h.perDet
        · exact absurd rfl n2
      · exact absurd rfl n1)
  have hg := Lattice.init_good hL c1 c2
  have hlen : (sites.map Prod.fst).length ≤ (sites.map Prod.snd).length := by simp
  obtain ⟨r, hr, -⟩ := projRows_ok hg.periods
  obtain ⟨X, Y, N1, N2, a1, a2, a3, a4, a5, a6, a7⟩ := hg.reducedDistance_ok hr (sites.map Prod.fst)
    (sites.map Prod.snd) hlen
  have hinit := hg.init_ok (sites.map Prod.fst) (sites.map Prod.snd) hlen none none a1 a2
    (fun i j => (a6 i j).1) (fun i j => (a6 i j).2.1)
  refine ⟨H, L, sites, _, hH, hlp, hs, hL, c1, c2, hinit, rfl, rfl, rfl, ?_⟩
  unfold Geometry.createLattice
  rw [hH]
  simp only [bind, Except.bind]
  rw [hs]
  simp only
  rw [hL]
  exact hinit

end ED
