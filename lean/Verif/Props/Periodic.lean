import Verif.Lemmas.Periodic

/-!
# Periodic distances and boundary phases (C51, C52, C97)
-/

namespace ED.Props

open ED ED.Geometry Classical

variable {l1 l2 p1 p2 : ℝ × ℝ} {basis : List (ℝ × ℝ)} {f1 f2 : ℝ} {L : Lattice}

/-- Everything used about the distance matrices. -/
theorem distances (hg : L.Good) (xs ys : List ℝ) (hl : xs.length ≤ ys.length) :
    ∃ X Y N1 N2 : Arr ℝ, L.reducedDistance xs ys = .ok (X, Y, N1, N2) ∧
      (X.rows = xs.length ∧ X.cols = xs.length) ∧ (Y.rows = xs.length ∧ Y.cols = xs.length) ∧
      (N1.rows = xs.length ∧ N1.cols = xs.length) ∧ (N2.rows = xs.length ∧ N2.cols = xs.length) ∧
      (∀ i j, X.e i j = -X.e j i ∧ Y.e i j = -Y.e j i ∧ N1.e i j = -N1.e j i ∧ N2.e i j = N2.e j i ∧
        X.e i i = 0 ∧ Y.e i i = 0 ∧ N1.e i i = 0 ∧ N2.e i i = 0) ∧
      ∀ i < xs.length, ∀ j < xs.length, SameClass L.per1 L.per2
        (xs.getD i 0 - xs.getD j 0, ys.getD i 0 - ys.getD j 0) (X.e i j, Y.e i j) := by
  obtain ⟨r, hr, hd⟩ := projRows_ok hg.periods
  obtain ⟨X, Y, N1, N2, h1, h2, h3, h4, h5, h6, h7⟩ := hg.reducedDistance_ok hr xs ys hl
  refine ⟨X, Y, N1, N2, h1, h2, h3, h4, h5, h6, ?_⟩
  have low : ∀ i < xs.length, ∀ j < i, SameClass L.per1 L.per2
        (xs.getD i 0 - xs.getD j 0, ys.getD i 0 - ys.getD j 0) (X.e i j, Y.e i j) := by
    intro i hi j hj
    rw [(h7 i hi j hj).1]
    generalize ((xs.getD i 0 - xs.getD j 0, ys.getD i 0 - ys.getD j 0) : ℝ × ℝ) = v
    refine ⟨-idx1 r true v, -idx2 r true v, ?_⟩
    unfold Lattice.sep redPoint
    rw [neg_smul, neg_smul]
    abel
  intro i hi j hj
  rcases lt_trichotomy i j with hij | rfl | hij
  · obtain ⟨a, b, e⟩ := low j hj i hij
    refine ⟨-a, -b, ?_⟩
    have : (X.e i j, Y.e i j) = -(X.e j i, Y.e j i) := by
      rw [(h6 i j).1, (h6 i j).2.1]
      rfl
    rw [this, e, neg_smul, neg_smul]
    have e2 : ((xs.getD i 0 - xs.getD j 0, ys.getD i 0 - ys.getD j 0) : ℝ × ℝ) =
        -(xs.getD j 0 - xs.getD i 0, ys.getD j 0 - ys.getD i 0) := by
      ext <;> simp
    rw [e2]
    abel
  · refine ⟨0, 0, ?_⟩
    rw [(h6 i i).2.2.2.2.1, (h6 i i).2.2.2.2.2.1, sub_self, sub_self]
    simp
  · exact low i hi j hij

/-- C51: for every lattice accepted by the constructor whose periodicity vectors are zero or not
negligible, the distance matrices are antisymmetric, and every entry differs from the plain difference of
coordinates by an integer combination of the periodicity vectors. -/
theorem C51_distances (hL : Lattice.init l1 l2 basis p1 p2 f1 f2 = .ok L)
    (h1 : p1 = 0 ∨ NonNegligible p1) (h2 : p2 = 0 ∨ NonNegligible p2) (xs ys : List ℝ)
    (hl : xs.length = ys.length) :
    ∃ X Y N1 N2 : Arr ℝ, L.reducedDistance xs ys = .ok (X, Y, N1, N2) ∧
      (X.rows = xs.length ∧ X.cols = xs.length) ∧ (Y.rows = xs.length ∧ Y.cols = xs.length) ∧
      ∀ (i j : ℕ) (xi xj yi yj : ℝ), xs[i]? = some xi → xs[j]? = some xj → ys[i]? = some yi →
        ys[j]? = some yj → X.e i j = -X.e j i ∧ Y.e i j = -Y.e j i ∧
          SameClass p1 p2 (xi - xj, yi - yj) (X.e i j, Y.e i j) := by
  obtain ⟨X, Y, N1, N2, a1, a2, a3, a4, a5, a6, a7⟩ :=
    distances (Lattice.init_good hL h1 h2) xs ys hl.le
  obtain ⟨_, _, _, e4, e5, _⟩ := Lattice.init_fields hL
  refine ⟨X, Y, N1, N2, a1, a2, a3, fun i j xi xj yi yj hxi hxj hyi hyj => ?_⟩
  have := a7 i (List.getElem?_eq_some_iff.1 hxi).1 j (List.getElem?_eq_some_iff.1 hxj).1
  rw [e4, e5] at this
  simp only [List.getD_eq_getElem?_getD, hxi, hxj, hyi, hyj, Option.getD_some] at this
  exact ⟨(a6 i j).1, (a6 i j).2.1, this⟩

/-- C51: for independent periodicity vectors the separations lie in the centred cell, up to half a unit of
the 14th decimal. -/
theorem C51_window (hL : Lattice.init l1 l2 basis p1 p2 f1 f2 = .ok L)
    (h1 : NonNegligible p1) (h2 : NonNegligible p2) (xs ys : List ℝ) (hl : xs.length = ys.length)
    {X Y N1 N2 : Arr ℝ} (hd : L.reducedDistance xs ys = .ok (X, Y, N1, N2)) :
    ∀ i < xs.length, ∀ j < xs.length, ∃ s t : ℝ, (X.e i j, Y.e i j) = s • p1 + t • p2 ∧
      |s| ≤ 1 / 2 + 1 / 2 / 10 ^ 14 ∧ |t| ≤ 1 / 2 + 1 / 2 / 10 ^ 14 := by
  have hg := Lattice.init_good hL (Or.inr h1) (Or.inr h2)
  obtain ⟨_, _, _, e4, e5, _⟩ := Lattice.init_fields hL
  have hi := hg.periods.indep (e4 ▸ h1.ne_zero) (e5 ▸ h2.ne_zero)
  rw [e4, e5] at hi
  obtain ⟨X', Y', N1', N2', a1, a2, a3, a4, a5, a6, a7⟩ := hg.reducedDistance_ok
    (by rw [e4, e5]; exact projRows_indep h1 h2 hi) xs ys hl.le
  rw [hd] at a1
  injection a1 with a1
  obtain ⟨rfl, rfl, rfl, rfl⟩ : X = X' ∧ Y = Y' ∧ N1 = N1' ∧ N2 = N2' := by simpa using a1
  have low : ∀ i < xs.length, ∀ j < i, ∃ s t : ℝ, (X.e i j, Y.e i j) = s • p1 + t • p2 ∧
      |s| ≤ 1 / 2 + 1 / 2 / 10 ^ 14 ∧ |t| ≤ 1 / 2 + 1 / 2 / 10 ^ 14 := by
    intro i hi' j hj
    rw [(a7 i hi' j hj).1]
    set v : ℝ × ℝ := (xs.getD i 0 - xs.getD j 0, ys.getD i 0 - ys.getD j 0) with hv
    set r1 : ℝ × ℝ := (p2.2 / det2 p1 p2, -p2.1 / det2 p1 p2) with hr1
    set r2 : ℝ × ℝ := (-p1.2 / det2 p1 p2, p1.1 / det2 p1 p2) with hr2
    obtain ⟨b1, b2⟩ := cellIndex_window true (dot2 r1 v)
    obtain ⟨c1, c2⟩ := cellIndex_window true (dot2 r2 v)
    simp only [cellLow, if_true] at b1 b2 c1 c2
    have hdet := det2_ne hi
    have hvv : v = dot2 r1 v • p1 + dot2 r2 v • p2 := by
      ext
      · simp only [hr1, hr2, dot2, Prod.fst_add, Prod.smul_fst, smul_eq_mul]
        field_simp
        unfold det2
        ring
      · simp only [hr1, hr2, dot2, Prod.snd_add, Prod.smul_snd, smul_eq_mul]
        field_simp
        unfold det2
        ring
    have hpos : (0 : ℝ) < 1 / 2 / 10 ^ 14 := by positivity
    refine ⟨dot2 r1 v - cellIndex true (dot2 r1 v), dot2 r2 v - cellIndex true (dot2 r2 v), ?_, ?_, ?_⟩
    · rw [sub_smul, sub_smul, Int.cast_smul_eq_zsmul, Int.cast_smul_eq_zsmul, sub_add_sub_comm, ← hvv]
      unfold Lattice.sep redPoint idx1 idx2
      rw [e4, e5]
      abel
    · rw [abs_le]
      constructor <;> linarith
    · rw [abs_le]
      constructor <;> linarith
  intro i hi' j hj
  rcases lt_trichotomy i j with hij | rfl | hij
  · obtain ⟨s, t, e, hs, ht⟩ := low j hj i hij
    refine ⟨-s, -t, ?_, by rwa [abs_neg], by rwa [abs_neg]⟩
    have : (X.e i j, Y.e i j) = -(X.e j i, Y.e j i) := by
      rw [(a6 i j).1, (a6 i j).2.1]
      rfl
    rw [this, e, neg_smul, neg_smul]
    abel
  · refine ⟨0, 0, ?_, ?_, ?_⟩
    · rw [(a6 i i).2.2.2.2.1, (a6 i i).2.2.2.2.2.1]
      simp
    · rw [abs_zero]; positivity
    · rw [abs_zero]; positivity
  · exact low i hi' j hij

/-- C51: the constructor accepts every list of sites on such a lattice; the adjacency matrix is symmetric
with zero diagonal, and its entries are one exactly for sites at distance one, up to half a unit of the 14th
decimal, and zero otherwise. -/
theorem C51_adjacency (hL : Lattice.init l1 l2 basis p1 p2 f1 f2 = .ok L)
    (h1 : p1 = 0 ∨ NonNegligible p1) (h2 : p2 = 0 ∨ NonNegligible p2) (xs ys : List ℝ)
    (hl : xs.length = ys.length) (A : Option (Arr ℝ)) (P : Option (Arr ℂ)) :
    ∃ g, Geometry.init xs ys A P (some L) = .ok g ∧ g.WellFormed ∧ g.xlocs = xs ∧ g.ylocs = ys ∧
      g.lattice = some L ∧ (∃ N1 N2, L.reducedDistance xs ys = .ok (g.xdist, g.ydist, N1, N2)) ∧
      ∀ i < xs.length, ∀ j < xs.length,
        g.adjacency.e i j = g.adjacency.e j i ∧ g.adjacency.e i i = 0 ∧
        g.adjacency.e i j =
          if |Real.sqrt (g.xdist.e i j ^ 2 + g.ydist.e i j ^ 2) - 1| ≤ 1 / 2 / 10 ^ 14 then 1 else 0 := by
  have hg := Lattice.init_good hL h1 h2
  obtain ⟨X, Y, N1, N2, a1, a2, a3, a4, a5, a6, a7⟩ := distances hg xs ys hl.le
  refine ⟨_, hg.init_ok xs ys hl.le A P a1 a2 (fun i j => (a6 i j).1) (fun i j => (a6 i j).2.1),
    ⟨hl.symm, a2, a3, a2, ?_⟩, rfl, rfl, rfl, ⟨N1, N2, a1⟩, ?_⟩
  · have := Lattice.phaseMat_valid L (n := xs.length) a2.1 (fun i j => (a6 i j).1)
      (fun i j => (a6 i j).2.1)
    exact ⟨this.1, this.2.1⟩
  · intro i _ j _
    refine ⟨?_, ?_, ?_⟩
    · simp only [unitAdjacency]
      rw [(a6 i j).1, (a6 i j).2.1, neg_sq, neg_sq]
    · simp only [unitAdjacency]
      rw [(a6 i i).2.2.2.2.1, (a6 i i).2.2.2.2.2.1, if_neg]
      rw [show ((0 : ℝ) ^ 2 + 0 ^ 2) = 0 by norm_num, Real.sqrt_zero, npRound_zero]
      norm_num
    · simp only [unitAdjacency]
      have e : ∀ x : ℝ, npRound 14 x = 1 ↔ |x - 1| ≤ 1 / 2 / 10 ^ 14 := by
        intro x
        rw [← npRound_eq_zero]
        have := npRound_sub_int 14 (by norm_num) x 1
        push_cast at this
        rw [this, sub_eq_zero]
      exact if_congr (e _) rfl rfl

/-- What is used about a periodic geometry. -/
private theorem periodic_facts (hg : L.Good) {xs ys : List ℝ} (hl : xs.length ≤ ys.length)
    {A : Option (Arr ℝ)} {P : Option (Arr ℂ)} {g : Geometry}
    (h : Geometry.init xs ys A P (some L) = .ok g) :
    (g.xdist.rows = xs.length) ∧ (∀ i j, g.xdist.e i j = -g.xdist.e j i ∧ g.ydist.e i j = -g.ydist.e j i ∧
        g.xdist.e i i = 0 ∧ g.ydist.e i i = 0) ∧
      (∀ i < xs.length, ∀ j < xs.length, SameClass L.per1 L.per2
        (xs.getD i 0 - xs.getD j 0, ys.getD i 0 - ys.getD j 0) (g.xdist.e i j, g.ydist.e i j)) ∧
      g.phase = L.phaseMat g.xdist g.ydist := by
  obtain ⟨X, Y, N1, N2, a1, a2, a3, a4, a5, a6, a7⟩ := distances hg xs ys hl
  have := hg.init_ok xs ys hl A P a1 a2 (fun i j => (a6 i j).1) (fun i j => (a6 i j).2.1)
  rw [h] at this
  injection this with this
  subst this
  exact ⟨a2.1, fun i j => ⟨(a6 i j).1, (a6 i j).2.1, (a6 i j).2.2.2.2.1, (a6 i j).2.2.2.2.2.1⟩, a7, rfl⟩

/-- C52: the phase matrix is Hermitian with ones on the diagonal. -/
theorem C52_hermitian (hL : Lattice.init l1 l2 basis p1 p2 f1 f2 = .ok L)
    (h1 : p1 = 0 ∨ NonNegligible p1) (h2 : p2 = 0 ∨ NonNegligible p2) {xs ys : List ℝ}
    (hl : xs.length = ys.length) {A : Option (Arr ℝ)} {P : Option (Arr ℂ)} {g : Geometry}
    (h : Geometry.init xs ys A P (some L) = .ok g) :
    g.phase.rows = xs.length ∧ g.phase.cols = xs.length ∧
      ∀ i < xs.length, ∀ j < xs.length,
        g.phase.e j i = (starRingEnd ℂ) (g.phase.e i j) ∧ g.phase.e i i = 1 := by
  obtain ⟨b1, b2, b3, b4⟩ := periodic_facts (Lattice.init_good hL h1 h2) hl.le h
  have hang : ∀ i j, L.angle (g.xdist.e j i, g.ydist.e j i) = -L.angle (g.xdist.e i j, g.ydist.e i j) := by
    intro i j
    rw [(b2 j i).1, (b2 j i).2.1,
      show (-g.xdist.e i j, -g.ydist.e i j) = -(g.xdist.e i j, g.ydist.e i j) from rfl, Lattice.angle_neg]
  have hdiag : ∀ i, L.angle (g.xdist.e i i, g.ydist.e i i) = 0 := by
    intro i
    rw [(b2 i i).2.2.1, (b2 i i).2.2.2]
    exact L.angle_zero
  rw [b4]
  by_cases hc : L.KeepsComplex g.xdist g.ydist
  · rw [(L.phaseMat_eq _ _).1 hc]
    refine ⟨b1, b1, fun i _ j _ => ⟨?_, ?_⟩⟩
    · simp only
      rw [hang i j, ← Complex.exp_conj, map_mul, Complex.conj_ofReal, Complex.conj_I]
      congr 1
      push_cast
      ring
    · simp only
      rw [hdiag i]
      simp
  · rw [(L.phaseMat_eq _ _).2 hc]
    refine ⟨b1, b1, fun i _ j _ => ⟨?_, ?_⟩⟩
    · simp only
      rw [hang i j, Real.cos_neg, Complex.conj_ofReal]
    · simp only
      rw [hdiag i]
      simp

/-- C52: the entries have modulus one; if the library drops the imaginary parts because none exceeds
`10 ^ -14` the modulus is one up to `10 ^ -28`. -/
theorem C52_modulus (hL : Lattice.init l1 l2 basis p1 p2 f1 f2 = .ok L)
    (h1 : p1 = 0 ∨ NonNegligible p1) (h2 : p2 = 0 ∨ NonNegligible p2) {xs ys : List ℝ}
    (hl : xs.length = ys.length) {A : Option (Arr ℝ)} {P : Option (Arr ℂ)} {g : Geometry}
    (h : Geometry.init xs ys A P (some L) = .ok g) :
    (∀ i < xs.length, ∀ j < xs.length, 1 - 1 / 10 ^ 28 ≤ ‖g.phase.e i j‖ ∧ ‖g.phase.e i j‖ ≤ 1) ∧
    ((∃ i < xs.length, ∃ j < xs.length, (g.phase.e i j).im ≠ 0) →
      ∀ i < xs.length, ∀ j < xs.length, ‖g.phase.e i j‖ = 1) := by
  obtain ⟨b1, b2, b3, b4⟩ := periodic_facts (Lattice.init_good hL h1 h2) hl.le h
  rw [b4]
  by_cases hc : L.KeepsComplex g.xdist g.ydist
  · rw [(L.phaseMat_eq _ _).1 hc]
    have : ∀ i < xs.length, ∀ j < xs.length,
        ‖Complex.exp (L.angle (g.xdist.e i j, g.ydist.e i j) * Complex.I)‖ = 1 :=
      fun i _ j _ => Complex.norm_exp_ofReal_mul_I _
    refine ⟨fun i hi j hj => ?_, fun _ => this⟩
    simp only
    rw [this i hi j hj]
    norm_num
  · rw [(L.phaseMat_eq _ _).2 hc]
    refine ⟨fun i hi j hj => ?_, ?_⟩
    · simp only
      rw [Complex.norm_real, Real.norm_eq_abs]
      have := round_cos _ (Lattice.sin_small hc (fun i j => (b2 i j).1) (fun i j => (b2 i j).2.1) i
        (b1 ▸ hi) j (b1 ▸ hj))
      exact ⟨this.1, this.2.1⟩
    · rintro ⟨i, _, j, _, hne⟩
      simp at hne

private theorem prod_close (m : ℕ) (a b : ℕ → ℂ) (ε : ℝ) (ha : ∀ k < m, ‖a k‖ ≤ 1)
    (hb : ∀ k < m, ‖b k‖ ≤ 1) (h : ∀ k < m, ‖a k - b k‖ ≤ ε) :
    ‖∏ k ∈ Finset.range m, a k - ∏ k ∈ Finset.range m, b k‖ ≤ m * ε ∧
      ‖∏ k ∈ Finset.range m, a k‖ ≤ 1 := by
  induction m with
  | zero => simp
  | succ m ih =>
    obtain ⟨i1, i2⟩ := ih (fun k hk => ha k (by omega)) (fun k hk => hb k (by omega))
      (fun k hk => h k (by omega))
    rw [Finset.prod_range_succ, Finset.prod_range_succ]
    set U := ∏ k ∈ Finset.range m, a k
    set V := ∏ k ∈ Finset.range m, b k
    have e : U * a m - V * b m = U * (a m - b m) + (U - V) * b m := by ring
    have h1 := h m (by omega)
    have h2 := hb m (by omega)
    have h3 := ha m (by omega)
    constructor
    · rw [e]
      refine (norm_add_le _ _).trans ?_
      rw [norm_mul, norm_mul]
      have t1 : ‖U‖ * ‖a m - b m‖ ≤ 1 * ε := mul_le_mul i2 h1 (norm_nonneg _) zero_le_one
      have t2 : ‖U - V‖ * ‖b m‖ ≤ ‖U - V‖ * 1 := mul_le_mul_of_nonneg_left h2 (norm_nonneg _)
      push_cast
      linarith
    · rw [norm_mul]
      calc ‖U‖ * ‖a m‖ ≤ 1 * 1 := mul_le_mul i2 h3 (norm_nonneg _) zero_le_one
        _ = 1 := one_mul 1

/-- C52: around a closed loop of sites the separations add up to an integer combination
`w1 p1 + w2 p2` of the periodicity vectors, and the product of the phases is
`exp(i (phase1 w1 + phase2 w2))`: exactly if the matrix is complex, and up to `10 ^ -14` per step if the
library drops imaginary parts below this size. -/
theorem C52_loop (hL : Lattice.init l1 l2 basis p1 p2 f1 f2 = .ok L)
    (h1 : p1 = 0 ∨ NonNegligible p1) (h2 : p2 = 0 ∨ NonNegligible p2) {xs ys : List ℝ}
    (hl : xs.length = ys.length) {A : Option (Arr ℝ)} {P : Option (Arr ℂ)} {g : Geometry}
    (h : Geometry.init xs ys A P (some L) = .ok g) (m : ℕ) (s : ℕ → ℕ) (hs : ∀ k, s k < xs.length)
    (hclosed : s m = s 0) :
    ∃ w1 w2 : ℤ, (p1 = 0 → w1 = 0) ∧ (p2 = 0 → w2 = 0) ∧
      ∑ k ∈ Finset.range m, (g.xdist.e (s k) (s (k + 1)), g.ydist.e (s k) (s (k + 1))) =
        w1 • p1 + w2 • p2 ∧
      ‖∏ k ∈ Finset.range m, g.phase.e (s k) (s (k + 1)) -
        Complex.exp (((f1 * w1 + f2 * w2 : ℝ) : ℂ) * Complex.I)‖ ≤ m * (1 / 10 ^ 14) ∧
      ((∃ i < xs.length, ∃ j < xs.length, (g.phase.e i j).im ≠ 0) →
        ∏ k ∈ Finset.range m, g.phase.e (s k) (s (k + 1)) =
          Complex.exp (((f1 * w1 + f2 * w2 : ℝ) : ℂ) * Complex.I)) := by
  have hg := Lattice.init_good hL h1 h2
  obtain ⟨b1, b2, b3, b4⟩ := periodic_facts hg hl.le h
  obtain ⟨_, _, _, e4, e5, e6, e7, _⟩ := Lattice.init_fields hL
  choose a b hab using fun k => b3 (s k) (hs k) (s (k + 1)) (hs (k + 1))
  set d : ℕ → ℝ × ℝ := fun k => (g.xdist.e (s k) (s (k + 1)), g.ydist.e (s k) (s (k + 1))) with hd
  set w1 : ℤ := if p1 = 0 then 0 else ∑ k ∈ Finset.range m, a k with hw1
  set w2 : ℤ := if p2 = 0 then 0 else ∑ k ∈ Finset.range m, b k with hw2
  have hsum : ∑ k ∈ Finset.range m, d k = w1 • p1 + w2 • p2 := by
    have tele : ∀ n, ∑ k ∈ Finset.range n, d k =
        (xs.getD (s 0) 0 - xs.getD (s n) 0, ys.getD (s 0) 0 - ys.getD (s n) 0) +
          (∑ k ∈ Finset.range n, a k) • p1 + (∑ k ∈ Finset.range n, b k) • p2 := by
      intro n
      induction n with
      | zero => ext <;> simp
      | succ n ih =>
        rw [Finset.sum_range_succ, ih, Finset.sum_range_succ, Finset.sum_range_succ]
        simp only [hd]
        rw [hab n, e4, e5, add_smul, add_smul]
        have : ((xs.getD (s 0) 0 - xs.getD (s (n + 1)) 0, ys.getD (s 0) 0 - ys.getD (s (n + 1)) 0) : ℝ × ℝ) =
            (xs.getD (s 0) 0 - xs.getD (s n) 0, ys.getD (s 0) 0 - ys.getD (s n) 0) +
            (xs.getD (s n) 0 - xs.getD (s (n + 1)) 0, ys.getD (s n) 0 - ys.getD (s (n + 1)) 0) := by
          ext <;> simp
        rw [this]
        abel
    rw [tele m, hclosed, sub_self, sub_self]
    have z1 : (∑ k ∈ Finset.range m, a k) • p1 = w1 • p1 := by
      rw [hw1]
      by_cases h0 : p1 = 0
      · rw [h0, smul_zero, smul_zero]
      · rw [if_neg h0]
    have z2 : (∑ k ∈ Finset.range m, b k) • p2 = w2 • p2 := by
      rw [hw2]
      by_cases h0 : p2 = 0
      · rw [h0, smul_zero, smul_zero]
      · rw [if_neg h0]
    rw [z1, z2, show ((0, 0) : ℝ × ℝ) = 0 from rfl, zero_add]
  have hz1 : p1 = 0 → w1 = 0 := fun h0 => by rw [hw1, if_pos h0]
  have hz2 : p2 = 0 → w2 = 0 := fun h0 => by rw [hw2, if_pos h0]
  have hangle : ∑ k ∈ Finset.range m, L.angle (d k) = f1 * w1 + f2 * w2 := by
    have hadd : ∀ n, ∑ k ∈ Finset.range n, L.angle (d k) = L.angle (∑ k ∈ Finset.range n, d k) := by
      intro n
      induction n with
      | zero => simp [L.angle_zero]
      | succ n ih => rw [Finset.sum_range_succ, Finset.sum_range_succ, ih, L.angle_add]
    rw [hadd m, hsum, ← e4, ← e5, hg.angle_period w1 w2 (fun k => hz1 (e4 ▸ k)) (fun k => hz2 (e5 ▸ k)),
      e6, e7]
  have hexp : ∏ k ∈ Finset.range m, Complex.exp (L.angle (d k) * Complex.I) =
      Complex.exp (((f1 * w1 + f2 * w2 : ℝ) : ℂ) * Complex.I) := by
    rw [← Complex.exp_sum, ← Finset.sum_mul, ← hangle]
    push_cast
    rfl
  refine ⟨w1, w2, hz1, hz2, hsum, ?_, ?_⟩
  · rw [← hexp]
    by_cases hc : L.KeepsComplex g.xdist g.ydist
    · rw [b4, (L.phaseMat_eq _ _).1 hc]
      simp only [hd, sub_self, norm_zero]
      positivity
    · rw [b4, (L.phaseMat_eq _ _).2 hc]
      refine (prod_close m _ _ (1 / 10 ^ 14) ?_ ?_ ?_).1
      · intro k _
        rw [Complex.norm_real, Real.norm_eq_abs]
        exact Real.abs_cos_le_one _
      · intro k _
        exact (Complex.norm_exp_ofReal_mul_I _).le
      · intro k _
        have := Lattice.sin_small hc (fun i j => (b2 i j).1) (fun i j => (b2 i j).2.1) (s k)
          (b1 ▸ hs k) (s (k + 1)) (b1 ▸ hs (k + 1))
        rw [Complex.exp_mul_I]
        simp only [hd] at this ⊢
        rw [← Complex.ofReal_cos, ← Complex.ofReal_sin, sub_add_cancel_left, norm_neg, norm_mul,
          Complex.norm_I, mul_one, Complex.norm_real, Real.norm_eq_abs]
        refine this.trans (le_of_eq ?_)
        norm_num
  · rintro ⟨i, hi, j, hj, hne⟩
    rw [b4] at hne ⊢
    by_cases hc : L.KeepsComplex g.xdist g.ydist
    · rw [(L.phaseMat_eq _ _).1 hc]
      exact hexp
    · rw [(L.phaseMat_eq _ _).2 hc] at hne
      simp at hne

end ED.Props
