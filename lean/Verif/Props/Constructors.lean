import Verif.Lemmas.LatticeInit
import Verif.Props.LatticeSites
import Verif.Props.Periodic

/-!
# The lattice constructors (C50, C51, C97, C98)
-/

namespace ED.Props

open ED ED.Geometry Classical

/-! ## Numbers of sites -/

private theorem count {l1 l2 p1 p2 : ℝ × ℝ} {n m i j : ℤ} (h : CellData l1 l2 p1 p2 n m i j)
    (basis : List (ℝ × ℝ)) (hb : basis.Nodup)
    (hr : ∀ v ∈ basis, ∀ w ∈ basis, ∀ a b : ℤ, (a ≠ 0 ∨ b ≠ 0 ∨ v ≠ w) →
      1 / 10 ^ 14 < |(a • l1 + b • l2 + (v - w)).1| ∨ 1 / 10 ^ 14 < |(a • l1 + b • l2 + (v - w)).2|)
    (f1 f2 : ℝ) (o1 o2 : Bool) :
    ∃ g, Geometry.createLattice l1 l2 basis p1 p2 f1 f2 o1 o2 = .ok g ∧
      g.nsites = (n * j - m * i).natAbs * basis.length ∧ g.ylocs.length = g.nsites := by
  obtain ⟨H, L, sites, g, hH, hlp, hs, hL, c1, c2, hg, hx, hy, -, hc⟩ := h.create basis f1 f2 o1 o2
  obtain ⟨e1, e2, e3, -⟩ := Lattice.init_fields hH
  obtain ⟨sites', hs', hlen⟩ := C50_count hlp (by
    unfold Resolved
    rw [e1, e2, e3]
    exact hr) (e3 ▸ hb)
  rw [hs] at hs'
  injection hs' with hs'
  subst hs'
  refine ⟨g, hc, ?_, ?_⟩
  · unfold Geometry.nsites
    rw [hx, List.length_map, hlen, e3]
  · unfold Geometry.nsites
    rw [hx, hy, List.length_map, List.length_map]

private theorem big (k : ℤ) (hk : k ≠ 0) : (1 : ℝ) ≤ |(k : ℝ)| := by
  rw [← Int.cast_abs]
  exact_mod_cast Int.one_le_abs hk

private theorem nonNegligible_of {v : ℝ × ℝ} (h : 1 ≤ v.1 ^ 2 + v.2 ^ 2) : NonNegligible v := by
  unfold NonNegligible
  have : (1 : ℝ) ≤ Real.sqrt (v.1 ^ 2 + v.2 ^ 2) := by
    rw [Real.le_sqrt' one_pos]
    linarith
  exact lt_of_lt_of_le (by norm_num) this

private theorem square_resolved : ∀ v ∈ [((0, 0) : ℝ × ℝ)], ∀ w ∈ [((0, 0) : ℝ × ℝ)], ∀ a b : ℤ,
    (a ≠ 0 ∨ b ≠ 0 ∨ v ≠ w) →
      1 / 10 ^ 14 < |(a • ((1, 0) : ℝ × ℝ) + b • ((0, 1) : ℝ × ℝ) + (v - w)).1| ∨
      1 / 10 ^ 14 < |(a • ((1, 0) : ℝ × ℝ) + b • ((0, 1) : ℝ × ℝ) + (v - w)).2| := by
  intro v hv w hw a b hab
  rw [List.mem_singleton] at hv hw
  subst hv hw
  replace hab : a ≠ 0 ∨ b ≠ 0 := by tauto
  rw [zsmul_pair, zsmul_pair]
  simp only [mul_one, mul_zero, sub_self, Prod.mk_add_mk, add_zero, zero_add]
  have small : (1 : ℝ) / 10 ^ 14 < 1 := by norm_num
  exact hab.imp (fun h => small.trans_le (big a h)) (fun h => small.trans_le (big b h))

theorem square_data {p1 p2 : ℝ × ℝ} {n m i j : ℤ} (h1 : p1 = ((n : ℝ), (m : ℝ)))
    (h2 : p2 = ((i : ℝ), (j : ℝ))) (hd : n * j - m * i ≠ 0) :
    CellData (1, 0) (0, 1) p1 p2 n m i j := by
  have sq : ∀ k l : ℤ, (k ≠ 0 ∨ l ≠ 0) → (1 : ℝ) ≤ (k : ℝ) ^ 2 + (l : ℝ) ^ 2 := by
    intro k l hkl
    have : (1 : ℤ) ≤ k ^ 2 + l ^ 2 := by
      rcases hkl with h | h
      · have := pow_pos (abs_pos.2 h) 2
        rw [sq_abs] at this
        nlinarith [sq_nonneg l]
      · have := pow_pos (abs_pos.2 h) 2
        rw [sq_abs] at this
        nlinarith [sq_nonneg k]
    exact_mod_cast this
  refine ⟨nonNegligible_of (by norm_num), nonNegligible_of (by norm_num), ?_, ?_, ?_, hd, ?_, ?_⟩
  · unfold det2; norm_num
  · rw [h1]; ext <;> simp
  · rw [h2]; ext <;> simp
  · rw [h1]
    refine nonNegligible_of (sq n m ?_)
    by_contra hc
    push Not at hc
    rw [hc.1, hc.2] at hd
    simp at hd
  · rw [h2]
    refine nonNegligible_of (sq i j ?_)
    by_contra hc
    push Not at hc
    rw [hc.1, hc.2] at hd
    simp at hd

theorem guard_ok {n : ℕ} {o : Bool} (h : n = 1 → o = true) : ¬ (n = 1 ∧ ¬ o = true) :=
  fun hc => hc.2 (h hc.1)

/-- C50: `createSquareGeometry` makes `nx * ny` sites. -/
theorem C50_square (nx ny : ℕ) (hx : 0 < nx) (hy : 0 < ny) (f1 f2 : ℝ) (o1 o2 : Bool)
    (h1 : nx = 1 → o1 = true) (h2 : ny = 1 → o2 = true) :
    ∃ g, createSquare nx ny f1 f2 o1 o2 = .ok g ∧ g.nsites = nx * ny ∧ g.ylocs.length = nx * ny := by
  have hd : (nx : ℤ) * (ny : ℤ) - 0 * 0 ≠ 0 := by
    rw [mul_zero, sub_zero]
    exact_mod_cast (Nat.mul_pos hx hy).ne'
  obtain ⟨g, hg, hn, hl⟩ := count (p1 := ((nx : ℝ), 0)) (p2 := (0, (ny : ℝ)))
    (square_data (n := nx) (m := 0) (i := 0) (j := ny) (by simp) (by simp) hd) [(0, 0)] (by simp)
    square_resolved f1 f2 o1 o2
  have hnn : g.nsites = nx * ny := by
    rw [hn]
    simp [Int.natAbs_mul]
  refine ⟨g, ?_, hnn, hl.trans hnn⟩
  unfold createSquare
  rw [if_neg (guard_ok h1), if_neg (guard_ok h2)]
  exact hg

/-- C50: `createTiltedSquareGeometry` makes `right ^ 2 + up ^ 2` sites. -/
theorem C50_tilted (right up : ℤ) (h : right ≠ 0 ∨ up ≠ 0) (f1 f2 : ℝ) (o1 o2 : Bool) :
    ∃ g, createTiltedSquare right up f1 f2 o1 o2 = .ok g ∧ (g.nsites : ℤ) = right ^ 2 + up ^ 2 ∧
      g.ylocs.length = g.nsites := by
  have hpos : 0 < right * right - up * -up := by
    rcases h with h | h
    · nlinarith [mul_self_pos.2 h, mul_self_nonneg up]
    · nlinarith [mul_self_pos.2 h, mul_self_nonneg right]
  obtain ⟨g, hg, hn, hl⟩ := count (p1 := ((right : ℝ), (up : ℝ))) (p2 := (-(up : ℝ), (right : ℝ)))
    (square_data (n := right) (m := up) (i := -up) (j := right) (by simp) (by simp) hpos.ne')
    [(0, 0)] (by simp) square_resolved f1 f2 o1 o2
  refine ⟨g, hg, ?_, hl⟩
  rw [hn]
  push_cast
  rw [abs_of_pos hpos]
  simp only [List.length_singleton, Nat.cast_one]
  ring

private theorem sqrt3 : (1 : ℝ) < Real.sqrt 3 ∧ Real.sqrt 3 ^ 2 = 3 := by
  constructor
  · rw [Real.lt_sqrt (by norm_num)]
    norm_num
  · exact Real.sq_sqrt (by norm_num)

/-- C50: `createTriangleGeometry` makes `n1 * n2` sites. -/
theorem C50_triangle (n1 n2 : ℕ) (hn1 : 0 < n1) (hn2 : 0 < n2) (f1 f2 : ℝ) (o1 o2 : Bool)
    (h1 : n1 = 1 → o1 = true) (h2 : n2 = 1 → o2 = true) :
    ∃ g, createTriangle n1 n2 f1 f2 o1 o2 = .ok g ∧ g.nsites = n1 * n2 ∧
      g.ylocs.length = n1 * n2 := by
  obtain ⟨s1, s2⟩ := sqrt3
  have c1 : (1 : ℝ) ≤ n1 := by exact_mod_cast hn1
  have c2 : (1 : ℝ) ≤ n2 := by exact_mod_cast hn2
  have data : CellData (1, 0) (1 / 2, Real.sqrt 3 / 2) ((n1 : ℝ), 0)
      ((n2 : ℝ) * (1 / 2), (n2 : ℝ) * (Real.sqrt 3 / 2)) n1 0 0 n2 := by
    refine ⟨nonNegligible_of (by norm_num), nonNegligible_of ?_, ?_, ?_, ?_, ?_, nonNegligible_of ?_,
      nonNegligible_of ?_⟩
    · simp only [div_pow, s2]; norm_num
    · unfold det2
      simp only [one_mul, zero_mul, sub_zero]
      rw [abs_of_pos (by linarith)]
      linarith [show (1 : ℝ) / 2 / 10 ^ 14 < 1 / 2 by norm_num]
    · ext <;> simp
    · rw [zero_smul, zero_add, zsmul_pair]
      norm_num
    · rw [zero_mul, sub_zero]
      exact_mod_cast (Nat.mul_pos hn1 hn2).ne'
    · simp only
      nlinarith
    · simp only [mul_pow, div_pow, s2]
      nlinarith
  obtain ⟨g, hg, hn, hl⟩ := count data [(0, 0)] (by simp) (by
    intro v hv w hw a b hab
    rw [List.mem_singleton] at hv hw
    subst hv hw
    replace hab : a ≠ 0 ∨ b ≠ 0 := by tauto
    rw [zsmul_pair, zsmul_pair]
    simp only [mul_one, mul_zero, sub_self, Prod.mk_add_mk, add_zero, zero_add]
    have small : (1 : ℝ) / 10 ^ 14 < 1 / 2 := by norm_num
    by_cases hb : b = 0
    · left
      rw [hb]
      simp only [Int.cast_zero, zero_mul, add_zero]
      have := big a (hab.resolve_right (not_not.2 hb))
      linarith
    · right
      rw [abs_mul, abs_of_pos (show (0 : ℝ) < Real.sqrt 3 / 2 by linarith)]
      have := big b hb
      nlinarith) f1 f2 o1 o2
  have hnn : g.nsites = n1 * n2 := by
    rw [hn]
    simp [Int.natAbs_mul]
  refine ⟨g, ?_, hnn, hl.trans hnn⟩
  unfold createTriangle
  rw [if_neg (guard_ok h1), if_neg (guard_ok h2)]
  exact hg

/-- C50: `createHexagonalGeometry` makes `4 * n1 * n2` sites. -/
theorem C50_hexagonal (n1 n2 : ℕ) (hn1 : 0 < n1) (hn2 : 0 < n2) (f1 f2 : ℝ) (o1 o2 : Bool)
    (h1 : n1 = 1 → o1 = true) (h2 : n2 = 1 → o2 = true) :
    ∃ g, createHexagonal n1 n2 f1 f2 o1 o2 = .ok g ∧ g.nsites = 4 * n1 * n2 ∧
      g.ylocs.length = 4 * n1 * n2 := by
  obtain ⟨s1, s2⟩ := sqrt3
  have c1 : (1 : ℝ) ≤ n1 := by exact_mod_cast hn1
  have c2 : (1 : ℝ) ≤ n2 := by exact_mod_cast hn2
  have hz : (0 : ℤ) < n1 * n2 := by exact_mod_cast Nat.mul_pos hn1 hn2
  have data : CellData (3 / 2, Real.sqrt 3 / 2) (3 / 2, -(Real.sqrt 3 / 2)) ((n1 : ℝ) * 3, 0)
      (0, (n2 : ℝ) * Real.sqrt 3) n1 n1 n2 (-n2) := by
    refine ⟨nonNegligible_of ?_, nonNegligible_of ?_, ?_, ?_, ?_, ?_, nonNegligible_of ?_,
      nonNegligible_of ?_⟩
    · simp only [div_pow, s2]; norm_num
    · simp only [neg_sq, div_pow, s2]; norm_num
    · unfold det2
      simp only
      rw [show (3 : ℝ) / 2 * -(Real.sqrt 3 / 2) - Real.sqrt 3 / 2 * (3 / 2) = -(3 / 2 * Real.sqrt 3) by ring,
        abs_neg, abs_of_pos (by linarith)]
      linarith [show (1 : ℝ) / 2 / 10 ^ 14 < 1 / 2 by norm_num]
    · rw [zsmul_pair, zsmul_pair]
      simp only [Int.cast_natCast, Prod.mk_add_mk, Prod.mk.injEq]
      constructor <;> ring
    · rw [zsmul_pair, zsmul_pair]
      push_cast
      simp only [Prod.mk_add_mk, Prod.mk.injEq]
      constructor <;> ring
    · intro hc
      linarith
    · simp only
      nlinarith
    · simp only [mul_pow, s2]
      nlinarith
  have hne : ((-1, 0) : ℝ × ℝ) ≠ (-(1 / 2), Real.sqrt 3 / 2) := by
    intro hc
    have := congrArg Prod.fst hc
    norm_num at this
  obtain ⟨g, hg, hn, hl⟩ := count data [(-1, 0), (-(1 / 2), Real.sqrt 3 / 2)] (by simpa using hne) (by
    intro v hv w hw a b hab
    have small : (1 : ℝ) / 10 ^ 14 < 1 / 2 := by norm_num
    have half : ∀ k : ℤ, k ≠ 0 → (1 : ℝ) / 10 ^ 14 < |(k : ℝ) / 2| := by
      intro k hk
      rw [abs_div, abs_of_pos (show (0 : ℝ) < 2 by norm_num)]
      have := big k hk
      linarith
    have same : (a ≠ 0 ∨ b ≠ 0) →
        1 / 10 ^ 14 < |(a • ((3 / 2, Real.sqrt 3 / 2) : ℝ × ℝ) + b • ((3 / 2, -(Real.sqrt 3 / 2)) : ℝ × ℝ) +
          0).1| ∨
        1 / 10 ^ 14 < |(a • ((3 / 2, Real.sqrt 3 / 2) : ℝ × ℝ) + b • ((3 / 2, -(Real.sqrt 3 / 2)) : ℝ × ℝ) +
          0).2| := by
      intro hab
      rw [zsmul_pair, zsmul_pair]
      simp only [Prod.mk_add_mk, add_zero]
      by_cases hs : a + b = 0
      · right
        have ha : a ≠ 0 := by omega
        have hb : (b : ℝ) = -a := by
          have : b = -a := by omega
          rw [this]; push_cast; rfl
        rw [hb, show (a : ℝ) * (Real.sqrt 3 / 2) + -(a : ℝ) * -(Real.sqrt 3 / 2) = a * Real.sqrt 3 by ring,
          abs_mul, abs_of_pos (show (0 : ℝ) < Real.sqrt 3 by linarith)]
        have := big a ha
        nlinarith
      · left
        have := half (3 * (a + b)) (by omega)
        push_cast at this
        rwa [show (a : ℝ) * (3 / 2) + b * (3 / 2) = 3 * (a + b) / 2 by ring]
    have diff : ∀ e : ℤ, e = 1 ∨ e = -1 → ∀ t : ℝ × ℝ, t.1 = (e : ℝ) / 2 →
        1 / 10 ^ 14 < |(a • ((3 / 2, Real.sqrt 3 / 2) : ℝ × ℝ) + b • ((3 / 2, -(Real.sqrt 3 / 2)) : ℝ × ℝ) +
          t).1| := by
      intro e he t ht
      rw [zsmul_pair, zsmul_pair]
      simp only [Prod.mk_add_mk, Prod.fst_add]
      rw [ht]
      have := half (3 * (a + b) + e) (by omega)
      push_cast at this
      rwa [show (a : ℝ) * (3 / 2) + b * (3 / 2) + (e : ℝ) / 2 = (3 * (a + b) + e) / 2 by ring]
    simp only [List.mem_cons, List.not_mem_nil, or_false] at hv hw
    rcases hv with rfl | rfl <;> rcases hw with rfl | rfl
    · rw [sub_self]
      exact same (by tauto)
    · left
      exact diff (-1) (Or.inr rfl) _ (by norm_num)
    · left
      exact diff 1 (Or.inl rfl) _ (by norm_num)
    · rw [sub_self]
      exact same (by tauto)) f1 f2 o1 o2
  have hnn : g.nsites = 4 * n1 * n2 := by
    rw [hn]
    have : ((n1 : ℤ) * -n2 - n1 * n2).natAbs = 2 * (n1 * n2) := by
      rw [show (n1 : ℤ) * -n2 - n1 * n2 = -((2 * (n1 * n2) : ℕ) : ℤ) by push_cast; ring, Int.natAbs_neg,
        Int.natAbs_natCast]
    rw [this]
    simp only [List.length_cons, List.length_nil]
    ring
  refine ⟨g, ?_, hnn, hl.trans hnn⟩
  unfold createHexagonal
  rw [if_neg (guard_ok h1), if_neg (guard_ok h2)]
  exact hg

/-- C50: a periodic direction with a single cell is rejected. -/
theorem C50_single_rejected (n : ℕ) (f1 f2 : ℝ) (o : Bool) :
    createSquare 1 n f1 f2 false o = .error .value ∧
    createTriangle 1 n f1 f2 false o = .error .value ∧
    createHexagonal 1 n f1 f2 false o = .error .value ∧
    ((n = 1 → o = true) → createSquare n 1 f1 f2 o false = .error .value ∧
      createTriangle n 1 f1 f2 o false = .error .value ∧
      createHexagonal n 1 f1 f2 o false = .error .value) := by
  refine ⟨rfl, rfl, rfl, fun h => ?_⟩
  refine ⟨?_, ?_, ?_⟩
  · unfold createSquare
    rw [if_neg (guard_ok h)]
    rfl
  · unfold createTriangle
    rw [if_neg (guard_ok h)]
    rfl
  · unfold createHexagonal
    rw [if_neg (guard_ok h)]
    rfl

/-! ## The square lattice -/

/-- C50: the sites of `createSquareGeometry` are the points `(a, b)` with `a < nx` and `b < ny`, each
once. -/
theorem C50_square_grid (nx ny : ℕ) (hx : 0 < nx) (hy : 0 < ny) (harea : nx * ny ≤ 10 ^ 14) (f1 f2 : ℝ)
    (o1 o2 : Bool) (h1 : nx = 1 → o1 = true) (h2 : ny = 1 → o2 = true) :
    ∃ g, createSquare nx ny f1 f2 o1 o2 = .ok g ∧ g.xlocs.length = g.ylocs.length ∧
      (g.xlocs.zip g.ylocs).Nodup ∧
      ∀ x y : ℝ, (x, y) ∈ g.xlocs.zip g.ylocs ↔ ∃ a b : ℕ, a < nx ∧ b < ny ∧ x = a ∧ y = b := by
  have hd : (nx : ℤ) * (ny : ℤ) - 0 * 0 ≠ 0 := by
    rw [mul_zero, sub_zero]
    exact_mod_cast (Nat.mul_pos hx hy).ne'
  have data := square_data (p1 := ((nx : ℝ), 0)) (p2 := (0, (ny : ℝ)))
    (n := nx) (m := 0) (i := 0) (j := ny) (by simp) (by simp) hd
  obtain ⟨H, L, sites, g, hH, hlp, hs, hL, c1, c2, hg, hgx, hgy, -, hc⟩ := data.create [(0, 0)] f1 f2 o1 o2
  obtain ⟨e1, e2, e3, e4, e5, -⟩ := Lattice.init_fields hH
  have i1 : Integral H.latt1 := ⟨1, 0, by rw [e1]; simp⟩
  have i2 : Integral H.latt2 := ⟨0, 1, by rw [e2]; simp⟩
  have i3 : ∀ v ∈ H.basis, Integral v := by
    rw [e3]
    simp only [List.mem_singleton, forall_eq]
    exact ⟨0, 0, by simp⟩
  have ar : |H.per1.1 * H.per2.2 - H.per1.2 * H.per2.1| ≤ 10 ^ 14 := by
    rw [e4, e5]
    simp only [mul_zero, sub_zero]
    rw [abs_of_nonneg (by positivity)]
    exact_mod_cast harea
  obtain ⟨sites', hs', hnd, hin, -, hall⟩ := C50_integer hlp i1 i2 i3
  rw [hs] at hs'
  injection hs' with hs'
  subst hs'
  obtain ⟨sites', hs', hcell⟩ := C50_exact_cell hlp i1 i2 i3 ar
  rw [hs] at hs'
  injection hs' with hs'
  subst hs'
  have hzip : g.xlocs.zip g.ylocs = sites := by
    rw [hgx, hgy, List.zip_map']
    simp
  have cx : (0 : ℝ) < nx := by exact_mod_cast hx
  have cy : (0 : ℝ) < ny := by exact_mod_cast hy
  have site : ∀ p ∈ sites, ∃ a b : ℕ, a < nx ∧ b < ny ∧ p = ((a : ℝ), (b : ℝ)) := by
    intro p hp
    obtain ⟨-, a, b, v, hv, hpv⟩ := hin p hp
    obtain ⟨s, t, hst, s0, s1, t0, t1⟩ := hcell p hp
    rw [e4, e5] at hst
    rw [e3, List.mem_singleton] at hv
    rw [e1, e2, hv, zsmul_pair, zsmul_pair] at hpv
    simp only [mul_one, mul_zero, Prod.mk_add_mk, add_zero, zero_add] at hpv
    have q1 := congrArg Prod.fst (hpv.symm.trans hst)
    have q2 := congrArg Prod.snd (hpv.symm.trans hst)
    simp only [Prod.smul_mk, smul_eq_mul, mul_zero, Prod.mk_add_mk, add_zero, zero_add] at q1 q2
    have a0 : (0 : ℤ) ≤ a := by
      have : (0 : ℝ) ≤ a := by rw [q1]; positivity
      exact_mod_cast this
    have b0 : (0 : ℤ) ≤ b := by
      have : (0 : ℝ) ≤ b := by rw [q2]; positivity
      exact_mod_cast this
    have a1 : a < nx := by
      have : (a : ℝ) < nx := by rw [q1]; nlinarith
      exact_mod_cast this
    have b1 : b < ny := by
      have : (b : ℝ) < ny := by rw [q2]; nlinarith
      exact_mod_cast this
    obtain ⟨a, rfl⟩ := Int.eq_ofNat_of_zero_le a0
    obtain ⟨b, rfl⟩ := Int.eq_ofNat_of_zero_le b0
    exact ⟨a, b, by exact_mod_cast a1, by exact_mod_cast b1, by rw [hpv]; simp⟩
  refine ⟨g, ?_, by rw [hgx, hgy]; simp, hzip ▸ hnd, fun x y => ?_⟩
  · unfold createSquare
    rw [if_neg (guard_ok h1), if_neg (guard_ok h2)]
    exact hc
  · rw [hzip]
    constructor
    · intro hp
      obtain ⟨a, b, ha, hb, e⟩ := site _ hp
      exact ⟨a, b, ha, hb, congrArg Prod.fst e, congrArg Prod.snd e⟩
    · rintro ⟨a, b, ha, hb, rfl, rfl⟩
      obtain ⟨p, hp, k, l, hkl⟩ := hall a b (0, 0) (by rw [e3]; simp)
      obtain ⟨a', b', ha', hb', e⟩ := site p hp
      rw [e1, e2, e4, e5, e] at hkl
      simp only [zsmul_pair, mul_one, mul_zero, Prod.mk_add_mk, add_zero, zero_add, Prod.mk.injEq,
        Int.cast_natCast] at hkl
      have mod : ∀ (n u u' : ℕ) (k : ℤ), u < n → u' < n → (u' : ℝ) = u + k * n → u' = u := by
        intro n u u' k hu hu' h
        have h' : (u' : ℤ) = u + k * n := by exact_mod_cast h
        have r1 := Int.emod_eq_of_lt (a := (u : ℤ)) (b := n) (by omega) (by omega)
        have r2 := Int.emod_eq_of_lt (a := (u' : ℤ)) (b := n) (by omega) (by omega)
        rw [h', Int.add_mul_emod_self_right, r1] at r2
        omega
      have m1 := mod nx a a' k ha ha' hkl.1
      have m2 := mod ny b b' l hb hb' hkl.2
      rw [e, m1, m2] at hp
      exact hp

/-- The rows for periodicity vectors along the axes. -/
private theorem axis_rows {a b : ℝ} (ha : a = 0 ∨ 1 ≤ a) (hb : b = 0 ∨ 1 ≤ b) :
    projRows (a, 0) (0, b) = .ok ((a⁻¹, 0), (0, b⁻¹)) := by
  have z : ¬ NonNegligible ((0, 0) : ℝ × ℝ) := not_nonNegligible_zero
  have n1 : 1 ≤ a → NonNegligible ((a, 0) : ℝ × ℝ) := fun h => nonNegligible_of (by simp only; nlinarith)
  have n2 : 1 ≤ b → NonNegligible ((0, b) : ℝ × ℝ) := fun h => nonNegligible_of (by simp only; nlinarith)
  rcases ha with rfl | ha <;> rcases hb with rfl | hb
  · rw [projRows_none z z]
    simp
  · have : b ≠ 0 := by linarith
    rw [projRows_second z (n2 hb)]
    simp only [len2_sq, inv_zero, mul_zero, zero_add, zero_div]
    congr 3
    field_simp
  · have : a ≠ 0 := by linarith
    rw [projRows_first (n1 ha) z]
    simp only [len2_sq, inv_zero, mul_zero, add_zero, zero_div]
    congr 3
    field_simp
  · have h1 : a ≠ 0 := by linarith
    have h2 : b ≠ 0 := by linarith
    rw [projRows_indep (n1 ha) (n2 hb) (by unfold Indep; simp [h1, h2])]
    simp only [det2, mul_zero, sub_zero, neg_zero, zero_div]
    congr 3
    · field_simp
    · field_simp

private theorem axis_window {a : ℝ} (ha : a = 0 ∨ 1 ≤ a) (d : ℝ) :
    a ≠ 0 → |d - cellIndex true (a⁻¹ * d) * a| ≤ a * (1 / 2 + 1 / 2 / 10 ^ 14) := by
  intro h0
  have h1 := ha.resolve_left h0
  obtain ⟨w1, w2⟩ := cellIndex_window true (a⁻¹ * d)
  simp only [cellLow, if_true] at w1 w2
  have e : d - cellIndex true (a⁻¹ * d) * a = a * (a⁻¹ * d - cellIndex true (a⁻¹ * d)) := by
    field_simp
  have small : (0 : ℝ) < 1 / 2 / 10 ^ 14 := by norm_num
  rw [e, abs_mul, abs_of_pos (by linarith : (0 : ℝ) < a)]
  refine mul_le_mul_of_nonneg_left ?_ (by linarith)
  rw [abs_le]
  constructor <;> linarith

/-- A separation along one axis equivalent to zero or one step, in the centred cell. -/
private theorem axis_step {n : ℕ} (hn : n < 10 ^ 14) {x d k k' e : ℤ} (hx : x = d + k * n)
    (he : e = d + k' * n) (hw : (|x| : ℝ) ≤ n * (1 / 2 + 1 / 2 / 10 ^ 14)) (hn2 : e = 0 ∧ 1 ≤ n ∨ |e| = 1 ∧ 2 ≤ n) :
    |x| = |e| := by
  have hn' : (n : ℝ) < 10 ^ 14 := by exact_mod_cast hn
  have h2 : 2 * |x| < n + 1 := by
    have : (2 * |x| : ℝ) < n + 1 := by
      have : (n : ℝ) * (1 / 2 / 10 ^ 14) < 1 / 2 := by
        rw [← lt_div_iff₀ (by norm_num)]
        exact lt_of_lt_of_eq hn' (by norm_num)
      rw [Int.cast_abs]
      linarith
    exact_mod_cast this
  have h3 : x = e + (k - k') * n := by rw [hx, he]; ring
  set m := k - k'
  have habs : ∀ z : ℤ, |z| = max z (-z) := fun z => rfl
  rcases hn2 with ⟨rfl, h1⟩ | ⟨he1, h1⟩
  · have : m = 0 := by
      by_contra hm
      have := Int.one_le_abs hm
      rw [h3, zero_add, abs_mul, Nat.abs_cast] at h2
      nlinarith
    rw [h3, this]
    simp
  · by_cases hm : m = 0
    · rw [h3, hm]; simp
    · have h4 : (n : ℤ) - 1 ≤ |x| := by
        have h5 := Int.one_le_abs hm
        have h6 : |m * n| ≤ |x| + |e| := by
          rw [show m * (n : ℤ) = x - e by rw [h3]; ring]
          exact abs_sub x e
        rw [abs_mul, Nat.abs_cast, he1] at h6
        nlinarith
      have h7 : n = 2 := by omega
      subst h7
      have h8 : |x| ≤ 1 := by omega
      have h9 : x ≠ 0 := by
        rintro rfl
        rcases (abs_eq one_pos.le).1 he1 with h | h <;> (push_cast at h3; omega)
      have := Int.one_le_abs h9
      omega

theorem hunit (u v : ℤ) : u ^ 2 + v ^ 2 = 1 ↔ (|u| = 1 ∧ v = 0) ∨ (u = 0 ∧ |v| = 1) := by
  constructor
  · intro h
    have hu : u ^ 2 ≤ 1 := by nlinarith [sq_nonneg v]
    have hv : v ^ 2 ≤ 1 := by nlinarith [sq_nonneg u]
    rw [sq_le_one_iff_abs_le_one] at hu hv
    obtain ⟨hu1, hu2⟩ := abs_le.1 hu
    obtain ⟨hv1, hv2⟩ := abs_le.1 hv
    clear hu hv
    interval_cases u <;> interval_cases v <;> simp_all
  · rintro (⟨h, rfl⟩ | ⟨rfl, h⟩)
    · rw [← sq_abs, h]; norm_num
    · rw [← sq_abs v, h]; norm_num

private theorem hset (u v : ℤ) :
    (((u : ℝ), (v : ℝ)) ∈ ({(1, 0), (-1, 0), (0, 1), (0, -1)} : Set (ℝ × ℝ))) ↔ u ^ 2 + v ^ 2 = 1 := by
  rw [hunit]
  simp only [Set.mem_insert_iff, Set.mem_singleton_iff, Prod.mk.injEq, abs_eq (zero_le_one' ℤ)]
  norm_cast
  tauto

/-- C51 on the square lattice: two sites are adjacent exactly if they are nearest neighbours, directly or
through a periodic boundary. -/
theorem C51_square (nx ny : ℕ) (hx : 0 < nx) (hy : 0 < ny) (harea : nx * ny < 10 ^ 14) (f1 f2 : ℝ)
    (o1 o2 : Bool) (h1 : nx = 1 → o1 = true) (h2 : ny = 1 → o2 = true) {g : Geometry}
    (hg : createSquare nx ny f1 f2 o1 o2 = .ok g) {i j : ℕ} {xi yi xj yj : ℝ}
    (hxi : g.xlocs[i]? = some xi) (hyi : g.ylocs[i]? = some yi) (hxj : g.xlocs[j]? = some xj)
    (hyj : g.ylocs[j]? = some yj) :
    (g.adjacency.e i j = 0 ∨ g.adjacency.e i j = 1) ∧
    (g.adjacency.e i j = 1 ↔ ∃ k l : ℤ, (o1 = true → k = 0) ∧ (o2 = true → l = 0) ∧
      (xi - xj + k * nx, yi - yj + l * ny) ∈ ({(1, 0), (-1, 0), (0, 1), (0, -1)} : Set (ℝ × ℝ))) := by
  have hd : (nx : ℤ) * (ny : ℤ) - 0 * 0 ≠ 0 := by
    rw [mul_zero, sub_zero]
    exact_mod_cast (Nat.mul_pos hx hy).ne'
  have data := square_data (p1 := ((nx : ℝ), 0)) (p2 := (0, (ny : ℝ)))
    (n := nx) (m := 0) (i := 0) (j := ny) (by simp) (by simp) hd
  obtain ⟨H, L, sites, g', hH, hlp, hs, hL, c1, c2, hgi, hgx, hgy, -, hc⟩ :=
    data.create [(0, 0)] f1 f2 o1 o2
  obtain ⟨g'', hg'', hlen, -, hgrid⟩ := C50_square_grid nx ny hx hy harea.le f1 f2 o1 o2 h1 h2
  rw [hg] at hg''
  injection hg'' with e
  subst e
  have hgg : g' = g := by
    unfold createSquare at hg
    rw [if_neg (guard_ok h1), if_neg (guard_ok h2)] at hg
    have := hc.symm.trans hg
    injection this
  subst hgg
  obtain ⟨q1, q2, q3, q4, q5, -⟩ := Lattice.init_fields hL
  have hgood := Lattice.init_good hL c1 c2
  -- the periodicity vectors
  set a : ℝ := if o1 then 0 else nx with ha
  set b : ℝ := if o2 then 0 else ny with hb
  have ha' : a = 0 ∨ 1 ≤ a := by
    rw [ha]
    cases o1
    · exact Or.inr (by simpa using Nat.succ_le_of_lt hx)
    · exact Or.inl rfl
  have hb' : b = 0 ∨ 1 ≤ b := by
    rw [hb]
    cases o2
    · exact Or.inr (by simpa using Nat.succ_le_of_lt hy)
    · exact Or.inl rfl
  have hp1 : L.per1 = (a, 0) := by rw [q4, ha]; cases o1 <;> simp
  have hp2 : L.per2 = (0, b) := by rw [q5, hb]; cases o2 <;> simp
  have hrows : projRows L.per1 L.per2 = .ok ((a⁻¹, 0), (0, b⁻¹)) := by
    rw [hp1, hp2]
    exact axis_rows ha' hb'
  have hlen' : (sites.map Prod.fst).length ≤ (sites.map Prod.snd).length := by simp
  obtain ⟨X, Y, N1, N2, a1, a2, a3, a4, a5, a6, a7⟩ := hgood.reducedDistance_ok hrows
    (sites.map Prod.fst) (sites.map Prod.snd) hlen'
  have hinit := hgood.init_ok (sites.map Prod.fst) (sites.map Prod.snd) hlen' none none a1 a2
    (fun i j => (a6 i j).1) (fun i j => (a6 i j).2.1)
  rw [hgi] at hinit
  injection hinit with hgeq
  -- integer positions
  have pos : ∀ {k : ℕ} {x y : ℝ}, g'.xlocs[k]? = some x → g'.ylocs[k]? = some y →
      ∃ u v : ℕ, u < nx ∧ v < ny ∧ x = u ∧ y = v := by
    intro k x y hk hk'
    apply (hgrid x y).1
    rw [List.mem_iff_getElem?]
    exact ⟨k, by rw [List.getElem?_zip_eq_some]; exact ⟨hk, hk'⟩⟩
  have hil : i < (sites.map Prod.fst).length := hgx ▸ (List.getElem?_eq_some_iff.1 hxi).1
  have hjl : j < (sites.map Prod.fst).length := hgx ▸ (List.getElem?_eq_some_iff.1 hxj).1
  have sepform : ∀ v : ℝ × ℝ, L.sep ((a⁻¹, 0), (0, b⁻¹)) v =
      (v.1 - cellIndex true (a⁻¹ * v.1) * a, v.2 - cellIndex true (b⁻¹ * v.2) * b) := by
    intro v
    unfold Lattice.sep redPoint idx1 idx2
    rw [hp1, hp2]
    simp only [dot2, zero_mul, add_zero, zero_add, zsmul_pair, mul_zero]
    ext <;> simp
  -- the separation of any two sites
  have sepfact : ∀ i j : ℕ, i < (sites.map Prod.fst).length → j < (sites.map Prod.fst).length →
      ∃ k l : ℤ, X.e i j = (sites.map Prod.fst).getD i 0 - (sites.map Prod.fst).getD j 0 + k * a ∧
        Y.e i j = (sites.map Prod.snd).getD i 0 - (sites.map Prod.snd).getD j 0 + l * b ∧
        (a ≠ 0 → |X.e i j| ≤ a * (1 / 2 + 1 / 2 / 10 ^ 14)) ∧
        (b ≠ 0 → |Y.e i j| ≤ b * (1 / 2 + 1 / 2 / 10 ^ 14)) := by
    have low : ∀ i j : ℕ, i < (sites.map Prod.fst).length → j < i →
      ∃ k l : ℤ, X.e i j = (sites.map Prod.fst).getD i 0 - (sites.map Prod.fst).getD j 0 + k * a ∧
        Y.e i j = (sites.map Prod.snd).getD i 0 - (sites.map Prod.snd).getD j 0 + l * b ∧
        (a ≠ 0 → |X.e i j| ≤ a * (1 / 2 + 1 / 2 / 10 ^ 14)) ∧
        (b ≠ 0 → |Y.e i j| ≤ b * (1 / 2 + 1 / 2 / 10 ^ 14)) := by
      intro i j hi hj
      have h := (a7 i hi j hj).1
      rw [sepform] at h
      have hX := congrArg Prod.fst h
      have hY := congrArg Prod.snd h
      simp only at hX hY
      refine ⟨-cellIndex true (a⁻¹ * ((sites.map Prod.fst).getD i 0 - (sites.map Prod.fst).getD j 0)),
        -cellIndex true (b⁻¹ * ((sites.map Prod.snd).getD i 0 - (sites.map Prod.snd).getD j 0)), ?_, ?_, ?_, ?_⟩
      · rw [hX]; push_cast; ring
      · rw [hY]; push_cast; ring
      · rw [hX]; exact axis_window ha' _
      · rw [hY]; exact axis_window hb' _
    intro i j hi hj
    rcases lt_trichotomy i j with hij | rfl | hij
    · obtain ⟨k, l, r1, r2, r3, r4⟩ := low j i hj hij
      refine ⟨-k, -l, ?_, ?_, ?_, ?_⟩
      · rw [(a6 i j).1, r1]; push_cast; ring
      · rw [(a6 i j).2.1, r2]; push_cast; ring
      · rw [(a6 i j).1, abs_neg]; exact r3
      · rw [(a6 i j).2.1, abs_neg]; exact r4
    · refine ⟨0, 0, ?_, ?_, ?_, ?_⟩
      · rw [(a6 i i).2.2.2.2.1]; simp
      · rw [(a6 i i).2.2.2.2.2.1]; simp
      · rw [(a6 i i).2.2.2.2.1, abs_zero]
        intro h0
        have := ha'.resolve_left h0
        positivity
      · rw [(a6 i i).2.2.2.2.2.1, abs_zero]
        intro h0
        have := hb'.resolve_left h0
        positivity
    · exact low i j hi hij
  obtain ⟨ui, vi, hui, hvi, rfl, rfl⟩ := pos hxi hyi
  obtain ⟨uj, vj, huj, hvj, rfl, rfl⟩ := pos hxj hyj
  obtain ⟨k, l, r1, r2, r3, r4⟩ := sepfact i j hil hjl
  have getx : ∀ {k : ℕ} {x : ℝ}, g'.xlocs[k]? = some x → (sites.map Prod.fst).getD k 0 = x := by
    intro k x h
    rw [← hgx, List.getD_eq_getElem?_getD, h]
    rfl
  have gety : ∀ {k : ℕ} {x : ℝ}, g'.ylocs[k]? = some x → (sites.map Prod.snd).getD k 0 = x := by
    intro k x h
    rw [← hgy, List.getD_eq_getElem?_getD, h]
    rfl
  rw [getx hxi, getx hxj] at r1
  rw [gety hyi, gety hyj] at r2
  -- integer separations
  obtain ⟨x, k1, hxk, hXx, hk1, hwx⟩ : ∃ x k1 : ℤ, x = (ui : ℤ) - uj + k1 * nx ∧ X.e i j = x ∧
      (o1 = true → k1 = 0) ∧ (o1 = false → (|x| : ℝ) ≤ nx * (1 / 2 + 1 / 2 / 10 ^ 14)) := by
    cases ho : o1
    · have haa : a = nx := by rw [ha, ho]; simp
      rw [haa] at r1 r3
      have : X.e i j = (((ui : ℤ) - uj + k * nx : ℤ) : ℝ) := by rw [r1]; push_cast; ring
      refine ⟨_, k, rfl, this, by simp, fun _ => ?_⟩
      rw [← this]
      exact r3 (by exact_mod_cast hx.ne')
    · have haa : a = 0 := by rw [ha, ho]; simp
      rw [haa] at r1
      refine ⟨(ui : ℤ) - uj + 0 * nx, 0, rfl, ?_, fun _ => rfl, by simp⟩
      rw [r1]; push_cast; ring
  obtain ⟨y, l1, hyl, hYy, hl1, hwy⟩ : ∃ y l1 : ℤ, y = (vi : ℤ) - vj + l1 * ny ∧ Y.e i j = y ∧
      (o2 = true → l1 = 0) ∧ (o2 = false → (|y| : ℝ) ≤ ny * (1 / 2 + 1 / 2 / 10 ^ 14)) := by
    cases ho : o2
    · have hbb : b = ny := by rw [hb, ho]; simp
      rw [hbb] at r2 r4
      have : Y.e i j = (((vi : ℤ) - vj + l * ny : ℤ) : ℝ) := by rw [r2]; push_cast; ring
      refine ⟨_, l, rfl, this, by simp, fun _ => ?_⟩
      rw [← this]
      exact r4 (by exact_mod_cast hy.ne')
    · have hbb : b = 0 := by rw [hb, ho]; simp
      rw [hbb] at r2
      refine ⟨(vi : ℤ) - vj + 0 * ny, 0, rfl, ?_, fun _ => rfl, by simp⟩
      rw [r2]; push_cast; ring
  -- the adjacency entry
  have hadj : g'.adjacency.e i j = if x ^ 2 + y ^ 2 = 1 then 1 else 0 := by
    rw [hgeq]
    simp only [unitAdjacency]
    rw [hXx, hYy]
    refine if_congr ?_ rfl rfl
    constructor
    · intro h
      have h' : npRound 14 (Real.sqrt ((x : ℝ) ^ 2 + (y : ℝ) ^ 2) - ((1 : ℤ) : ℝ)) = 0 := by
        rw [npRound_sub_int 14 (by norm_num), h]
        norm_num
      rw [npRound_eq_zero, abs_le] at h'
      set s := Real.sqrt ((x : ℝ) ^ 2 + (y : ℝ) ^ 2) with hs
      have hs2 : s ^ 2 = (x : ℝ) ^ 2 + (y : ℝ) ^ 2 := Real.sq_sqrt (by positivity)
      have small : (1 : ℝ) / 2 / 10 ^ 14 < 1 / 10 := by norm_num
      push_cast at h'
      have b1 : (0 : ℝ) < (x : ℝ) ^ 2 + (y : ℝ) ^ 2 := by rw [← hs2]; nlinarith
      have b2 : (x : ℝ) ^ 2 + (y : ℝ) ^ 2 < 2 := by rw [← hs2]; nlinarith
      have b1' : 0 < x ^ 2 + y ^ 2 := by exact_mod_cast b1
      have b2' : x ^ 2 + y ^ 2 < 2 := by exact_mod_cast b2
      omega
    · intro h
      have : (x : ℝ) ^ 2 + (y : ℝ) ^ 2 = 1 := by exact_mod_cast h
      rw [this, Real.sqrt_one]
      have := npRound_int (K := ℝ) 14 1
      push_cast at this
      exact this
  have hcast : ∀ k l : ℤ, ((ui : ℝ) - uj + k * nx, (vi : ℝ) - vj + l * ny) =
      ((((ui : ℤ) - uj + k * nx : ℤ) : ℝ), (((vi : ℤ) - vj + l * ny : ℤ) : ℝ)) := by
    intro k l
    push_cast
    rfl
  refine ⟨by rw [hadj]; split_ifs <;> simp, ?_⟩
  have h01 : ∀ P : Prop, ∀ [Decidable P], ((if P then (1 : ℝ) else 0) = 1 ↔ P) := by
    intro P _
    split_ifs with h <;> simp [h]
  rw [hadj, h01]
  constructor
  · intro h
    refine ⟨k1, l1, hk1, hl1, ?_⟩
    rw [hcast, hset, ← hxk, ← hyl]
    exact h
  · rintro ⟨k2, l2, hk2, hl2, hm⟩
    rw [hcast, hset] at hm
    have nxs : nx < 10 ^ 14 := lt_of_le_of_lt (Nat.le_mul_of_pos_right _ hy) harea
    have nys : ny < 10 ^ 14 := lt_of_le_of_lt (Nat.le_mul_of_pos_left _ hx) harea
    -- along a periodic axis the length of a step is that of the reduced step
    have ax : ∀ e : ℤ, e = (ui : ℤ) - uj + k2 * nx → (e = 0 ∨ |e| = 1) → |x| = |e| := by
      intro e he hcase
      cases ho : o1
      · have n2 : 2 ≤ nx := by
          by_contra hc
          have := h1 (by omega)
          rw [ho] at this
          exact absurd this (by simp)
        refine axis_step nxs hxk he (hwx ho) ?_
        rcases hcase with h | h
        · exact Or.inl ⟨h, hx⟩
        · exact Or.inr ⟨h, n2⟩
      · rw [hxk, he, hk1 ho, hk2 ho]
    have ay : ∀ e : ℤ, e = (vi : ℤ) - vj + l2 * ny → (e = 0 ∨ |e| = 1) → |y| = |e| := by
      intro e he hcase
      cases ho : o2
      · have n2 : 2 ≤ ny := by
          by_contra hc
          have := h2 (by omega)
          rw [ho] at this
          exact absurd this (by simp)
        refine axis_step nys hyl he (hwy ho) ?_
        rcases hcase with h | h
        · exact Or.inl ⟨h, hy⟩
        · exact Or.inr ⟨h, n2⟩
      · rw [hyl, he, hl1 ho, hl2 ho]
    rw [← sq_abs x, ← sq_abs y]
    rcases (hunit _ _).1 hm with ⟨e1, e2⟩ | ⟨e1, e2⟩
    · rw [ax _ rfl (Or.inr e1), ay _ rfl (Or.inl e2), sq_abs, sq_abs]
      exact hm
    · rw [ax _ rfl (Or.inl e1), ay _ rfl (Or.inr e2), sq_abs, sq_abs]
      exact hm

/-! ## A ring threaded by a flux -/

private theorem ring_index {n : ℕ} (hn : 3 ≤ n) : cellIndex true ((n : ℝ)⁻¹ * 1) = 0 ∧
    cellIndex true ((n : ℝ)⁻¹ * ((n : ℝ) - 1)) = 1 := by
  have c : (3 : ℝ) ≤ n := by exact_mod_cast hn
  have c0 : (0 : ℝ) < n := by linarith
  have hinv : (n : ℝ)⁻¹ ≤ 1 / 3 := by
    rw [inv_le_comm₀ c0 (by norm_num)]
    linarith
  have hpos : (0 : ℝ) < (n : ℝ)⁻¹ := inv_pos.2 c0
  have small : (1 : ℝ) / 2 / 10 ^ 14 < 1 / 100 := by norm_num
  constructor
  · obtain ⟨r1, r2⟩ := abs_le.1 (abs_npRound_sub 14 ((n : ℝ)⁻¹ * 1))
    rw [cellIndex_centered, Int.floor_eq_iff]
    push_cast
    constructor <;> linarith
  · have e : (n : ℝ)⁻¹ * ((n : ℝ) - 1) = 1 - (n : ℝ)⁻¹ := by field_simp
    rw [e]
    obtain ⟨r1, r2⟩ := abs_le.1 (abs_npRound_sub 14 (1 - (n : ℝ)⁻¹))
    rw [cellIndex_centered, Int.floor_eq_iff]
    push_cast
    constructor <;> linarith

/-- C52 for a ring: the product of the phases of the bonds `(k, k + 1)` around a periodic chain is
`exp(- i phase1)`, up to the imaginary parts below `10 ^ -14` that the library drops. -/
theorem C52_ring {n : ℕ} (hn : 3 ≤ n) {f1 f2 : ℝ} {L : Lattice}
    (hL : Lattice.init (1, 0) (0, 1) [(0, 0)] ((n : ℝ), 0) (0, 0) f1 f2 = .ok L) {g : Geometry}
    (hg : Geometry.init ((List.range n).map fun k : ℕ => (k : ℝ)) ((List.range n).map fun _ => 0) none none
      (some L) = .ok g) :
    ‖∏ k ∈ Finset.range n, g.phase.e k ((k + 1) % n) - Complex.exp (((-f1 : ℝ) : ℂ) * Complex.I)‖ ≤
      n * (1 / 10 ^ 14) := by
  have c : (3 : ℝ) ≤ n := by exact_mod_cast hn
  have hp : NonNegligible (((n : ℝ), 0) : ℝ × ℝ) := nonNegligible_of (by simp only; nlinarith)
  have hn0 : 0 < n := by omega
  obtain ⟨w1, w2, z1, z2, hsum, hprod, -⟩ := C52_loop hL (Or.inr hp) (Or.inl rfl) (by simp) hg n
    (fun k => k % n) (by intro k; simpa using Nat.mod_lt k hn0) (by simp)
  have hgood := Lattice.init_good hL (Or.inr hp) (Or.inl rfl)
  obtain ⟨q1, q2, q3, q4, q5, -⟩ := Lattice.init_fields hL
  have hrows : projRows L.per1 L.per2 = .ok (((n : ℝ)⁻¹, 0), (0, (0 : ℝ)⁻¹)) := by
    rw [q4, q5]
    exact axis_rows (Or.inr (by linarith)) (Or.inl rfl)
  set xs : List ℝ := (List.range n).map fun k : ℕ => (k : ℝ) with hxs
  set ys : List ℝ := (List.range n).map fun _ => (0 : ℝ) with hys
  have hlen : xs.length = n := by simp [hxs]
  obtain ⟨X, Y, N1, N2, a1, a2, a3, a4, a5, a6, a7⟩ := hgood.reducedDistance_ok hrows xs ys (by simp [hxs, hys])
  have hinit := hgood.init_ok xs ys (by simp [hxs, hys]) none none a1 a2
    (fun i j => (a6 i j).1) (fun i j => (a6 i j).2.1)
  rw [hg] at hinit
  injection hinit with hgeq
  have sepx : ∀ v : ℝ × ℝ, (L.sep (((n : ℝ)⁻¹, 0), (0, (0 : ℝ)⁻¹)) v).1 =
      v.1 - cellIndex true ((n : ℝ)⁻¹ * v.1) * n := by
    intro v
    unfold Lattice.sep redPoint idx1 idx2
    rw [q4, q5]
    simp only [dot2, zero_mul, add_zero]
    simp
  have getx : ∀ k < n, xs.getD k 0 = k := by
    intro k hk
    simp [hxs, hk]
  have low : ∀ i < n, ∀ j < i, X.e i j = ((i : ℝ) - j) - cellIndex true ((n : ℝ)⁻¹ * ((i : ℝ) - j)) * n := by
    intro i hi j hj
    have := congrArg Prod.fst (a7 i (by omega) j hj).1
    simp only [sepx] at this
    rw [this, getx i hi, getx j (by omega)]
  obtain ⟨i1, i2⟩ := ring_index hn
  have step : ∀ k < n, X.e k ((k + 1) % n) = -1 := by
    intro k hk
    by_cases hlast : k + 1 = n
    · rw [hlast, Nat.mod_self, low k hk 0 (by omega)]
      have : (k : ℝ) = (n : ℝ) - 1 := by
        rw [← hlast]; push_cast; ring
      rw [this]
      simp only [Nat.cast_zero, sub_zero]
      rw [i2]
      push_cast
      ring
    · rw [Nat.mod_eq_of_lt (by omega), (a6 k (k + 1)).1, low (k + 1) (by omega) k (by omega)]
      push_cast
      rw [add_sub_cancel_left, i1]
      push_cast
      ring
  have hw1 : w1 = -1 := by
    have h := congrArg Prod.fst hsum
    have hx : ∀ k, g.xdist.e k ((k + 1) % n) = X.e k ((k + 1) % n) := fun k => by rw [hgeq]
    rw [Prod.fst_sum, Prod.fst_add, zsmul_pair, zsmul_pair] at h
    simp only [mul_zero, add_zero] at h
    rw [Finset.sum_congr rfl (fun k hk => by
      rw [Nat.mod_eq_of_lt (Finset.mem_range.1 hk), hx k, step k (Finset.mem_range.1 hk)])] at h
    rw [Finset.sum_const, Finset.card_range, nsmul_eq_mul] at h
    have h' : (w1 : ℝ) = -1 := by
      have : (n : ℝ) ≠ 0 := by linarith
      have h'' : ((w1 : ℝ) + 1) * n = 0 := by linarith
      rcases mul_eq_zero.1 h'' with h3 | h3
      · linarith
      · exact absurd h3 this
    exact_mod_cast h'
  rw [hw1, z2 rfl] at hprod
  rw [Finset.prod_congr rfl (fun k hk => by rw [Nat.mod_eq_of_lt (Finset.mem_range.1 hk)])] at hprod
  simp only [Int.cast_neg, Int.cast_one, mul_neg, mul_one, Int.cast_zero, mul_zero, add_zero] at hprod
  exact hprod

/-! ## Separations counted in lattice vectors -/

/-- C97: the matrix of separations along the first lattice vector is antisymmetric with zero diagonal. -/
theorem C97_first {l1 l2 p1 p2 : ℝ × ℝ} {basis : List (ℝ × ℝ)} {f1 f2 : ℝ} {L : Lattice}
    (hL : Lattice.init l1 l2 basis p1 p2 f1 f2 = .ok L)
    (h1 : p1 = 0 ∨ NonNegligible p1) (h2 : p2 = 0 ∨ NonNegligible p2) (xs ys : List ℝ)
    (hl : xs.length = ys.length) : ∃ X Y N1 N2 : Arr ℝ, L.reducedDistance xs ys = .ok (X, Y, N1, N2) ∧
      N1.rows = xs.length ∧ N1.cols = xs.length ∧
      ∀ i < xs.length, ∀ j < xs.length, N1.e i j = -N1.e j i ∧ N1.e i i = 0 ∧
        ∃ k : ℤ, N1.e i j = k := by
  have hg := Lattice.init_good hL h1 h2
  obtain ⟨r, hr, -⟩ := projRows_ok hg.periods
  obtain ⟨X, Y, N1, N2, a1, a2, a3, a4, a5, a6, a7⟩ := hg.reducedDistance_ok hr xs ys hl.le
  refine ⟨X, Y, N1, N2, a1, a4.1, a4.2, fun i hi j hj =>
    ⟨(a6 i j).2.2.1, (a6 i i).2.2.2.2.2.2.1, ?_⟩⟩
  rcases lt_trichotomy i j with hij | rfl | hij
  · refine ⟨-idx1 L.lattRows true (L.sep r (xs.getD j 0 - xs.getD i 0, ys.getD j 0 - ys.getD i 0)), ?_⟩
    rw [(a6 i j).2.2.1, (a7 j hj i hij).2.1]
    push_cast
    rfl
  · exact ⟨0, by rw [(a6 i i).2.2.2.2.2.2.1]; simp⟩
  · exact ⟨_, (a7 i hi j hij).2.1⟩

/-- C97 fails for the second lattice vector: for two sites one step apart along it both off-diagonal
entries are one. -/
theorem C97_second_violated : ∃ (L : Lattice) (X Y N1 N2 : Arr ℝ),
    Lattice.init (1, 0) (0, 1) [(0, 0)] (0, 0) (0, 0) 0 0 = .ok L ∧
    L.reducedDistance [0, 0] [0, 1] = .ok (X, Y, N1, N2) ∧ N2.e 1 0 = 1 ∧ N2.e 0 1 = 1 := by
  obtain ⟨L, hL⟩ := Lattice.init_ok (l1 := (1, 0)) (l2 := (0, 1)) (p1 := (0, 0)) (p2 := (0, 0))
    (a := 0) (b := 0) (c := 0) (d := 0) [(0, 0)] 0 0 (nonNegligible_of (by norm_num))
    (nonNegligible_of (by norm_num)) (by unfold det2; norm_num) (by simp) (by simp)
    (fun h => absurd rfl h)
  have hg := Lattice.init_good hL (Or.inl rfl) (Or.inl rfl)
  obtain ⟨q1, q2, q3, q4, q5, -⟩ := Lattice.init_fields hL
  have hr : projRows L.per1 L.per2 = .ok (0, 0) := by
    rw [q4, q5]
    exact projRows_none not_nonNegligible_zero not_nonNegligible_zero
  obtain ⟨X, Y, N1, N2, a1, a2, a3, a4, a5, a6, a7⟩ := hg.reducedDistance_ok hr [0, 0] [0, 1] (by simp)
  have h10 : N2.e 1 0 = 1 := by
    rw [(a7 1 (by simp) 0 (by simp)).2.2]
    have : L.sep (0, 0) ([(0 : ℝ), 0].getD 1 0 - [(0 : ℝ), 0].getD 0 0,
        [(0 : ℝ), 1].getD 1 0 - [(0 : ℝ), 1].getD 0 0) = (0, 1) := by
      unfold Lattice.sep redPoint
      rw [q4, q5]
      ext <;> simp
    rw [this]
    unfold idx2 Lattice.lattRows
    rw [q1, q2]
    have e : dot2 (-((1 : ℝ), (0 : ℝ)).2 / det2 (1, 0) (0, 1), ((1 : ℝ), (0 : ℝ)).1 / det2 (1, 0) (0, 1))
        (0, 1) = ((1 : ℤ) : ℝ) := by
      unfold dot2 det2
      norm_num
    simp only at e ⊢
    rw [e, cellIndex_int]
    norm_num
  exact ⟨L, X, Y, N1, N2, hL, a1, h10, by rw [(a6 0 1).2.2.2.1, h10]⟩

/-! ## Which lattices are accepted -/

/-- C98, what holds: the constructor accepts periodicity vectors that are zero or lattice vectors, and
rejects negligible or numerically dependent lattice vectors and numerically dependent non-negligible
periodicity vectors. -/
theorem C98_partial {l1 l2 p1 p2 : ℝ × ℝ} (basis : List (ℝ × ℝ)) (f1 f2 : ℝ) :
    (∀ a b c d : ℤ, NonNegligible l1 → NonNegligible l2 → 1 / 2 / 10 ^ 14 < |det2 l1 l2| →
      p1 = a • l1 + b • l2 → p2 = c • l1 + d • l2 →
      (p1 ≠ 0 → p2 ≠ 0 → 1 / 2 / 10 ^ 14 < |det2 p1 p2|) →
      ∃ L, Lattice.init l1 l2 basis p1 p2 f1 f2 = .ok L) ∧
    (∀ L, Lattice.init l1 l2 basis p1 p2 f1 f2 = .ok L →
      NonNegligible l1 ∧ NonNegligible l2 ∧ 1 / 2 / 10 ^ 14 < |det2 l1 l2| ∧
      (NonNegligible p1 → NonNegligible p2 → 1 / 2 / 10 ^ 14 < |det2 p1 p2|)) := by
  refine ⟨fun a b c d h1 h2 hd hp1 hp2 hp => Lattice.init_ok basis f1 f2 h1 h2 hd hp1 hp2 hp,
    fun L hL => ?_⟩
  obtain ⟨e1, e2, _, e4, e5, _, _, hr, hv⟩ := Lattice.init_fields hL
  unfold Lattice.validate at hv
  by_cases c1 : L.validLatt
  · by_cases c2 : L.validPer
    · unfold Lattice.validLatt at c1
      push Not at c1
      obtain ⟨a1, a2, a3⟩ := c1
      rw [ne_eq, round_len2, not_not] at a1 a2
      rw [ne_eq, npRound_eq_zero, not_le] at a3
      rw [e1] at a1 a3
      rw [e2] at a2 a3
      refine ⟨a1, a2, a3, fun b1 b2 => ?_⟩
      unfold Lattice.validPer at c2
      push Not at c2
      rw [e4, e5] at c2
      have := c2 (by rw [ne_eq, round_len2, not_not]; exact b1)
        (by rw [ne_eq, round_len2, not_not]; exact b2)
      rwa [ne_eq, npRound_eq_zero, not_le] at this
    · rw [if_neg (not_not.2 c1), if_pos c2] at hv
      exact absurd hv (by simp)
  · rw [if_pos c1] at hv
    exact absurd hv (by simp)

/-- C98 fails: a periodicity vector that is not a lattice vector is accepted. -/
theorem C98_violated : ∃ L, Lattice.init (1, 0) (0, 1) [(0, 0)] (1 / 2, 1 / 2) (0, 0) 0 0 = .ok L ∧
    ¬ ∃ a b : ℤ, L.per1 = a • L.latt1 + b • L.latt2 := by
  have hr1 : getReciprocalVects (1, 0) (0, 1) = .ok ((1, 0), (0, 1)) := by
    unfold getReciprocalVects
    rw [if_pos (by norm_num)]
    simp only [det2]
    norm_num
  obtain ⟨rp, hrp⟩ := Lattice.recip_ok (v := (1 / 2, 1 / 2)) (w := (0, 0)) (fun _ h => absurd rfl h)
  have n1 : NonNegligible ((1, 0) : ℝ × ℝ) := nonNegligible_of (by norm_num)
  have n2 : NonNegligible ((0, 1) : ℝ × ℝ) := nonNegligible_of (by norm_num)
  have hi : Indep (1, 0) (0, 1) := by unfold Indep; norm_num
  have hp2 : ((0, 0) : ℝ × ℝ) = (0 : ℤ) • ((1, 0) : ℝ × ℝ) + (0 : ℤ) • ((0, 1) : ℝ × ℝ) := by simp
  have hround : npRound 14 ((1 : ℝ) / 2) = 1 / 2 := by
    have := npRound_of_int (K := ℝ) 14 (5 * 10 ^ 13)
    norm_num at this
    norm_num
    exact this
  have hcell : cellIndex false ((1 : ℝ) / 2) = 0 := by
    rw [cellIndex_positive, hround]
    norm_num
  refine ⟨⟨(1, 0), (0, 1), (1, 0), (0, 1), [(0, 0)], (1 / 2, 1 / 2), (0, 0), rp.1, rp.2, 0, 0⟩, ?_, ?_⟩
  · unfold Lattice.init
    rw [hr1, hrp]
    simp only [bind, Except.bind]
    have hv : Lattice.validate ⟨(1, 0), (0, 1), (1, 0), (0, 1), [(0, 0)], (1 / 2, 1 / 2), (0, 0),
        rp.1, rp.2, 0, 0⟩ = .ok true := by
      unfold Lattice.validate
      rw [if_neg, if_neg]
      · rw [Lattice.compatible_ok (L := ⟨(1, 0), (0, 1), (1, 0), (0, 1), [(0, 0)], (1 / 2, 1 / 2), (0, 0),
          rp.1, rp.2, 0, 0⟩) n1 n2 hi hp2]
        have hc : Lattice.compatible ⟨(1, 0), (0, 1), (1, 0), (0, 1), [(0, 0)], (1 / 2, 1 / 2), (0, 0),
            rp.1, rp.2, 0, 0⟩ (1 / 2, 1 / 2) = .ok true := by
          unfold Lattice.compatible
          rw [reduceVectors_ok (projRows_indep n1 n2 hi) [(1 / 2 : ℝ)] [(1 / 2 : ℝ)] rfl (Or.inl rfl)]
          simp only [List.zipWith_cons_cons, List.zipWith_nil_left, bind, Except.bind, pure, Except.pure,
            List.mem_singleton, forall_eq]
          congr 1
          rw [decide_eq_true_iff]
          rintro ⟨-, hy⟩
          rw [reduceCol_eq] at hy
          unfold redPoint idx1 idx2 dot2 det2 at hy
          have hpc : decide (("positive" : String) = "centered") = false := decide_eq_false (by decide)
          norm_num at hy
          rw [hpc, hcell] at hy
          norm_num at hy
        rw [hc]
        simp [bind, Except.bind, pure, Except.pure]
      · rw [not_not]
        unfold Lattice.validPer
        rintro ⟨-, h, -⟩
        exact h ((round_len2 _).2 not_nonNegligible_zero)
      · rw [not_not]
        unfold Lattice.validLatt
        simp only [round_len2]
        rintro (h | h | h)
        · exact h n1
        · exact h n2
        · unfold det2 at h
          norm_num [npRound_eq_zero] at h
    rw [hv]
    rfl
  · rintro ⟨a, b, h⟩
    have := congrArg Prod.fst h
    simp only [zsmul_pair, Prod.mk_add_mk, mul_one, mul_zero, add_zero] at this
    have h2 : (1 : ℝ) = ((2 * a : ℤ) : ℝ) := by push_cast; linarith
    have h3 : (1 : ℤ) = 2 * a := by exact_mod_cast h2
    omega

/-! ## Examples -/

/-- A torus of three by two sites with a twist along the first direction. -/
example : ∃ g, createSquare 3 2 1 0 false false = .ok g ∧ g.nsites = 6 ∧ g.ylocs.length = 6 :=
  C50_square 3 2 (by norm_num) (by norm_num) 1 0 false false (by norm_num) (by norm_num)

example : ∃ g, createTiltedSquare 3 1 0 0 false false = .ok g ∧ (g.nsites : ℤ) = 3 ^ 2 + 1 ^ 2 ∧
    g.ylocs.length = g.nsites :=
  C50_tilted 3 1 (by norm_num) 0 0 false false

example : ∃ g, createHexagonal 2 2 0 0 false false = .ok g ∧ g.nsites = 4 * 2 * 2 ∧
    g.ylocs.length = 4 * 2 * 2 :=
  C50_hexagonal 2 2 (by norm_num) (by norm_num) 0 0 false false (by norm_num) (by norm_num)

/-- On a periodic chain of three sites the first and the last are adjacent. -/
example : ∃ g, createSquare 3 1 0 0 false true = .ok g ∧ ∃ i j : ℕ, g.xlocs[i]? = some 0 ∧
    g.xlocs[j]? = some 2 ∧ g.adjacency.e i j = 1 := by
  obtain ⟨g, hg, hl, -, hm⟩ := C50_square_grid 3 1 (by norm_num) (by norm_num) (by norm_num) 0 0 false true
    (by norm_num) (by norm_num)
  have get : ∀ a : ℕ, a < 3 → ∃ i : ℕ, g.xlocs[i]? = some (a : ℝ) ∧ g.ylocs[i]? = some 0 := by
    intro a ha
    have := (hm a 0).2 ⟨a, 0, ha, by norm_num, rfl, by simp⟩
    rw [List.mem_iff_getElem?] at this
    obtain ⟨i, hi⟩ := this
    rw [List.getElem?_zip_eq_some] at hi
    exact ⟨i, hi⟩
  obtain ⟨i, hi, hi'⟩ := get 0 (by norm_num)
  obtain ⟨j, hj, hj'⟩ := get 2 (by norm_num)
  refine ⟨g, hg, i, j, by simpa using hi, by simpa using hj, ?_⟩
  rw [(C51_square 3 1 (by norm_num) (by norm_num) (by norm_num) 0 0 false true (by norm_num) (by norm_num)
    hg hi hi' hj hj').2]
  refine ⟨1, 0, by simp, by simp, ?_⟩
  norm_num

/-- The hypotheses of the statements on periodic lattices (C51, C52) hold for the square torus. -/
example : ∃ L, Lattice.init (1, 0) (0, 1) [(0, 0)] (3, 0) (0, 2) 1 0 = .ok L ∧
    NonNegligible ((3, 0) : ℝ × ℝ) ∧ NonNegligible ((0, 2) : ℝ × ℝ) := by
  obtain ⟨L, hL⟩ := Lattice.init_ok (l1 := (1, 0)) (l2 := (0, 1)) (p1 := (3, 0)) (p2 := (0, 2))
    (a := 3) (b := 0) (c := 0) (d := 2) [(0, 0)] 1 0 (nonNegligible_of (by norm_num))
    (nonNegligible_of (by norm_num)) (by unfold det2; norm_num) (by ext <;> simp) (by ext <;> simp)
    (fun _ _ => by unfold det2; norm_num)
  exact ⟨L, hL, nonNegligible_of (by norm_num), nonNegligible_of (by norm_num)⟩

end ED.Props
