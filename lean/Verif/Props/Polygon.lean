import Verif.Lemmas.Geometry
import Verif.Lemmas.Broadcast
import Mathlib.Analysis.SpecialFunctions.Trigonometric.Bounds

/-!
# Regular polygons (C53)
-/

namespace ED.Props

open ED ED.Geometry Classical

private theorem idx_pos {n k : ℕ} (h : k < n) : Arr.pyIndex n (k : ℤ) = .ok k := by
  unfold Arr.pyIndex
  rw [if_pos (by omega)]
  simp

private theorem idx_neg {n k : ℕ} (h0 : 0 < k) (h : k ≤ n) : Arr.pyIndex n (-(k : ℤ)) = .ok (n - k) := by
  unfold Arr.pyIndex
  rw [if_neg (by omega), if_pos (by omega)]
  congr 1
  omega

private theorem set_ok {A : Arr ℝ} {i j : ℤ} {r c : ℕ} (hr : Arr.pyIndex A.rows i = .ok r)
    (hc : Arr.pyIndex A.cols j = .ok c) (x : ℝ) :
    A.set i j x = .ok ⟨A.rows, A.cols, fun k l => if k = r ∧ l = c then x else A.e k l⟩ := by
  unfold Arr.set
  rw [hr, hc]
  rfl

/-- Neighbours on a ring of `n` sites. -/
private def Ring (n k l : ℕ) : Prop := l = (k + 1) % n ∨ k = (l + 1) % n

private theorem polygon_adj {n : ℕ} (hn : 2 ≤ n) : ∃ A, polygonAdjacency n = .ok A ∧ A.rows = n ∧
    A.cols = n ∧ ∀ k < n, ∀ l < n, A.e k l = if Ring n k l then 1 else 0 := by
  unfold polygonAdjacency
  have z0 : Arr.pyIndex n 0 = .ok 0 := idx_pos (k := 0) (by omega)
  have z1 : Arr.pyIndex n 1 = .ok 1 := idx_pos (k := 1) (by omega)
  have m1 : Arr.pyIndex n (-1) = .ok (n - 1) := idx_neg (k := 1) one_pos (by omega)
  have m2 : Arr.pyIndex n (-2) = .ok (n - 2) := idx_neg (k := 2) two_pos (by omega)
  rw [set_ok (A := Arr.zeros n n) (i := 0) (j := 1) (r := 0) (c := 1) z0 z1 1]
  simp only [bind, Except.bind]
  rw [set_ok (i := 0) (j := -1) (r := 0) (c := n - 1) z0 m1 1]
  simp only
  rw [set_ok (i := -1) (j := 0) (r := n - 1) (c := 0) m1 z0 1]
  simp only
  rw [set_ok (i := -1) (j := -2) (r := n - 1) (c := n - 2) m1 m2 1]
  simp only
  have ring0 : ∀ l < n, Ring n 0 l ↔ l = 1 ∨ l = n - 1 := by
    intro l hl
    unfold Ring
    rw [zero_add, Nat.mod_eq_of_lt (by omega : 1 < n)]
    constructor
    · rintro (h | h)
      · exact Or.inl h
      · right
        by_contra hc
        rw [Nat.mod_eq_of_lt (by omega)] at h
        omega
    · rintro (h | h)
      · exact Or.inl h
      · right
        rw [h, Nat.sub_add_cancel (by omega), Nat.mod_self]
  have ringLast : ∀ l < n, Ring n (n - 1) l ↔ l = 0 ∨ l = n - 2 := by
    intro l hl
    unfold Ring
    rw [Nat.sub_add_cancel (by omega), Nat.mod_self]
    constructor
    · rintro (h | h)
      · exact Or.inl h
      · by_cases hc : l + 1 = n
        · rw [hc, Nat.mod_self] at h
          omega
        · rw [Nat.mod_eq_of_lt (by omega)] at h
          omega
    · rintro (h | h)
      · exact Or.inl h
      · right
        rw [h, Nat.mod_eq_of_lt (by omega)]
        omega
  have ringMid : ∀ k l, 0 < k → k < n - 1 → l < n → (Ring n k l ↔ l = k - 1 ∨ l = k + 1) := by
    intro k l h0 hk hl
    unfold Ring
    rw [Nat.mod_eq_of_lt (by omega)]
    constructor
    · rintro (h | h)
      · exact Or.inr h
      · by_cases hc : l + 1 = n
        · rw [hc, Nat.mod_self] at h
          omega
        · rw [Nat.mod_eq_of_lt (by omega)] at h
          omega
    · rintro (h | h)
      · right
        rw [h, Nat.mod_eq_of_lt (by omega)]
        omega
      · exact Or.inl h
  obtain ⟨A, hA, h1, h2, h3⟩ := foldlM_range_inv (σ := Arr ℝ)
    (fun (A : Arr ℝ) (k : ℕ) => do
      let A ← A.set ((k : ℤ) + 1) k 1
      A.set ((k : ℤ) + 1) ((k : ℤ) + 2) 1) (n - 2)
    (⟨n, n, fun k l => if k = n - 1 ∧ l = n - 2 then (1 : ℝ) else if k = n - 1 ∧ l = 0 then 1 else
      if k = 0 ∧ l = n - 1 then 1 else if k = 0 ∧ l = 1 then 1 else (Arr.zeros n n : Arr ℝ).e k l⟩)
    (fun m A => A.rows = n ∧ A.cols = n ∧ ∀ k < n, ∀ l < n, A.e k l =
      if (k = n - 1 ∨ k ≤ m) ∧ Ring n k l then 1 else 0)
    (by
      refine ⟨rfl, rfl, fun k hk l hl => ?_⟩
      have hiff : ((k = n - 1 ∨ k ≤ 0) ∧ Ring n k l) ↔ ((k = n - 1 ∧ l = n - 2) ∨ (k = n - 1 ∧ l = 0) ∨
          (k = 0 ∧ l = n - 1) ∨ (k = 0 ∧ l = 1)) := by
        constructor
        · rintro ⟨h | h, hr⟩
          · rw [h] at hr
            have := (ringLast l hl).1 hr
            omega
          · have h0 : k = 0 := by omega
            rw [h0] at hr
            have := (ring0 l hl).1 hr
            omega
        · intro h
          have hk' : k = n - 1 ∨ k = 0 := by omega
          refine ⟨by omega, ?_⟩
          by_cases h0 : k = 0
          · rw [h0]
            refine (ring0 l hl).2 ?_
            omega
          · have h1 : k = n - 1 := by omega
            rw [h1]
            refine (ringLast l hl).2 ?_
            omega
      simp only [Arr.zeros]
      rw [if_congr hiff rfl rfl]
      split_ifs <;> first | rfl | omega)
    (by
      rintro m hm A ⟨r, c, h⟩
      have p1 : Arr.pyIndex A.rows ((m : ℤ) + 1) = .ok (m + 1) := by
        rw [r]; exact idx_pos (k := m + 1) (by omega)
      have p2 : Arr.pyIndex A.cols (m : ℤ) = .ok m := by rw [c]; exact idx_pos (by omega)
      have p3 : Arr.pyIndex A.cols ((m : ℤ) + 2) = .ok (m + 2) := by
        rw [c]; exact idx_pos (k := m + 2) (by omega)
      refine ⟨⟨A.rows, A.cols, fun k l => if k = m + 1 ∧ l = m + 2 then 1 else
        if k = m + 1 ∧ l = m then 1 else A.e k l⟩, by
        rw [set_ok p1 p2]
        exact set_ok (A := ⟨A.rows, A.cols, fun k l => if k = m + 1 ∧ l = m then 1 else A.e k l⟩) p1 p3 1, r, c, fun k hk l hl => ?_⟩
      simp only
      by_cases hkm : k = m + 1
      · have hR := ringMid k l (by omega) (by omega) hl
        by_cases hr : Ring n k l
        · rw [if_pos (c := (k = n - 1 ∨ k ≤ m + 1) ∧ Ring n k l) ⟨Or.inr hkm.le, hr⟩]
          rcases hR.1 hr with h' | h'
          · rw [if_neg (by omega), if_pos ⟨hkm, by omega⟩]
          · rw [if_pos ⟨hkm, by omega⟩]
        · rw [if_neg (c := (k = n - 1 ∨ k ≤ m + 1) ∧ Ring n k l) (fun hc => hr hc.2)]
          have := mt hR.2 hr
          push Not at this
          rw [if_neg (by omega), if_neg (by omega), h k hk l hl, if_neg (fun hc => hr hc.2)]
      · rw [if_neg (by omega), if_neg (by omega), h k hk l hl]
        refine if_congr ?_ rfl rfl
        refine and_congr_left fun _ => ?_
        omega)
  refine ⟨A, hA, h1, h2, fun k hk l hl => ?_⟩
  rw [h3 k hk l hl]
  refine if_congr (and_iff_right ?_) rfl rfl
  omega

/-- C53: the polygon constructor makes a geometry for every number of sides from two, and site `i` is
adjacent exactly to the sites `i - 1` and `i + 1` modulo the number of sides. -/
theorem C53_adjacency {n : ℕ} (hn : 2 ≤ n) : ∃ g, createRegularPolygon n none none = .ok g ∧
    g.nsites = n ∧ g.ylocs.length = n ∧ g.adjacency.rows = n ∧ g.adjacency.cols = n ∧
    (∀ i < n, ∀ j < n, (g.adjacency.e i j = 0 ∨ g.adjacency.e i j = 1) ∧
      (g.adjacency.e i j = 1 ↔ (j ≡ i + 1 [MOD n] ∨ i ≡ j + 1 [MOD n]))) ∧
    (∀ i < n, ∀ j < n, g.phase.e i j = 1) ∧
    (∀ k < n, g.xlocs[k]? = some (1 / 2 / Real.sin (2 * Real.pi / n / 2) * Real.sin (2 * Real.pi / n * k)) ∧
      g.ylocs[k]? = some (1 / 2 / Real.sin (2 * Real.pi / n / 2) * Real.cos (2 * Real.pi / n * k))) ∧
    ∀ (i j : ℕ) (xi xj yi yj : ℝ), g.xlocs[i]? = some xi → g.xlocs[j]? = some xj →
      g.ylocs[i]? = some yi → g.ylocs[j]? = some yj → g.xdist.e i j = xi - xj ∧ g.ydist.e i j = yi - yj := by
  obtain ⟨A, hA, hr, hc, he⟩ := polygon_adj hn
  unfold createRegularPolygon
  rw [hA]
  simp only [bind, Except.bind]
  rw [if_neg (by omega)]
  unfold init siteDistance
  simp only [List.length_map, List.length_range, le_refl, if_true, bind, Except.bind, pure, Except.pure,
    Option.getD_some, Option.getD_none]
  rw [if_pos]
  · refine ⟨_, rfl, ?_, ?_, hr, hc, fun i hi j hj => ⟨?_, ?_⟩, fun i _ j _ => rfl, fun k hk => ⟨?_, ?_⟩, ?_⟩
    · unfold nsites; simp
    · simp
    · rw [he i hi j hj]
      split_ifs <;> simp
    · rw [he i hi j hj]
      have : Ring n i j ↔ (j ≡ i + 1 [MOD n] ∨ i ≡ j + 1 [MOD n]) := by
        unfold Ring Nat.ModEq
        rw [Nat.mod_eq_of_lt hi, Nat.mod_eq_of_lt hj]
      rw [← this]
      split_ifs with h <;> simp [h]
    · simp [hk]
    · simp [hk]
    · intro i j xi xj yi yj h1 h2 h3 h4
      simp only [List.getD_eq_getElem?_getD]
      rw [h1, h2, h3, h4]
      exact ⟨rfl, rfl⟩
  · unfold nsites
    simp only [List.length_map, List.length_range]
    refine ⟨⟨⟨?_, ?_, ?_⟩, ?_, hr, hc⟩, onesPhase_valid n⟩
    · exact hr.trans hc.symm
    · exact hc.trans hr.symm
    · intro i hi j hj
      rw [hr] at hi
      rw [hc] at hj
      simp only [Arr.transpose]
      rw [he i hi j hj, he j hj i hi]
      refine if_congr ?_ rfl rfl
      unfold Ring
      exact or_comm
    · intro i hi j hj
      rw [hr] at hi
      rw [hc] at hj
      rw [he i hi j hj]
      split_ifs <;> simp

/-- The position of site `k` of the polygon with `n` sides. -/
private noncomputable def vx (n : ℕ) (k : ℝ) : ℝ :=
  1 / 2 / Real.sin (2 * Real.pi / n / 2) * Real.sin (2 * Real.pi / n * k)

private noncomputable def vy (n : ℕ) (k : ℝ) : ℝ :=
  1 / 2 / Real.sin (2 * Real.pi / n / 2) * Real.cos (2 * Real.pi / n * k)

private theorem chord (n : ℕ) (a b : ℝ) : (vx n a - vx n b) ^ 2 + (vy n a - vy n b) ^ 2 =
    (Real.sin (Real.pi / n * (a - b)) / Real.sin (Real.pi / n)) ^ 2 := by
  unfold vx vy
  have h2 : 2 * Real.pi / (n : ℝ) / 2 = Real.pi / n := by ring
  rw [h2, ← mul_sub, ← mul_sub, mul_pow, mul_pow, ← mul_add, div_pow]
  have hc : Real.cos (2 * Real.pi / n * a - 2 * Real.pi / n * b) =
      1 - 2 * Real.sin (Real.pi / n * (a - b)) ^ 2 := by
    rw [show 2 * Real.pi / (n : ℝ) * a - 2 * Real.pi / n * b = 2 * (Real.pi / n * (a - b)) by ring,
      Real.cos_two_mul, Real.cos_sq']
    ring
  rw [Real.cos_sub] at hc
  have e : (Real.sin (2 * Real.pi / n * a) - Real.sin (2 * Real.pi / n * b)) ^ 2 +
      (Real.cos (2 * Real.pi / n * a) - Real.cos (2 * Real.pi / n * b)) ^ 2 =
      4 * Real.sin (Real.pi / n * (a - b)) ^ 2 := by
    have s1 := Real.sin_sq_add_cos_sq (2 * Real.pi / n * a)
    have s2 := Real.sin_sq_add_cos_sq (2 * Real.pi / n * b)
    nlinarith
  rw [e]
  ring

private theorem sin_pos' {n : ℕ} (hn : 2 ≤ n) : 0 < Real.sin (Real.pi / n) := by
  have c : (2 : ℝ) ≤ n := by exact_mod_cast hn
  apply Real.sin_pos_of_pos_of_lt_pi
  · have := Real.pi_pos
    positivity
  · exact div_lt_self Real.pi_pos (by linarith)

/-- Multiples of the angle `π / n` have a sine at least that of `π / n`, with equality at the two ends. -/
private theorem sin_mul {n : ℕ} {m : ℕ} (h0 : 1 ≤ m) (hm : m + 1 ≤ n) :
    Real.sin (Real.pi / n) ≤ Real.sin (Real.pi / n * m) ∧
      (Real.sin (Real.pi / n) = Real.sin (Real.pi / n * m) ↔ m = 1 ∨ m + 1 = n) := by
  have hpi := Real.pi_pos
  have c : (2 : ℝ) ≤ n := by exact_mod_cast (by omega : 2 ≤ n)
  have cn : (0 : ℝ) < n := by linarith
  have hq : 0 < Real.pi / n := by positivity
  -- the first half
  have half : ∀ m : ℕ, 1 ≤ m → 2 * m ≤ n → Real.sin (Real.pi / n) ≤ Real.sin (Real.pi / n * m) ∧
      (Real.sin (Real.pi / n) = Real.sin (Real.pi / n * m) ↔ m = 1) := by
    intro m h1 h2
    have c1 : (1 : ℝ) ≤ m := by exact_mod_cast h1
    have c2 : (2 : ℝ) * m ≤ n := by exact_mod_cast h2
    have hle : Real.pi / n * m ≤ Real.pi / 2 := by
      rw [div_mul_eq_mul_div, div_le_div_iff₀ cn two_pos]
      nlinarith
    have hge : Real.pi / n ≤ Real.pi / n * m := le_mul_of_one_le_right hq.le c1
    have mem : ∀ x, 0 ≤ x → x ≤ Real.pi / 2 → x ∈ Set.Icc (-(Real.pi / 2)) (Real.pi / 2) :=
      fun x h h' => ⟨by linarith, h'⟩
    refine ⟨Real.sin_le_sin_of_le_of_le_pi_div_two (by linarith) hle hge, ?_⟩
    constructor
    · intro e
      have := Real.injOn_sin (mem _ hq.le (hge.trans hle)) (mem _ (hq.le.trans hge) hle) e
      have h3 : Real.pi / n * (m - 1) = 0 := by linarith
      rcases mul_eq_zero.1 h3 with h4 | h4
      · linarith
      · exact_mod_cast (by linarith : (m : ℝ) = 1)
    · rintro rfl
      simp
  by_cases h2 : 2 * m ≤ n
  · obtain ⟨a, b⟩ := half m h0 h2
    refine ⟨a, b.trans ⟨Or.inl, ?_⟩⟩
    rintro (h | h)
    · exact h
    · omega
  · obtain ⟨a, b⟩ := half (n - m) (by omega) (by omega)
    have e : Real.sin (Real.pi / n * ((n - m : ℕ) : ℝ)) = Real.sin (Real.pi / n * m) := by
      rw [Nat.cast_sub (by omega), ← Real.sin_pi_sub (Real.pi / n * m)]
      congr 1
      field_simp
    rw [e] at a b
    refine ⟨a, b.trans ⟨fun h => Or.inr (by omega), ?_⟩⟩
    rintro (h | h) <;> omega

/-- C53: the sites lie on a circle around the origin of radius `1 / (2 sin(π / n))`. -/
theorem C53_circle {n : ℕ} (hn : 2 ≤ n) {g : Geometry} (hg : createRegularPolygon n none none = .ok g)
    {k : ℕ} {x y : ℝ} (hx : g.xlocs[k]? = some x) (hy : g.ylocs[k]? = some y) :
    Real.sqrt (x ^ 2 + y ^ 2) = 1 / (2 * Real.sin (Real.pi / n)) := by
  obtain ⟨g', hg', hns, -, -, -, -, -, hl, -⟩ := C53_adjacency hn
  rw [hg] at hg'
  injection hg' with e
  subst e
  have hk : k < n := by
    rw [← hns]
    exact (List.getElem?_eq_some_iff.1 hx).1
  obtain ⟨h1, h2⟩ := hl k hk
  rw [hx] at h1
  rw [hy] at h2
  injection h1 with h1
  injection h2 with h2
  have hs := sin_pos' hn
  have e : x ^ 2 + y ^ 2 = (1 / (2 * Real.sin (Real.pi / n))) ^ 2 := by
    rw [h1, h2, mul_pow, mul_pow, ← mul_add, Real.sin_sq_add_cos_sq, mul_one,
      show 2 * Real.pi / (n : ℝ) / 2 = Real.pi / n by ring, div_div]
  rw [e, Real.sqrt_sq (by positivity)]

/-- C53: neighbouring sites have distance one and all other pairs of different sites are farther apart. -/
theorem C53_spacing {n : ℕ} (hn : 2 ≤ n) {g : Geometry} (hg : createRegularPolygon n none none = .ok g)
    {i j : ℕ} (hi : i < n) (hj : j < n) (hij : i ≠ j) :
    1 ≤ Real.sqrt (g.xdist.e i j ^ 2 + g.ydist.e i j ^ 2) ∧
      (Real.sqrt (g.xdist.e i j ^ 2 + g.ydist.e i j ^ 2) = 1 ↔ g.adjacency.e i j = 1) := by
  obtain ⟨g', hg', hns, -, -, -, hadj, -, hl, hd⟩ := C53_adjacency hn
  rw [hg] at hg'
  injection hg' with e
  subst e
  obtain ⟨x1, y1⟩ := hl i hi
  obtain ⟨x2, y2⟩ := hl j hj
  obtain ⟨d1, d2⟩ := hd i j _ _ _ _ x1 x2 y1 y2
  have hs := sin_pos' hn
  have hch := chord n i j
  unfold vx vy at hch
  rw [← d1, ← d2] at hch
  -- reduce to the difference of the indices
  obtain ⟨m, hm0, hm1, hmabs, hmring⟩ : ∃ m : ℕ, 1 ≤ m ∧ m + 1 ≤ n ∧
      (Real.sin (Real.pi / n * ((i : ℝ) - j))) ^ 2 = (Real.sin (Real.pi / n * m)) ^ 2 ∧
      ((m = 1 ∨ m + 1 = n) ↔ (j ≡ i + 1 [MOD n] ∨ i ≡ j + 1 [MOD n])) := by
    have ring : ∀ a b : ℕ, a < b → b < n → ((b - a = 1 ∨ b - a + 1 = n) ↔
        (a ≡ b + 1 [MOD n] ∨ b ≡ a + 1 [MOD n])) := by
      intro a b hab hb
      unfold Nat.ModEq
      rw [Nat.mod_eq_of_lt hb, Nat.mod_eq_of_lt (hab.trans hb), Nat.mod_eq_of_lt (by omega : a + 1 < n)]
      constructor
      · rintro (h | h)
        · right; omega
        · left
          rw [show b + 1 = n by omega, Nat.mod_self]
          omega
      · rintro (h | h)
        · by_cases hc : b + 1 = n
          · rw [hc, Nat.mod_self] at h
            omega
          · rw [Nat.mod_eq_of_lt (by omega)] at h
            omega
        · omega
    rcases lt_or_gt_of_ne hij with h | h
    · refine ⟨j - i, by omega, by omega, ?_, ?_⟩
      · rw [Nat.cast_sub h.le, ← neg_sq (Real.sin _), ← Real.sin_neg]
        congr 2
        ring
      · rw [ring i j h hj]
        exact or_comm
    · refine ⟨i - j, by omega, by omega, ?_, ring j i h hi⟩
      rw [Nat.cast_sub h.le]
  obtain ⟨s1, s2⟩ := sin_mul hm0 hm1
  have hsq : Real.sqrt (g.xdist.e i j ^ 2 + g.ydist.e i j ^ 2) =
      Real.sin (Real.pi / n * m) / Real.sin (Real.pi / n) := by
    rw [hch, div_pow, hmabs, ← div_pow, Real.sqrt_sq (div_nonneg (hs.le.trans s1) hs.le)]
  rw [hsq, (hadj i hi j hj).2, ← hmring, ← s2]
  refine ⟨(one_le_div hs).2 s1, ?_⟩
  rw [div_eq_one_iff_eq hs.ne']
  exact eq_comm

/-- With fewer than two sides the default adjacency matrix raises. -/
theorem C53_too_small (P : Option (Arr ℂ)) : createRegularPolygon 0 none P = .error .index ∧
    createRegularPolygon 1 none P = .error .index := ⟨rfl, rfl⟩

/-- The hexagon: opposite sites are not adjacent and farther apart than one. -/
example : ∃ g, createRegularPolygon 6 none none = .ok g ∧ g.adjacency.e 5 0 = 1 ∧ g.adjacency.e 0 3 ≠ 1 ∧
    1 ≤ Real.sqrt (g.xdist.e 0 3 ^ 2 + g.ydist.e 0 3 ^ 2) := by
  obtain ⟨g, hg, -, -, -, -, ha, -⟩ := C53_adjacency (n := 6) (by norm_num)
  refine ⟨g, hg, ?_, ?_, (C53_spacing (by norm_num) hg (by norm_num) (by norm_num) (by norm_num)).1⟩
  · rw [(ha 5 (by norm_num) 0 (by norm_num)).2]
    left
    decide
  · rw [ne_eq, (ha 0 (by norm_num) 3 (by norm_num)).2]
    decide

end ED.Props
