import Verif.Lemmas.FermionInit
import Verif.Lemmas.Geometry

/-! # Properties: parameters of the constructor of `fermions` (C29) -/

namespace ED.Props

/-- The adjacency and phase matrices have one row and one column per site, the adjacency matrix is symmetric and the
phase matrix Hermitian. -/
structure Regular (g : Geometry) : Prop where
  adj : g.adjacency.rows = g.nsites ∧ g.adjacency.cols = g.nsites
  phase : g.phase.rows = g.nsites ∧ g.phase.cols = g.nsites
  symm : ∀ i < g.nsites, ∀ j < g.nsites, g.adjacency.e i j = g.adjacency.e j i
  herm : ∀ i < g.nsites, ∀ j < g.nsites, g.phase.e i j = (starRingEnd ℂ) (g.phase.e j i)

/-- Every geometry that the constructor accepts has matrices of these shapes and a symmetric adjacency matrix; phases
which are all one are Hermitian. -/
theorem regular_init {xs ys : List ℝ} {A : Option (Arr ℝ)} {g : Geometry}
    (h : Geometry.init xs ys A none none = .ok g) : Regular g ∧ ∀ i j, g.phase.e i j = 1 := by
  unfold Geometry.init at h
  cases hs : Geometry.siteDistance xs ys with
  | error e => rw [hs] at h; exact absurd h (by simp [bind, Except.bind])
  | ok d =>
    rw [hs] at h
    simp only [bind, Except.bind, pure, Except.pure] at h
    split_ifs at h with hv
    · injection h with h
      subst h
      obtain ⟨⟨⟨-, -, h1⟩, -, h3, h4⟩, h5, h6, -⟩ := hv
      refine ⟨⟨⟨h3, h4⟩, ⟨h5, h6⟩, ?_, ?_⟩, fun i j => rfl⟩
      · intro i hi j hj
        exact h1 i (by rw [h3]; exact hi) j (by rw [h4]; exact hj)
      · intro i _ j _
        simp

/-- A vector of real hopping amplitudes, one for each species. -/
private theorem hopping_value {g : Geometry} (hg : Regular g) {n k : ℕ} (t : ND ℂ)
    (ht : t.shape = n :: List.replicate k 1) (hr : ∀ s < n, (t.data (s :: List.replicate k 0)).im = 0) :
    ∃ r, (List.range n).foldlM (hoppingStep g t) (ND.zeros [g.nsites, g.nsites, n]) = .ok r ∧
      r.shape = [g.nsites, g.nsites, n] ∧ ∀ i < g.nsites, ∀ j < g.nsites, ∀ s < n,
        r.data [i, j, s] = t.data (s :: List.replicate k 0) * g.adjacency.e i j * ((g.phase.e i j).re : ℂ) := by
  have e : ∀ s < n, ∀ i j, (t.data (s :: List.replicate k 0) * ((g.adjacency.e i j : ℂ) * g.phase.e i j)).re =
      (t.data (s :: List.replicate k 0)).re * g.adjacency.e i j * (g.phase.e i j).re := by
    intro s hs i j
    simp only [Complex.mul_re, Complex.mul_im, Complex.ofReal_re, Complex.ofReal_im, hr s hs]
    ring
  obtain ⟨r, h1, h2, h3⟩ := hopping_loop t ht hg.adj hg.phase (by
    intro s hs i hi j hj
    rw [e s hs, e s hs, hg.symm i hi j hj, hg.herm i hi j hj, Complex.conj_re])
  refine ⟨r, h1, h2, ?_⟩
  intro i hi j hj s hs
  rw [h3 i hi j hj s hs, e s hs]
  have : t.data (s :: List.replicate k 0) = ((t.data (s :: List.replicate k 0)).re : ℂ) :=
    Complex.ext rfl (by rw [hr s hs, Complex.ofReal_im])
  rw [this]
  push_cast
  simp

/-- `ts` with the shape of a number (`m ≤ 1`), real. -/
theorem ts_scalar {g : Geometry} (hg : Regular g) {n m : ℕ} (hm : m ≤ 1) (ts : ND ℂ)
    (hs : ts.shape = List.replicate m 1) (hr : (ts.data (List.replicate m 0)).im = 0) :
    ∃ r, initTs g n ts = .ok r ∧ r.shape = [g.nsites, g.nsites, n] ∧
      ∀ i < g.nsites, ∀ j < g.nsites, ∀ s < n, r.data [i, j, s] =
        ts.data (List.replicate m 0) * g.adjacency.e i j * ((g.phase.e i j).re : ℂ) := by
  obtain ⟨t', h1, h2, h3⟩ := repeatScalar_scalar (n := n) hm ts hs
  obtain ⟨r, r1, r2, r3⟩ := hopping_value hg (n := n) (k := 0) t' h2 (by
    intro s hs'
    have := h3 s hs'
    simp only [List.replicate_zero]
    rw [this, hr])
  refine ⟨r, ?_, r2, ?_⟩
  · unfold initTs hoppingMat
    rw [if_pos (Or.inr (by simp [ND.size, hs])), h1]
    simp only [bind, Except.bind]
    rw [r1]
    simp only
    rw [if_pos r2]
    rfl
  · intro i hi j hj s hs'
    rw [r3 i hi j hj s hs']
    simp only [List.replicate_zero]
    rw [h3 s hs']

/-- `ts` with one real entry per species. -/
private theorem ts_species {g : Geometry} (hg : Regular g) {n k : ℕ} (ts : ND ℂ)
    (hs : ts.shape = n :: List.replicate k 1) (hr : ∀ s < n, (ts.data (s :: List.replicate k 0)).im = 0) :
    ∃ r, initTs g n ts = .ok r ∧ r.shape = [g.nsites, g.nsites, n] ∧
      ∀ i < g.nsites, ∀ j < g.nsites, ∀ s < n, r.data [i, j, s] =
        ts.data (s :: List.replicate k 0) * g.adjacency.e i j * ((g.phase.e i j).re : ℂ) := by
  obtain ⟨t', h1, k', h2, h3⟩ := repeatScalar_vector ts hs
  obtain ⟨r, r1, r2, r3⟩ := hopping_value hg t' h2 (by
    intro s hs'
    rw [h3 s hs', hr s hs'])
  refine ⟨r, ?_, r2, ?_⟩
  · unfold initTs hoppingMat
    rw [if_pos (Or.inl (by simp [ND.size, hs])), h1]
    simp only [bind, Except.bind]
    rw [r1]
    simp only
    rw [if_pos r2]
    rfl
  · intro i hi j hj s hs'
    rw [r3 i hi j hj s hs', h3 s hs']

theorem ones_of_prod {s : List ℕ} (h : s.prod = 1) : s = List.replicate s.length 1 := by
  rw [List.eq_replicate_iff]
  exact ⟨rfl, fun b hb => by
    have := List.dvd_prod hb
    rw [h] at this
    exact Nat.dvd_one.1 this⟩

/-- An array which is repeated for the species and then does not have one entry for each of them along its first
axis: some pass over the species fails. -/
private theorem repeat_short {n : ℕ} (hn : 1 ≤ n) {t : ND ℂ} (hsize : t.size = n ∨ t.size = 1)
    (h1 : ∀ m ≤ 1, t.shape ≠ List.replicate m 1) (h2 : ∀ k, t.shape ≠ n :: List.replicate k 1) :
    ∃ t', repeatScalar t n = .ok t' ∧ t'.shape.headD 0 < n := by
  by_cases hone : t.size = 1
  · have hs := ones_of_prod hone
    generalize t.shape.length = m at hs
    have hm : 2 ≤ m := by
      by_contra hlt
      exact h1 m (by omega) hs
    have hn2 : 2 ≤ n := by
      by_contra hlt
      have hn1 : n = 1 := by omega
      subst hn1
      apply h2 (m - 1)
      rw [hs, ← List.replicate_succ]
      congr 1
      omega
    obtain ⟨v, q1, q2, -⟩ := zip_ones t (ND.ones [n]) hs
    refine ⟨v, ?_, ?_⟩
    · unfold repeatScalar
      rw [if_pos hone]
      exact q1
    · rw [q2]
      obtain ⟨d, rfl⟩ : ∃ d, m = d + 2 := ⟨m - 2, by omega⟩
      simp only [ND.ones, List.length_singleton]
      rw [show d + 2 - 1 = d + 1 from rfl, List.replicate_succ]
      simp only [List.cons_append, List.headD_cons]
      omega
  · have hsn : t.size = n := by tauto
    refine ⟨t, ?_, ?_⟩
    · unfold repeatScalar
      rw [if_neg hone]
    · refine headD_lt (by omega) hsn ?_
      intro hh
      obtain ⟨a, ha⟩ : ∃ a, t.shape = n :: a := by
        cases hc : t.shape with
        | nil => rw [hc] at hh; simp at hh
        | cons b a =>
          rw [hc] at hh
          simp only [List.head?_cons, Option.some.injEq] at hh
          exact ⟨a, by rw [hh]⟩
      unfold ND.size at hsn
      rw [ha, List.prod_cons] at hsn
      have ha1 : a.prod = 1 := Nat.eq_of_mul_eq_mul_left (by omega : 0 < n) (by rw [hsn, mul_one])
      exact h2 a.length (by rw [ha]; congr 1; exact ones_of_prod ha1)

/-- C29 for the hopping, phases and amplitudes real. A number (`m ≤ 1`) is the amplitude between neighbours for all
species, entry `s` of a vector is that of species `s`; a full array, of a size other than one and the number of
species, is used as it is, as is a matrix for one species; all other shapes are rejected. -/
theorem C29_ts_partial {g : Geometry} (hg : Regular g) {n : ℕ} (hn : 1 ≤ n) (ts : ND ℂ) :
    (∀ m ≤ 1, ts.shape = List.replicate m 1 → (ts.data (List.replicate m 0)).im = 0 →
      (∀ i < g.nsites, ∀ j < g.nsites, (g.phase.e i j).im = 0) →
      ∃ r, initTs g n ts = .ok r ∧ r.shape = [g.nsites, g.nsites, n] ∧
        ∀ i < g.nsites, ∀ j < g.nsites, ∀ s < n,
          r.data [i, j, s] = ts.data (List.replicate m 0) * g.adjacency.e i j * g.phase.e i j) ∧
    (∀ k, ts.shape = n :: List.replicate k 1 → (∀ s < n, (ts.data (s :: List.replicate k 0)).im = 0) →
      (∀ i < g.nsites, ∀ j < g.nsites, (g.phase.e i j).im = 0) →
      ∃ r, initTs g n ts = .ok r ∧ r.shape = [g.nsites, g.nsites, n] ∧
        ∀ i < g.nsites, ∀ j < g.nsites, ∀ s < n,
          r.data [i, j, s] = ts.data (s :: List.replicate k 0) * g.adjacency.e i j * g.phase.e i j) ∧
    (ts.shape = [g.nsites, g.nsites, n] → g.nsites ≠ 1 → initTs g n ts = .ok ts) ∧
    (ts.shape = [g.nsites, g.nsites] → g.nsites ≠ 1 → n = 1 →
      ∃ r, initTs g n ts = .ok r ∧ r.shape = [g.nsites, g.nsites, 1] ∧
        ∀ i j, r.data [i, j, 0] = ts.data [i, j]) ∧
    ((∀ m ≤ 1, ts.shape ≠ List.replicate m 1) → (∀ k, ts.shape ≠ n :: List.replicate k 1) →
      ts.shape ≠ [g.nsites, g.nsites, n] → ¬ (ts.shape = [g.nsites, g.nsites] ∧ n = 1) →
      ∃ e, initTs g n ts = .error e) := by
  have hre : (∀ i < g.nsites, ∀ j < g.nsites, (g.phase.e i j).im = 0) →
      ∀ i < g.nsites, ∀ j < g.nsites, ((g.phase.e i j).re : ℂ) = g.phase.e i j := by
    intro h i hi j hj
    exact Complex.ext rfl (by rw [Complex.ofReal_im, h i hi j hj])
  refine ⟨?_, ?_, ?_, ?_, ?_⟩
  · intro m hm hs hr hph
    obtain ⟨r, r1, r2, r3⟩ := ts_scalar hg (n := n) hm ts hs hr
    exact ⟨r, r1, r2, fun i hi j hj s hs' => by rw [r3 i hi j hj s hs', hre hph i hi j hj]⟩
  · intro k hs hr hph
    obtain ⟨r, r1, r2, r3⟩ := ts_species hg ts hs hr
    exact ⟨r, r1, r2, fun i hi j hj s hs' => by rw [r3 i hi j hj s hs', hre hph i hi j hj]⟩
  · intro hs hN
    have hsize : ts.size = g.nsites * g.nsites * n := by simp [ND.size, hs, mul_assoc]
    have h1 : ¬ (ts.size = n ∨ ts.size = 1) := by
      rw [hsize]
      rcases Nat.eq_zero_or_pos g.nsites with h0 | h0
      · rw [h0]
        omega
      · have : 4 ≤ g.nsites * g.nsites := by nlinarith [show 2 ≤ g.nsites by omega]
        have : 4 * n ≤ g.nsites * g.nsites * n := Nat.mul_le_mul_right n this
        omega
    unfold initTs
    rw [if_neg h1, if_pos hs]
    simp only [bind, Except.bind, pure, Except.pure]
    rw [if_pos hs]
  · intro hs hN hn1
    subst hn1
    have hsize : ts.size = g.nsites * g.nsites := by simp [ND.size, hs]
    have h1 : ¬ (ts.size = 1 ∨ ts.size = 1) := by
      rw [hsize]
      rcases Nat.eq_zero_or_pos g.nsites with h0 | h0
      · rw [h0]
        omega
      · have : 4 ≤ g.nsites * g.nsites := by nlinarith [show 2 ≤ g.nsites by omega]
        omega
    refine ⟨ts.newAxis, ?_, by simp [ND.newAxis, hs], fun i j => rfl⟩
    unfold initTs
    rw [if_neg h1, if_neg (by rw [hs]; simp), if_pos ⟨hs, rfl⟩]
    simp only [bind, Except.bind, pure, Except.pure]
    rw [if_pos (by simp [ND.newAxis, hs])]
  · intro h1 h2 h3 h4
    unfold initTs
    by_cases hsize : ts.size = n ∨ ts.size = 1
    · rw [if_pos hsize]
      obtain ⟨t', q1, q2⟩ := repeat_short hn hsize h1 h2
      obtain ⟨e, he⟩ := foldlM_range_error (hoppingStep g t') n _ q2 (fun H => by
        unfold hoppingStep
        rw [item_error le_rfl]
        exact ⟨_, rfl⟩) (ND.zeros [g.nsites, g.nsites, n])
      refine ⟨e, ?_⟩
      unfold hoppingMat
      rw [q1]
      simp only [bind, Except.bind]
      rw [he]
    · rw [if_neg hsize, if_neg h3, if_neg h4]
      exact ⟨_, rfl⟩

/-- Complex phases are lost: for real amplitudes only the real part of the phase matrix is used, on every geometry. -/
theorem C29_phase_dropped {g : Geometry} (hg : Regular g) {n : ℕ} (ts : ND ℂ) (hs : ts.shape = [])
    (hr : (ts.data []).im = 0) :
    ∃ r, initTs g n ts = .ok r ∧ ∀ i < g.nsites, ∀ j < g.nsites, ∀ s < n,
      r.data [i, j, s] = ts.data [] * g.adjacency.e i j * ((g.phase.e i j).re : ℂ) := by
  obtain ⟨r, r1, -, r3⟩ := ts_scalar hg (n := n) (m := 0) (by omega) ts hs hr
  exact ⟨r, r1, r3⟩

/-- Two neighbouring sites with the phase `i`: the requested hopping has modulus one, the one used is zero. -/
theorem C29_phase_violated :
    ∃ g : Geometry, Geometry.createNonPeriodic [0, 1] [0, 0] none (some ⟨2, 2, fun i j =>
        if i < j then Complex.I else if j < i then -Complex.I else 1⟩) = .ok g ∧
      g.adjacency.e 0 1 * g.phase.e 0 1 = Complex.I ∧
      ∃ r, initTs g 2 ⟨[], fun _ => 1⟩ = .ok r ∧ ∀ i < 2, ∀ j < 2, ∀ s < 2, r.data [i, j, s] = 0 := by
  have hP : Geometry.validPhase (⟨2, 2, fun i j =>
      if i < j then Complex.I else if j < i then -Complex.I else 1⟩ : Arr ℂ) 2 := by
    refine ⟨rfl, rfl, ?_, ?_⟩
    · intro i _ j _
      have : (if i < j then Complex.I else if j < i then -Complex.I else 1) - (starRingEnd ℂ)
          (if j < i then Complex.I else if i < j then -Complex.I else 1) = 0 := by
        rcases lt_trichotomy i j with h | h | h
        · simp [h, h.not_gt]
        · simp [h]
        · simp [h, h.not_gt]
      rw [this, norm_zero]
      exact npRound_zero 14
    · intro i _ j _
      have : ‖(if i < j then Complex.I else if j < i then -Complex.I else 1)‖ = ((1 : ℤ) : ℝ) := by
        split_ifs <;> simp
      rw [this, npRound_int]
      norm_num
  obtain ⟨d, hd⟩ : ∃ d, Geometry.siteDistance [0, 1] [0, 0] = .ok d := by
    unfold Geometry.siteDistance
    rw [if_pos (by simp)]
    exact ⟨_, rfl⟩
  have hd' := hd
  unfold Geometry.siteDistance at hd'
  rw [if_pos (by simp)] at hd'
  injection hd' with hd'
  have hA := Geometry.neighbors_valid d.1 d.2 2 (by rw [← hd']; rfl) (by rw [← hd']; rfl)
    (by rw [← hd']; intro i _ j _; exact abs_sub_comm _ _)
    (by rw [← hd']; intro i _ j _; exact abs_sub_comm _ _)
  have h01 : (Geometry.neighbors d.1 d.2).e 0 1 = 1 := by
    unfold Geometry.neighbors
    rw [← hd']
    simp only
    rw [if_pos]
    left
    have := (Geometry.round_int_one (-1)).2 (by norm_num)
    have h0 := (Geometry.round_int_zero 0).2 rfl
    constructor
    · simpa using this
    · simpa using h0
  have hdiag : ∀ i, (Geometry.neighbors d.1 d.2).e i i = 0 := by
    intro i
    unfold Geometry.neighbors
    rw [← hd']
    simp only
    rw [if_neg]
    have h1 := (Geometry.round_int_one 0).not.2 (by norm_num)
    simp only [sub_self]
    rintro (⟨h, -⟩ | ⟨h, -⟩) <;> exact h1 (by simpa using h)
  obtain ⟨g, hg, hn, ha, hp⟩ : ∃ g : Geometry, Geometry.createNonPeriodic [0, 1] [0, 0] none (some ⟨2, 2, fun i j =>
        if i < j then Complex.I else if j < i then -Complex.I else 1⟩) = .ok g ∧ g.nsites = 2 ∧
      g.adjacency = Geometry.neighbors d.1 d.2 ∧ g.phase = ⟨2, 2, fun i j =>
        if i < j then Complex.I else if j < i then -Complex.I else 1⟩ := by
    refine ⟨⟨none, [0, 1], [0, 0], d.1, d.2, Geometry.neighbors d.1 d.2, _⟩, ?_, rfl, rfl, rfl⟩
    unfold Geometry.createNonPeriodic Geometry.init
    rw [hd]
    simp only [bind, Except.bind, pure, Except.pure, Option.getD_none, Option.getD_some]
    rw [if_pos ⟨hA, hP⟩]
  have hreg : Regular g := by
    obtain ⟨⟨-, -, h1⟩, -, h3, h4⟩ := hA
    refine ⟨by rw [ha, hn]; exact ⟨h3, h4⟩, by rw [hp, hn]; exact ⟨rfl, rfl⟩, ?_, ?_⟩
    · intro i hi j hj
      rw [ha]
      rw [hn] at hi hj
      exact h1 i (by rw [h3]; exact hi) j (by rw [h4]; exact hj)
    · intro i _ j _
      rw [hp]
      rcases lt_trichotomy i j with h | h | h
      · simp [h, h.not_gt]
      · simp [h]
      · simp [h, h.not_gt]
  refine ⟨g, hg, ?_, ?_⟩
  · rw [ha, hp, h01]
    simp
  · obtain ⟨r, r1, r2⟩ := C29_phase_dropped hreg (n := 2) ⟨[], fun _ => 1⟩ rfl (by simp)
    refine ⟨r, r1, ?_⟩
    intro i hi j hj s hs
    rw [r2 i (by rw [hn]; exact hi) j (by rw [hn]; exact hj) s hs, ha, hp]
    rcases lt_trichotomy i j with h | h | h
    · simp [h]
    · rw [h, hdiag]
      simp
    · simp [h, h.not_gt]

/-- The interaction of a species with itself with the shape of a number, real. -/
theorem us_same_scalar {g : Geometry} (hg : Regular g) {n m : ℕ} (hm : m ≤ 1) (us : ND ℂ)
    (hs : us.shape = List.replicate m 1) (hr : (us.data (List.replicate m 0)).im = 0) :
    ∃ r, initUsSame g n us = .ok r ∧ r.shape = [g.nsites, g.nsites, n] ∧
      ∀ i < g.nsites, ∀ j < g.nsites, ∀ s < n,
        r.data [i, j, s] = us.data (List.replicate m 0) * g.adjacency.e i j := by
  obtain ⟨t', h1, h2, h3⟩ := repeatScalar_scalar (n := n) hm us hs
  obtain ⟨r, r1, r2, r3⟩ := same_loop (g := g) (n := n) (k := 0) t' h2 hg.adj
  refine ⟨r, ?_, r2, ?_⟩
  · unfold initUsSame sameSpeciesMat
    rw [if_pos (Or.inl (by simp [ND.size, hs])), h1]
    simp only [bind, Except.bind] at r1 ⊢
    rw [r1]
    simp only
    rw [if_pos r2]
    rfl
  · intro i hi j hj s hs'
    rw [r3 i hi j hj s hs']
    simp only [List.replicate_zero]
    rw [h3 s hs']
    apply Complex.ext
    · simp
    · simp [hr]

/-- C29 for the interaction of a species with itself: as for the hopping, between neighbours. -/
theorem C29_us_same_partial {g : Geometry} (hg : Regular g) {n : ℕ} (hn : 1 ≤ n) (us : ND ℂ) :
    (∀ m ≤ 1, us.shape = List.replicate m 1 → (us.data (List.replicate m 0)).im = 0 →
      ∃ r, initUsSame g n us = .ok r ∧ r.shape = [g.nsites, g.nsites, n] ∧
        ∀ i < g.nsites, ∀ j < g.nsites, ∀ s < n,
          r.data [i, j, s] = us.data (List.replicate m 0) * g.adjacency.e i j) ∧
    (∀ k, us.shape = n :: List.replicate k 1 → (∀ s < n, (us.data (s :: List.replicate k 0)).im = 0) →
      ∃ r, initUsSame g n us = .ok r ∧ r.shape = [g.nsites, g.nsites, n] ∧
        ∀ i < g.nsites, ∀ j < g.nsites, ∀ s < n,
          r.data [i, j, s] = us.data (s :: List.replicate k 0) * g.adjacency.e i j) ∧
    (us.shape = [g.nsites, g.nsites, n] → g.nsites ≠ 1 → initUsSame g n us = .ok us) ∧
    (us.shape = [g.nsites, g.nsites] → g.nsites ≠ 1 → n = 1 →
      ∃ r, initUsSame g n us = .ok r ∧ r.shape = [g.nsites, g.nsites, 1] ∧
        ∀ i j, r.data [i, j, 0] = us.data [i, j]) ∧
    ((∀ m ≤ 1, us.shape ≠ List.replicate m 1) → (∀ k, us.shape ≠ n :: List.replicate k 1) →
      us.shape ≠ [g.nsites, g.nsites, n] → ¬ (us.shape = [g.nsites, g.nsites] ∧ n = 1) →
      ∃ e, initUsSame g n us = .error e) := by
  have hre : ∀ (z : ℂ) (a : ℝ), z.im = 0 → (((z * (a : ℂ)).re : ℝ) : ℂ) = z * a := by
    intro z a hz
    apply Complex.ext
    · simp
    · simp [hz]
  refine ⟨?_, ?_, ?_, ?_, ?_⟩
  · intro m hm hs hr
    exact us_same_scalar hg hm us hs hr
  · intro k hs hr
    obtain ⟨t', h1, k', h2, h3⟩ := repeatScalar_vector us hs
    obtain ⟨r, r1, r2, r3⟩ := same_loop (g := g) t' h2 hg.adj
    refine ⟨r, ?_, r2, ?_⟩
    · unfold initUsSame sameSpeciesMat
      rw [if_pos (Or.inr (by simp [ND.size, hs])), h1]
      simp only [bind, Except.bind] at r1 ⊢
      rw [r1]
      simp only
      rw [if_pos r2]
      rfl
    · intro i hi j hj s hs'
      rw [r3 i hi j hj s hs', h3 s hs', hre _ _ (hr s hs')]
  · intro hs hN
    have h1 : ¬ (us.size = 1 ∨ us.size = n) := by
      have hsize : us.size = g.nsites * g.nsites * n := by simp [ND.size, hs, mul_assoc]
      rw [hsize]
      rcases Nat.eq_zero_or_pos g.nsites with h0 | h0
      · rw [h0]
        omega
      · have : 4 ≤ g.nsites * g.nsites := by nlinarith [show 2 ≤ g.nsites by omega]
        have : 4 * n ≤ g.nsites * g.nsites * n := Nat.mul_le_mul_right n this
        omega
    unfold initUsSame
    rw [if_neg h1, if_pos hs]
    simp only [bind, Except.bind, pure, Except.pure]
    rw [if_pos hs]
  · intro hs hN hn1
    subst hn1
    have h1 : ¬ (us.size = 1 ∨ us.size = 1) := by
      have hsize : us.size = g.nsites * g.nsites := by simp [ND.size, hs]
      rw [hsize]
      rcases Nat.eq_zero_or_pos g.nsites with h0 | h0
      · rw [h0]
        omega
      · have : 4 ≤ g.nsites * g.nsites := by nlinarith [show 2 ≤ g.nsites by omega]
        omega
    refine ⟨us.newAxis, ?_, by simp [ND.newAxis, hs], fun i j => rfl⟩
    unfold initUsSame
    rw [if_neg h1, if_neg (by rw [hs]; simp), if_pos ⟨hs, rfl⟩]
    simp only [bind, Except.bind, pure, Except.pure]
    rw [if_pos (by simp [ND.newAxis, hs])]
  · intro h1 h2 h3 h4
    unfold initUsSame
    by_cases hsize : us.size = 1 ∨ us.size = n
    · rw [if_pos hsize]
      obtain ⟨t', q1, q2⟩ := repeat_short hn hsize.symm h1 h2
      obtain ⟨e, he⟩ := foldlM_range_error (fun (U : ND ℂ) ii => do
          let x ← t'.item ii
          let v ← x.zip (· * ·) g.adjacencyND
          U.setLast ii v) n _ q2 (fun H => by
        rw [item_error le_rfl]
        exact ⟨_, rfl⟩) (ND.zeros [g.nsites, g.nsites, n])
      refine ⟨e, ?_⟩
      unfold sameSpeciesMat
      rw [q1]
      simp only [bind, Except.bind] at he ⊢
      rw [he]
    · rw [if_neg hsize, if_neg h3, if_neg h4]
      exact ⟨_, rfl⟩

/-- C29 for the interaction between species: a number is used on all sites, a vector with one entry per site as it is,
and sizes other than one and the number of sites are rejected. -/
theorem C29_us_partial (g : Geometry) (us : ND ℂ) :
    (∀ m ≤ 1, us.shape = List.replicate m 1 → ∃ r, initUs g us = .ok r ∧ r.shape = [g.nsites] ∧
      ∀ i < g.nsites, r.data [i] = us.data (List.replicate m 0)) ∧
    (us.shape = [g.nsites] → ∃ r, initUs g us = .ok r ∧ r.shape = [g.nsites] ∧
      ∀ i < g.nsites, r.data [i] = us.data [i]) ∧
    (us.size ≠ 1 → us.size ≠ g.nsites → initUs g us = .error .generic) := by
  have scalar : ∀ m ≤ 1, us.shape = List.replicate m 1 → ∃ r, initUs g us = .ok r ∧ r.shape = [g.nsites] ∧
      ∀ i < g.nsites, r.data [i] = us.data (List.replicate m 0) := by
    intro m hm hs
    obtain ⟨r, h1, h2, h3⟩ := repeatScalar_scalar (n := g.nsites) hm us hs
    refine ⟨r, ?_, h2, h3⟩
    unfold initUs
    rw [h1]
    simp only [bind, Except.bind]
    rw [if_neg (by simp [ND.size, h2])]
    rfl
  refine ⟨scalar, ?_, ?_⟩
  · intro hs
    by_cases h1 : g.nsites = 1
    · obtain ⟨r, r1, r2, r3⟩ := scalar 1 le_rfl (by rw [hs, h1]; rfl)
      refine ⟨r, r1, r2, ?_⟩
      intro i hi
      have hi0 : i = 0 := by omega
      rw [r3 i hi, hi0]
      rfl
    · refine ⟨us, ?_, hs, fun i _ => rfl⟩
      unfold initUs repeatScalar
      rw [if_neg (by simp [ND.size, hs, h1])]
      simp only [bind, Except.bind]
      rw [if_neg (by simp [ND.size, hs])]
      rfl
  · intro h1 h2
    unfold initUs repeatScalar
    rw [if_neg h1]
    simp only [bind, Except.bind]
    rw [if_pos h2]
    rfl

/-- Only the size of the interaction between species is checked: a column with one entry per site is accepted and kept
as a column. -/
theorem C29_us_shape_violated (g : Geometry) (hN : 2 ≤ g.nsites) (us : ND ℂ) (hs : us.shape = [g.nsites, 1]) :
    initUs g us = .ok us := by
  unfold initUs repeatScalar
  rw [if_neg (by simp [ND.size, hs]; omega)]
  simp only [bind, Except.bind]
  rw [if_neg (by simp [ND.size, hs])]
  rfl

/-- C29 for the chemical potentials. -/
theorem C29_mus_partial {n : ℕ} (mus : ND ℂ) :
    (∀ m ≤ 1, mus.shape = List.replicate m 1 → ∃ r, initMus n mus = .ok r ∧ r.shape = [n] ∧
      ∀ s < n, r.data [s] = mus.data (List.replicate m 0)) ∧
    (mus.shape = [n] → ∃ r, initMus n mus = .ok r ∧ r.shape = [n] ∧ ∀ s < n, r.data [s] = mus.data [s]) ∧
    (mus.size ≠ 1 → mus.size ≠ n → initMus n mus = .error .attribute) := by
  have scalar : ∀ m ≤ 1, mus.shape = List.replicate m 1 → ∃ r, initMus n mus = .ok r ∧ r.shape = [n] ∧
      ∀ s < n, r.data [s] = mus.data (List.replicate m 0) := by
    intro m hm hs
    obtain ⟨r, h1, h2, h3⟩ := repeatScalar_scalar (n := n) hm mus hs
    have hone : mus.size = 1 := by simp [ND.size, hs]
    refine ⟨r, ?_, h2, h3⟩
    unfold repeatScalar at h1
    rw [if_pos hone] at h1
    unfold initMus
    rw [if_pos hone, h1]
    simp only [bind, Except.bind]
    rw [if_neg (by simp [ND.size, h2])]
    rfl
  refine ⟨scalar, ?_, ?_⟩
  · intro hs
    by_cases h1 : n = 1
    · obtain ⟨r, r1, r2, r3⟩ := scalar 1 le_rfl (by rw [hs, h1]; rfl)
      refine ⟨r, r1, r2, ?_⟩
      intro s hs'
      have hi0 : s = 0 := by omega
      rw [r3 s hs', hi0]
      rfl
    · refine ⟨mus, ?_, hs, fun i _ => rfl⟩
      unfold initMus
      rw [if_neg (by simp [ND.size, hs, h1]), if_pos (by simp [ND.size, hs])]
      simp only [bind, Except.bind, pure, Except.pure]
      rw [if_neg (by simp [ND.size, hs])]
  · intro h1 h2
    unfold initMus
    rw [if_neg h1, if_neg h2]
    rfl

/-- Potentials with the shape of a number. -/
theorem potentials_scalar (g : Geometry) {n m : ℕ} (hm : m ≤ 2) (pots : ND ℂ)
    (hs : pots.shape = List.replicate m 1) : ∃ r, initPotentials g n pots = .ok r ∧
      r.shape = [g.nsites, n] ∧ ∀ i < g.nsites, ∀ s < n, r.data [i, s] = pots.data (List.replicate m 0) := by
  obtain ⟨r, h1, h2, h3⟩ := zip_ones pots (ND.ones [g.nsites, n]) hs
  have h2' : r.shape = [g.nsites, n] := by
    rw [h2]
    have : m - (ND.ones [g.nsites, n]).shape.length = 0 := by simp [ND.ones]; omega
    rw [this]
    rfl
  refine ⟨r, ?_, h2', ?_⟩
  · unfold initPotentials
    rw [if_pos (by simp [ND.size, hs]), h1]
    simp only [bind, Except.bind]
    rw [if_pos h2']
    rfl
  · intro i hi s hs'
    have := h3 0 [i, s] (.cons hi (.cons hs' .nil))
    simpa [ND.ones] using this

/-- C29 for the potentials: a number (`m ≤ 2`) is used on all sites for all species, a full array for at least two sites
is used as it is, as is a vector for one species; sizes other than one and the number of species need one of these
shapes. A vector with one entry per species is not covered, see `C29_potentials_violated`. -/
theorem C29_potentials_partial (g : Geometry) {n : ℕ} (hn : 1 ≤ n) (pots : ND ℂ) :
    (∀ m ≤ 2, pots.shape = List.replicate m 1 → ∃ r, initPotentials g n pots = .ok r ∧
      r.shape = [g.nsites, n] ∧ ∀ i < g.nsites, ∀ s < n, r.data [i, s] = pots.data (List.replicate m 0)) ∧
    (pots.shape = [g.nsites, n] → g.nsites ≠ 1 → initPotentials g n pots = .ok pots) ∧
    (pots.shape = [g.nsites] → g.nsites ≠ 1 → n = 1 → ∃ r, initPotentials g n pots = .ok r ∧
      r.shape = [g.nsites, 1] ∧ ∀ i, r.data [i, 0] = pots.data [i]) ∧
    (pots.size ≠ 1 → pots.size ≠ n → pots.shape ≠ [g.nsites, n] → ¬ (pots.shape = [g.nsites] ∧ n = 1) →
      initPotentials g n pots = .error .generic) := by
  refine ⟨?_, ?_, ?_, ?_⟩
  · intro m hm hs
    exact potentials_scalar g hm pots hs
  · intro hs hN
    have hsize : pots.size = g.nsites * n := by simp [ND.size, hs]
    have h1 : pots.size ≠ 1 ∧ pots.size ≠ n := by
      rw [hsize]
      constructor
      · intro h
        exact hN (Nat.eq_one_of_mul_eq_one_right h)
      · intro h
        exact hN (Nat.eq_of_mul_eq_mul_right (by omega : 0 < n) (by rw [h, one_mul]))
    unfold initPotentials
    rw [if_neg h1.1, if_neg h1.2, if_pos hs]
    simp only [bind, Except.bind, pure, Except.pure]
    rw [if_pos hs]
  · intro hs hN hn1
    subst hn1
    have h1 : pots.size ≠ 1 := by simp [ND.size, hs, hN]
    refine ⟨pots.newAxis, ?_, by simp [ND.newAxis, hs], fun i => rfl⟩
    unfold initPotentials
    rw [if_neg h1, if_neg h1, if_neg (by rw [hs]; simp), if_pos ⟨hs, rfl⟩]
    simp only [bind, Except.bind, pure, Except.pure]
    rw [if_pos (by simp [ND.newAxis, hs])]
  · intro h1 h2 h3 h4
    unfold initPotentials
    rw [if_neg h1, if_neg h2, if_neg h3, if_neg h4]
    rfl

/-- A potential given per species is rejected unless there are as many sites as species; then entry `i` is used for site
`i` instead of species `i`. -/
theorem C29_potentials_violated (g : Geometry) {n : ℕ} (hn : 2 ≤ n) (pots : ND ℂ) (hs : pots.shape = [n]) :
    (g.nsites ≠ n → ∃ e, initPotentials g n pots = .error e) ∧
    (g.nsites = n → ∃ r, initPotentials g n pots = .ok r ∧
      ∀ i < n, ∀ s < n, r.data [i, s] = ((pots.data [i]).re : ℂ)) := by
  have hsize : pots.size = n := by simp [ND.size, hs]
  have hzip : ∀ ii < n, ∃ v, (do
      let x ← pots.item ii
      x.zip (· * ·) (ND.ones [g.nsites])) = .ok v ∧ v.shape = [g.nsites] ∧
        ∀ j < g.nsites, v.data [j] = pots.data [ii] := by
    intro ii hii
    obtain ⟨v, v1, v2, v3⟩ := zip_ones ⟨[], fun idx => pots.data (ii :: idx)⟩ (ND.ones [g.nsites]) (m := 0) rfl
    refine ⟨v, ?_, ?_, ?_⟩
    · rw [item_ok pots hs hii]
      exact v1
    · rw [v2]
      simp [ND.ones]
    · intro j hj
      have := v3 0 [j] (.cons hj .nil)
      simpa [ND.ones] using this
  have hstep : ∀ ii < n, ∃ v : ND ℂ, v.shape = [g.nsites] ∧ (∀ j < g.nsites, v.data [j] = pots.data [ii]) ∧
      ∀ W, (do
        let x ← pots.item ii
        let v ← x.zip (· * ·) (ND.ones [g.nsites])
        setPotentialRow W ii v) = setPotentialRow W ii v := by
    intro ii hii
    obtain ⟨v, v1, v2, v3⟩ := hzip ii hii
    refine ⟨v, v2, v3, ?_⟩
    intro W
    rw [item_ok pots hs hii] at v1 ⊢
    simp only [bind, Except.bind] at v1 ⊢
    rw [v1]
  unfold initPotentials
  rw [if_neg (by omega), if_pos hsize]
  constructor
  · intro hne
    obtain ⟨e, he⟩ := foldlM_range_error_inv (fun (W : ND ℂ) ii => do
        let x ← pots.item ii
        let v ← x.zip (· * ·) (ND.ones [g.nsites])
        setPotentialRow W ii v) (fun W => W.shape = [g.nsites, n]) n (if g.nsites = 1 then 1 else 0)
      (by split_ifs <;> omega) (by
        intro W ii W' hW h
        simp only [bind, Except.bind] at h
        cases hx : pots.item ii with
        | error e => rw [hx] at h; exact absurd h (by simp)
        | ok x =>
          rw [hx] at h
          simp only at h
          cases hv : x.zip (· * ·) (ND.ones [g.nsites]) with
          | error e => rw [hv] at h; exact absurd h (by simp)
          | ok v =>
            rw [hv] at h
            simp only at h
            unfold setPotentialRow ND.setRow at h
            split_ifs at h
            injection h with h
            rw [← h]
            exact hW) (by
        intro W hW
        by_cases h1 : g.nsites = 1
        · rw [if_pos h1]
          obtain ⟨v, -, -, v3⟩ := hstep 1 (by omega)
          simp only [v3]
          unfold setPotentialRow
          rw [if_neg (by rw [hW, h1]; simp)]
          exact ⟨_, rfl⟩
        · rw [if_neg h1]
          obtain ⟨v, v1, -, v3⟩ := hstep 0 (by omega)
          simp only [v3]
          unfold setPotentialRow
          split_ifs
          · unfold ND.setRow
            rw [if_neg]
            · exact ⟨_, rfl⟩
            · simp only
              rw [v1, hW]
              rintro ⟨-, h⟩
              simp [broadcastShape, bcRev, hne, h1] at h
          · exact ⟨_, rfl⟩) (ND.zeros [g.nsites, n]) rfl
    exact ⟨e, by simp only [bind, Except.bind] at he ⊢; rw [he]⟩
  · intro heq
    obtain ⟨r, r1, r2, r3⟩ := foldlM_range_inv (fun (W : ND ℂ) ii => do
        let x ← pots.item ii
        let v ← x.zip (· * ·) (ND.ones [g.nsites])
        setPotentialRow W ii v) n (ND.zeros [g.nsites, n])
      (fun (m : ℕ) (W : ND ℂ) => W.shape = [n, n] ∧
        ∀ i < m, ∀ s < n, W.data [i, s] = ((pots.data [i]).re : ℂ)) ⟨by simp [ND.zeros, heq], by omega⟩ (by
      intro m hm W ⟨hW, hI⟩
      obtain ⟨v, v1, v2, v3⟩ := hstep m hm
      simp only [v3]
      unfold setPotentialRow ND.setRow
      rw [if_pos (by rw [hW]; exact hm), if_pos (by
        simp only
        rw [v1, hW, heq]
        exact assignable_self _)]
      refine ⟨_, rfl, hW, ?_⟩
      intro i hi s hs'
      simp only
      by_cases him : i = m
      · rw [if_pos him, v1, bcIdx_self _ _ (.cons (by rw [heq]; exact hs') .nil), v2 s (by rw [heq]; exact hs'), him]
      · rw [if_neg him]
        exact hI i (by omega) s hs')
    refine ⟨r, ?_, r3⟩
    simp only [bind, Except.bind] at r1 ⊢
    rw [r1]
    simp only
    rw [if_pos (by rw [r2, heq])]
    rfl

/-- With one site, full arrays for several species are rejected: their size is the number of species. -/
theorem C29_single_site_violated {g : Geometry} (hN : g.nsites = 1) {n : ℕ} (hn : 2 ≤ n) (x : ND ℂ) :
    (x.shape = [g.nsites, g.nsites, n] → (∃ e, initTs g n x = .error e) ∧ ∃ e, initUsSame g n x = .error e) ∧
    (x.shape = [g.nsites, n] → ∃ e, initPotentials g n x = .error e) := by
  constructor
  · intro hs
    have hsize : x.size = n := by simp [ND.size, hs, hN]
    have h1 : ∀ m ≤ 1, x.shape ≠ List.replicate m 1 := by
      intro m hm h
      rw [hs] at h
      have := congrArg List.length h
      simp at this
      omega
    have h2 : ∀ k, x.shape ≠ n :: List.replicate k 1 := by
      intro k h
      rw [hs, hN] at h
      injection h with h
      omega
    obtain ⟨t', q1, q2⟩ := repeat_short (by omega) (Or.inl hsize) h1 h2
    constructor
    · unfold initTs
      rw [if_pos (Or.inl hsize)]
      obtain ⟨e, he⟩ := foldlM_range_error (hoppingStep g t') n _ q2 (fun H => by
        unfold hoppingStep
        rw [item_error le_rfl]
        exact ⟨_, rfl⟩) (ND.zeros [g.nsites, g.nsites, n])
      refine ⟨e, ?_⟩
      unfold hoppingMat
      rw [q1]
      simp only [bind, Except.bind]
      rw [he]
    · unfold initUsSame
      rw [if_pos (Or.inr hsize)]
      obtain ⟨e, he⟩ := foldlM_range_error (fun (U : ND ℂ) ii => do
          let x ← t'.item ii
          let v ← x.zip (· * ·) g.adjacencyND
          U.setLast ii v) n _ q2 (fun H => by
        rw [item_error le_rfl]
        exact ⟨_, rfl⟩) (ND.zeros [g.nsites, g.nsites, n])
      refine ⟨e, ?_⟩
      unfold sameSpeciesMat
      rw [q1]
      simp only [bind, Except.bind] at he ⊢
      rw [he]
  · intro hs
    have hsize : x.size = n := by simp [ND.size, hs, hN]
    unfold initPotentials
    rw [if_neg (by omega), if_pos hsize]
    obtain ⟨e, he⟩ := foldlM_range_error (fun (W : ND ℂ) ii => do
        let y ← x.item ii
        let v ← y.zip (· * ·) (ND.ones [g.nsites])
        setPotentialRow W ii v) n 1 (by omega) (fun W => by
      rw [item_error (by rw [hs, hN]; simp)]
      exact ⟨_, rfl⟩) (ND.zeros [g.nsites, n])
    exact ⟨e, by simp only [bind, Except.bind] at he ⊢; rw [he]⟩

/-- C29 for numbers: on a finite cluster without phases, real numbers for all parameters give a model in which every
parameter has its documented shape and value. -/
theorem C29_numbers {xs ys : List ℝ} {A : Option (Arr ℝ)} {g : Geometry}
    (h : Geometry.createNonPeriodic xs ys A none = .ok g) {n : ℕ} (u t μ w v : ℝ) :
    ∃ p, initFermions g ⟨[], fun _ => u⟩ ⟨[], fun _ => t⟩ ⟨[], fun _ => μ⟩ ⟨[], fun _ => w⟩ ⟨[], fun _ => v⟩ n = .ok p ∧
      p.ts.shape = [g.nsites, g.nsites, n] ∧ p.us.shape = [g.nsites] ∧ p.usSame.shape = [g.nsites, g.nsites, n] ∧
      p.mus.shape = [n] ∧ p.pots.shape = [g.nsites, n] ∧
      ∀ i < g.nsites, ∀ s < n, p.us.data [i] = u ∧ p.mus.data [s] = μ ∧ p.pots.data [i, s] = w ∧
        ∀ j < g.nsites, p.ts.data [i, j, s] = t * g.adjacency.e i j ∧
          p.usSame.data [i, j, s] = v * g.adjacency.e i j := by
  obtain ⟨hg, hp⟩ := regular_init h
  obtain ⟨r1, a1, b1, c1⟩ := ts_scalar hg (n := n) (m := 0) (by omega) ⟨[], fun _ => (t : ℂ)⟩ rfl (Complex.ofReal_im t)
  obtain ⟨r2, a2, b2, c2⟩ := (C29_us_partial g ⟨[], fun _ => (u : ℂ)⟩).1 0 (by omega) rfl
  obtain ⟨r3, a3, b3, c3⟩ := us_same_scalar hg (n := n) (m := 0) (by omega) ⟨[], fun _ => (v : ℂ)⟩ rfl
    (Complex.ofReal_im v)
  obtain ⟨r4, a4, b4, c4⟩ := (C29_mus_partial (n := n) ⟨[], fun _ => (μ : ℂ)⟩).1 0 (by omega) rfl
  obtain ⟨r5, a5, b5, c5⟩ := potentials_scalar g (n := n) (m := 0) (by omega) ⟨[], fun _ => (w : ℂ)⟩ rfl
  refine ⟨⟨r1, r2, r3, r4, r5⟩, ?_, b1, b2, b3, b4, b5, ?_⟩
  · unfold initFermions
    rw [a1, a2, a3, a4, a5]
    rfl
  · intro i hi s hs
    refine ⟨c2 i hi, c4 s hs, c5 i hi s hs, ?_⟩
    intro j hj
    refine ⟨?_, c3 i hi j hj s hs⟩
    rw [c1 i hi j hj s hs, hp]
    simp

/-- The hypotheses hold for three sites in a row. -/
example : ∃ g, Geometry.createNonPeriodic [0, 1, 2] [0, 0, 0] none none = .ok g ∧ g.nsites = 3 ∧ Regular g ∧
    ∃ r, initTs g 2 ⟨[2], fun idx => if idx = [0] then 1 else 5⟩ = .ok r ∧ ∀ i < 3, ∀ j < 3,
      r.data [i, j, 1] = 5 * g.adjacency.e i j := by
  have h := Geometry.createNonPeriodic_ok [0, 1, 2] [0, 0, 0] (by simp)
  obtain ⟨hg, hp⟩ := regular_init h
  refine ⟨_, h, rfl, hg, ?_⟩
  obtain ⟨r, r1, -, r3⟩ := ts_species hg (n := 2) (k := 0) ⟨[2], fun idx => if idx = [0] then 1 else 5⟩ rfl
    (by intro s _; simp only; split_ifs <;> simp)
  refine ⟨r, r1, ?_⟩
  intro i hi j hj
  rw [r3 i hi j hj 1 (by omega), hp]
  simp

end ED.Props
