import Verif.Lemmas.SquareShift

/-! # Translation and inversion of a ring of sites -/

namespace ED.Props

open ED ED.Geometry

variable {n : ℕ} {g : Geometry}

/-- What the symmetries use about a ring: a square lattice with one row which is periodic along the row. -/
structure Ring (g : Geometry) (n : ℕ) where
  L : Lattice
  lattice : g.lattice = some L
  per1 : L.per1 = ((n : ℝ), 0)
  per2 : L.per2 = (0, 0)
  periods : Periods L.per1 L.per2
  σ : Fin g.nsites ≃ Fin n
  wf : g.WellFormed
  xloc : ∀ i : Fin g.nsites, g.xlocs[(i : ℕ)]? = some (((σ i : ℕ)) : ℝ)
  yloc : ∀ i : Fin g.nsites, g.ylocs[(i : ℕ)]? = some 0
  adj01 : ∀ i j : Fin g.nsites, g.adjacency.e i j = 0 ∨ g.adjacency.e i j = 1
  adj : ∀ i j : Fin g.nsites, g.adjacency.e i j = 1 ↔ ∃ k : ℤ, ((σ i : ℕ) : ℤ) - (σ j : ℕ) + k * n = 1 ∨
    ((σ i : ℕ) : ℤ) - (σ j : ℕ) + k * n = -1

theorem ring_of (hn : 2 ≤ n) (hn' : n < 10 ^ 14) (hg : createSquare n 1 0 0 false true = .ok g) : Nonempty (Ring g n) := by
  have h1 : n = 1 → false = true := fun h => by omega
  have h2 : 1 = 1 → true = true := fun _ => rfl
  have hd : (n : ℤ) * ((1 : ℕ) : ℤ) - 0 * 0 ≠ 0 := by push_cast; omega
  have data := square_data (p1 := ((n : ℝ), 0)) (p2 := (0, ((1 : ℕ) : ℝ)))
    (n := n) (m := 0) (i := 0) (j := (1 : ℕ)) (by simp) (by simp) hd
  obtain ⟨H, L, sites, g', hH, hlp, hs, hL, c1, c2, hgi, hgx, hgy, hgl, hc⟩ :=
    data.create [(0, 0)] 0 0 false true
  have hgg : g' = g := by
    unfold createSquare at hg
    rw [if_neg (guard_ok h1), if_neg (guard_ok h2)] at hg
    have := hc.symm.trans hg
    injection this
  subst hgg
  obtain ⟨-, -, -, q4, q5, q6, q7, -⟩ := Lattice.init_fields hL
  have hgood := Lattice.init_good hL c1 c2
  have hlen' : (sites.map Prod.fst).length ≤ (sites.map Prod.snd).length := by simp
  obtain ⟨X, Y, N1, N2, a1, a2, a3, a4, a5, a6, a7⟩ := distances hgood (sites.map Prod.fst) (sites.map Prod.snd) hlen'
  have hinit := hgood.init_ok (sites.map Prod.fst) (sites.map Prod.snd) hlen' none none a1 a2
    (fun i j => (a6 i j).1) (fun i j => (a6 i j).2.1)
  rw [hgi] at hinit
  injection hinit with hgeq
  have hva := Lattice.unitAdjacency_valid a2.1 a2.2 (fun i j => (a6 i j).1) (fun i j => (a6 i j).2.1)
  have hvp := Lattice.phaseMat_valid L (n := (sites.map Prod.fst).length) a2.1 (fun i j => (a6 i j).1)
    (fun i j => (a6 i j).2.1)
  have hwf : g'.WellFormed := by
    rw [hgeq]
    exact ⟨by simp, a2, a3, ⟨hva.2.2.1, hva.2.2.2⟩, ⟨hvp.1, hvp.2.1⟩⟩
  obtain ⟨g, hg'', hN, -⟩ := C50_square n 1 (by omega) (by omega) 0 0 false true h1 h2
  rw [hg] at hg''
  injection hg'' with e
  subst e
  obtain ⟨g, hg'', hlen, hnd, hgrid⟩ := C50_square_grid n 1 (by omega) (by omega) (by omega) 0 0 false true h1 h2
  rw [hg] at hg''
  injection hg'' with e
  subst e
  have pos : ∀ i : Fin g'.nsites, ∃ a : Fin n, g'.xlocs[(i : ℕ)]? = some ((a : ℕ) : ℝ) ∧ g'.ylocs[(i : ℕ)]? = some 0 := by
    intro i
    have hi : (i : ℕ) < g'.xlocs.length := i.2
    have hi' : (i : ℕ) < g'.ylocs.length := hlen ▸ hi
    have hm : (g'.xlocs[(i : ℕ)], g'.ylocs[(i : ℕ)]) ∈ g'.xlocs.zip g'.ylocs := by
      rw [List.mem_iff_getElem?]
      refine ⟨i, ?_⟩
      rw [List.getElem?_zip_eq_some]
      exact ⟨List.getElem?_eq_getElem hi, List.getElem?_eq_getElem hi'⟩
    obtain ⟨a, b, ha, hb, e1, e2⟩ := (hgrid _ _).1 hm
    refine ⟨⟨a, ha⟩, ?_, ?_⟩
    · rw [List.getElem?_eq_getElem hi, e1]
    · rw [List.getElem?_eq_getElem hi', e2, show b = 0 by omega, Nat.cast_zero]
  choose f hfx hfy using pos
  have hinj : Function.Injective f := by
    intro i j hij
    have e1 : (g'.xlocs.zip g'.ylocs)[(i : ℕ)]? = some (((f i : ℕ) : ℝ), 0) :=
      List.getElem?_zip_eq_some.2 ⟨hfx i, hfy i⟩
    have e2 : (g'.xlocs.zip g'.ylocs)[(j : ℕ)]? = some (((f i : ℕ) : ℝ), 0) :=
      List.getElem?_zip_eq_some.2 ⟨by rw [hij]; exact hfx j, hfy j⟩
    have hi : (i : ℕ) < (g'.xlocs.zip g'.ylocs).length := (List.getElem?_eq_some_iff.1 e1).1
    exact Fin.ext ((List.getElem?_inj hi hnd).1 (e1.trans e2.symm))
  have hadj := fun i j : Fin g'.nsites => C51_square n 1 (by omega) (by omega) (by omega) 0 0 false true h1 h2 hg (hfx i) (hfy i) (hfx j) (hfy j)
  refine ⟨⟨L, hgl, by rw [q4]; rfl, by rw [q5]; rfl, hgood.periods,
    Equiv.ofBijective f ((Fintype.bijective_iff_injective_and_card f).2 ⟨hinj, by simp [hN]⟩), hwf, hfx, hfy,
    fun i j => (hadj i j).1, fun i j => ?_⟩⟩
  rw [(hadj i j).2]
  simp only [Equiv.ofBijective_apply]
  constructor
  · rintro ⟨k, l, -, hl, h⟩
    rw [hl trivial] at h
    refine ⟨k, ?_⟩
    simp only [Set.mem_insert_iff, Set.mem_singleton_iff, Prod.mk.injEq, Int.cast_zero, zero_mul, sub_zero, add_zero,
      and_true, zero_ne_one, and_false, zero_eq_neg, one_ne_zero, or_false] at h
    exact_mod_cast h
  · rintro ⟨k, h⟩
    refine ⟨k, 0, by simp, by simp, ?_⟩
    simp only [Set.mem_insert_iff, Set.mem_singleton_iff, Prod.mk.injEq, Int.cast_zero, zero_mul, sub_zero, add_zero,
      and_true, zero_ne_one, and_false, zero_eq_neg, one_ne_zero, or_false]
    exact_mod_cast h

namespace Ring

variable (G : Ring g n)

include G

theorem at_site (i : Fin g.nsites) : g.at i = (((G.σ i : ℕ) : ℝ), 0) := by
  unfold Geometry.at
  rw [List.getD_eq_getElem?_getD, List.getD_eq_getElem?_getD, G.xloc, G.yloc]
  rfl

theorem nsites : g.nsites = n := by simpa using Fintype.card_congr G.σ

/-- No two sites are the same up to periods. -/
theorem separated (i j : Fin g.nsites) (hij : i ≠ j) : ¬ Lands g (1 / 10 ^ 10) (g.at i) (g.at j) := by
  intro hl
  unfold Lands at hl
  rw [G.lattice] at hl
  rw [G.at_site i, G.at_site j] at hl
  obtain ⟨c, d, hc, hd, h1, h2⟩ := hl
  have hred : ∀ (v : Fin n) (c : Reduced), reduceVectors G.L.per1 G.L.per2 [((v : ℕ) : ℝ)] [0] "centered" = .ok [c] →
      ∃ a : ℤ, c.x = (((v : ℤ) - a * n : ℤ) : ℝ) := by
    intro v c hc
    obtain ⟨rs, hrs, -, h⟩ := C48_subtracts G.periods (xs := [((v : ℕ) : ℝ)]) (ys := [0]) rfl (Or.inr rfl)
    rw [hc] at hrs
    injection hrs with hrs
    subst hrs
    obtain ⟨c', hc', e⟩ := h 0 _ _ rfl rfl
    injection hc' with hc'
    subst hc'
    rw [G.per1, G.per2, zsmul_pair, zsmul_pair] at e
    have e1 := congrArg Prod.fst e
    simp only [Prod.fst_add, mul_zero, add_zero] at e1
    refine ⟨c.n1, ?_⟩
    push_cast
    linarith
  obtain ⟨a, ha⟩ := hred _ c hc
  obtain ⟨a', ha'⟩ := hred _ d hd
  have key : ∀ p q : ℤ, |(p : ℝ) - q| < 1 / 10 ^ 10 → p = q := by
    intro p q h
    have : |((p - q : ℤ) : ℝ)| < 1 := by
      push_cast
      exact lt_trans h (by norm_num)
    rw [← Int.cast_abs] at this
    have h' : |p - q| < 1 := by exact_mod_cast this
    rw [Int.abs_lt_one_iff] at h'
    omega
  rw [ha, ha'] at h1
  have e1 := key _ _ h1
  exact hij (G.σ.injective (fin_modEq (Int.modEq_iff_dvd.2 ⟨a' - a, by linarith⟩)))

/-- The permutation of the sites. -/
def perm (ρ : Equiv.Perm (Fin n)) : Equiv.Perm (Fin g.nsites) := G.σ.symm.permCongr ρ

theorem perm_apply (ρ : Equiv.Perm (Fin n)) (i : Fin g.nsites) : G.σ (G.perm ρ i) = ρ (G.σ i) := by
  simp [perm, Equiv.permCongr_apply]

theorem perm_mul (ρ ρ' : Equiv.Perm (Fin n)) : G.perm (ρ * ρ') = G.perm ρ * G.perm ρ' := by
  ext i : 1
  apply G.σ.injective
  simp [perm_apply, Equiv.Perm.mul_apply]

theorem perm_one : G.perm 1 = 1 := by
  ext i : 1
  apply G.σ.injective
  simp [perm_apply]

theorem perm_pow (ρ : Equiv.Perm (Fin n)) (k : ℕ) : G.perm (ρ ^ k) = G.perm ρ ^ k := by
  induction k with
  | zero => exact G.perm_one
  | succ k ih => rw [pow_succ, pow_succ, perm_mul, ih]

/-- A transformation that agrees with a permutation of the sites, up to periods, is found by the search for cycles. -/
theorem cycles_order {ρ : Equiv.Perm (Fin n)} {f : ℝ × ℝ → ℝ × ℝ} (hn : 2 ≤ n)
    (hmap : ∀ v : Fin n, ∃ k : ℤ, f (((v : ℕ) : ℝ), 0) = (((ρ v : ℕ) : ℝ) + k * n, 0)) {k : ℕ} (hk : 0 < k) (hk' : k ≤ n)
    (hρ : ρ ^ k = 1) : ∃ (cs : List (List (Fin g.nsites))) (m : ℕ), findSiteCycles f g (1 / 10 ^ 10) = .ok (siteNumbers cs, m) ∧
      CyclesOf cs (G.perm ρ) ∧ 1 ≤ m ∧ G.perm ρ ^ m = 1 ∧ ∀ j, 1 ≤ j → j < m → G.perm ρ ^ j ≠ 1 := by
  have hN := G.nsites
  have hmove : MovesSites g (1 / 10 ^ 10) f (G.perm ρ) := by
    refine C39_periodic G.lattice G.periods (by norm_num) (fun i => ?_) G.separated
    obtain ⟨k, hk⟩ := hmap (G.σ i)
    rw [G.at_site, G.at_site, G.per1, G.per2, G.perm_apply, hk]
    refine ⟨k, 0, ?_⟩
    rw [zsmul_pair, zsmul_pair]
    ext <;> simp
  have hpk : G.perm ρ ^ k = 1 := by rw [← G.perm_pow, hρ, G.perm_one]
  obtain ⟨cycles, m, h⟩ := C39_complete G.wf (by omega) hmove hk (by omega) hpk
  obtain ⟨π, hπ, ⟨cs, hcs, hcyc, -⟩, hpow, m1, -, hmin⟩ := C39_sound G.wf (by omega) h
  have heq : π = G.perm ρ := by
    ext i
    rcases lt_trichotomy (π i) (G.perm ρ i) with hlt | heq | hgt
    · exact absurd (hπ i).1 ((hmove i).2 _ hlt)
    · rw [heq]
    · exact absurd (hmove i).1 ((hπ i).2 _ hgt)
  subst heq hcs
  exact ⟨cs, m, h, hcyc, m1, hpow, hmin⟩

theorem cycles {ρ : Equiv.Perm (Fin n)} {f : ℝ × ℝ → ℝ × ℝ} (hn : 2 ≤ n)
    (hmap : ∀ v : Fin n, ∃ k : ℤ, f (((v : ℕ) : ℝ), 0) = (((ρ v : ℕ) : ℝ) + k * n, 0)) {k : ℕ} (hk : 0 < k) (hk' : k ≤ n)
    (hρ : ρ ^ k = 1) : ∃ (cs : List (List (Fin g.nsites))) (m : ℕ), findSiteCycles f g (1 / 10 ^ 10) = .ok (siteNumbers cs, m) ∧
      CyclesOf cs (G.perm ρ) := by
  obtain ⟨cs, m, h1, h2, -⟩ := G.cycles_order hn hmap hk hk' hρ
  exact ⟨cs, m, h1, h2⟩

/-- The center of mass. -/
theorem center (hn : 0 < n) : g.centerOfMass = .ok ((((n : ℝ) - 1) / 2), 0) := by
  have hN := G.nsites
  have hx : g.xlocs = List.ofFn fun i : Fin g.nsites => ((G.σ i : ℕ) : ℝ) := by
    refine List.ext_getElem? fun i => ?_
    by_cases hi : i < g.nsites
    · rw [G.xloc ⟨i, hi⟩]
      simp [hi]
    · have : g.xlocs.length = g.nsites := rfl
      rw [List.getElem?_eq_none (by omega), List.getElem?_eq_none (by simp; omega)]
  have hy : g.ylocs = List.replicate g.nsites 0 := by
    refine List.ext_getElem? fun i => ?_
    by_cases hi : i < g.nsites
    · rw [G.yloc ⟨i, hi⟩]
      simp [hi]
    · have : g.ylocs.length = g.nsites := G.wf.ylocs
      rw [List.getElem?_eq_none (by omega), List.getElem?_eq_none (by simp; omega)]
  have hsum : g.xlocs.sum = (n : ℝ) * (n - 1) / 2 := by
    rw [hx, List.sum_ofFn, Equiv.sum_comp G.σ (fun v : Fin n => ((v : ℕ) : ℝ)), Fin.sum_univ_eq_sum_range (fun k => (k : ℝ)),
      ← Nat.cast_sum, eq_div_iff (by norm_num)]
    have := Finset.sum_range_id_mul_two n
    have h' := congrArg (Nat.cast (R := ℝ)) this
    push_cast [Nat.cast_sub hn] at h' ⊢
    exact h'
  have hl : g.xlocs.length = n := hN
  unfold Geometry.centerOfMass
  rw [if_neg, hsum, hl]
  · congr 2
    · field_simp
    · rw [hy]; simp
  · rintro (h | h)
    · rw [h] at hl; simp at hl; omega
    · rw [hy] at h; simp at h; omega

end Ring

/-! ## The two permutations -/

/-- Neighbours on a ring. -/
theorem rotate_val {n : ℕ} (v : Fin n) : ∃ k : ℤ, ((finRotate n v : ℕ) : ℤ) = v + 1 + k * n := by
  obtain ⟨k, hk⟩ := Int.modEq_iff_dvd.1 (rotate_modEq v)
  exact ⟨-k, by linarith⟩

theorem rotate_pow_val {n : ℕ} (k : ℕ) (v : Fin n) : (((finRotate n ^ k) v : ℕ) : ℤ) ≡ v + k [ZMOD n] := by
  induction k with
  | zero => simp
  | succ k ih =>
    rw [pow_succ', Equiv.Perm.mul_apply]
    refine (rotate_modEq _).trans ?_
    push_cast
    rw [← add_assoc]
    exact ih.add_right 1

theorem rotate_pow {n : ℕ} : finRotate n ^ n = 1 := by
  ext v : 1
  refine fin_modEq ((rotate_pow_val n v).trans ?_)
  simp [Int.ModEq]

theorem rotate_dvd {n m : ℕ} (hn : 0 < n) (h : finRotate n ^ m = 1) : n ∣ m := by
  have := rotate_pow_val m (⟨0, hn⟩ : Fin n)
  rw [h, Equiv.Perm.one_apply] at this
  simp only [Nat.cast_zero, zero_add] at this
  exact_mod_cast Int.modEq_zero_iff_dvd.1 this.symm

theorem rev_pow {n : ℕ} : (Fin.revPerm : Equiv.Perm (Fin n)) ^ 2 = 1 := by
  ext v
  simp [pow_two, Equiv.Perm.mul_apply]

theorem rev_val {n : ℕ} (v : Fin n) : ((Fin.revPerm v : ℕ) : ℤ) = n - 1 - v := by
  have := v.2
  simp [Fin.revPerm_apply, Fin.val_rev]
  omega

/-- Inversion turns a translation around. -/
theorem rotate_rev {n : ℕ} : finRotate n * Fin.revPerm * finRotate n = Fin.revPerm := by
  ext v : 1
  refine fin_modEq ?_
  simp only [Equiv.Perm.mul_apply]
  refine (rotate_modEq _).trans ?_
  rw [rev_val, rev_val]
  have := (rotate_modEq v).neg.add_left ((n : ℤ) - 1 + 1)
  convert this using 1 <;> ring

namespace Ring

variable (G : Ring g n)

/-- Neighbours stay neighbours under permutations that keep distances on the ring. -/
theorem adjacency {ρ : Equiv.Perm (Fin n)} {s : ℤ} (hs : s = 1 ∨ s = -1)
    (hρ : ∀ v w : Fin n, ∃ k : ℤ, ((ρ v : ℕ) : ℤ) - (ρ w : ℕ) = s * ((v : ℕ) - (w : ℕ)) + k * n) (i j : Fin g.nsites) :
    g.adjacency.e (G.perm ρ i) (G.perm ρ j) = g.adjacency.e i j := by
  obtain ⟨k, hk⟩ := hρ (G.σ i) (G.σ j)
  have key : g.adjacency.e (G.perm ρ i) (G.perm ρ j) = 1 ↔ g.adjacency.e i j = 1 := by
    rw [G.adj, G.adj, G.perm_apply, G.perm_apply, hk]
    rcases hs with rfl | rfl
    · constructor
      · rintro ⟨p, h⟩
        exact ⟨p + k, by rcases h with h | h <;> [left; right] <;> linarith⟩
      · rintro ⟨p, h⟩
        exact ⟨p - k, by rcases h with h | h <;> [left; right] <;> linarith⟩
    · constructor
      · rintro ⟨p, h⟩
        exact ⟨-(p + k), by rcases h with h | h <;> [right; left] <;> linarith⟩
      · rintro ⟨p, h⟩
        exact ⟨-p - k, by rcases h with h | h <;> [right; left] <;> linarith⟩
  rcases G.adj01 i j with h | h
  · rcases G.adj01 (G.perm ρ i) (G.perm ρ j) with h' | h'
    · rw [h, h']
    · have := key.1 h'
      rw [h, h']
      rw [h] at this
      exact this.symm
  · rw [h]
    exact key.2 h

theorem adj_rotate (i j : Fin g.nsites) : g.adjacency.e (G.perm (finRotate n) i) (G.perm (finRotate n) j) = g.adjacency.e i j := by
  refine G.adjacency (Or.inl rfl) (fun v w => ?_) i j
  obtain ⟨k, hk⟩ := rotate_val v
  obtain ⟨l, hl⟩ := rotate_val w
  exact ⟨k - l, by rw [hk, hl]; ring⟩

theorem adj_rev (i j : Fin g.nsites) : g.adjacency.e (G.perm Fin.revPerm i) (G.perm Fin.revPerm j) = g.adjacency.e i j := by
  refine G.adjacency (Or.inr rfl) (fun v w => ⟨0, ?_⟩) i j
  rw [rev_val, rev_val]
  ring

/-- The search for cycles finds the translation along the ring. -/
theorem translation_order (hn : 2 ≤ n) : ∃ cs : List (List (Fin g.nsites)),
    findSiteCycles (getTranslFn (1, 0)) g (1 / 10 ^ 10) = .ok (siteNumbers cs, n) ∧ CyclesOf cs (G.perm (finRotate n)) := by
  suffices h : ∀ v : Fin n, ∃ k : ℤ, getTranslFn (1, 0) (((v : ℕ) : ℝ), 0) = (((finRotate n v : ℕ) : ℝ) + k * n, 0) by
    obtain ⟨cs, m, h1, h2, h3, h4, h5⟩ := G.cycles_order hn h (by omega) le_rfl rotate_pow
    have hm : m = n := by
      refine le_antisymm ?_ (Nat.le_of_dvd (by omega) (rotate_dvd (by omega) ?_))
      · by_contra hlt
        exact h5 n (by omega) (by omega) (by rw [← G.perm_pow, rotate_pow, G.perm_one])
      · rw [← G.perm_pow] at h4
        ext v : 1
        have := congrArg (fun p : Equiv.Perm (Fin g.nsites) => G.σ (p (G.σ.symm v))) h4
        simpa [G.perm_apply] using this
    rw [hm] at h1
    exact ⟨cs, h1, h2⟩
  intro v
  obtain ⟨k, hk⟩ := rotate_val v
  refine ⟨-k, ?_⟩
  have := congrArg (Int.cast (R := ℝ)) hk
  push_cast at this
  unfold getTranslFn
  ext
  · rw [this]
    push_cast
    ring
  · simp

theorem translation (hn : 2 ≤ n) : ∃ (cs : List (List (Fin g.nsites))) (m : ℕ),
    findSiteCycles (getTranslFn (1, 0)) g (1 / 10 ^ 10) = .ok (siteNumbers cs, m) ∧ CyclesOf cs (G.perm (finRotate n)) := by
  obtain ⟨cs, h1, h2⟩ := G.translation_order hn
  exact ⟨cs, n, h1, h2⟩

/-- The search for cycles finds the inversion at the center. -/
theorem inversion (hn : 2 ≤ n) : ∃ (c : ℝ × ℝ) (cs : List (List (Fin g.nsites))) (m : ℕ), g.centerOfMass = .ok c ∧
    findSiteCycles (getInversionFn c) g (1 / 10 ^ 10) = .ok (siteNumbers cs, m) ∧ CyclesOf cs (G.perm Fin.revPerm) := by
  obtain ⟨cs, m, h1, h2⟩ := G.cycles (ρ := Fin.revPerm) (f := getInversionFn (((n : ℝ) - 1) / 2, 0)) hn (fun v => by
    refine ⟨0, ?_⟩
    have := congrArg (Int.cast (R := ℝ)) (rev_val v)
    push_cast at this
    unfold getInversionFn
    ext
    · rw [this]
      push_cast
      ring
    · simp) (k := 2) (by norm_num) hn rev_pow
  exact ⟨_, cs, m, G.center (by omega), h1, h2⟩

end Ring

end ED.Props
