import Verif.Lemmas.FermiGas

/-! # The wavevectors of the chain and of the square lattice -/

namespace ED

open scoped BigOperators

theorem cos_kval_mod (n m : ℕ) (hn : n ≠ 0) : Real.cos (kval n (m % n)) = Real.cos (kval n m) := by
  have hnr : (n : ℝ) ≠ 0 := by exact_mod_cast hn
  have : kval n m = kval n (m % n) + ((m / n : ℕ) : ℝ) * (2 * Real.pi) := by
    unfold kval
    have h : (m : ℝ) = (n : ℝ) * ((m / n : ℕ) : ℝ) + ((m % n : ℕ) : ℝ) := by
      exact_mod_cast (Nat.div_add_mod m n).symm
    rw [h]
    field_simp
    ring
  rw [this, Real.cos_add_nat_mul_two_pi]

/-- Shift by half a period. -/
def halfShift {n : ℕ} (hn : n ≠ 0) (j : Fin n) : Fin n :=
  ⟨(j + n / 2) % n, Nat.mod_lt _ (Nat.pos_of_ne_zero hn)⟩

theorem halfShift_twice {n : ℕ} (hn : n ≠ 0) (he : Even n) (j : Fin n) :
    halfShift hn (halfShift hn j) = j := by
  obtain ⟨m, hm⟩ := he
  apply Fin.ext
  simp only [halfShift]
  have hj := j.2
  have h2 : n / 2 = m := by omega
  rw [h2, Nat.mod_add_mod, show (j : ℕ) + m + m = j + n by omega, Nat.add_mod_right,
    Nat.mod_eq_of_lt hj]

theorem cos_halfShift {n : ℕ} (hn : n ≠ 0) (he : Even n) (j : Fin n) :
    Real.cos (kval n (halfShift hn j)) = -Real.cos (kval n j) := by
  obtain ⟨m, hm⟩ := he
  simp only [halfShift]
  rw [cos_kval_mod _ _ hn, ← Real.cos_add_pi]
  congr 1
  have h2 : n / 2 = m := by omega
  rw [h2]
  unfold kval
  have hmr : (n : ℝ) = m + m := by exact_mod_cast hm
  have hnr : (m : ℝ) ≠ 0 := by
    intro h
    have : m = 0 := by exact_mod_cast h
    omega
  rw [hmr]
  push_cast
  field_simp
  ring

theorem cos_half_le {n : ℕ} (hn : 2 ≤ n) : Real.cos (kval n (n / 2)) ≤ 0 := by
  have hpos : (0 : ℝ) < n := by exact_mod_cast (by omega : 0 < n)
  have hpi := Real.pi_pos
  have h1 : (n : ℝ) ≤ 4 * ((n / 2 : ℕ) : ℝ) := by exact_mod_cast (by omega : n ≤ 4 * (n / 2))
  have h2 : 2 * ((n / 2 : ℕ) : ℝ) ≤ n := by exact_mod_cast (by omega : 2 * (n / 2) ≤ n)
  apply Real.cos_nonpos_of_pi_div_two_le_of_le
  · unfold kval
    rw [div_mul_eq_mul_div, le_div_iff₀ hpos]
    nlinarith
  · unfold kval
    rw [div_mul_eq_mul_div, div_le_iff₀ hpos]
    nlinarith

theorem kval_zero (n : ℕ) : kval n 0 = 0 := by simp [kval]

/-- Wavevectors of the chain. -/
noncomputable def modes1 {n : ℕ} (hn : 2 ≤ n) (hn' : n ≤ 10 ^ 6) : Modes n "1d" where
  κ := Fin n
  ph c j := Complex.exp (Complex.I * (kval n j : ℝ) * c.1)
  e j := -2 * Real.cos (kval n j)
  r i := ((i : ℕ), 0)
  i₀ := ⟨0, by omega⟩
  spread := ⟨n / 2, by omega⟩
  neg := halfShift (by omega)
  modes c := by
    obtain ⟨l, hl, hp⟩ := kvects_balanced (nx := n) (ny := 1) (by omega) (by omega)
    refine ⟨l.map fun k => (Complex.exp (Complex.I * k.1 * c.1), disp1 k.1), ?_, ?_⟩
    · unfold realspaceModes
      rw [if_neg (by decide), if_pos rfl, hl]
      rfl
    · refine (hp.map _).trans ?_
      simp only [List.range_one, List.flatMap_cons, List.flatMap_nil, List.append_nil,
        List.map_map]
      rw [list_range_map]
      refine List.Perm.trans ?_ (univ_perm n (Equiv.refl (Fin n)) fun j : Fin n =>
        (Complex.exp (Complex.I * (kval n j : ℝ) * c.1), -2 * Real.cos (kval n j)))
      refine List.Perm.of_eq (congrArg List.ofFn (funext fun j => ?_))
      simp only [Function.comp_apply, exp_bal, disp1, cos_bal, Equiv.refl_apply]
  norm_ph c j := by
    rw [show Complex.I * (kval n j : ℝ) * c.1 = ((kval n j * c.1 : ℝ) : ℂ) * Complex.I by
      push_cast; ring]
    exact Complex.norm_exp_ofReal_mul_I _
  ph_zero j := by simp
  ph_neg c j := exp_kval_neg _ _
  ph_period c m j := exp_kval_period (by omega) _ _ _
  card_le := by
    rw [Fintype.card_fin]
    have : (n : ℝ) ≤ 10 ^ 6 := by exact_mod_cast hn'
    linarith [(by norm_num : (10 : ℝ) ^ 6 ≤ 10 ^ 12)]
  gap := by
    have := cos_half_le hn
    simp only [kval_zero, Real.cos_zero]
    linarith
  orth j j' := by
    rw [Fintype.card_fin]
    exact geom_root (by omega) j j'
  image_r := by
    ext ⟨a, b⟩
    simp only [Finset.mem_image, Finset.mem_univ, true_and, Prod.mk.injEq, displacements, if_true,
      Finset.mem_product, Finset.mem_Ico, Finset.mem_singleton]
    constructor
    · rintro ⟨i, rfl, rfl⟩
      exact ⟨⟨by positivity, by exact_mod_cast i.2⟩, rfl⟩
    · rintro ⟨⟨h1, h2⟩, rfl⟩
      exact ⟨⟨a.toNat, by omega⟩, by simp [h1], rfl⟩
  inj_r i j h := by
    simp only [Prod.mk.injEq, and_true] at h
    exact Fin.ext (by exact_mod_cast h)
  neg_neg he := halfShift_twice (by omega) he
  e_neg he j := by rw [cos_halfShift _ he]; ring

/-- Wavevectors of the square lattice. -/
noncomputable def modes2 {n : ℕ} (hn : 2 ≤ n) (hn' : n ≤ 10 ^ 6) : Modes n "2d" where
  κ := Fin n × Fin n
  ph c j := Complex.exp (Complex.I * (kval n j.1 : ℝ) * c.1) *
    Complex.exp (Complex.I * (kval n j.2 : ℝ) * c.2)
  e j := -2 * (Real.cos (kval n j.1) + Real.cos (kval n j.2))
  r i := ((i.1 : ℕ), (i.2 : ℕ))
  i₀ := (⟨0, by omega⟩, ⟨0, by omega⟩)
  spread := (⟨n / 2, by omega⟩, ⟨n / 2, by omega⟩)
  neg j := (halfShift (by omega) j.1, halfShift (by omega) j.2)
  modes c := by
    obtain ⟨l, hl, hp⟩ := kvects_balanced (nx := n) (ny := n) (by omega) (by omega)
    refine ⟨l.map fun k =>
      (Complex.exp (Complex.I * k.1 * c.1 + Complex.I * k.2 * c.2), disp2 k), ?_, ?_⟩
    · unfold realspaceModes
      rw [if_pos rfl, hl]
      rfl
    · refine (hp.map _).trans ?_
      have hb : ((List.finRange n).flatMap fun i => (List.finRange n).map fun j => (j, i)).Perm
          (Finset.univ : Finset (Fin n × Fin n)).toList := by
        rw [List.perm_ext_iff_of_nodup]
        · rintro ⟨a, b⟩
          simp
        · rw [List.nodup_flatMap]
          refine ⟨fun i _ => (List.nodup_finRange n).map fun a b h => by simpa using h, ?_⟩
          refine List.Pairwise.imp ?_ (List.nodup_finRange n)
          intro a b hab x hx hy
          simp only [List.mem_map, List.mem_finRange, true_and] at hx hy
          obtain ⟨j, rfl⟩ := hx
          obtain ⟨k, hk⟩ := hy
          simp only [Prod.mk.injEq] at hk
          exact hab hk.2.symm
        · exact Finset.nodup_toList _
      refine List.Perm.trans (List.Perm.of_eq ?_) (hb.map _)
      have hr : List.range n = (List.finRange n).map fun i : Fin n => (i : ℕ) := by
        rw [← List.ofFn_eq_map]; simpa using list_range_map n id
      rw [hr]
      simp only [List.flatMap_map, List.map_flatMap, List.map_map]
      refine List.flatMap_congr fun i _ => List.map_congr_left fun j _ => ?_
      simp only [Function.comp_apply, disp2, cos_bal, Complex.exp_add, exp_bal]
  norm_ph c j := by
    have h : ∀ (x : ℝ) (c : ℤ), ‖Complex.exp (Complex.I * x * c)‖ = 1 := fun x c => by
      rw [show Complex.I * x * c = ((x * c : ℝ) : ℂ) * Complex.I by push_cast; ring]
      exact Complex.norm_exp_ofReal_mul_I _
    rw [norm_mul, h, h, one_mul]
  ph_zero j := by simp
  ph_neg c j := by simp only [exp_kval_neg, map_mul]
  ph_period c m j := by
    simp only [exp_kval_period (n := n) (by omega)]
  card_le := by
    rw [Fintype.card_prod, Fintype.card_fin]
    have h0 : (0 : ℝ) ≤ n := Nat.cast_nonneg n
    have : (n : ℝ) ≤ 10 ^ 6 := by exact_mod_cast hn'
    push_cast
    nlinarith
  gap := by
    have := cos_half_le hn
    simp only [kval_zero, Real.cos_zero]
    linarith
  orth j j' := by
    have h1 := geom_root (n := n) (by omega) j.1 j'.1
    have h2 := geom_root (n := n) (by omega) j.2 j'.2
    rw [Fintype.sum_prod_type, Fintype.card_prod, Fintype.card_fin]
    have : ∀ x y : Fin n, (starRingEnd ℂ) (Complex.exp (Complex.I * (kval n j.1 : ℝ) * ((x : ℕ) : ℤ)) *
        Complex.exp (Complex.I * (kval n j.2 : ℝ) * ((y : ℕ) : ℤ))) *
        (Complex.exp (Complex.I * (kval n j'.1 : ℝ) * ((x : ℕ) : ℤ)) *
        Complex.exp (Complex.I * (kval n j'.2 : ℝ) * ((y : ℕ) : ℤ))) =
        ((starRingEnd ℂ) (Complex.exp (Complex.I * (kval n j.1 : ℝ) * ((x : ℕ) : ℤ))) *
          Complex.exp (Complex.I * (kval n j'.1 : ℝ) * ((x : ℕ) : ℤ))) *
        ((starRingEnd ℂ) (Complex.exp (Complex.I * (kval n j.2 : ℝ) * ((y : ℕ) : ℤ))) *
          Complex.exp (Complex.I * (kval n j'.2 : ℝ) * ((y : ℕ) : ℤ))) := by
      intro x y; rw [map_mul]; ring
    simp only [this]
    rw [← Finset.sum_mul_sum, h1, h2]
    by_cases e1 : j.1 = j'.1 <;> by_cases e2 : j.2 = j'.2 <;> simp [Prod.ext_iff, e1, e2]
  image_r := by
    ext ⟨a, b⟩
    simp only [Finset.mem_image, Finset.mem_univ, true_and, Prod.mk.injEq, displacements,
      Finset.mem_product, Finset.mem_Ico, if_neg (by decide : ¬ ("2d" = "1d"))]
    constructor
    · rintro ⟨⟨i, j⟩, rfl, rfl⟩
      exact ⟨⟨by positivity, by exact_mod_cast i.2⟩, by positivity, by exact_mod_cast j.2⟩
    · rintro ⟨⟨h1, h2⟩, h3, h4⟩
      exact ⟨(⟨a.toNat, by omega⟩, ⟨b.toNat, by omega⟩), by simp [h1], by simp [h3]⟩
  inj_r i j h := by
    simp only [Prod.mk.injEq] at h
    exact Prod.ext (Fin.ext (by exact_mod_cast h.1)) (Fin.ext (by exact_mod_cast h.2))
  neg_neg he j := by rw [halfShift_twice _ he, halfShift_twice _ he]
  e_neg he j := by rw [cos_halfShift _ he, cos_halfShift _ he]; ring

theorem exists_modes {n : ℕ} {dim : String} (hd : dim = "1d" ∨ dim = "2d") (hn : 2 ≤ n)
    (hn' : n ≤ 10 ^ 6) : Nonempty (Modes n dim) := by
  rcases hd with rfl | rfl
  · exact ⟨modes1 hn hn'⟩
  · exact ⟨modes2 hn hn'⟩

end ED
