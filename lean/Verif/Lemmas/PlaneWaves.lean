import Verif.Lemmas.SquareModel
import Verif.Lemmas.FermiLattice
import Verif.Spec.FreeFermions

/-! # Lemmas: plane waves on periodic square lattices -/

namespace ED.Props

open ED ED.Geometry Classical
open scoped BigOperators

/-! ## Sums over neighbours on a ring -/

/-- Two numbers differ by a multiple of `n` and `d`. -/
def Step (n : ℕ) (d x j : ℤ) : Prop := ∃ k : ℤ, x - j + k * n = d

theorem step_iff {n : ℕ} (hn : 0 < n) (d x : ℤ) (j : Fin n) :
    Step n d x (j : ℕ) ↔ j = ⟨((x - d) % n).toNat, by
      have h := Int.emod_lt_of_pos (x - d) (by exact_mod_cast hn : (0 : ℤ) < n)
      have := Int.emod_nonneg (x - d) (by exact_mod_cast hn.ne' : (n : ℤ) ≠ 0)
      omega⟩ := by
  have h0 : (0 : ℤ) < n := by exact_mod_cast hn
  have h1 := Int.emod_lt_of_pos (x - d) h0
  have h2 := Int.emod_nonneg (x - d) h0.ne'
  rw [Fin.ext_iff]
  simp only
  constructor
  · rintro ⟨k, hk⟩
    have e : x - d = (j : ℕ) + (n : ℤ) * (-k) := by
      have := hk
      linarith [mul_comm (k : ℤ) (n : ℤ)]
    rw [e, Int.add_mul_emod_self_left, Int.emod_eq_of_lt (by positivity) (by exact_mod_cast j.2)]
    simp
  · intro h
    have e : ((j : ℕ) : ℤ) = (x - d) % n := by rw [h, Int.toNat_of_nonneg h2]
    refine ⟨-((x - d) / n), ?_⟩
    have := Int.emod_add_mul_ediv (x - d) n
    rw [e]
    linarith [mul_comm ((x - d) / n) (n : ℤ)]

theorem step_sum {n : ℕ} (hn : 0 < n) (d x : ℤ) (f : ℤ → ℂ) (hf : ∀ x m : ℤ, f (x + n * m) = f x) :
    ∑ j : Fin n, (if Step n d x (j : ℕ) then f (j : ℕ) else 0) = f (x - d) := by
  have h0 : (0 : ℤ) < n := by exact_mod_cast hn
  have h2 := Int.emod_nonneg (x - d) h0.ne'
  simp only [step_iff hn]
  rw [Finset.sum_ite_eq', if_pos (Finset.mem_univ _)]
  simp only
  rw [Int.toNat_of_nonneg h2]
  conv_rhs => rw [← Int.emod_add_mul_ediv (x - d) n]
  rw [hf]

theorem step_unique {n : ℕ} {d d' x j : ℤ} (h : Step n d x j) (h' : Step n d' x j) : ∃ k : ℤ, d - d' = k * n := by
  obtain ⟨k, hk⟩ := h
  obtain ⟨k', hk'⟩ := h'
  exact ⟨k - k', by rw [← hk, ← hk']; ring⟩

/-- Sum over the two neighbours on a ring of at least three sites. -/
theorem ring_sum {n : ℕ} (hn : 3 ≤ n) (x : ℤ) (f : ℤ → ℂ) (hf : ∀ x m : ℤ, f (x + n * m) = f x) :
    ∑ j : Fin n, (if Step n 1 x (j : ℕ) ∨ Step n (-1) x (j : ℕ) then f (j : ℕ) else 0) = f (x - 1) + f (x + 1) := by
  rw [show x + 1 = x - (-1) by ring, ← step_sum (by omega) 1 x f hf, ← step_sum (by omega) (-1) x f hf,
    ← Finset.sum_add_distrib]
  refine Finset.sum_congr rfl fun j _ => ?_
  have hex : ¬ (Step n 1 x (j : ℕ) ∧ Step n (-1) x (j : ℕ)) := by
    rintro ⟨h, h'⟩
    obtain ⟨k, hk⟩ := step_unique h h'
    have h3 : (3 : ℤ) ≤ n := by exact_mod_cast hn
    rcases lt_trichotomy k 0 with hk0 | rfl | hk0
    · nlinarith
    · norm_num at hk
    · nlinarith
  by_cases a : Step n 1 x (j : ℕ) <;> by_cases b : Step n (-1) x (j : ℕ)
  · exact absurd ⟨a, b⟩ hex
  · simp [a, b]
  · simp [a, b]
  · simp [a, b]

theorem exp_step (k : ℝ) (x : ℤ) :
    Complex.exp (Complex.I * k * ((x - 1 : ℤ) : ℂ)) + Complex.exp (Complex.I * k * ((x + 1 : ℤ) : ℂ)) =
      ((2 * Real.cos k : ℝ) : ℂ) * Complex.exp (Complex.I * k * (x : ℂ)) := by
  have e1 : Complex.I * k * ((x - 1 : ℤ) : ℂ) = Complex.I * k * (x : ℂ) + -(k * Complex.I) := by push_cast; ring
  have e2 : Complex.I * k * ((x + 1 : ℤ) : ℂ) = Complex.I * k * (x : ℂ) + k * Complex.I := by push_cast; ring
  rw [e1, e2, Complex.exp_add, Complex.exp_add]
  push_cast
  rw [Complex.cos]
  ring_nf

/-- The geometry has the sites of the lattice of the wavevectors, and hopping to neighbours multiplies a wave by minus
its energy. -/
structure GasSites {n : ℕ} {dim : String} (L : Modes n dim) (g : Geometry) where
  σ : Fin g.nsites ≃ L.κ
  x : ∀ i : Fin g.nsites, g.xlocs[(i : ℕ)]? = some (((L.r (σ i)).1 : ℤ) : ℝ)
  y : ∀ i : Fin g.nsites, g.ylocs[(i : ℕ)]? = some (((L.r (σ i)).2 : ℤ) : ℝ)
  diag : ∀ i : Fin g.nsites, g.adjacency.e i i = 0
  sub : ∀ (c c' : ℤ × ℤ) (k : L.κ), L.ph (c.1 - c'.1, c.2 - c'.2) k = L.ph c k * (starRingEnd ℂ) (L.ph c' k)
  hop : ∀ (i : Fin g.nsites) (k : L.κ),
    ∑ j : Fin g.nsites, (g.adjacency.e i j : ℂ) * L.ph (L.r (σ j)) k = -(L.e k : ℂ) * L.ph (L.r (σ i)) k

theorem exp_sub (n : ℕ) (m : ℕ) (x y : ℤ) : Complex.exp (Complex.I * (kval n m : ℝ) * ((x - y : ℤ) : ℂ)) =
    Complex.exp (Complex.I * (kval n m : ℝ) * (x : ℂ)) *
      (starRingEnd ℂ) (Complex.exp (Complex.I * (kval n m : ℝ) * (y : ℂ))) := by
  rw [← exp_kval_neg, ← Complex.exp_add]
  congr 1
  push_cast
  ring

/-- Sites with different grid points in a grid of the same size. -/
theorem grid_equiv {N : ℕ} {κ : Type} [Fintype κ] (f : Fin N → κ) (hf : Function.Injective f)
    (hc : Fintype.card κ = N) : ∃ σ : Fin N ≃ κ, ∀ i, σ i = f i :=
  ⟨Equiv.ofBijective f ((Fintype.bijective_iff_injective_and_card f).2 ⟨hf, by simp [hc]⟩), fun _ => rfl⟩

/-- The chain. -/
theorem chain_sites {n : ℕ} (hn : 3 ≤ n) (hn' : n < 10 ^ 14) {g : Geometry} (hg : createSquare n 1 0 0 false true = .ok g) :
    ∃ σ : Fin g.nsites ≃ Fin n, (∀ i : Fin g.nsites, g.xlocs[(i : ℕ)]? = some ((((σ i : ℕ) : ℤ) : ℝ))) ∧
      (∀ i : Fin g.nsites, g.ylocs[(i : ℕ)]? = some (((0 : ℤ) : ℝ))) ∧ (∀ i : Fin g.nsites, g.adjacency.e i i = 0) ∧
      ∀ (i : Fin g.nsites) (k : Fin n),
        ∑ j : Fin g.nsites, (g.adjacency.e i j : ℂ) * Complex.exp (Complex.I * (kval n k : ℝ) * (((σ j : ℕ) : ℤ) : ℂ)) =
          -((-2 * Real.cos (kval n k) : ℝ) : ℂ) * Complex.exp (Complex.I * (kval n k : ℝ) * (((σ i : ℕ) : ℤ) : ℂ)) := by
  have harea : n * 1 < 10 ^ 14 := by omega
  have q1 : n = 1 → false = true := fun h => by omega
  have q2 : 1 = 1 → true = true := fun _ => rfl
  obtain ⟨g', hg', hN, -⟩ := C50_square n 1 (by omega) one_pos 0 0 false true q1 q2
  rw [hg] at hg'
  injection hg' with e
  subst e
  obtain ⟨g', hg', hlen, hnd, hgrid⟩ := C50_square_grid n 1 (by omega) one_pos harea.le 0 0 false true q1 q2
  rw [hg] at hg'
  injection hg' with e
  subst e
  have pos : ∀ i : Fin g.nsites, ∃ a : Fin n, g.xlocs[(i : ℕ)]? = some ((a : ℕ) : ℝ) ∧ g.ylocs[(i : ℕ)]? = some 0 := by
    intro i
    have hi : (i : ℕ) < g.xlocs.length := i.2
    have hi' : (i : ℕ) < g.ylocs.length := hlen ▸ hi
    have hm : (g.xlocs[(i : ℕ)], g.ylocs[(i : ℕ)]) ∈ g.xlocs.zip g.ylocs := by
      rw [List.mem_iff_getElem?]
      refine ⟨i, ?_⟩
      rw [List.getElem?_zip_eq_some]
      exact ⟨List.getElem?_eq_getElem hi, List.getElem?_eq_getElem hi'⟩
    obtain ⟨a, b, ha, hb, e1, e2⟩ := (hgrid _ _).1 hm
    refine ⟨⟨a, ha⟩, ?_, ?_⟩
    · rw [List.getElem?_eq_getElem hi, e1]
    · have : b = 0 := by omega
      rw [List.getElem?_eq_getElem hi', e2, this, Nat.cast_zero]
  choose f hfx hfy using pos
  have hinj : Function.Injective f := by
    intro i j hij
    have e1 : (g.xlocs.zip g.ylocs)[(i : ℕ)]? = some (((f i : ℕ) : ℝ), 0) :=
      List.getElem?_zip_eq_some.2 ⟨hfx i, hfy i⟩
    have e2 : (g.xlocs.zip g.ylocs)[(j : ℕ)]? = some (((f i : ℕ) : ℝ), 0) :=
      List.getElem?_zip_eq_some.2 ⟨by rw [hij]; exact hfx j, hfy j⟩
    have hi : (i : ℕ) < (g.xlocs.zip g.ylocs).length := (List.getElem?_eq_some_iff.1 e1).1
    exact Fin.ext ((List.getElem?_inj hi hnd).1 (e1.trans e2.symm))
  obtain ⟨σ, hσ⟩ := grid_equiv f hinj (by rw [Fintype.card_fin, hN, mul_one])
  have hadj : ∀ i j : Fin g.nsites, g.adjacency.e i j =
      if Step n 1 ((f i : ℕ) : ℤ) (f j : ℕ) ∨ Step n (-1) ((f i : ℕ) : ℤ) (f j : ℕ) then 1 else 0 := by
    intro i j
    obtain ⟨h01, h1⟩ := C51_square n 1 (by omega) one_pos harea 0 0 false true q1 q2 hg (hfx i) (hfy i) (hfx j) (hfy j)
    have hiff : g.adjacency.e i j = 1 ↔ Step n 1 ((f i : ℕ) : ℤ) (f j : ℕ) ∨ Step n (-1) ((f i : ℕ) : ℤ) (f j : ℕ) := by
      rw [h1]
      constructor
      · rintro ⟨k, l, -, hl, hm⟩
        rw [hl rfl] at hm
        simp only [Set.mem_insert_iff, Set.mem_singleton_iff, Prod.mk.injEq] at hm
        rcases hm with ⟨h, -⟩ | ⟨h, -⟩ | ⟨-, h⟩ | ⟨-, h⟩
        · exact Or.inl ⟨k, by exact_mod_cast h⟩
        · exact Or.inr ⟨k, by exact_mod_cast h⟩
        · norm_num at h
        · norm_num at h
      · rintro (⟨k, hk⟩ | ⟨k, hk⟩)
        · refine ⟨k, 0, by simp, fun _ => rfl, ?_⟩
          left
          have : (((f i : ℕ) : ℝ) - (f j : ℕ) + k * n) = 1 := by exact_mod_cast hk
          simp [this]
        · refine ⟨k, 0, by simp, fun _ => rfl, ?_⟩
          right; left
          have : (((f i : ℕ) : ℝ) - (f j : ℕ) + k * n) = -1 := by exact_mod_cast hk
          simp [this]
    split_ifs with h
    · exact hiff.2 h
    · exact h01.resolve_right fun h' => h (hiff.1 h')
  refine ⟨σ, fun i => ?_, fun i => ?_, fun i => ?_, fun i k => ?_⟩
  · rw [hfx, hσ]; simp
  · rw [hfy]; simp
  · rw [hadj, if_neg]
    rintro (⟨k, hk⟩ | ⟨k, hk⟩)
    · have h3 : (3 : ℤ) ≤ n := by exact_mod_cast hn
      rw [sub_self, zero_add] at hk
      rcases lt_trichotomy k 0 with hk0 | rfl | hk0 <;> nlinarith
    · have h3 : (3 : ℤ) ≤ n := by exact_mod_cast hn
      rw [sub_self, zero_add] at hk
      rcases lt_trichotomy k 0 with hk0 | rfl | hk0 <;> nlinarith
  · set w : ℤ → ℂ := fun x => Complex.exp (Complex.I * (kval n k : ℝ) * x) with hw
    have hf : ∀ x m : ℤ, w (x + n * m) = w x := fun x m => exp_kval_period (by omega) _ _ _
    have hs := ring_sum hn (f i : ℕ) w hf
    have he : ∑ j : Fin g.nsites, (g.adjacency.e i j : ℂ) * w ((σ j : ℕ) : ℤ) =
        ∑ j : Fin n, (if Step n 1 ((f i : ℕ) : ℤ) (j : ℕ) ∨ Step n (-1) ((f i : ℕ) : ℤ) (j : ℕ) then w (j : ℕ) else 0) := by
      refine Fintype.sum_equiv σ _ _ fun j => ?_
      rw [hadj, hσ]
      split_ifs <;> simp
    change ∑ j : Fin g.nsites, (g.adjacency.e i j : ℂ) * w ((σ j : ℕ) : ℤ) = _
    rw [he, hs]
    have := exp_step (kval n k) ((f i : ℕ) : ℤ)
    rw [hσ]
    simp only [hw] at this ⊢
    rw [this]
    push_cast
    ring

theorem ite_and_one {P Q : Prop} [Decidable P] [Decidable Q] :
    (if P ∧ Q then (1 : ℝ) else 0) = (if P then 1 else 0) * (if Q then 1 else 0) := by
  by_cases hP : P <;> by_cases hQ : Q <;> simp [hP, hQ]

/-- An entry which is one in two exclusive cases. -/
theorem indicator {a : ℝ} {P1 P2 Z1 Z2 : Prop} [Decidable P1] [Decidable P2] [Decidable Z1] [Decidable Z2] (x1 : Z1 → ¬ P1) (x2 : Z2 → ¬ P2) (h01 : a = 0 ∨ a = 1)
    (hiff : a = 1 ↔ (P1 ∧ Z2) ∨ (Z1 ∧ P2)) :
    a = (if P1 then 1 else 0) * (if Z2 then 1 else 0) + (if Z1 then 1 else 0) * (if P2 then 1 else 0) := by
  by_cases ha : a = 1
  · rcases hiff.1 ha with ⟨h1, h2⟩ | ⟨h1, h2⟩
    · rw [if_pos h1, if_pos h2, if_neg (fun h => x1 h h1), ha]; simp
    · rw [if_pos h1, if_pos h2, if_neg (x1 h1), ha]; simp
  · have h0 := h01.resolve_right ha
    have hn : ¬ (P1 ∧ Z2) ∧ ¬ (Z1 ∧ P2) := not_or.1 (fun h => ha (hiff.2 h))
    rw [h0, ← ite_and_one, ← ite_and_one, if_neg hn.1, if_neg hn.2, add_zero]

/-- The square lattice. -/
theorem grid_sites {n : ℕ} (hn : 3 ≤ n) (hn' : n * n < 10 ^ 14) {g : Geometry}
    (hg : createSquare n n 0 0 false false = .ok g) :
    ∃ σ : Fin g.nsites ≃ Fin n × Fin n, (∀ i : Fin g.nsites, g.xlocs[(i : ℕ)]? = some (((((σ i).1 : ℕ) : ℤ) : ℝ))) ∧
      (∀ i : Fin g.nsites, g.ylocs[(i : ℕ)]? = some (((((σ i).2 : ℕ) : ℤ) : ℝ))) ∧
      (∀ i : Fin g.nsites, g.adjacency.e i i = 0) ∧
      ∀ (i : Fin g.nsites) (k : Fin n × Fin n),
        ∑ j : Fin g.nsites, (g.adjacency.e i j : ℂ) *
          (Complex.exp (Complex.I * (kval n k.1 : ℝ) * ((((σ j).1 : ℕ) : ℤ) : ℂ)) *
            Complex.exp (Complex.I * (kval n k.2 : ℝ) * ((((σ j).2 : ℕ) : ℤ) : ℂ))) =
          -((-2 * (Real.cos (kval n k.1) + Real.cos (kval n k.2)) : ℝ) : ℂ) *
          (Complex.exp (Complex.I * (kval n k.1 : ℝ) * ((((σ i).1 : ℕ) : ℤ) : ℂ)) *
            Complex.exp (Complex.I * (kval n k.2 : ℝ) * ((((σ i).2 : ℕ) : ℤ) : ℂ))) := by
  have q1 : n = 1 → false = true := fun h => by omega
  have hpos : 0 < n := by omega
  obtain ⟨g', hg', hN, -⟩ := C50_square n n hpos hpos 0 0 false false q1 q1
  rw [hg] at hg'
  injection hg' with e
  subst e
  obtain ⟨g', hg', hlen, hnd, hgrid⟩ := C50_square_grid n n hpos hpos hn'.le 0 0 false false q1 q1
  rw [hg] at hg'
  injection hg' with e
  subst e
  have pos : ∀ i : Fin g.nsites, ∃ a : Fin n × Fin n, g.xlocs[(i : ℕ)]? = some ((a.1 : ℕ) : ℝ) ∧
      g.ylocs[(i : ℕ)]? = some ((a.2 : ℕ) : ℝ) := by
    intro i
    have hi : (i : ℕ) < g.xlocs.length := i.2
    have hi' : (i : ℕ) < g.ylocs.length := hlen ▸ hi
    have hm : (g.xlocs[(i : ℕ)], g.ylocs[(i : ℕ)]) ∈ g.xlocs.zip g.ylocs := by
      rw [List.mem_iff_getElem?]
      refine ⟨i, ?_⟩
      rw [List.getElem?_zip_eq_some]
      exact ⟨List.getElem?_eq_getElem hi, List.getElem?_eq_getElem hi'⟩
    obtain ⟨a, b, ha, hb, e1, e2⟩ := (hgrid _ _).1 hm
    refine ⟨(⟨a, ha⟩, ⟨b, hb⟩), ?_, ?_⟩
    · rw [List.getElem?_eq_getElem hi, e1]
    · rw [List.getElem?_eq_getElem hi', e2]
  choose f hfx hfy using pos
  have hinj : Function.Injective f := by
    intro i j hij
    have e1 : (g.xlocs.zip g.ylocs)[(i : ℕ)]? = some ((((f i).1 : ℕ) : ℝ), (((f i).2 : ℕ) : ℝ)) :=
      List.getElem?_zip_eq_some.2 ⟨hfx i, hfy i⟩
    have e2 : (g.xlocs.zip g.ylocs)[(j : ℕ)]? = some ((((f i).1 : ℕ) : ℝ), (((f i).2 : ℕ) : ℝ)) :=
      List.getElem?_zip_eq_some.2 ⟨by rw [hij]; exact hfx j, by rw [hij]; exact hfy j⟩
    have hi : (i : ℕ) < (g.xlocs.zip g.ylocs).length := (List.getElem?_eq_some_iff.1 e1).1
    exact Fin.ext ((List.getElem?_inj hi hnd).1 (e1.trans e2.symm))
  obtain ⟨σ, hσ⟩ := grid_equiv f hinj (by rw [Fintype.card_prod, Fintype.card_fin, hN])
  have small : ∀ {x j : ℤ}, Step n 0 x j → ¬ (Step n 1 x j ∨ Step n (-1) x j) := by
    intro x j h0 h1
    have h3 : (3 : ℤ) ≤ n := by exact_mod_cast hn
    rcases h1 with h1 | h1
    · obtain ⟨k, hk⟩ := step_unique h0 h1
      rcases lt_trichotomy k 0 with hk0 | rfl | hk0 <;> nlinarith
    · obtain ⟨k, hk⟩ := step_unique h0 h1
      rcases lt_trichotomy k 0 with hk0 | rfl | hk0 <;> nlinarith
  have hadj : ∀ i j : Fin g.nsites, g.adjacency.e i j =
      (if Step n 1 (((f i).1 : ℕ) : ℤ) ((f j).1 : ℕ) ∨ Step n (-1) (((f i).1 : ℕ) : ℤ) ((f j).1 : ℕ) then 1 else 0) *
        (if Step n 0 (((f i).2 : ℕ) : ℤ) ((f j).2 : ℕ) then 1 else 0) +
      (if Step n 0 (((f i).1 : ℕ) : ℤ) ((f j).1 : ℕ) then 1 else 0) *
        (if Step n 1 (((f i).2 : ℕ) : ℤ) ((f j).2 : ℕ) ∨ Step n (-1) (((f i).2 : ℕ) : ℤ) ((f j).2 : ℕ) then 1 else 0) := by
    intro i j
    obtain ⟨h01, h1⟩ := C51_square n n hpos hpos hn' 0 0 false false q1 q1 hg (hfx i) (hfy i) (hfx j) (hfy j)
    refine indicator small small h01 ?_
    rw [h1]
    constructor
    · rintro ⟨k, l, -, -, hm⟩
      simp only [Set.mem_insert_iff, Set.mem_singleton_iff, Prod.mk.injEq] at hm
      rcases hm with ⟨h, h'⟩ | ⟨h, h'⟩ | ⟨h, h'⟩ | ⟨h, h'⟩
      · exact Or.inl ⟨Or.inl ⟨k, by exact_mod_cast h⟩, ⟨l, by exact_mod_cast h'⟩⟩
      · exact Or.inl ⟨Or.inr ⟨k, by exact_mod_cast h⟩, ⟨l, by exact_mod_cast h'⟩⟩
      · exact Or.inr ⟨⟨k, by exact_mod_cast h⟩, Or.inl ⟨l, by exact_mod_cast h'⟩⟩
      · exact Or.inr ⟨⟨k, by exact_mod_cast h⟩, Or.inr ⟨l, by exact_mod_cast h'⟩⟩
    · rintro (⟨⟨k, h⟩ | ⟨k, h⟩, ⟨l, h'⟩⟩ | ⟨⟨k, h⟩, ⟨l, h'⟩ | ⟨l, h'⟩⟩) <;>
      · refine ⟨k, l, by simp, by simp, ?_⟩
        have e1 := congrArg (Int.cast (R := ℝ)) h
        have e2 := congrArg (Int.cast (R := ℝ)) h'
        push_cast at e1 e2
        rw [e1, e2]
        simp
  refine ⟨σ, fun i => ?_, fun i => ?_, fun i => ?_, fun i k => ?_⟩
  · rw [hfx, hσ]; simp
  · rw [hfy, hσ]; simp
  · have z : ∀ x : ℤ, Step n 0 x x := fun x => ⟨0, by ring⟩
    rw [hadj, if_neg (small (z _)), if_neg (small (z _))]
    simp
  · set w : ℕ → ℤ → ℂ := fun q x => Complex.exp (Complex.I * (kval n q : ℝ) * x) with hw
    have hf : ∀ q, ∀ x m : ℤ, w q (x + n * m) = w q x := fun q x m => exp_kval_period (by omega) _ _ _
    have hs := fun q x => ring_sum hn x (w q) (hf q)
    have hz := fun q x => step_sum hpos 0 x (w q) (hf q)
    have he : ∑ j : Fin g.nsites, (g.adjacency.e i j : ℂ) * (w k.1 (((σ j).1 : ℕ) : ℤ) * w k.2 (((σ j).2 : ℕ) : ℤ)) =
        ∑ j : Fin n × Fin n, ((if Step n 1 (((f i).1 : ℕ) : ℤ) (j.1 : ℕ) ∨ Step n (-1) (((f i).1 : ℕ) : ℤ) (j.1 : ℕ) then
            w k.1 (j.1 : ℕ) else 0) * (if Step n 0 (((f i).2 : ℕ) : ℤ) (j.2 : ℕ) then w k.2 (j.2 : ℕ) else 0) +
          (if Step n 0 (((f i).1 : ℕ) : ℤ) (j.1 : ℕ) then w k.1 (j.1 : ℕ) else 0) *
          (if Step n 1 (((f i).2 : ℕ) : ℤ) (j.2 : ℕ) ∨ Step n (-1) (((f i).2 : ℕ) : ℤ) (j.2 : ℕ) then
            w k.2 (j.2 : ℕ) else 0)) := by
      refine Fintype.sum_equiv σ _ _ fun j => ?_
      rw [hadj, hσ]
      split_ifs <;> push_cast <;> ring
    change ∑ j : Fin g.nsites, (g.adjacency.e i j : ℂ) * (w k.1 (((σ j).1 : ℕ) : ℤ) * w k.2 (((σ j).2 : ℕ) : ℤ)) = _
    have hprod : ∀ F G : Fin n → ℂ, ∑ p : Fin n × Fin n, F p.1 * G p.2 = (∑ x, F x) * ∑ y, G y := fun F G => by
      rw [Fintype.sum_prod_type, Finset.sum_mul_sum]
    rw [he, Finset.sum_add_distrib, hprod (fun x => if Step n 1 (((f i).1 : ℕ) : ℤ) (x : ℕ) ∨
      Step n (-1) (((f i).1 : ℕ) : ℤ) (x : ℕ) then w k.1 (x : ℕ) else 0)
      (fun y => if Step n 0 (((f i).2 : ℕ) : ℤ) (y : ℕ) then w k.2 (y : ℕ) else 0),
      hprod (fun x => if Step n 0 (((f i).1 : ℕ) : ℤ) (x : ℕ) then w k.1 (x : ℕ) else 0)
      (fun y => if Step n 1 (((f i).2 : ℕ) : ℤ) (y : ℕ) ∨ Step n (-1) (((f i).2 : ℕ) : ℤ) (y : ℕ) then
        w k.2 (y : ℕ) else 0), hs, hz, hs, hz, sub_zero, sub_zero]
    have e1 := exp_step (kval n k.1) (((f i).1 : ℕ) : ℤ)
    have e2 := exp_step (kval n k.2) (((f i).2 : ℕ) : ℤ)
    rw [hσ]
    simp only [hw] at e1 e2 ⊢
    rw [e1, e2]
    push_cast
    ring

/-- The wavevectors of the Fermi gas module belong to the lattices of the same size. -/
theorem sites1 {n : ℕ} (hn : 3 ≤ n) (hn' : n ≤ 10 ^ 6) {g : Geometry} (hg : createSquare n 1 0 0 false true = .ok g) :
    Nonempty (GasSites (modes1 (by omega : 2 ≤ n) hn') g) := by
  obtain ⟨σ, h1, h2, h3, h4⟩ := chain_sites hn (by omega) hg
  exact ⟨⟨σ, h1, h2, h3, fun c c' k => exp_sub n _ c.1 c'.1, h4⟩⟩

theorem sites2 {n : ℕ} (hn : 3 ≤ n) (hn' : n ≤ 10 ^ 6) {g : Geometry} (hg : createSquare n n 0 0 false false = .ok g) :
    Nonempty (GasSites (modes2 (by omega : 2 ≤ n) hn') g) := by
  obtain ⟨σ, h1, h2, h3, h4⟩ := grid_sites hn (by nlinarith) hg
  refine ⟨⟨σ, h1, h2, h3, fun c c' k => ?_, h4⟩⟩
  change Complex.exp _ * Complex.exp _ = (Complex.exp _ * Complex.exp _) * (starRingEnd ℂ) (Complex.exp _ * Complex.exp _)
  rw [exp_sub, exp_sub, map_mul]
  ring

end ED.Props
