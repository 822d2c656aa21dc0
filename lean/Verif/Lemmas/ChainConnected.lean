import Verif.Lemmas.Perron
import Verif.Lemmas.Signs
import Verif.Lemmas.Multiplets
import Verif.Lemmas.JordanWigner

/-! # Lemmas: particles on an open chain reach every arrangement -/

namespace ED

open Matrix Spec

variable {N a b : ℕ}

/-! ## Hopping between neighbouring modes -/

/-- One particle moves between the two modes. -/
def Moves2 (p q : Fin N) (s t : Conf N 2) : Prop := (∀ k, k ≠ p → k ≠ q → s k = t k) ∧ s p ≠ t p ∧ s q ≠ t q ∧ t p ≠ t q

instance (p q : Fin N) (s t : Conf N 2) : Decidable (Moves2 p q s t) := by unfold Moves2; infer_instance

theorem hop_moves {p q : Fin N} (h : (p : ℕ) = q + 1) (s t : Conf N 2) :
    (create p * annih q + create q * annih p) s t = if Moves2 p q s t then 1 else 0 := by
  have hl : q < p := Fin.lt_def.2 (by omega)
  rw [hop_next h, siteOp_eq_bop, siteOp_eq_bop, siteOp_eq_bop, siteOp_eq_bop, bop_mul_gt hl, bop_mul_gt hl, bop2_apply hl, bop2_apply hl]
  have hk : (∀ k, k ≠ q → k ≠ p → s k = t k) ↔ ∀ k, k ≠ p → k ≠ q → s k = t k := ⟨fun h k a b => h k b a, fun h k a b => h k b a⟩
  unfold Moves2
  simp only [hk]
  by_cases hc : ∀ k, k ≠ p → k ≠ q → s k = t k
  · rw [if_pos hc, if_pos hc]
    simp only [eq_true hc, true_and]
    generalize s p = x
    generalize t p = y
    generalize s q = z
    generalize t q = w
    fin_cases x <;> fin_cases y <;> fin_cases z <;> fin_cases w <;> simp [sigmaX, sigmaY] <;> norm_num
  · simp [hc]

theorem Moves2.symm {p q : Fin N} {s t : Conf N 2} (h : Moves2 p q s t) : Moves2 p q t s := by
  obtain ⟨h1, h2, h3, h4⟩ := h
  refine ⟨fun k a b => (h1 k a b).symm, h2.symm, h3.symm, ?_⟩
  omega

theorem Moves2.ne {p q : Fin N} {s t : Conf N 2} (h : Moves2 p q s t) : s ≠ t := fun e => h.2.1 (by rw [e])

/-! ## Packing particles -/

/-- The sum of the numbers of the occupied modes. -/
def spread (s : Conf N 2) : ℕ := ∑ k, if s k = 1 then (k : ℕ) else 0

theorem spread_lt {p q : Fin N} (h : (p : ℕ) = q + 1) {s : Conf N 2} (hp : s p = 1) (hq : s q = 0) :
    Moves2 p q s (Function.update (Function.update s p 0) q 1) ∧ spread (Function.update (Function.update s p 0) q 1) < spread s := by
  have hne : p ≠ q := fun e => by rw [e] at h; omega
  refine ⟨⟨fun k h1 h2 => by rw [Function.update_of_ne h2, Function.update_of_ne h1], ?_, ?_, ?_⟩, ?_⟩
  · rw [Function.update_of_ne hne, Function.update_self, hp]; decide
  · rw [Function.update_self, hq]; decide
  · rw [Function.update_of_ne hne, Function.update_self, Function.update_self]; decide
  · unfold spread
    have hq' : q ∈ Finset.univ.erase p := Finset.mem_erase.2 ⟨hne.symm, Finset.mem_univ q⟩
    rw [← Finset.add_sum_erase _ _ (Finset.mem_univ p), ← Finset.add_sum_erase _ _ hq', ← Finset.add_sum_erase (a := p) _ _ (Finset.mem_univ p),
      ← Finset.add_sum_erase (a := q) _ _ hq']
    have : ∑ x ∈ (Finset.univ.erase p).erase q, (if Function.update (Function.update s p 0) q 1 x = 1 then (x : ℕ) else 0) =
        ∑ x ∈ (Finset.univ.erase p).erase q, if s x = 1 then (x : ℕ) else 0 := by
      refine Finset.sum_congr rfl fun x hx => ?_
      have h1 := Finset.mem_erase.1 hx
      have h2 := Finset.mem_erase.1 h1.2
      rw [Function.update_of_ne h1.1, Function.update_of_ne h2.1]
    rw [this, Function.update_of_ne hne, Function.update_self, Function.update_self, hp, hq]
    simp
    omega

/-- All particles are at the start of the chain. -/
def Packed (s : Conf (a * b) 2) : Prop := ∀ (σ : Fin b) (i j : Fin a), (i : ℕ) = j + 1 → s (mode i σ) = 1 → s (mode j σ) = 1

theorem Packed.below {s : Conf (a * b) 2} (h : Packed s) (σ : Fin b) {i j : Fin a} (hij : j ≤ i) (hi : s (mode i σ) = 1) : s (mode j σ) = 1 := by
  have key : ∀ (k : ℕ) (i : Fin a), (i : ℕ) = j + k → s (mode i σ) = 1 → s (mode j σ) = 1 := by
    intro k
    induction k with
    | zero => intro i e hi; obtain rfl : i = j := Fin.ext e; exact hi
    | succ k ih => intro i e hi; exact ih ⟨j + k, by omega⟩ rfl (h σ i _ (by simp; omega) hi)
  exact key (i - j) i (by have := Fin.le_def.1 hij; omega) hi

theorem Packed.unique {s t : Conf (a * b) 2} (hs : Packed s) (ht : Packed t) (hc : ∀ σ, speciesCount s σ = speciesCount t σ) : s = t := by
  funext k
  obtain ⟨i, σ, rfl⟩ := mode_surj k
  have hsub : ∀ {s t : Conf (a * b) 2}, Packed s → Packed t → speciesCount s σ = speciesCount t σ → s (mode i σ) = 1 → t (mode i σ) = 1 := by
    intro s t hs ht hc hi
    by_contra hn
    have hsubset : (Finset.univ.filter fun j : Fin a => t (mode j σ) = 1) ⊆ Finset.univ.filter fun j : Fin a => s (mode j σ) = 1 := by
      intro j hj
      have hj' := (Finset.mem_filter.1 hj).2
      refine Finset.mem_filter.2 ⟨Finset.mem_univ j, ?_⟩
      rcases le_total j i with h | h
      · exact hs.below σ h hi
      · exact absurd (ht.below σ h hj') hn
    have := Finset.eq_of_subset_of_card_le hsubset hc.le
    have hi' : i ∈ Finset.univ.filter fun j : Fin a => s (mode j σ) = 1 := Finset.mem_filter.2 ⟨Finset.mem_univ i, hi⟩
    rw [← this] at hi'
    exact hn (Finset.mem_filter.1 hi').2
  have h1 := hsub hs ht (hc σ)
  have h2 := hsub ht hs (hc σ).symm
  omega

theorem mode_next {i j : Fin a} (h : (i : ℕ) = j + 1) (σ : Fin b) : (mode i σ : ℕ) = (mode j σ : ℕ) + 1 := by
  simp only [mode]
  omega

/-- One particle moves to a neighbouring site. -/
def Step (s t : Conf (a * b) 2) : Prop := ∃ (σ : Fin b) (i j : Fin a), (i : ℕ) = j + 1 ∧ Moves2 (mode i σ) (mode j σ) s t

theorem Step.symm {s t : Conf (a * b) 2} (h : Step s t) : Step t s := by
  obtain ⟨σ, i, j, h1, h2⟩ := h
  exact ⟨σ, i, j, h1, h2.symm⟩

theorem Step.count {s t : Conf (a * b) 2} (h : Step s t) (σ : Fin b) : speciesCount s σ = speciesCount t σ := by
  obtain ⟨σ', i, j, h1, h2⟩ := h
  have hc := (speciesNumber_hop (a := a) σ i j σ').add_right (speciesNumber_hop (a := a) σ j i σ')
  have := congrFun (congrFun hc.eq s) t
  rw [speciesNumber_diagonal, diagonal_mul, mul_diagonal, hop_moves (mode_next h1 σ'), if_pos h2, mul_one, one_mul] at this
  exact_mod_cast this

theorem reach_packed (s : Conf (a * b) 2) : ∃ t, Packed t ∧ Relation.ReflTransGen Step s t := by
  induction hk : spread s using Nat.strong_induction_on generalizing s with
  | _ k ih =>
    by_cases hp : Packed s
    · exact ⟨s, hp, .refl⟩
    · unfold Packed at hp
      push Not at hp
      obtain ⟨σ, i, j, h1, h2, h3⟩ := hp
      obtain ⟨m1, m2⟩ := spread_lt (mode_next h1 σ) h2 (show s (mode j σ) = 0 by omega)
      obtain ⟨t, t1, t2⟩ := ih _ (by rw [← hk]; exact m2) _ rfl
      exact ⟨t, t1, .head ⟨σ, i, j, h1, m1⟩ t2⟩

theorem reach_count {s t : Conf (a * b) 2} (h : Relation.ReflTransGen Step s t) (σ : Fin b) : speciesCount s σ = speciesCount t σ := by
  induction h with
  | refl => rfl
  | tail _ h ih => rw [ih, h.count]

/-- Arrangements with the same numbers of particles are connected by moves to neighbouring sites. -/
theorem reach_all {s t : Conf (a * b) 2} (h : ∀ σ, speciesCount s σ = speciesCount t σ) : Relation.ReflTransGen Step s t := by
  obtain ⟨p, p1, p2⟩ := reach_packed s
  obtain ⟨q, q1, q2⟩ := reach_packed t
  have : p = q := p1.unique q1 fun σ => by rw [← reach_count p2, h, reach_count q2]
  subst this
  refine p2.trans ?_
  have back : ∀ {x y : Conf (a * b) 2}, Relation.ReflTransGen Step x y → Relation.ReflTransGen Step y x := fun h => by
    induction h with
    | refl => exact .refl
    | tail _ h ih => exact .head h.symm ih
  exact back q2

/-! ## Signs -/

/-- The sign of a site such that neighbouring sites have the product of signs `T`. -/
noncomputable def chainSign (T : ℕ → ℝ) : ℕ → ℤ
  | 0 => 1
  | i + 1 => chainSign T i * if 0 < T i then 1 else -1

theorem chainSign_sq (T : ℕ → ℝ) (i : ℕ) : chainSign T i * chainSign T i = 1 := by
  induction i with
  | zero => rfl
  | succ i ih =>
    rw [chainSign]
    split_ifs
    · rw [mul_one, ih]
    · rw [mul_neg_one, neg_mul_neg, ih]

theorem chainSign_mul (T : ℕ → ℝ) (i : ℕ) : T i = |T i| * ((chainSign T (i + 1) * chainSign T i : ℤ) : ℝ) := by
  rw [chainSign, mul_right_comm, chainSign_sq, one_mul]
  split_ifs with h
  · rw [abs_of_pos h]; simp
  · rw [abs_of_nonpos (not_lt.1 h)]; simp

/-- The signs of the modes. -/
noncomputable def chainModeSign (T : ℕ → ℕ → ℝ) (k : Fin (a * b)) : ℤ := chainSign (T ((modeEquiv a b).symm k).1) ((modeEquiv a b).symm k).2

theorem chainModeSign_mode (T : ℕ → ℕ → ℝ) (i : Fin a) (σ : Fin b) : chainModeSign T (mode i σ) = chainSign (T σ) i := by
  have : (modeEquiv a b).symm (mode i σ) = (σ, i) := (modeEquiv a b).symm_apply_eq.2 rfl
  rw [chainModeSign, this]

open Classical in
/-- Hopping between neighbours on an open chain, seen in a space with fixed numbers of particles. -/
theorem chain_connected {d : ℕ} {sel : Fin (d + 1) → Conf (a * b) 2} (hinj : Function.Injective sel) (T : ℕ → ℕ → ℝ)
    (A : Fin a → Fin a → Fin b → ℂ) (hA : ∀ i j σ, j < i → A i j σ = if (i : ℕ) = j + 1 then (T σ j : ℂ) else 0)
    (hT : ∀ (σ : Fin b) (i j : Fin a), (i : ℕ) = j + 1 → T σ j ≠ 0)
    (hcount : ∀ r r' σ, speciesCount (sel r) σ = speciesCount (sel r') σ)
    (hall : ∀ t, (∃ r, ∀ σ, speciesCount t σ = speciesCount (sel r) σ) → ∃ r, sel r = t)
    {H : Op (a * b) 2} (hH : ∀ s t, s ≠ t → H s t = hubHop A s t) :
    Connected (H.submatrix sel sel) (fun r => occSign (chainModeSign T) (sel r)) fun r r' =>
      ∑ i : Fin a, ∑ j : Fin a, ∑ σ : Fin b, if (i : ℕ) = j + 1 ∧ Moves2 (mode i σ) (mode j σ) (sel r) (sel r') then |T σ j| else 0 := by
  have hχ : ∀ k : Fin (a * b), chainModeSign T k * chainModeSign T k = 1 := fun k => chainSign_sq _ _
  have hnn : ∀ (r r' : Fin (d + 1)) (i j : Fin a) (σ : Fin b),
      0 ≤ if (i : ℕ) = j + 1 ∧ Moves2 (mode i σ) (mode j σ) (sel r) (sel r') then |T σ j| else 0 := fun r r' i j σ => by
    split_ifs
    · exact abs_nonneg _
    · exact le_rfl
  refine ⟨fun r => ?_, fun r r' => Finset.sum_nonneg fun i _ => Finset.sum_nonneg fun j _ => Finset.sum_nonneg fun σ _ => hnn r r' i j σ, fun r r' hne => ?_,
    fun r r' => ?_⟩
  · have := occSign_self hχ (sel r)
    have h2 : (Complex.normSq (occSign (chainModeSign T) (sel r)) : ℂ) = 1 := by
      rw [Complex.normSq_eq_conj_mul_self, ← Complex.star_def, star_occSign, this]
    exact_mod_cast h2
  · rw [submatrix_apply, hH _ _ (hinj.ne hne), star_occSign, hubHop]
    simp only [Matrix.sum_apply]
    push_cast
    simp only [Finset.sum_mul, ← Finset.sum_neg_distrib]
    refine Finset.sum_congr rfl fun i _ => Finset.sum_congr rfl fun j _ => Finset.sum_congr rfl fun σ _ => ?_
    by_cases hij : (i : ℕ) = j + 1
    · have hlt : j < i := Fin.lt_def.2 (by omega)
      have hs0 : signOp (chainModeSign T) * (create (mode i σ) * annih (mode j σ) + create (mode j σ) * annih (mode i σ)) * signOp (chainModeSign T) =
          ((chainModeSign T (mode i σ) * chainModeSign T (mode j σ) : ℤ) : ℂ) •
            (create (mode i σ) * annih (mode j σ) + create (mode j σ) * annih (mode i σ)) := by
        rw [Matrix.mul_add, Matrix.add_mul, signOp_hop hχ, signOp_hop hχ, mul_comm (chainModeSign T (mode j σ)), smul_add]
      have hs := congrFun (congrFun hs0 (sel r)) (sel r')
      rw [signOp, Matrix.smul_apply, mul_diagonal, diagonal_mul, hop_moves (mode_next hij σ)] at hs
      rw [if_pos hlt, Matrix.neg_apply, Matrix.smul_apply, hop_moves (mode_next hij σ), hA i j σ hlt, if_pos hij]
      simp only [hij, true_and]
      by_cases hm : Moves2 (mode i σ) (mode j σ) (sel r) (sel r')
      · rw [if_pos hm, mul_one, smul_eq_mul, mul_one] at hs
        rw [if_pos hm, if_pos hm, hs, smul_eq_mul, mul_one, chainModeSign_mode, chainModeSign_mode, hij]
        congr 1
        exact_mod_cast chainSign_mul (T σ) j
      · rw [if_neg hm, if_neg hm, smul_zero, Complex.ofReal_zero, zero_mul]
    · rw [if_neg fun h : (i : ℕ) = j + 1 ∧ Moves2 (mode i σ) (mode j σ) (sel r) (sel r') => hij h.1]
      split_ifs with hlt
      · rw [hA i j σ hlt, if_neg hij, zero_smul]; simp
      · simp
  · have key : ∀ {s t : Conf (a * b) 2}, Relation.ReflTransGen Step s t → ∀ x, sel x = s → ∃ y, sel y = t ∧
        Relation.ReflTransGen (fun r r' => r ≠ r' ∧ 0 < ∑ i : Fin a, ∑ j : Fin a, ∑ σ : Fin b,
          if (i : ℕ) = j + 1 ∧ Moves2 (mode i σ) (mode j σ) (sel r) (sel r') then |T σ j| else 0) x y := by
      intro s t h x hx
      induction h with
      | refl => exact ⟨x, hx, .refl⟩
      | tail _ h ih =>
        obtain ⟨y, y1, y2⟩ := ih
        obtain ⟨z, z1⟩ := hall _ ⟨y, fun σ => (h.count σ).symm.trans (by rw [y1])⟩
        refine ⟨z, z1, y2.tail ⟨fun e => ?_, ?_⟩⟩
        · obtain ⟨σ, i, j, h1, h2⟩ := h
          exact h2.ne (by rw [← y1, ← z1, e])
        · obtain ⟨σ, i, j, h1, h2⟩ := h
          refine Finset.sum_pos' (fun i _ => Finset.sum_nonneg fun j _ => Finset.sum_nonneg fun σ _ => hnn _ _ i j σ) ⟨i, Finset.mem_univ i, ?_⟩
          refine Finset.sum_pos' (fun j _ => Finset.sum_nonneg fun σ _ => hnn _ _ i j σ) ⟨j, Finset.mem_univ j, ?_⟩
          refine Finset.sum_pos' (fun σ _ => hnn _ _ i j σ) ⟨σ, Finset.mem_univ σ, ?_⟩
          rw [y1, z1, if_pos ⟨h1, h2⟩]
          exact abs_pos.2 (hT σ i j h1)
    obtain ⟨y, y1, y2⟩ := key (reach_all (hcount r r')) r rfl
    rw [hinj y1] at y2
    exact y2

end ED
