import Verif.Lemmas.Hubbard

/-! # Helper lemmas: algebra of the fermion Hamiltonian -/

namespace ED

open scoped BigOperators
open Matrix

variable {N a b : ℕ}

/-! ### Adjoints -/

theorem annih_star (i : Fin N) : (annih i)ᴴ = create i := by
  rw [annih, conjTranspose_conjTranspose]

theorem create_star (i : Fin N) : (create i)ᴴ = annih i := rfl

theorem number_star (i : Fin N) : (number i)ᴴ = number i := by
  rw [number, diagonal_conjTranspose]
  congr 1; funext s; simp only [Pi.star_apply]; split_ifs <;> simp

theorem hubPot_star (V : Fin a → Fin b → ℂ) : (hubPot V)ᴴ = hubPot fun i s => star (V i s) := by
  simp only [hubPot, conjTranspose_sum, conjTranspose_smul, number_star]

theorem number_comm (i j : Fin N) : number i * number j = number j * number i := by
  simp only [number, diagonal_mul_diagonal, mul_comm]

theorem hubInter_star (U : Fin a → ℂ) :
    (hubInter U : Op (a * b) 2)ᴴ = hubInter fun i => star (U i) := by
  unfold hubInter
  split_ifs with h
  · simp only [conjTranspose_sum, conjTranspose_smul, conjTranspose_mul, number_star]
    exact Finset.sum_congr rfl fun i _ => by rw [number_comm]
  · simp

theorem hubSame_star (W : Fin a → Fin a → Fin b → ℂ) :
    (hubSame W)ᴴ = hubSame fun i j s => star (W i j s) := by
  simp only [hubSame, conjTranspose_sum]
  refine Finset.sum_congr rfl fun i _ => Finset.sum_congr rfl fun j _ =>
    Finset.sum_congr rfl fun s _ => ?_
  split_ifs
  · rw [conjTranspose_smul, conjTranspose_mul, number_star, number_star, number_comm]
  · simp

theorem hubHop_star (T : Fin a → Fin a → Fin b → ℂ) :
    (hubHop T)ᴴ = hubHop fun i j s => star (T i j s) := by
  simp only [hubHop, conjTranspose_sum]
  refine Finset.sum_congr rfl fun i _ => Finset.sum_congr rfl fun j _ =>
    Finset.sum_congr rfl fun s _ => ?_
  split_ifs
  · rw [conjTranspose_neg, conjTranspose_smul, conjTranspose_add, conjTranspose_mul,
      conjTranspose_mul, annih_star, annih_star, create_star, create_star, add_comm]
  · simp

theorem hubHop_congr {T T' : Fin a → Fin a → Fin b → ℂ} (h : ∀ i j s, j < i → T i j s = T' i j s) :
    hubHop T = hubHop T' := by
  unfold hubHop
  refine Finset.sum_congr rfl fun i _ => Finset.sum_congr rfl fun j _ =>
    Finset.sum_congr rfl fun s _ => ?_
  split_ifs with hij
  · rw [h i j s hij]
  · rfl

theorem hubSame_congr {T T' : Fin a → Fin a → Fin b → ℂ} (h : ∀ i j s, j ≤ i → T i j s = T' i j s) :
    hubSame T = hubSame T' := by
  unfold hubSame
  refine Finset.sum_congr rfl fun i _ => Finset.sum_congr rfl fun j _ =>
    Finset.sum_congr rfl fun s _ => ?_
  split_ifs with hij
  · rw [h i j s hij]
  · rfl

/-! ### Diagonal parts -/

theorem number_diag (i : Fin N) (s t : Conf N 2) :
    number i s t = if s = t then (if s i = 1 then 1 else 0) else 0 := by
  rw [number, diagonal_apply]

theorem number2_diag (i j : Fin N) (s t : Conf N 2) :
    (number i * number j) s t =
      if s = t then (if s i = 1 then 1 else 0) * (if s j = 1 then 1 else 0) else 0 := by
  rw [number, number, diagonal_mul_diagonal, diagonal_apply]

theorem hubPot_apply (V : Fin a → Fin b → ℂ) (s t : Conf (a * b) 2) :
    hubPot V s t = if s = t then ∑ i, ∑ k, V i k * (if s (mode i k) = 1 then 1 else 0) else 0 := by
  simp only [hubPot, Matrix.sum_apply, Matrix.smul_apply, number_diag, smul_eq_mul]
  by_cases h : s = t <;> simp [h]

theorem hubInter_apply (h2 : 2 ≤ b) (U : Fin a → ℂ) (s t : Conf (a * b) 2) :
    (hubInter U : Op (a * b) 2) s t = if s = t then
      ∑ i, U i * ((if s (mode i ⟨0, by omega⟩) = 1 then 1 else 0) *
        (if s (mode i ⟨1, by omega⟩) = 1 then 1 else 0)) else 0 := by
  simp only [hubInter, dif_pos h2, Matrix.sum_apply, Matrix.smul_apply, number2_diag, smul_eq_mul]
  by_cases h : s = t <;> simp [h]

theorem hubInter_off (U : Fin a → ℂ) {s t : Conf (a * b) 2} (h : s ≠ t) :
    (hubInter U : Op (a * b) 2) s t = 0 := by
  by_cases h2 : 2 ≤ b
  · rw [hubInter_apply h2, if_neg h]
  · simp [hubInter, h2]

theorem hubSame_apply (W : Fin a → Fin a → Fin b → ℂ) (s t : Conf (a * b) 2) :
    hubSame W s t = if s = t then ∑ i, ∑ j, ∑ k, if j ≤ i then
      W i j k * ((if s (mode i k) = 1 then 1 else 0) * (if s (mode j k) = 1 then 1 else 0))
      else 0 else 0 := by
  simp only [hubSame, Matrix.sum_apply]
  by_cases h : s = t
  · rw [if_pos h]
    refine Finset.sum_congr rfl fun i _ => Finset.sum_congr rfl fun j _ =>
      Finset.sum_congr rfl fun k _ => ?_
    split_ifs <;> simp_all [number2_diag]
  · rw [if_neg h]
    refine Finset.sum_eq_zero fun i _ => Finset.sum_eq_zero fun j _ =>
      Finset.sum_eq_zero fun k _ => ?_
    split_ifs <;> simp [number2_diag, h]

theorem hubHop_zero : hubHop (fun (_ : Fin a) (_ : Fin a) (_ : Fin b) => 0) = 0 := by
  simp [hubHop]

/-! ### Number conservation -/

theorem number_create (k i : Fin N) :
    number k * create i = create i * number k + (if k = i then create i else 0) := by
  have h : create i * number k = annih k * 0 + create i * (create k * annih k) := by
    rw [create_annih]; simp
  rw [h, ← create_annih, mul_zero, zero_add]
  have e1 := car1 k i
  have e2 := car2 i k
  have e3 : create k * annih k * create i =
      create k * ((if k = i then 1 else 0) - create i * annih k) := by
    rw [mul_assoc, ← e1]; congr 1; abel
  have e4 : create k * create i = -(create i * create k) := by
    rw [eq_neg_iff_add_eq_zero, add_comm]; exact e2
  rw [e3, mul_sub, ← mul_assoc, e4, neg_mul, sub_neg_eq_add, mul_assoc, add_comm]
  congr 1
  split_ifs with hk
  · rw [hk, mul_one]
  · simp

theorem number_annih (k i : Fin N) :
    annih i * number k = number k * annih i + (if k = i then annih i else 0) := by
  have := congrArg conjTranspose (number_create k i)
  rw [conjTranspose_mul, conjTranspose_add, conjTranspose_mul, number_star, create_star] at this
  rw [this]
  congr 1
  split_ifs <;> simp [create_star]

theorem number_hop (k i j : Fin N) :
    number k * (create i * annih j) - (create i * annih j) * number k =
      ((if k = i then 1 else 0) - (if k = j then 1 else 0) : ℂ) • (create i * annih j) := by
  rw [← mul_assoc, number_create, mul_assoc (create i), number_annih, mul_add, add_mul, sub_smul,
    ← mul_assoc (create i) (number k)]
  split_ifs <;> simp [mul_assoc]

/-- The total number operator of a species. -/
noncomputable def speciesNumber (a : ℕ) {b : ℕ} (s : Fin b) : Op (a * b) 2 :=
  ∑ i : Fin a, number (mode i s)

theorem mode_eq_iff {i j : Fin a} {s s' : Fin b} : mode i s = mode j s' ↔ i = j ∧ s = s' := by
  constructor
  · intro h
    exact mode_inj (S := ⟨a, b, 2⟩) h
  · rintro ⟨rfl, rfl⟩; rfl

theorem speciesNumber_hop (s : Fin b) (i j : Fin a) (s' : Fin b) :
    Commute (speciesNumber a s) (create (mode i s') * annih (mode j s')) := by
  rw [Commute, SemiconjBy, ← sub_eq_zero, speciesNumber, Finset.sum_mul, Finset.mul_sum,
    ← Finset.sum_sub_distrib]
  simp only [number_hop, mode_eq_iff]
  by_cases h : s = s' <;> simp [h, sub_smul, Finset.sum_sub_distrib]

theorem speciesNumber_number (s : Fin b) (k : Fin (a * b)) :
    Commute (speciesNumber a s) (number k) :=
  Commute.sum_left _ _ _ fun i _ => number_comm _ _

theorem speciesNumber_pot (s : Fin b) (V : Fin a → Fin b → ℂ) :
    Commute (speciesNumber a s) (hubPot V) :=
  Commute.sum_right _ _ _ fun _ _ => Commute.sum_right _ _ _ fun _ _ =>
    (speciesNumber_number _ _).smul_right _

theorem speciesNumber_inter (s : Fin b) (U : Fin a → ℂ) :
    Commute (speciesNumber a s) (hubInter U) := by
  unfold hubInter
  split_ifs with h
  · exact Commute.sum_right _ _ _ fun _ _ =>
      ((speciesNumber_number _ _).mul_right (speciesNumber_number _ _)).smul_right _
  · exact Commute.zero_right _

theorem speciesNumber_same (s : Fin b) (W : Fin a → Fin a → Fin b → ℂ) :
    Commute (speciesNumber a s) (hubSame W) := by
  refine Commute.sum_right _ _ _ fun _ _ => Commute.sum_right _ _ _ fun _ _ =>
    Commute.sum_right _ _ _ fun _ _ => ?_
  split_ifs
  · exact ((speciesNumber_number _ _).mul_right (speciesNumber_number _ _)).smul_right _
  · exact Commute.zero_right _

theorem speciesNumber_hubHop (s : Fin b) (T : Fin a → Fin a → Fin b → ℂ) :
    Commute (speciesNumber a s) (hubHop T) := by
  refine Commute.sum_right _ _ _ fun _ _ => Commute.sum_right _ _ _ fun _ _ =>
    Commute.sum_right _ _ _ fun _ _ => ?_
  split_ifs
  · exact (((speciesNumber_hop _ _ _ _).add_right (speciesNumber_hop _ _ _ _)).smul_right _).neg_right
  · exact Commute.zero_right _

/-! ### One-particle elements -/

theorem single_apply (i j : Fin N) : (single i : Conf N 2) j = if j = i then 1 else 0 := by
  rw [single, Function.update_apply]; rfl

theorem create_single (k i : Fin N) (u : Conf N 2) :
    create k (single i) u = if k = i ∧ u = vac then 1 else 0 := by
  rw [create, Matrix.of_apply]
  by_cases h : k = i ∧ u = vac
  · obtain ⟨rfl, rfl⟩ := h
    rw [if_pos, if_pos ⟨rfl, rfl⟩]
    · have : occAfter k (single k) = 0 := by
        rw [occAfter, Finset.card_eq_zero, Finset.filter_eq_empty_iff]
        rintro j - ⟨h1, h2⟩
        rw [single_apply, if_neg h1.ne'] at h2
        exact absurd h2 (by decide)
      rw [this, pow_zero]
    · refine ⟨fun j hj => ?_, ?_, rfl⟩
      · rw [single_apply, if_neg hj]; rfl
      · rw [single_apply, if_pos rfl]
  · rw [if_neg h, if_neg]
    rintro ⟨h1, h2, h3⟩
    have hk : k = i := by
      by_contra hne
      rw [single_apply, if_neg hne] at h2
      exact absurd h2 (by decide)
    refine h ⟨hk, funext fun j => ?_⟩
    by_cases hj : j = k
    · rw [hj, h3]; rfl
    · rw [← h1 j hj, single_apply, if_neg (hk ▸ hj)]; rfl

theorem hop_single (k l i j : Fin N) :
    (create k * annih l) (single i) (single j) = if k = i ∧ l = j then 1 else 0 := by
  rw [Matrix.mul_apply]
  simp only [annih, conjTranspose_apply, create_single]
  by_cases h1 : k = i <;> by_cases h2 : l = j <;> simp [h1, h2]

theorem single_ne {i j : Fin N} (h : i ≠ j) : (single i : Conf N 2) ≠ single j := by
  intro e
  have := congrFun e i
  rw [single_apply, single_apply, if_pos rfl, if_neg h] at this
  exact absurd this (by decide)

theorem hubHop_single (T : Fin a → Fin a → Fin b → ℂ) {i j : Fin a} (hij : i ≠ j) (s : Fin b) :
    hubHop T (single (mode i s)) (single (mode j s)) = -T (max i j) (min i j) s := by
  simp only [hubHop, Matrix.sum_apply]
  rw [Finset.sum_eq_single (max i j), Finset.sum_eq_single (min i j), Finset.sum_eq_single s]
  · rw [if_pos (by simpa [eq_comm] using hij), Matrix.neg_apply, Matrix.smul_apply, Matrix.add_apply,
      hop_single, hop_single]
    simp only [mode_eq_iff, and_true]
    rcases lt_or_gt_of_ne hij with h | h
    · rw [max_eq_right h.le, min_eq_left h.le]; simp [hij]
    · rw [max_eq_left h.le, min_eq_right h.le]; simp [hij]
  · intro s' _ hs'
    split_ifs
    · rw [Matrix.neg_apply, Matrix.smul_apply, Matrix.add_apply, hop_single, hop_single]
      simp [mode_eq_iff, hs']
    · rfl
  · simp
  · intro j' _ hj'
    refine Finset.sum_eq_zero fun s' _ => ?_
    split_ifs with h
    · rw [Matrix.neg_apply, Matrix.smul_apply, Matrix.add_apply, hop_single, hop_single]
      rw [if_neg, if_neg]
      · simp
      all_goals
        rw [mode_eq_iff, mode_eq_iff]
        rintro ⟨⟨h1, -⟩, h2, -⟩
        apply hj'
        rcases le_total i j with h' | h' <;> simp_all
    · rfl
  · simp
  · intro i' _ hi'
    refine Finset.sum_eq_zero fun j' _ => Finset.sum_eq_zero fun s' _ => ?_
    split_ifs with h
    · rw [Matrix.neg_apply, Matrix.smul_apply, Matrix.add_apply, hop_single, hop_single]
      rw [if_neg, if_neg]
      · simp
      all_goals
        rw [mode_eq_iff, mode_eq_iff]
        rintro ⟨⟨h1, -⟩, h2, -⟩
        subst h1; subst h2
        apply hi'
        first
          | rw [max_eq_left h.le]
          | rw [max_eq_right h.le]
    · rfl
  · simp

theorem hubRest_single (F : Fermions) {i j : Fin F.nsites} (hij : i ≠ j) (s : Fin F.nspecies) :
    (hubInter (fun i => F.us i) + hubRest F : Op (F.nsites * F.nspecies) 2) (single (mode i s)) (single (mode j s)) =
      -(F.ts (max i j : Fin F.nsites) (min i j : Fin F.nsites) s *
        hopWeight F (max i j : Fin F.nsites) (min i j : Fin F.nsites)) := by
  have hne : (single (mode i s) : Conf (F.nsites * F.nspecies) 2) ≠ single (mode j s) :=
    single_ne fun h => hij (mode_eq_iff.1 h).1
  rw [hubRest, Matrix.add_apply, Matrix.add_apply, Matrix.add_apply, hubInter_off _ hne,
    hubSame_apply, if_neg hne, hubPot_apply, if_neg hne, hubHop_single _ hij]
  ring

/-! ### Symmetric pair sums -/

theorem pair_sum_perm {E : Type} [AddCommGroup E] [Module ℂ E] (π : Equiv.Perm (Fin a))
    (G : Fin a → Fin a → E) (hG : ∀ i j, G i j = G j i) :
    (∑ i, ∑ j, if j < i then G (π i) (π j) else 0) = ∑ i, ∑ j, if j < i then G i j else 0 := by
  have key : ∀ G : Fin a → Fin a → E, (∀ i j, G i j = G j i) →
      (2 : ℂ) • (∑ i, ∑ j, if j < i then G i j else 0) = ∑ i, ∑ j, if i ≠ j then G i j else 0 := by
    intro G hG
    rw [two_smul]
    conv_lhs => arg 2; rw [Finset.sum_comm]
    rw [← Finset.sum_add_distrib]
    refine Finset.sum_congr rfl fun i _ => ?_
    rw [← Finset.sum_add_distrib]
    refine Finset.sum_congr rfl fun j _ => ?_
    rcases lt_trichotomy i j with h | h | h
    · rw [if_neg h.not_gt, if_pos h, if_pos h.ne, zero_add, hG]
    · simp [h]
    · rw [if_pos h, if_neg h.not_gt, if_pos h.ne', add_zero]
  have h2 : (2 : ℂ) ≠ 0 := two_ne_zero
  apply smul_right_injective E h2
  change (2 : ℂ) • _ = (2 : ℂ) • _
  rw [key (fun i j => G (π i) (π j)) (fun i j => hG _ _), key G hG]
  rw [← Equiv.sum_comp π (fun i => ∑ j, if i ≠ j then G i j else 0)]
  refine Finset.sum_congr rfl fun i _ => ?_
  rw [← Equiv.sum_comp π (fun j => if π i ≠ j then G (π i) j else 0)]
  refine Finset.sum_congr rfl fun j _ => ?_
  simp

section conj

variable {U : Op (a * b) 2} {π : Equiv.Perm (Fin a)}

theorem moves_annih {f : Fin b → Equiv.Perm (Fin a)} (hU : MovesFermions U f) (s : Fin b)
    (i : Fin a) : U * annih (mode i s) * Uᴴ = annih (mode (f s i) s) := by
  have := congrArg conjTranspose (hU.moves s i)
  rwa [conjTranspose_mul, conjTranspose_mul, conjTranspose_conjTranspose, create_star, create_star,
    ← mul_assoc] at this

theorem conj_mul' {f : Fin b → Equiv.Perm (Fin a)} (hU : MovesFermions U f)
    (X Y : Op (a * b) 2) : U * (X * Y) * Uᴴ = (U * X * Uᴴ) * (U * Y * Uᴴ) := by
  calc U * (X * Y) * Uᴴ = U * X * 1 * Y * Uᴴ := by rw [mul_one, mul_assoc U X Y]
    _ = _ := by rw [← hU.left_inv]; simp only [mul_assoc]

theorem moves_number {f : Fin b → Equiv.Perm (Fin a)} (hU : MovesFermions U f) (s : Fin b)
    (i : Fin a) : U * number (mode i s) * Uᴴ = number (mode (f s i) s) := by
  rw [← create_annih, conj_mul' hU, hU.moves, moves_annih hU, create_annih]

theorem moves_pot {f : Fin b → Equiv.Perm (Fin a)} (hU : MovesFermions U f) (V : Fin a → Fin b → ℂ)
    (hV : ∀ i s, V (f s i) s = V i s) : U * hubPot V * Uᴴ = hubPot V := by
  unfold hubPot
  rw [Finset.sum_comm, Finset.mul_sum, Finset.sum_mul]
  refine Finset.sum_congr rfl fun s _ => ?_
  rw [Finset.mul_sum, Finset.sum_mul, ← Equiv.sum_comp (f s) (fun i => V i s • number (mode i s))]
  refine Finset.sum_congr rfl fun i _ => ?_
  rw [mul_smul_comm, smul_mul_assoc, moves_number hU, hV]

theorem moves_inter (hU : MovesFermions U fun _ => π) (V : Fin a → ℂ) (hV : ∀ i, V (π i) = V i) :
    U * hubInter V * Uᴴ = hubInter V := by
  unfold hubInter
  split_ifs with h2
  · rw [Finset.mul_sum, Finset.sum_mul, ← Equiv.sum_comp π (fun i => V i •
      (number (mode i ⟨0, by omega⟩) * number (mode i ⟨1, by omega⟩) : Op (a * b) 2))]
    refine Finset.sum_congr rfl fun i _ => ?_
    rw [mul_smul_comm, smul_mul_assoc, conj_mul' hU, moves_number hU, moves_number hU, hV]
  · simp

theorem moves_hop (hU : MovesFermions U fun _ => π) (T : Fin a → Fin a → Fin b → ℂ)
    (hs : ∀ i j s, T i j s = T j i s) (hT : ∀ i j s, T (π i) (π j) s = T i j s) :
    U * hubHop T * Uᴴ = hubHop T := by
  set G : Fin a → Fin a → Op (a * b) 2 := fun i j => ∑ s, -(T i j s •
    (create (mode i s) * annih (mode j s) + create (mode j s) * annih (mode i s))) with hG
  have e : hubHop T = ∑ i, ∑ j, if j < i then G i j else 0 := by
    unfold hubHop
    refine Finset.sum_congr rfl fun i _ => Finset.sum_congr rfl fun j _ => ?_
    split_ifs
    · rfl
    · simp
  rw [e]
  conv_rhs => rw [← pair_sum_perm π G (fun i j => by
    simp only [hG]; exact Finset.sum_congr rfl fun s _ => by rw [hs, add_comm])]
  rw [Finset.mul_sum, Finset.sum_mul]
  refine Finset.sum_congr rfl fun i _ => ?_
  rw [Finset.mul_sum, Finset.sum_mul]
  refine Finset.sum_congr rfl fun j _ => ?_
  split_ifs
  · simp only [hG]
    rw [Finset.mul_sum, Finset.sum_mul]
    refine Finset.sum_congr rfl fun s _ => ?_
    rw [mul_neg, neg_mul, mul_smul_comm, smul_mul_assoc, mul_add, add_mul, conj_mul' hU,
      conj_mul' hU, hU.moves, hU.moves, moves_annih hU, moves_annih hU, hT]
  · simp

theorem moves_same (hU : MovesFermions U fun _ => π) (T : Fin a → Fin a → Fin b → ℂ)
    (hs : ∀ i j s, T i j s = T j i s) (hT : ∀ i j s, T (π i) (π j) s = T i j s) :
    U * hubSame T * Uᴴ = hubSame T := by
  set G : Fin a → Fin a → Op (a * b) 2 := fun i j => ∑ s, T i j s •
    (number (mode i s) * number (mode j s)) with hG
  have e : hubSame T = (∑ i, ∑ j, if j < i then G i j else 0) + ∑ i, G i i := by
    rw [← Finset.sum_add_distrib]
    unfold hubSame
    refine Finset.sum_congr rfl fun i _ => ?_
    have : G i i = ∑ j, if j = i then G i j else 0 := by simp
    rw [this, ← Finset.sum_add_distrib]
    refine Finset.sum_congr rfl fun j _ => ?_
    rcases lt_trichotomy i j with h | h | h
    · simp [h.not_ge, h.not_gt, h.ne']
    · simp [h, hG]
    · simp [h.le, h, h.ne, hG]
  have eG : ∀ i j, U * G i j * Uᴴ = G (π i) (π j) := by
    intro i j
    simp only [hG]
    rw [Finset.mul_sum, Finset.sum_mul]
    refine Finset.sum_congr rfl fun s _ => ?_
    rw [mul_smul_comm, smul_mul_assoc, conj_mul' hU, moves_number hU, moves_number hU, hT]
  rw [e, mul_add, add_mul]
  congr 1
  · conv_rhs => rw [← pair_sum_perm π G (fun i j => by
      simp only [hG]; exact Finset.sum_congr rfl fun s _ => by rw [hs, number_comm])]
    rw [Finset.mul_sum, Finset.sum_mul]
    refine Finset.sum_congr rfl fun i _ => ?_
    rw [Finset.mul_sum, Finset.sum_mul]
    refine Finset.sum_congr rfl fun j _ => ?_
    split_ifs
    · exact eG i j
    · simp
  · rw [Finset.mul_sum, Finset.sum_mul, ← Equiv.sum_comp π (fun i => G i i)]
    exact Finset.sum_congr rfl fun i _ => eG i i

end conj

end ED
