import Verif.Lemmas.Moments
import Verif.Lemmas.Multiplets
import Verif.Lemmas.Signs

/-! # Traces of powers of the Hamiltonian of fermions -/

namespace ED

open Matrix

/-- The trace of the square of a combination of orthogonal matrices. -/
theorem trace_orthogonal {ι I : Type} [Fintype ι] [Fintype I] (c : I → ℂ) (P : I → Matrix ι ι ℂ)
    (h : ∀ x y, x ≠ y → c x ≠ 0 → c y ≠ 0 → trace (P x * P y) = 0) :
    trace ((∑ x, c x • P x) * ∑ x, c x • P x) = ∑ x, c x ^ 2 * trace (P x * P x) := by
  rw [Matrix.sum_mul, trace_sum]
  refine Finset.sum_congr rfl fun x _ => ?_
  rw [Matrix.mul_sum, trace_sum, Finset.sum_eq_single x]
  · rw [Matrix.smul_mul, Matrix.mul_smul, trace_smul, trace_smul, smul_eq_mul, smul_eq_mul]
    ring
  · intro y _ hy
    rw [Matrix.smul_mul, Matrix.mul_smul, trace_smul, trace_smul, smul_eq_mul, smul_eq_mul]
    by_cases hx : c x = 0
    · rw [hx, zero_mul]
    · by_cases hy' : c y = 0
      · rw [hy', zero_mul, mul_zero]
      · rw [h x y (Ne.symm hy) hx hy', mul_zero, mul_zero]
  · simp

/-- The sign of one mode. -/
noncomputable def signSite : Unit → Matrix (Fin 2) (Fin 2) ℂ := fun _ => diagonal ![1, -1]

theorem signSite_trace (x : Unit) : trace (signSite x) = 0 := by
  simp [signSite]

theorem signSite_sq (x : Unit) : trace (signSite x * signSite x) = (1 : ℂ) * ((2 : ℕ) : ℂ) := by
  simp [signSite, trace_diagonal]
  norm_num

section Modes

variable {N : ℕ}

open Classical in
/-- The product of the signs of chosen modes. -/
noncomputable def zWord (p : Fin N → Prop) : Op N 2 := wordOp signSite fun k => if p k then some () else none

theorem zWord_diagonal (p : Fin N → Prop) : ∃ f, zWord p = diagonal f := by
  classical
  refine ⟨fun s => ∏ k, if p k then (![1, -1] : Fin 2 → ℂ) (s k) else 1, ?_⟩
  ext s t
  unfold zWord wordOp
  rw [tensor, of_apply]
  by_cases h : s = t
  · subst h
    rw [diagonal_apply_eq]
    refine Finset.prod_congr rfl fun k _ => ?_
    by_cases hk : p k <;> simp [hk, signSite]
  · rw [diagonal_apply_ne _ h]
    obtain ⟨k, hk⟩ := Function.ne_iff.1 h
    refine Finset.prod_eq_zero (Finset.mem_univ k) ?_
    by_cases hp : p k <;> simp [hp, signSite, hk]

theorem zWord_none : zWord (fun _ : Fin N => False) = 1 := by
  unfold zWord wordOp
  simp only [if_false]
  exact tensor_one

theorem zWord_trace {p : Fin N → Prop} {k : Fin N} (hk : p k) : trace (zWord p) = 0 := by
  unfold zWord
  exact trace_word signSite_trace (i := k) (a := ()) (if_pos hk)

theorem zWord_sq (p : Fin N → Prop) : trace (zWord p * zWord p) = 2 ^ N := by
  unfold zWord
  rw [trace_word_sq signSite_sq, one_pow, one_mul]
  norm_num

theorem zWord_orthogonal {p q : Fin N → Prop} {k : Fin N} (h : ¬(p k ↔ q k)) : trace (zWord p * zWord q) = 0 := by
  unfold zWord
  refine trace_words signSite_trace (fun a a' h => absurd rfl h) fun e => h ?_
  have := congrFun e k
  by_cases h1 : p k <;> by_cases h2 : q k <;> simp_all

theorem number_z (k : Fin N) : (number k : Op N 2) = (1 / 2 : ℂ) • (1 - zWord (· = k)) := by
  classical
  have h1 : zWord (· = k) = (siteOp (signSite ()) k : Op N 2) := by
    rw [siteOp_word signSite k ()]
    unfold zWord
    congr 1
    funext j
    by_cases h : j = k <;> simp [h]
  have h2 : (siteOp (signSite ()) k : Op N 2) = diagonal fun s => (![1, -1] : Fin 2 → ℂ) (s k) := by
    ext s t
    rw [siteOp, of_apply]
    by_cases h : s = t
    · subst h
      rw [diagonal_apply_eq]
      simp [signSite, AgreeOff]
    · rw [diagonal_apply_ne _ h]
      by_cases h' : AgreeOff k s t
      · have : s k ≠ t k := fun e => h (by
          funext j
          by_cases hj : j = k
          · rw [hj, e]
          · exact h' j hj)
        simp [signSite, this]
      · simp [h']
  rw [h1, h2, number, ← diagonal_one, diagonal_sub, ← diagonal_smul]
  congr 1
  funext s
  have hs : s k = 0 ∨ s k = 1 := by omega
  rcases hs with hs | hs <;> simp [hs]
  norm_num

theorem zWord_mul {k l : Fin N} (h : k ≠ l) : zWord (· = k) * zWord (· = l) = (zWord fun m => m = k ∨ m = l) := by
  classical
  unfold zWord wordOp
  rw [tensor_mul]
  congr 1
  funext m
  by_cases h1 : m = k
  · have : m ≠ l := fun e => h (h1.symm.trans e)
    simp [h1, h]
  · by_cases h2 : m = l
    · simp [h2, h.symm]
    · simp [h1, h2]

theorem numbers_z {k l : Fin N} (h : k ≠ l) : (number k * number l : Op N 2) =
    (1 / 4 : ℂ) • (1 - zWord (· = k) - zWord (· = l) + zWord fun m => m = k ∨ m = l) := by
  rw [number_z, number_z, Matrix.smul_mul, Matrix.mul_smul, smul_smul, Matrix.sub_mul, Matrix.mul_sub, Matrix.mul_sub, zWord_mul h, Matrix.one_mul, Matrix.one_mul,
    Matrix.mul_one]
  module

/-- Hopping between two modes. -/
noncomputable def hopPair (k l : Fin N) : Op N 2 := create k * annih l + create l * annih k

theorem trace_conj_sign {D X Y : Op N 2} {x y : ℂ} (hD : D * D = 1) (hX : D * X * D = x • X) (hY : D * Y * D = y • Y) (h : x * y = -1) :
    trace (X * Y) = 0 := by
  have h1 : trace (D * X * D * (D * Y * D)) = trace (X * Y) := by
    calc _ = trace (D * (X * (D * D) * Y * D)) := by simp only [Matrix.mul_assoc]
      _ = trace (X * Y * (D * D)) := by rw [trace_mul_comm, hD, Matrix.mul_one, Matrix.mul_assoc, hD]
      _ = _ := by rw [hD, Matrix.mul_one]
  rw [hX, hY, Matrix.smul_mul, Matrix.mul_smul, smul_smul, h, trace_smul, neg_one_smul] at h1
  exact neg_eq_self.1 h1

/-- Minus one at one mode. -/
def flip (m : Fin N) : Fin N → ℤ := fun k => if k = m then -1 else 1

theorem flip_sq (m k : Fin N) : flip m k * flip m k = 1 := by
  unfold flip
  split_ifs <;> rfl

theorem hopPair_sign {χ : Fin N → ℤ} (hχ : ∀ i, χ i * χ i = 1) (k l : Fin N) :
    signOp χ * hopPair k l * signOp χ = ((χ k * χ l : ℤ) : ℂ) • hopPair k l := by
  unfold hopPair
  rw [Matrix.mul_add, Matrix.add_mul, signOp_hop hχ, signOp_hop hχ, mul_comm (χ l), smul_add]

theorem hopPair_z {k l : Fin N} (h : k ≠ l) (p : Fin N → Prop) : trace (hopPair k l * zWord p) = 0 := by
  obtain ⟨f, hf⟩ := zWord_diagonal p
  refine trace_conj_sign (x := -1) (y := 1) (signOp_sq (flip_sq k)) ?_ ?_ (by norm_num)
  · rw [hopPair_sign (flip_sq k)]
    congr 1
    simp [flip, h.symm]
  · rw [hf, signOp_diag (flip_sq k), one_smul]

theorem hopPair_orthogonal {k l k' l' m : Fin N} (h : k ≠ l) (hm : m = k ∨ m = l) (h1 : m ≠ k') (h2 : m ≠ l') :
    trace (hopPair k l * hopPair k' l') = 0 := by
  refine trace_conj_sign (x := -1) (y := 1) (signOp_sq (flip_sq m)) ?_ ?_ (by norm_num)
  · rw [hopPair_sign (flip_sq m)]
    congr 1
    rcases hm with rfl | rfl
    · simp [flip, h.symm]
    · simp [flip, h]
  · rw [hopPair_sign (flip_sq m)]
    congr 1
    simp [flip, h1.symm, h2.symm]

theorem hopPair_trace {k l : Fin N} (h : k ≠ l) : trace (hopPair k l) = 0 := by
  have := hopPair_z h fun _ => False
  rwa [zWord_none, Matrix.mul_one] at this

theorem hopPair_sq {k l : Fin N} (h : k ≠ l) : trace (hopPair k l * hopPair k l) = 2 ^ N / 2 := by
  have hk : annih k * create k = 1 - number k := by
    rw [← create_annih]
    have := car1 k k
    rw [if_pos rfl] at this
    rw [← this]
    abel
  have hl : annih l * create l = 1 - number l := by
    rw [← create_annih]
    have := car1 l l
    rw [if_pos rfl] at this
    rw [← this]
    abel
  have z1 : ∀ k l : Fin N, k ≠ l → create k * annih l * (create k * annih l) = 0 := by
    intro k l h
    have e : annih l * create k = -(create k * annih l) := by
      have := car1 l k
      rw [if_neg (Ne.symm h)] at this
      exact eq_neg_of_add_eq_zero_left this
    calc _ = create k * (annih l * create k) * annih l := by simp only [Matrix.mul_assoc]
      _ = -(create k * create k * (annih l * annih l)) := by rw [e]; simp only [Matrix.mul_neg, Matrix.neg_mul, Matrix.mul_assoc]
      _ = 0 := by rw [two_self_zero (car2 k k), Matrix.zero_mul, neg_zero]
  have key : ∀ k l : Fin N, k ≠ l → annih k * create k = 1 - number k → annih l * create l = 1 - number l →
      trace (create k * annih l * (create l * annih k)) = 2 ^ N / 4 := by
    intro k l h hk hl
    calc _ = trace (create k * (annih l * create l * annih k)) := by simp only [Matrix.mul_assoc]
      _ = trace ((1 - number l) * (1 - number k)) := by rw [trace_mul_comm, hl, Matrix.mul_assoc, hk]
      _ = _ := by
        have e : ∀ k : Fin N, (1 - number k : Op N 2) = (1 / 2 : ℂ) • (1 + zWord (· = k)) := by
          intro k
          rw [number_z]
          module
        rw [e, e, Matrix.smul_mul, Matrix.mul_smul, trace_smul, trace_smul, Matrix.add_mul, Matrix.mul_add, Matrix.mul_add, zWord_mul h.symm, Matrix.one_mul, Matrix.one_mul,
          Matrix.mul_one, trace_add, trace_add, trace_add, zWord_trace (p := (· = k)) rfl, zWord_trace (p := (· = l)) rfl, zWord_trace (k := l) (.inl rfl), trace_one]
        simp only [smul_eq_mul, add_zero, Fintype.card_fun, Fintype.card_fin]
        push_cast
        ring
  unfold hopPair
  rw [Matrix.add_mul, Matrix.mul_add, Matrix.mul_add, trace_add, trace_add, trace_add, z1 k l h, z1 l k h.symm, key k l h hk hl, key l k h.symm hl hk,
    trace_zero]
  ring

end Modes

section Sites

variable {a b : ℕ} (U : Fin a → ℂ) (W : Fin a → Fin a → Fin b → ℂ) (V : Fin a → Fin b → ℂ) (T : Fin a → Fin a → Fin b → ℂ)

/-- Half of the energy of a particle when every other mode is occupied half of the time. -/
noncomputable def halfLevel (i : Fin a) (s : Fin b) : ℂ :=
  (V i s + W i i s) / 2 + (if (s : ℕ) < 2 then U i / 4 else 0) + ∑ j, ((if j < i then W i j s else 0) + if i < j then W j i s else 0) / 4

/-- The average energy of all configurations. -/
noncomputable def meanLevel : ℂ :=
  ∑ i, U i / 4 + ∑ i, ∑ s, (V i s + W i i s) / 2 + ∑ i, ∑ j, ∑ s, (if j < i then W i j s / 4 else 0)

/-- The terms of the Hamiltonian: a constant, single modes, pairs of species, pairs of sites, hops. -/
abbrev Terms (a b : ℕ) := Unit ⊕ (Fin a × Fin b) ⊕ Fin a ⊕ (Fin a × Fin a × Fin b) ⊕ (Fin a × Fin a × Fin b)

noncomputable def termCoef : Terms a b → ℂ
  | .inl _ => meanLevel U W V
  | .inr (.inl x) => -halfLevel U W V x.1 x.2
  | .inr (.inr (.inl i)) => U i / 4
  | .inr (.inr (.inr (.inl x))) => if x.2.1 < x.1 then W x.1 x.2.1 x.2.2 / 4 else 0
  | .inr (.inr (.inr (.inr x))) => if x.2.1 < x.1 then -T x.1 x.2.1 x.2.2 else 0

noncomputable def termOp : Terms a b → Op (a * b) 2
  | .inl _ => zWord fun _ => False
  | .inr (.inl x) => zWord (· = mode x.1 x.2)
  | .inr (.inr (.inl i)) => zWord fun m => (m : ℕ) = i ∨ (m : ℕ) = a + i
  | .inr (.inr (.inr (.inl x))) => zWord fun m => m = mode x.1 x.2.2 ∨ m = mode x.2.1 x.2.2
  | .inr (.inr (.inr (.inr x))) => hopPair (mode x.1 x.2.2) (mode x.2.1 x.2.2)

theorem hubPot_z : (hubPot V : Op (a * b) 2) = (∑ i, ∑ s, V i s / 2) • 1 - ∑ i, ∑ s, (V i s / 2) • zWord (· = mode i s) := by
  unfold hubPot
  simp only [Finset.sum_smul, ← Finset.sum_sub_distrib]
  refine Finset.sum_congr rfl fun i _ => Finset.sum_congr rfl fun s _ => ?_
  rw [number_z]
  module

theorem hubInter_z (h : 2 ≤ b ∨ ∀ i, U i = 0) : (hubInter U : Op (a * b) 2) = (∑ i, U i / 4) • 1 -
    (∑ i, ∑ s : Fin b, (if (s : ℕ) < 2 then U i / 4 else 0) • zWord (· = mode i s)) +
      ∑ i, (U i / 4) • zWord fun m => (m : ℕ) = i ∨ (m : ℕ) = a + i := by
  unfold hubInter
  split_ifs with hb
  · simp only [Finset.sum_smul, ← Finset.sum_sub_distrib, ← Finset.sum_add_distrib]
    refine Finset.sum_congr rfl fun i _ => ?_
    have h1 : ∑ s : Fin b, (if (s : ℕ) < 2 then U i / 4 else 0) • (zWord (· = mode i s) : Op (a * b) 2) =
        (U i / 4) • zWord (· = mode i ⟨0, by omega⟩) + (U i / 4) • zWord (· = mode i ⟨1, by omega⟩) := by
      simp only [ite_smul, zero_smul]
      rw [← Finset.sum_filter, show (Finset.univ.filter fun s : Fin b => (s : ℕ) < 2) = {⟨0, by omega⟩, ⟨1, by omega⟩} by
        ext s
        simp only [Finset.mem_filter, Finset.mem_univ, true_and, Finset.mem_insert, Finset.mem_singleton, Fin.ext_iff]
        omega, Finset.sum_pair (by simp [Fin.ext_iff])]
    have h2 : (zWord fun m : Fin (a * b) => (m : ℕ) = i ∨ (m : ℕ) = a + i) = (zWord fun m => m = mode i ⟨0, by omega⟩ ∨ m = mode i ⟨1, by omega⟩) := by
      congr 1
      funext m
      simp only [Fin.ext_iff, mode, mul_zero, zero_add, mul_one]
    rw [h1, h2, numbers_z fun e => by have := (mode_eq_iff.1 e).2; simp [Fin.ext_iff] at this]
    module
  · simp [h.resolve_left hb]

theorem hubSame_z : (hubSame W : Op (a * b) 2) =
    ((∑ i, ∑ s, W i i s / 2) + ∑ i, ∑ j, ∑ s, if j < i then W i j s / 4 else 0) • 1 -
    (∑ i, ∑ s, (W i i s / 2 + ∑ j, ((if j < i then W i j s else 0) + if i < j then W j i s else 0) / 4) • zWord (· = mode i s)) +
      ∑ i, ∑ j, ∑ s, (if j < i then W i j s / 4 else 0) • zWord fun m => m = mode i s ∨ m = mode j s := by
  have e : (hubSame W : Op (a * b) 2) = (∑ i, ∑ s, W i i s • number (mode i s)) +
      ∑ i, ∑ j, ∑ s, if j < i then W i j s • (number (mode i s) * number (mode j s)) else 0 := by
    unfold hubSame
    rw [← Finset.sum_add_distrib]
    refine Finset.sum_congr rfl fun i _ => ?_
    rw [Finset.sum_comm, Finset.sum_comm (γ := Fin a), ← Finset.sum_add_distrib]
    refine Finset.sum_congr rfl fun s _ => ?_
    have : W i i s • number (mode i s) = ∑ j, if j = i then W i j s • (number (mode i s) * number (mode j s)) else (0 : Op (a * b) 2) := by
      rw [Finset.sum_ite_eq' Finset.univ i, if_pos (Finset.mem_univ i), number_sq']
    rw [this, ← Finset.sum_add_distrib]
    refine Finset.sum_congr rfl fun j _ => ?_
    rcases lt_trichotomy j i with h | h | h
    · simp [h, h.le, h.ne]
    · simp [h]
    · simp [h.ne', not_le.2 h, not_lt.2 h.le]
  have e2 : ∑ i, ∑ j, ∑ s, (if j < i then W i j s • (number (mode i s) * number (mode j s)) else (0 : Op (a * b) 2)) =
      (∑ i, ∑ j, ∑ s, if j < i then W i j s / 4 else 0) • 1 - (∑ i, ∑ j, ∑ s, (if j < i then W i j s / 4 else 0) • zWord (· = mode i s)) -
      (∑ i, ∑ j, ∑ s, (if j < i then W i j s / 4 else 0) • zWord (· = mode j s)) +
      ∑ i, ∑ j, ∑ s, (if j < i then W i j s / 4 else 0) • zWord fun m => m = mode i s ∨ m = mode j s := by
    simp only [Finset.sum_smul, ← Finset.sum_sub_distrib, ← Finset.sum_add_distrib]
    refine Finset.sum_congr rfl fun i _ => Finset.sum_congr rfl fun j _ => Finset.sum_congr rfl fun s _ => ?_
    split_ifs with h
    · rw [numbers_z fun e => h.ne' (mode_eq_iff.1 e).1]
      module
    · simp
  have e3 : ∑ i, ∑ s, (W i i s / 2 + ∑ j, ((if j < i then W i j s else 0) + if i < j then W j i s else 0) / 4) • (zWord (· = mode i s) : Op (a * b) 2) =
      (∑ i, ∑ s, (W i i s / 2) • zWord (· = mode i s)) + (∑ i, ∑ j, ∑ s, (if j < i then W i j s / 4 else 0) • zWord (· = mode i s)) +
      ∑ i, ∑ j, ∑ s, (if j < i then W i j s / 4 else 0) • zWord (· = mode j s) := by
    rw [Finset.sum_comm (f := fun i j => ∑ s, (if j < i then W i j s / 4 else 0) • (zWord (· = mode j s) : Op (a * b) 2))]
    simp only [← Finset.sum_add_distrib]
    refine Finset.sum_congr rfl fun i _ => ?_
    rw [Finset.sum_comm (γ := Fin a), Finset.sum_comm (γ := Fin a)]
    simp only [← Finset.sum_add_distrib]
    refine Finset.sum_congr rfl fun s _ => ?_
    rw [add_smul, Finset.sum_smul, add_assoc, ← Finset.sum_add_distrib]
    congr 1
    refine Finset.sum_congr rfl fun j _ => ?_
    rw [add_div, add_smul]
    congr 2 <;> split_ifs <;> simp
  have e4 := hubPot_z fun i s => W i i s
  unfold hubPot at e4
  rw [e, e2, e3, e4]
  module

theorem hubbard_terms (h : 2 ≤ b ∨ ∀ i, U i = 0) :
    (hubInter U + (hubSame W + hubHop T + hubPot V) : Op (a * b) 2) = ∑ x, termCoef U W V T x • termOp x := by
  have hop : (hubHop T : Op (a * b) 2) = ∑ i, ∑ j, ∑ s, (if j < i then -T i j s else 0) • hopPair (mode i s) (mode j s) := by
    unfold hubHop
    refine Finset.sum_congr rfl fun i _ => Finset.sum_congr rfl fun j _ => Finset.sum_congr rfl fun s _ => ?_
    split_ifs
    · rw [neg_smul]; rfl
    · rw [zero_smul]
  simp only [Fintype.sum_sum_type, Fintype.sum_prod_type, termCoef, termOp, Finset.univ_unique, Finset.sum_singleton, zWord_none]
  rw [← hop, hubInter_z U h, hubSame_z, hubPot_z]
  simp only [halfLevel, meanLevel, neg_smul, add_smul, Finset.sum_neg_distrib, Finset.sum_add_distrib, add_div]
  abel

theorem two_modes {i j : Fin a} {s : Fin b} : ((mode j s : Fin (a * b)) : ℕ) = i ∨ ((mode j s : Fin (a * b)) : ℕ) = a + i ↔ j = i ∧ (s : ℕ) < 2 := by
  have hi := i.2
  have hj := j.2
  simp only [mode, Fin.ext_iff]
  constructor
  · rintro (h | h)
    · have : (s : ℕ) = 0 := by
        by_contra hs
        have : a * 1 ≤ a * s := Nat.mul_le_mul_left _ (by omega)
        omega
      rw [this] at h ⊢
      omega
    · have h1 : (s : ℕ) < 2 := by
        by_contra hs
        have : a * 2 ≤ a * s := Nat.mul_le_mul_left _ (by omega)
        omega
      have h2 : (s : ℕ) ≠ 0 := fun e => by rw [e] at h; omega
      have h3 : (s : ℕ) = 1 := by omega
      rw [h3] at h ⊢
      omega
  · rintro ⟨h1, h2⟩
    have : (s : ℕ) = 0 ∨ (s : ℕ) = 1 := by omega
    rcases this with h | h <;> rw [h] <;> omega

/-- Which modes a term acts on. -/
def TermActs : Terms a b → Fin a → Fin b → Prop
  | .inl _, _, _ => False
  | .inr (.inl x), i, s => i = x.1 ∧ s = x.2
  | .inr (.inr (.inl k)), i, s => i = k ∧ (s : ℕ) < 2
  | .inr (.inr (.inr (.inl x))), i, s => (i = x.1 ∨ i = x.2.1) ∧ s = x.2.2
  | .inr (.inr (.inr (.inr x))), i, s => (i = x.1 ∨ i = x.2.1) ∧ s = x.2.2

/-- Terms that act on the same modes. -/
theorem termActs_inj (h : 2 ≤ b ∨ ∀ i, U i = 0) (x y : Terms a b) (hx : termCoef U W V T x ≠ 0) (hy : termCoef U W V T y ≠ 0)
    (e : ∀ i s, TermActs x i s ↔ TermActs y i s) : x = y ∨ (∃ z w, x = .inr (.inr (.inr (.inl z))) ∧ y = .inr (.inr (.inr (.inr w)))) ∨
      ∃ z w, x = .inr (.inr (.inr (.inr w))) ∧ y = .inr (.inr (.inr (.inl z))) := by
  have two : ∀ i, termCoef U W V T (.inr (.inr (.inl i))) ≠ 0 → 2 ≤ b := fun i hi => h.resolve_right fun h0 => hi (by simp [termCoef, h0])
  have lt1 : ∀ z : Fin a × Fin a × Fin b, termCoef U W V T (.inr (.inr (.inr (.inl z)))) ≠ 0 → z.2.1 < z.1 := fun z hz => by
    by_contra hn
    exact hz (if_neg hn)
  have lt2 : ∀ z : Fin a × Fin a × Fin b, termCoef U W V T (.inr (.inr (.inr (.inr z)))) ≠ 0 → z.2.1 < z.1 := fun z hz => by
    by_contra hn
    exact hz (if_neg hn)
  rcases x with x | ⟨i, s⟩ | i | ⟨i, j, s⟩ | ⟨i, j, s⟩ <;> rcases y with y | ⟨i', s'⟩ | i' | ⟨i', j', s'⟩ | ⟨i', j', s'⟩ <;> simp only [TermActs] at e
  · exact .inl rfl
  · exact ((e i' s').2 ⟨rfl, rfl⟩).elim
  · have := two _ hy
    exact ((e i' ⟨0, by omega⟩).2 ⟨rfl, by simp⟩).elim
  · exact ((e i' s').2 ⟨.inl rfl, rfl⟩).elim
  · exact ((e i' s').2 ⟨.inl rfl, rfl⟩).elim
  · exact ((e i s).1 ⟨rfl, rfl⟩).elim
  · obtain ⟨h1, h2⟩ := (e i s).1 ⟨rfl, rfl⟩
    rw [h1, h2]
    exact .inl rfl
  · have hb := two _ hy
    have h1 := ((e i' ⟨0, by omega⟩).2 ⟨rfl, by simp⟩).2
    have h2 := ((e i' ⟨1, by omega⟩).2 ⟨rfl, by simp⟩).2
    have := congrArg Fin.val (h1.trans h2.symm)
    simp at this
  · have := lt1 _ hy
    have h1 := ((e i' s').2 ⟨.inl rfl, rfl⟩).1
    have h2 := ((e j' s').2 ⟨.inr rfl, rfl⟩).1
    exact absurd (h2.trans h1.symm) this.ne
  · have := lt2 _ hy
    have h1 := ((e i' s').2 ⟨.inl rfl, rfl⟩).1
    have h2 := ((e j' s').2 ⟨.inr rfl, rfl⟩).1
    exact absurd (h2.trans h1.symm) this.ne
  · have := two _ hx
    exact ((e i ⟨0, by omega⟩).1 ⟨rfl, by simp⟩).elim
  · have hb := two _ hx
    have h1 := ((e i ⟨0, by omega⟩).1 ⟨rfl, by simp⟩).2
    have h2 := ((e i ⟨1, by omega⟩).1 ⟨rfl, by simp⟩).2
    have := congrArg Fin.val (h1.trans h2.symm)
    simp at this
  · have := two _ hx
    rw [((e i ⟨0, by omega⟩).1 ⟨rfl, by simp⟩).1]
    exact .inl rfl
  · have hb := two _ hx
    have h1 := ((e i ⟨0, by omega⟩).1 ⟨rfl, by simp⟩).2
    have h2 := ((e i ⟨1, by omega⟩).1 ⟨rfl, by simp⟩).2
    have := congrArg Fin.val (h1.trans h2.symm)
    simp at this
  · have hb := two _ hx
    have h1 := ((e i ⟨0, by omega⟩).1 ⟨rfl, by simp⟩).2
    have h2 := ((e i ⟨1, by omega⟩).1 ⟨rfl, by simp⟩).2
    have := congrArg Fin.val (h1.trans h2.symm)
    simp at this
  · exact ((e i s).1 ⟨.inl rfl, rfl⟩).elim
  · have := lt1 _ hx
    have h1 := ((e i s).1 ⟨.inl rfl, rfl⟩).1
    have h2 := ((e j s).1 ⟨.inr rfl, rfl⟩).1
    exact absurd (h2.trans h1.symm) this.ne
  · have hb := two _ hy
    have h1 := ((e i' ⟨0, by omega⟩).2 ⟨rfl, by simp⟩).2
    have h2 := ((e i' ⟨1, by omega⟩).2 ⟨rfl, by simp⟩).2
    have := congrArg Fin.val (h1.trans h2.symm)
    simp at this
  · have l1 := lt1 _ hx
    have l2 := lt1 _ hy
    obtain ⟨h1, h2⟩ := (e i s).1 ⟨.inl rfl, rfl⟩
    have h3 := ((e j s).1 ⟨.inr rfl, rfl⟩).1
    have : i = i' ∧ j = j' := by
      simp only [Fin.ext_iff, Fin.lt_def] at *
      omega
    rw [h2, this.1, this.2]
    exact .inl rfl
  · exact .inr (.inl ⟨_, _, rfl, rfl⟩)
  · exact ((e i s).1 ⟨.inl rfl, rfl⟩).elim
  · have := lt2 _ hx
    have h1 := ((e i s).1 ⟨.inl rfl, rfl⟩).1
    have h2 := ((e j s).1 ⟨.inr rfl, rfl⟩).1
    exact absurd (h2.trans h1.symm) this.ne
  · have hb := two _ hy
    have h1 := ((e i' ⟨0, by omega⟩).2 ⟨rfl, by simp⟩).2
    have h2 := ((e i' ⟨1, by omega⟩).2 ⟨rfl, by simp⟩).2
    have := congrArg Fin.val (h1.trans h2.symm)
    simp at this
  · exact .inr (.inr ⟨_, _, rfl, rfl⟩)
  · have l1 := lt2 _ hx
    have l2 := lt2 _ hy
    obtain ⟨h1, h2⟩ := (e i s).1 ⟨.inl rfl, rfl⟩
    have h3 := ((e j s).1 ⟨.inr rfl, rfl⟩).1
    have : i = i' ∧ j = j' := by
      simp only [Fin.ext_iff, Fin.lt_def] at *
      omega
    rw [h2, this.1, this.2]
    exact .inl rfl

theorem termOp_z (x : Terms a b) : (∃ p : Fin (a * b) → Prop, termOp x = zWord p ∧ ∀ i s, p (mode i s) ↔ TermActs x i s) ∨
    ∃ z, x = .inr (.inr (.inr (.inr z))) := by
  rcases x with x | x | i | x | x
  · exact .inl ⟨_, rfl, fun i s => Iff.rfl⟩
  · exact .inl ⟨_, rfl, fun i s => mode_eq_iff⟩
  · exact .inl ⟨_, rfl, fun i s => two_modes⟩
  · refine .inl ⟨_, rfl, fun i s => ?_⟩
    simp only [mode_eq_iff, TermActs]
    tauto
  · exact .inr ⟨_, rfl⟩

theorem termOp_orthogonal (h : 2 ≤ b ∨ ∀ i, U i = 0) (x y : Terms a b) (hne : x ≠ y) (hx : termCoef U W V T x ≠ 0) (hy : termCoef U W V T y ≠ 0) :
    trace (termOp x * termOp y) = 0 := by
  have lt2 : ∀ z : Fin a × Fin a × Fin b, termCoef U W V T (.inr (.inr (.inr (.inr z)))) ≠ 0 → z.2.1 < z.1 := fun z hz => by
    by_contra hn
    exact hz (if_neg hn)
  have hm : ∀ z : Fin a × Fin a × Fin b, z.2.1 < z.1 → (mode z.1 z.2.2 : Fin (a * b)) ≠ mode z.2.1 z.2.2 := fun z hz e => hz.ne' (mode_eq_iff.1 e).1
  rcases termOp_z x with ⟨p, hp, hp'⟩ | ⟨z, rfl⟩ <;> rcases termOp_z y with ⟨q, hq, hq'⟩ | ⟨w, rfl⟩
  · rw [hp, hq]
    by_cases hpq : ∀ k, p k ↔ q k
    · rcases termActs_inj U W V T h x y hx hy (fun i s => by rw [← hp', ← hq', hpq]) with e | ⟨z, w, e1, e2⟩ | ⟨z, w, e1, e2⟩
      · exact absurd e hne
      · subst e2
        have : trace (hopPair (mode w.1 w.2.2) (mode w.2.1 w.2.2) * zWord p : Op (a * b) 2) = 0 := hopPair_z (hm w (lt2 w hy)) p
        rw [← hq, trace_mul_comm]
        exact this
      · subst e1
        have : trace (hopPair (mode w.1 w.2.2) (mode w.2.1 w.2.2) * zWord q : Op (a * b) 2) = 0 := hopPair_z (hm w (lt2 w hx)) q
        rw [← hp]
        exact this
    · push Not at hpq
      obtain ⟨k, hk⟩ := hpq
      exact zWord_orthogonal (k := k) (by tauto)
  · rw [hp, trace_mul_comm]
    exact hopPair_z (hm w (lt2 w hy)) p
  · rw [hq]
    exact hopPair_z (hm z (lt2 z hx)) q
  · have l1 := lt2 z hx
    have l2 := lt2 w hy
    by_cases hzw : (mode z.1 z.2.2 : Fin (a * b)) = mode w.1 w.2.2 ∨ (mode z.1 z.2.2 : Fin (a * b)) = mode w.2.1 w.2.2
    · by_cases hzw' : (mode z.2.1 z.2.2 : Fin (a * b)) = mode w.1 w.2.2 ∨ (mode z.2.1 z.2.2 : Fin (a * b)) = mode w.2.1 w.2.2
      · exfalso
        refine hne ?_
        obtain ⟨i, j, s⟩ := z
        obtain ⟨i', j', s'⟩ := w
        simp only [mode_eq_iff] at hzw hzw' l1 l2
        have : i = i' ∧ j = j' ∧ s = s' := by
          simp only [Fin.ext_iff, Fin.lt_def] at *
          omega
        rw [this.1, this.2.1, this.2.2]
      · push Not at hzw'
        exact hopPair_orthogonal (hm z l1) (.inr rfl) hzw'.1 hzw'.2
    · push Not at hzw
      exact hopPair_orthogonal (hm z l1) (.inl rfl) hzw.1 hzw.2

/-- The trace of the Hamiltonian. -/
theorem hubbard_trace (h : 2 ≤ b ∨ ∀ i, U i = 0) :
    trace (hubInter U + (hubSame W + hubHop T + hubPot V) : Op (a * b) 2) = meanLevel U W V * 2 ^ (a * b) := by
  rw [hubbard_terms U W V T h, trace_sum, Finset.sum_eq_single (.inl ())]
  · rw [trace_smul]
    simp [termCoef, termOp, zWord_none]
  · intro x _ hx
    rw [trace_smul]
    by_cases hc : termCoef U W V T x = 0
    · rw [hc, zero_smul]
    by_cases h0 : termCoef U W V T x ≠ 0
    · have key : trace (termOp x * zWord fun _ : Fin (a * b) => False) = 0 := by
        by_cases hu : ∃ y z, x = .inr (.inr (.inr (.inr (y, z))))
        · obtain ⟨i, ⟨j, s⟩, rfl⟩ := hu
          have l : j < i := by
            by_contra hn
            exact hc (if_neg hn)
          exact hopPair_z (fun e => l.ne' (mode_eq_iff.1 e).1) _
        · rcases termOp_z x with ⟨p, hp, hp'⟩ | ⟨⟨y, z⟩, rfl⟩
          · rw [hp]
            have : ∃ k, p k := by
              by_contra hn
              push Not at hn
              have hacts : ∀ i s, ¬TermActs x i s := fun i s hi => hn _ ((hp' i s).2 hi)
              rcases x with x | ⟨i, s⟩ | i | ⟨i, j, s⟩ | ⟨i, j, s⟩
              · exact hx rfl
              · exact hacts i s ⟨rfl, rfl⟩
              · have hb : 2 ≤ b := h.resolve_right fun h0 => hc (by simp [termCoef, h0])
                exact hacts i ⟨0, by omega⟩ ⟨rfl, by simp⟩
              · exact hacts i s ⟨.inl rfl, rfl⟩
              · exact hacts i s ⟨.inl rfl, rfl⟩
            obtain ⟨k, hk⟩ := this
            exact zWord_orthogonal (k := k) (by tauto)
          · exact absurd ⟨y, z, rfl⟩ hu
      rw [zWord_none, Matrix.mul_one] at key
      rw [key, smul_zero]
    · exact absurd hc h0
  · simp

/-- The trace of the square of the Hamiltonian. -/
theorem hubbard_trace_sq (h : 2 ≤ b ∨ ∀ i, U i = 0) :
    trace ((hubInter U + (hubSame W + hubHop T + hubPot V)) * (hubInter U + (hubSame W + hubHop T + hubPot V)) : Op (a * b) 2) =
      (meanLevel U W V ^ 2 + (∑ i, ∑ s, halfLevel U W V i s ^ 2) + (∑ i, (U i / 4) ^ 2) +
        ∑ i, ∑ j, ∑ s, if j < i then (W i j s / 4) ^ 2 + T i j s ^ 2 / 2 else 0) * 2 ^ (a * b) := by
  rw [hubbard_terms U W V T h, trace_orthogonal _ _ (termOp_orthogonal U W V T h)]
  have hz : ∀ (c : ℂ) (p : Fin (a * b) → Prop), c ^ 2 * trace (zWord p * zWord p) = c ^ 2 * 2 ^ (a * b) := fun c p => by rw [zWord_sq]
  simp only [Fintype.sum_sum_type, Fintype.sum_prod_type, termCoef, termOp, hz, Finset.univ_unique, Finset.sum_singleton, add_mul, Finset.sum_mul, neg_sq]
  have hp : ∑ i, ∑ j, ∑ s, (if j < i then W i j s / 4 else 0) ^ 2 * (2 : ℂ) ^ (a * b) +
      ∑ i, ∑ j, ∑ s, (if j < i then -T i j s else 0) ^ 2 * trace (hopPair (mode i s) (mode j s) * hopPair (mode i s) (mode j s) : Op (a * b) 2) =
      ∑ i, ∑ j, ∑ s, (if j < i then (W i j s / 4) ^ 2 + T i j s ^ 2 / 2 else 0) * (2 : ℂ) ^ (a * b) := by
    simp only [← Finset.sum_add_distrib]
    refine Finset.sum_congr rfl fun i _ => Finset.sum_congr rfl fun j _ => Finset.sum_congr rfl fun s _ => ?_
    split_ifs with hij
    · rw [hopPair_sq fun e => hij.ne' (mode_eq_iff.1 e).1]
      ring
    · ring
  rw [← hp]
  ring

end Sites

end ED
