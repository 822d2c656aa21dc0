import Verif.Lemmas.ParticleHole
import Verif.Lemmas.EquivalentSites
import Mathlib.Combinatorics.SimpleGraph.Acyclic

/-! # Signs of the hopping amplitudes -/

namespace ED

open Matrix

section

variable {n : ℕ} {χ : Fin n → ℤ} (hχ : ∀ i, χ i * χ i = 1)

/-- Multiplies each state by the signs of its occupied modes. -/
noncomputable def signOp (χ : Fin n → ℤ) : Op n 2 := diagonal (occSign χ)

theorem signOp_star (χ : Fin n → ℤ) : (signOp χ)ᴴ = signOp χ := by
  rw [signOp, diagonal_conjTranspose]
  congr 1
  funext s
  exact star_occSign χ s

include hχ

theorem signOp_sq : signOp χ * signOp χ = 1 := by
  rw [signOp, diagonal_mul_diagonal, ← diagonal_one]
  congr 1
  funext s
  exact occSign_self hχ s

theorem signOp_diag (d : Conf n 2 → ℂ) : signOp χ * diagonal d * signOp χ = diagonal d := by
  rw [signOp, diagonal_mul_diagonal, diagonal_mul_diagonal]
  congr 1
  funext s
  rw [mul_right_comm, occSign_self hχ, one_mul]

theorem signOp_create (k : Fin n) : signOp χ * create k * signOp χ = (χ k : ℂ) • create k := by
  ext s t
  rw [signOp, mul_diagonal, diagonal_mul, Matrix.smul_apply, smul_eq_mul, create, of_apply]
  by_cases h : AgreeOff k s t ∧ s k = 1 ∧ t k = 0
  · rw [if_pos h, mul_right_comm, mul_comm (occSign χ s), occSign_mul hχ (fun j hj => (h.1 j hj).symm) h.2.2 h.2.1]
  · rw [if_neg h, mul_zero, zero_mul, mul_zero]

theorem signOp_annih (k : Fin n) : signOp χ * annih k * signOp χ = (χ k : ℂ) • annih k := by
  have h := congrArg conjTranspose (signOp_create hχ k)
  rw [conjTranspose_mul, conjTranspose_mul, signOp_star, conjTranspose_smul] at h
  rw [← Matrix.mul_assoc] at h
  simpa [annih] using h

theorem signOp_hop (k l : Fin n) : signOp χ * (create k * annih l) * signOp χ = ((χ k * χ l : ℤ) : ℂ) • (create k * annih l) := by
  calc _ = signOp χ * create k * (signOp χ * signOp χ) * annih l * signOp χ := by
        rw [signOp_sq hχ]; simp only [Matrix.mul_assoc, Matrix.one_mul]
    _ = signOp χ * create k * signOp χ * (signOp χ * annih l * signOp χ) := by simp only [Matrix.mul_assoc]
    _ = _ := by
        rw [signOp_create hχ, signOp_annih hχ, Matrix.smul_mul, Matrix.mul_smul, smul_smul]
        push_cast
        rfl

end

section

variable {a b : ℕ} {ε : Fin a → Fin b → ℤ}

/-- The sign of a mode. -/
def signOfMode (ε : Fin a → Fin b → ℤ) (k : Fin (a * b)) : ℤ :=
  ε ⟨k % a, Nat.mod_lt _ (Nat.pos_of_ne_zero fun h => by have := k.2; simp [h] at this)⟩
    ⟨k / a, Nat.div_lt_of_lt_mul k.2⟩

theorem signOfMode_mode (i : Fin a) (s : Fin b) : signOfMode ε (mode i s) = ε i s := by
  unfold signOfMode
  have h0 : 0 < a := by have := i.2; omega
  congr 1
  · apply Fin.ext
    simp [mode, Nat.mod_eq_of_lt i.2]
  · apply Fin.ext
    simp [mode, Nat.mul_add_div h0, Nat.div_eq_of_lt i.2]

theorem signOfMode_sq (hε : ∀ i s, ε i s * ε i s = 1) (k : Fin (a * b)) : signOfMode ε k * signOfMode ε k = 1 := hε _ _

theorem signOp_hubHop (hε : ∀ i s, ε i s * ε i s = 1) (T : Fin a → Fin a → Fin b → ℂ) :
    signOp (signOfMode ε) * hubHop T * signOp (signOfMode ε) = hubHop fun i j s => ((ε i s * ε j s : ℤ) : ℂ) * T i j s := by
  unfold hubHop
  simp only [Matrix.mul_sum, Matrix.sum_mul]
  refine Finset.sum_congr rfl fun i _ => Finset.sum_congr rfl fun j _ => Finset.sum_congr rfl fun s _ => ?_
  split_ifs with h
  · rw [Matrix.mul_neg, Matrix.neg_mul, Matrix.mul_smul, Matrix.smul_mul, Matrix.mul_add, Matrix.add_mul, signOp_hop (signOfMode_sq hε),
      signOp_hop (signOfMode_sq hε), signOfMode_mode, signOfMode_mode, mul_comm (ε j s), ← smul_add, smul_smul, mul_comm (T i j s)]
  · rw [Matrix.mul_zero, Matrix.zero_mul]

theorem signOp_number (hε : ∀ i s, ε i s * ε i s = 1) (k : Fin (a * b)) :
    signOp (signOfMode ε) * number k * signOp (signOfMode ε) = number k := signOp_diag (signOfMode_sq hε) _

theorem signOp_two (hε : ∀ i s, ε i s * ε i s = 1) (k l : Fin (a * b)) :
    signOp (signOfMode ε) * (number k * number l) * signOp (signOfMode ε) = number k * number l := by
  rw [number, number, diagonal_mul_diagonal]
  exact signOp_diag (signOfMode_sq hε) _

theorem signOp_hubPot (hε : ∀ i s, ε i s * ε i s = 1) (V : Fin a → Fin b → ℂ) :
    signOp (signOfMode ε) * hubPot V * signOp (signOfMode ε) = hubPot V := by
  unfold hubPot
  simp only [Matrix.mul_sum, Matrix.sum_mul, Matrix.mul_smul, Matrix.smul_mul, signOp_number hε]

theorem signOp_hubSame (hε : ∀ i s, ε i s * ε i s = 1) (W : Fin a → Fin a → Fin b → ℂ) :
    signOp (signOfMode ε) * hubSame W * signOp (signOfMode ε) = hubSame W := by
  unfold hubSame
  simp only [Matrix.mul_sum, Matrix.sum_mul]
  refine Finset.sum_congr rfl fun i _ => Finset.sum_congr rfl fun j _ => Finset.sum_congr rfl fun s _ => ?_
  split_ifs
  · rw [Matrix.mul_smul, Matrix.smul_mul, signOp_two hε]
  · rw [Matrix.mul_zero, Matrix.zero_mul]

theorem signOp_hubInter (hε : ∀ i s, ε i s * ε i s = 1) (U : Fin a → ℂ) :
    signOp (signOfMode ε) * (hubInter U : Op (a * b) 2) * signOp (signOfMode ε) = hubInter U := by
  unfold hubInter
  split_ifs
  · simp only [Matrix.mul_sum, Matrix.sum_mul, Matrix.mul_smul, Matrix.smul_mul, signOp_two hε]
  · rw [Matrix.mul_zero, Matrix.zero_mul]

end

/-! ## Signs on a graph -/

section Graph

open SimpleGraph

variable {V : Type} {G : SimpleGraph V} (σ : V → V → ℤ)

/-- The product of the signs along a walk. -/
def walkSign : ∀ {u v : V}, G.Walk u v → ℤ
  | _, _, .nil => 1
  | u, _, .cons (v := v) _ p => σ u v * walkSign p

theorem walkSign_append {u v w : V} (p : G.Walk u v) (q : G.Walk v w) : walkSign σ (p.append q) = walkSign σ p * walkSign σ q := by
  induction p with
  | nil => simp [walkSign]
  | cons h p ih => rw [Walk.cons_append, walkSign, walkSign, ih, mul_assoc]

theorem walkSign_sq (hσ : ∀ u v, G.Adj u v → σ u v * σ u v = 1) {u v : V} (p : G.Walk u v) : walkSign σ p * walkSign σ p = 1 := by
  induction p with
  | nil => simp [walkSign]
  | cons h p ih => rw [walkSign, mul_mul_mul_comm, hσ _ _ h, ih, one_mul]

/-- On a graph without closed loops all signs of the edges come from signs of the vertices. -/
theorem signs_acyclic (hG : G.IsAcyclic) (hs : ∀ u v, σ u v = σ v u) (hσ : ∀ u v, G.Adj u v → σ u v * σ u v = 1) :
    ∃ ε : V → ℤ, (∀ v, ε v * ε v = 1) ∧ ∀ u v, G.Adj u v → ε u * ε v = σ u v := by
  classical
  have hr : ∀ v, ∃ p : G.Walk (G.connectedComponentMk v).out v, p.IsPath := by
    intro v
    have : G.Reachable (G.connectedComponentMk v).out v := by
      rw [← ConnectedComponent.eq]
      exact Quot.out_eq _
    obtain ⟨p⟩ := this
    exact ⟨p.toPath, p.toPath.2⟩
  choose P hP using hr
  have uniq := isAcyclic_iff_path_unique.1 hG
  have key : ∀ (v r : V), r = (G.connectedComponentMk v).out → ∀ p : G.Walk r v, p.IsPath → walkSign σ (P v) = walkSign σ p := by
    rintro v r rfl p hp
    exact congrArg (walkSign σ) (congrArg Subtype.val (uniq ⟨P v, hP v⟩ ⟨p, hp⟩))
  have single : ∀ {u v : V} (h : G.Adj u v), walkSign σ (Walk.cons h .nil) = σ u v := fun h => by simp [walkSign]
  refine ⟨fun v => walkSign σ (P v), fun v => walkSign_sq σ hσ _, fun u v h => ?_⟩
  have hc : (G.connectedComponentMk u).out = (G.connectedComponentMk v).out := congrArg _ (ConnectedComponent.eq.2 h.reachable)
  by_cases hv : v ∈ (P u).support
  · have h1 := key v _ hc ((P u).takeUntil v hv) ((hP u).takeUntil hv)
    have h2 : (P u).dropUntil v hv = Walk.cons h.symm .nil := by
      refine congrArg Subtype.val (uniq ⟨_, (hP u).dropUntil hv⟩ ⟨_, ?_⟩)
      simp [h.ne']
    have h3 := congrArg (walkSign σ) ((P u).take_spec hv)
    rw [walkSign_append, h2, single] at h3
    simp only
    rw [h1, ← h3, mul_right_comm, walkSign_sq σ hσ, one_mul, hs]
  · have h1 := key v _ hc ((P u).append (Walk.cons h .nil)) (by
      rw [← Walk.concat_eq_append]
      exact (hP u).concat hv h)
    simp only
    rw [h1, walkSign_append, single, ← mul_assoc, walkSign_sq σ hσ, one_mul]

end Graph

/-- On a ring, signs of the bonds whose product is one come from signs of the sites. -/
theorem signs_ring {n : ℕ} (σ : ℕ → ℤ) (hσ : ∀ k, σ k * σ k = 1) (hp : ∏ k ∈ Finset.range n, σ k = 1) :
    ∃ ε : ℕ → ℤ, (∀ k, ε k * ε k = 1) ∧ (∀ k, ε (k + 1) * ε k = σ k) ∧ (0 < n → ε (n - 1) * ε 0 = σ (n - 1)) := by
  have h : ∀ k, (∏ l ∈ Finset.range k, σ l) * ∏ l ∈ Finset.range k, σ l = 1 := fun k => by
    rw [← Finset.prod_mul_distrib]
    exact Finset.prod_eq_one fun l _ => hσ l
  refine ⟨fun k => ∏ l ∈ Finset.range k, σ l, h, fun k => ?_, fun hn => ?_⟩
  · beta_reduce
    rw [Finset.prod_range_succ, mul_right_comm, h, one_mul]
  · obtain ⟨m, rfl⟩ : ∃ m, n = m + 1 := ⟨n - 1, by omega⟩
    rw [Finset.prod_range_succ] at hp
    beta_reduce
    rw [Finset.prod_range_zero, mul_one, Nat.add_sub_cancel]
    calc _ = (∏ l ∈ Finset.range m, σ l) * σ m * σ m := by rw [mul_assoc, hσ, mul_one]
      _ = _ := by rw [hp, one_mul]

end ED
