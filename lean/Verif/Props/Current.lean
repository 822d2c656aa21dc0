import Verif.Model.Current
import Verif.Props.Fermions
import Verif.Lemmas.Broadcast
import Verif.Lemmas.Round
import Mathlib.Algebra.Module.BigOperators
import Mathlib.Tactic.IntervalCases

/-! # Property C100: the current operator -/

namespace ED.Props

open scoped BigOperators
open Matrix

variable {ι : Type} [Fintype ι] [Basis ι]

/-- What a result that is a number or a matrix stands for: the number `0` stands for the zero operator. -/
def IsOp (v : Val) (X : Matrix ι ι ℂ) : Prop := (v = .num 0 ∧ X = 0) ∨ ∃ M, v = .mat M ∧ M.Is X

private theorem isOp_add {v : Val} {X : Matrix ι ι ℂ} (h : IsOp v X) {M : Mat} {Y : Matrix ι ι ℂ} (hM : M.Is Y) :
    ∃ w, Val.add v (.mat M) = .ok w ∧ IsOp w (X + Y) := by
  rcases h with ⟨rfl, rfl⟩ | ⟨A, rfl, hA⟩
  · exact ⟨.mat M, by simp [Val.add], Or.inr ⟨M, rfl, by simpa using hM⟩⟩
  · obtain ⟨B, hB, hB'⟩ := hA.add hM
    exact ⟨.mat B, by simp [Val.add, hB, Except.map], Or.inr ⟨B, rfl, hB'⟩⟩

private theorem fold_isOp (n : ℕ) (step : Val → ℕ → Res Val) (T : Fin n → Matrix ι ι ℂ)
    (h : ∀ (i : Fin n) (v : Val) (X : Matrix ι ι ℂ), IsOp v X → ∃ w, step v i = .ok w ∧ IsOp w (X + T i))
    (v : Val) (X : Matrix ι ι ℂ) (hv : IsOp v X) :
    ∃ w, (List.range n).foldlM step v = .ok w ∧ IsOp w (X + ∑ i, T i) := by
  have := foldlM_range_inv step n v (fun m w => IsOp w (X + ∑ i : Fin n, if (i : ℕ) < m then T i else 0))
    (by simpa using hv) (fun m hm w hw => by
      obtain ⟨y, hy, hy'⟩ := h ⟨m, hm⟩ w _ hw
      refine ⟨y, hy, ?_⟩
      rw [add_assoc] at hy'
      convert hy' using 2
      have e : ∀ i : Fin n, (if (i : ℕ) < m + 1 then T i else 0) =
          (if (i : ℕ) < m then T i else 0) + if i = ⟨m, hm⟩ then T i else 0 := by
        intro i
        by_cases h1 : (i : ℕ) < m
        · rw [if_pos (by omega), if_pos h1, if_neg (by rintro rfl; simp at h1), add_zero]
        · by_cases h2 : i = ⟨m, hm⟩
          · rw [if_pos (by rw [h2]; simp), if_neg h1, if_pos h2, zero_add]
          · rw [if_neg (by intro h3; exact h2 (Fin.ext (by simp; omega))), if_neg h1, if_neg h2, zero_add]
      rw [Finset.sum_congr rfl fun i _ => e i, Finset.sum_add_distrib, Finset.sum_ite_eq' Finset.univ]
      simp)
  simpa using this

open Classical in
/-- The amplitude of `c†_i c_j` in the current operator, before the factor `i`. -/
private noncomputable def weight (F : Fermions) (adj : ℕ → ℕ → ℝ) (tx ty : ℂ) (dx dy : ℝ) (i j : ℕ) : ℂ :=
  (if adj i j ≠ 0 ∧ npRound 14 |F.xdist i j| = 1 then tx * ((F.xdist i j * dx : ℝ) : ℂ) else 0) +
    if adj i j ≠ 0 ∧ npRound 14 |F.ydist i j| = 1 then ty * ((F.ydist i j * dy : ℝ) : ℂ) else 0

private noncomputable def current (F : Fermions) (w : ℕ → ℕ → ℂ) : Op (F.nsites * F.nspecies) 2 :=
  ∑ i : Fin F.nsites, ∑ j : Fin F.nsites, ∑ s : Fin F.nspecies,
    w i j • (create (mode i s) * annih (mode j s))

open Classical in
private theorem link_isOp (F : Fermions) (adj dist : ℕ → ℕ → ℝ) (t : ℂ) (d : ℝ) (i j : Fin F.nsites)
    (s : Fin F.nspecies) {v : Val} {X : Op (F.nsites * F.nspecies) 2} (h : IsOp v X) :
    ∃ w, F.linkCurrent adj dist t d i j s v = .ok w ∧ IsOp w (X +
      (if adj i j ≠ 0 ∧ npRound 14 |dist i j| = 1 then t * ((dist i j * d : ℝ) : ℂ) else 0) •
        (create (mode i s) * annih (mode j s))) := by
  unfold Fermions.linkCurrent
  by_cases hc : adj i j ≠ 0 ∧ npRound 14 |dist i j| = 1
  · rw [if_pos hc, if_pos hc]
    obtain ⟨M, hM, hM'⟩ := F_hop F i j s s
    rw [hM]
    exact isOp_add h (hM'.smul _)
  · rw [if_neg hc, if_neg hc, zero_smul, add_zero]
    exact ⟨v, rfl, h⟩

private theorem current_isOp (F : Fermions) (adj : ℕ → ℕ → ℝ) (tx ty : ℂ) (dx dy : ℝ) :
    ∃ v, F.currentOp adj (some (tx, ty)) dx dy = .ok v ∧
      IsOp v (Complex.I • current F (weight F adj tx ty dx dy)) := by
  obtain ⟨v, hv, hv'⟩ := fold_isOp F.nsites (fun current ii =>
      (List.range F.nsites).foldlM (fun current jj =>
        (List.range F.nspecies).foldlM (fun current kk => do
          let current ← F.linkCurrent adj F.xdist tx dx ii jj kk current
          F.linkCurrent adj F.ydist ty dy ii jj kk current) current) current)
    (fun i => ∑ j : Fin F.nsites, ∑ s : Fin F.nspecies, weight F adj tx ty dx dy i j •
      (create (mode i s) * annih (mode j s) : Op (F.nsites * F.nspecies) 2))
    (fun i v X hX => fold_isOp F.nsites _ _ (fun j v X hX => fold_isOp F.nspecies _ _ (fun s v X hX => by
      obtain ⟨w, hw, hw'⟩ := link_isOp F adj F.xdist tx dx i j s hX
      obtain ⟨u, hu, hu'⟩ := link_isOp F adj F.ydist ty dy i j s hw'
      refine ⟨u, ?_, ?_⟩
      · rw [hw]
        exact hu
      · rw [add_assoc, ← add_smul] at hu'
        exact hu') v X hX) v X hX)
    (.num 0) 0 (Or.inl ⟨rfl, rfl⟩)
  rw [zero_add] at hv'
  have e : F.currentOp adj (some (tx, ty)) dx dy = Val.mul (.num Complex.I) v := by
    unfold Fermions.currentOp
    simp only
    rw [hv]
    rfl
  rw [e]
  change IsOp v (current F (weight F adj tx ty dx dy)) at hv'
  rcases hv' with ⟨rfl, h0⟩ | ⟨M, rfl, hM⟩
  · exact ⟨.num 0, by simp [Val.mul], Or.inl ⟨rfl, by rw [h0, smul_zero]⟩⟩
  · exact ⟨_, rfl, Or.inr ⟨_, rfl, hM.smul _⟩⟩

private theorem weight_anti (F : Fermions) (adj : ℕ → ℕ → ℝ) (tx ty : ℂ) (dx dy : ℝ)
    (htx : star tx = tx) (hty : star ty = ty) (i j : ℕ) (hadj : adj j i = adj i j)
    (hx : F.xdist j i = -F.xdist i j) (hy : F.ydist j i = -F.ydist i j) :
    star (weight F adj tx ty dx dy j i) = -weight F adj tx ty dx dy i j := by
  have hr : ∀ x : ℝ, star (x : ℂ) = x := fun x => Complex.conj_ofReal x
  unfold weight
  rw [hadj, hx, hy, abs_neg, abs_neg, star_add, neg_add]
  congr 1 <;> split_ifs <;> simp [htx, hty, hr, star_mul']

/-- C100 (what holds once `tx` and `ty` have been assigned): for real hopping amplitudes, on every geometry, periodic
or not, whose separations are antisymmetric, the current operator is Hermitian and conserves the number of particles of
every species. Missing for the full claim: an instance as it is constructed has no attributes `tx` and `ty`. -/
theorem C100_hermitian_partial (F : Fermions) (adj : ℕ → ℕ → ℝ) (tx ty : ℂ) (dx dy : ℝ)
    (htx : star tx = tx) (hty : star ty = ty) (hadj : ∀ i < F.nsites, ∀ j < F.nsites, adj j i = adj i j)
    (hx : ∀ i < F.nsites, ∀ j < F.nsites, F.xdist j i = -F.xdist i j)
    (hy : ∀ i < F.nsites, ∀ j < F.nsites, F.ydist j i = -F.ydist i j) :
    ∃ (v : Val) (J : Op (F.nsites * F.nspecies) 2), F.currentOp adj (some (tx, ty)) dx dy = .ok v ∧ IsOp v J ∧
      Jᴴ = J ∧ ∀ s : Fin F.nspecies, (∑ i : Fin F.nsites, number (mode i s)) * J =
        J * ∑ i : Fin F.nsites, number (mode i s) := by
  obtain ⟨v, hv, hJ⟩ := current_isOp F adj tx ty dx dy
  refine ⟨v, _, hv, hJ, ?_, fun s => ?_⟩
  · unfold current
    rw [conjTranspose_smul, conjTranspose_sum]
    simp only [conjTranspose_sum, conjTranspose_smul, conjTranspose_mul, annih_star, create_star]
    rw [Finset.sum_comm, show star Complex.I = -Complex.I from Complex.conj_I, neg_smul, ← smul_neg]
    congr 1
    rw [← Finset.sum_neg_distrib]
    refine Finset.sum_congr rfl fun i _ => ?_
    rw [← Finset.sum_neg_distrib]
    refine Finset.sum_congr rfl fun j _ => ?_
    rw [← Finset.sum_neg_distrib]
    refine Finset.sum_congr rfl fun s _ => ?_
    rw [weight_anti F adj tx ty dx dy htx hty i j (hadj i i.2 j j.2) (hx i i.2 j j.2) (hy i i.2 j j.2), neg_smul,
      neg_neg]
  · have : Commute (speciesNumber F.nsites s) (Complex.I • current F (weight F adj tx ty dx dy)) :=
      Commute.smul_right (Commute.sum_right _ _ _ fun _ _ => Commute.sum_right _ _ _ fun _ _ =>
        Commute.sum_right _ _ _ fun _ _ => (speciesNumber_hop _ _ _ _).smul_right _) _
    exact this.eq

/-- A ring of three sites, with the separations of a periodic lattice, meets the hypotheses. -/
example : ∃ (v : Val) (J : Op (3 * 1) 2), Fermions.currentOp ⟨3, 1, fun _ _ _ => 2, fun _ => 0, fun _ _ _ => 0,
      fun _ => 0, fun _ _ => 0, fun i j => if i = j then 0 else if (i + 1) % 3 = j then -1 else 1, fun _ _ => 0⟩
      (fun i j => if i = j then 0 else 1) (some (2, 2)) 1 0 = .ok v ∧ IsOp v J ∧ Jᴴ = J ∧
    ∀ s : Fin 1, (∑ i : Fin 3, number (mode i s)) * J = J * ∑ i : Fin 3, number (mode i s) :=
  C100_hermitian_partial ⟨3, 1, fun _ _ _ => 2, fun _ => 0, fun _ _ _ => 0,
      fun _ => 0, fun _ _ => 0, fun i j => if i = j then 0 else if (i + 1) % 3 = j then -1 else 1, fun _ _ => 0⟩
    (fun i j => if i = j then 0 else 1) 2 2 1 0 (by simp) (by simp)
    (fun i hi j hj => by
      simp only at hi hj
      interval_cases i <;> interval_cases j <;> simp)
    (fun i hi j hj => by
      simp only at hi hj
      interval_cases i <;> interval_cases j <;> simp)
    (fun _ _ _ _ => by simp)

/-- Potentials commute with products of occupation numbers. -/
private theorem pot_comm {a b : ℕ} (V : Fin a → Fin b → ℂ) (k : Fin (a * b)) : Commute (hubPot V) (number k) :=
  Commute.sum_left _ _ _ fun _ _ => Commute.sum_left _ _ _ fun _ _ =>
    (show Commute (number _) (number k) from number_comm _ _).smul_left _

theorem pot_pot {a b : ℕ} (V W : Fin a → Fin b → ℂ) : Commute (hubPot V) (hubPot W) :=
  Commute.sum_right _ _ _ fun _ _ => Commute.sum_right _ _ _ fun _ _ => (pot_comm _ _).smul_right _

theorem pot_inter {a b : ℕ} (V : Fin a → Fin b → ℂ) (U : Fin a → ℂ) :
    Commute (hubPot V) (hubInter U) := by
  unfold hubInter
  split_ifs with h
  · exact Commute.sum_right _ _ _ fun _ _ => ((pot_comm _ _).mul_right (pot_comm _ _)).smul_right _
  · exact Commute.zero_right _

theorem pot_same {a b : ℕ} (V : Fin a → Fin b → ℂ) (W : Fin a → Fin a → Fin b → ℂ) :
    Commute (hubPot V) (hubSame W) := by
  refine Commute.sum_right _ _ _ fun _ _ => Commute.sum_right _ _ _ fun _ _ => Commute.sum_right _ _ _ fun _ _ => ?_
  split_ifs
  · exact ((pot_comm _ _).mul_right (pot_comm _ _)).smul_right _
  · exact Commute.zero_right _

theorem pot_hop {a b : ℕ} (V : Fin a → Fin b → ℂ) (i j : Fin a) (s : Fin b) :
    (create (mode i s) * annih (mode j s)) * hubPot V - hubPot V * (create (mode i s) * annih (mode j s)) =
      -((V i s - V j s) • (create (mode i s) * annih (mode j s))) := by
  rw [← neg_sub, neg_inj]
  unfold hubPot
  rw [Finset.sum_mul, Finset.mul_sum, ← Finset.sum_sub_distrib]
  simp only [Finset.sum_mul, Finset.mul_sum, ← Finset.sum_sub_distrib, smul_mul_assoc, mul_smul_comm, ← smul_sub,
    number_hop, mode_eq_iff, smul_smul]
  rw [Finset.sum_congr rfl fun k _ => (Finset.sum_smul).symm, ← Finset.sum_smul]
  congr 1
  simp only [mul_sub, Finset.sum_sub_distrib, mul_ite, mul_one, mul_zero, ite_and]
  simp

/-- A sum over all pairs of different sites is a sum over `j < i` of both orders. -/
private theorem sum_pairs {E : Type} [AddCommMonoid E] {a : ℕ} (f : Fin a → Fin a → E) (h0 : ∀ i, f i i = 0) :
    ∑ i, ∑ j, f i j = ∑ i, ∑ j, if j < i then f i j + f j i else 0 := by
  have h1 : ∀ i j, f i j = (if j < i then f i j else 0) + if i < j then f i j else 0 := by
    intro i j
    rcases lt_trichotomy i j with h | rfl | h
    · rw [if_neg (not_lt.2 h.le), if_pos h, zero_add]
    · simp [h0]
    · rw [if_pos h, if_neg (not_lt.2 h.le), add_zero]
  rw [Finset.sum_congr rfl fun i _ => Finset.sum_congr rfl fun j _ => h1 i j]
  simp only [Finset.sum_add_distrib]
  rw [Finset.sum_comm (f := fun i j => if i < j then f i j else 0), ← Finset.sum_add_distrib]
  refine Finset.sum_congr rfl fun i _ => ?_
  rw [← Finset.sum_add_distrib]
  refine Finset.sum_congr rfl fun j _ => ?_
  split_ifs <;> simp

/-- The current operator is the time derivative of the position `Σ r_i n_{is}` if on every bond the separation along the
direction is the difference of the positions. Along a direction in which the lattice is open this holds although the
lattice is periodic in the other one. -/
theorem current_velocity (F : Fermions) (adj : ℕ → ℕ → ℝ) (r : ℕ → ℝ) (tx ty : ℂ) (dx dy : ℝ)
    (hx : ∀ i < F.nsites, ∀ j < F.nsites, |F.xdist j i| = |F.xdist i j|)
    (hy : ∀ i < F.nsites, ∀ j < F.nsites, |F.ydist j i| = |F.ydist i j|)
    (hadj : ∀ i < F.nsites, ∀ j < F.nsites, adj j i = adj i j)
    (hbond : ∀ i < F.nsites, ∀ j < F.nsites, ∀ s < F.nspecies,
      (|F.xdist i j| = 1 ∧ F.ydist i j = 0 ∧ adj i j ≠ 0 ∧ F.ts i j s = tx ∧ dx * F.xdist i j = r i - r j) ∨
      (F.xdist i j = 0 ∧ |F.ydist i j| = 1 ∧ adj i j ≠ 0 ∧ F.ts i j s = ty ∧ dy * F.ydist i j = r i - r j) ∨
      (adj i j = 0 ∧ F.ts i j s = 0)) :
    ∃ v, F.currentOp adj (some (tx, ty)) dx dy = .ok v ∧
      IsOp v (Complex.I • ((hubInter (fun i => F.us i) + hubRest F) * hubPot (fun i _ => ((r i : ℝ) : ℂ)) -
        hubPot (fun i _ => ((r i : ℝ) : ℂ)) * (hubInter (fun i => F.us i) + hubRest F) : Op (F.nsites * F.nspecies) 2)) := by
  obtain ⟨v, hv, hJ⟩ := current_isOp F adj tx ty dx dy
  refine ⟨v, hv, ?_⟩
  convert hJ using 1
  symm
  congr 1
  set R : Op (F.nsites * F.nspecies) 2 := hubPot (fun i _ => ((r i : ℝ) : ℂ)) with hR
  have r1 : npRound 14 (1 : ℝ) = 1 := by
    have a := le_npRound (K := ℝ) (d := 14) (x := 1) (m := 10 ^ 14) (by norm_num)
    have b := npRound_le (K := ℝ) (d := 14) (x := 1) (m := 10 ^ 14) (by norm_num)
    norm_num at a b
    exact le_antisymm b a
  have r0 : npRound 14 (0 : ℝ) = 0 := by
    have a := le_npRound (K := ℝ) (d := 14) (x := 0) (m := 0) (by norm_num)
    have b := npRound_le (K := ℝ) (d := 14) (x := 0) (m := 0) (by norm_num)
    norm_num at a b
    exact le_antisymm b a
  -- the weight of a hop in both operators
  have hw : ∀ (i j : Fin F.nsites) (s : Fin F.nspecies), weight F adj tx ty dx dy i j =
      F.ts i j s * hopWeight F i j * (((r i : ℝ) : ℂ) - ((r j : ℝ) : ℂ)) := by
    intro i j s
    unfold weight hopWeight
    rcases hbond i i.2 j j.2 s s.2 with ⟨h1, h2, h3, h4, h5⟩ | ⟨h1, h2, h3, h4, h5⟩ | ⟨h1, h2⟩
    · rw [h1, h2, h4, abs_zero, r1, r0, if_pos ⟨h3, rfl⟩, if_neg (by norm_num), ← Complex.ofReal_sub, ← h5]
      push_cast
      ring
    · rw [h1, h2, h4, abs_zero, r1, r0, if_neg (by norm_num), if_pos ⟨h3, rfl⟩, ← Complex.ofReal_sub, ← h5]
      push_cast
      ring
    · rw [h1, h2, if_neg (by simp), if_neg (by simp)]
      simp
  have hsymm : ∀ (i j : Fin F.nsites) (s : Fin F.nspecies), F.ts j i s * hopWeight F j i =
      F.ts i j s * hopWeight F i j := by
    intro i j s
    have e : F.ts j i s = F.ts i j s := by
      rcases hbond i i.2 j j.2 s s.2 with ⟨h1, h2, h3, h4, -⟩ | ⟨h1, h2, h3, h4, -⟩ | ⟨h1, h2⟩ <;>
        rcases hbond j j.2 i i.2 s s.2 with ⟨k1, k2, k3, k4, -⟩ | ⟨k1, k2, k3, k4, -⟩ | ⟨k1, k2⟩
      · rw [h4, k4]
      · rw [← hx i i.2 j j.2, k1, abs_zero] at h1
        norm_num at h1
      · rw [hadj i i.2 j j.2] at k1
        exact absurd k1 h3
      · rw [hx i i.2 j j.2, h1, abs_zero] at k1
        norm_num at k1
      · rw [h4, k4]
      · rw [hadj i i.2 j j.2] at k1
        exact absurd k1 h3
      · rw [hadj i i.2 j j.2] at k3
        exact absurd h1 k3
      · rw [hadj i i.2 j j.2] at k3
        exact absurd h1 k3
      · rw [h2, k2]
    unfold hopWeight
    rw [e, hx i i.2 j j.2, hy i i.2 j j.2]
  have hcomm : ∀ A : Op (F.nsites * F.nspecies) 2, Commute R A → A * R - R * A = 0 :=
    fun A hA => sub_eq_zero.2 hA.eq.symm
  have hH : (hubInter (fun i => F.us i) + hubRest F) * R - R * (hubInter (fun i => F.us i) + hubRest F) =
      hubHop (fun i j s => F.ts i j s * hopWeight F i j) * R -
        R * hubHop (fun i j s => F.ts i j s * hopWeight F i j) := by
    unfold hubRest
    have c1 := hcomm _ (pot_inter (fun (i : Fin F.nsites) (_ : Fin F.nspecies) => ((r i : ℝ) : ℂ))
      (fun i => F.us i))
    have c2 := hcomm _ (pot_same (fun (i : Fin F.nsites) (_ : Fin F.nspecies) => ((r i : ℝ) : ℂ))
      (fun i j s => F.usSame i j s))
    have c3 := hcomm _ (pot_pot (fun (i : Fin F.nsites) (_ : Fin F.nspecies) => ((r i : ℝ) : ℂ))
      (fun i s => F.pots i s - F.mus s))
    rw [sub_eq_zero] at c1 c2 c3
    simp only [add_mul, mul_add, c1, c2, c3]
    abel
  rw [hH]
  unfold current hubHop
  rw [Finset.sum_mul, Finset.mul_sum, ← Finset.sum_sub_distrib, sum_pairs]
  · refine Finset.sum_congr rfl fun i _ => ?_
    rw [Finset.sum_mul, Finset.mul_sum, ← Finset.sum_sub_distrib]
    refine Finset.sum_congr rfl fun j _ => ?_
    rw [Finset.sum_mul, Finset.mul_sum, ← Finset.sum_sub_distrib]
    by_cases hij : j < i
    · rw [if_pos hij, ← Finset.sum_add_distrib]
      refine Finset.sum_congr rfl fun s _ => ?_
      rw [if_pos hij, hw i j s, hw j i s, hsymm i j s]
      have p1 := pot_hop (fun (i : Fin F.nsites) (_ : Fin F.nspecies) => ((r i : ℝ) : ℂ)) i j s
      have p2 := pot_hop (fun (i : Fin F.nsites) (_ : Fin F.nspecies) => ((r i : ℝ) : ℂ)) j i s
      rw [← hR] at p1 p2
      rw [neg_mul, mul_neg, smul_mul_assoc, mul_smul_comm, add_mul, mul_add, neg_sub_neg, ← smul_sub, add_sub_add_comm,
        ← neg_sub (create (mode i s) * annih (mode j s) * R), ← neg_sub (create (mode j s) * annih (mode i s) * R),
        p1, p2, neg_neg, neg_neg, smul_add, smul_smul, smul_smul]
    · rw [if_neg hij]
      symm
      refine Finset.sum_eq_zero fun s _ => ?_
      rw [if_neg hij, zero_mul, mul_zero, sub_zero]
  · intro i
    refine Finset.sum_eq_zero fun s _ => ?_
    rw [hw i i s, sub_self, mul_zero, zero_smul]

/-- C100 (what holds once `tx` and `ty` have been assigned): if the adjacent sites of an open cluster are one unit apart
along x or along y and the hopping amplitude is `tx` on the former, `ty` on the latter and zero between sites that are
not adjacent, the current operator along `(dx, dy)` is the time derivative `i [H, R]` of the position
`R = Σ (dx x_i + dy y_i) n_{is}`, where `H` is the complete Hamiltonian, with interactions and potentials. Missing for
the full claim: an instance as it is constructed has no attributes `tx` and `ty`. -/
theorem C100_velocity_partial (F : Fermions) (h : InterOk F) (adj : ℕ → ℕ → ℝ) (x y : ℕ → ℝ) (tx ty : ℂ) (dx dy : ℝ)
    (hx : ∀ i < F.nsites, ∀ j < F.nsites, F.xdist i j = x i - x j)
    (hy : ∀ i < F.nsites, ∀ j < F.nsites, F.ydist i j = y i - y j)
    (hadj : ∀ i < F.nsites, ∀ j < F.nsites, adj j i = adj i j)
    (hbond : ∀ i < F.nsites, ∀ j < F.nsites, ∀ s < F.nspecies,
      (|x i - x j| = 1 ∧ y i = y j ∧ adj i j ≠ 0 ∧ F.ts i j s = tx) ∨
      (x i = x j ∧ |y i - y j| = 1 ∧ adj i j ≠ 0 ∧ F.ts i j s = ty) ∨ (adj i j = 0 ∧ F.ts i j s = 0)) :
    ∃ (v : Val) (J H : Op (F.nsites * F.nspecies) 2), F.currentOp adj (some (tx, ty)) dx dy = .ok v ∧ IsOp v J ∧
      Gives (F.createH none) H ∧
      J = Complex.I • (H * hubPot (fun i _ => ((dx * x i + dy * y i : ℝ) : ℂ)) -
        hubPot (fun i _ => ((dx * x i + dy * y i : ℝ) : ℂ)) * H) := by
  obtain ⟨v, hv, hJ⟩ := current_velocity F adj (fun i => dx * x i + dy * y i) tx ty dx dy
    (fun i hi j hj => by rw [hx i hi j hj, hx j hj i hi, abs_sub_comm])
    (fun i hi j hj => by rw [hy i hi j hj, hy j hj i hi, abs_sub_comm]) hadj (fun i hi j hj s hs => by
      rw [hx i hi j hj, hy i hi j hj]
      rcases hbond i hi j hj s hs with ⟨h1, h2, h3, h4⟩ | ⟨h1, h2, h3, h4⟩ | h1
      · exact Or.inl ⟨h1, by rw [h2, sub_self], h3, h4, by rw [h2]; ring⟩
      · exact Or.inr (Or.inl ⟨by rw [h1, sub_self], h2, h3, h4, by rw [h1]; ring⟩)
      · exact Or.inr (Or.inr h1))
  exact ⟨v, _, _, hv, hJ, createH_gives h, rfl⟩

/-- An L-shaped cluster of three sites with an interaction and hopping amplitudes `2` and `3` meets the hypotheses. -/
example : ∃ (F : Fermions) (adj : ℕ → ℕ → ℝ) (v : Val) (J H : Op (F.nsites * F.nspecies) 2), F.nsites = 3 ∧
    F.nspecies = 2 ∧ F.us 0 = 5 ∧ F.currentOp adj (some (2, 3)) 1 1 = .ok v ∧ IsOp v J ∧ Gives (F.createH none) H ∧
    J = Complex.I • (H * hubPot (fun i _ => (((1 : ℝ) * ((if (i : ℕ) = 1 then 1 else 0 : ℝ)) +
        1 * (if (i : ℕ) = 2 then 1 else 0 : ℝ) : ℝ) : ℂ)) -
      hubPot (fun i _ => (((1 : ℝ) * ((if (i : ℕ) = 1 then 1 else 0 : ℝ)) +
        1 * (if (i : ℕ) = 2 then 1 else 0 : ℝ) : ℝ) : ℂ)) * H) := by
  let x : ℕ → ℝ := fun i => if i = 1 then 1 else 0
  let y : ℕ → ℝ := fun i => if i = 2 then 1 else 0
  let t : ℕ → ℕ → ℝ := fun i j => if (i = 0 ∧ j = 1) ∨ (i = 1 ∧ j = 0) then 2 else
    if (i = 0 ∧ j = 2) ∨ (i = 2 ∧ j = 0) then 3 else 0
  let F : Fermions := ⟨3, 2, fun i j _ => t i j, fun _ => 5, fun _ _ _ => 0, fun _ => 0, fun _ _ => 0,
    fun i j => x i - x j, fun i j => y i - y j⟩
  obtain ⟨v, J, H, h1, h2, h3, h4⟩ := C100_velocity_partial F (Or.inl le_rfl) t x y 2 3 1 1 (fun _ _ _ _ => rfl)
    (fun _ _ _ _ => rfl)
    (fun i hi j hj => by
      simp only [F] at hi hj
      interval_cases i <;> interval_cases j <;> simp [t])
    (fun i hi j hj s hs => by
      simp only [F] at hi hj
      interval_cases i <;> interval_cases j <;> simp [t, x, y, F])
  exact ⟨F, t, v, J, H, rfl, rfl, rfl, h1, h2, h3, h4⟩

end ED.Props
