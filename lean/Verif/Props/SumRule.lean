import Verif.Model.SumRule
import Verif.Spec.SumRule
import Verif.Props.Current
import Verif.Props.Response
import Verif.Props.Thermo
import Verif.Props.Multiplets

/-! # Property C126: the sum rule of the conductivity -/

namespace ED.Props

open Matrix

/-- The commutator of a position with its commutator with a hopping operator. -/
theorem hop_double {a b : ℕ} (T : Fin a → Fin a → Fin b → ℂ) (V : Fin a → Fin b → ℂ) :
    hubPot V * (hubHop T * hubPot V - hubPot V * hubHop T) - (hubHop T * hubPot V - hubPot V * hubHop T) * hubPot V =
      -hubHop fun i j s => T i j s * (V i s - V j s) ^ 2 := by
  have h1 : hubHop T * hubPot V - hubPot V * hubHop T = ∑ i, ∑ j, ∑ s, if j < i then
      T i j s • ((V i s - V j s) • (create (mode i s) * annih (mode j s)) -
        (V i s - V j s) • (create (mode j s) * annih (mode i s))) else 0 := by
    unfold hubHop
    rw [Finset.sum_mul, Finset.mul_sum, ← Finset.sum_sub_distrib]
    refine Finset.sum_congr rfl fun i _ => ?_
    rw [Finset.sum_mul, Finset.mul_sum, ← Finset.sum_sub_distrib]
    refine Finset.sum_congr rfl fun j _ => ?_
    rw [Finset.sum_mul, Finset.mul_sum, ← Finset.sum_sub_distrib]
    refine Finset.sum_congr rfl fun s _ => ?_
    split_ifs
    · have p1 := pot_hop V i j s
      have p2 := pot_hop V j i s
      rw [sub_eq_iff_eq_add] at p1 p2
      rw [neg_mul, smul_mul_assoc, add_mul, p1, p2, mul_neg, mul_smul_comm, mul_add]
      module
    · rw [zero_mul, mul_zero, sub_zero]
  rw [h1]
  unfold hubHop
  rw [Finset.sum_mul, Finset.mul_sum, ← Finset.sum_sub_distrib, ← Finset.sum_neg_distrib]
  refine Finset.sum_congr rfl fun i _ => ?_
  rw [Finset.sum_mul, Finset.mul_sum, ← Finset.sum_sub_distrib, ← Finset.sum_neg_distrib]
  refine Finset.sum_congr rfl fun j _ => ?_
  rw [Finset.sum_mul, Finset.mul_sum, ← Finset.sum_sub_distrib, ← Finset.sum_neg_distrib]
  refine Finset.sum_congr rfl fun s _ => ?_
  split_ifs
  · have p1 := pot_hop V i j s
    have p2 := pot_hop V j i s
    rw [sub_eq_iff_eq_add] at p1 p2
    rw [smul_mul_assoc, sub_mul, smul_mul_assoc, smul_mul_assoc, p1, p2, mul_smul_comm, mul_sub, mul_smul_comm,
      mul_smul_comm]
    module
  · rw [zero_mul, mul_zero, sub_zero, neg_zero]

/-- The commutators of a position with the complete Hamiltonian. -/
theorem hub_double (F : Fermions) (r : ℕ → ℝ) {R : Op (F.nsites * F.nspecies) 2}
    (hR : R = hubPot (fun i _ => ((r i : ℝ) : ℂ))) :
    R * (hubH F * R - R * hubH F) - (hubH F * R - R * hubH F) * R =
      -hubHop fun i j s => F.ts i j s * hopWeight F i j * (((r i : ℝ) : ℂ) - ((r j : ℝ) : ℂ)) ^ 2 := by
  have hcomm : ∀ A : Op (F.nsites * F.nspecies) 2, Commute R A → A * R - R * A = 0 :=
    fun A hA => sub_eq_zero.2 hA.eq.symm
  have hH : hubH F * R - R * hubH F = hubHop (fun i j s => F.ts i j s * hopWeight F i j) * R -
        R * hubHop (fun i j s => F.ts i j s * hopWeight F i j) := by
    unfold hubH hubRest
    have c1 := hcomm _ (hR ▸ pot_inter (fun (i : Fin F.nsites) (_ : Fin F.nspecies) => ((r i : ℝ) : ℂ)) (fun i => F.us i))
    have c2 := hcomm _ (hR ▸ pot_same (fun (i : Fin F.nsites) (_ : Fin F.nspecies) => ((r i : ℝ) : ℂ))
      (fun i j s => F.usSame i j s))
    have c3 := hcomm _ (hR ▸ pot_pot (fun (i : Fin F.nsites) (_ : Fin F.nspecies) => ((r i : ℝ) : ℂ))
      (fun i s => F.pots i s - F.mus s))
    rw [sub_eq_zero] at c1 c2 c3
    simp only [add_mul, mul_add, c1, c2, c3]
    abel
  rw [hH, hR]
  exact hop_double _ _

section
variable {ι : Type} [Fintype ι] [DecidableEq ι] {m : ℕ}

/-- The squares of the matrix elements of a position. -/
private noncomputable def sq (V : Matrix ι (Fin (m + 1)) ℂ) (R : Matrix ι ι ℂ) (i j : Fin (m + 1)) : ℝ :=
  ‖(Vᴴ * (R * V)) i j‖ ^ 2

variable {H R : Matrix ι ι ℂ} {V : Matrix ι (Fin (m + 1)) ℂ} {E : Fin (m + 1) → ℝ}

private theorem sq_symm (hR : Rᴴ = R) (i j : Fin (m + 1)) : sq V R i j = sq V R j i := by
  have : (Vᴴ * (R * V))ᴴ = Vᴴ * (R * V) := by
    rw [conjTranspose_mul, conjTranspose_mul, conjTranspose_conjTranspose, hR, Matrix.mul_assoc]
  unfold sq
  rw [← this, conjTranspose_apply, norm_star, this]

private theorem comm_elems (h1 : Vᴴ * V = 1) (h2 : V * Vᴴ = 1) (hH : Hᴴ = H)
    (h3 : H * V = V * diagonal fun k => (E k : ℂ)) (i j : Fin (m + 1)) :
    (Vᴴ * ((H * R - R * H) * V)) i j = ((E i - E j : ℝ) : ℂ) * (Vᴴ * (R * V)) i j := by
  have h4 : Vᴴ * H = diagonal (fun k => (E k : ℂ)) * Vᴴ := by
    have := congrArg conjTranspose h3
    rw [conjTranspose_mul, conjTranspose_mul, hH, diagonal_conjTranspose] at this
    rw [this]
    congr 2
    funext k
    exact Complex.conj_ofReal _
  have e : Vᴴ * ((H * R - R * H) * V) = diagonal (fun k => (E k : ℂ)) * (Vᴴ * (R * V)) -
      (Vᴴ * (R * V)) * diagonal (fun k => (E k : ℂ)) := by
    rw [Matrix.sub_mul, Matrix.mul_sub]
    congr 1
    · rw [Matrix.mul_assoc H, ← Matrix.mul_assoc Vᴴ, h4, Matrix.mul_assoc]
    · rw [Matrix.mul_assoc R, h3, Matrix.mul_assoc, Matrix.mul_assoc]
  rw [e, Matrix.sub_apply, diagonal_mul, mul_diagonal]
  push_cast
  ring

private theorem current_elems (h1 : Vᴴ * V = 1) (h2 : V * Vᴴ = 1) (hH : Hᴴ = H)
    (h3 : H * V = V * diagonal fun k => (E k : ℂ)) (i j : Fin (m + 1)) :
    ‖(Vᴴ * ((Complex.I • (H * R - R * H)) * V)) i j‖ ^ 2 = (E i - E j) ^ 2 * sq V R i j := by
  rw [Matrix.smul_mul, Matrix.mul_smul, Matrix.smul_apply, comm_elems h1 h2 hH h3, smul_eq_mul, norm_mul, norm_mul,
    Complex.norm_I, one_mul, mul_pow, Complex.norm_real, Real.norm_eq_abs, sq_abs]
  rfl

private theorem kinetic_elems (h1 : Vᴴ * V = 1) (h2 : V * Vᴴ = 1) (hH : Hᴴ = H) (hR : Rᴴ = R)
    (h3 : H * V = V * diagonal fun k => (E k : ℂ)) (k : Fin (m + 1)) :
    (expect (-(R * (H * R - R * H) - (H * R - R * H) * R)) (colOf V k)).re = -2 * ∑ i, (E i - E k) * sq V R i k := by
  have hins : ∀ A B : Matrix ι ι ℂ, Vᴴ * (A * B * V) = (Vᴴ * (A * V)) * (Vᴴ * (B * V)) := by
    intro A B
    calc Vᴴ * (A * B * V) = Vᴴ * (A * 1 * (B * V)) := by rw [Matrix.mul_one, Matrix.mul_assoc]
      _ = _ := by rw [← h2]; simp only [Matrix.mul_assoc]
  have hherm : ∀ i j, (Vᴴ * (R * V)) i j = star ((Vᴴ * (R * V)) j i) := by
    intro i j
    rw [← conjTranspose_apply, conjTranspose_mul, conjTranspose_mul, conjTranspose_conjTranspose, hR, Matrix.mul_assoc]
  rw [expect_eq, Matrix.neg_mul, Matrix.mul_neg, Matrix.sub_mul, Matrix.mul_sub, hins, hins, Matrix.neg_apply,
    Matrix.sub_apply, Matrix.mul_apply, Matrix.mul_apply, ← Finset.sum_sub_distrib]
  have : ∀ i, (Vᴴ * (R * V)) k i * (Vᴴ * ((H * R - R * H) * V)) i k - (Vᴴ * ((H * R - R * H) * V)) k i * (Vᴴ * (R * V)) i k =
      ((2 * ((E i - E k) * sq V R i k) : ℝ) : ℂ) := by
    intro i
    rw [comm_elems h1 h2 hH h3, comm_elems h1 h2 hH h3]
    have e : (Vᴴ * (R * V)) k i * (Vᴴ * (R * V)) i k = ((sq V R i k : ℝ) : ℂ) := by
      rw [hherm k i]
      unfold sq
      push_cast
      rw [← Complex.conj_mul']
      rfl
    push_cast
    rw [← e]
    push_cast
    ring
  rw [Finset.sum_congr rfl fun i _ => this i, ← Complex.ofReal_sum, Complex.neg_re, Complex.ofReal_re, ← Finset.mul_sum]
  ring

/-- The sum rule for a Hamiltonian `H`, a position `R`, the current `i [H, R]` and the kinetic energy `-[R, [H, R]]`. -/
theorem sum_rule [Basis ι] {J K M : Mat} (h1 : Vᴴ * V = 1) (h2 : V * Vᴴ = 1) (hH : Hᴴ = H) (hR : Rᴴ = R)
    (h3 : H * V = V * diagonal fun k => (E k : ℂ)) (hM : M.Is V) (hJ : J.Is (Complex.I • (H * R - R * H)))
    (hK : K.Is (-(R * (H * R - R * H) - (H * R - R * H) * R))) (n : ℕ) (T : ℝ) :
    ∃ jm kin int, getMatrixElems M J = .ok jm ∧ expValsThermal M K (List.ofFn E) T = .ok kin ∧
      integrateConductivity n jm (List.ofFn E) T = .ok int ∧
      (T ≠ 0 ∨ UniqueGround (List.ofFn E) → int = -(Real.pi / n) * kin) := by
  obtain ⟨jm, hjm, hjmi⟩ := (C18_matrix_elements hM hJ).1
  have hkin := expValsThermal_is hM hK E T
  simp only [kinetic_elems h1 h2 hH hR h3] at hkin
  by_cases hT : T = 0
  · subst hT
    refine ⟨jm, _, _, hjm, hkin, integral_zero hjmi n E, fun hu => ?_⟩
    have hu : UniqueGround (List.ofFn E) := hu.resolve_left (by simp)
    have hwt : ∀ k, wt 0 E k = if k = 0 then 1 else 0 := by
      have hlow : nLow E = 1 := by
        unfold nLow
        rw [Finset.card_eq_one]
        refine ⟨0, ?_⟩
        ext k
        simp only [Finset.mem_filter, Finset.mem_univ, true_and, Finset.mem_singleton]
        constructor
        · intro hk
          by_contra hne
          have h0 : 0 < (k : ℕ) := Nat.pos_of_ne_zero fun h => hne (Fin.ext h)
          have := hu k h0 (by rw [List.length_ofFn]; exact k.2)
          rw [getD_ofFn E k, show (List.ofFn E).getD 0 0 = E 0 from getD_ofFn E 0] at this
          have h5 := (abs_le.1 hk).2
          have h6 : E 0 + 1 / 2 * (1 / 10 ^ 13 : ℝ) < E k := this
          linarith
        · rintro rfl
          simp
      intro k
      unfold wt
      rw [if_pos rfl, hlow]
      refine if_congr ?_ rfl rfl
      rw [Fin.ext_iff, Nat.lt_one_iff]
      rfl
    simp only [hwt, ite_mul, one_mul, zero_mul, Finset.sum_ite_eq', Finset.mem_univ, if_true]
    simp only [current_elems h1 h2 hH h3]
    rw [div_one]
    have e : ∀ i, (E i - E 0) ^ 2 * sq V R i 0 * (if E i - E 0 = 0 then 0 else 1 / (E i - E 0)) = (E i - E 0) * sq V R i 0 := by
      intro i
      split_ifs with h
      · rw [h]; ring
      · field_simp
    rw [Finset.sum_congr rfl fun i _ => e i]
    ring
  · refine ⟨jm, _, _, hjm, hkin, integral_pos hjmi n E hT, fun _ => ?_⟩
    simp only [current_elems h1 h2 hH h3, wt, hT, if_false]
    set w : Fin (m + 1) → ℝ := fun k => Real.exp (-(1 / T) * (E k - E 0)) with hw
    have e : ∀ i j, (E i - E j) ^ 2 * sq V R i j * Real.exp (-(1 / T) * (E j - E 0)) *
        (if E i - E j = 0 then 0 else (1 - Real.exp (-(1 / T) * (E i - E j))) / (E i - E j)) =
        (E i - E j) * sq V R i j * w j - (E i - E j) * sq V R i j * w i := by
      intro i j
      have h5 : w j * Real.exp (-(1 / T) * (E i - E j)) = w i := by
        rw [hw]
        simp only
        rw [← Real.exp_add]
        congr 1
        ring
      split_ifs with h
      · rw [h]; ring
      · rw [← h5]
        simp only [hw]
        field_simp
    have hsum : ∑ i, ∑ j, (E i - E j) * sq V R i j * w i = -∑ i, ∑ j, (E i - E j) * sq V R i j * w j := by
      rw [Finset.sum_comm, ← Finset.sum_neg_distrib]
      refine Finset.sum_congr rfl fun i _ => ?_
      rw [← Finset.sum_neg_distrib]
      refine Finset.sum_congr rfl fun j _ => ?_
      rw [sq_symm hR j i]
      ring
    simp only [e, Finset.sum_sub_distrib, hsum]
    have hk : ∑ k, w k * (-2 * ∑ i, (E i - E k) * sq V R i k) = -2 * ∑ i, ∑ j, (E i - E j) * sq V R i j * w j := by
      rw [Finset.sum_comm, Finset.mul_sum]
      refine Finset.sum_congr rfl fun k _ => ?_
      rw [Finset.mul_sum, Finset.mul_sum, Finset.mul_sum]
      refine Finset.sum_congr rfl fun i _ => ?_
      ring
    change Real.pi / (∑ k, w k) / n * _ = -(Real.pi / n) * ((∑ k, w k * _) / ∑ k, w k)
    rw [hk]
    ring

/-- C126 at temperature zero: whether or not there are several ground states, the integrated conductivity is `-π/N` times the
kinetic energy of the first eigenvector. -/
theorem C126_first_state [Basis ι] {J K M : Mat} (h1 : Vᴴ * V = 1) (h2 : V * Vᴴ = 1) (hH : Hᴴ = H) (hR : Rᴴ = R)
    (h3 : H * V = V * diagonal fun k => (E k : ℂ)) (hM : M.Is V) (hJ : J.Is (Complex.I • (H * R - R * H)))
    (hK : K.Is (-(R * (H * R - R * H) - (H * R - R * H) * R))) (n : ℕ) :
    ∃ jm ev int, getMatrixElems M J = .ok jm ∧ getExpVals M K = .ok ev ∧
      integrateConductivity n jm (List.ofFn E) 0 = .ok int ∧ int = -(Real.pi / n) * ev.getD 0 0 := by
  obtain ⟨jm, hjm, hjmi⟩ := (C18_matrix_elements hM hJ).1
  refine ⟨jm, _, _, hjm, getExpVals_is hM hK, integral_zero hjmi n E, ?_⟩
  have e0 : (List.ofFn fun k => (expect (-(R * (H * R - R * H) - (H * R - R * H) * R)) (colOf V k)).re).getD 0 0 =
    (expect (-(R * (H * R - R * H) - (H * R - R * H) * R)) (colOf V 0)).re := getD_ofFn _ 0
  rw [e0, kinetic_elems h1 h2 hH hR h3]
  simp only [current_elems h1 h2 hH h3]
  have e : ∀ i, (E i - E 0) ^ 2 * sq V R i 0 * (if E i - E 0 = 0 then 0 else 1 / (E i - E 0)) = (E i - E 0) * sq V R i 0 := by
    intro i
    split_ifs with h
    · rw [h]; ring
    · field_simp
  rw [Finset.sum_congr rfl fun i _ => e i]
  ring

/-- C126 fails at temperature zero if the ground state is degenerate: the kinetic energy is averaged over all ground states
but the conductivity is computed for the first one only. Here are two ground states and one excited state, and the position
connects the excited state to the second ground state. -/
theorem C126_degenerate_violated (n : ℕ) (hn : 0 < n) : ∃ (H R : Matrix (Fin 3) (Fin 3) ℂ) (E : Fin 3 → ℝ) (M J K jm : Mat) (kin int : ℝ),
    Hᴴ = H ∧ Rᴴ = R ∧ H = diagonal (fun k => (E k : ℂ)) ∧ Monotone E ∧ M.Is (1 : Matrix (Fin 3) (Fin 3) ℂ) ∧
      J.Is (Complex.I • (H * R - R * H)) ∧ K.Is (-(R * (H * R - R * H) - (H * R - R * H) * R)) ∧
      getMatrixElems M J = .ok jm ∧ expValsThermal M K (List.ofFn E) 0 = .ok kin ∧
      integrateConductivity n jm (List.ofFn E) 0 = .ok int ∧ kin = -1 ∧ int = 0 ∧ int ≠ -(Real.pi / n) * kin := by
  let E : Fin 3 → ℝ := ![0, 0, 1]
  let H : Matrix (Fin 3) (Fin 3) ℂ := diagonal fun k => (E k : ℂ)
  let R : Matrix (Fin 3) (Fin 3) ℂ := !![0, 0, 0; 0, 0, 1; 0, 1, 0]
  have hH : Hᴴ = H := by
    simp only [H, diagonal_conjTranspose]
    congr 1
    funext k
    exact Complex.conj_ofReal _
  have hR : Rᴴ = R := by
    ext i j
    fin_cases i <;> fin_cases j <;> simp [R, conjTranspose_apply]
  have h1 : (1 : Matrix (Fin 3) (Fin 3) ℂ)ᴴ * 1 = 1 := by simp
  have h3 : H * (1 : Matrix (Fin 3) (Fin 3) ℂ) = 1 * diagonal fun k => (E k : ℂ) := by rw [Matrix.mul_one, Matrix.one_mul]
  have hsq : ∀ i j, sq (m := 2) (1 : Matrix (Fin 3) (Fin 3) ℂ) R i j = ‖R i j‖ ^ 2 := by
    intro i j
    unfold sq
    rw [conjTranspose_one, Matrix.one_mul, Matrix.mul_one]
  have hex : ∀ X : Matrix (Fin 3) (Fin 3) ℂ, ∃ A : Mat, A.Is X := fun X =>
    ⟨⟨3, 3, fun i j => if h : i < 3 ∧ j < 3 then X ⟨i, h.1⟩ ⟨j, h.2⟩ else 0⟩, by simp, by simp, fun i j => dif_pos ⟨i.2, j.2⟩⟩
  obtain ⟨J, hJ⟩ := hex (Complex.I • (H * R - R * H))
  obtain ⟨K, hK⟩ := hex (-(R * (H * R - R * H) - (H * R - R * H) * R))
  have E0 : E (0 : Fin (2 + 1)) = 0 := rfl
  have E1 : E (1 : Fin (2 + 1)) = 0 := rfl
  have E2 : E (2 : Fin (2 + 1)) = 1 := rfl
  have R00 : R (0 : Fin (2 + 1)) (0 : Fin (2 + 1)) = 0 := rfl
  have R10 : R (1 : Fin (2 + 1)) (0 : Fin (2 + 1)) = 0 := rfl
  have R20 : R (2 : Fin (2 + 1)) (0 : Fin (2 + 1)) = 0 := rfl
  have R21 : R (2 : Fin (2 + 1)) (1 : Fin (2 + 1)) = 1 := rfl
  have e3 : ∀ f : Fin (2 + 1) → ℝ, ∑ k, f k = f 0 + f 1 + f 2 := Fin.sum_univ_three
  have hM : (Mat.eye 3).Is (1 : Matrix (Fin 3) (Fin 3) ℂ) := Mat.is_eye (by simp)
  obtain ⟨jm, hjm, hjmi⟩ := (C18_matrix_elements hM hJ).1
  have hkin := expValsThermal_is (m := 2) hM hK E 0
  have hint := integral_zero (m := 2) hjmi n E
  have hlow : nLow (m := 2) E = 2 := by
    unfold nLow
    have : (Finset.univ.filter fun k : Fin 3 => |E k - E 0| ≤ 1 / 2 * (1 / 10 ^ 13 : ℝ)) = {0, 1} := by
      ext k
      fin_cases k <;> simp [E]
      norm_num
    rw [this]
    rfl
  have hkv : (∑ k, wt (m := 2) 0 E k * (expect (-(R * (H * R - R * H) - (H * R - R * H) * R)) (colOf 1 k)).re) /
      (∑ k, wt (m := 2) 0 E k) = -1 := by
    simp only [kinetic_elems (m := 2) (V := 1) (E := E) h1 (by simp) hH hR h3, hsq, wt, hlow, e3, E0, E1, E2, R00, R20, R21]
    norm_num
  have hiv : 2 * (Real.pi / n * ∑ i : Fin (2 + 1), ‖((1 : Matrix (Fin 3) (Fin 3) ℂ)ᴴ * ((Complex.I • (H * R - R * H)) * (1 : Matrix (Fin 3) (Fin 3) ℂ)) : Matrix (Fin 3) (Fin 3) ℂ) i 0‖ ^ 2 *
      (if E i - E 0 = 0 then 0 else 1 / (E i - E 0))) = 0 := by
    simp only [current_elems (m := 2) (V := 1) (E := E) h1 (by simp) hH h3, hsq, e3, E0, E1, E2, R00, R10, R20]
    norm_num
  rw [hkv] at hkin
  rw [hiv] at hint
  refine ⟨H, R, E, _, J, K, jm, -1, 0, hH, hR, rfl, ?_, hM, hJ, hK, hjm, hkin, hint, rfl, rfl, ?_⟩
  · intro i j hij
    fin_cases i <;> fin_cases j <;> simp [E] at hij ⊢
  · have : 0 < Real.pi / n := div_pos Real.pi_pos (by exact_mod_cast hn)
    linarith

end

theorem hubH_herm (F : Fermions) (h : InterOk F) (hr : RealParams F) : (hubH F)ᴴ = hubH F := by
  obtain ⟨H, hH, hiff⟩ := C25_hermitian_iff F h hr.us hr.same hr.mus hr.pots
  have e : hubH F = H := gives_unique (createH_gives h) hH
  rw [e]
  exact hiff.2 fun i j s _ => Or.inl (hr.ts i j s)

/-- The position operator `Σ r_i n_{is}`. -/
noncomputable def position (F : Fermions) (r : ℕ → ℝ) : Op (F.nsites * F.nspecies) 2 :=
  hubPot (fun i _ => ((r i : ℝ) : ℂ))

theorem position_herm (F : Fermions) (r : ℕ → ℝ) : (position F r)ᴴ = position F r := by
  unfold position hubPot
  rw [conjTranspose_sum]
  refine Finset.sum_congr rfl fun i _ => ?_
  rw [conjTranspose_sum]
  refine Finset.sum_congr rfl fun s _ => ?_
  rw [conjTranspose_smul, number_star]
  congr 1
  exact Complex.conj_ofReal _

/-- The commutators of the position give the current and the kinetic energy. -/
theorem kinetic_double (F : Fermions) {adj : ℕ → ℕ → ℝ} {r : ℕ → ℝ} {tx ty : ℂ} {dx dy : ℝ}
    (ho : OpenAlong F adj r tx ty dx dy) (hdx : dx = 0 ∨ dx = 1) (hdy : dy = 0 ∨ dy = 1) :
    hubHop (fun i j s => F.ts i j s * (Real.sqrt ((dx * F.xdist i j) ^ 2 + (dy * F.ydist i j) ^ 2) : ℂ)) =
      -(position F r * (hubH F * position F r - position F r * hubH F) -
        (hubH F * position F r - position F r * hubH F) * position F r) := by
  rw [hub_double F r (R := position F r) rfl, neg_neg]
  congr 1
  funext i j s
  unfold hopWeight
  have habs : ∀ d : ℝ, d = 0 ∨ d = 1 → |d| = d ^ 2 := by rintro d (rfl | rfl) <;> simp
  rcases ho.bond i i.2 j j.2 s s.2 with ⟨h1, h2, -, h4, h5⟩ | ⟨h1, h2, -, h4, h5⟩ | ⟨-, h2⟩
  · have e : Real.sqrt ((dx * F.xdist i j) ^ 2 + (dy * F.ydist i j) ^ 2) = (r i - r j) ^ 2 := by
      rw [h2, mul_zero, zero_pow two_ne_zero, add_zero, Real.sqrt_sq_eq_abs, abs_mul, h1, mul_one, habs dx hdx, ← h5,
        mul_pow, ← sq_abs (F.xdist i j), h1, one_pow, mul_one]
    rw [e, h1, h2, abs_zero]
    push_cast
    ring
  · have e : Real.sqrt ((dx * F.xdist i j) ^ 2 + (dy * F.ydist i j) ^ 2) = (r i - r j) ^ 2 := by
      rw [h1, mul_zero, zero_pow two_ne_zero, zero_add, Real.sqrt_sq_eq_abs, abs_mul, h2, mul_one, habs dy hdy, ← h5,
        mul_pow, ← sq_abs (F.ydist i j), h2, one_pow, mul_one]
    rw [e, h1, h2, abs_zero]
    push_cast
    ring
  · rw [h2, zero_mul, zero_mul, zero_mul]

/-- Commutators within a sector that the position does not leave. -/
theorem sector_comm {α β : Type} [Fintype α] [Fintype β] [DecidableEq α] [DecidableEq β] {P : Matrix α β ℂ}
    {H R : Matrix β β ℂ} (hP : P * Pᴴ = 1) (hR : Pᴴ * P * R = R * (Pᴴ * P)) :
    P * (H * R - R * H) * Pᴴ = P * H * Pᴴ * (P * R * Pᴴ) - P * R * Pᴴ * (P * H * Pᴴ) := by
  have e1 : P * R * Pᴴ * P = P * R := by
    calc P * R * Pᴴ * P = P * (R * (Pᴴ * P)) := by simp only [Matrix.mul_assoc]
      _ = P * Pᴴ * (P * R) := by rw [← hR]; simp only [Matrix.mul_assoc]
      _ = P * R := by rw [hP, Matrix.one_mul]
  have e2 : Pᴴ * (P * R * Pᴴ) = R * Pᴴ := by
    calc Pᴴ * (P * R * Pᴴ) = (Pᴴ * P * R) * Pᴴ := by simp only [Matrix.mul_assoc]
      _ = R * (Pᴴ * (P * Pᴴ)) := by rw [hR]; simp only [Matrix.mul_assoc]
      _ = R * Pᴴ := by rw [hP, Matrix.mul_one]
  rw [Matrix.mul_sub, Matrix.sub_mul]
  congr 1
  · rw [Matrix.mul_assoc (P * H), e2]
    simp only [Matrix.mul_assoc]
  · rw [← Matrix.mul_assoc (P * R * Pᴴ), ← Matrix.mul_assoc (P * R * Pᴴ), e1]
    simp only [Matrix.mul_assoc]

/-- The current operator between states of fixed particle numbers. -/
theorem current_sandwich (F : Fermions) {adj : ℕ → ℕ → ℝ} {r : ℕ → ℝ} {tx ty : ℂ} {dx dy : ℝ}
    (ho : OpenAlong F adj r tx ty dx dy) {k : ℕ} {nP : Mat} {N : Matrix (Fin k) (Conf (F.nsites * F.nspecies) 2) ℂ}
    (hN : nP.Is N) : ∃ j cur, F.currentOp adj (some (tx, ty)) dx dy = .ok j ∧ sandwichVal nP j = .ok cur ∧
      cur.Is (N * (Complex.I • (hubH F * position F r - position F r * hubH F)) * Nᴴ) := by
  obtain ⟨j, hj, hji⟩ := current_velocity F adj r tx ty dx dy ho.xsymm ho.ysymm ho.adjsymm ho.bond
  change IsOp j (Complex.I • (hubH F * position F r - position F r * hubH F)) at hji
  rcases hji with ⟨rfl, h0⟩ | ⟨M, rfl, hM⟩
  · obtain ⟨c, hc, hci⟩ := (hN.smul 0).mul hN.dagger
    refine ⟨_, c, hj, hc, ?_⟩
    rw [h0]
    simpa using hci
  · obtain ⟨c, hc, hci⟩ := sandwich_gives hN hM 1
    exact ⟨_, c, hj, hc, by simpa using hci⟩

/-- The sum rule in one sector. -/
theorem sector_rule (S : EigSolvers) (hS : EigContract S) (F : Fermions) (h : InterOk F) (hr : RealParams F)
    {adj : ℕ → ℕ → ℝ} {r : ℕ → ℝ} {tx ty : ℂ} {dx dy : ℝ} (ho : OpenAlong F adj r tx ty dx dy)
    (hdx : dx = 0 ∨ dx = 1) (hdy : dy = 0 ∨ dy = 1) {k d : ℕ} {nP cur proj : Mat}
    {N : Matrix (Fin k) (Conf (F.nsites * F.nspecies) 2) ℂ} {Q : Matrix (Fin (d + 1)) (Fin k) ℂ} (hN : nP.Is N)
    (hQ : proj.Is Q) (hQQ : (Q * N) * (Q * N)ᴴ = 1)
    (hcomm : (Q * N)ᴴ * (Q * N) * position F r = position F r * ((Q * N)ᴴ * (Q * N)))
    (hcur : cur.Is (N * (Complex.I • (hubH F * position F r - position F r * hubH F)) * Nᴴ)) (T : ℝ) :
    ∃ (kin int : ℝ) (m : ℕ) (E : Fin (m + 1) → ℝ),
      sectorConductivity S F nP cur proj dx dy T = .ok (kin, int, List.ofFn E) ∧
      (T ≠ 0 ∨ UniqueGround (List.ofFn E) → int = -(Real.pi / F.nsites) * kin) := by
  obtain ⟨p, hp, hpi⟩ := hQ.mul hN
  obtain ⟨A, hA, hAi⟩ := createH_gives_proj (F := F) hpi h
  change A.Is ((Q * N) * hubH F * (Q * N)ᴴ) at hAi
  have hherm : ((Q * N) * hubH F * (Q * N)ᴴ)ᴴ = (Q * N) * hubH F * (Q * N)ᴴ :=
    isHermitian_mul_mul_conjTranspose (Q * N) (hubH_herm F h hr)
  have hherm' : ((Q * N) * position F r * (Q * N)ᴴ)ᴴ = (Q * N) * position F r * (Q * N)ᴴ :=
    isHermitian_mul_mul_conjTranspose (Q * N) (position_herm F r)
  obtain ⟨m, E, M, V, b1, b2, b3, b4, b5, b6⟩ := diagList_ok S hS hAi hherm
  obtain ⟨K, hK, hKi⟩ := kinetic_gives (F := F) hpi dx dy
  obtain ⟨J, hJ, hJi⟩ := sandwich_gives hQ hcur 1
  have sc := fun H => sector_comm (P := Q * N) (H := H) hQQ hcomm
  have hJi' : J.Is (Complex.I • ((Q * N) * hubH F * (Q * N)ᴴ * ((Q * N) * position F r * (Q * N)ᴴ) -
      (Q * N) * position F r * (Q * N)ᴴ * ((Q * N) * hubH F * (Q * N)ᴴ))) := by
    rw [← sc, ← Matrix.smul_mul, ← Matrix.mul_smul]
    convert hJi using 1
    rw [one_smul, conjTranspose_mul]
    simp only [Matrix.mul_assoc]
  rw [kinetic_double F ho hdx hdy, Matrix.mul_neg, Matrix.neg_mul,
    ← neg_sub ((hubH F * position F r - position F r * hubH F) * position F r), Matrix.mul_neg, Matrix.neg_mul, sc, sc,
    neg_sub] at hKi
  obtain ⟨jm, kin, int, c1, c2, c3, c4⟩ := sum_rule (E := E) b3 b4 hherm hherm' b5 b2 hJi' hKi F.nsites T
  refine ⟨kin, int, m, E, ?_, c4⟩
  unfold sectorConductivity
  rw [hp]
  change (F.createH (some p) >>= _) = _
  rw [hA]
  change (diagList S A >>= _) = _
  rw [b1]
  change (F.kineticOp p dx dy >>= _) = _
  rw [hK]
  change (sandwich 1 proj cur >>= _) = _
  rw [hJ]
  change (getMatrixElems M J >>= _) = _
  rw [c1]
  change (expValsThermal M K (List.ofFn E) T >>= _) = _
  rw [c2]
  change (integrateConductivity F.nsites jm (List.ofFn E) T >>= _) = _
  rw [c3]
  rfl

/-- C126 (what holds once `tx` and `ty` have been assigned): if the cluster is open along the direction of the current, the
integrated conductivity exhausts the sum rule: it is `-π/N` times the kinetic energy along this direction, in every
sector, at every temperature but zero, and at temperature zero in sectors with one ground state. So the Drude weight of the
script is zero. The Hamiltonian may have arbitrary real interactions, potentials and chemical potentials; `Q i` are the
projectors of the sectors of a symmetry that leaves the position unchanged. Missing for the full claim: an instance as it is
constructed has no attributes `tx` and `ty`; ground states that are degenerate, see `C126_degenerate_violated`. -/
theorem C126_sum_rule_partial (S : EigSolvers) (hS : EigContract S) (F : Fermions) (h : InterOk F) (hr : RealParams F)
    (adj : ℕ → ℕ → ℝ) (r : ℕ → ℝ) (tx ty : ℂ) (dx dy : ℝ) (ho : OpenAlong F adj r tx ty dx dy)
    (hdx : dx = 0 ∨ dx = 1) (hdy : dy = 0 ∨ dy = 1) {k q : ℕ} {d : Fin (q + 1) → ℕ} (nP : Mat) (projs : Fin (q + 1) → Mat)
    (N : Matrix (Fin k) (Conf (F.nsites * F.nspecies) 2) ℂ) (Q : ∀ i, Matrix (Fin (d i + 1)) (Fin k) ℂ) (hN : nP.Is N)
    (hQ : ∀ i, (projs i).Is (Q i)) (hQQ : ∀ i, (Q i * N) * (Q i * N)ᴴ = 1)
    (hcomm : ∀ i, (Q i * N)ᴴ * (Q i * N) * hubPot (fun i _ => ((r i : ℝ) : ℂ)) =
      hubPot (fun i _ => ((r i : ℝ) : ℂ)) * ((Q i * N)ᴴ * (Q i * N))) (T : ℝ) :
    ∃ (j : Val) (cur : Mat) (out : Fin (q + 1) → ℝ × ℝ × List ℝ) (kin int D : ℝ),
      F.currentOp adj (some (tx, ty)) dx dy = .ok j ∧ sandwichVal nP j = .ok cur ∧
      (∀ i, sectorConductivity S F nP cur (projs i) dx dy T = .ok (out i)) ∧
      drudeWeight S F adj (some (tx, ty)) nP (List.ofFn projs) dx dy T = .ok (kin, int, D) ∧
      (∀ i, T ≠ 0 ∨ UniqueGround (out i).2.2 → (out i).2.1 = -(Real.pi / F.nsites) * (out i).1) ∧
      ((T ≠ 0 ∨ ∀ i, UniqueGround (out i).2.2) → int = -(Real.pi / F.nsites) * kin ∧ D = 0) := by
  obtain ⟨j, cur, hj, hcur, hcuri⟩ := current_sandwich F ho hN
  choose kin int m E h1 h2 using fun i => sector_rule S hS F h hr ho hdx hdy hN (hQ i) (hQQ i) (hcomm i) hcuri T
  obtain ⟨i₀, k₀, -, hz⟩ := partition_is E T
  set z : Fin (q + 1) → ℝ := fun i => ∑ k, wtS T (E i₀ k₀) (E i k) with hzz
  have hcomb : ∀ f : Fin (q + 1) → ℝ, thermalAvgCombine (List.ofFn f) (List.ofFn fun i => List.ofFn (E i)) T =
      .ok ((∑ i, f i * z i) / ∑ i, z i) := by
    intro f
    unfold thermalAvgCombine
    rw [hz]
    change (npMul1 _ _ >>= _) = _
    have : npMul1 (List.ofFn f) (List.ofFn z) = .ok (List.ofFn fun i => f i * z i) := by
      unfold npMul1
      rw [if_pos (by simp), zipWith_ofFn]
      rfl
    rw [this]
    change Except.ok _ = _
    simp only [List.sum_ofFn]
  refine ⟨j, cur, fun i => (kin i, int i, List.ofFn (E i)), (∑ i, kin i * z i) / ∑ i, z i, (∑ i, int i * z i) / ∑ i, z i,
    -Real.pi * ((∑ i, kin i * z i) / ∑ i, z i) / F.nsites - (∑ i, int i * z i) / ∑ i, z i, hj, hcur, h1, ?_, h2, fun hT => ?_⟩
  · unfold drudeWeight
    rw [hj]
    change (sandwichVal nP j >>= _) = _
    rw [hcur]
    change ((List.ofFn projs).mapM (fun proj => sectorConductivity S F nP cur proj dx dy T) >>= _) = _
    rw [mapM_ofFn _ _ _ h1]
    change (thermalAvgCombine ((List.ofFn _).map _) ((List.ofFn _).map _) T >>= _) = _
    rw [List.map_ofFn, List.map_ofFn]
    change (thermalAvgCombine (List.ofFn kin) (List.ofFn fun i => List.ofFn (E i)) T >>= _) = _
    rw [hcomb]
    change (thermalAvgCombine ((List.ofFn _).map _) (List.ofFn _) T >>= _) = _
    rw [List.map_ofFn]
    change (thermalAvgCombine (List.ofFn int) (List.ofFn fun i => List.ofFn (E i)) T >>= _) = _
    rw [hcomb]
    rfl
  · have e : ∑ i, int i * z i = -(Real.pi / F.nsites) * ∑ i, kin i * z i := by
      rw [Finset.mul_sum]
      refine Finset.sum_congr rfl fun i _ => ?_
      rw [h2 i (hT.imp_right fun hu => hu i)]
      ring
    rw [e]
    constructor
    · ring
    · ring

/-- Selecting basis states does not interfere with positions. -/
theorem select_position {n b : ℕ} {d : ℕ} (sel : Fin (d + 1) → Conf (n * b) 2) (hinj : Function.Injective sel)
    (V : Fin n → Fin b → ℂ) {N : Matrix (Fin (d + 1)) (Conf (n * b) 2) ℂ}
    (hN : N = Matrix.of fun r t => if t = sel r then (1 : ℂ) else 0) :
    N * Nᴴ = 1 ∧ Nᴴ * N * hubPot V = hubPot V * (Nᴴ * N) := by
  constructor
  · have := select_conj sel (1 : Op (n * b) 2)
    rw [Matrix.mul_one] at this
    rw [hN, this]
    ext i j
    rw [submatrix_apply, Matrix.one_apply, Matrix.one_apply]
    exact if_congr hinj.eq_iff rfl rfl
  · have hd : (hubPot V : Op (n * b) 2) = diagonal fun t => ∑ i, ∑ s, if t (mode i s) = 1 then V i s else 0 := by
      ext t t'
      rw [hubPot, Matrix.sum_apply, diagonal_apply]
      simp only [Matrix.sum_apply, Matrix.smul_apply, number, diagonal_apply, smul_eq_mul, mul_ite, mul_zero]
      by_cases h : t = t'
      · simp [h]
      · simp [h]
    rw [hd]
    ext t t'
    rw [mul_diagonal, diagonal_mul]
    by_cases h : t = t'
    · rw [h, mul_comm]
    · have : (Nᴴ * N) t t' = 0 := by
        rw [Matrix.mul_apply]
        refine Finset.sum_eq_zero fun r _ => ?_
        rw [conjTranspose_apply, hN, Matrix.of_apply, Matrix.of_apply]
        by_cases h1 : t = sel r
        · rw [if_neg (show ¬ t' = sel r from fun h2 => h (h1.trans h2.symm)), mul_zero]
        · rw [if_neg h1, star_zero, zero_mul]
      rw [this, zero_mul, mul_zero]

open Geometry in
/-- C126 (what holds once `tx` and `ty` have been assigned), for the models that the constructors make: on every rectangle
that is open along x and open or periodic along y, with arbitrary parameters, the Drude weight along x of the states with
given numbers of particles is zero at every temperature but zero. -/
theorem C126_lattice_partial (S : EigSolvers) (hS : EigContract S) (nx ny : ℕ) (hx : 0 < nx) (hy : 0 < ny)
    (harea : nx * ny < 10 ^ 14) (o2 : Bool) (h2 : ny = 1 → o2 = true) (u t w v : ℝ) (mus : ℕ → ℝ) (k m : ℕ)
    (hk : k ≤ nx * ny) (hm : m ≤ nx * ny) (T : ℝ) (hT : T ≠ 0) :
    ∃ g F nP kin int, createSquare nx ny 0 0 true o2 = .ok g ∧
      fermionModel g ⟨[], fun _ => (u : ℂ)⟩ ⟨[], fun _ => (t : ℂ)⟩ ⟨[2], fun idx => (mus (idx.getD 0 0) : ℂ)⟩
        ⟨[], fun _ => (w : ℂ)⟩ ⟨[], fun _ => (v : ℂ)⟩ 2 = .ok F ∧
      F.nProjector (some [some (k : ℤ), some (m : ℤ)]) = .ok nP ∧
      drudeWeight S F g.adjacency.e (some ((t : ℂ), (t : ℂ))) nP [Mat.eye nP.rows] 1 0 T = .ok (kin, int, 0) ∧
      int = -(Real.pi / (nx * ny : ℕ)) * kin := by
  obtain ⟨g, hg, hN, -⟩ := C50_square nx ny hx hy 0 0 true o2 (fun _ => rfl) h2
  obtain ⟨p, hp, hus, hall⟩ := fermionModel_square hx hy harea (fun _ => rfl) h2 hg 2 u t w v mus
  obtain ⟨hreg, -, hanti, hdist⟩ := square_distances hx hy harea (fun _ => rfl) h2 hg
  have hadj : ∀ i < g.nsites, ∀ j < g.nsites, g.adjacency.e i j = 0 ∨ g.adjacency.e i j = 1 := fun i hi j hj => by
    have pi := C50_square_order nx ny hx hy harea.le 0 0 true o2 (fun _ => rfl) h2 hg (i := i) (by omega)
    have pj := C50_square_order nx ny hx hy harea.le 0 0 true o2 (fun _ => rfl) h2 hg (i := j) (by omega)
    exact (C51_square nx ny hx hy harea 0 0 true o2 (fun _ => rfl) h2 hg pi.1 pi.2 pj.1 pj.2).1
  have ho : OpenAlong (p.model g 2) g.adjacency.e (fun i => g.xlocs.getD i 0) t t 1 0 := by
    refine ⟨fun i _ j _ => ?_, fun i _ j _ => ?_, fun i hi j hj => (hreg.symm i hi j hj).symm, fun i hi j hj s hs => ?_⟩
    · change |g.xdist.e j i| = |g.xdist.e i j|
      rw [(hanti i j).1, abs_neg]
    · change |g.ydist.e j i| = |g.ydist.e i j|
      rw [(hanti i j).2, abs_neg]
    · change (|g.xdist.e i j| = 1 ∧ g.ydist.e i j = 0 ∧ _ ∧ _ ∧ 1 * g.xdist.e i j = _) ∨
        (g.xdist.e i j = 0 ∧ |g.ydist.e i j| = 1 ∧ _ ∧ _ ∧ 0 * g.ydist.e i j = _) ∨ _
      obtain ⟨d1, -, d3⟩ := hdist i hi j hj
      have ht := ((hall i hi s hs).2.2 j hj).1
      rcases hadj i hi j hj with ha | ha
      · exact Or.inr (Or.inr ⟨ha, by rw [ht, ha]; simp⟩)
      · rcases d3 ha with ⟨e1, e2⟩ | ⟨e1, e2⟩
        · exact Or.inl ⟨e1, e2, by rw [ha]; exact one_ne_zero, by rw [ht, ha]; simp, by rw [one_mul, d1 rfl]⟩
        · refine Or.inr (Or.inl ⟨e1, e2, by rw [ha]; exact one_ne_zero, by rw [ht, ha]; simp, ?_⟩)
          rw [zero_mul, ← d1 rfl, e1]
  have hr : RealParams (p.model g 2) := by
    have hc : ∀ x : ℝ, star (x : ℂ) = x := fun x => Complex.conj_ofReal x
    refine ⟨fun i j s => ?_, fun i => ?_, fun i j s => ?_, fun s => ?_, fun i s => ?_⟩
    · rw [((hall i i.2 s s.2).2.2 j j.2).1, star_mul', hc, hc]
    · rw [hus i i.2, hc]
    · rw [((hall i i.2 s s.2).2.2 j j.2).2.1, star_mul', hc, hc]
    · have h0 : 0 < g.nsites := by rw [hN]; exact Nat.mul_pos hx hy
      rw [(hall 0 h0 s s.2).1, hc]
    · rw [(hall i i.2 s s.2).2.1, hc]
  have hN' : (p.model g 2).nsites = nx * ny := hN
  obtain ⟨P, hP, hsel⟩ := C16_number_projector (p.model g 2) (by rw [hN']; exact Nat.mul_pos hx hy)
    [some (k : ℤ), some (m : ℤ)] rfl
  obtain ⟨t0, ht0⟩ := exists_counts (nsites := (p.model g 2).nsites) (nspecies := 2) ![k, m] (fun s => by
    rw [hN']
    fin_cases s <;> assumption)
  obtain ⟨d, sel, hinj, hrange, hPi⟩ := hsel.is (p := fun t => ∀ (s : Fin 2) (v : ℤ),
    [some (k : ℤ), some (m : ℤ)][s]? = some (some v) → (speciesCount t s : ℤ) = v) ⟨t0, fun s v hv => by
      fin_cases s
      · obtain rfl : (k : ℤ) = v := by simpa using hv
        exact_mod_cast ht0 0
      · obtain rfl : (m : ℤ) = v := by simpa using hv
        exact_mod_cast ht0 1⟩
  let R : Op ((p.model g 2).nsites * 2) 2 := hubPot (fun i _ => (((g.xlocs.getD i 0 : ℝ)) : ℂ))
  obtain ⟨s1, s2⟩ := select_position (n := (p.model g 2).nsites) (b := 2) sel hinj
    (fun i _ => (((g.xlocs.getD i 0 : ℝ)) : ℂ)) rfl
  have hrows : P.rows = d + 1 := by simpa using hPi.1
  let N : Matrix (Fin (d + 1)) (Conf ((p.model g 2).nsites * 2) 2) ℂ := Matrix.of fun r t => if t = sel r then (1 : ℂ) else 0
  let Q : Matrix (Fin (d + 1)) (Fin (d + 1)) ℂ := 1
  have q1 : Q * N = N := Matrix.one_mul N
  have s1' : (Q * N) * (Q * N)ᴴ = 1 := by rw [q1]; exact s1
  have s2' : (Q * N)ᴴ * (Q * N) * R = R * ((Q * N)ᴴ * (Q * N)) := by rw [q1]; exact s2
  obtain ⟨j, cur, out, kin, int, D, -, -, -, c4, -, c6⟩ := C126_sum_rule_partial S hS (p.model g 2) (Or.inl le_rfl) hr
    g.adjacency.e (fun i => g.xlocs.getD i 0) t t 1 0 ho (Or.inr rfl) (Or.inl rfl) (q := 0) (d := fun _ => d) P
    (fun _ => Mat.eye P.rows) N (fun _ => Q) hPi (fun _ => Mat.is_eye (by simp [hrows]))
    (fun _ => s1') (fun _ => s2') T
  obtain ⟨e1, e2⟩ := c6 (Or.inl hT)
  rw [e2] at c4
  rw [hN'] at e1
  exact ⟨g, p.model g 2, P, kin, int, hg, hp, hP, c4, e1⟩

/-- Two sites by three sites on a cylinder, two particles of one species and one of the other species. -/
example (S : EigSolvers) (hS : EigContract S) : ∃ g F nP kin int, Geometry.createSquare 2 3 0 0 true false = .ok g ∧
      fermionModel g ⟨[], fun _ => ((8 : ℝ) : ℂ)⟩ ⟨[], fun _ => ((1 : ℝ) : ℂ)⟩ ⟨[2], fun _ => ((1 / 2 : ℝ) : ℂ)⟩
        ⟨[], fun _ => ((0 : ℝ) : ℂ)⟩ ⟨[], fun _ => ((1 / 4 : ℝ) : ℂ)⟩ 2 = .ok F ∧
      F.nProjector (some [some ((2 : ℕ) : ℤ), some ((1 : ℕ) : ℤ)]) = .ok nP ∧
      drudeWeight S F g.adjacency.e (some (((1 : ℝ) : ℂ), ((1 : ℝ) : ℂ))) nP [Mat.eye nP.rows] 1 0 (1 / 10) = .ok (kin, int, 0) ∧
      int = -(Real.pi / (2 * 3 : ℕ)) * kin :=
  C126_lattice_partial S hS 2 3 (by norm_num) (by norm_num) (by norm_num) false (by norm_num) 8 1 0 (1 / 4) (fun _ => 1 / 2) 2 1
    (by norm_num) (by norm_num) (1 / 10) (by norm_num)

/-- C126, the script with open boundaries: the projector on the only sector is the identity of the wrong size
(measure_current_hubbard.py 71), so the script stops unless there are as many states as sites; without a restriction to
numbers of particles there never are. -/
theorem C126_script_violated (S : EigSolvers) (F : Fermions) (adj : ℕ → ℕ → ℝ) (r : ℕ → ℝ) (tx ty : ℂ) (dx dy : ℝ)
    (ho : OpenAlong F adj r tx ty dx dy) (hb : 0 < F.nspecies) (T : ℝ) :
    (∀ (k : ℕ) (nP : Mat) (N : Matrix (Fin k) (Conf (F.nsites * F.nspecies) 2) ℂ), nP.Is N → k ≠ F.nsites →
      drudeWeight S F adj (some (tx, ty)) nP [Mat.eye F.nsites] dx dy T = .error .shape) ∧
    ∃ nP, F.nProjector none = .ok nP ∧
      drudeWeight S F adj (some (tx, ty)) nP [Mat.eye F.nsites] dx dy T = .error .shape := by
  have key : ∀ (k : ℕ) (nP : Mat) (N : Matrix (Fin k) (Conf (F.nsites * F.nspecies) 2) ℂ), nP.Is N → k ≠ F.nsites →
      drudeWeight S F adj (some (tx, ty)) nP [Mat.eye F.nsites] dx dy T = .error .shape := by
    intro k nP N hN hk
    obtain ⟨j, cur, hj, hcur, -⟩ := current_sandwich F ho hN
    have hrows : nP.rows = k := by simpa using hN.1
    have hmul : (Mat.eye F.nsites).mul nP = .error .shape := by
      unfold Mat.mul
      rw [if_neg]
      rw [hrows]
      exact fun h => hk h.symm
    unfold drudeWeight
    rw [hj]
    change (sandwichVal nP j >>= _) = _
    rw [hcur]
    have hs : sectorConductivity S F nP cur (Mat.eye F.nsites) dx dy T = .error .shape := by
      unfold sectorConductivity
      rw [hmul]
      rfl
    change (List.mapM (fun proj => sectorConductivity S F nP cur proj dx dy T) [Mat.eye F.nsites] >>= _) = _
    rw [List.mapM_cons, hs]
    rfl
  refine ⟨key, Mat.eye F.sys.nstates, rfl, ?_⟩
  have hst : F.sys.nstates = 2 ^ (F.nsites * F.nspecies) := rfl
  have hlt : F.nsites < 2 ^ (F.nsites * F.nspecies) :=
    Nat.lt_two_pow_self.trans_le (Nat.pow_le_pow_right (by norm_num) (Nat.le_mul_of_pos_right _ hb))
  refine key (2 ^ (F.nsites * F.nspecies)) _ (Matrix.of fun i t => if (i : ℕ) = idx t then 1 else 0) ⟨?_, ?_, fun i t => ?_⟩
    hlt.ne'
  · rw [hst]; simp [Mat.eye]
  · rw [hst]; simp [Mat.eye]
  · rfl

/-- Two sites next to each other along x are open along x. -/
example : OpenAlong ⟨2, 1, fun i j _ => if i = j then 0 else 3, fun _ => 0, fun _ _ _ => 0, fun _ => 0, fun _ _ => 0,
    fun i j => (i : ℝ) - j, fun _ _ => 0⟩ (fun i j => if i = j then 0 else 1) (fun i => i) 3 3 1 0 := by
  constructor
  · intro i _ j _
    exact abs_sub_comm _ _
  · intro i _ j _
    rfl
  · intro i _ j _
    simp only [eq_comm]
  · intro i hi j hj s _
    simp only at hi hj
    interval_cases i <;> interval_cases j <;> simp

example : ∃ (H R : Matrix (Fin 3) (Fin 3) ℂ) (E : Fin 3 → ℝ) (M J K jm : Mat) (ev : List ℝ) (int : ℝ), H * R ≠ R * H ∧
    H = diagonal (fun k => (E k : ℂ)) ∧ M.Is (1 : Matrix (Fin 3) (Fin 3) ℂ) ∧
      J.Is (Complex.I • (H * R - R * H)) ∧ K.Is (-(R * (H * R - R * H) - (H * R - R * H) * R)) ∧
      getMatrixElems M J = .ok jm ∧ getExpVals M K = .ok ev ∧
      integrateConductivity 4 jm (List.ofFn E) 0 = .ok int ∧ int = -(Real.pi / (4 : ℕ)) * ev.getD 0 0 := by
  obtain ⟨H, R, E, M, J, K, -, kin, -, h1, h2, h3, -, h5, h6, h7, -, h9, -, h11, -⟩ := C126_degenerate_violated 4 (by norm_num)
  obtain ⟨jm, ev, int, c1, c2, c3, c4⟩ := C126_first_state (m := 2) (V := (1 : Matrix (Fin 3) (Fin 3) ℂ)) (E := E) (by simp)
    (by simp) h1 h2 (by rw [Matrix.mul_one, Matrix.one_mul, h3]) h5 h6 h7 4
  refine ⟨H, R, E, M, J, K, jm, ev, int, fun hc => ?_, h3, h5, h6, h7, c1, c2, c3, c4⟩
  rw [hc, sub_self, Matrix.mul_zero, Matrix.zero_mul, sub_zero, neg_zero] at h7
  have := expValsThermal_is (m := 2) h5 h7 E 0
  rw [h9, h11] at this
  injection this with this
  simp [expect] at this

end ED.Props
