import Mathlib.Algebra.Ring.Basic
import Mathlib.Analysis.SpecialFunctions.Trigonometric.Basic
import Mathlib.Data.Complex.Basic
import Mathlib.Tactic.Ring
import Mathlib.Tactic.Linarith
import Mathlib.Tactic.LinearCombination

/-!
# The ring generated by the cosines of multiples of `2π/7`
-/

namespace ED

/-- The number `x + y a + z b` with `a = 2 cos(2π/7)` and `b = 2 cos(4π/7)`. -/
@[ext] structure Hept where
  x : ℤ
  y : ℤ
  z : ℤ
  deriving DecidableEq

namespace Hept

instance : Zero Hept := ⟨⟨0, 0, 0⟩⟩
instance : One Hept := ⟨⟨1, 0, 0⟩⟩
instance : Add Hept := ⟨fun p q => ⟨p.x + q.x, p.y + q.y, p.z + q.z⟩⟩
instance : Neg Hept := ⟨fun p => ⟨-p.x, -p.y, -p.z⟩⟩
instance : Mul Hept := ⟨fun p q =>
  ⟨p.x * q.x + 2 * (p.y * q.y) - (p.y * q.z + p.z * q.y) + p.z * q.z,
    p.x * q.y + p.y * q.x - p.z * q.z,
    p.x * q.z + p.z * q.x + p.y * q.y - (p.y * q.z + p.z * q.y) - p.z * q.z⟩⟩

@[simp] theorem zero_x : (0 : Hept).x = 0 := rfl
@[simp] theorem zero_y : (0 : Hept).y = 0 := rfl
@[simp] theorem zero_z : (0 : Hept).z = 0 := rfl
@[simp] theorem one_x : (1 : Hept).x = 1 := rfl
@[simp] theorem one_y : (1 : Hept).y = 0 := rfl
@[simp] theorem one_z : (1 : Hept).z = 0 := rfl
@[simp] theorem add_x (p q : Hept) : (p + q).x = p.x + q.x := rfl
@[simp] theorem add_y (p q : Hept) : (p + q).y = p.y + q.y := rfl
@[simp] theorem add_z (p q : Hept) : (p + q).z = p.z + q.z := rfl
@[simp] theorem neg_x (p : Hept) : (-p).x = -p.x := rfl
@[simp] theorem neg_y (p : Hept) : (-p).y = -p.y := rfl
@[simp] theorem neg_z (p : Hept) : (-p).z = -p.z := rfl
@[simp] theorem mul_x (p q : Hept) : (p * q).x =
    p.x * q.x + 2 * (p.y * q.y) - (p.y * q.z + p.z * q.y) + p.z * q.z := rfl
@[simp] theorem mul_y (p q : Hept) : (p * q).y = p.x * q.y + p.y * q.x - p.z * q.z := rfl
@[simp] theorem mul_z (p q : Hept) : (p * q).z =
    p.x * q.z + p.z * q.x + p.y * q.y - (p.y * q.z + p.z * q.y) - p.z * q.z := rfl

instance : CommRing Hept where
  add_assoc p q r := by ext <;> simp [add_assoc]
  zero_add p := by ext <;> simp
  add_zero p := by ext <;> simp
  add_comm p q := by ext <;> simp [add_comm]
  left_distrib p q r := by ext <;> simp <;> ring
  right_distrib p q r := by ext <;> simp <;> ring
  zero_mul p := by ext <;> simp
  mul_zero p := by ext <;> simp
  mul_assoc p q r := by ext <;> simp <;> ring
  one_mul p := by ext <;> simp
  mul_one p := by ext <;> simp
  neg_add_cancel p := by ext <;> simp
  mul_comm p q := by ext <;> simp <;> ring
  nsmul := nsmulRec
  zsmul := zsmulRec

end Hept

/-- `2 cos(2π/7)`. -/
noncomputable def heptA : ℝ := 2 * Real.cos (2 * Real.pi / 7)
/-- `2 cos(4π/7)`. -/
noncomputable def heptB : ℝ := 2 * Real.cos (4 * Real.pi / 7)
/-- `2 cos(6π/7)`. -/
noncomputable def heptC : ℝ := 2 * Real.cos (6 * Real.pi / 7)

private theorem two_cos_mul (x y : ℝ) :
    (2 * Real.cos x) * (2 * Real.cos y) = 2 * Real.cos (x + y) + 2 * Real.cos (x - y) := by
  rw [Real.cos_add, Real.cos_sub]; ring

theorem heptA_sq : heptA * heptA = 2 + heptB := by
  unfold heptA heptB
  rw [two_cos_mul, sub_self, Real.cos_zero]
  rw [show 2 * Real.pi / 7 + 2 * Real.pi / 7 = 4 * Real.pi / 7 by ring]; ring

theorem heptB_sq : heptB * heptB = 2 + heptC := by
  unfold heptB heptC
  rw [two_cos_mul, sub_self, Real.cos_zero,
    show 4 * Real.pi / 7 + 4 * Real.pi / 7 = 2 * Real.pi - 6 * Real.pi / 7 by ring,
    Real.cos_two_pi_sub]; ring

theorem heptAB : heptA * heptB = heptA + heptC := by
  unfold heptA heptB heptC
  rw [two_cos_mul, show 2 * Real.pi / 7 + 4 * Real.pi / 7 = 6 * Real.pi / 7 by ring,
    show 2 * Real.pi / 7 - 4 * Real.pi / 7 = -(2 * Real.pi / 7) by ring, Real.cos_neg]; ring

theorem heptAC : heptA * heptC = heptB + heptC := by
  unfold heptA heptB heptC
  rw [two_cos_mul, show 2 * Real.pi / 7 + 6 * Real.pi / 7 = 2 * Real.pi - 6 * Real.pi / 7 by ring,
    Real.cos_two_pi_sub,
    show 2 * Real.pi / 7 - 6 * Real.pi / 7 = -(4 * Real.pi / 7) by ring, Real.cos_neg]; ring

theorem heptA_pos : 0 < heptA := by
  unfold heptA
  have := Real.cos_pos_of_mem_Ioo (x := 2 * Real.pi / 7)
    ⟨by linarith [Real.pi_pos], by linarith [Real.pi_pos]⟩
  linarith

/-- The three cosines sum to minus one half. -/
theorem hept_sum : heptA + heptB + heptC = -1 := by
  -- from `a b = a + c`, `a c = b + c`, `a a = 2 + b`
  have h : heptA * (heptA + heptB + heptC + 1) = 2 * (heptA + heptB + heptC + 1) := by
    linear_combination heptA_sq + heptAB + heptAC
  have h2 : heptA ≠ 2 := by
    intro h2
    have h3 := heptA_sq
    have h4 := heptB_sq
    have hB : heptB = 2 := by rw [h2] at h3; linarith
    have hlt : Real.cos (4 * Real.pi / 7) < 1 := by
      rw [← Real.cos_zero]
      exact Real.cos_lt_cos_of_nonneg_of_le_pi le_rfl (by linarith [Real.pi_pos])
        (by linarith [Real.pi_pos])
    unfold heptB at hB
    linarith
  have h3 : (heptA - 2) * (heptA + heptB + heptC + 1) = 0 := by linear_combination h
  rcases mul_eq_zero.1 h3 with h4 | h4
  · exact absurd (by linarith) h2
  · linarith

/-- The inclusion of the ring into the complex numbers. -/
noncomputable def Hept.toComplex : Hept →+* ℂ where
  toFun p := (((p.x : ℝ) + p.y * heptA + p.z * heptB : ℝ) : ℂ)
  map_zero' := by simp
  map_one' := by simp
  map_add' p q := by push_cast [Hept.add_x, Hept.add_y, Hept.add_z]; ring
  map_mul' p q := by
    rw [← Complex.ofReal_mul]
    congr 1
    push_cast [Hept.mul_x, Hept.mul_y, Hept.mul_z]
    have hC : heptC = -1 - heptA - heptB := by linarith [hept_sum]
    have h1 := heptA_sq
    have h2 := heptB_sq
    have h3 := heptAB
    rw [hC] at h2 h3
    linear_combination (-(p.y : ℝ) * q.y) * h1 + (-(p.z : ℝ) * q.z) * h2 +
      (-(p.y : ℝ) * q.z - p.z * q.y) * h3

theorem Hept.conj (p : Hept) : (starRingEnd ℂ) (Hept.toComplex p) = Hept.toComplex p :=
  Complex.conj_ofReal _

end ED
