import Verif.Model.Isometry
import Mathlib.Tactic.Ring
import Mathlib.Tactic.Linarith
import Mathlib.Tactic.LinearCombination
import Mathlib.Tactic.FieldSimp
import Mathlib.Tactic.NormNum

/-!
# Coordinate transformations are the isometries they claim to be (C38)
-/

namespace ED.Props

/-- Squared distance between two points of the plane. -/
def dist2 (p q : ℝ × ℝ) : ℝ := (p.1 - q.1) ^ 2 + (p.2 - q.2) ^ 2

private theorem rot_iter (n : ℤ) (hn : n ≠ 0) (c : ℝ × ℝ) (f : ℝ × ℝ → ℝ × ℝ)
    (hf : getRotFn n c = .ok f) (k : ℕ) (p : ℝ × ℝ) :
    f^[k] p = ((rotMatVec (k * (2 * Real.pi / n)) (p.1 - c.1, p.2 - c.2)).1 + c.1,
      (rotMatVec (k * (2 * Real.pi / n)) (p.1 - c.1, p.2 - c.2)).2 + c.2) := by
  simp only [getRotFn, if_neg hn, Except.ok.injEq] at hf
  subst hf
  induction k with
  | zero => simp [rotMatVec]
  | succ k ih =>
    rw [Function.iterate_succ_apply', ih]
    have h : ((k + 1 : ℕ) : ℝ) * (2 * Real.pi / n) = k * (2 * Real.pi / n) + 2 * Real.pi / n := by
      push_cast; ring
    simp only [h, rotMatVec, Real.cos_add, Real.sin_add]
    ext <;> simp only <;> ring

/-- C38: the rotation function is the rotation by `2π/n` about its centre: it turns the displacement
from the centre counter-clockwise by that angle. -/
theorem C38_rotation_angle (n : ℤ) (hn : n ≠ 0) (c : ℝ × ℝ) :
    ∃ f, getRotFn n c = .ok f ∧ ∀ r t : ℝ,
      f (c.1 + r * Real.cos t, c.2 + r * Real.sin t) =
        (c.1 + r * Real.cos (t + 2 * Real.pi / n), c.2 + r * Real.sin (t + 2 * Real.pi / n)) := by
  refine ⟨_, if_neg hn, fun r t => ?_⟩
  simp only [rotMatVec, Real.cos_add, Real.sin_add]
  ext <;> simp only <;> ring

/-- C38: applied `|n|` times the rotation is the identity, it fixes its centre and preserves
distances; no rotation is returned only for `n = 0`. -/
theorem C38_rotation (n : ℤ) (c : ℝ × ℝ) :
    (n = 0 → getRotFn n c = .error .zeroDiv) ∧
    ∀ f, getRotFn n c = .ok f →
      (∀ p, f^[n.natAbs] p = p) ∧ f c = c ∧ (∀ p q, dist2 (f p) (f q) = dist2 p q) := by
  refine ⟨fun h => if_pos h, fun f hf => ?_⟩
  have hn : n ≠ 0 := by
    rintro rfl
    simp [getRotFn] at hf
  have hr : (n : ℝ) ≠ 0 := by exact_mod_cast hn
  refine ⟨fun p => ?_, ?_, fun p q => ?_⟩
  · rw [rot_iter n hn c f hf]
    have h : (n.natAbs : ℝ) * (2 * Real.pi / n) = 2 * Real.pi ∨
        (n.natAbs : ℝ) * (2 * Real.pi / n) = -(2 * Real.pi) := by
      rcases Int.natAbs_eq n with h | h
      · left
        have : (n : ℝ) = n.natAbs := (congrArg (Int.cast : ℤ → ℝ) h).trans (Int.cast_natCast _)
        rw [← this]; field_simp
      · right
        have : (n : ℝ) = -(n.natAbs : ℝ) :=
          (congrArg (Int.cast : ℤ → ℝ) h).trans (by rw [Int.cast_neg, Int.cast_natCast])
        have h2 : (n.natAbs : ℝ) = -n := by linarith
        rw [h2]; field_simp
    rcases h with h | h <;> rw [h] <;> simp [rotMatVec]
  · have := rot_iter n hn c f hf 1 c
    simpa [rotMatVec] using this
  · have h1 := rot_iter n hn c f hf 1 p
    have h2 := rot_iter n hn c f hf 1 q
    simp only [Function.iterate_one] at h1 h2
    rw [h1, h2]
    simp only [dist2, rotMatVec]
    have h := Real.sin_sq_add_cos_sq (((1 : ℕ) : ℝ) * (2 * Real.pi / n))
    linear_combination ((p.1 - q.1) ^ 2 + (p.2 - q.2) ^ 2) * h

/-- The four-fold rotation about `(1, 2)` moves `(2, 2)` to `(1, 3)`. -/
example : ∃ f, getRotFn 4 (1, 2) = .ok f ∧ f (2, 2) = (1, 3) := by
  obtain ⟨f, hf, h⟩ := C38_rotation_angle 4 (by norm_num) (1, 2)
  refine ⟨f, hf, ?_⟩
  have h1 : 2 * Real.pi / ((4 : ℤ) : ℝ) = Real.pi / 2 := by push_cast; ring
  have := h 1 0
  rw [h1] at this
  simp only [Real.cos_zero, Real.sin_zero, zero_add, Real.cos_pi_div_two, Real.sin_pi_div_two] at this
  norm_num at this
  exact this

/-- The sine and cosine of the angle that the reflection function uses, in terms of its axis. -/
private theorem refl_angle (v : ℝ × ℝ) (hv : ¬(v.1 = 0 ∧ v.2 = 0)) :
    ∃ a : ℝ, (if v.2 = 0 then Real.pi / 2 else Real.arctan (v.1 / v.2)) = a ∧
      v.1 * Real.cos a = v.2 * Real.sin a := by
  by_cases h : v.2 = 0
  · exact ⟨_, if_pos h, by simp [h]⟩
  · refine ⟨_, if_neg h, ?_⟩
    have hc := Real.cos_arctan_pos (v.1 / v.2)
    have ht := Real.tan_arctan (v.1 / v.2)
    rw [Real.tan_eq_sin_div_cos, div_eq_div_iff hc.ne' h] at ht
    linarith

/-- C38: the reflection function is the mirror image with respect to the line through the centre along
the given vector: it fixes the points of that line, maps `c + w` to `c - w` for every displacement `w`
perpendicular to it, is an involution and preserves distances. A zero vector is rejected. -/
theorem C38_reflection (v c : ℝ × ℝ) :
    (v = (0, 0) → getReflFn v c = .error .generic) ∧
    (v ≠ (0, 0) → ∃ f, getReflFn v c = .ok f ∧
      (∀ t : ℝ, f (c.1 + t * v.1, c.2 + t * v.2) = (c.1 + t * v.1, c.2 + t * v.2)) ∧
      (∀ w : ℝ × ℝ, v.1 * w.1 + v.2 * w.2 = 0 →
        f (c.1 + w.1, c.2 + w.2) = (c.1 - w.1, c.2 - w.2)) ∧
      (∀ p, f (f p) = p) ∧ (∀ p q, dist2 (f p) (f q) = dist2 p q)) := by
  refine ⟨fun h => if_pos (by simp [h]), fun h => ?_⟩
  have hv : ¬(v.1 = 0 ∧ v.2 = 0) := fun h' => h (Prod.ext h'.1 h'.2)
  obtain ⟨a, ha, hs⟩ := refl_angle v hv
  have h1 := Real.sin_sq_add_cos_sq a
  refine ⟨_, if_neg hv, fun t => ?_, fun w hw => ?_, fun p => ?_, fun p q => ?_⟩ <;>
    simp only [ha, rotMatVec, rotMatTVec, dist2]
  · ext <;> simp only
    · linear_combination (t * v.1) * h1 + (-2 * t * Real.cos a) * hs
    · linear_combination (t * v.2) * h1 + (2 * t * Real.sin a) * hs
  · -- the axis is `(sin a, cos a)` up to a factor, so `w` is a multiple of `(cos a, -sin a)`
    have hw' : w.1 * Real.sin a + w.2 * Real.cos a = 0 := by
      rcases not_and_or.1 hv with h0 | h0
      · have : v.1 * (w.1 * Real.sin a + w.2 * Real.cos a) = 0 := by
          linear_combination Real.sin a * hw + w.2 * hs
        exact (mul_eq_zero.1 this).resolve_left h0
      · have : v.2 * (w.1 * Real.sin a + w.2 * Real.cos a) = 0 := by
          linear_combination Real.cos a * hw - w.1 * hs
        exact (mul_eq_zero.1 this).resolve_left h0
    ext <;> simp only
    · linear_combination -w.1 * h1 + 2 * Real.sin a * hw'
    · linear_combination -w.2 * h1 + 2 * Real.cos a * hw'
  · ext <;> simp only
    · linear_combination (p.1 - c.1) * (Real.sin a ^ 2 + Real.cos a ^ 2 + 1) * h1
    · linear_combination (p.2 - c.2) * (Real.sin a ^ 2 + Real.cos a ^ 2 + 1) * h1
  · linear_combination
      ((p.1 - q.1) ^ 2 + (p.2 - q.2) ^ 2) * (Real.sin a ^ 2 + Real.cos a ^ 2 + 1) * h1

/-- Reflection about the diagonal through `(1, 0)`. -/
example : ∃ f, getReflFn (1, 1) (1, 0) = .ok f ∧ f (3, 0) = (1, 2) := by
  obtain ⟨f, hf, -, -, -, -⟩ := (C38_reflection (1, 1) (1, 0)).2 (by simp)
  refine ⟨f, hf, ?_⟩
  simp only [getReflFn] at hf
  norm_num at hf
  subst hf
  have h2 : Real.sqrt 2 * Real.sqrt 2 = 2 := Real.mul_self_sqrt (by norm_num)
  simp only [rotMatVec, rotMatTVec, Real.cos_pi_div_four, Real.sin_pi_div_four]
  ext <;> simp only <;> nlinarith

/-- C38: the inversion is an involution fixing its centre, preserves distances and is the two-fold
rotation about the same centre. -/
theorem C38_inversion (c : ℝ × ℝ) :
    (∀ p, getInversionFn c (getInversionFn c p) = p) ∧ getInversionFn c c = c ∧
    (∀ p q, dist2 (getInversionFn c p) (getInversionFn c q) = dist2 p q) ∧
    getRotFn 2 c = .ok (getInversionFn c) := by
  refine ⟨fun p => ?_, ?_, fun p q => ?_, ?_⟩
  · simp only [getInversionFn]
    ext <;> simp only <;> ring
  · simp [getInversionFn]
  · simp only [getInversionFn, dist2]; ring
  · simp only [getRotFn, if_neg (show (2 : ℤ) ≠ 0 by norm_num), Except.ok.injEq]
    have h : 2 * Real.pi / ((2 : ℤ) : ℝ) = Real.pi := by push_cast; ring
    funext p
    simp only [h, rotMatVec, getInversionFn, Real.cos_pi, Real.sin_pi]
    ext <;> simp only <;> ring

/-- C38: translations add, commute, preserve distances and are undone by the opposite vector. -/
theorem C38_translation (v w : ℝ × ℝ) :
    (∀ p, getTranslFn v p = p + v) ∧
    getTranslFn v ∘ getTranslFn w = getTranslFn (v + w) ∧
    getTranslFn v ∘ getTranslFn w = getTranslFn w ∘ getTranslFn v ∧
    getTranslFn (-v) ∘ getTranslFn v = id ∧
    (∀ p q, dist2 (getTranslFn v p) (getTranslFn v q) = dist2 p q) := by
  refine ⟨fun p => rfl, ?_, ?_, ?_, fun p q => ?_⟩
  · funext p; simp only [getTranslFn, Function.comp, Prod.fst_add, Prod.snd_add]
    ext <;> simp only <;> ring
  · funext p; simp only [getTranslFn, Function.comp]
    ext <;> simp only <;> ring
  · funext p; simp [getTranslFn, Function.comp]
  · simp only [getTranslFn, dist2]; ring

example : getTranslFn (1, 2) (3, 4) = (4, 6) := by
  simp only [getTranslFn]; norm_num

end ED.Props
