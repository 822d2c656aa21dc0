import Verif.Lemmas.TorusData
import Mathlib.Tactic.IntervalCases

/-!
# Orthogonality of the characters of the 3x3 torus group
-/

namespace ED

open GroupAlg Spec

/-- Conjunction of `f 0, ..., f (m-1)`, by recursion so that the kernel evaluates it. -/
def allTo (m : ℕ) (f : ℕ → Bool) : Bool := Nat.rec true (fun k b => and b (f k)) m

theorem allTo_iff (m : ℕ) (f : ℕ → Bool) : allTo m f = true ↔ ∀ k < m, f k = true := by
  induction m with
  | zero => simp [allTo]
  | succ m ih =>
    have : allTo (m + 1) f = (allTo m f && f m) := rfl
    rw [this, Bool.and_eq_true, ih]
    constructor
    · rintro ⟨h1, h2⟩ k hk
      rcases Nat.lt_succ_iff_lt_or_eq.1 hk with h | h
      · exact h1 k h
      · exact h ▸ h2
    · intro h
      exact ⟨fun k hk => h k (by omega), h m (by omega)⟩

/-- `Σ_k h (x+k) l[k]`. -/
def lsum (h : ℕ → ℕ → ℕ) (l : List ℕ) : ℕ → ℕ :=
  List.rec (motive := fun _ => ℕ → ℕ) (fun _ => 0)
    (fun r _ ih x => Nat.add (h x r) (ih (Nat.succ x))) l

theorem lsum_eq (h : ℕ → ℕ → ℕ) (l : List ℕ) (x : ℕ) :
    lsum h l x = ∑ k ∈ Finset.range l.length, h (x + k) (l.getD k 0) := by
  induction l generalizing x with
  | nil => rfl
  | cons r l ih =>
    have : lsum h (r :: l) x = h x r + lsum h l (x + 1) := rfl
    rw [this, ih, List.length_cons, Finset.sum_range_succ']
    simp only [List.getD_cons_succ, List.getD_cons_zero, add_zero]
    rw [add_comm]
    congr 1
    refine Finset.sum_congr rfl fun k _ => ?_
    congr 1; omega

/-- The positive part of the convolution of two characters. -/
def torusConvA (rows : List ℕ) (f g z : ℕ) : ℕ :=
  lsum (fun x r => Nat.add (Nat.mul (dig3 f x) (dig3 g (dig7 r z))) 4) rows 0

/-- Its negative part. -/
def torusConvB (rows : List ℕ) (f g z : ℕ) : ℕ :=
  lsum (fun x r => Nat.add (Nat.mul 2 (dig3 f x)) (Nat.mul 2 (dig3 g (dig7 r z)))) rows 0

theorem torus_conv (o : Bool) (i j z : ℕ) :
    conv 72 (torusLdiv o) (torusF i) (torusF j) z =
      (torusConvA (torusLdivRows o) (torusChars.getD i 0) (torusChars.getD j 0) z : ℤ) -
        (torusConvB (torusLdivRows o) (torusChars.getD i 0) (torusChars.getD j 0) z : ℤ) := by
  have hlen : (torusLdivRows o).length = 72 := by cases o <;> rfl
  unfold conv torusConvA torusConvB
  rw [sumTo_eq, lsum_eq, lsum_eq, hlen, Nat.cast_sum, Nat.cast_sum, ← Finset.sum_sub_distrib]
  refine Finset.sum_congr rfl fun x _ => ?_
  simp only [torusF, torusLdiv, zero_add]
  generalize dig3 (torusChars.getD i 0) x = p
  generalize dig3 (torusChars.getD j 0) (dig7 ((torusLdivRows o).getD x 0) z) = q
  change ((p : ℤ) - 2) * (q - 2) = ((p * q + 4 : ℕ) : ℤ) - ((2 * p + 2 * q : ℕ) : ℤ)
  push_cast; ring

/-- All orthogonality relations and idempotency relations at once. -/
def torusCheck (rows : List ℕ) : Bool :=
  allTo 9 fun i => allTo 9 fun j => allTo 72 fun z =>
    let f := torusChars.getD i 0
    let g := torusChars.getD j 0
    bif Nat.beq i j then
      let d := [1, 1, 1, 1, 2, 4, 4, 4, 4].getD i 0
      Nat.beq (d * torusConvA rows f g z + 144) (d * torusConvB rows f g z + 72 * dig3 f z)
    else Nat.beq (torusConvA rows f g z) (torusConvB rows f g z)

set_option maxRecDepth 20000 in
theorem torusCheck_ccw : torusCheck ccwLdiv = true := by decide +kernel

set_option maxRecDepth 20000 in
theorem torusCheck_cw : torusCheck cwLdiv = true := by decide +kernel

theorem torusCheck_all (o : Bool) : torusCheck (torusLdivRows o) = true := by
  cases o
  · exact torusCheck_cw
  · exact torusCheck_ccw

/-- The group and its characters. -/
def torusTables (o : Bool) : Tables ℤ :=
  ⟨72, torusMul o, torusLdiv o, torusCodes, torusRows, [1, 1, 1, 1, 2, 4, 4, 4, 4], 1⟩

theorem torus_orth (o : Bool) (i j : ℕ) (hi : i < 9) (hj : j < 9) (hij : i ≠ j) :
    (torusTables o).Orth torusF i j := by
  intro z hz
  have h := torusCheck_all o
  simp only [torusCheck, allTo_iff] at h
  have h := h i hi j hj z hz
  have hb : Nat.beq i j = false := by
    rw [Bool.eq_false_iff]; intro h'; exact hij (Nat.eq_of_beq_eq_true h')
  rw [hb, cond_false] at h
  have := Nat.eq_of_beq_eq_true h
  change conv 72 (torusLdiv o) (torusF i) (torusF j) z = 0
  rw [torus_conv, this, sub_self]

theorem torus_idem (o : Bool) (i : ℕ) (hi : i < 9) : (torusTables o).Idem torusF i := by
  intro z hz
  have h := torusCheck_all o
  simp only [torusCheck, allTo_iff] at h
  have h := h i hi i hi z hz
  rw [Nat.beq_refl, cond_true] at h
  have := Nat.eq_of_beq_eq_true h
  change (([1, 1, 1, 1, 2, 4, 4, 4, 4].getD i 0 : ℕ) : ℤ) *
    conv 72 (torusLdiv o) (torusF i) (torusF i) z = ((72 : ℕ) : ℤ) * (1 * torusF i z)
  rw [torus_conv, torusF]
  have h2 := congrArg (Nat.cast : ℕ → ℤ) this
  push_cast at h2 ⊢
  linear_combination h2

theorem torus_complete (o : Bool) : (torusTables o).Complete torusF := by
  cases o <;> decide +kernel

theorem torus_base (o : Bool) : (torusTables o).Base torusF := by
  cases o <;>
  exact ⟨by decide +kernel, by decide +kernel, by decide +kernel, by decide +kernel,
    by decide +kernel⟩

theorem torus_valid (o : Bool) : (torusTables o).Valid := by
  cases o <;> (unfold Tables.Valid; decide +kernel)

end ED
