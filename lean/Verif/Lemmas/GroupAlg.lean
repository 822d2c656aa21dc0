import Mathlib.Algebra.BigOperators.Group.Finset.Basic
import Mathlib.Algebra.BigOperators.Ring.Finset
import Mathlib.Algebra.Algebra.Basic
import Mathlib.Data.Complex.Basic
import Mathlib.Algebra.BigOperators.Intervals
import Mathlib.Algebra.Module.BigOperators
import Mathlib.Tactic.Ring
import Mathlib.Tactic.Module

/-!
# Sums over a finite group acting in an algebra

A finite group is given by a multiplication on codes `0, ..., m-1` and a left division; `ρ` maps codes
to elements of an algebra.
-/

namespace ED.GroupAlg

open scoped BigOperators

/-- `Σ_{k<m} f k`, by recursion so that the kernel evaluates it. -/
def sumTo {K : Type*} [AddCommMonoid K] (m : ℕ) (f : ℕ → K) : K :=
  Nat.rec 0 (fun k s => s + f k) m

theorem sumTo_eq {K : Type*} [AddCommMonoid K] (m : ℕ) (f : ℕ → K) :
    sumTo m f = ∑ k ∈ Finset.range m, f k := by
  induction m with
  | zero => rfl
  | succ m ih => rw [Finset.sum_range_succ, ← ih]; rfl

/-- Convolution of two functions on the codes. -/
def conv {K : Type*} [CommRing K] (m : ℕ) (ldiv : ℕ → ℕ → ℕ) (f g : ℕ → K) (z : ℕ) : K :=
  sumTo m fun x => f x * g (ldiv x z)

variable {A : Type*} [Ring A] [Algebra ℂ A]

/-- The combination `Σ f(x) ρ(x)`. -/
noncomputable def E (m : ℕ) (ρ : ℕ → A) (f : ℕ → ℂ) : A := ∑ x ∈ Finset.range m, f x • ρ x

/-- `mul` and `ldiv` are a group law on `0, ..., m-1` (as far as needed). -/
def TableOK (m : ℕ) (mul ldiv : ℕ → ℕ → ℕ) : Prop :=
  ∀ x < m, ∀ y < m, mul x y < m ∧ ldiv x y < m ∧ ldiv x (mul x y) = y ∧ mul x (ldiv x y) = y

instance (m : ℕ) (mul ldiv : ℕ → ℕ → ℕ) : Decidable (TableOK m mul ldiv) := by
  unfold TableOK; infer_instance

theorem E_mul {m : ℕ} {mul ldiv : ℕ → ℕ → ℕ} {ρ : ℕ → A} (hT : TableOK m mul ldiv)
    (hρ : ∀ x < m, ∀ y < m, ρ x * ρ y = ρ (mul x y)) (f g : ℕ → ℂ) :
    E m ρ f * E m ρ g = E m ρ (conv m ldiv f g) := by
  unfold E conv
  simp only [sumTo_eq, Finset.sum_smul, Finset.sum_mul_sum]
  rw [Finset.sum_comm (s := Finset.range m) (t := Finset.range m)
    (f := fun z x => (f x * g (ldiv x z)) • ρ z)]
  refine Finset.sum_congr rfl fun x hx => ?_
  have hx := Finset.mem_range.1 hx
  refine Finset.sum_bij' (fun y _ => mul x y) (fun z _ => ldiv x z) ?_ ?_ ?_ ?_ ?_
  · intro y hy; exact Finset.mem_range.2 (hT x hx y (Finset.mem_range.1 hy)).1
  · intro y hy; exact Finset.mem_range.2 (hT x hx y (Finset.mem_range.1 hy)).2.1
  · intro y hy; exact (hT x hx y (Finset.mem_range.1 hy)).2.2.1
  · intro y hy; exact (hT x hx y (Finset.mem_range.1 hy)).2.2.2
  · intro y hy
    rw [(hT x hx y (Finset.mem_range.1 hy)).2.2.1, smul_mul_smul_comm,
      hρ x hx y (Finset.mem_range.1 hy)]

theorem E_congr {m : ℕ} {ρ : ℕ → A} {f g : ℕ → ℂ} (h : ∀ x < m, f x = g x) :
    E m ρ f = E m ρ g :=
  Finset.sum_congr rfl fun x hx => by rw [h x (Finset.mem_range.1 hx)]

theorem E_zero {m : ℕ} {ρ : ℕ → A} {f : ℕ → ℂ} (h : ∀ x < m, f x = 0) : E m ρ f = 0 :=
  Finset.sum_eq_zero fun x hx => by rw [h x (Finset.mem_range.1 hx), zero_smul]

theorem E_smul (m : ℕ) (ρ : ℕ → A) (c : ℂ) (f : ℕ → ℂ) :
    c • E m ρ f = E m ρ fun x => c * f x := by
  simp only [E, Finset.smul_sum, smul_smul]

theorem E_add (m : ℕ) (ρ : ℕ → A) (f g : ℕ → ℂ) :
    E m ρ f + E m ρ g = E m ρ fun x => f x + g x := by
  simp only [E, ← Finset.sum_add_distrib, add_smul]

theorem E_single {m : ℕ} (ρ : ℕ → A) (k : ℕ) (hk : k < m) (c : ℂ) :
    E m ρ (fun x => if x = k then c else 0) = c • ρ k := by
  unfold E
  rw [Finset.sum_eq_single k]
  · simp only [if_pos]
  · intro x _ hx; simp only [if_neg hx, zero_smul]
  · intro h; exact absurd (Finset.mem_range.2 hk) h

theorem E_list {m : ℕ} (ρ : ℕ → A) (l : List ℕ) (hl : ∀ x ∈ l, x < m) :
    (l.map ρ).sum = E m ρ fun x => (l.count x : ℂ) := by
  induction l with
  | nil => simp [E]
  | cons k l ih =>
    rw [List.map_cons, List.sum_cons, ih fun x hx => hl x (List.mem_cons_of_mem _ hx)]
    have h := E_single ρ k (hl k List.mem_cons_self) (1 : ℂ)
    rw [one_smul] at h
    rw [← h, E_add]
    refine E_congr fun x _ => ?_
    rw [List.count_cons]
    by_cases hx : x = k
    · subst hx; simp [add_comm]
    · have hx' : ¬(k = x) := fun h => hx h.symm
      simp [hx, hx']

/-- A class function given by its values on the classes. -/
def coef {K : Type*} [CommRing K] (row : List K) (codes : List (List ℕ)) (x : ℕ) : K :=
  ((row.zip codes).map fun p => p.1 * (p.2.count x : K)).sum

theorem coef_map {K L : Type*} [CommRing K] [CommRing L] (φ : K →+* L) (row : List K)
    (codes : List (List ℕ)) (x : ℕ) : coef (row.map φ) codes x = φ (coef row codes x) := by
  unfold coef
  induction row generalizing codes with
  | nil => simp
  | cons k row ih =>
    cases codes with
    | nil => simp
    | cons c codes =>
      simp only [List.map_cons, List.zip_cons_cons, List.sum_cons, map_add, map_mul, map_natCast]
      rw [ih]

theorem E_coef {m : ℕ} (ρ : ℕ → A) (row : List ℂ) (codes : List (List ℕ))
    (hl : ∀ l ∈ codes, ∀ x ∈ l, x < m) :
    ((row.zip (codes.map fun l => (l.map ρ).sum)).map fun p => p.1 • p.2).sum =
      E m ρ (coef row codes) := by
  unfold coef
  induction row generalizing codes with
  | nil => simp [E]
  | cons k row ih =>
    cases codes with
    | nil => simp [E]
    | cons c codes =>
      simp only [List.map_cons, List.zip_cons_cons, List.sum_cons]
      rw [ih codes fun l h => hl l (List.mem_cons_of_mem _ h),
        E_list ρ c (hl c List.mem_cons_self), E_smul, E_add]

theorem conv_map {K L : Type*} [CommRing K] [CommRing L] (φ : K →+* L) (m : ℕ)
    (ldiv : ℕ → ℕ → ℕ) (f g : ℕ → K) (z : ℕ) :
    conv m ldiv (fun x => φ (f x)) (fun x => φ (g x)) z = φ (conv m ldiv f g z) := by
  simp only [conv, sumTo_eq, map_sum, map_mul]

end ED.GroupAlg
