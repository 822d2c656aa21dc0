import Verif.Model.Lattice
import Verif.Spec.Lattice
import Verif.Lemmas.Round
import Mathlib.Tactic.FieldSimp
import Mathlib.Tactic.Ring
import Mathlib.Tactic.NormNum
import Mathlib.Tactic.LinearCombination

/-! # Reduction modulo periodicity vectors -/

namespace ED

section Rounding

variable {K : Type*} [Field K] [LinearOrder K] [IsStrictOrderedRing K] [FloorRing K]

theorem rint_add_even (x : K) (k : ℤ) : rint (x + ((2 * k : ℤ) : K)) = rint x + 2 * k := by
  have hf : x + ((2 * k : ℤ) : K) - ((⌊x⌋ + 2 * k : ℤ) : K) = x - (⌊x⌋ : K) := by push_cast; ring
  have he : Even (⌊x⌋ + 2 * k) ↔ Even ⌊x⌋ := by
    rw [Int.even_add]
    simp
  unfold rint
  simp only [Int.floor_add_intCast, hf, he]
  split_ifs <;> ring

theorem npRound_sub_int (d : ℕ) (hd : d ≠ 0) (x : K) (n : ℤ) :
    npRound d (x - n) = npRound d x - n := by
  have hp : (10 : K) ^ d ≠ 0 := pow_ne_zero _ (by norm_num)
  obtain ⟨e, rfl⟩ := Nat.exists_eq_succ_of_ne_zero hd
  have h : (x - n) * 10 ^ e.succ = x * 10 ^ e.succ + ((2 * (-(n * 5 * 10 ^ e)) : ℤ) : K) := by
    push_cast
    rw [pow_succ]
    ring
  unfold npRound
  rw [h, rint_add_even, div_eq_iff hp, sub_mul, div_mul_cancel₀ _ hp]
  push_cast
  rw [pow_succ]
  ring

theorem npRound_of_int (d : ℕ) (m : ℤ) : npRound d ((m : K) / 10 ^ d) = (m : K) / 10 ^ d := by
  have hp : (10 : K) ^ d ≠ 0 := pow_ne_zero _ (by norm_num)
  unfold npRound
  rw [div_mul_cancel₀ _ hp, rint_intCast]

theorem npRound_int (d : ℕ) (m : ℤ) : npRound d (m : K) = m := by
  have hp : (10 : K) ^ d ≠ 0 := pow_ne_zero _ (by norm_num)
  have := npRound_of_int (K := K) d (m * 10 ^ d)
  push_cast at this
  rwa [mul_div_assoc, div_self hp, mul_one] at this

theorem npRound_zero (d : ℕ) : npRound d (0 : K) = 0 := by
  have := npRound_int (K := K) d 0
  simpa using this

end Rounding

/-- A non-negative number rounds to zero exactly when it is at most half a unit of the last decimal. -/
theorem npRound_eq_zero (x : ℝ) : npRound 14 x = 0 ↔ |x| ≤ 1 / 2 / 10 ^ 14 := by
  constructor
  · intro h
    have := abs_npRound_sub 14 x
    rwa [h, zero_sub, abs_neg] at this
  · intro h
    have h2 : |x * 10 ^ 14| ≤ 1 / 2 := by
      rw [abs_mul, abs_of_pos (by positivity : (0 : ℝ) < 10 ^ 14)]
      rw [div_div, le_div_iff₀ (by positivity)] at h
      linarith
    have h0 : rint (x * 10 ^ 14) = 0 := by
      rw [abs_le] at h2
      have hfl : ⌊x * 10 ^ 14⌋ = 0 ∨ ⌊x * 10 ^ 14⌋ = -1 := by
        have a : ⌊x * 10 ^ 14⌋ ≤ 0 := by
          apply Int.lt_add_one_iff.1
          rw [Int.floor_lt]
          push_cast
          linarith
        have b : -1 ≤ ⌊x * 10 ^ 14⌋ := by
          rw [Int.le_floor]
          push_cast
          linarith
        omega
      unfold rint
      rcases hfl with e | e
      · rw [e]
        simp only [Int.cast_zero, sub_zero]
        split_ifs with h1 h3 h4
        · rfl
        · linarith
        · rfl
        · simp at h4
      · rw [e]
        push_cast
        split_ifs with h1 h3 h4
        · linarith
        · rfl
        · exact absurd h4 (by decide)
        · rfl
    unfold npRound
    rw [h0]
    simp

theorem cellIndex_positive (p : ℝ) : cellIndex false p = ⌊npRound 14 p⌋ := by
  unfold cellIndex
  simp

theorem cellIndex_centered (p : ℝ) : cellIndex true p = ⌊npRound 14 p + 1 / 2⌋ := by
  unfold cellIndex
  simp only [if_true]
  generalize npRound 14 p = q
  have h1 := Int.floor_le q
  have h2 := Int.lt_floor_add_one q
  by_cases h : Int.fract q = 1 / 2
  · rw [if_pos h]
    have hq : q + 1 / 2 = ((⌊q⌋ + 1 : ℤ) : ℝ) := by
      push_cast
      unfold Int.fract at h
      linarith
    rw [hq, rint_intCast, Int.floor_intCast]
  · rw [if_neg h]
    unfold Int.fract at h
    unfold rint
    by_cases h3 : q - (⌊q⌋ : ℝ) < 1 / 2
    · rw [if_pos h3]
      symm
      rw [Int.floor_eq_iff]
      constructor <;> linarith
    · have h4 : 1 / 2 < q - (⌊q⌋ : ℝ) := lt_of_le_of_ne (not_lt.1 h3) (Ne.symm h)
      rw [if_neg h3, if_pos h4]
      symm
      rw [Int.floor_eq_iff]
      push_cast
      constructor <;> linarith

/-- The lower end of the interval of reduced coordinates. -/
noncomputable def cellLow (c : Bool) : ℝ := if c then -(1 / 2) else 0

theorem cellIndex_eq (c : Bool) (p : ℝ) : cellIndex c p = ⌊npRound 14 p - cellLow c⌋ := by
  cases c
  · rw [cellIndex_positive]
    simp [cellLow]
  · rw [cellIndex_centered]
    simp only [cellLow, if_true, sub_neg_eq_add]

theorem cellIndex_sub (c : Bool) (p : ℝ) (n : ℤ) : cellIndex c (p - n) = cellIndex c p - n := by
  rw [cellIndex_eq, cellIndex_eq, npRound_sub_int 14 (by norm_num),
    show npRound 14 p - (n : ℝ) - cellLow c = (npRound 14 p - cellLow c) - n by ring,
    Int.floor_sub_intCast]

theorem cellIndex_zero (c : Bool) : cellIndex c 0 = 0 := by
  rw [cellIndex_eq, npRound_zero]
  cases c
  · simp [cellLow]
  · simp only [cellLow, if_true, Int.floor_eq_iff]
    norm_num

theorem cellIndex_int (c : Bool) (n : ℤ) : cellIndex c (n : ℝ) = n := by
  have := cellIndex_sub c (n : ℝ) n
  rw [sub_self, cellIndex_zero] at this
  omega

/-- The reduced coordinate lies in the cell. -/
theorem cellIndex_window (c : Bool) (p : ℝ) :
    cellLow c - 1 / 2 / 10 ^ 14 ≤ p - cellIndex c p ∧
      p - cellIndex c p ≤ cellLow c + 1 - 1 / 2 / 10 ^ 14 := by
  have hr := abs_le.1 (abs_npRound_sub 14 p)
  rw [cellIndex_eq]
  set q := npRound 14 p with hq
  have h1 := Int.floor_le (q - cellLow c)
  have h2 := Int.lt_floor_add_one (q - cellLow c)
  set n := ⌊q - cellLow c⌋ with hn
  refine ⟨by linarith, ?_⟩
  -- `q` and the ends of the interval are multiples of `10 ^ -14`
  have hmul : q = (rint (p * 10 ^ 14) : ℝ) / 10 ^ 14 := rfl
  have hlow : cellLow c = (((if c then -50000000000000 else 0 : ℤ)) : ℝ) / 10 ^ 14 := by
    cases c <;> norm_num [cellLow]
  have hint : (rint (p * 10 ^ 14) : ℝ) < ((n * 10 ^ 14 + 10 ^ 14 +
      (if c then -50000000000000 else 0 : ℤ) : ℤ) : ℝ) := by
    have h3 : q < n + 1 + cellLow c := by linarith
    rw [hmul, hlow, div_lt_iff₀ (by positivity)] at h3
    have e : ((n : ℝ) + 1 + ((if c then -50000000000000 else 0 : ℤ) : ℝ) / 10 ^ 14) * 10 ^ 14 =
        n * 10 ^ 14 + 10 ^ 14 + ((if c then -50000000000000 else 0 : ℤ) : ℝ) := by ring
    rw [e] at h3
    have e2 : (10 : ℝ) ^ 14 = ((10 ^ 14 : ℤ) : ℝ) := by norm_num
    rw [e2] at h3
    exact_mod_cast h3
  have hle : rint (p * 10 ^ 14) ≤ n * 10 ^ 14 + 10 ^ 14 +
      (if c then -50000000000000 else 0 : ℤ) - 1 := by
    have : rint (p * 10 ^ 14) < n * 10 ^ 14 + 10 ^ 14 + (if c then -50000000000000 else 0 : ℤ) := by
      exact_mod_cast hint
    omega
  have hle' : (rint (p * 10 ^ 14) : ℝ) ≤ n * 10 ^ 14 + 10 ^ 14 +
      ((if c then -50000000000000 else 0 : ℤ) : ℝ) - 1 := by exact_mod_cast hle
  have h4 : q ≤ n + 1 + cellLow c - 1 / 10 ^ 14 := by
    rw [hmul, hlow, div_le_iff₀ (by positivity)]
    have e : ((n : ℝ) + 1 + ((if c then -50000000000000 else 0 : ℤ) : ℝ) / 10 ^ 14 - 1 / 10 ^ 14) *
        10 ^ 14 = n * 10 ^ 14 + 10 ^ 14 + ((if c then -50000000000000 else 0 : ℤ) : ℝ) - 1 := by ring
    rw [e]
    exact hle'
  have h5 : (1 : ℝ) / 2 / 10 ^ 14 + 1 / 2 / 10 ^ 14 = 1 / 10 ^ 14 := by norm_num
  linarith

/-- Coordinates that are multiples of `10 ^ -14` are reduced exactly. -/
theorem cellIndex_exact (c : Bool) (m : ℤ) :
    cellLow c ≤ (m : ℝ) / 10 ^ 14 - cellIndex c ((m : ℝ) / 10 ^ 14) ∧
      (m : ℝ) / 10 ^ 14 - cellIndex c ((m : ℝ) / 10 ^ 14) < cellLow c + 1 := by
  rw [cellIndex_eq, npRound_of_int]
  have h1 := Int.floor_le ((m : ℝ) / 10 ^ 14 - cellLow c)
  have h2 := Int.lt_floor_add_one ((m : ℝ) / 10 ^ 14 - cellLow c)
  constructor <;> linarith

theorem len2_sq (v : ℝ × ℝ) : len2 v ^ 2 = v.1 * v.1 + v.2 * v.2 :=
  Real.sq_sqrt (add_nonneg (mul_self_nonneg _) (mul_self_nonneg _))

theorem len2_nonneg (v : ℝ × ℝ) : 0 ≤ len2 v := Real.sqrt_nonneg _

theorem round_len2 (v : ℝ × ℝ) : npRound 14 (len2 v) = 0 ↔ ¬ NonNegligible v := by
  rw [npRound_eq_zero, abs_of_nonneg (len2_nonneg v)]
  unfold NonNegligible len2
  rw [not_lt, pow_two, pow_two]

theorem not_nonNegligible_zero : ¬ NonNegligible 0 := by
  unfold NonNegligible
  simp only [Prod.fst_zero, Prod.snd_zero]
  norm_num

theorem NonNegligible.ne_zero {v : ℝ × ℝ} (h : NonNegligible v) : v ≠ 0 := by
  rintro rfl
  exact not_nonNegligible_zero h

theorem NonNegligible.sq_ne {v : ℝ × ℝ} (h : NonNegligible v) : v.1 * v.1 + v.2 * v.2 ≠ 0 := by
  intro h0
  apply h.ne_zero
  have h1 : v.1 = 0 := by nlinarith [mul_self_nonneg v.1, mul_self_nonneg v.2]
  have h2 : v.2 = 0 := by nlinarith [mul_self_nonneg v.1, mul_self_nonneg v.2]
  exact Prod.ext h1 h2

/-- What the row vectors of the coordinates satisfy: each is zero or dual to its periodicity vector. -/
structure DualRows (p1 p2 : ℝ × ℝ) (r : (ℝ × ℝ) × (ℝ × ℝ)) : Prop where
  first : (r.1 = 0 ∧ ¬ NonNegligible p1) ∨ (dot2 r.1 p1 = 1 ∧ (dot2 r.1 p2 = 0 ∨ r.2 = 0))
  second : (r.2 = 0 ∧ ¬ NonNegligible p2) ∨ (dot2 r.2 p2 = 1 ∧ (dot2 r.2 p1 = 0 ∨ r.1 = 0))

theorem projRows_indep {p1 p2 : ℝ × ℝ} (h1 : NonNegligible p1) (h2 : NonNegligible p2)
    (h : Indep p1 p2) : projRows p1 p2 = .ok ((p2.2 / det2 p1 p2, -p2.1 / det2 p1 p2),
      (-p1.2 / det2 p1 p2, p1.1 / det2 p1 p2)) := by
  unfold projRows
  rw [if_neg (by rw [round_len2]; simpa using h1), if_neg (by rw [round_len2]; simpa using h2)]
  simp only
  rw [if_neg]
  unfold det2
  exact sub_ne_zero.2 h

theorem projRows_first {p1 p2 : ℝ × ℝ} (h1 : NonNegligible p1) (h2 : ¬ NonNegligible p2) :
    projRows p1 p2 = .ok ((p1.1 / len2 p1 ^ 2, p1.2 / len2 p1 ^ 2), (0, 0)) := by
  unfold projRows
  rw [if_neg (by rw [round_len2]; simpa using h1), if_pos (by rw [round_len2]; exact h2)]

theorem projRows_second {p1 p2 : ℝ × ℝ} (h1 : ¬ NonNegligible p1) (h2 : NonNegligible p2) :
    projRows p1 p2 = .ok ((0, 0), (p2.1 / len2 p2 ^ 2, p2.2 / len2 p2 ^ 2)) := by
  unfold projRows
  rw [if_pos (by rw [round_len2]; exact h1), if_neg (by rw [round_len2]; simpa using h2)]

theorem projRows_none {p1 p2 : ℝ × ℝ} (h1 : ¬ NonNegligible p1) (h2 : ¬ NonNegligible p2) :
    projRows p1 p2 = .ok ((0, 0), (0, 0)) := by
  unfold projRows
  rw [if_pos (by rw [round_len2]; exact h1), if_pos (by rw [round_len2]; exact h2)]

theorem dot_dual_self {v : ℝ × ℝ} (h : NonNegligible v) :
    dot2 (v.1 / len2 v ^ 2, v.2 / len2 v ^ 2) v = 1 := by
  unfold dot2
  rw [len2_sq]
  rw [div_mul_eq_mul_div, div_mul_eq_mul_div, ← add_div, div_self h.sq_ne]

theorem det2_ne {p1 p2 : ℝ × ℝ} (h : Indep p1 p2) : det2 p1 p2 ≠ 0 := sub_ne_zero.2 h

theorem dual_indep {p1 p2 : ℝ × ℝ} (h : Indep p1 p2) :
    dot2 (p2.2 / det2 p1 p2, -p2.1 / det2 p1 p2) p1 = 1 ∧
    dot2 (p2.2 / det2 p1 p2, -p2.1 / det2 p1 p2) p2 = 0 ∧
    dot2 (-p1.2 / det2 p1 p2, p1.1 / det2 p1 p2) p1 = 0 ∧
    dot2 (-p1.2 / det2 p1 p2, p1.1 / det2 p1 p2) p2 = 1 := by
  have hd := det2_ne h
  unfold dot2
  refine ⟨?_, ?_, ?_, ?_⟩
  · field_simp
    unfold det2
    ring
  · ring
  · ring
  · field_simp
    unfold det2
    ring

/-- The library accepts admissible periodicity vectors. -/
theorem projRows_ok {p1 p2 : ℝ × ℝ} (h : Periods p1 p2) :
    ∃ r, projRows p1 p2 = .ok r ∧ DualRows p1 p2 r := by
  by_cases h1 : NonNegligible p1 <;> by_cases h2 : NonNegligible p2
  · have hi := h.indep h1.ne_zero h2.ne_zero
    obtain ⟨a, b, c, d⟩ := dual_indep hi
    exact ⟨_, projRows_indep h1 h2 hi, Or.inr ⟨a, Or.inl b⟩, Or.inr ⟨d, Or.inl c⟩⟩
  · exact ⟨_, projRows_first h1 h2, Or.inr ⟨dot_dual_self h1, Or.inr rfl⟩, Or.inl ⟨rfl, h2⟩⟩
  · exact ⟨_, projRows_second h1 h2, Or.inl ⟨rfl, h1⟩, Or.inr ⟨dot_dual_self h2, Or.inr rfl⟩⟩
  · exact ⟨_, projRows_none h1 h2, Or.inl ⟨rfl, h1⟩, Or.inl ⟨rfl, h2⟩⟩

theorem dot2_zero (v : ℝ × ℝ) : dot2 0 v = 0 := by simp [dot2]

/-- The numbers of subtracted vectors for a point. -/
noncomputable def idx1 (r : (ℝ × ℝ) × (ℝ × ℝ)) (c : Bool) (v : ℝ × ℝ) : ℤ := cellIndex c (dot2 r.1 v)
noncomputable def idx2 (r : (ℝ × ℝ) × (ℝ × ℝ)) (c : Bool) (v : ℝ × ℝ) : ℤ := cellIndex c (dot2 r.2 v)

/-- Shifting a point by integer multiples shifts the numbers. -/
theorem idx_shift {p1 p2 : ℝ × ℝ} {r : (ℝ × ℝ) × (ℝ × ℝ)} (hr : DualRows p1 p2 r) (c : Bool)
    (v : ℝ × ℝ) (a b : ℤ) (ha : r.1 = 0 → a = 0) (hb : r.2 = 0 → b = 0) :
    idx1 r c (v - a • p1 - b • p2) = idx1 r c v - a ∧
    idx2 r c (v - a • p1 - b • p2) = idx2 r c v - b := by
  have hlin : ∀ s : ℝ × ℝ, dot2 s (v - a • p1 - b • p2) =
      dot2 s v - a * dot2 s p1 - b * dot2 s p2 := by
    intro s
    simp only [dot2, Prod.fst_sub, Prod.snd_sub, Prod.smul_fst, Prod.smul_snd]
    simp only [zsmul_eq_mul]
    ring
  unfold idx1 idx2
  constructor
  · rcases hr.first with ⟨h1, -⟩ | ⟨h1, h2⟩
    · rw [h1, dot2_zero, dot2_zero, ha h1, sub_zero]
    · have : (b : ℝ) * dot2 r.1 p2 = 0 := by
        rcases h2 with h2 | h2
        · rw [h2, mul_zero]
        · rw [hb h2, Int.cast_zero, zero_mul]
      rw [hlin, h1, this, sub_zero, mul_one, cellIndex_sub]
  · rcases hr.second with ⟨h1, -⟩ | ⟨h1, h2⟩
    · rw [h1, dot2_zero, dot2_zero, hb h1, sub_zero]
    · have : (a : ℝ) * dot2 r.2 p1 = 0 := by
        rcases h2 with h2 | h2
        · rw [h2, mul_zero]
        · rw [ha h2, Int.cast_zero, zero_mul]
      rw [hlin, h1, this, sub_zero, mul_one, cellIndex_sub]

theorem idx1_zero {r : (ℝ × ℝ) × (ℝ × ℝ)} (c : Bool) (v : ℝ × ℝ) (h : r.1 = 0) : idx1 r c v = 0 := by
  unfold idx1
  rw [h, dot2_zero, cellIndex_zero]

theorem idx2_zero {r : (ℝ × ℝ) × (ℝ × ℝ)} (c : Bool) (v : ℝ × ℝ) (h : r.2 = 0) : idx2 r c v = 0 := by
  unfold idx2
  rw [h, dot2_zero, cellIndex_zero]

/-- The reduced point. -/
noncomputable def redPoint (p1 p2 : ℝ × ℝ) (r : (ℝ × ℝ) × (ℝ × ℝ)) (c : Bool) (v : ℝ × ℝ) : ℝ × ℝ :=
  v - idx1 r c v • p1 - idx2 r c v • p2

theorem reduceCol_eq (p1 p2 : ℝ × ℝ) (r : (ℝ × ℝ) × (ℝ × ℝ)) (c : Bool) (x y : ℝ) :
    reduceCol p1 p2 r c x y = ⟨(redPoint p1 p2 r c (x, y)).1, (redPoint p1 p2 r c (x, y)).2,
      idx1 r c (x, y), idx2 r c (x, y)⟩ := by
  unfold reduceCol redPoint idx1 idx2
  simp

theorem redPoint_idem {p1 p2 : ℝ × ℝ} {r : (ℝ × ℝ) × (ℝ × ℝ)} (hr : DualRows p1 p2 r) (c : Bool)
    (v : ℝ × ℝ) : idx1 r c (redPoint p1 p2 r c v) = 0 ∧ idx2 r c (redPoint p1 p2 r c v) = 0 ∧
      redPoint p1 p2 r c (redPoint p1 p2 r c v) = redPoint p1 p2 r c v := by
  have h := idx_shift hr c v (idx1 r c v) (idx2 r c v) (idx1_zero c v) (idx2_zero c v)
  rw [sub_self, sub_self] at h
  have h1 : idx1 r c (redPoint p1 p2 r c v) = 0 := h.1
  have h2 : idx2 r c (redPoint p1 p2 r c v) = 0 := h.2
  refine ⟨h1, h2, ?_⟩
  rw [redPoint, h1, h2]
  simp

theorem redPoint_shift {p1 p2 : ℝ × ℝ} (hp : Periods p1 p2) {r : (ℝ × ℝ) × (ℝ × ℝ)}
    (hr : DualRows p1 p2 r) (c : Bool) (v w : ℝ × ℝ) (h : SameClass p1 p2 v w) :
    redPoint p1 p2 r c w = redPoint p1 p2 r c v := by
  obtain ⟨a, b, rfl⟩ := h
  -- multiples of a zero vector can be dropped
  have key : ∀ a b : ℤ, (r.1 = 0 → a = 0) → (r.2 = 0 → b = 0) →
      redPoint p1 p2 r c (v + a • p1 + b • p2) = redPoint p1 p2 r c v := by
    intro a b ha hb
    have h := idx_shift hr c (v + a • p1 + b • p2) a b ha hb
    have hv : v + a • p1 + b • p2 - a • p1 - b • p2 = v := by abel
    rw [hv] at h
    unfold redPoint
    rw [h.1, h.2, sub_smul, sub_smul]
    abel
  have z1 : r.1 = 0 → p1 = 0 := by
    intro h0
    rcases hp.first with h | h
    · exact h
    · rcases hr.first with ⟨-, h1⟩ | ⟨h1, -⟩
      · exact absurd h h1
      · rw [h0, dot2_zero] at h1
        exact absurd h1 (by norm_num)
  have z2 : r.2 = 0 → p2 = 0 := by
    intro h0
    rcases hp.second with h | h
    · exact h
    · rcases hr.second with ⟨-, h1⟩ | ⟨h1, -⟩
      · exact absurd h h1
      · rw [h0, dot2_zero] at h1
        exact absurd h1 (by norm_num)
  classical
  have e1 : (if r.1 = 0 then (0 : ℤ) else a) • p1 = a • p1 := by
    split_ifs with h
    · rw [z1 h]; simp
    · rfl
  have e2 : (if r.2 = 0 then (0 : ℤ) else b) • p2 = b • p2 := by
    split_ifs with h
    · rw [z2 h]; simp
    · rfl
  rw [← e1, ← e2]
  exact key _ _ (fun h => if_pos h) (fun h => if_pos h)

theorem reduceVectors_ok {p1 p2 : ℝ × ℝ} {r : (ℝ × ℝ) × (ℝ × ℝ)} (hr : projRows p1 p2 = .ok r)
    (xs ys : List ℝ) (hl : xs.length = ys.length) {mode : String}
    (hm : mode = "positive" ∨ mode = "centered") :
    reduceVectors p1 p2 xs ys mode =
      .ok (List.zipWith (reduceCol p1 p2 r (mode = "centered")) xs ys) := by
  unfold reduceVectors
  rw [if_neg (by simpa using hl), if_neg (by rcases hm with h | h <;> simp [h]), hr]
  rfl

end ED
