import Verif.Lemmas.Geometry
import Mathlib.Analysis.SpecialFunctions.Complex.Circle

/-! # Periodic geometries: reduced distances and boundary phases -/

namespace ED

open Geometry Classical

namespace Lattice

/-- The facts about a lattice on which the distances depend. -/
structure Good (L : Lattice) : Prop where
  latt1 : NonNegligible L.latt1
  latt2 : NonNegligible L.latt2
  indep : Indep L.latt1 L.latt2
  periods : Periods L.per1 L.per2
  recip : getReciprocalVects L.per1 L.per2 = .ok (L.recPer1, L.recPer2)

theorem init_fields {l1 l2 p1 p2 : ℝ × ℝ} {basis : List (ℝ × ℝ)} {f1 f2 : ℝ} {L : Lattice}
    (h : Lattice.init l1 l2 basis p1 p2 f1 f2 = .ok L) :
    L.latt1 = l1 ∧ L.latt2 = l2 ∧ L.basis = basis ∧ L.per1 = p1 ∧ L.per2 = p2 ∧ L.phase1 = f1 ∧
      L.phase2 = f2 ∧ getReciprocalVects p1 p2 = .ok (L.recPer1, L.recPer2) ∧ L.validate = .ok true := by
  unfold Lattice.init at h
  cases hl : getReciprocalVects l1 l2 with
  | error e => rw [hl] at h; exact absurd h (by simp [bind, Except.bind])
  | ok rl =>
    cases hp : getReciprocalVects p1 p2 with
    | error e => rw [hl, hp] at h; exact absurd h (by simp [bind, Except.bind])
    | ok rp =>
      rw [hl, hp] at h
      simp only [bind, Except.bind] at h
      cases hv : Lattice.validate ⟨l1, l2, rl.1, rl.2, basis, p1, p2, rp.1, rp.2, f1, f2⟩ with
      | error e => rw [hv] at h; exact absurd h (by simp)
      | ok b =>
        rw [hv] at h
        cases b
        · exact absurd h (by simp [throw, throwThe, MonadExceptOf.throw])
        · simp only [if_true, pure, Except.pure, Except.ok.injEq] at h
          subst h
          exact ⟨rfl, rfl, rfl, rfl, rfl, rfl, rfl, rfl, hv⟩

theorem round_det_ne {v w : ℝ × ℝ} (h : npRound 14 (det2 v w) ≠ 0) : Indep v w := by
  intro h0
  apply h
  rw [show det2 v w = 0 from sub_eq_zero.2 h0, npRound_zero]

/-- A lattice accepted by the constructor is good if its periodicity vectors are zero or not
negligible. -/
theorem init_good {l1 l2 p1 p2 : ℝ × ℝ} {basis : List (ℝ × ℝ)} {f1 f2 : ℝ} {L : Lattice}
    (h : Lattice.init l1 l2 basis p1 p2 f1 f2 = .ok L) (h1 : p1 = 0 ∨ NonNegligible p1)
    (h2 : p2 = 0 ∨ NonNegligible p2) : L.Good := by
  obtain ⟨e1, e2, _, e4, e5, _, _, hr, hv⟩ := init_fields h
  unfold validate at hv
  by_cases c1 : L.validLatt
  · by_cases c2 : L.validPer
    · unfold validLatt at c1
      push Not at c1
      obtain ⟨a1, a2, a3⟩ := c1
      rw [ne_eq, round_len2, not_not] at a1 a2
      refine ⟨a1, a2, round_det_ne a3, ⟨e4 ▸ h1, e5 ▸ h2, ?_⟩, ?_⟩
      · intro n1 n2
        have b1 := (h1.resolve_left (e4 ▸ n1))
        have b2 := (h2.resolve_left (e5 ▸ n2))
        unfold validPer at c2
        push Not at c2
        refine round_det_ne (c2 ?_ ?_)
        · rw [ne_eq, round_len2, not_not, e4]
          exact b1
        · rw [ne_eq, round_len2, not_not, e5]
          exact b2
      · rw [e4, e5]
        exact hr
    · rw [if_neg (not_not.2 c1), if_pos c2] at hv
      exact absurd hv (by simp)
  · rw [if_pos c1] at hv
    exact absurd hv (by simp)

/-- The separation of two sites. -/
noncomputable def sep (L : Lattice) (r : (ℝ × ℝ) × (ℝ × ℝ)) (v : ℝ × ℝ) : ℝ × ℝ :=
  redPoint L.per1 L.per2 r true v

/-- The rows of the coordinates along the lattice vectors. -/
noncomputable def lattRows (L : Lattice) : (ℝ × ℝ) × (ℝ × ℝ) :=
  ((L.latt2.2 / det2 L.latt1 L.latt2, -L.latt2.1 / det2 L.latt1 L.latt2),
    (-L.latt1.2 / det2 L.latt1 L.latt2, L.latt1.1 / det2 L.latt1 L.latt2))

theorem Good.pairDistance_ok {L : Lattice} (h : L.Good) {r : (ℝ × ℝ) × (ℝ × ℝ)}
    (hr : projRows L.per1 L.per2 = .ok r) (dx dy : ℝ) :
    L.pairDistance dx dy = .ok ⟨(L.sep r (dx, dy)).1, (L.sep r (dx, dy)).2,
      idx1 L.lattRows true (L.sep r (dx, dy)), idx2 L.lattRows true (L.sep r (dx, dy))⟩ := by
  unfold pairDistance
  rw [reduceVectors_ok hr [dx] [dy] rfl (Or.inr rfl)]
  simp only [List.zipWith_cons_cons, List.zipWith_nil_left, bind, Except.bind, pure, Except.pure]
  rw [reduceVectors_ok (projRows_indep h.latt1 h.latt2 h.indep) [(reduceCol L.per1 L.per2 r (decide True) dx dy).x]
    [(reduceCol L.per1 L.per2 r (decide True) dx dy).y] rfl (Or.inr rfl)]
  simp only [List.zipWith_cons_cons, List.zipWith_nil_left]
  rw [reduceCol_eq, reduceCol_eq]
  simp only [decide_true]
  rfl

end Lattice

theorem mapM_ok' {α β : Type} (l : List α) (g : α → Res β) (f : α → β) (hg : ∀ a ∈ l, g a = .ok (f a)) :
    l.mapM g = .ok (l.map f) := by
  induction l with
  | nil => rfl
  | cons a l ih =>
    rw [List.mapM_cons, hg a (List.mem_cons_self ..), ih fun b hb => hg b (List.mem_cons_of_mem _ hb)]
    rfl

namespace Lattice

/-- The four matrices. -/
theorem Good.reducedDistance_ok {L : Lattice} (h : L.Good) {r : (ℝ × ℝ) × (ℝ × ℝ)}
    (hr : projRows L.per1 L.per2 = .ok r) (xs ys : List ℝ) (hl : xs.length ≤ ys.length) :
    ∃ X Y N1 N2 : Arr ℝ, L.reducedDistance xs ys = .ok (X, Y, N1, N2) ∧
      (X.rows = xs.length ∧ X.cols = xs.length) ∧ (Y.rows = xs.length ∧ Y.cols = xs.length) ∧
      (N1.rows = xs.length ∧ N1.cols = xs.length) ∧ (N2.rows = xs.length ∧ N2.cols = xs.length) ∧
      (∀ i j, X.e i j = -X.e j i ∧ Y.e i j = -Y.e j i ∧ N1.e i j = -N1.e j i ∧ N2.e i j = N2.e j i ∧
        X.e i i = 0 ∧ Y.e i i = 0 ∧ N1.e i i = 0 ∧ N2.e i i = 0) ∧
      ∀ i < xs.length, ∀ j < i,
        (X.e i j, Y.e i j) = L.sep r (xs.getD i 0 - xs.getD j 0, ys.getD i 0 - ys.getD j 0) ∧
        N1.e i j = idx1 L.lattRows true
          (L.sep r (xs.getD i 0 - xs.getD j 0, ys.getD i 0 - ys.getD j 0)) ∧
        N2.e i j = idx2 L.lattRows true
          (L.sep r (xs.getD i 0 - xs.getD j 0, ys.getD i 0 - ys.getD j 0)) := by
  set F : ℕ → ℕ → Reduced := fun i j =>
    let s := L.sep r (xs.getD i 0 - xs.getD j 0, ys.getD i 0 - ys.getD j 0)
    ⟨s.1, s.2, idx1 L.lattRows true s, idx2 L.lattRows true s⟩ with hF
  have htab : ((List.range xs.length).mapM fun ii => (List.range ii).mapM fun jj => L.pairAt xs ys ii jj) =
      .ok ((List.range xs.length).map fun ii => (List.range ii).map fun jj => F ii jj) := by
    apply mapM_ok'
    intro ii hi
    have hi' := List.mem_range.1 hi
    apply mapM_ok'
    intro jj hj
    have hj' := (List.mem_range.1 hj).trans hi'
    unfold pairAt
    rw [List.getElem?_eq_getElem hi', List.getElem?_eq_getElem hj',
      List.getElem?_eq_getElem (hi'.trans_le hl), List.getElem?_eq_getElem (hj'.trans_le hl)]
    simp only
    rw [h.pairDistance_ok hr]
    simp only [hF]
    rw [List.getD_eq_getElem?_getD, List.getD_eq_getElem?_getD, List.getD_eq_getElem?_getD,
      List.getD_eq_getElem?_getD, List.getElem?_eq_getElem hi', List.getElem?_eq_getElem hj',
      List.getElem?_eq_getElem (hi'.trans_le hl), List.getElem?_eq_getElem (hj'.trans_le hl)]
    rfl
  set G : ℕ → ℕ → Reduced := fun i j => (((List.range xs.length).map fun ii =>
        (List.range ii).map fun jj => F ii jj).getD i []).getD j ⟨0, 0, 0, 0⟩ with hG
  have hGF : ∀ i < xs.length, ∀ j < i, G i j = F i j := by
    intro i hi j hj
    simp only [hG]
    simp [List.getD_eq_getElem?_getD, hi, hj]
  refine ⟨(distanceMats xs.length G).1, (distanceMats xs.length G).2.1, (distanceMats xs.length G).2.2.1,
    (distanceMats xs.length G).2.2.2, ?_, ⟨rfl, rfl⟩, ⟨rfl, rfl⟩, ⟨rfl, rfl⟩, ⟨rfl, rfl⟩, ?_, ?_⟩
  · unfold reducedDistance
    simp only
    rw [htab]
    rfl
  · intro i j
    simp only [distanceMats, lt_irrefl, if_false, and_self, and_true]
    rcases lt_trichotomy i j with hij | rfl | hij
    · rw [if_neg (not_lt.2 hij.le), if_pos hij, if_pos hij, if_neg (not_lt.2 hij.le), if_pos hij,
        if_pos hij, if_neg (not_lt.2 hij.le), if_pos hij, if_pos hij, if_neg (not_lt.2 hij.le), if_pos hij,
        if_pos hij, neg_neg]
      exact ⟨rfl, rfl, rfl, rfl⟩
    · simp
    · rw [if_pos hij, if_neg (not_lt.2 hij.le), if_pos hij, if_pos hij, if_neg (not_lt.2 hij.le),
        if_pos hij, if_pos hij, if_neg (not_lt.2 hij.le), if_pos hij, if_pos hij, if_neg (not_lt.2 hij.le),
        if_pos hij, neg_neg, neg_neg, neg_neg, neg_neg]
      exact ⟨rfl, rfl, rfl, rfl⟩
  · intro i hi j hj
    simp only [distanceMats, hj, if_true, hGF i hi j hj, hF]
    exact ⟨trivial, trivial, trivial⟩

end Lattice

end ED

namespace ED

open Geometry Classical

namespace Lattice

/-- The angle of the phase factor for a separation. -/
noncomputable def angle (L : Lattice) (v : ℝ × ℝ) : ℝ :=
  L.phase1 * (v.1 * L.recPer1.1 + v.2 * L.recPer1.2) + L.phase2 * (v.1 * L.recPer2.1 + v.2 * L.recPer2.2)

theorem angle_add (L : Lattice) (v w : ℝ × ℝ) : L.angle (v + w) = L.angle v + L.angle w := by
  simp only [angle, Prod.fst_add, Prod.snd_add]
  ring

theorem angle_neg (L : Lattice) (v : ℝ × ℝ) : L.angle (-v) = -L.angle v := by
  simp only [angle, Prod.fst_neg, Prod.snd_neg]
  ring

theorem angle_zero (L : Lattice) : L.angle 0 = 0 := by simp [angle]

/-- Some imaginary part is large enough for the complex matrix to be kept. -/
def KeepsComplex (L : Lattice) (X Y : Arr ℝ) : Prop :=
  ∃ i < X.rows, ∃ j < X.rows, (10 : ℝ) ^ (-14 : ℤ) < Real.sin (L.angle (X.e i j, Y.e i j))

theorem phase_entry (L : Lattice) (x y : ℝ) :
    Complex.exp (Complex.I * L.phase1 * (x * L.recPer1.1 + y * L.recPer1.2)) *
      Complex.exp (Complex.I * L.phase2 * (x * L.recPer2.1 + y * L.recPer2.2)) =
    Complex.exp (L.angle (x, y) * Complex.I) := by
  rw [← Complex.exp_add]
  congr 1
  unfold angle
  push_cast
  ring

theorem phaseMat_eq (L : Lattice) (X Y : Arr ℝ) :
    (L.KeepsComplex X Y → L.phaseMat X Y =
      ⟨X.rows, X.rows, fun i j => Complex.exp (L.angle (X.e i j, Y.e i j) * Complex.I)⟩) ∧
    (¬ L.KeepsComplex X Y → L.phaseMat X Y =
      ⟨X.rows, X.rows, fun i j => (Real.cos (L.angle (X.e i j, Y.e i j)) : ℂ)⟩) := by
  have hre : ∀ t : ℝ, (Complex.exp (t * Complex.I)).re = Real.cos t := Complex.exp_ofReal_mul_I_re
  have him : ∀ t : ℝ, (Complex.exp (t * Complex.I)).im = Real.sin t := Complex.exp_ofReal_mul_I_im
  unfold phaseMat KeepsComplex
  simp only [phase_entry, hre, him]
  exact ⟨fun h => if_pos h, fun h => if_neg h⟩

end Lattice

/-- A number close to one in modulus rounds to one. -/
theorem round_cos (t : ℝ) (h : |Real.sin t| ≤ (10 : ℝ) ^ (-14 : ℤ)) :
    1 - 1 / 10 ^ 28 ≤ |Real.cos t| ∧ |Real.cos t| ≤ 1 ∧ npRound 14 |Real.cos t| = 1 := by
  have h1 := Real.sin_sq_add_cos_sq t
  have h2 : Real.sin t ^ 2 ≤ 1 / 10 ^ 28 := by
    have : Real.sin t ^ 2 ≤ ((10 : ℝ) ^ (-14 : ℤ)) ^ 2 := by
      rw [← sq_abs (Real.sin t)]
      exact pow_le_pow_left₀ (abs_nonneg _) h 2
    refine this.trans (le_of_eq ?_)
    norm_num
  have h3 := Real.abs_cos_le_one t
  have h4 : |Real.cos t| ^ 2 ≤ |Real.cos t| := by nlinarith [abs_nonneg (Real.cos t)]
  rw [sq_abs] at h4
  have h5 : 1 - 1 / 10 ^ 28 ≤ |Real.cos t| := by linarith
  refine ⟨h5, h3, ?_⟩
  have h6 : npRound 14 (|Real.cos t| - ((1 : ℤ) : ℝ)) = 0 := by
    rw [npRound_eq_zero, abs_le]
    constructor
    · push_cast
      have : (1 : ℝ) / 10 ^ 28 ≤ 1 / 2 / 10 ^ 14 := by norm_num
      linarith
    · push_cast
      have : (0 : ℝ) ≤ 1 / 2 / 10 ^ 14 := by norm_num
      linarith
  rw [npRound_sub_int 14 (by norm_num)] at h6
  push_cast at h6
  linarith

namespace Lattice

/-- Without a large imaginary part all are small. -/
theorem sin_small {L : Lattice} {X Y : Arr ℝ} (h : ¬ L.KeepsComplex X Y)
    (hX : ∀ i j, X.e i j = -X.e j i) (hY : ∀ i j, Y.e i j = -Y.e j i) :
    ∀ i < X.rows, ∀ j < X.rows, |Real.sin (L.angle (X.e i j, Y.e i j))| ≤ (10 : ℝ) ^ (-14 : ℤ) := by
  intro i hi j hj
  unfold KeepsComplex at h
  push Not at h
  rw [abs_le]
  refine ⟨?_, h i hi j hj⟩
  have := h j hj i hi
  rw [hX j i, hY j i, show (-X.e i j, -Y.e i j) = -(X.e i j, Y.e i j) from rfl, angle_neg, Real.sin_neg] at this
  linarith

theorem phaseMat_valid (L : Lattice) {X Y : Arr ℝ} {n : ℕ} (hn : X.rows = n)
    (hX : ∀ i j, X.e i j = -X.e j i) (hY : ∀ i j, Y.e i j = -Y.e j i) :
    validPhase (L.phaseMat X Y) n := by
  have hang : ∀ i j, L.angle (X.e j i, Y.e j i) = -L.angle (X.e i j, Y.e i j) := by
    intro i j
    rw [hX j i, hY j i, show (-X.e i j, -Y.e i j) = -(X.e i j, Y.e i j) from rfl, angle_neg]
  by_cases hc : L.KeepsComplex X Y
  · rw [(phaseMat_eq L X Y).1 hc]
    refine ⟨hn, hn, fun i _ j _ => ?_, fun i _ j _ => ?_⟩
    · simp only
      rw [hang i j, ← Complex.exp_conj]
      have e : (starRingEnd ℂ) (((-L.angle (X.e i j, Y.e i j) : ℝ) : ℂ) * Complex.I) =
          (L.angle (X.e i j, Y.e i j) : ℂ) * Complex.I := by
        rw [map_mul, Complex.conj_ofReal, Complex.conj_I]
        push_cast
        ring
      rw [e, sub_self, norm_zero]
      exact npRound_zero (K := ℝ) 14
    · simp only [Complex.norm_exp_ofReal_mul_I]
      have := npRound_int (K := ℝ) 14 1
      simpa using this
  · rw [(phaseMat_eq L X Y).2 hc]
    refine ⟨hn, hn, fun i _ j _ => ?_, fun i hi j hj => ?_⟩
    · simp only
      rw [hang i j, Real.cos_neg, Complex.conj_ofReal, sub_self, norm_zero]
      exact npRound_zero 14
    · simp only [Complex.norm_real, Real.norm_eq_abs]
      exact (round_cos _ (sin_small hc hX hY i hi j hj)).2.2

theorem unitAdjacency_valid {X Y : Arr ℝ} {n : ℕ} (hr : X.rows = n) (hc : X.cols = n)
    (hX : ∀ i j, X.e i j = -X.e j i) (hY : ∀ i j, Y.e i j = -Y.e j i) :
    validAdjacency (unitAdjacency X Y) n := by
  have hsymm : ∀ i j, (unitAdjacency X Y).e i j = (unitAdjacency X Y).e j i := by
    intro i j
    simp only [unitAdjacency]
    rw [hX i j, hY i j, neg_sq, neg_sq]
  refine ⟨⟨by simp [unitAdjacency, Arr.transpose, hr, hc], by simp [unitAdjacency, Arr.transpose, hr, hc],
    fun i _ j _ => hsymm i j⟩, fun i _ j _ => ?_, hr, hc⟩
  simp only [unitAdjacency]
  split_ifs
  · exact Or.inr rfl
  · exact Or.inl rfl

/-- The constructor accepts every good lattice. -/
theorem Good.init_ok {L : Lattice} (h : L.Good) (xs ys : List ℝ) (hl : xs.length ≤ ys.length)
    (A : Option (Arr ℝ)) (P : Option (Arr ℂ)) {X Y N1 N2 : Arr ℝ}
    (hd : L.reducedDistance xs ys = .ok (X, Y, N1, N2)) (hr : X.rows = xs.length ∧ X.cols = xs.length)
    (hX : ∀ i j, X.e i j = -X.e j i) (hY : ∀ i j, Y.e i j = -Y.e j i) :
    Geometry.init xs ys A P (some L) =
      .ok ⟨some L, xs, ys, X, Y, unitAdjacency X Y, L.phaseMat X Y⟩ := by
  unfold Geometry.init
  simp only
  rw [hd]
  simp only [bind, Except.bind, pure, Except.pure]
  rw [if_pos]
  exact ⟨unitAdjacency_valid hr.1 hr.2 hX hY, phaseMat_valid L hr.1 hX hY⟩

/-- The reciprocal vectors applied to the periodicity vectors. -/
theorem Good.angle_period {L : Lattice} (h : L.Good) (a b : ℤ) (ha : L.per1 = 0 → a = 0)
    (hb : L.per2 = 0 → b = 0) : L.angle (a • L.per1 + b • L.per2) = L.phase1 * a + L.phase2 * b := by
  have hr := h.recip
  have hp := h.periods
  unfold getReciprocalVects at hr
  have lin : ∀ (r : ℝ × ℝ), (a • L.per1 + b • L.per2).1 * r.1 + (a • L.per1 + b • L.per2).2 * r.2 =
      a * dot2 r L.per1 + b * dot2 r L.per2 := by
    intro r
    simp only [dot2, Prod.fst_add, Prod.snd_add, Prod.smul_fst, Prod.smul_snd]
    simp only [zsmul_eq_mul]
    ring
  unfold angle
  rw [lin, lin]
  by_cases h1 : L.per1 = 0 <;> by_cases h2 : L.per2 = 0
  · have h1' : L.per1 = (0, 0) := h1
    have h2' : L.per2 = (0, 0) := h2
    rw [ha h1, hb h2]
    simp
  · have h1' : L.per1 = (0, 0) := h1
    have h2' : ¬ L.per2 = (0, 0) := h2
    simp only [h1', h2', ne_eq, not_true, not_false_eq_true, and_true, and_false, if_false, if_true,
      Except.ok.injEq, Prod.mk.injEq] at hr
    obtain ⟨e1, e2⟩ := hr
    have hn := (hp.second.resolve_left h2)
    rw [← e1, ← e2, dot_dual_self hn, ha h1]
    simp [dot2]
  · have h1' : ¬ L.per1 = (0, 0) := h1
    have h2' : L.per2 = (0, 0) := h2
    simp only [h1', h2', ne_eq, not_true, not_false_eq_true, and_true, and_false, if_false, if_true,
      Except.ok.injEq, Prod.mk.injEq] at hr
    obtain ⟨e1, e2⟩ := hr
    have hn := (hp.first.resolve_left h1)
    rw [← e1, ← e2, dot_dual_self hn, hb h2]
    simp [dot2]
  · have h1' : ¬ L.per1 = (0, 0) := h1
    have h2' : ¬ L.per2 = (0, 0) := h2
    have hi := hp.indep h1 h2
    simp only [h1', h2', ne_eq, not_false_eq_true, and_true, if_true, det2_ne hi, if_false,
      Except.ok.injEq, Prod.mk.injEq] at hr
    obtain ⟨e1, e2⟩ := hr
    obtain ⟨d1, d2, d3, d4⟩ := dual_indep hi
    rw [← e1, ← e2, d1, d2, d3, d4]
    ring

end Lattice

end ED
