import Verif.Model.Nlce
import Verif.Lemmas.Broadcast
import Mathlib.Algebra.BigOperators.Intervals
import Mathlib.Algebra.BigOperators.Field
import Mathlib.Algebra.Field.GeomSum
import Mathlib.Analysis.SpecificLimits.Normed
import Mathlib.Data.Nat.Choose.Sum
import Mathlib.Data.Real.Basic
import Mathlib.Tactic.Ring
import Mathlib.Tactic.FieldSimp
import Mathlib.Tactic.Linarith
import Mathlib.Tactic.Positivity
import Mathlib.Tactic.NormNum
import Mathlib.Tactic.IntervalCases

/-! # Linked cluster expansion weights and Euler resummation (C54-C56) -/

namespace ED.Props

open scoped BigOperators

/-! ## Weights -/

/-- The value of the row computed in one pass of the loop. -/
theorem row_value (P W : ND ℝ) (coeffs : ℕ → ℝ) (n k : ℕ) (t : List ℕ) (ht : 1 ∉ t)
    (hP : P.shape = n :: (List.replicate k 1 ++ t)) (hW : W.shape = n :: (List.replicate k 1 ++ t))
    (i a b : ℕ) :
    (rowDot coeffs a b W).squeeze.shape = t ∧
    (∀ u, Inside u t → (rowDot coeffs a b W).squeeze.data u =
      ∑ j ∈ Finset.Ico a b, coeffs j * W.data (j :: (List.replicate k 0 ++ u))) ∧
    ∃ r, (P.row i).zip (· - ·) (rowDot coeffs a b W).squeeze = .ok r ∧
      r.shape = List.replicate k 1 ++ t ∧ ∀ idx, Inside idx (List.replicate k 1 ++ t) →
        r.data idx = P.data (i :: idx) - ∑ j ∈ Finset.Ico a b, coeffs j * W.data (j :: idx) := by
  have hs : (rowDot coeffs a b W).squeeze.shape = t := by
    unfold ND.squeeze rowDot
    simp only [hW, List.tail_cons]
    rw [List.filter_cons_of_neg (by simp), filter_ones k t ht]
  have hd : ∀ u, Inside u t → (rowDot coeffs a b W).squeeze.data u =
      ∑ j ∈ Finset.Ico a b, coeffs j * W.data (j :: (List.replicate k 0 ++ u)) := by
    intro u hu
    unfold ND.squeeze rowDot
    simp only [hW, List.tail_cons, unsqueeze, if_true, unsqueeze_ones k t u ht hu]
  refine ⟨hs, hd, ⟨List.replicate k 1 ++ t, fun idx => (P.row i).data (bcIdx (P.row i).shape idx) -
      (rowDot coeffs a b W).squeeze.data (bcIdx (rowDot coeffs a b W).squeeze.shape idx)⟩,
    ?_, rfl, ?_⟩
  · unfold ND.zip
    have : (P.row i).shape = List.replicate k 1 ++ t := by
      unfold ND.row
      rw [hP, List.tail_cons]
    rw [this, hs, broadcastShape_suffix]
  · intro idx hidx
    have hr : (P.row i).shape = List.replicate k 1 ++ t := by
      unfold ND.row
      rw [hP, List.tail_cons]
    obtain ⟨u, rfl, hu⟩ := inside_ones k t idx hidx
    simp only [hr, hs]
    rw [bcIdx_self _ _ hidx, bcIdx_suffix t u _ hu, hd u hu]
    rfl

theorem weights_loop (P M : ND ℝ) (n k : ℕ) (t : List ℕ) (ht : 1 ∉ t)
    (hP : P.shape = n :: (List.replicate k 1 ++ t)) (hM : M.shape = [n, n]) :
    ∃ W, nlceWeights P M = .ok W ∧ W.shape = P.shape ∧
      ∀ c < n, ∀ idx, Inside idx (List.replicate k 1 ++ t) →
        W.data (c :: idx) = P.data (c :: idx) -
          ∑ j ∈ Finset.range c, M.data [c, j] * W.data (j :: idx) := by
  unfold nlceWeights
  have hn : P.shape.headD 0 = n := by rw [hP]; rfl
  rw [hn]
  obtain ⟨W, hW, hsh, -, hval⟩ := foldlM_range_inv (fun W ii => do
      if ¬ ii < M.shape.headD 0 then throw .index
      if M.shape.getD 1 0 ≠ n then throw .value
      let r ← (P.row ii).zip (· - ·) (rowDot (fun j => M.data [ii, j]) 0 n W).squeeze
      W.setRow ii r) n (⟨P.shape, fun _ => 0⟩ : ND ℝ)
    (fun m W => W.shape = P.shape ∧ (∀ c, m ≤ c → ∀ idx, W.data (c :: idx) = 0) ∧
      ∀ c < m, ∀ idx, Inside idx (List.replicate k 1 ++ t) →
        W.data (c :: idx) = P.data (c :: idx) -
          ∑ j ∈ Finset.range c, M.data [c, j] * W.data (j :: idx))
    ⟨rfl, fun _ _ _ => rfl, fun c hc => absurd hc (by omega)⟩ (by
      rintro m hm W ⟨hsh, hz, hval⟩
      obtain ⟨-, -, r, hr, hrs, hrv⟩ := row_value P W (fun j => M.data [m, j]) n k t ht hP
        (hsh.trans hP) m 0 n
      obtain ⟨W', hW', hs', hv'⟩ := setRow_ok W r n m (hsh.trans hP)
        (hrs ▸ assignable_self _)
      refine ⟨W', ?_, hs'.trans hsh, ?_, ?_⟩
      · have h1 : m < M.shape.headD 0 := by rw [hM]; exact hm
        have h2 : M.shape.getD 1 0 = n := by rw [hM]; rfl
        simp only [h1, h2, not_true, if_false, ne_eq, hr]
        exact hW'
      · intro c hc idx
        rw [hv', if_neg (by omega)]
        exact hz c (by omega) idx
      · intro c hc idx hidx
        have hold : ∀ j < m, W'.data (j :: idx) = W.data (j :: idx) := fun j hj => by
          rw [hv', if_neg (by omega)]
        have hsum : ∀ d ≤ m, ∑ j ∈ Finset.range d, M.data [c, j] * W'.data (j :: idx) =
            ∑ j ∈ Finset.range d, M.data [c, j] * W.data (j :: idx) := fun d hd =>
          Finset.sum_congr rfl fun j hj => by
            rw [hold j (by have := Finset.mem_range.1 hj; omega)]
        rcases Nat.lt_succ_iff_lt_or_eq.1 hc with h | rfl
        · rw [hold c h, hsum c h.le]
          exact hval c h idx hidx
        · rw [hsum c le_rfl, hv', if_pos rfl, hrs, bcIdx_self _ _ hidx, hrv idx hidx]
          congr 1
          rw [← Finset.range_eq_Ico, ← Finset.sum_range_add_sum_Ico _ hm.le, add_eq_left]
          exact Finset.sum_eq_zero fun j hj => by
            rw [hz j (Finset.mem_Ico.1 hj).1, mul_zero])
  exact ⟨W, hW, hsh, hval⟩

theorem sum_Ico_telescope (f : ℕ → ℝ) (o : ℕ → ℕ) (m : ℕ) (h : ∀ i < m, o i ≤ o (i + 1)) :
    o 0 ≤ o m ∧ ∑ i ∈ Finset.range m, ∑ j ∈ Finset.Ico (o i) (o (i + 1)), f j =
      ∑ j ∈ Finset.Ico (o 0) (o m), f j := by
  induction m with
  | zero => simp
  | succ m ih =>
    obtain ⟨h1, h2⟩ := ih fun i hi => h i (Nat.lt_succ_of_lt hi)
    refine ⟨h1.trans (h m (Nat.lt_succ_self m)), ?_⟩
    rw [Finset.sum_range_succ, h2, Finset.sum_Ico_consecutive _ h1 (h m (Nat.lt_succ_self m))]

/-- The whole function, for a shape whose axes of length one all come first. -/
theorem nlce_run (P M : ND ℝ) (n k : ℕ) (t : List ℕ) (ht : 1 ∉ t) (hn : 0 < n)
    (hP : P.shape = n :: (List.replicate k 1 ++ t)) (hM : M.shape = [n, n])
    (parent : List ℝ) (hp : parent.length = n) (orders : List ℕ) (nsites : ℕ) :
    ∃ total ords W, getNlceExpVal P M parent orders nsites = .ok (total, ords, W) ∧
      total.shape = t ∧ ords.shape = (orders.length - 1) :: (List.replicate k 1 ++ t) ∧
      W.shape = P.shape ∧
      (∀ c < n, ∀ idx, Inside idx (List.replicate k 1 ++ t) →
        W.data (c :: idx) = P.data (c :: idx) -
          ∑ j ∈ Finset.range c, M.data [c, j] * W.data (j :: idx)) ∧
      (∀ u, Inside u t → total.data u =
        (∑ c ∈ Finset.range n, parent.getD c 0 * W.data (c :: (List.replicate k 0 ++ u))) / nsites) ∧
      ∀ i < orders.length - 1, ∀ u, Inside u t →
        ords.data (i :: (List.replicate k 0 ++ u)) =
          (∑ c ∈ Finset.Ico (min n (orders.getD i 0)) (min n (orders.getD (i + 1) 0)),
            parent.getD c 0 * W.data (c :: (List.replicate k 0 ++ u))) / nsites := by
  obtain ⟨W, hW, hWs, hval⟩ := weights_loop P M n k t ht hP hM
  have hWs' := hWs.trans hP
  have hrow := fun a b =>
    row_value P W (fun j => parent.getD j 0) n k t ht hP hWs' 0 a b
  obtain ⟨O, hO, hOs, hOv⟩ := foldlM_range_inv (fun O ii =>
      O.setRow ii ((rowDot (fun j => parent.getD j 0) (min n (orders.getD ii 0))
        (min n (orders.getD (ii + 1) 0)) W).squeeze.divBy nsites)) (orders.length - 1)
    (⟨(orders.length - 1) :: (List.replicate k 1 ++ t), fun _ => 0⟩ : ND ℝ)
    (fun m O => O.shape = (orders.length - 1) :: (List.replicate k 1 ++ t) ∧
      ∀ i < m, ∀ u, Inside u t → O.data (i :: (List.replicate k 0 ++ u)) =
        (∑ c ∈ Finset.Ico (min n (orders.getD i 0)) (min n (orders.getD (i + 1) 0)),
            parent.getD c 0 * W.data (c :: (List.replicate k 0 ++ u))) / nsites)
    ⟨rfl, fun i hi => absurd hi (by omega)⟩ (by
      rintro m hm O ⟨hs, hv⟩
      have hr := hrow (min n (orders.getD m 0)) (min n (orders.getD (m + 1) 0))
      have hsh : ((rowDot (fun j => parent.getD j 0) (min n (orders.getD m 0))
        (min n (orders.getD (m + 1) 0)) W).squeeze.divBy nsites).shape = t := hr.1
      obtain ⟨O', hO', hs', hv'⟩ := setRow_ok O ((rowDot (fun j => parent.getD j 0)
        (min n (orders.getD m 0)) (min n (orders.getD (m + 1) 0)) W).squeeze.divBy nsites) _ m hs
        (hsh ▸ assignable_suffix _ t)
      refine ⟨O', hO', hs'.trans hs, fun i hi u hu => ?_⟩
      rw [hv']
      rcases Nat.lt_succ_iff_lt_or_eq.1 hi with h | rfl
      · rw [if_neg (by omega)]
        exact hv i h u hu
      · rw [if_pos rfl, hsh, bcIdx_suffix t u _ hu]
        change _ / _ = _
        rw [hr.2.1 u hu])
  refine ⟨((rowDot (fun j => parent.getD j 0) 0 n W).squeeze).divBy nsites, O, W, ?_,
    (hrow 0 n).1, hOs, hWs, hval, fun u hu => ?_, hOv⟩
  · unfold getNlceExpVal
    have h1 : P.shape.headD 0 = n := by rw [hP]; rfl
    have h2 : P.shape.tail = List.replicate k 1 ++ t := by rw [hP]; rfl
    have h3 : n ≠ 0 := by omega
    simp only [h1, h2, hW, hp, Bind.bind, Except.bind, ne_eq, not_true, if_false, if_neg h3, hO]
    rfl
  · change _ / _ = _
    rw [(hrow 0 n).2.1 u hu, Finset.range_eq_Ico]

/-- `W` is a table of cluster weights for the property table `P` and the multiplicity matrix `M`: on every
cluster the property is the sum of its own weight and the weights of its subclusters. `s` is the shape of
one entry of the table. -/
def IsWeights (n : ℕ) (s : List ℕ) (P M W : ND ℝ) : Prop :=
  ∀ c < n, ∀ idx, Inside idx s →
    P.data (c :: idx) = W.data (c :: idx) +
      ∑ j ∈ Finset.range n, M.data [c, j] * W.data (j :: idx)

/-- Only smaller numbered clusters are subclusters. -/
def StrictLower (n : ℕ) (M : ND ℝ) : Prop := ∀ c < n, ∀ j < n, c ≤ j → M.data [c, j] = 0

theorem sum_lower (n : ℕ) (M : ND ℝ) (hlow : StrictLower n M) (c : ℕ) (hc : c < n) (f : ℕ → ℝ) :
    ∑ j ∈ Finset.range n, M.data [c, j] * f j = ∑ j ∈ Finset.range c, M.data [c, j] * f j := by
  rw [← Finset.sum_range_add_sum_Ico _ hc.le, add_eq_left]
  exact Finset.sum_eq_zero fun j hj => by
    rw [hlow c hc j (Finset.mem_Ico.1 hj).2 (Finset.mem_Ico.1 hj).1, zero_mul]

/-- C54, for property tables whose axes of length one come first (see `C54_shape_fails` for the others).
The returned weights satisfy the subgraph sum, they are the only ones that do, and the contributions of
the orders add up to the returned total. -/
theorem C54_weights_partial (P M : ND ℝ) (n k : ℕ) (t : List ℕ) (ht : 1 ∉ t) (hn : 0 < n)
    (hP : P.shape = n :: (List.replicate k 1 ++ t)) (hM : M.shape = [n, n]) (hlow : StrictLower n M)
    (parent : List ℝ) (hp : parent.length = n) (nsites : ℕ) (orders : List ℕ)
    (ho0 : orders.getD 0 0 = 0) (hol : orders.getD (orders.length - 1) 0 = n)
    (hmono : ∀ i < orders.length - 1, orders.getD i 0 ≤ orders.getD (i + 1) 0) :
    ∃ total ords W, getNlceExpVal P M parent orders nsites = .ok (total, ords, W) ∧
      total.shape = t ∧ ords.shape = (orders.length - 1) :: (List.replicate k 1 ++ t) ∧
      W.shape = P.shape ∧
      IsWeights n (List.replicate k 1 ++ t) P M W ∧
      (∀ W', IsWeights n (List.replicate k 1 ++ t) P M W' → ∀ c < n, ∀ idx,
        Inside idx (List.replicate k 1 ++ t) → W'.data (c :: idx) = W.data (c :: idx)) ∧
      (0 < nsites → ∀ u, Inside u t → total.data u * nsites =
        ∑ c ∈ Finset.range n, parent.getD c 0 * W.data (c :: (List.replicate k 0 ++ u))) ∧
      ∀ u, Inside u t → total.data u =
        ∑ i ∈ Finset.range (orders.length - 1), ords.data (i :: (List.replicate k 0 ++ u)) := by
  obtain ⟨total, ords, W, hrun, hts, hos, hWs, hval, htot, hord⟩ :=
    nlce_run P M n k t ht hn hP hM parent hp orders nsites
  refine ⟨total, ords, W, hrun, hts, hos, hWs, ?_, ?_, ?_, ?_⟩
  · intro c hc idx hidx
    rw [sum_lower n M hlow c hc fun j => W.data (j :: idx), hval c hc idx hidx]
    ring
  · intro W' hW' c
    induction c using Nat.strong_induction_on with
    | _ c ih =>
      intro hc idx hidx
      have h1 := hW' c hc idx hidx
      rw [sum_lower n M hlow c hc fun j => W'.data (j :: idx)] at h1
      have h2 : ∑ j ∈ Finset.range c, M.data [c, j] * W'.data (j :: idx) =
          ∑ j ∈ Finset.range c, M.data [c, j] * W.data (j :: idx) :=
        Finset.sum_congr rfl fun j hj => by
          have hj' := Finset.mem_range.1 hj
          rw [ih j hj' (hj'.trans hc) idx hidx]
      rw [hval c hc idx hidx, h1, h2]
      ring
  · intro h u hu
    have h' : (nsites : ℝ) ≠ 0 := by exact_mod_cast h.ne'
    rw [htot u hu]
    field_simp
  · intro u hu
    rw [htot u hu, Finset.sum_congr rfl fun i hi => hord i (Finset.mem_range.1 hi) u hu,
      ← Finset.sum_div]
    congr 1
    have h1 := (sum_Ico_telescope (fun c => parent.getD c 0 * W.data (c :: (List.replicate k 0 ++ u)))
      (fun i => min n (orders.getD i 0)) (orders.length - 1)
      fun i hi => min_le_min le_rfl (hmono i hi)).2
    rw [h1, ho0, hol, Finset.range_eq_Ico]
    simp

/-- Three clusters (a site, a pair, a triple): a pair contains two sites, a triple three sites and two
pairs. -/
def exampleMult : ND ℝ := ⟨[3, 3], fun idx =>
  match idx with
  | [1, 0] => 2
  | [2, 0] => 3
  | [2, 1] => 2
  | _ => 0⟩

theorem exampleMult_lower : StrictLower 3 exampleMult := by
  intro c hc j hj h
  interval_cases c <;> interval_cases j <;> first | rfl | omega

example (P : ND ℝ) (hP : P.shape = [3, 1, 2]) : ∃ total ords W,
    getNlceExpVal P exampleMult [1, 2, 6] [0, 1, 2, 3] 1 = .ok (total, ords, W) ∧
    IsWeights 3 [1, 2] P exampleMult W := by
  obtain ⟨total, ords, W, h, -, -, -, hw, -⟩ := C54_weights_partial P exampleMult 3 1 [2] (by simp)
    (by omega) hP rfl exampleMult_lower [1, 2, 6] rfl 1 [0, 1, 2, 3] rfl rfl
    (by intro i hi; simp only [List.length_cons, List.length_nil] at hi; interval_cases i <;> decide)
  exact ⟨total, ords, W, h, hw⟩

/-- The full C54 fails: for a table whose entries are columns (three rows, one column) the call
raises, whatever the values. -/
theorem C54_shape_fails (P : ND ℝ) (hP : P.shape = [2, 3, 1]) (parent : List ℝ) (orders : List ℕ)
    (nsites : ℕ) :
    getNlceExpVal P ⟨[2, 2], fun idx => if idx = [1, 0] then 2 else 0⟩ parent orders nsites =
      .error .value := by
  unfold getNlceExpVal nlceWeights
  rw [hP]
  simp only [List.headD_cons, List.range_succ, List.range_zero, List.nil_append, List.cons_append,
    List.foldlM_cons, List.getD_cons_succ, List.getD_cons_zero, ND.zip, ND.row, hP, List.tail_cons]
  rfl

/-- C55, first part: with the multiplicities of a cluster's own subclusters, plus one for the cluster
itself, the expansion returns the property of that cluster per site. -/
theorem C55_exact_partial (P M : ND ℝ) (n k : ℕ) (t : List ℕ) (ht : 1 ∉ t)
    (hP : P.shape = n :: (List.replicate k 1 ++ t)) (hM : M.shape = [n, n]) (hlow : StrictLower n M)
    (p : ℕ) (hpn : p < n) (orders : List ℕ) (nsites : ℕ) (hns : 0 < nsites) :
    ∃ total ords W, getNlceExpVal P M
        ((List.range n).map fun j => M.data [p, j] + if j = p then 1 else 0) orders nsites =
          .ok (total, ords, W) ∧
      ∀ u, Inside u t → total.data u = P.data (p :: (List.replicate k 0 ++ u)) / nsites := by
  obtain ⟨total, ords, W, hrun, -, -, -, hval, htot, -⟩ :=
    nlce_run P M n k t ht (by omega) hP hM
      ((List.range n).map fun j => M.data [p, j] + if j = p then 1 else 0) (by simp) orders nsites
  refine ⟨total, ords, W, hrun, fun u hu => ?_⟩
  have hin : Inside (List.replicate k 0 ++ u) (List.replicate k 1 ++ t) := by
    clear htot hval hrun hP
    induction k with
    | zero => exact hu
    | succ k ih => exact List.Forall₂.cons Nat.zero_lt_one ih
  rw [htot u hu, hval p hpn _ hin |> fun h => (eq_sub_iff_add_eq.1 h).symm]
  congr 1
  have h1 : ∀ c ∈ Finset.range n,
      ((List.range n).map fun j => M.data [p, j] + if j = p then (1 : ℝ) else 0).getD c 0 *
        W.data (c :: (List.replicate k 0 ++ u)) =
      M.data [p, c] * W.data (c :: (List.replicate k 0 ++ u)) +
        if c = p then W.data (c :: (List.replicate k 0 ++ u)) else 0 := by
    intro c hc
    rw [List.getD_eq_getElem?_getD, List.getElem?_map, List.getElem?_range (Finset.mem_range.1 hc)]
    simp only [Option.map_some, Option.getD_some]
    split_ifs <;> ring
  rw [Finset.sum_congr rfl h1, Finset.sum_add_distrib,
    sum_lower n M hlow p hpn fun c => W.data (c :: (List.replicate k 0 ++ u)),
    Finset.sum_ite_eq' (Finset.range n) p, if_pos (Finset.mem_range.2 hpn), add_comm]

example (P : ND ℝ) (hP : P.shape = [3]) : ∃ total ords W,
    getNlceExpVal P exampleMult ((List.range 3).map fun j => exampleMult.data [2, j] +
      if j = 2 then 1 else 0) [0, 1, 2, 3] 3 = .ok (total, ords, W) ∧
    total.data [] = P.data [2] / 3 := by
  obtain ⟨total, ords, W, h, hv⟩ := C55_exact_partial P exampleMult 3 0 [] (by simp) hP rfl
    exampleMult_lower 2 (by omega) [0, 1, 2, 3] 3 (by omega)
  exact ⟨total, ords, W, h, by simpa using hv [] List.Forall₂.nil⟩

/-- C55, second part: if cluster `0` is the single site, every other cluster contains as many single
sites as it has sites, and the property is the number of sites times a constant, then the weights of all
clusters but the single site vanish and the expansion returns the constant, weighted by the multiplicity of
the single site. -/
theorem C55_additive_partial (P M : ND ℝ) (n k : ℕ) (t : List ℕ) (ht : 1 ∉ t) (hn : 0 < n)
    (hP : P.shape = n :: (List.replicate k 1 ++ t)) (hM : M.shape = [n, n])
    (size : ℕ → ℝ) (hs0 : size 0 = 1) (hcount : ∀ c < n, 0 < c → M.data [c, 0] = size c)
    (a : List ℕ → ℝ) (hadd : ∀ c < n, ∀ idx, P.data (c :: idx) = size c * a idx)
    (parent : List ℝ) (hp : parent.length = n) (orders : List ℕ) (nsites : ℕ) :
    ∃ total ords W, getNlceExpVal P M parent orders nsites = .ok (total, ords, W) ∧
      (∀ idx, Inside idx (List.replicate k 1 ++ t) → W.data (0 :: idx) = a idx ∧
        ∀ c < n, 0 < c → W.data (c :: idx) = 0) ∧
      ∀ u, Inside u t →
        total.data u = parent.getD 0 0 * a (List.replicate k 0 ++ u) / nsites := by
  obtain ⟨total, ords, W, hrun, -, -, -, hval, htot, -⟩ :=
    nlce_run P M n k t ht hn hP hM parent hp orders nsites
  have hw : ∀ idx, Inside idx (List.replicate k 1 ++ t) → W.data (0 :: idx) = a idx ∧
        ∀ c < n, 0 < c → W.data (c :: idx) = 0 := by
    intro idx hidx
    have h0 : W.data (0 :: idx) = a idx := by
      rw [hval 0 hn idx hidx, hadd 0 hn, hs0]
      simp
    refine ⟨h0, fun c => ?_⟩
    induction c using Nat.strong_induction_on with
    | _ c ih =>
      intro hc hc0
      rw [hval c hc idx hidx, hadd c hc, Finset.sum_eq_single 0, h0, hcount c hc hc0, sub_self]
      · intro j hj hj0
        have hj' := Finset.mem_range.1 hj
        rw [ih j hj' (hj'.trans hc) (Nat.pos_of_ne_zero hj0), mul_zero]
      · intro h
        exact absurd (Finset.mem_range.2 hc0) h
  refine ⟨total, ords, W, hrun, hw, fun u hu => ?_⟩
  have hin : Inside (List.replicate k 0 ++ u) (List.replicate k 1 ++ t) := by
    clear htot hval hrun hP hw
    induction k with
    | zero => exact hu
    | succ k ih => exact List.Forall₂.cons Nat.zero_lt_one ih
  rw [htot u hu, Finset.sum_eq_single 0, (hw _ hin).1]
  · intro c hc hc0
    rw [(hw _ hin).2 c (Finset.mem_range.1 hc) (Nat.pos_of_ne_zero hc0), mul_zero]
  · intro h
    exact absurd (Finset.mem_range.2 hn) h

example : ∃ total ords W, getNlceExpVal ⟨[3], fun idx => ((idx.getD 0 0 : ℕ) + 1 : ℝ) * 7⟩ exampleMult
    [1, 2, 6] [0, 1, 2, 3] 1 = .ok (total, ords, W) ∧ total.data [] = 7 := by
  obtain ⟨total, ords, W, h, -, hv⟩ := C55_additive_partial
    ⟨[3], fun idx => ((idx.getD 0 0 : ℕ) + 1 : ℝ) * 7⟩ exampleMult 3 0 [] (by simp) (by omega) rfl rfl
    (fun c => (c : ℝ) + 1) (by norm_num)
    (by intro c hc h0; interval_cases c <;> norm_num [exampleMult]) (fun _ => 7)
    (by intro c hc idx; simp) [1, 2, 6] rfl [0, 1, 2, 3] 1
  exact ⟨total, ords, W, h, by simpa using hv [] List.Forall₂.nil⟩

/-! ## Euler resummation -/

/-- C56, linearity: the resummation of a linear combination of two tables of contributions is the linear
combination of the resummations, in total and order by order. -/
theorem C56_linear (A B C : ND ℝ) (hB : B.shape = A.shape) (hC : C.shape = A.shape) (a b y : ℝ)
    (h : ∀ idx, C.data idx = a * A.data idx + b * B.data idx) :
    (eulerResum C y).1.shape = A.shape.tail ∧ (eulerResum C y).2.shape = A.shape ∧
    (∀ idx, (eulerResum C y).1.data idx =
      a * (eulerResum A y).1.data idx + b * (eulerResum B y).1.data idx) ∧
    ∀ i idx, (eulerResum C y).2.data (i :: idx) =
      a * (eulerResum A y).2.data (i :: idx) + b * (eulerResum B y).2.data (i :: idx) := by
  have horder : ∀ i idx, (eulerResum C y).2.data (i :: idx) =
      a * (eulerResum A y).2.data (i :: idx) + b * (eulerResum B y).2.data (i :: idx) := by
    intro i idx
    unfold eulerResum
    simp only [h]
    simp only [Finset.mul_sum, ← Finset.sum_add_distrib]
    exact Finset.sum_congr rfl fun j _ => by ring
  refine ⟨congrArg List.tail hC, hC, fun idx => ?_, horder⟩
  have hsum : ∀ D : ND ℝ, D.shape = A.shape → (eulerResum D y).1.data idx =
      ∑ i ∈ Finset.range (A.shape.headD 0), (eulerResum D y).2.data (i :: idx) := fun D hD => by
    rw [← hD]
    rfl
  rw [hsum C hC, hsum A rfl, hsum B hB, Finset.mul_sum, Finset.mul_sum, ← Finset.sum_add_distrib]
  exact Finset.sum_congr rfl fun i _ => horder i idx

/-- C56, geometric series `c, c r, c r², …` of `N` contributions with ratio `r ≠ 1`: the resummed
contributions are again geometric with ratio `q = (1 + y r)/(1 + y)`, their sum is
`c (1 - q^N)/(1 - r)`, and if `|q| < 1` it tends to `c/(1 - r)`, also where the series itself diverges. -/
theorem C56_geometric (c r y : ℝ) (hy : 0 < y) (hr : r ≠ 1) (s : List ℕ) :
    let A : ℕ → ND ℝ := fun N => ⟨N :: s, fun idx => c * r ^ idx.headD 0⟩
    let q := (1 + y * r) / (1 + y)
    (∀ N i idx, (eulerResum (A N) y).2.data (i :: idx) = c * (y / (1 + y)) * q ^ i) ∧
    (∀ N idx, (eulerResum (A N) y).1.data idx = c * (1 - q ^ N) / (1 - r)) ∧
    (|q| < 1 → ∀ idx, Filter.Tendsto (fun N => (eulerResum (A N) y).1.data idx) Filter.atTop
      (nhds (c / (1 - r)))) := by
  intro A q
  have hy1 : (1 + y) ≠ 0 := by positivity
  have horder : ∀ N i idx, (eulerResum (A N) y).2.data (i :: idx) = c * (y / (1 + y)) * q ^ i := by
    intro N i idx
    unfold eulerResum
    simp only [A, List.headD_cons]
    have h1 : ∑ j ∈ Finset.range (i + 1), (i.choose j : ℝ) * y ^ (j + 1) * (c * r ^ j) =
        c * y * (y * r + 1) ^ i := by
      rw [add_pow, Finset.mul_sum]
      refine Finset.sum_congr rfl fun j _ => ?_
      rw [mul_pow, one_pow, pow_succ]
      ring
    rw [h1]
    simp only [q, div_pow]
    rw [pow_succ, add_comm (y * r) 1]
    field_simp
  have hq : 1 - q = y * (1 - r) / (1 + y) := by
    simp only [q]
    field_simp
    ring
  have hr' : 1 - r ≠ 0 := sub_ne_zero.2 (Ne.symm hr)
  have hq1 : q ≠ 1 := by
    intro h
    rw [h, sub_self] at hq
    have : y * (1 - r) / (1 + y) ≠ 0 := div_ne_zero (mul_ne_zero hy.ne' hr') hy1
    exact this hq.symm
  have htot : ∀ N idx, (eulerResum (A N) y).1.data idx = c * (1 - q ^ N) / (1 - r) := by
    intro N idx
    have : (eulerResum (A N) y).1.data idx =
        ∑ i ∈ Finset.range N, (eulerResum (A N) y).2.data (i :: idx) := rfl
    rw [this, Finset.sum_congr rfl fun i _ => horder N i idx, ← Finset.mul_sum, geom_sum_eq hq1]
    have h2 : q - 1 = -(y * (1 - r) / (1 + y)) := by rw [← hq]; ring
    rw [h2]
    field_simp
    ring
  refine ⟨horder, htot, fun hlt idx => ?_⟩
  simp only [htot]
  have h3 := tendsto_pow_atTop_nhds_zero_of_abs_lt_one hlt
  have h4 := ((tendsto_const_nhds (x := (1 : ℝ))).sub h3).const_mul c |>.div_const (1 - r)
  simpa using h4

example : Filter.Tendsto (fun N => (eulerResum ⟨[N], fun idx => 1 * (-2 : ℝ) ^ idx.headD 0⟩ 1).1.data [])
    Filter.atTop (nhds (1 / (1 - (-2)))) :=
  (C56_geometric 1 (-2) 1 one_pos (by norm_num) []).2.2 (by rw [abs_lt]; norm_num) []

/-- C56, finite series: if only the first `m` contributions are non-zero, resumming more and more orders
tends to the sum of the contributions. -/
theorem C56_finite (m : ℕ) (s : List ℕ) (a : ℕ → List ℕ → ℝ) (ha : ∀ j, m ≤ j → ∀ idx, a j idx = 0)
    (y : ℝ) (hy : 0 < y) (idx : List ℕ) :
    Filter.Tendsto
      (fun N => (eulerResum ⟨N :: s, fun i => a (i.headD 0) i.tail⟩ y).1.data idx) Filter.atTop
      (nhds (∑ j ∈ Finset.range m, a j idx)) := by
  have hy1 : (1 + y) ≠ 0 := by positivity
  set x : ℝ := 1 / (1 + y) with hx
  have hx0 : 0 < x := by positivity
  have hx1 : x < 1 := by
    rw [hx, div_lt_one (by positivity)]
    linarith
  have hkey : ∀ j, HasSum (fun i : ℕ => y ^ (j + 1) * ((i.choose j : ℝ) * x ^ (i + 1))) 1 := by
    intro j
    have h1 := hasSum_choose_mul_geometric_of_norm_lt_one (𝕜 := ℝ) j
      (r := x) (by rw [Real.norm_eq_abs, abs_of_pos hx0]; exact hx1)
    have h2 := h1.mul_left (y ^ (j + 1) * x ^ (j + 1))
    have h3 : y ^ (j + 1) * x ^ (j + 1) * (1 / (1 - x) ^ (j + 1)) = 1 := by
      have : 1 - x = y * x := by
        rw [hx]
        field_simp
        ring
      rw [this, mul_pow]
      have : (y ^ (j + 1) * x ^ (j + 1)) ≠ 0 := by positivity
      field_simp
    rw [h3] at h2
    rw [← hasSum_nat_add_iff' j]
    have h4 : ∑ i ∈ Finset.range j, y ^ (j + 1) * ((i.choose j : ℝ) * x ^ (i + 1)) = 0 :=
      Finset.sum_eq_zero fun i hi => by
        rw [Nat.choose_eq_zero_of_lt (Finset.mem_range.1 hi)]
        simp
    rw [h4, sub_zero]
    refine h2.congr_fun ?_
    intro i
    rw [pow_add x j 1, pow_add x (i + j) 1, pow_add x i j]
    ring
  have hsum : ∀ N, (eulerResum ⟨N :: s, fun i => a (i.headD 0) i.tail⟩ y).1.data idx =
      ∑ i ∈ Finset.range N, ∑ j ∈ Finset.range m,
        a j idx * (y ^ (j + 1) * ((i.choose j : ℝ) * x ^ (i + 1))) := by
    intro N
    change ∑ i ∈ Finset.range N, 1 / (1 + y) ^ (i + 1) *
      ∑ j ∈ Finset.range (i + 1), (i.choose j : ℝ) * y ^ (j + 1) * a j idx = _
    refine Finset.sum_congr rfl fun i _ => ?_
    have h5 : ∀ M, i + 1 ≤ M → ∑ j ∈ Finset.range (i + 1), (i.choose j : ℝ) * y ^ (j + 1) * a j idx =
        ∑ j ∈ Finset.range M, (i.choose j : ℝ) * y ^ (j + 1) * a j idx := fun M hM => by
      rw [← Finset.sum_range_add_sum_Ico _ hM]
      refine (add_eq_left.2 (Finset.sum_eq_zero fun j hj => ?_)).symm
      have := (Finset.mem_Ico.1 hj).1
      rw [Nat.choose_eq_zero_of_lt (by omega)]
      simp
    have h6 : ∑ j ∈ Finset.range m, (i.choose j : ℝ) * y ^ (j + 1) * a j idx =
        ∑ j ∈ Finset.range (max m (i + 1)), (i.choose j : ℝ) * y ^ (j + 1) * a j idx := by
      rw [← Finset.sum_range_add_sum_Ico _ (le_max_left m (i + 1))]
      refine (add_eq_left.2 (Finset.sum_eq_zero fun j hj => ?_)).symm
      rw [ha j (Finset.mem_Ico.1 hj).1, mul_zero]
    rw [h5 _ (le_max_right m (i + 1)), ← h6, Finset.mul_sum]
    refine Finset.sum_congr rfl fun j _ => ?_
    rw [hx, div_pow, one_pow]
    ring
  simp only [hsum]
  have h7 : HasSum (fun i : ℕ => ∑ j ∈ Finset.range m,
      a j idx * (y ^ (j + 1) * ((i.choose j : ℝ) * x ^ (i + 1))))
      (∑ j ∈ Finset.range m, a j idx * 1) :=
    hasSum_sum fun j _ => (hkey j).mul_left (a j idx)
  simp only [mul_one] at h7
  exact h7.tendsto_sum_nat

example : Filter.Tendsto (fun N => (eulerResum
    ⟨[N], fun i => (fun j _ => if j < 3 then (j : ℝ) + 1 else 0 : ℕ → List ℕ → ℝ) (i.headD 0) i.tail⟩
      2).1.data []) Filter.atTop (nhds 6) := by
  have h := C56_finite 3 [] (fun j _ => if j < 3 then (j : ℝ) + 1 else 0)
    (by intro j hj idx; rw [if_neg (by omega)]) 2 two_pos []
  have h2 : ∑ j ∈ Finset.range 3, (if j < 3 then (j : ℝ) + 1 else 0) = 6 := by
    norm_num [Finset.sum_range_succ]
  rwa [h2] at h

end ED.Props
