import Verif.Lemmas.SpinCluster
import Verif.Lemmas.ClusterEnum
import Verif.Model.Thermo

/-! # Lemmas: spins on the sites of a cluster -/

namespace ED

open Matrix

/-- Neighbours on the square lattice. -/
theorem square_adj_iff (p q : ℤ × ℤ) : squareLattice.Adj p q ↔
    (|p.1 - q.1| = 1 ∧ p.2 - q.2 = 0) ∨ (|p.2 - q.2| = 1 ∧ p.1 - q.1 = 0) := by
  obtain ⟨a, b⟩ := p
  obtain ⟨c, d⟩ := q
  simp only [squareLattice, latticeGraph, ne_eq, Prod.mk.injEq, Prod.mk_add_mk, Prod.mk_sub_mk]
  constructor
  · rintro ⟨-, h | h | h | h⟩ <;> obtain ⟨rfl, rfl⟩ := h <;> simp
  · rintro (⟨h1, h2⟩ | ⟨h1, h2⟩)
    · rw [abs_eq (by norm_num)] at h1
      refine ⟨by omega, ?_⟩
      omega
    · rw [abs_eq (by norm_num)] at h1
      refine ⟨by omega, ?_⟩
      omega

theorem square_adj_map (s : Bool × Bool × Bool) (w p q : ℤ × ℤ) :
    squareLattice.Adj (squareMap s p + w) (squareMap s q + w) ↔ squareLattice.Adj p q := by
  rw [square_adj_iff, square_adj_iff]
  obtain ⟨a, b, c⟩ := s
  simp only [abs_eq (zero_le_one' ℤ)]
  cases a <;> cases b <;> cases c <;>
    simp only [squareMap, if_true, if_false, Bool.false_eq_true, Prod.fst_add, Prod.snd_add] <;> omega

/-- Equivalent sets of sites are isomorphic graphs. -/
theorem equivalent_iso {S T : Finset (ℤ × ℤ)} (h : Equivalent true S T) :
    ∃ e : S ≃ T, ∀ p q : S, squareLattice.Adj p q ↔ squareLattice.Adj (e p : ℤ × ℤ) (e q) := by
  obtain ⟨s, w, -, rfl⟩ := equivalent_iff.1 h
  let f : S → S.image (fun p => squareMap s p + w) := fun p => ⟨squareMap s p + w, Finset.mem_image_of_mem _ p.2⟩
  have hf : Function.Bijective f := by
    constructor
    · intro p q hpq
      exact Subtype.ext (squareMap_injective s (add_right_cancel (congrArg Subtype.val hpq)))
    · rintro ⟨q, hq⟩
      obtain ⟨p, hp, rfl⟩ := Finset.mem_image.1 hq
      exact ⟨⟨p, hp⟩, rfl⟩
  exact ⟨Equiv.ofBijective f hf, fun p q => (square_adj_map s w p q).symm⟩

section

variable (jx jy jz hx hy hz : ℝ)

theorem clusterH_move {S T : Finset (ℤ × ℤ)} (h : Equivalent true S T) : ∃ f : (S → Fin 2) ≃ (T → Fin 2),
    (clusterH jx jy jz hx hy hz T).submatrix f f = clusterH jx jy jz hx hy hz S ∧
    (szszOn T).submatrix f f = szszOn S := by
  obtain ⟨e, he⟩ := equivalent_iso h
  exact ⟨moveSpins e, spinHOn_move (adj := fun p q : S => squareLattice.Adj p q) (adj' := fun p q : T => squareLattice.Adj p q) e he .., szszOn_move e⟩

theorem clusterH_hermitian (S : Finset (ℤ × ℤ)) : (clusterH jx jy jz hx hy hz S).IsHermitian :=
  spinHOn_conj (adj := fun p q : S => squareLattice.Adj p q) (fun p => squareLattice.loopless.irrefl p) ..

/-- The thermal properties of equivalent sets of sites are equal. -/
theorem cluster_thermal {S T : Finset (ℤ × ℤ)} (h : Equivalent true S T) :
    (thermalAvg (clusterH jx jy jz hx hy hz S) (clusterH jx jy jz hx hy hz S) =
      thermalAvg (clusterH jx jy jz hx hy hz T) (clusterH jx jy jz hx hy hz T)) ∧
    (∀ t, vonNeumann (gibbs (clusterH jx jy jz hx hy hz S) t) = vonNeumann (gibbs (clusterH jx jy jz hx hy hz T) t)) ∧
    thermalAvg (clusterH jx jy jz hx hy hz S) (szszOn S) = thermalAvg (clusterH jx jy jz hx hy hz T) (szszOn T) := by
  obtain ⟨f, h1, h2⟩ := clusterH_move jx jy jz hx hy hz h
  refine ⟨?_, ?_, ?_⟩
  · funext t
    rw [← h1, thermalAvg_submatrix]
  · intro t
    rw [vonNeumann_hermitian (clusterH_hermitian ..), vonNeumann_hermitian (clusterH_hermitian ..), ← h1,
      thermalAvg_submatrix, partitionFn_submatrix]
  · funext t
    rw [← h1, ← h2, thermalAvg_submatrix]

end

namespace Geometry

theorem HasSites.data {g : Geometry} {l : List (ℤ × ℤ)} (h : g.HasSites l) : g.nsites = l.length ∧
    ∀ i (hi : i < l.length) j (hj : j < l.length), g.phase.e i j = 1 ∧
      (squareLattice.Adj l[i] l[j] → g.adjacency.e i j = 1) ∧ (¬ squareLattice.Adj l[i] l[j] → g.adjacency.e i j = 0) := by
  rw [hasSites_iff] at h
  have hlen : (realSites l).1.length = l.length := len_fst l
  refine ⟨by rw [Geometry.nsites, h.xlocs]; exact hlen, fun i hi j hj => ?_⟩
  have h1 := h.phase.2.2 i (by rw [h.phase.1]; simpa [cluster, hlen] using hi) j
    (by rw [h.phase.2.1]; simpa [cluster, hlen] using hj)
  have h2 := h.adjacency.2.2 i (by rw [h.adjacency.1]; simpa [cluster, neighbors, diff, hlen] using hi) j
    (by rw [h.adjacency.2.1]; simpa [cluster, neighbors, diff, hlen] using hj)
  have gi : l.getD i (0, 0) = l[i] := by simp [List.getD_eq_getElem?_getD, hi]
  have gj : l.getD j (0, 0) = l[j] := by simp [List.getD_eq_getElem?_getD, hj]
  have h3 : (cluster (realSites l).1 (realSites l).2).adjacency.e i j =
      open Classical in if squareLattice.Adj l[i] l[j] then 1 else 0 := by
    have key : ((npRound 0 (|(realSites l).1.getD i 0 - (realSites l).1.getD j 0| - 1) = 0 ∧
        npRound 0 |(realSites l).2.getD i 0 - (realSites l).2.getD j 0| = 0) ∨
        (npRound 0 (|(realSites l).2.getD i 0 - (realSites l).2.getD j 0| - 1) = 0 ∧
        npRound 0 |(realSites l).1.getD i 0 - (realSites l).1.getD j 0| = 0)) ↔ squareLattice.Adj l[i] l[j] := by
      rw [getD_fst, getD_fst, getD_snd, getD_snd, gi, gj, ← Int.cast_sub, ← Int.cast_sub, round_int_one, round_int_one,
        round_int_zero, round_int_zero, ← square_adj_iff]
    by_cases ha : squareLattice.Adj l[i] l[j]
    · rw [if_pos ha]
      exact if_pos (key.2 ha)
    · rw [if_neg ha]
      exact if_neg fun h => ha (key.1 h)
  rw [h1, h2, h3]
  exact ⟨rfl, fun h => if_pos h, fun h => if_neg h⟩

end Geometry

/-- Numbering of the sites of a cluster. -/
def siteEquiv {l : List (ℤ × ℤ)} (h : l.Nodup) : Fin l.length ≃ l.toFinset :=
  (h.getEquiv l).trans (Equiv.subtypeEquivRight fun _ => List.mem_toFinset.symm)

theorem siteEquiv_val {l : List (ℤ × ℤ)} (h : l.Nodup) (i : Fin l.length) : (siteEquiv h i : ℤ × ℤ) = l[i] := rfl

/-! ## Sums in loops -/

theorem foldlM_add {α : Type} (l : List α) (f : α → Res ℝ) (g : α → ℝ) (h : ∀ a ∈ l, f a = .ok (g a)) (x : ℝ) :
    l.foldlM (fun acc a => do
      let y ← f a
      pure (acc + y)) x = .ok (x + (l.map g).sum) := by
  induction l generalizing x with
  | nil => simp [pure, Except.pure]
  | cons a l ih =>
    rw [List.foldlM_cons, h a List.mem_cons_self]
    simp only [bind, Except.bind, pure, Except.pure, List.map_cons, List.sum_cons]
    have := ih (fun b hb => h b (List.mem_cons_of_mem _ hb)) (x + g a)
    simp only [bind, Except.bind, pure, Except.pure] at this
    rw [this, add_assoc]

theorem foldlM_add' {α : Type} (l : List α) (f : ℝ → α → Res ℝ) (g : α → ℝ) (h : ∀ a ∈ l, ∀ x, f x a = .ok (x + g a))
    (x : ℝ) : l.foldlM f x = .ok (x + (l.map g).sum) := by
  induction l generalizing x with
  | nil => simp [pure, Except.pure]
  | cons a l ih =>
    rw [List.foldlM_cons, h a List.mem_cons_self]
    simp only [bind, Except.bind, List.map_cons, List.sum_cons]
    rw [ih (fun b hb => h b (List.mem_cons_of_mem _ hb)), add_assoc]

theorem sum_range_fin (n : ℕ) (g : ℕ → ℝ) : ((List.range n).map g).sum = ∑ i : Fin n, g i := by
  rw [Fin.sum_univ_eq_sum_range (fun i => g i) n]
  induction n with
  | zero => simp
  | succ n ih => rw [List.range_succ, List.map_append, List.sum_append, ih, Finset.sum_range_succ]; simp

theorem sum_range_after (n a : ℕ) (g : ℕ → ℝ) :
    ((List.range' (a + 1) (n - (a + 1))).map g).sum = ∑ k : Fin n, if a < (k : ℕ) then g k else 0 := by
  rw [Fin.sum_univ_eq_sum_range (fun k => if a < k then g k else 0) n]
  induction n with
  | zero => simp
  | succ n ih =>
    rw [Finset.sum_range_succ, ← ih]
    by_cases h : a < n
    · have e : n + 1 - (a + 1) = n - (a + 1) + 1 := by omega
      rw [e, List.range'_concat, List.map_append, List.sum_append, if_pos h]
      simp only [List.map_cons, List.map_nil, List.sum_cons, List.sum_nil, add_zero, one_mul]
      congr 2
      omega
    · have e : n + 1 - (a + 1) = 0 := by omega
      have e' : n - (a + 1) = 0 := by omega
      rw [e, e', if_neg h, add_zero]

section

variable {ι : Type*} [Fintype ι] [DecidableEq ι]

theorem thermalAvg_sum {α : Type*} (H : Matrix ι ι ℂ) (s : Finset α) (O : α → Matrix ι ι ℂ) (T : ℝ) :
    thermalAvg H (∑ a ∈ s, O a) T = ∑ a ∈ s, thermalAvg H (O a) T := by
  unfold thermalAvg
  rw [Matrix.mul_sum, trace_sum, Complex.re_sum]

theorem thermalAvg_zero (H : Matrix ι ι ℂ) (T : ℝ) : thermalAvg H 0 T = 0 := by
  unfold thermalAvg
  simp

end

/-- The sum over pairs of sites in the script. -/
theorem szszAt_ok {n : ℕ} {M : Mat} {w : List ℝ} {T : ℝ} {H : Op n 2}
    (h : ∀ (B : Mat) (O : Op n 2), B.Is O → expValsThermal M B w T = .ok (thermalAvg H O T)) :
    szszAt ⟨n, 1, 2⟩ M w T = .ok (thermalAvg H (szszOn (Fin n)) T) := by
  have hZ : pauliZ.Is sigmaZ := by
    refine ⟨rfl, rfl, fun i j => ?_⟩
    fin_cases i <;> fin_cases j <;> rfl
  let g : ℕ → ℕ → ℝ := fun a b => if h : a < n ∧ b < n then
    thermalAvg H (siteOp sigmaZ ⟨a, h.1⟩ * siteOp sigmaZ ⟨b, h.2⟩) T else 0
  have h1 : ∀ a b, a < b → b < n → (do
      let op ← getTwoSiteOp ⟨n, 1, 2⟩ a 0 b 0 pauliZ pauliZ "boson"
      expValsThermal M op w T) = .ok (g a b) := by
    intro a b hab hb
    obtain ⟨B, hB, hB'⟩ := spin_two (i := ⟨a, hab.trans hb⟩) (j := ⟨b, hb⟩) (fun e => hab.ne (Fin.mk.inj e)) hZ hZ
    rw [hB]
    simp only [g, dif_pos (show a < n ∧ b < n from ⟨hab.trans hb, hb⟩)]
    exact h B _ hB'
  unfold szszAt
  rw [foldlM_add' (g := fun a => ((List.range' (a + 1) (n - (a + 1))).map (g a)).sum)]
  · rw [zero_add, sum_range_fin]
    simp only [sum_range_after]
    have hs := sum_pairs (fun i k : Fin n => if i ≠ k then (siteOp sigmaZ i * siteOp sigmaZ k : Op n 2) else 0)
      (fun i k => by
        by_cases h : i = k
        · simp [h]
        · rw [if_pos h, if_pos (Ne.symm h), siteOp_comm h]) (fun i => if_neg (by simp))
    unfold szszOn
    simp only [spinAt_fin]
    rw [hs, thermalAvg_sum]
    simp only [thermalAvg_sum]
    rw [Finset.sum_comm]
    congr 1
    refine Finset.sum_congr rfl fun i _ => Finset.sum_congr rfl fun k _ => ?_
    by_cases hki : k < i
    · rw [if_pos hki, if_pos (show (k : ℕ) < i from hki), if_pos hki.ne']
      simp only [g, dif_pos (show (k : ℕ) < n ∧ (i : ℕ) < n from ⟨k.2, i.2⟩), Fin.eta]
      rw [siteOp_comm hki.ne]
    · rw [if_neg hki, if_neg (show ¬ (k : ℕ) < i from hki), thermalAvg_zero]
  · intro a _ x
    rw [foldlM_add' (g := g a)]
    intro b hb x
    rw [List.mem_range'_1] at hb
    dsimp only at hb
    have := h1 a b (by omega) (by omega)
    revert this
    cases hop : getTwoSiteOp ⟨n, 1, 2⟩ a 0 b 0 pauliZ pauliZ "boson" with
    | error e => intro h; cases h
    | ok op =>
      intro this
      simp only [bind, Except.bind] at this ⊢
      rw [this]
      rfl

end ED
