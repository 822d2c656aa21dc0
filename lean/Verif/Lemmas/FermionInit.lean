import Verif.Model.FermionInit
import Verif.Lemmas.Broadcast

/-! # Lemmas on the parameters of the constructor of `fermions` -/

namespace ED

theorem bcRev_ones (m : ℕ) (s : List ℕ) :
    bcRev (List.replicate m 1) s = some (s ++ List.replicate (m - s.length) 1) := by
  induction s generalizing m with
  | nil => cases m <;> simp [List.replicate_succ, bcRev]
  | cons a s ih =>
    cases m with
    | zero => simp [bcRev]
    | succ m =>
      rw [List.replicate_succ]
      simp only [bcRev, ih m]
      by_cases h : 1 = a
      · subst h
        simp
      · simp [h]

theorem broadcastShape_ones (m : ℕ) (s : List ℕ) :
    broadcastShape (List.replicate m 1) s = some (List.replicate (m - s.length) 1 ++ s) := by
  unfold broadcastShape
  rw [List.reverse_replicate, bcRev_ones]
  simp

theorem bcIdxRev_ones (m : ℕ) (idx : List ℕ) : bcIdxRev (List.replicate m 1) idx = List.replicate m 0 := by
  induction m generalizing idx with
  | zero => cases idx <;> rfl
  | succ m ih => cases idx <;> simp [List.replicate_succ, bcIdxRev, ih]

theorem bcIdx_ones (m : ℕ) (idx : List ℕ) : bcIdx (List.replicate m 1) idx = List.replicate m 0 := by
  unfold bcIdx
  rw [List.reverse_replicate, bcIdxRev_ones, List.reverse_replicate]

theorem bcIdx_ones_append (r : ℕ) (s idx : List ℕ) (h : Inside idx s) :
    bcIdx (List.replicate r 1 ++ s) idx = List.replicate r 0 ++ idx := by
  unfold bcIdx
  rw [List.reverse_append, List.reverse_replicate]
  have key : ∀ (s idx : List ℕ), Inside idx s →
      bcIdxRev (s ++ List.replicate r 1) idx = idx ++ List.replicate r 0 := by
    intro s idx h
    induction h with
    | nil => simpa using bcIdxRev_ones r []
    | @cons i n idx s hi _ ih =>
      simp only [List.cons_append, bcIdxRev, ih]
      by_cases h1 : n = 1
      · subst h1
        rw [if_pos rfl, Nat.lt_one_iff.1 hi]
      · rw [if_neg h1]
  rw [key _ _ (List.rel_reverse h)]
  simp

theorem assignable_ones (r : ℕ) (s : List ℕ) : assignable (List.replicate r 1 ++ s) s := by
  have h : (List.replicate r 1 ++ s).length - s.length = r := by simp
  constructor
  · rw [h, List.take_append_of_le_length (by simp)]
    intro n hn
    exact List.eq_of_mem_replicate (List.mem_of_mem_take hn)
  · rw [h, List.drop_append_of_le_length (by simp), List.drop_of_length_le (by simp), List.nil_append]
    exact broadcastShape_self s

/-- An array with a single entry times an array. -/
theorem zip_ones {m : ℕ} (x B : ND ℂ) (hx : x.shape = List.replicate m 1) :
    ∃ v, x.zip (· * ·) B = .ok v ∧ v.shape = List.replicate (m - B.shape.length) 1 ++ B.shape ∧
      ∀ r idx, Inside idx B.shape → v.data (List.replicate r 0 ++ idx) = x.data (List.replicate m 0) * B.data idx := by
  unfold ND.zip
  rw [hx, broadcastShape_ones]
  refine ⟨_, rfl, rfl, ?_⟩
  intro r idx h
  simp only
  rw [bcIdx_ones, bcIdx_suffix _ _ _ h]

theorem item_ok {n : ℕ} {s : List ℕ} (t : ND ℂ) (ht : t.shape = n :: s) {i : ℕ} (hi : i < n) :
    t.item i = .ok ⟨s, fun idx => t.data (i :: idx)⟩ := by
  unfold ND.item ND.row
  rw [ht]
  simp [hi]

theorem item_error {t : ND ℂ} {i : ℕ} (h : t.shape.headD 0 ≤ i) : t.item i = .error .index := by
  unfold ND.item
  cases hs : t.shape with
  | nil => rfl
  | cons n s =>
    rw [hs] at h
    simp only [List.headD_cons] at h
    simp only
    rw [if_neg (by omega)]

/-- One pass of the loops over the species. -/
theorem species_step {n k N : ℕ} (t B H : ND ℂ) (ht : t.shape = n :: List.replicate k 1) (hB : B.shape = [N, N])
    (hH : H.shape = [N, N, n]) {ii : ℕ} (hi : ii < n) :
    ∃ x v H', t.item ii = .ok x ∧ x.zip (· * ·) B = .ok v ∧ H.setLast ii v = .ok H' ∧ H'.shape = [N, N, n] ∧
      ∀ i < N, ∀ j < N, ∀ s, H'.data [i, j, s] =
        if s = ii then ((t.data (ii :: List.replicate k 0) * B.data [i, j]).re : ℂ) else H.data [i, j, s] := by
  obtain ⟨v, h1, h2, h3⟩ := zip_ones ⟨List.replicate k 1, fun idx => t.data (ii :: idx)⟩ B (m := k) rfl
  rw [hB] at h2
  have ha : assignable v.shape H.shape.dropLast := by
    rw [h2, hH]
    exact assignable_ones _ _
  refine ⟨_, v, ⟨H.shape, fun idx => if idx.getLast? = some ii then
    ((v.data (bcIdx v.shape idx.dropLast)).re : ℂ) else H.data idx⟩, item_ok t ht hi, h1, ?_, hH, ?_⟩
  · unfold ND.setLast
    rw [if_pos ha]
  · intro i hi' j hj s
    have hin : Inside [i, j] [N, N] := .cons hi' (.cons hj .nil)
    simp only [List.getLast?_cons_cons, List.getLast?_singleton, Option.some.injEq]
    refine if_congr Iff.rfl ?_ rfl
    have e : [i, j, s].dropLast = [i, j] := rfl
    rw [e, h2, bcIdx_ones_append _ _ _ hin, h3 _ _ (by rw [hB]; exact hin)]

theorem toND_data (A : Arr ℂ) (i j : ℕ) : A.toND.data [i, j] = A.e i j := rfl

/-- The product of the adjacency and phase matrices. -/
theorem adj_phase {g : Geometry} {N : ℕ} (ha : g.adjacency.rows = N ∧ g.adjacency.cols = N)
    (hp : g.phase.rows = N ∧ g.phase.cols = N) :
    ∃ B, g.adjacencyND.zip (· * ·) g.phase.toND = .ok B ∧ B.shape = [N, N] ∧
      ∀ i < N, ∀ j < N, B.data [i, j] = (g.adjacency.e i j : ℂ) * g.phase.e i j := by
  have s1 : g.adjacencyND.shape = [N, N] := by
    unfold Geometry.adjacencyND Arr.toND
    simp [ha.1, ha.2]
  have s2 : g.phase.toND.shape = [N, N] := by
    unfold Arr.toND
    simp [hp.1, hp.2]
  unfold ND.zip
  rw [s1, s2, broadcastShape_self]
  refine ⟨_, rfl, rfl, ?_⟩
  intro i hi j hj
  have hin : Inside [i, j] [N, N] := .cons hi (.cons hj .nil)
  simp only
  rw [bcIdx_self _ _ hin, toND_data]
  rfl

/-- A loop in which one pass always fails. -/
theorem foldlM_range_error {σ : Type} (f : σ → ℕ → Res σ) (n m : ℕ) (hm : m < n) (h : ∀ x, ∃ e, f x m = .error e)
    (x0 : σ) : ∃ e, (List.range n).foldlM f x0 = .error e := by
  obtain ⟨d, rfl⟩ : ∃ d, n = m + 1 + d := ⟨n - (m + 1), by omega⟩
  have key : ∃ e, (List.range (m + 1)).foldlM f x0 = .error e := by
    rw [List.range_succ, List.foldlM_append]
    cases (List.range m).foldlM f x0 with
    | error e => exact ⟨e, rfl⟩
    | ok x =>
      obtain ⟨e, he⟩ := h x
      refine ⟨e, ?_⟩
      change List.foldlM f x [m] = _
      rw [List.foldlM_cons, he]
      rfl
  obtain ⟨e, he⟩ := key
  rw [List.range_add, List.foldlM_append, he]
  exact ⟨e, rfl⟩

/-- A loop with an invariant, one of whose passes fails. -/
theorem foldlM_range_error_inv {σ : Type} (f : σ → ℕ → Res σ) (P : σ → Prop) (n m : ℕ) (hm : m < n)
    (hP : ∀ x i y, P x → f x i = .ok y → P y) (h : ∀ x, P x → ∃ e, f x m = .error e) (x0 : σ) (h0 : P x0) :
    ∃ e, (List.range n).foldlM f x0 = .error e := by
  have hinv : ∀ (l : List ℕ) (x y : σ), P x → l.foldlM f x = .ok y → P y := by
    intro l
    induction l with
    | nil =>
      intro x y hx hy
      simp only [List.foldlM_nil, pure, Except.pure] at hy
      injection hy with hy
      exact hy ▸ hx
    | cons i l ih =>
      intro x y hx hy
      simp only [List.foldlM_cons, bind, Except.bind] at hy
      cases hf : f x i with
      | error e => rw [hf] at hy; exact absurd hy (by simp)
      | ok z =>
        rw [hf] at hy
        exact ih z y (hP x i z hx hf) hy
  obtain ⟨d, rfl⟩ : ∃ d, n = m + 1 + d := ⟨n - (m + 1), by omega⟩
  have key : ∃ e, (List.range (m + 1)).foldlM f x0 = .error e := by
    rw [List.range_succ, List.foldlM_append]
    cases hx : (List.range m).foldlM f x0 with
    | error e => exact ⟨e, rfl⟩
    | ok x =>
      obtain ⟨e, he⟩ := h x (hinv _ _ _ h0 hx)
      refine ⟨e, ?_⟩
      simp only [bind, Except.bind, List.foldlM_cons, he]
  obtain ⟨e, he⟩ := key
  refine ⟨e, ?_⟩
  rw [List.range_add, List.foldlM_append, he]
  rfl

theorem repeatScalar_vector {n k : ℕ} (t : ND ℂ) (ht : t.shape = n :: List.replicate k 1) :
    ∃ t', repeatScalar t n = .ok t' ∧ ∃ k', t'.shape = n :: List.replicate k' 1 ∧
      ∀ s < n, t'.data (s :: List.replicate k' 0) = t.data (s :: List.replicate k 0) := by
  unfold repeatScalar ND.size
  rw [ht]
  by_cases h : (n :: List.replicate k 1).prod = 1
  · rw [if_pos h]
    have hn : n = 1 := by simpa using h
    subst hn
    obtain ⟨v, h1, h2, h3⟩ := zip_ones (m := k + 1) t (ND.ones [1]) (by rw [ht, List.replicate_succ])
    refine ⟨v, h1, k, ?_, ?_⟩
    · rw [h2]
      change List.replicate (k + 1 - 1) 1 ++ List.replicate 1 1 = List.replicate (k + 1) 1
      rw [Nat.add_sub_cancel, List.replicate_append_replicate]
    · intro s hs
      have hs0 : s = 0 := by omega
      subst hs0
      have := h3 k [0] (.cons (by norm_num) .nil)
      have e : List.replicate k 0 ++ [0] = 0 :: List.replicate k 0 := by
        change List.replicate k 0 ++ List.replicate 1 0 = List.replicate (k + 1) 0
        rw [List.replicate_append_replicate]
      rw [e] at this
      rw [this]
      simp [ND.ones, List.replicate_succ]
  · rw [if_neg h]
    exact ⟨t, rfl, k, ht, fun s _ => rfl⟩

theorem repeatScalar_scalar {n m : ℕ} (hm : m ≤ 1) (t : ND ℂ) (ht : t.shape = List.replicate m 1) :
    ∃ t', repeatScalar t n = .ok t' ∧ t'.shape = [n] ∧
      ∀ s < n, t'.data [s] = t.data (List.replicate m 0) := by
  unfold repeatScalar ND.size
  rw [ht, if_pos (by simp)]
  obtain ⟨v, h1, h2, h3⟩ := zip_ones t (ND.ones [n]) ht
  refine ⟨v, h1, ?_, ?_⟩
  · rw [h2]
    have : m - (ND.ones [n]).shape.length = 0 := by simp [ND.ones]; omega
    rw [this]
    rfl
  · intro s hs
    have := h3 0 [s] (.cons hs .nil)
    simpa [ND.ones] using this

/-- The loop of `get_hopping_mat`. -/
theorem hopping_loop {g : Geometry} {n k : ℕ} (t : ND ℂ) (ht : t.shape = n :: List.replicate k 1)
    (ha : g.adjacency.rows = g.nsites ∧ g.adjacency.cols = g.nsites)
    (hp : g.phase.rows = g.nsites ∧ g.phase.cols = g.nsites)
    (hh : ∀ s < n, ∀ i < g.nsites, ∀ j < g.nsites,
      (t.data (s :: List.replicate k 0) * ((g.adjacency.e i j : ℂ) * g.phase.e i j)).re =
        (t.data (s :: List.replicate k 0) * ((g.adjacency.e j i : ℂ) * g.phase.e j i)).re) :
    ∃ r, (List.range n).foldlM (hoppingStep g t) (ND.zeros [g.nsites, g.nsites, n]) = .ok r ∧
      r.shape = [g.nsites, g.nsites, n] ∧ ∀ i < g.nsites, ∀ j < g.nsites, ∀ s < n,
        r.data [i, j, s] = ((t.data (s :: List.replicate k 0) * ((g.adjacency.e i j : ℂ) * g.phase.e i j)).re : ℂ) := by
  obtain ⟨B, b1, b2, b3⟩ := adj_phase ha hp
  refine foldlM_range_inv _ n _ (fun m (r : ND ℂ) => r.shape = [g.nsites, g.nsites, n] ∧ ∀ i < g.nsites, ∀ j < g.nsites,
    ∀ s < m, r.data [i, j, s] =
      ((t.data (s :: List.replicate k 0) * ((g.adjacency.e i j : ℂ) * g.phase.e i j)).re : ℂ)) ⟨rfl, by simp⟩ ?_
  rintro m hm H ⟨h1, h2⟩
  obtain ⟨x, v, H', s1, s2, s3, s4, s5⟩ := species_step t B H ht b2 h1 hm
  refine ⟨H', ?_, s4, ?_⟩
  · unfold hoppingStep
    rw [s1]
    simp only [bind, Except.bind]
    rw [b1]
    simp only
    rw [s2]
    simp only
    rw [s3]
    simp only
    rw [if_pos]
    · rfl
    · intro i hi j hj
      rw [s5 i hi j hj, s5 j hj i hi, if_pos rfl, if_pos rfl, b3 i hi j hj, b3 j hj i hi, hh m hm i hi j hj]
      exact (Complex.conj_ofReal _).symm
  · intro i hi j hj s hs
    rw [s5 i hi j hj]
    by_cases hsm : s = m
    · rw [if_pos hsm, hsm, b3 i hi j hj]
    · rw [if_neg hsm, h2 i hi j hj s (by omega)]

/-- The loop of `get_samespecies_int_mat`. -/
theorem same_loop {g : Geometry} {n k : ℕ} (t : ND ℂ) (ht : t.shape = n :: List.replicate k 1)
    (ha : g.adjacency.rows = g.nsites ∧ g.adjacency.cols = g.nsites) :
    ∃ r, (List.range n).foldlM (fun U ii => do
        let x ← t.item ii
        let v ← x.zip (· * ·) g.adjacencyND
        U.setLast ii v) (ND.zeros [g.nsites, g.nsites, n]) = .ok r ∧
      r.shape = [g.nsites, g.nsites, n] ∧ ∀ i < g.nsites, ∀ j < g.nsites, ∀ s < n,
        r.data [i, j, s] = ((t.data (s :: List.replicate k 0) * (g.adjacency.e i j : ℂ)).re : ℂ) := by
  have s1 : g.adjacencyND.shape = [g.nsites, g.nsites] := by
    unfold Geometry.adjacencyND Arr.toND
    simp [ha.1, ha.2]
  refine foldlM_range_inv _ n _ (fun m (r : ND ℂ) => r.shape = [g.nsites, g.nsites, n] ∧ ∀ i < g.nsites, ∀ j < g.nsites,
    ∀ s < m, r.data [i, j, s] =
      ((t.data (s :: List.replicate k 0) * (g.adjacency.e i j : ℂ)).re : ℂ)) ⟨rfl, by simp⟩ ?_
  rintro m hm H ⟨h1, h2⟩
  obtain ⟨x, v, H', q1, q2, q3, q4, q5⟩ := species_step t g.adjacencyND H ht s1 h1 hm
  refine ⟨H', ?_, q4, ?_⟩
  · rw [q1]
    simp only [bind, Except.bind]
    rw [q2]
    exact q3
  · intro i hi j hj s hs
    rw [q5 i hi j hj]
    by_cases hsm : s = m
    · rw [if_pos hsm, hsm]
      rfl
    · rw [if_neg hsm, h2 i hi j hj s (by omega)]

/-- The length of the first axis of an array with `n` entries is `n` or it is shorter. -/
theorem headD_lt {s : List ℕ} {n : ℕ} (hn : 2 ≤ n) (hs : s.prod = n) (hh : s.head? ≠ some n) : s.headD 0 < n := by
  cases s with
  | nil => simp at hs; omega
  | cons a s =>
    simp only [List.headD_cons]
    simp only [List.head?_cons, ne_eq, Option.some.injEq] at hh
    rw [List.prod_cons] at hs
    have : a ∣ n := ⟨_, hs.symm⟩
    have := Nat.le_of_dvd (by omega) this
    omega

end ED
