import Verif.Lemmas.Pipeline
import Verif.Props.ClusterSum
import Verif.Spec.Pipeline

/-! # Properties: the expansion distributed over many jobs (C106, C107, C108) -/

namespace ED.Props

open ED.Geometry

/-! ## Subclusters -/

/-- C106. Every cluster is the task of exactly one job, whatever the number of clusters and the size of the arrays. -/
theorem C106_jobs (num limit : ℕ) (h : 0 < limit) :
    (jobIndices num limit).Nodup ∧ ∀ k, k ∈ jobIndices num limit ↔ 1 ≤ k ∧ k ≤ num := by
  rw [jobIndices_eq num h]
  refine ⟨List.nodup_range', fun k => ?_⟩
  rw [List.mem_range'_1]
  omega

/-- 1203 clusters in arrays of 500. -/
example : 1203 ∈ jobIndices 1203 500 ∧ 1204 ∉ jobIndices 1203 500 ∧ 0 ∉ jobIndices 1203 500 := by
  obtain ⟨-, h⟩ := C106_jobs 1203 500 (by norm_num)
  simp only [h]
  norm_num

theorem globDat_jobs {α : Type} (pre : List Char) (ks : List ℕ) (c : ℕ → α) :
    globDat pre (ks.map fun k => (jobFile pre k, c k)) = ks.map fun k => (jobFile pre k, c k) := by
  unfold globDat
  rw [List.filter_eq_self]
  intro f hf
  obtain ⟨k, -, rfl⟩ := List.mem_map.1 hf
  unfold jobFile
  rw [Bool.and_eq_true, List.isPrefixOf_iff_prefix, List.isSuffixOf_iff_suffix, List.append_assoc,
    List.drop_left]
  exact ⟨List.prefix_append _ _, List.suffix_append _ _⟩

/-- C106. The clusters are generated; the job of each cluster succeeds; the directory contains, in any order, the files
of all jobs and files which do not match the pattern. The matrix which is appended to the cluster data is the one
found by the serial function. -/
theorem C106_subclusters (N limit : ℕ) (hl : 0 < limit) (pre : List Char) (hpre : ∀ c ∈ pre, c.isDigit = false)
    (time : ℝ) :
    ∃ clusters mult A inds data, allClustersWithSubclusters N (1, 0) (0, 1) true = .ok (clusters, mult, A, inds) ∧
      generateNoSubs none N time = .ok (clusters.length, data) ∧ data.clusterData = .ok (clusters, inds) ∧
      ∃ mats : ℕ → Arr ℝ,
        (∀ k ∈ jobIndices clusters.length limit, findSubclusters clusters inds k = .ok (mats k)) ∧
        ∀ dir other, globDat pre other = [] →
          dir.Perm ((jobIndices clusters.length limit).map (fun k => (jobFile pre k, mats k)) ++ other) →
          ∃ B, aggregateSubclustersFile data (globDat pre dir) =
              .ok (.list [.int N, .clusters clusters, .ints inds, .float time, .mat B]) ∧
            B.rows = A.rows ∧ B.cols = A.cols ∧ ∀ i < A.rows, ∀ j < A.cols, B.e i j = A.e i j := by
  obtain ⟨st, Ls, A, h1, h2, h3, h4, h5, h6⟩ := allClustersWithSubclusters_ok N
  have e1 : realPt (1, 0) = (1, 0) := by simp [realPt]
  have e2 : realPt (0, 1) = (0, 1) := by simp [realPt]
  rw [e1, e2] at h1 h2
  have hF := h3.flatten.1
  have hlen := hF.length_eq
  refine ⟨st.1.flatten, st.2.1.flatten, A, st.2.2,
    .list [.int N, .clusters st.1.flatten, .ints st.2.2, .float time], h2, ?_, rfl, ?_⟩
  · unfold generateNoSubs
    simp only [h1]
    rfl
  have hfind := fun k (hk : k < st.1.flatten.length) => findSubclusters_ok hF h3.cards hk
  have : Nonempty (Arr ℝ) := ⟨A⟩
  choose! mats hm using hfind
  have hm' : ∀ k ∈ jobIndices st.1.flatten.length limit,
      findSubclusters st.1.flatten (startIndices Ls) k = .ok (mats (k - 1)) := by
    intro k hk
    have hk' := ((C106_jobs _ limit hl).2 k).1 hk
    have := (hm (k - 1) (by omega)).1
    rwa [Nat.sub_add_cancel hk'.1] at this
  refine ⟨fun k => mats (k - 1), by rw [h3.inds]; exact hm', ?_⟩
  intro dir other hother hdir
  have hglob : (globDat pre dir).Perm
      ((List.range' 1 st.1.flatten.length).map fun k => (jobFile pre k, mats (k - 1))) := by
    have := hdir.filter fun f => pre.isPrefixOf f.1 && ['.', 'd', 'a', 't'].isSuffixOf (f.1.drop pre.length)
    rw [List.filter_append] at this
    change (globDat pre dir).Perm (globDat pre _ ++ globDat pre other) at this
    rw [hother, globDat_jobs, List.append_nil, jobIndices_eq _ hl] at this
    exact this
  have hsort := sortFiles_ok hpre st.1.flatten.length (fun k => mats (k - 1)) hglob
  have hcount : (globDat pre dir).length = st.1.flatten.length := by
    rw [hglob.length_eq, List.length_map, List.length_range']
  obtain ⟨B, b1, b2⟩ := fill_fold hF h3.cards hF (Ps := []) (A := Arr.zeros st.1.flatten.length st.1.flatten.length)
    ⟨hlen, hlen, fun i _ j _ => by rw [if_neg (by simp)]; rfl⟩
  have hfold := foldlM_addRows (full := st.1.flatten) (Fs := Ls) (mats := fun k => mats (k - 1)) (by
    intro k hk A hr hc
    exact (hm k hk).2.2.2 A hr hc) st.1.flatten.length 0 (Arr.zeros st.1.flatten.length st.1.flatten.length)
    (by omega) rfl rfl
  rw [List.drop_zero, List.take_length, b1] at hfold
  refine ⟨B, ?_, b2.1.trans h4.symm, b2.2.1.trans h5.symm, ?_⟩
  · have hagg : aggregateSubclusters st.1.flatten.length (globDat pre dir) = .ok B := by
      unfold aggregateSubclusters
      rw [hsort]
      simp only [hcount, ne_eq, not_true, if_false, bind, Except.bind, List.map_map]
      exact hfold
    unfold aggregateSubclustersFile
    simp only [Pickled.item, Datum.len, List.getElem?_cons_succ, List.getElem?_cons_zero, bind, Except.bind, pure,
      Except.pure, hagg]
    rfl
  · intro i hi j hj
    rw [h4] at hi
    rw [h5] at hj
    rw [b2.2.2 i hi j hj, h6 i hi j hj, if_pos]
    rw [List.nil_append]
    obtain ⟨k, x, hk, hx, rfl⟩ := exists_startOf Ls hi
    have hcon := ((h3.levels k hk).sound _ (List.getElem_mem hx)).2.2
    rw [flatten_startOf Ls hk hx]
    refine ⟨Ls[k][x], List.mem_flatten.2 ⟨_, List.getElem_mem hk, List.getElem_mem hx⟩,
      hasCopy_of_subset subset_rfl hcon (Equivalent.refl true _)⟩

/-- The name of the file with the aggregated matrix, run_on_cluster.sh 18; the prefix is `subcluster`, the same as
that of the files of the jobs, run_on_cluster.sh 17. -/
def aggregateName (pre : List Char) (order : ℕ) : List Char :=
  pre ++ "_data_order=".toList ++ Nat.toDigits 10 order ++ ['.', 'd', 'a', 't']

/-- The name of the file with the aggregated matrix matches the pattern for the files of the jobs. When the scripts
are started once more in the same directory, the aggregation raises. -/
theorem C106_rerun_violated (N limit : ℕ) (hl : 0 < limit) (pre : List Char) (time : ℝ) :
    ∃ clusters data, generateNoSubs none N time = .ok (clusters.length, data) ∧
      data.item 1 = .ok (.clusters clusters) ∧
      ∀ (mats : ℕ → Arr ℝ) (B : Arr ℝ) dir,
        dir.Perm ((jobIndices clusters.length limit).map (fun k => (jobFile pre k, mats k)) ++
          [(aggregateName pre N, B)]) →
        aggregateSubclustersFile data (globDat pre dir) = .error .generic := by
  obtain ⟨st, Ls, h1, -⟩ := allClusters_ok N (1, 0) (0, 1) true
  have e1 : realPt (1, 0) = (1, 0) := by simp [realPt]
  have e2 : realPt (0, 1) = (0, 1) := by simp [realPt]
  rw [e1, e2] at h1
  refine ⟨st.1.flatten, .list [.int N, .clusters st.1.flatten, .ints st.2.2, .float time], ?_, rfl, ?_⟩
  · unfold generateNoSubs
    simp only [h1]
    rfl
  intro mats B dir hdir
  have hlast : globDat pre [(aggregateName pre N, B)] = [(aggregateName pre N, B)] := by
    unfold globDat
    rw [List.filter_eq_self]
    intro f hf
    rw [List.mem_singleton] at hf
    subst hf
    unfold aggregateName
    rw [Bool.and_eq_true, List.isPrefixOf_iff_prefix, List.isSuffixOf_iff_suffix, List.append_assoc, List.append_assoc,
      List.drop_left]
    generalize "_data_order=".toList = u
    rw [← List.append_assoc u]
    exact ⟨List.prefix_append _ _, List.suffix_append _ _⟩
  have hcount : (globDat pre dir).length = st.1.flatten.length + 1 := by
    have := hdir.filter fun f => pre.isPrefixOf f.1 &&
      ['.', 'd', 'a', 't'].isSuffixOf (f.1.drop pre.length)
    rw [List.filter_append] at this
    change (globDat pre dir).Perm (globDat pre _ ++ globDat pre _)
      at this
    rw [hlast, globDat_jobs] at this
    rw [this.length_eq, List.length_append, List.length_map, jobIndices_eq _ hl, List.length_range',
      List.length_singleton]
  unfold aggregateSubclustersFile aggregateSubclusters
  simp only [Pickled.item, Datum.len, List.getElem?_cons_succ, List.getElem?_cons_zero, bind, Except.bind, pure,
    Except.pure, hcount]
  rw [if_pos (by simp)]
  rfl

/-! ## Generation of the cluster data -/

/-- C108. Started again with the file which it wrote, the script without subclusters returns the same number and leaves
the file as it is. -/
theorem C108_restart_partial (N : ℕ) (time : ℝ) : ∃ n data, generateNoSubs none N time = .ok (n, data) ∧
    ∀ M time', generateNoSubs (some data) M time' = .ok (n, data) := by
  obtain ⟨st, Ls, h1, -⟩ := allClusters_ok N (1, 0) (0, 1) true
  have e1 : realPt (1, 0) = (1, 0) := by simp [realPt]
  have e2 : realPt (0, 1) = (0, 1) := by simp [realPt]
  rw [e1, e2] at h1
  refine ⟨st.1.flatten.length, .list [.int N, .clusters st.1.flatten, .ints st.2.2, .float time], ?_,
    fun M time' => rfl⟩
  unfold generateNoSubs
  simp only [h1]
  rfl

/-- C108 fails for the script with subclusters: it writes a dictionary, and started again it looks for entry number
two. -/
theorem C108_restart_violated (N : ℕ) : ∃ n data, generateWithSubs none N = .ok (n, data) ∧
    ∀ M, generateWithSubs (some data) M = .error .key := by
  obtain ⟨clusters, mult, A, inds, -, h1, -⟩ := C106_subclusters N 1 Nat.one_pos [] (by simp) 0
  refine ⟨clusters.length, .dict [("max_cluster_order", .int N), ("cluster_multiplicities", .row mult),
      ("cluster_list", .clusters clusters), ("sub_cluster_mult", .mat A), ("order_start_indices", .ints inds)],
    ?_, fun M => rfl⟩
  unfold generateWithSubs
  simp only [h1]
  rfl

/-! ## Results -/

/-- The expansion of one quantity in the results script. -/
theorem expand_ok {N : ℕ} (hN : 1 ≤ N) {clusters : List Geometry} {mult : List ℕ} {A : Arr ℝ} {inds : List ℕ}
    (hrun : allClustersWithSubclusters N (1, 0) (0, 1) true = .ok (clusters, mult, A, inds))
    {p : Finset (ℤ × ℤ) → List ℕ → ℝ} (hp : ∀ S T, Equivalent true S T → p S = p T) {T : ℕ} (hT : T ≠ 1)
    {table : ND ℝ} (htab : IsPropertyTable p clusters [T] table) :
    ∃ E, expand table (.int N) (.row mult) (.mat A) (.ints inds) = .ok E ∧ E.IsSum N p clusters T := by
  obtain ⟨st, Ls, A', h1, h2, h3, h4, h5, h6⟩ := allClustersWithSubclusters_ok N
  have e1 : realPt (1, 0) = (1, 0) := by simp [realPt]
  have e2 : realPt (0, 1) = (0, 1) := by simp [realPt]
  rw [e1, e2] at h1 h2
  have e := h2.symm.trans hrun
  simp only [Except.ok.injEq, Prod.mk.injEq] at e
  obtain ⟨rfl, rfl, rfl, rfl⟩ := e
  obtain ⟨c, m, i, g1, g2, -, g3, g4, -⟩ := C57_sound N (1, 0) (0, 1) true
  have e := g1.symm.trans (by simpa using h1)
  simp only [Except.ok.injEq, Prod.mk.injEq] at e
  obtain ⟨rfl, rfl, rfl⟩ := e
  have hlen := h3.flatten.1.length_eq
  rw [max_eq_left hN] at g2 g3
  have hmain := fun w hw => C105_expansion N p hp w hw [T] (by simpa using hT.symm) 1
  have hget : ∀ w, IsClusterWeight p w → ∃ total ords W,
      getNlceExpVal table A'.table (st.2.1.flatten.map fun m : ℕ => (m : ℝ)) st.2.2 1 = .ok (total, ords, W) ∧
      ords.shape = [N, T] ∧ ∀ idx, Inside idx [T] →
          (∀ i (h : i < st.1.flatten.length) l, st.1.flatten[i].HasSites l →
            W.data (i :: idx) = w (shape l.toFinset) idx) ∧
          (∀ k < N, ords.data (k :: idx) = ∑ᶠ c ∈ connectedShapes squareLattice (k + 1), w c idx) ∧
          total.data idx = ∑ k ∈ Finset.range N, ∑ᶠ c ∈ connectedShapes squareLattice (k + 1), w c idx := by
    intro w hw
    obtain ⟨c, m, A, i, k1, k2⟩ := hmain w hw
    have e := k1.symm.trans h2
    simp only [Except.ok.injEq, Prod.mk.injEq] at e
    obtain ⟨rfl, rfl, rfl, rfl⟩ := e
    obtain ⟨total, ords, W, q1, -, q2, -, q3⟩ := k2 table htab
    rw [max_eq_left hN] at q2 q3
    exact ⟨total, ords, W, q1, q2, by simpa using q3⟩
  obtain ⟨w0, hw0⟩ := exists_weight hp
  obtain ⟨total, ords, W, r1, r2, -⟩ := hget w0 hw0
  refine ⟨⟨table, total, ords, W, (eulerResum ords 1).1⟩, ?_, htab, ?_⟩
  · have hstop : (Datum.ints st.2.2).stopAt N = .ok st.1.flatten.length := by
      simp only [Datum.stopAt, g3]
      rfl
    have ht1 : table.takeRows st.1.flatten.length = table := by
      unfold ND.takeRows
      obtain ⟨s, d⟩ := table
      have := htab.1
      simp only at this
      subst this
      simp
    have ht2 : A'.corner st.1.flatten.length = A'.table := by
      unfold Arr.corner Arr.table
      rw [h4, h5, hlen, min_self]
    have ht3 : st.2.1.flatten.take st.1.flatten.length = st.2.1.flatten := List.take_of_length_le (by omega)
    have ht4 : st.2.2.take (N + 1) = st.2.2 := List.take_of_length_le (by omega)
    unfold expand
    dsimp only
    rw [hstop]
    simp only [bind, Except.bind, ht1, ht2, ht3, ht4, r1]
    rfl
  · intro w hw j hj
    obtain ⟨total', ords', W', q1, -, q3⟩ := hget w hw
    have e := r1.symm.trans q1
    simp only [Except.ok.injEq, Prod.mk.injEq] at e
    obtain ⟨rfl, rfl, rfl⟩ := e
    have hin : Inside [j] [T] := List.Forall₂.cons hj List.Forall₂.nil
    obtain ⟨q4, q5, q6⟩ := q3 [j] hin
    refine ⟨q4, q5, q6, ?_⟩
    unfold eulerResum
    simp only [r2, List.headD_cons]
    refine Finset.sum_congr rfl fun i hi => ?_
    rw [Finset.mem_range] at hi
    have h2 : (1 + 1 : ℝ) = 2 := by norm_num
    rw [h2, one_div_pow]
    congr 1
    refine Finset.sum_congr rfl fun m hm => ?_
    rw [Finset.mem_range] at hm
    rw [one_pow, mul_one, q5 m (by omega)]

/-- C107, for cluster data in the layout which the results script expects (see the next theorems). There is one file
for each cluster, in any order among other files; each contains the energies, entropies, specific heats and
correlations of its cluster at `T` temperatures, which do not change under translations and the symmetries of the
square. Then the script returns the clusters in their order and the expansions of the four quantities. -/
theorem C107_results_partial (N : ℕ) (hN : 1 ≤ N) (limit : ℕ) (hl : 0 < limit) (pre : List Char)
    (hpre : ∀ c ∈ pre, c.isDigit = false) (T : ℕ) (hT : T ≠ 1) (temps : List ℝ)
    (pe ps pc pz : Finset (ℤ × ℤ) → List ℕ → ℝ)
    (hp : ∀ p ∈ [pe, ps, pc, pz], ∀ S T, Equivalent true S T → p S = p T) :
    ∃ clusters mult A inds, allClustersWithSubclusters N (1, 0) (0, 1) true = .ok (clusters, mult, A, inds) ∧
      ∀ content : ℕ → DiagFile, (∀ k (h : k < clusters.length) l, clusters[k].HasSites l → content (k + 1) =
        ⟨clusters[k], (List.range T).map fun j => pe l.toFinset [j], (List.range T).map fun j => ps l.toFinset [j],
          (List.range T).map fun j => pc l.toFinset [j], (List.range T).map fun j => pz l.toFinset [j], temps⟩) →
      ∀ dir other, globDat pre other = [] →
        dir.Perm ((jobIndices clusters.length limit).map (fun k => (jobFile pre k, content k)) ++ other) →
        ∃ r, aggregateResults (.list [.int N, .row mult, .clusters clusters, .mat A, .ints inds]) (globDat pre dir) =
            .ok r ∧ r.clusters = clusters ∧ r.temps = temps ∧ r.energy.IsSum N pe clusters T ∧
          r.entropy.IsSum N ps clusters T ∧ r.specificHeat.IsSum N pc clusters T ∧ r.szsz.IsSum N pz clusters T := by
  obtain ⟨st, Ls, A, h1, h2, h3, h4, h5, h6⟩ := allClustersWithSubclusters_ok N
  have e1 : realPt (1, 0) = (1, 0) := by simp [realPt]
  have e2 : realPt (0, 1) = (0, 1) := by simp [realPt]
  rw [e1, e2] at h1 h2
  have hF := h3.flatten.1
  have hlen := hF.length_eq
  refine ⟨_, _, _, _, h2, ?_⟩
  intro content hcontent dir other hother hdir
  set n := st.1.flatten.length with hn
  have hpos : 0 < n := by
    obtain ⟨st', Ls', a1, a2, a3⟩ := allClusters_ok N (1, 0) (0, 1) true
    rw [e1, e2] at a1
    have e := a1.symm.trans h1
    simp only [Except.ok.injEq, Prod.mk.injEq] at e
    obtain ⟨l, hl, -⟩ := (a2.levels 0 (by omega)).complete (fun _ => square_symmetric) {(0, 0)} rfl
      (connected_singleton _ _)
    have := List.length_pos_of_mem (List.mem_flatten.2 ⟨_, List.getElem_mem _, hl⟩)
    rw [← a2.flatten.1.length_eq, e.1] at this
    exact this
  have hsite : ∀ k (hk : k < n), ∃ l, (st.1.flatten[k]).HasSites l :=
    fun k hk => ⟨_, ((List.forall₂_iff_get.1 hF).2 k hk (hlen ▸ hk)).2⟩
  have hglob : (globDat pre dir).Perm ((List.range' 1 n).map fun k => (jobFile pre k, content k)) := by
    have := hdir.filter fun f => pre.isPrefixOf f.1 && ['.', 'd', 'a', 't'].isSuffixOf (f.1.drop pre.length)
    rw [List.filter_append] at this
    change (globDat pre dir).Perm (globDat pre _ ++ globDat pre other) at this
    rw [hother, globDat_jobs, List.append_nil, jobIndices_eq _ hl] at this
    exact this
  have hsort := sortFiles_ok hpre n content hglob
  have htable : ∀ (q : DiagFile → List ℝ) (p : Finset (ℤ × ℤ) → List ℕ → ℝ),
      (∀ k (hk : k < n) l, (st.1.flatten[k]).HasSites l →
        q (content (k + 1)) = (List.range T).map fun j => p l.toFinset [j]) →
      ∃ P, stackRows T (((List.range' 1 n).map fun k => (jobFile pre k, content k)).map fun f => q f.2) = .ok P ∧
        IsPropertyTable p st.1.flatten [T] P := by
    intro q p hq
    have hget : ∀ k (hk : k < (((List.range' 1 n).map fun k => (jobFile pre k, content k)).map
        fun f => q f.2).length), (((List.range' 1 n).map fun k => (jobFile pre k, content k)).map
        fun f => q f.2)[k] = q (content (k + 1)) := by
      intro k hk
      simp [List.getElem_map, add_comm]
    have hl' : (((List.range' 1 n).map fun k => (jobFile pre k, content k)).map fun f => q f.2).length = n := by simp
    obtain ⟨P, p1, p2, p3⟩ := stackRows_ok T
      (((List.range' 1 n).map fun k => (jobFile pre k, content k)).map fun f => q f.2) (by
        intro r hr
        obtain ⟨k, hk, rfl⟩ := List.mem_iff_getElem.1 hr
        rw [hget k hk]
        obtain ⟨l, hl⟩ := hsite k (hl' ▸ hk)
        rw [hq k (hl' ▸ hk) l hl]
        simp)
    refine ⟨P, p1, by rw [p2, hl'], ?_⟩
    intro i hi l hl idx hidx
    obtain ⟨j, hj, rfl⟩ : ∃ j < T, idx = [j] := by
      cases hidx with
      | cons h t =>
        cases t
        exact ⟨_, h, rfl⟩
    have hrow := hq i hi l hl
    have hi' : i < (((List.range' 1 n).map fun k => (jobFile pre k, content k)).map fun f => q f.2).length := by
      rw [hl']
      exact hi
    rw [p3 i hi' j (by rw [hget i hi', hrow]; simpa using hj)]
    simp only [hget i hi', hrow, List.getElem_map, List.getElem_range]
  obtain ⟨l0, hl0⟩ := hsite 0 hpos
  obtain ⟨Pe, e3, e4⟩ := htable DiagFile.energies pe (fun k hk l hl => by rw [hcontent k hk l hl])
  obtain ⟨Ps, s3, s4⟩ := htable DiagFile.entropies ps (fun k hk l hl => by rw [hcontent k hk l hl])
  obtain ⟨Pc, c3, c4⟩ := htable DiagFile.specificHeats pc (fun k hk l hl => by rw [hcontent k hk l hl])
  obtain ⟨Pz, z3, z4⟩ := htable DiagFile.szsz pz (fun k hk l hl => by rw [hcontent k hk l hl])
  obtain ⟨Ee, e5, e6⟩ := expand_ok hN h2 (hp pe (by simp)) hT e4
  obtain ⟨Es, s5, s6⟩ := expand_ok hN h2 (hp ps (by simp)) hT s4
  obtain ⟨Ec, c5, c6⟩ := expand_ok hN h2 (hp pc (by simp)) hT c4
  obtain ⟨Ez, z5, z6⟩ := expand_ok hN h2 (hp pz (by simp)) hT z4
  have hhead : ((List.range' 1 n).map fun k => (jobFile pre k, content k)).head? = some (jobFile pre 1, content 1) := by
    obtain ⟨m, hm⟩ : ∃ m, n = m + 1 := ⟨n - 1, by omega⟩
    rw [hm, List.range'_succ]
    rfl
  have hc1 := hcontent 0 hpos l0 hl0
  rw [zero_add] at hc1
  refine ⟨⟨st.1.flatten, Ee, Es, Ec, Ez, temps⟩, ?_, rfl, rfl, e6, s6, c6, z6⟩
  unfold aggregateResults
  rw [hsort]
  simp only [bind, Except.bind]
  rw [hhead]
  have hnum : (content 1).energies.length = T := by rw [hc1]; simp
  have htemps : (content 1).temps = temps := by rw [hc1]
  have hclus : ((List.range' 1 n).map fun k => (jobFile pre k, content k)).map (fun f => f.2.cluster) =
      st.1.flatten := by
    apply List.ext_getElem
    · simp [hn]
    · intro k hk hk'
      obtain ⟨l, hl⟩ := hsite k hk'
      have := hcontent k hk' l hl
      rw [List.getElem_map, List.getElem_map, List.getElem_range']
      simp only [one_mul, add_comm 1 k, this]
  simp only [hnum, e3, s3, c3, z3, Pickled.item, List.getElem?_cons_succ, List.getElem?_cons_zero, pure, Except.pure, e5,
    s5, c5, z5, htemps, hclus]

theorem bind_error {α β : Type} (x : Res α) (f : α → Res β) (h : ∀ a, ∃ e, f a = .error e) :
    ∃ e, (x >>= f) = .error e := by
  cases x with
  | error e => exact ⟨e, rfl⟩
  | ok a => exact h a

/-- The full C107 fails: the file written by the aggregation of the subclusters is a list in another layout, without
the multiplicities, and the results script raises whatever the results of the clusters. -/
theorem C107_layout_violated (N limit : ℕ) (hl : 0 < limit) (pre : List Char) (hpre : ∀ c ∈ pre, c.isDigit = false)
    (time : ℝ) :
    ∃ n data, generateNoSubs none N time = .ok (n, data) ∧
      ∃ mats : ℕ → Arr ℝ, ∀ dir, dir.Perm ((jobIndices n limit).map fun k => (jobFile pre k, mats k)) →
        ∃ out, aggregateSubclustersFile data (globDat pre dir) = .ok out ∧
          ∀ files, ∃ e, aggregateResults out files = .error e := by
  obtain ⟨clusters, mult, A, inds, data, -, h1, -, mats, -, h2⟩ := C106_subclusters N limit hl pre hpre time
  refine ⟨clusters.length, data, h1, mats, fun dir hdir => ?_⟩
  obtain ⟨B, h3, -⟩ := h2 dir [] rfl (by simpa using hdir)
  refine ⟨_, h3, fun files => ?_⟩
  have hexp : ∀ t, ∃ e, expand t (.int N) (.clusters clusters) (.float time) (.mat B) = .error e := by
    intro t
    by_cases h : N < B.rows
    · exact ⟨.type, by simp only [expand, Datum.stopAt, if_pos h]; rfl⟩
    · exact ⟨.index, by simp only [expand, Datum.stopAt, if_neg h]; rfl⟩
  unfold aggregateResults
  refine bind_error _ _ fun sorted => ?_
  cases sorted.head? with
  | none => exact ⟨_, rfl⟩
  | some first =>
    refine bind_error _ _ fun es => bind_error _ _ fun ss => bind_error _ _ fun cs => bind_error _ _ fun zs => ?_
    simp only [Pickled.item, List.getElem?_cons_succ, List.getElem?_cons_zero, bind, Except.bind, pure, Except.pure]
    obtain ⟨e, he⟩ := hexp es
    rw [he]
    exact ⟨e, rfl⟩

/-- The full C107 fails also for the file of the script which finds the subclusters itself: it is a dictionary and
has no entry zero. -/
theorem C107_dict_violated (N : ℕ) : ∃ n data, generateWithSubs none N = .ok (n, data) ∧
    ∀ files, ∃ e, aggregateResults data files = .error e := by
  obtain ⟨clusters, mult, A, inds, -, h1, -⟩ := C106_subclusters N 1 Nat.one_pos [] (by simp) 0
  refine ⟨clusters.length, .dict [("max_cluster_order", .int N), ("cluster_multiplicities", .row mult),
      ("cluster_list", .clusters clusters), ("sub_cluster_mult", .mat A), ("order_start_indices", .ints inds)],
    ?_, fun files => ?_⟩
  · unfold generateWithSubs
    simp only [h1]
    rfl
  · unfold aggregateResults
    refine bind_error _ _ fun sorted => ?_
    cases sorted.head? with
    | none => exact ⟨_, rfl⟩
    | some first =>
      exact bind_error _ _ fun es => bind_error _ _ fun ss => bind_error _ _ fun cs => bind_error _ _ fun zs =>
        ⟨_, rfl⟩

/-! ## Cases -/

/-- The prefixes of run_on_cluster.sh contain no digits. -/
theorem prefixes_ok : (∀ c ∈ "subcluster".toList, c.isDigit = false) ∧
    ∀ c ∈ "diag_cluster".toList, c.isDigit = false := by decide

/-- C106, C107: third order, arrays of 500 jobs; the files are listed in the reverse order, among others. -/
example : ∃ clusters mult A inds data, allClustersWithSubclusters 3 (1, 0) (0, 1) true =
      .ok (clusters, mult, A, inds) ∧ generateNoSubs none 3 1 = .ok (clusters.length, data) ∧
    ∃ (mats : ℕ → Arr ℝ) (B : Arr ℝ), aggregateSubclustersFile data (globDat "subcluster".toList
      (((jobIndices clusters.length 500).map fun k => (jobFile "subcluster".toList k, mats k)).reverse ++
        [("log7.txt".toList, A)])) = .ok (.list [.int 3, .clusters clusters, .ints inds, .float 1, .mat B]) ∧
      ∀ i < A.rows, ∀ j < A.cols, B.e i j = A.e i j := by
  obtain ⟨clusters, mult, A, inds, data, h1, h2, -, mats, -, h4⟩ :=
    C106_subclusters 3 500 (by norm_num) "subcluster".toList prefixes_ok.1 1
  obtain ⟨B, h5, -, -, h6⟩ := h4 _ [("log7.txt".toList, A)] rfl ((List.reverse_perm _).append_right _)
  exact ⟨clusters, mult, A, inds, data, h1, h2, mats, B, h5, h6⟩

open Classical in
/-- C107: all four quantities are one per site and minus three per bond, at three temperatures; clusters of up to four
sites, arrays of two jobs. -/
example : ∃ clusters mult A inds r, allClustersWithSubclusters 4 (1, 0) (0, 1) true = .ok (clusters, mult, A, inds) ∧
    ∃ content : ℕ → DiagFile,
    aggregateResults (.list [.int (4 : ℕ), .row mult, .clusters clusters, .mat A, .ints inds])
      (globDat "diag_cluster".toList ((jobIndices clusters.length 2).map fun k =>
        (jobFile "diag_cluster".toList k, content k))) = .ok r ∧ r.energy.total.data [2] = -5 := by
  let p : Finset (ℤ × ℤ) → List ℕ → ℝ := fun S _ => 1 * S.card + (-3) * bondCount S
  have hp : ∀ S T, Equivalent true S T → p S = p T := by
    intro S T h
    funext
    simp only [p]
    rw [h.card, bondCount_equivalent h]
  obtain ⟨clusters, mult, A, inds, h1, h2⟩ := C107_results_partial 4 (by norm_num) 2 (by norm_num)
    "diag_cluster".toList prefixes_ok.2 3 (by norm_num) [1, 2, 3] p p p p (by simpa using hp)
  let row : ℕ → List ℝ := fun k => (List.range 3).map fun j =>
    if h : ∃ l, ∃ hi : k - 1 < clusters.length, (clusters[k - 1]'hi).HasSites l then p h.choose.toFinset [j] else 0
  have hrow : ∀ k (h : k < clusters.length) l, clusters[k].HasSites l →
      row (k + 1) = (List.range 3).map fun j => p l.toFinset [j] := by
    intro k hk l hl
    refine List.map_congr_left fun j _ => ?_
    have h : ∃ l, ∃ hi : k + 1 - 1 < clusters.length, (clusters[k + 1 - 1]'hi).HasSites l := ⟨l, hk, hl⟩
    rw [dif_pos h]
    obtain ⟨hi', hl'⟩ := h.choose_spec
    rw [HasSites.unique hl' hl]
  obtain ⟨r, h3, -, -, h4, -⟩ := h2
    (fun k => if h : k - 1 < clusters.length then ⟨clusters[k - 1], row k, row k, row k, row k, [1, 2, 3]⟩
      else ⟨⟨none, [], [], Arr.zeros 0 0, Arr.zeros 0 0, Arr.zeros 0 0, ⟨0, 0, fun _ _ => 0⟩⟩, [], [], [], [], []⟩) (by
      intro k hk l hl
      have hk' : k + 1 - 1 < clusters.length := hk
      simp only [dif_pos hk', hrow k hk l hl]
      rfl) _ [] rfl (by rw [List.append_nil])
  refine ⟨clusters, mult, A, inds, r, h1, _, h3, ?_⟩
  rw [(h4.2 (bondWeight 1 (-3)) (bondWeight_isClusterWeight 1 (-3)) 2 (by norm_num)).2.2.1,
    Finset.sum_congr rfl fun k _ => bondWeight_sum 1 (-3) [2] k]
  norm_num [Finset.sum_range_succ]

end ED.Props
