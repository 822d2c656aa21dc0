import Verif.Model.Pipeline
import Verif.Lemmas.ClusterFill
import Verif.Lemmas.Broadcast

/-! # Lemmas on the scripts for many jobs -/

namespace ED

open ED.Geometry Classical

theorem jobs_full (limit : ℕ) : ∀ q, ((List.range' 1 q).flatMap fun i =>
    (List.range' 1 limit).map fun task => task + (i - 1) * limit) = List.range' 1 (q * limit) := by
  intro q
  induction q with
  | zero => simp
  | succ q ih =>
    rw [List.range'_concat, List.flatMap_append, ih]
    simp only [List.flatMap_cons, List.flatMap_nil, List.append_nil, one_mul, Nat.add_sub_cancel_left]
    have : (List.range' 1 limit).map (fun task => task + q * limit) = List.range' (1 + q * limit) limit := by
      have := List.map_add_range' (a := q * limit) 1 limit 1
      rw [add_comm 1]
      rw [← this]
      congr 1
      funext t
      exact add_comm _ _
    rw [this, Nat.add_mul, one_mul]
    have := List.range'_append (s := 1) (m := q * limit) (n := limit) (step := 1)
    rw [one_mul] at this
    exact this

theorem jobIndices_eq (num : ℕ) {limit : ℕ} (h : 0 < limit) : jobIndices num limit = List.range' 1 num := by
  unfold jobIndices jobArrays
  simp only
  rw [List.range'_concat, List.map_append, List.flatMap_append, List.flatMap_map]
  have h1 : ((List.range' 1 (num / limit)).flatMap fun a =>
      (List.range' 1 (if a = num / limit + 1 then num - (a - 1) * limit else limit)).map fun task =>
        task + (a - 1) * limit) = List.range' 1 (num / limit * limit) := by
    rw [← jobs_full]
    refine List.flatMap_congr fun a ha => ?_
    rw [List.mem_range'_1] at ha
    rw [if_neg (by omega)]
  rw [h1]
  simp only [List.map_cons, List.map_nil, List.flatMap_cons, List.flatMap_nil, List.append_nil, one_mul,
    Nat.add_sub_cancel_left, add_comm 1 (num / limit), Nat.add_sub_cancel, if_true]
  set q := num / limit with hq
  have hle : q * limit ≤ num := Nat.div_mul_le_self num limit
  have : (List.range' 1 (num - q * limit)).map (fun task => task + q * limit) =
      List.range' (1 + q * limit) (num - q * limit) := by
    have := List.map_add_range' (a := q * limit) 1 (num - q * limit) 1
    rw [add_comm 1, ← this]
    congr 1
    funext t
    exact add_comm _ _
  rw [this]
  have := List.range'_append (s := 1) (m := q * limit) (n := num - q * limit) (step := 1)
  rw [one_mul] at this
  rw [this]
  congr 1
  omega

theorem fileNumber_jobFile {pre : List Char} (h : ∀ c ∈ pre, c.isDigit = false) (k : ℕ) :
    fileNumber (jobFile pre k) = .ok k := by
  unfold fileNumber jobFile
  have hd : ∀ c ∈ Nat.toDigits 10 k, c.isDigit = true := fun c hc =>
    Nat.isDigit_of_mem_toDigits (by norm_num) (by norm_num) hc
  have h1 : (pre ++ Nat.toDigits 10 k ++ ['.', 'd', 'a', 't']).dropWhile (fun c => !c.isDigit) =
      Nat.toDigits 10 k ++ ['.', 'd', 'a', 't'] := by
    rw [List.append_assoc, List.dropWhile_append_of_pos (fun c hc => by rw [h c hc]; rfl)]
    cases hk : Nat.toDigits 10 k with
    | nil => exact absurd hk Nat.toDigits_ne_nil
    | cons a l =>
      rw [List.cons_append, List.dropWhile_cons_of_neg]
      rw [hd a (by rw [hk]; simp)]
      simp
  have h2 : (Nat.toDigits 10 k ++ ['.', 'd', 'a', 't']).takeWhile Char.isDigit = Nat.toDigits 10 k := by
    rw [List.takeWhile_append_of_pos (fun c hc => hd c hc)]
    have : ['.', 'd', 'a', 't'].takeWhile Char.isDigit = [] := by decide
    rw [this, List.append_nil]
  simp only [h1, h2, if_neg Nat.toDigits_ne_nil, Nat.ofDigitChars_ten_toDigits]
  rfl

theorem mapM_ok {α β : Type} {f : α → Res β} {g : α → β} : ∀ {l : List α}, (∀ a ∈ l, f a = .ok (g a)) →
    l.mapM f = .ok (l.map g)
  | [], _ => rfl
  | a :: l, h => by
    rw [List.mapM_cons, h a (by simp), mapM_ok fun b hb => h b (by simp [hb])]
    rfl

/-- The files of the jobs are put in the order of their numbers, in whatever order they are found. -/
theorem sortFiles_ok {α : Type} {pre : List Char} (hpre : ∀ c ∈ pre, c.isDigit = false) (n : ℕ) (c : ℕ → α)
    {files : List (List Char × α)}
    (h : files.Perm ((List.range' 1 n).map fun k => (jobFile pre k, c k))) :
    sortFiles files = .ok ((List.range' 1 n).map fun k => (jobFile pre k, c k)) := by
  set num : List Char × α → ℕ := fun f => match fileNumber f.1 with
    | .ok k => k
    | .error _ => 0 with hnum
  have hjob : ∀ k, num (jobFile pre k, c k) = k := by
    intro k
    simp only [hnum, fileNumber_jobFile hpre]
  have hok : ∀ f ∈ files, fileNumber f.1 = .ok (num f) := by
    intro f hf
    obtain ⟨k, -, rfl⟩ := List.mem_map.1 (h.mem_iff.1 hf)
    rw [hjob, fileNumber_jobFile hpre]
  unfold sortFiles
  rw [mapM_ok hok]
  simp only [bind, Except.bind, pure, Except.pure]
  congr 1
  have hz : (files.map num).zip files = files.map fun f => (num f, f) := by
    clear h hok
    induction files with
    | nil => rfl
    | cons f l ih => simp [ih]
  rw [hz]
  have hgoal : ((files.map fun f => (num f, f)).insertionSort fun a b => a.1 ≤ b.1) =
      (List.range' 1 n).map fun k => (k, (jobFile pre k, c k)) := by
    refine List.Perm.eq_of_pairwise (le := fun a b => a.1 ≤ b.1) ?_ ?_ ?_ ?_
    · intro a b ha hb h1 h2
      have ha' := (List.perm_insertionSort _ _).mem_iff.1 ha
      obtain ⟨f, hf, rfl⟩ := List.mem_map.1 ha'
      obtain ⟨k, -, rfl⟩ := List.mem_map.1 (h.mem_iff.1 hf)
      obtain ⟨m, -, rfl⟩ := List.mem_map.1 hb
      simp only [hjob] at h1 h2 ⊢
      have : k = m := le_antisymm h1 h2
      rw [this]
    · exact List.pairwise_insertionSort (r := fun a b : ℕ × (List Char × α) => a.1 ≤ b.1) _
    · rw [List.pairwise_map]
      exact (List.pairwise_lt_range' (s := 1) (n := n) (step := 1)).imp fun h => h.le
    · refine (List.perm_insertionSort _ _).trans ((h.map _).trans ?_)
      rw [List.map_map]
      apply List.Perm.of_eq
      apply List.map_congr_left
      intro k _
      simp [hjob]
  rw [hgoal, List.map_map]
  rfl

/-! ## Subclusters -/

theorem findSubclusters_ok {full : List Geometry} {Fs : List (List (List (ℤ × ℤ)))}
    (hF : List.Forall₂ IsCluster full Fs.flatten)
    (cF : ∀ k (h : k < Fs.length), ∀ l ∈ Fs[k], l.toFinset.card = k + 1) {k : ℕ} (hk : k < full.length) :
    ∃ F, findSubclusters full (startIndices Fs) (k + 1) = .ok F ∧ F.rows = full.length ∧ F.cols = full.length ∧
      ∀ A : Arr ℝ, A.rows = full.length → A.cols = full.length →
        addSubclusters full (startIndices Fs) true A full[k] = addRows A F := by
  have hP := (List.forall₂_iff_get.1 hF).2 k hk (hF.length_eq ▸ hk)
  simp only [List.get_eq_getElem] at hP
  obtain ⟨reps, M, inds, Ds, h1, h2⟩ := reducedSubclusters_ok (Props.parent_cluster hP.1.nodup hP.2) hP.1.ne_nil
  have cD : ∀ k (h : k < Ds.length), ∀ l ∈ Ds[k], l.toFinset.card = k + 1 := by
    intro k hk l hl
    obtain ⟨a, b, -⟩ := h2.sound k hk l hl
    rw [List.toFinset_card_of_nodup a.nodup, b]
  obtain ⟨R, r1, r2, r3, -⟩ := mapBetweenBases_ok (sym := true) hF h2.geoms cF cD
  have hcc := h2.cols
  have hrr := h2.rows
  have hlen := hF.length_eq
  unfold findSubclusters addSubclusters addRows
  rw [if_neg (Nat.succ_ne_zero k), Nat.add_sub_cancel, List.getElem?_eq_getElem hk]
  simp only
  rw [h1]
  simp only [bind, Except.bind]
  rw [h2.inds, r1]
  simp only [Arr.dot, Arr.transpose, diagArr, hcc, hrr, r2, r3, if_true]
  refine ⟨_, rfl, hlen.symm, hlen.symm, ?_⟩
  intro A hAr hAc
  simp only [hAr, hAc, hlen, if_true, ne_eq, not_true, if_false]

theorem foldlM_addRows {full : List Geometry} {Fs : List (List (List (ℤ × ℤ)))} {mats : ℕ → Arr ℝ}
    (h : ∀ k (hk : k < full.length), ∀ A : Arr ℝ, A.rows = full.length → A.cols = full.length →
        addSubclusters full (startIndices Fs) true A full[k] = addRows A (mats (k + 1))) :
    ∀ (n s : ℕ) (A : Arr ℝ), s + n ≤ full.length → A.rows = full.length → A.cols = full.length →
      ((List.range' (s + 1) n).map mats).foldlM addRows A =
        ((full.drop s).take n).foldlM (addSubclusters full (startIndices Fs) true) A := by
  intro n
  induction n with
  | zero => intro s A _ _ _; simp
  | succ n ih =>
    intro s A hs hr hc
    have hlt : s < full.length := by omega
    rw [List.range'_succ, List.map_cons, List.foldlM_cons, List.drop_eq_getElem_cons hlt, List.take_succ_cons,
      List.foldlM_cons, ← h s hlt A hr hc]
    cases hA : addSubclusters full (startIndices Fs) true A full[s] with
    | error e => rfl
    | ok A' =>
      simp only [bind, Except.bind]
      have hdim : A'.rows = A.rows ∧ A'.cols = A.cols := by
        rw [h s hlt A hr hc] at hA
        unfold addRows at hA
        simp only [bind, Except.bind] at hA
        split at hA
        · cases hA
        · split_ifs at hA
          cases hA
          exact ⟨rfl, rfl⟩
      exact ih (s + 1) A' (by omega) (hdim.1.trans hr) (hdim.2.trans hc)

/-! ## Results -/

theorem stackRows_ok (T : ℕ) (rows : List (List ℝ)) (h : ∀ r ∈ rows, r.length = T) :
    ∃ P, stackRows T rows = .ok P ∧ P.shape = [rows.length, T] ∧
      ∀ i (hi : i < rows.length) j (hj : j < rows[i].length), P.data [i, j] = rows[i][j] := by
  unfold stackRows
  obtain ⟨P, h1, h2, h3⟩ := foldlM_range_inv (fun T ii =>
      let d := rows.getD ii []
      T.setRow ii ⟨[1, d.length], fun idx => d.getD (idx.getD 1 0) 0⟩) rows.length
    (⟨[rows.length, T], fun _ => 0⟩ : ND ℝ)
    (fun m P => P.shape = [rows.length, T] ∧ ∀ i < m, ∀ (hi : i < rows.length) j (hj : j < rows[i].length),
      P.data [i, j] = rows[i][j]) ⟨rfl, fun i hi => absurd hi (by omega)⟩ (by
    rintro m hm P ⟨hs, hv⟩
    have hd : rows.getD m [] = rows[m] := by
      rw [List.getD_eq_getElem?_getD, List.getElem?_eq_getElem hm]
      rfl
    have hlen : rows[m].length = T := h _ (List.getElem_mem hm)
    obtain ⟨P', p1, p2, p3⟩ := setRow_ok (s := [T]) P
      ⟨[1, rows[m].length], fun idx => rows[m].getD (idx.getD 1 0) 0⟩ rows.length m hs (by
        refine ⟨by simp, ?_⟩
        rw [hlen]
        exact broadcastShape_self [T])
    refine ⟨P', by rw [hd]; exact p1, p2.trans hs, ?_⟩
    intro i hi hi' j hj
    rw [p3]
    by_cases him : i = m
    · subst him
      rw [if_pos rfl]
      have hidx : (bcIdx [1, rows[i].length] [j]).getD 1 0 = j := by
        unfold bcIdx
        simp only [List.reverse_cons, List.reverse_nil, List.nil_append, List.cons_append, bcIdxRev, List.getD_cons_succ,
          List.getD_cons_zero]
        split_ifs with h1
        · omega
        · rfl
      simp only [hidx]
      rw [List.getD_eq_getElem?_getD, List.getElem?_eq_getElem hj]
      rfl
    · rw [if_neg him]
      exact hv i (by omega) hi' j hj)
  exact ⟨P, h1, h2, fun i hi => h3 i hi hi⟩

end ED
