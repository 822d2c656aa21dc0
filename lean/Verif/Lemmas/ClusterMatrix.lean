import Verif.Lemmas.ReducedSub

/-! # The matrix of subclusters of all clusters -/

namespace ED

open ED.Geometry Classical

theorem ite_iff {α : Type} {p q : Prop} {dp : Decidable p} {dq : Decidable q} (h : p ↔ q) (x y : α) :
    @ite α p dp x y = @ite α q dq x y := by
  by_cases hp : p
  · rw [if_pos hp, if_pos (h.1 hp)]
  · rw [if_neg hp, if_neg fun hq => hp (h.2 hq)]

/-- `B'` is `B` with ones written where `P` holds. -/
def Ones (B B' : Arr ℝ) (P : ℕ → ℕ → Prop) : Prop :=
  B'.rows = B.rows ∧ B'.cols = B.cols ∧ ∀ a j, B'.e a j = if P a j then 1 else B.e a j

theorem ones_fold {α : Type} {r c : ℕ} {step : Arr ℝ → α → Res (Arr ℝ)} {P : α → ℕ → ℕ → Prop} (xs : List α)
    (h : ∀ x ∈ xs, ∀ B : Arr ℝ, B.rows = r → B.cols = c → ∃ B', step B x = .ok B' ∧ Ones B B' (P x)) :
    ∀ B : Arr ℝ, B.rows = r → B.cols = c → ∃ B', xs.foldlM step B = .ok B' ∧
      Ones B B' fun a j => ∃ x ∈ xs, P x a j := by
  induction xs with
  | nil => exact fun B _ _ => ⟨B, rfl, rfl, rfl, fun a j => by rw [if_neg]; simp⟩
  | cons x xs ih =>
    intro B hr hc
    obtain ⟨B1, h1, h2, h3, h4⟩ := h x (by simp) B hr hc
    obtain ⟨B2, g1, g2, g3, g4⟩ := ih (fun y hy => h y (by simp [hy])) B1 (h2.trans hr) (h3.trans hc)
    refine ⟨B2, ?_, g2.trans h2, g3.trans h3, ?_⟩
    · rw [List.foldlM_cons, h1]
      exact g1
    · intro a j
      rw [g4, h4]
      by_cases hx : ∃ y ∈ xs, P y a j
      · obtain ⟨y, hy, hp⟩ := hx
        rw [if_pos ⟨y, hy, hp⟩, if_pos ⟨y, by simp [hy], hp⟩]
      · rw [if_neg hx]
        by_cases hp : P x a j
        · rw [if_pos hp, if_pos ⟨x, by simp, hp⟩]
        · rw [if_neg hp, if_neg]
          rintro ⟨y, hy, hq⟩
          rcases List.mem_cons.1 hy with rfl | hy
          · exact hp hq
          · exact hx ⟨y, hy, hq⟩

theorem set_ok (B : Arr ℝ) {i j : ℕ} (hi : i < B.rows) (hj : j < B.cols) :
    B.set (i : ℤ) (j : ℤ) 1 = .ok ⟨B.rows, B.cols, fun k l => if k = i ∧ l = j then 1 else B.e k l⟩ := by
  unfold Arr.set Arr.pyIndex
  simp [hi, hj, bind, Except.bind, pure, Except.pure]

/-- The clusters number `a` and `j` of two lists are equal up to the symmetries. -/
def Same (sym : Bool) (D F : List (List (ℤ × ℤ))) (a j : ℕ) : Prop :=
  ∃ ha : a < D.length, ∃ hj : j < F.length, Equivalent sym D[a].toFinset F[j].toFinset

theorem matchBases_ok {sym : Bool} {larger smaller : List Geometry} {F D : List (List (ℤ × ℤ))}
    (hF : List.Forall₂ IsCluster larger F) (hD : List.Forall₂ IsCluster smaller D) {ii jj : ℕ}
    (hi : ii < D.length) (hj : jj < F.length) (B : Arr ℝ) (hr : B.rows = D.length) (hc : B.cols = F.length) :
    ∃ B', matchBases larger smaller sym ii B jj = .ok B' ∧
      Ones B B' fun a j => a = ii ∧ j = jj ∧ Same sym D F a j := by
  have hi' : ii < smaller.length := hD.length_eq ▸ hi
  have hj' : jj < larger.length := hF.length_eq ▸ hj
  have h1 := (List.forall₂_iff_get.1 hD).2 ii hi' hi
  have h2 := (List.forall₂_iff_get.1 hF).2 jj hj' hj
  simp only [List.get_eq_getElem] at h1 h2
  obtain ⟨ps, p1, p2⟩ := symmPartners_ok h1 sym
  unfold matchBases
  rw [List.getElem?_eq_getElem hi', List.getElem?_eq_getElem hj']
  simp only
  rw [p1]
  simp only [bind, Except.bind]
  rw [anyEqual_ok p2 h2]
  simp only
  have hiff := partnersOf_iff h1.1 h2.1 sym
  by_cases he : Equivalent sym D[ii].toFinset F[jj].toFinset
  · rw [if_pos (by rw [decide_eq_true_eq]; exact hiff.2 he), set_ok B (by omega) (by omega)]
    refine ⟨_, rfl, rfl, rfl, ?_⟩
    intro a j
    simp only
    refine ite_iff ⟨?_, fun h => ⟨h.1, h.2.1⟩⟩ _ _
    rintro ⟨rfl, rfl⟩
    exact ⟨rfl, rfl, hi, hj, he⟩
  · rw [if_neg (by rw [decide_eq_true_eq]; exact fun h => he (hiff.1 h))]
    refine ⟨B, rfl, rfl, rfl, ?_⟩
    intro a j
    rw [if_neg]
    rintro ⟨rfl, rfl, _, _, h⟩
    exact he h

theorem mem_orderRange {Ls : List (List (List (ℤ × ℤ)))} {k i : ℕ} (hk : k < Ls.length) :
    i ∈ orderRange (startIndices Ls) k ↔ ∃ a < Ls[k].length, i = startOf Ls k + a := by
  unfold orderRange
  rw [startIndices_getD _ (by omega), startIndices_getD _ (by omega), List.mem_range'_1]
  have h := startOf_succ Ls hk
  unfold startOf at *
  rw [h]
  constructor
  · rintro ⟨h1, h2⟩
    exact ⟨i - ((Ls.map List.length).take k).sum, by omega, by omega⟩
  · rintro ⟨a, ha, rfl⟩
    omega

theorem startOf_lt {α : Type} (Ls : List (List α)) {k a : ℕ} (hk : k < Ls.length) (ha : a < Ls[k].length) :
    startOf Ls k + a < Ls.flatten.length := by
  by_contra h
  have := getElem_startOf Ls hk ha
  rw [List.getElem?_eq_none (by omega)] at this
  exact absurd this (by simp)

theorem flatten_startOf {α : Type} (Ls : List (List α)) {k a : ℕ} (hk : k < Ls.length) (ha : a < Ls[k].length)
    (h : startOf Ls k + a < Ls.flatten.length) : Ls.flatten[startOf Ls k + a] = Ls[k][a] :=
  Option.some.inj ((List.getElem?_eq_getElem h).symm.trans (getElem_startOf Ls hk ha))

theorem mapBetweenBases_ok {sym : Bool} {larger smaller : List Geometry} {Fs Ds : List (List (List (ℤ × ℤ)))}
    (hF : List.Forall₂ IsCluster larger Fs.flatten) (hD : List.Forall₂ IsCluster smaller Ds.flatten)
    (cF : ∀ k (h : k < Fs.length), ∀ l ∈ Fs[k], l.toFinset.card = k + 1)
    (cD : ∀ k (h : k < Ds.length), ∀ l ∈ Ds[k], l.toFinset.card = k + 1) :
    ∃ R, mapBetweenBases larger (startIndices Fs) smaller (startIndices Ds) sym = .ok R ∧
      R.rows = Ds.flatten.length ∧ R.cols = Fs.flatten.length ∧
      ∀ a j, R.e a j = if Same sym Ds.flatten Fs.flatten a j then 1 else 0 := by
  unfold mapBetweenBases
  have hmin : min ((startIndices Fs).length - 1) ((startIndices Ds).length - 1) = min Fs.length Ds.length := by
    rw [startIndices_length, startIndices_length]
    rfl
  rw [hmin]
  obtain ⟨R, h1, h2, h3, h4⟩ := ones_fold (r := Ds.flatten.length) (c := Fs.flatten.length)
    (P := fun o a j => ∃ ii ∈ orderRange (startIndices Ds) o, ∃ jj ∈ orderRange (startIndices Fs) o,
      a = ii ∧ j = jj ∧ Same sym Ds.flatten Fs.flatten a j)
    (step := fun B order => (orderRange (startIndices Ds) order).foldlM (fun B ii =>
      (orderRange (startIndices Fs) order).foldlM (matchBases larger smaller sym ii) B) B)
    (List.range (min Fs.length Ds.length)) (by
      intro o ho
      rw [List.mem_range] at ho
      refine ones_fold _ ?_
      intro ii hii
      obtain ⟨a, ha, rfl⟩ := (mem_orderRange (by omega)).1 hii
      refine ones_fold _ ?_
      intro jj hjj B hr hc
      obtain ⟨b, hb, rfl⟩ := (mem_orderRange (by omega)).1 hjj
      exact matchBases_ok hF hD (startOf_lt Ds _ ha) (startOf_lt Fs _ hb) B hr hc)
    (Arr.zeros smaller.length larger.length) hD.length_eq hF.length_eq
  refine ⟨R, h1, h2.trans hD.length_eq, h3.trans hF.length_eq, ?_⟩
  intro a j
  rw [h4]
  refine ite_iff ⟨?_, ?_⟩ _ _
  · rintro ⟨o, -, ii, -, jj, -, -, -, h⟩
    exact h
  · intro h
    obtain ⟨ha, hj, he⟩ := id h
    obtain ⟨k, x, hk, hx, rfl⟩ := exists_startOf Ds ha
    obtain ⟨m, y, hm, hy, rfl⟩ := exists_startOf Fs hj
    have c := he.card
    rw [flatten_startOf Ds hk hx, flatten_startOf Fs hm hy, cD k hk _ (List.getElem_mem hx),
      cF m hm _ (List.getElem_mem hy)] at c
    have hkm : k = m := by omega
    subst hkm
    exact ⟨k, List.mem_range.2 (by omega), _, (mem_orderRange hk).2 ⟨x, hx, rfl⟩, _,
      (mem_orderRange hm).2 ⟨y, hy, rfl⟩, rfl, rfl, h⟩

/-- The contribution of the subclusters of one cluster. -/
noncomputable def contribution (sym : Bool) (D F : List (List (ℤ × ℤ))) (M : Arr ℝ) (i j : ℕ) : ℝ :=
  ∑ a ∈ Finset.range D.length, (if Same sym D F a i then 1 else 0) *
    ∑ b ∈ Finset.range D.length, M.e a b * (if Same sym D F b j then 1 else 0)

theorem addSubclusters_ok {sym : Bool} {full : List Geometry} {Fs : List (List (List (ℤ × ℤ)))}
    (hF : List.Forall₂ IsCluster full Fs.flatten)
    (cF : ∀ k (h : k < Fs.length), ∀ l ∈ Fs[k], l.toFinset.card = k + 1) (A : Arr ℝ)
    (hr : A.rows = Fs.flatten.length) (hc : A.cols = Fs.flatten.length) {c : Geometry} {P : List (ℤ × ℤ)}
    (hP : c.IsCluster P) :
    ∃ reps M inds Ds A', reducedSubclusters c = .ok (reps, M, inds) ∧ ReducedRel P reps M inds Ds ∧
      addSubclusters full (startIndices Fs) sym A c = .ok A' ∧ A'.rows = A.rows ∧ A'.cols = A.cols ∧
      ∀ i < Fs.flatten.length, ∀ j < Fs.flatten.length, A'.e i j = A.e i j +
        (1 - if 0 < ∑ k ∈ Finset.range Fs.flatten.length, A.e i k then 1 else 0) *
          contribution sym Ds.flatten Fs.flatten M i j := by
  obtain ⟨reps, M, inds, Ds, h1, h2⟩ := reducedSubclusters_ok (Props.parent_cluster hP.1.nodup hP.2) hP.1.ne_nil
  have cD : ∀ k (h : k < Ds.length), ∀ l ∈ Ds[k], l.toFinset.card = k + 1 := by
    intro k hk l hl
    obtain ⟨a, b, -⟩ := h2.sound k hk l hl
    rw [List.toFinset_card_of_nodup a.nodup, b]
  obtain ⟨R, r1, r2, r3, r4⟩ := mapBetweenBases_ok (sym := sym) hF h2.geoms cF cD
  have hcc := h2.cols
  have hrr := h2.rows
  unfold addSubclusters
  rw [h1]
  simp only [bind, Except.bind]
  rw [h2.inds, r1]
  simp only [Arr.dot, Arr.transpose, diagArr, hcc, hrr, r2, r3, hr, hc, if_true, pure, Except.pure]
  refine ⟨_, _, _, Ds, _, rfl, h2.inds ▸ h2, rfl, rfl, rfl, ?_⟩
  intro i hi j hj
  simp only
  congr 1
  rw [Finset.sum_eq_single i (fun k _ hk => by rw [if_neg (Ne.symm hk), zero_mul])
    (fun h => absurd (Finset.mem_range.2 hi) h), if_pos rfl]
  congr 1
  unfold contribution
  simp only [r4]

end ED
