import Verif.Lemmas.Geometry

/-!
# Comparison of geometries (C47)
-/

namespace ED.Props

open ED ED.Geometry Classical

/-- C47: a geometry equals itself. -/
theorem C47_refl (g : Geometry) : g.isequal g = .ok true ∧ g.isequalAdjacency g = .ok true := by
  have hl : latticeEq g.lattice g.lattice = .ok true := by
    cases h : g.lattice with
    | none => rfl
    | some L =>
      simp only [latticeEq]
      rw [decide_eq_true]
      exact ⟨rfl, rfl, rfl, rfl, rfl, rfl⟩
  constructor
  · unfold isequal
    rw [if_pos ⟨rfl, rfl, .refl _, .refl _, .refl _⟩, hl]
  · unfold isequalAdjacency
    rw [if_pos ⟨.refl _, .refl _, .refl _⟩, hl]

private theorem lattice_symm {L M : Lattice} (h : L.Equal M) : M.Equal L :=
  ⟨h.1.symm, h.2.1.symm, h.2.2.1.symm, h.2.2.2.1.symm, h.2.2.2.2.1.symm, h.2.2.2.2.2.symm⟩

private theorem latticeEq_symm (a b : Option Lattice) : latticeEq a b = latticeEq b a := by
  cases a <;> cases b
  · rfl
  · rfl
  · rfl
  · simp only [latticeEq]
    congr 2
    exact propext ⟨lattice_symm, lattice_symm⟩

/-- C47: comparison is symmetric, including the cases where it raises. -/
theorem C47_symm (g h : Geometry) :
    g.isequal h = h.isequal g ∧ g.isequalAdjacency h = h.isequalAdjacency g := by
  constructor
  · unfold isequal
    rw [latticeEq_symm g.lattice]
    apply if_congr _ rfl rfl
    exact ⟨fun k => ⟨k.1.symm, k.2.1.symm, k.2.2.1.symm, k.2.2.2.1.symm, k.2.2.2.2.symm⟩,
      fun k => ⟨k.1.symm, k.2.1.symm, k.2.2.1.symm, k.2.2.2.1.symm, k.2.2.2.2.symm⟩⟩
  · unfold isequalAdjacency
    rw [latticeEq_symm g.lattice]
    apply if_congr _ rfl rfl
    exact ⟨fun k => ⟨k.1.symm, k.2.1.symm, k.2.2.symm⟩, fun k => ⟨k.1.symm, k.2.1.symm, k.2.2.symm⟩⟩

/-- C47: what equality of geometries means: coordinates, distances and adjacency agree, and either both
geometries have no lattice or their lattices have the same lattice vectors, periodicity vectors and
boundary phases. -/
theorem C47_data_partial (g h : Geometry) :
    g.isequal h = .ok true ↔
      g.xlocs = h.xlocs ∧ g.ylocs = h.ylocs ∧ g.xdist.Equal h.xdist ∧ g.ydist.Equal h.ydist ∧
      g.adjacency.Equal h.adjacency ∧
      ((g.lattice = none ∧ h.lattice = none) ∨ ∃ L M, g.lattice = some L ∧ h.lattice = some M ∧
        L.latt1 = M.latt1 ∧ L.latt2 = M.latt2 ∧ L.per1 = M.per1 ∧ L.per2 = M.per2 ∧
        L.phase1 = M.phase1 ∧ L.phase2 = M.phase2) := by
  have hl : latticeEq g.lattice h.lattice = .ok true ↔
      ((g.lattice = none ∧ h.lattice = none) ∨ ∃ L M, g.lattice = some L ∧ h.lattice = some M ∧
        L.latt1 = M.latt1 ∧ L.latt2 = M.latt2 ∧ L.per1 = M.per1 ∧ L.per2 = M.per2 ∧
        L.phase1 = M.phase1 ∧ L.phase2 = M.phase2) := by
    cases h1 : g.lattice with
    | none =>
      cases h2 : h.lattice with
      | none => simp [latticeEq]
      | some M => simp [latticeEq]
    | some L =>
      cases h2 : h.lattice with
      | none => simp [latticeEq]
      | some M =>
        simp only [latticeEq, Except.ok.injEq]
        rw [decide_eq_true_iff]
        refine ⟨fun k => Or.inr ⟨L, M, rfl, rfl, k⟩, ?_⟩
        rintro (⟨k, _⟩ | ⟨L', M', k1, k2, k⟩)
        · exact absurd k (by simp)
        · injection k1 with k1
          injection k2 with k2
          subst k1 k2
          exact k
  unfold isequal
  by_cases hc : g.xlocs = h.xlocs ∧ g.ylocs = h.ylocs ∧ g.xdist.Equal h.xdist ∧ g.ydist.Equal h.ydist ∧
      g.adjacency.Equal h.adjacency
  · rw [if_pos hc, hl]
    exact ⟨fun k => ⟨hc.1, hc.2.1, hc.2.2.1, hc.2.2.2.1, hc.2.2.2.2, k⟩, fun k => k.2.2.2.2.2⟩
  · rw [if_neg hc]
    refine ⟨fun k => absurd k (by simp), fun k => absurd ⟨k.1, k.2.1, k.2.2.1, k.2.2.2.1, k.2.2.2.2.1⟩ hc⟩

/-- C47: equality is transitive. -/
theorem C47_trans {g h k : Geometry} (h1 : g.isequal h = .ok true) (h2 : h.isequal k = .ok true) :
    g.isequal k = .ok true := by
  rw [C47_data_partial] at *
  obtain ⟨a1, a2, a3, a4, a5, a6⟩ := h1
  obtain ⟨b1, b2, b3, b4, b5, b6⟩ := h2
  refine ⟨a1.trans b1, a2.trans b2, a3.trans b3, a4.trans b4, a5.trans b5, ?_⟩
  rcases a6 with ⟨p, q⟩ | ⟨L, M, p, q, e1, e2, e3, e4, e5, e6⟩
  · rcases b6 with ⟨r, s⟩ | ⟨L', M', r, s, _⟩
    · exact Or.inl ⟨p, s⟩
    · rw [q] at r
      exact absurd r (by simp)
  · rcases b6 with ⟨r, s⟩ | ⟨L', M', r, s, f1, f2, f3, f4, f5, f6⟩
    · rw [q] at r
      exact absurd r (by simp)
    · rw [q] at r
      injection r with r
      subst r
      exact Or.inr ⟨L, M', p, s, e1.trans f1, e2.trans f2, e3.trans f3, e4.trans f4, e5.trans f5,
        e6.trans f6⟩

private theorem init_lattice {l1 l2 p1 p2 : ℝ × ℝ} {basis : List (ℝ × ℝ)} {f1 f2 : ℝ} {L : Lattice}
    (h : Lattice.init l1 l2 basis p1 p2 f1 f2 = .ok L) :
    L.per1 = p1 ∧ L.per2 = p2 ∧ L.phase1 = f1 ∧ L.phase2 = f2 ∧
      getReciprocalVects p1 p2 = .ok (L.recPer1, L.recPer2) := by
  unfold Lattice.init at h
  cases hl : getReciprocalVects l1 l2 with
  | error e => rw [hl] at h; exact absurd h (by simp [bind, Except.bind])
  | ok rl =>
    cases hp : getReciprocalVects p1 p2 with
    | error e => rw [hl, hp] at h; exact absurd h (by simp [bind, Except.bind])
    | ok rp =>
      rw [hl, hp] at h
      simp only [bind, Except.bind] at h
      cases hv : Lattice.validate ⟨l1, l2, rl.1, rl.2, basis, p1, p2, rp.1, rp.2, f1, f2⟩ with
      | error e => rw [hv] at h; exact absurd h (by simp)
      | ok b =>
        rw [hv] at h
        cases b
        · exact absurd h (by simp [throw, throwThe, MonadExceptOf.throw])
        · simp only [if_true, pure, Except.pure, Except.ok.injEq] at h
          subst h
          exact ⟨rfl, rfl, rfl, rfl, rfl⟩

private theorem init_some {xs ys : List ℝ} {A : Option (Arr ℝ)} {P : Option (Arr ℂ)} {L : Lattice}
    {g : Geometry} (h : Geometry.init xs ys A P (some L) = .ok g) :
    g.lattice = some L ∧ g.phase = L.phaseMat g.xdist g.ydist := by
  unfold Geometry.init at h
  simp only at h
  cases hr : L.reducedDistance xs ys with
  | error e => rw [hr] at h; exact absurd h (by simp [bind, Except.bind])
  | ok t =>
    obtain ⟨xd, yd, a, b⟩ := t
    rw [hr] at h
    simp only [bind, Except.bind, pure, Except.pure] at h
    split_ifs at h
    · injection h with h
      subst h
      exact ⟨rfl, rfl⟩

private theorem square_of_lattice {L : Lattice} {xs ys : List ℝ} {t : Arr ℝ × Arr ℝ × Arr ℝ × Arr ℝ}
    (h : L.reducedDistance xs ys = .ok t) : t.1.rows = xs.length ∧ t.1.cols = xs.length ∧
      t.2.1.rows = xs.length ∧ t.2.1.cols = xs.length := by
  unfold Lattice.reducedDistance at h
  simp only [bind, Except.bind] at h
  split at h
  · exact absurd h (by simp)
  · simp only [pure, Except.pure, Except.ok.injEq] at h
    subst h
    exact ⟨rfl, rfl, rfl, rfl⟩

private theorem shape_some {xs ys : List ℝ} {A : Option (Arr ℝ)} {P : Option (Arr ℂ)} {L : Lattice}
    {g : Geometry} (h : Geometry.init xs ys A P (some L) = .ok g) :
    g.xdist.rows = xs.length ∧ g.xdist.cols = xs.length ∧ g.ydist.rows = xs.length ∧
      g.ydist.cols = xs.length := by
  unfold Geometry.init at h
  simp only at h
  cases hr : L.reducedDistance xs ys with
  | error e => rw [hr] at h; exact absurd h (by simp [bind, Except.bind])
  | ok t =>
    have := square_of_lattice hr
    obtain ⟨xd, yd, a, b⟩ := t
    rw [hr] at h
    simp only [bind, Except.bind, pure, Except.pure] at h
    split_ifs at h
    · injection h with h
      subst h
      exact this

/-- C47: equal periodic geometries have equal phase matrices. -/
theorem C47_phases {l1 l2 p1 p2 l1' l2' p1' p2' : ℝ × ℝ} {basis basis' : List (ℝ × ℝ)}
    {f1 f2 f1' f2' : ℝ} {L M : Lattice} {xs ys xs' ys' : List ℝ} {A A' : Option (Arr ℝ)}
    {P P' : Option (Arr ℂ)} {g h : Geometry}
    (hL : Lattice.init l1 l2 basis p1 p2 f1 f2 = .ok L)
    (hM : Lattice.init l1' l2' basis' p1' p2' f1' f2' = .ok M)
    (hg : Geometry.init xs ys A P (some L) = .ok g)
    (hh : Geometry.init xs' ys' A' P' (some M) = .ok h) (he : g.isequal h = .ok true) :
    g.phase.Equal h.phase := by
  obtain ⟨_, _, ex, ey, _, hlat⟩ := (C47_data_partial g h).1 he
  obtain ⟨gl, gp⟩ := init_some hg
  obtain ⟨hl, hp⟩ := init_some hh
  obtain ⟨sx1, sx2, sy1, sy2⟩ := shape_some hg
  rcases hlat with ⟨k, _⟩ | ⟨L', M', k1, k2, _, _, e3, e4, e5, e6⟩
  · rw [gl] at k
    exact absurd k (by simp)
  · rw [gl] at k1
    rw [hl] at k2
    injection k1 with k1
    injection k2 with k2
    subst k1 k2
    obtain ⟨a1, a2, _, _, a5⟩ := init_lattice hL
    obtain ⟨b1, b2, _, _, b5⟩ := init_lattice hM
    have hrec : L.recPer1 = M.recPer1 ∧ L.recPer2 = M.recPer2 := by
      rw [← a1, ← a2, e3, e4, b1, b2, b5] at a5
      injection a5 with a5
      injection a5 with c1 c2
      exact ⟨c1.symm, c2.symm⟩
    have hn : g.xdist.rows = h.xdist.rows := ex.1
    rw [gp, hp]
    have ent : ∀ i < g.xdist.rows, ∀ j < g.xdist.rows,
        g.xdist.e i j = h.xdist.e i j ∧ g.ydist.e i j = h.ydist.e i j := by
      intro i hi j hj
      refine ⟨ex.2.2 i hi j (by rw [sx2, ← sx1]; exact hj), ey.2.2 i (by rw [sy1, ← sx1]; exact hi) j
        (by rw [sy2, ← sx1]; exact hj)⟩
    unfold Lattice.phaseMat
    simp only
    rw [hrec.1, hrec.2, e5, e6, ← hn]
    have hiff : (∃ i < g.xdist.rows, ∃ j < g.xdist.rows, (10 : ℝ) ^ (-14 : ℤ) <
        (Complex.exp (Complex.I * M.phase1 * (g.xdist.e i j * M.recPer1.1 + g.ydist.e i j * M.recPer1.2)) *
        Complex.exp (Complex.I * M.phase2 *
          (g.xdist.e i j * M.recPer2.1 + g.ydist.e i j * M.recPer2.2))).im) ↔
        (∃ i < g.xdist.rows, ∃ j < g.xdist.rows, (10 : ℝ) ^ (-14 : ℤ) <
        (Complex.exp (Complex.I * M.phase1 * (h.xdist.e i j * M.recPer1.1 + h.ydist.e i j * M.recPer1.2)) *
        Complex.exp (Complex.I * M.phase2 *
          (h.xdist.e i j * M.recPer2.1 + h.ydist.e i j * M.recPer2.2))).im) := by
      constructor
      · rintro ⟨i, hi, j, hj, hh⟩
        rw [(ent i hi j hj).1, (ent i hi j hj).2] at hh
        exact ⟨i, hi, j, hj, hh⟩
      · rintro ⟨i, hi, j, hj, hh⟩
        rw [← (ent i hi j hj).1, ← (ent i hi j hj).2] at hh
        exact ⟨i, hi, j, hj, hh⟩
    by_cases hc : (∃ i < g.xdist.rows, ∃ j < g.xdist.rows, (10 : ℝ) ^ (-14 : ℤ) <
        (Complex.exp (Complex.I * M.phase1 * (g.xdist.e i j * M.recPer1.1 + g.ydist.e i j * M.recPer1.2)) *
        Complex.exp (Complex.I * M.phase2 *
          (g.xdist.e i j * M.recPer2.1 + g.ydist.e i j * M.recPer2.2))).im)
    · rw [if_pos hc, if_pos (hiff.1 hc)]
      refine ⟨rfl, rfl, fun i hi j hj => ?_⟩
      simp only
      rw [(ent i hi j hj).1, (ent i hi j hj).2]
    · rw [if_neg hc, if_neg fun k => hc (hiff.2 k)]
      refine ⟨rfl, rfl, fun i hi j hj => ?_⟩
      simp only
      rw [(ent i hi j hj).1, (ent i hi j hj).2]

/-- C47 fails for phases given by the user: two finite clusters that differ in their phase matrix compare
equal. -/
theorem C47_phase_violated :
    ∃ (xs ys : List ℝ) (P : Arr ℂ) (g h : Geometry), createNonPeriodic xs ys none none = .ok g ∧
      createNonPeriodic xs ys none (some P) = .ok h ∧ g.isequal h = .ok true ∧
      g.phase.e 0 1 = 1 ∧ h.phase.e 0 1 = -1 := by
  have hP : validPhase (⟨2, 2, fun i j => if i = j then 1 else -1⟩ : Arr ℂ) 2 := by
    have r0 : npRound 14 (0 : ℝ) = 0 := npRound_zero 14
    have r1 : npRound 14 (1 : ℝ) = 1 := by
      have := npRound_int (K := ℝ) 14 1
      simpa using this
    refine ⟨rfl, rfl, fun i _ j _ => ?_, fun i _ j _ => ?_⟩
    · simp only [eq_comm (a := j)]
      split_ifs <;> simp [r0]
    · simp only
      split_ifs <;> simp [r1]
  let h : Geometry := { cluster [0, 1] [0, 0] with phase := ⟨2, 2, fun i j => if i = j then 1 else -1⟩ }
  have hh : createNonPeriodic [0, 1] [0, 0] none
      (some (⟨2, 2, fun i j => if i = j then 1 else -1⟩ : Arr ℂ)) = .ok h := by
    unfold createNonPeriodic Geometry.init siteDistance
    simp only
    rw [if_pos (show ([0, 1] : List ℝ).length ≤ ([0, 0] : List ℝ).length from le_rfl)]
    simp only [bind, Except.bind, pure, Except.pure, Option.getD_none, Option.getD_some]
    rw [if_pos]
    · rfl
    · exact ⟨neighbors_valid _ _ _ rfl rfl (fun i _ j _ => abs_sub_comm _ _)
        (fun i _ j _ => abs_sub_comm _ _), hP⟩
  refine ⟨[0, 1], [0, 0], _, cluster [0, 1] [0, 0], h, createNonPeriodic_ok _ _ le_rfl, hh, ?_, rfl, ?_⟩
  · rw [C47_data_partial]
    exact ⟨rfl, rfl, .refl _, .refl _, .refl _, Or.inl ⟨rfl, rfl⟩⟩
  · simp [h]

private theorem translate_of_diff {xs xs' : List ℝ} (h : (diff xs).Equal (diff xs')) :
    ∃ a : ℝ, xs' = xs.map (· + a) := by
  refine ⟨xs'.getD 0 0 - xs.getD 0 0, ?_⟩
  have hl : xs.length = xs'.length := h.1
  apply List.ext_getElem
  · simp [hl]
  · intro i h1 h2
    have hi : i < xs.length := hl ▸ h1
    have h0 : 0 < xs.length := Nat.lt_of_le_of_lt (Nat.zero_le i) hi
    have := h.2.2 i hi 0 h0
    simp only [diff] at this
    rw [List.getD_eq_getElem?_getD, List.getElem?_eq_getElem hi, Option.getD_some,
      List.getD_eq_getElem?_getD (l := xs') (i := i), List.getElem?_eq_getElem h1, Option.getD_some] at this
    rw [List.getElem_map]
    linarith

private theorem diff_translate (xs : List ℝ) (a : ℝ) : (diff xs).Equal (diff (xs.map (· + a))) := by
  refine ⟨by simp [diff], by simp [diff], fun i hi j hj => ?_⟩
  have hi' : i < xs.length := hi
  have hj' : j < xs.length := hj
  simp [diff, List.getD_eq_getElem?_getD, hi', hj']

/-- C47: adjacency-equality of two finite clusters with default adjacency holds exactly if one is a
translate of the other with the sites in the same order. -/
theorem C47_adjacency_equal {xs ys xs' ys' : List ℝ} (hl : xs.length = ys.length)
    (hl' : xs'.length = ys'.length) {g h : Geometry} (hg : createNonPeriodic xs ys none none = .ok g)
    (hh : createNonPeriodic xs' ys' none none = .ok h) :
    g.isequalAdjacency h = .ok true ↔ ∃ a b : ℝ, xs' = xs.map (· + a) ∧ ys' = ys.map (· + b) := by
  rw [createNonPeriodic_ok _ _ hl.le] at hg
  rw [createNonPeriodic_ok _ _ hl'.le] at hh
  injection hg with hg
  injection hh with hh
  subst hg hh
  have hc : ∀ (xs ys : List ℝ), xs.length = ys.length → (cluster xs ys).ydist = diff ys := by
    intro xs ys h
    simp only [cluster, diff, h]
  have key : (cluster xs ys).isequalAdjacency (cluster xs' ys') = .ok true ↔
      (diff xs).Equal (diff xs') ∧ (diff ys).Equal (diff ys') ∧
        (cluster xs ys).adjacency.Equal (cluster xs' ys').adjacency := by
    unfold isequalAdjacency
    rw [hc xs ys hl, hc xs' ys' hl']
    change (if (diff xs).Equal (diff xs') ∧ (diff ys).Equal (diff ys') ∧
        (cluster xs ys).adjacency.Equal (cluster xs' ys').adjacency then _ else _) = _ ↔ _
    by_cases h : (diff xs).Equal (diff xs') ∧ (diff ys).Equal (diff ys') ∧
        (cluster xs ys).adjacency.Equal (cluster xs' ys').adjacency
    · rw [if_pos h]
      exact ⟨fun _ => h, fun _ => rfl⟩
    · rw [if_neg h]
      exact ⟨fun k => absurd k (by simp), fun k => absurd k h⟩
  rw [key]
  constructor
  · rintro ⟨h1, h2, _⟩
    obtain ⟨a, ha⟩ := translate_of_diff h1
    obtain ⟨b, hb⟩ := translate_of_diff h2
    exact ⟨a, b, ha, hb⟩
  · rintro ⟨a, b, rfl, rfl⟩
    have h1 := diff_translate xs a
    have h2 := diff_translate ys b
    refine ⟨h1, h2, h1.1, h1.2.1, fun i hi j hj => ?_⟩
    have hi' : i < xs.length := hi
    have hj' : j < xs.length := hj
    apply neighbors_congr
    · exact h1.2.2 i hi' j hj'
    · have := h2.2.2 i (hl ▸ hi' : i < ys.length) j (hl ▸ hj' : j < ys.length)
      exact this

/-- A dimer and the same dimer elsewhere, and a dimer in another direction. -/
example : ∃ g h k, createNonPeriodic [0, 1] [0, 0] none none = .ok g ∧
    createNonPeriodic [5, 6] [-2, -2] none none = .ok h ∧
    createNonPeriodic [0, 0] [0, 1] none none = .ok k ∧ g.isequalAdjacency h = .ok true ∧
    g.isequalAdjacency k ≠ .ok true := by
  refine ⟨_, _, _, createNonPeriodic_ok _ _ le_rfl, createNonPeriodic_ok _ _ le_rfl,
    createNonPeriodic_ok _ _ le_rfl, ?_, ?_⟩
  · exact (C47_adjacency_equal (xs := [0, 1]) (ys := [0, 0]) (xs' := [5, 6]) (ys' := [-2, -2]) rfl rfl
      (createNonPeriodic_ok _ _ le_rfl) (createNonPeriodic_ok _ _ le_rfl)).2
      ⟨5, -2, by norm_num, by norm_num⟩
  · intro h
    obtain ⟨a, b, h1, h2⟩ := (C47_adjacency_equal (xs := [0, 1]) (ys := [0, 0]) (xs' := [0, 0])
      (ys' := [0, 1]) rfl rfl (createNonPeriodic_ok _ _ le_rfl) (createNonPeriodic_ok _ _ le_rfl)).1 h
    simp at h1
    linarith [h1.1, h1.2]

end ED.Props
