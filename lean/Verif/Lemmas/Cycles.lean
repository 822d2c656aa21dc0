import Verif.Model.Cycles
import Verif.Spec.SiteMap
import Verif.Spec.Cycles
import Verif.Spec.Geometry
import Verif.Lemmas.Periodic
import Mathlib.Dynamics.PeriodicPts.Defs
import Mathlib.Data.List.FinRange

/-! # Site cycles -/

namespace ED

open Geometry Classical

namespace Geometry

/-- The numbers of the columns of `trans_sites`. -/
def powCol (n : ℕ) (t : ℕ → ℕ) (k : ℕ) : List ℕ := (List.range n).map (t^[k])

theorem powCol_zero (n : ℕ) (t : ℕ → ℕ) : powCol n t 0 = List.range n := by
  unfold powCol
  simp

theorem powCol_eq_range {n : ℕ} {t : ℕ → ℕ} {k : ℕ} : powCol n t k = List.range n ↔ ∀ i < n, t^[k] i = i := by
  unfold powCol
  constructor
  · intro h i hi
    have := congrArg (fun l : List ℕ => l[i]?) h
    simpa [hi] using this
  · intro h
    conv_rhs => rw [← List.map_id (List.range n)]
    exact List.map_congr_left fun i hi => h i (List.mem_range.1 hi)

theorem transformedSite_ok {red tred : List (ℝ × ℝ)} {tol : ℝ} {sites : List ℕ} {ii j : ℕ} {t : ℝ × ℝ}
    (ht : tred[ii]? = some t) (hj : red.findIdx? (fun p => decide (close tol t p)) = some j)
    (hs : j < sites.length) : transformedSite red tred tol sites ii = .ok (sites.getD j 0) := by
  unfold transformedSite
  rw [ht]
  simp only [hj, List.getElem?_eq_getElem hs]
  simp [hs]

/-- One application of the transformation to a column. -/
theorem transformed_pow {g : Geometry} {f : ℝ × ℝ → ℝ × ℝ} {tol : ℝ} {red tred : List (ℝ × ℝ)}
    (hr : g.reducePoints g.points = .ok red) (ht : g.reducePoints (g.points.map f) = .ok tred)
    {t : ℕ → ℕ} (htn : ∀ i < g.nsites, t i < g.nsites)
    (himg : ∀ i < g.nsites, ∃ p, tred[i]? = some p ∧
      red.findIdx? (fun q => decide (close tol p q)) = some (t i)) (k : ℕ) :
    getTransformedSites f (powCol g.nsites t k) g tol = .ok (powCol g.nsites t (k + 1)) := by
  unfold getTransformedSites
  rw [hr, ht]
  simp only [bind, Except.bind]
  have hlen : (powCol g.nsites t k).length = g.nsites := by simp [powCol]
  rw [hlen, mapM_ok' (f := fun i => (powCol g.nsites t k).getD (t i) 0)]
  · congr 1
    unfold powCol
    refine List.map_congr_left fun i hi => ?_
    have hi' := List.mem_range.1 hi
    rw [Function.iterate_succ_apply]
    simp [htn i hi']
  · intro i hi
    obtain ⟨p, hp, hq⟩ := himg i (List.mem_range.1 hi)
    exact transformedSite_ok hp hq (by rw [hlen]; exact htn i (List.mem_range.1 hi))

/-- If some site has no image every application raises. -/
theorem transformed_error {g : Geometry} {f : ℝ × ℝ → ℝ × ℝ} {tol : ℝ} {sites cur : List ℕ}
    (h : getTransformedSites f sites g tol = .ok cur) (hl : sites.length = g.nsites) :
    ∃ red tred, g.reducePoints g.points = .ok red ∧ g.reducePoints (g.points.map f) = .ok tred ∧
      ∀ i < g.nsites, ∃ p, tred[i]? = some p ∧
        ∃ j < g.nsites, red.findIdx? (fun q => decide (close tol p q)) = some j := by
  unfold getTransformedSites at h
  cases hr : g.reducePoints g.points with
  | error e => rw [hr] at h; exact absurd h (by simp [bind, Except.bind])
  | ok red =>
    cases ht : g.reducePoints (g.points.map f) with
    | error e => rw [hr, ht] at h; exact absurd h (by simp [bind, Except.bind])
    | ok tred =>
      rw [hr, ht] at h
      simp only [bind, Except.bind] at h
      refine ⟨red, tred, rfl, rfl, fun i hi => ?_⟩
      have step : ∀ (l : List ℕ) (r : List ℕ),
          l.mapM (fun ii => transformedSite red tred tol sites ii) = .ok r →
          ∀ i ∈ l, ∃ s, transformedSite red tred tol sites i = .ok s := by
        intro l
        induction l with
        | nil => intro r _ i hi; exact absurd hi (List.not_mem_nil)
        | cons a l ih =>
          intro r hr i hi
          rw [List.mapM_cons] at hr
          cases ha : transformedSite red tred tol sites a with
          | error e => rw [ha] at hr; exact absurd hr (by simp [bind, Except.bind])
          | ok s =>
            rw [ha] at hr
            simp only [bind, Except.bind] at hr
            cases hm : l.mapM (fun ii => transformedSite red tred tol sites ii) with
            | error e => rw [hm] at hr; exact absurd hr (by simp)
            | ok r' =>
              rcases List.mem_cons.1 hi with rfl | hi
              · exact ⟨s, ha⟩
              · exact ih r' hm i hi
      obtain ⟨s, hs⟩ := step _ _ h i (by rw [hl]; exact List.mem_range.2 hi)
      unfold transformedSite at hs
      cases hp : tred[i]? with
      | none => rw [hp] at hs; exact absurd hs (by simp)
      | some p =>
        refine ⟨p, rfl, ?_⟩
        rw [hp] at hs
        simp only at hs
        cases hj : red.findIdx? (fun q => decide (close tol p q)) with
        | none => rw [hj] at hs; exact absurd hs (by simp)
        | some j =>
          rw [hj] at hs
          simp only at hs
          cases hsj : sites[j]? with
          | none => rw [hsj] at hs; exact absurd hs (by simp)
          | some s' =>
            refine ⟨j, ?_, rfl⟩
            rw [← hl]
            exact (List.getElem?_eq_some_iff.1 hsj).1

/-- The columns after `k` iterations. -/
def powCols (n : ℕ) (t : ℕ → ℕ) (k : ℕ) : List (List ℕ) := (List.range (k + 1)).map (powCol n t)

theorem powCols_last (n : ℕ) (t : ℕ → ℕ) (k : ℕ) : (powCols n t k).getLastD [] = powCol n t k := by
  unfold powCols
  rw [List.range_succ, List.map_append]
  simp

theorem powCols_succ (n : ℕ) (t : ℕ → ℕ) (k : ℕ) :
    powCols n t k ++ [powCol n t (k + 1)] = powCols n t (k + 1) := by
  unfold powCols
  rw [List.range_succ (n := k + 1), List.map_append]
  rfl

/-- The loop. -/
theorem cycleLoop_ok {g : Geometry} {f : ℝ × ℝ → ℝ × ℝ} {tol : ℝ} {t : ℕ → ℕ}
    (hstep : ∀ k, getTransformedSites f (powCol g.nsites t k) g tol = .ok (powCol g.nsites t (k + 1)))
    (fuel k : ℕ) : ∃ m, k ≤ m ∧ m ≤ k + fuel ∧
      cycleLoop f g tol fuel (powCols g.nsites t k) (powCol g.nsites t k) = .ok (powCols g.nsites t m) ∧
      (∀ j, k ≤ j → j < m → powCol g.nsites t j ≠ List.range g.nsites) ∧
      (m < k + fuel → powCol g.nsites t m = List.range g.nsites) := by
  induction fuel generalizing k with
  | zero => exact ⟨k, le_rfl, le_rfl, rfl, fun j h1 h2 => absurd h2 (by omega), fun h => absurd h (by omega)⟩
  | succ fuel ih =>
    by_cases hk : powCol g.nsites t k = List.range g.nsites
    · refine ⟨k, le_rfl, by omega, ?_, fun j h1 h2 => absurd h2 (by omega), fun _ => hk⟩
      unfold cycleLoop
      rw [if_pos hk]
    · obtain ⟨m, h1, h2, h3, h4, h5⟩ := ih (k + 1)
      refine ⟨m, by omega, by omega, ?_, ?_, fun h => h5 (by omega)⟩
      · unfold cycleLoop
        rw [if_neg hk, powCols_last, hstep k]
        simp only [bind, Except.bind]
        rw [powCols_succ]
        exact h3
      · intro j hj1 hj2
        by_cases hjk : j = k
        · rw [hjk]; exact hk
        · exact h4 j (by omega) hj2

/-! ## First appearances -/

theorem foldl_stay {l r : List ℕ} (h : ∀ x ∈ r, x ∈ l) :
    r.foldl (fun acc x => if x ∈ acc then acc else acc ++ [x]) l = l := by
  induction r with
  | nil => rfl
  | cons a r ih =>
    rw [List.foldl_cons, if_pos (h a (List.mem_cons_self ..))]
    exact ih fun x hx => h x (List.mem_cons_of_mem _ hx)

theorem foldl_nodup {l acc : List ℕ} (h : (acc ++ l).Nodup) :
    l.foldl (fun acc x => if x ∈ acc then acc else acc ++ [x]) acc = acc ++ l := by
  induction l generalizing acc with
  | nil => simp
  | cons a l ih =>
    have ha : a ∉ acc := by
      intro hm
      rw [List.nodup_append] at h
      exact h.2.2 a hm a (List.mem_cons_self ..) rfl
    rw [List.foldl_cons, if_neg ha, ih (by simpa using h)]
    simp

theorem firstAppearances_append {l r : List ℕ} (hl : l.Nodup) (hr : ∀ x ∈ r, x ∈ l) :
    firstAppearances (l ++ r) = l := by
  unfold firstAppearances
  rw [List.foldl_append, foldl_nodup (acc := []) (by simpa using hl), List.nil_append, foldl_stay hr]

/-! ## Cycles of a permutation -/

variable {n : ℕ}

/-- The orbit of a site in the order of the transformation. -/
noncomputable def orb (π : Equiv.Perm (Fin n)) (i : Fin n) : List (Fin n) :=
  (List.range (Function.minimalPeriod π i)).map fun k => π^[k] i

theorem period_pos (π : Equiv.Perm (Fin n)) (i : Fin n) : 0 < Function.minimalPeriod π i := by
  have h : (π : Fin n → Fin n)^[orderOf π] i = i := by
    rw [← Equiv.Perm.coe_pow, pow_orderOf_eq_one]
    rfl
  exact Function.IsPeriodicPt.minimalPeriod_pos (orderOf_pos π) h

theorem mem_orb (π : Equiv.Perm (Fin n)) (i x : Fin n) : x ∈ orb π i ↔ ∃ k : ℕ, π^[k] i = x := by
  unfold orb
  rw [List.mem_map]
  constructor
  · rintro ⟨k, -, h⟩
    exact ⟨k, h⟩
  · rintro ⟨k, h⟩
    refine ⟨k % Function.minimalPeriod π i, List.mem_range.2 (Nat.mod_lt _ (period_pos π i)), ?_⟩
    rw [Function.iterate_mod_minimalPeriod_eq]
    exact h

theorem mem_orb_self (π : Equiv.Perm (Fin n)) (i : Fin n) : i ∈ orb π i := (mem_orb π i i).2 ⟨0, rfl⟩

theorem mem_orb_symm {π : Equiv.Perm (Fin n)} {i x : Fin n} (h : x ∈ orb π i) : i ∈ orb π x := by
  obtain ⟨k, hk⟩ := (mem_orb π i x).1 h
  refine (mem_orb π x i).2 ⟨k * (orderOf π - 1), ?_⟩
  have ho := orderOf_pos π
  rw [← hk, ← Function.iterate_add_apply,
    show k * (orderOf π - 1) + k = orderOf π * k by
      obtain ⟨o, ho'⟩ := Nat.exists_eq_succ_of_ne_zero ho.ne'
      rw [ho']
      simp only [Nat.succ_sub_one]
      rw [Nat.succ_mul]; ring,
    ← Equiv.Perm.coe_pow, pow_mul, pow_orderOf_eq_one, one_pow]
  rfl

theorem mem_orb_trans {π : Equiv.Perm (Fin n)} {i x y : Fin n} (h : x ∈ orb π i) (h' : y ∈ orb π x) :
    y ∈ orb π i := by
  obtain ⟨k, hk⟩ := (mem_orb π i x).1 h
  obtain ⟨l, hl⟩ := (mem_orb π x y).1 h'
  exact (mem_orb π i y).2 ⟨l + k, by rw [Function.iterate_add_apply, hk, hl]⟩

theorem nodup_orb (π : Equiv.Perm (Fin n)) (i : Fin n) : (orb π i).Nodup := by
  unfold orb
  refine List.Nodup.map_on ?_ List.nodup_range
  intro a ha b hb h
  exact Function.iterate_injOn_Iio_minimalPeriod (List.mem_range.1 ha) (List.mem_range.1 hb) h

theorem orb_next (π : Equiv.Perm (Fin n)) (i : Fin n) (k : ℕ) (h : k < (orb π i).length) :
    π (orb π i)[k] = (orb π i)[(k + 1) % (orb π i).length]'(Nat.mod_lt _ (by omega)) := by
  have hl : (orb π i).length = Function.minimalPeriod π i := by simp [orb]
  have e : ∀ (k : ℕ) (h : k < (orb π i).length), (orb π i)[k] = π^[k] i := by
    intro k h
    simp [orb]
  rw [e, e, hl, Function.iterate_mod_minimalPeriod_eq, Function.iterate_succ_apply']

/-- The fold that collects the cycles. -/
noncomputable def collect (π : Equiv.Perm (Fin n)) (l : List (Fin n)) : List (List (Fin n)) :=
  l.foldl (fun cs i => if i ∈ cs.flatten then cs else cs ++ [orb π i]) []

structure Collected (π : Equiv.Perm (Fin n)) (l : List (Fin n)) (cs : List (List (Fin n))) : Prop where
  orbits : ∀ c ∈ cs, ∃ i ∈ l, c = orb π i
  least : ∀ c ∈ cs, ∃ i, c.head? = some i ∧ ∀ x ∈ c, i ≤ x
  nodup : cs.flatten.Nodup
  all : ∀ i ∈ l, i ∈ cs.flatten

theorem collect_ok (π : Equiv.Perm (Fin n)) (k : ℕ) :
    Collected π ((List.finRange n).take k) (collect π ((List.finRange n).take k)) := by
  induction k with
  | zero =>
    simp only [List.take_zero]
    exact ⟨by simp [collect], by simp [collect], by simp [collect], by simp⟩
  | succ k ih =>
    by_cases hk : k < n
    · have htake : (List.finRange n).take (k + 1) = (List.finRange n).take k ++ [⟨k, hk⟩] := by
        rw [List.take_add_one]
        congr 1
        simp [hk]
      have hmemtake : ∀ x : Fin n, x.val < k → x ∈ (List.finRange n).take k := by
        intro x hx
        rw [List.mem_take_iff_getElem]
        exact ⟨x.val, by simp; omega, by simp⟩
      set l := (List.finRange n).take k with hl
      set i : Fin n := ⟨k, hk⟩ with hi
      have hfold : collect π (l ++ [i]) =
          if i ∈ (collect π l).flatten then collect π l else collect π l ++ [orb π i] := by
        unfold collect
        rw [List.foldl_append]
        rfl
      rw [htake, hfold]
      by_cases hm : i ∈ (collect π l).flatten
      · rw [if_pos hm]
        refine ⟨fun c hc => ?_, ih.least, ih.nodup, fun x hx => ?_⟩
        · obtain ⟨j, hj, e⟩ := ih.orbits c hc
          exact ⟨j, List.mem_append_left _ hj, e⟩
        · rcases List.mem_append.1 hx with hx | hx
          · exact ih.all x hx
          · rw [List.mem_singleton.1 hx]; exact hm
      · rw [if_neg hm]
        -- nothing of the new orbit is listed
        have hdisj : ∀ x ∈ orb π i, x ∉ (collect π l).flatten := by
          intro x hx hxf
          obtain ⟨c, hc, hxc⟩ := List.mem_flatten.1 hxf
          obtain ⟨j, hj, rfl⟩ := ih.orbits c hc
          exact hm (List.mem_flatten.2 ⟨_, hc, mem_orb_trans hxc (mem_orb_symm hx)⟩)
        refine ⟨fun c hc => ?_, fun c hc => ?_, ?_, fun x hx => ?_⟩
        · rcases List.mem_append.1 hc with hc | hc
          · obtain ⟨j, hj, e⟩ := ih.orbits c hc
            exact ⟨j, List.mem_append_left _ hj, e⟩
          · exact ⟨i, by simp, List.mem_singleton.1 hc⟩
        · rcases List.mem_append.1 hc with hc | hc
          · exact ih.least c hc
          · rw [List.mem_singleton.1 hc]
            refine ⟨i, ?_, fun x hx => ?_⟩
            · have hp := period_pos π i
              obtain ⟨p, hp'⟩ := Nat.exists_eq_succ_of_ne_zero hp.ne'
              unfold orb
              rw [hp', List.range_succ_eq_map]
              rfl
            · by_contra hlt
              push Not at hlt
              exact hdisj x hx (ih.all x (hmemtake x hlt))
        · rw [List.flatten_append, List.nodup_append]
          refine ⟨ih.nodup, by simpa using nodup_orb π i, ?_⟩
          intro x hx y hy hxy
          rw [hxy] at hx
          exact hdisj y (by simpa using hy) hx
        · rw [List.flatten_append, List.mem_append]
          rcases List.mem_append.1 hx with hx | hx
          · exact Or.inl (ih.all x hx)
          · right
            rw [List.mem_singleton.1 hx]
            simpa using mem_orb_self π i
    · rw [List.take_of_length_le (by simp; omega)]
      rwa [List.take_of_length_le (by simp; omega)] at ih

/-- The cycles of a permutation. -/
noncomputable def permCycles (π : Equiv.Perm (Fin n)) : List (List (Fin n)) := collect π (List.finRange n)

theorem permCycles_ok (π : Equiv.Perm (Fin n)) : Collected π (List.finRange n) (permCycles π) := by
  have := collect_ok π n
  rwa [List.take_of_length_le (by simp)] at this

theorem permCycles_cyclesOf (π : Equiv.Perm (Fin n)) : CyclesOf (permCycles π) π := by
  have h := permCycles_ok π
  refine ⟨h.nodup, fun c hc k hk => ?_, fun i hi => ?_⟩
  · obtain ⟨i, -, rfl⟩ := h.orbits c hc
    exact orb_next π i k hk
  · obtain ⟨c, hc, hic⟩ := List.mem_flatten.1 (h.all i (List.mem_finRange i))
    exact absurd hic (hi c hc)

/-- The fold of the library on site numbers. -/
theorem fold_numbers (π : Equiv.Perm (Fin n)) {t : ℕ → ℕ} (ht : ∀ i : Fin n, t i = π i) {m : ℕ}
    (hm : ∀ i < n, t^[m] i = i) (hm0 : 0 < m) :
    (List.range n).foldl (fun cycles ii =>
      if ii ∈ cycles.flatten then cycles
      else cycles ++ [firstAppearances ((powCols n t m).map fun c => c.getD ii 0)]) [] =
    siteNumbers (permCycles π) := by
  have hiter : ∀ (k : ℕ) (i : Fin n), t^[k] i = (π^[k] i : Fin n) := by
    intro k i
    induction k generalizing i with
    | zero => rfl
    | succ k ih => rw [Function.iterate_succ_apply, Function.iterate_succ_apply, ht, ih]
  have hrow : ∀ i : Fin n, firstAppearances ((powCols n t m).map fun c => c.getD i.val 0) =
      (orb π i).map Fin.val := by
    intro i
    have e : (powCols n t m).map (fun c => c.getD i.val 0) =
        (List.range (m + 1)).map fun k => ((π^[k] i : Fin n) : ℕ) := by
      unfold powCols
      rw [List.map_map]
      refine List.map_congr_left fun k _ => ?_
      unfold powCol
      simp [hiter]
    have hper : Function.IsPeriodicPt π m i := by
      unfold Function.IsPeriodicPt Function.IsFixedPt
      apply Fin.ext
      rw [← hiter]
      exact hm i i.isLt
    have hle : Function.minimalPeriod π i ≤ m := hper.minimalPeriod_le hm0
    obtain ⟨d, hd⟩ := Nat.exists_eq_add_of_le hle
    rw [e, show m + 1 = Function.minimalPeriod π i + (d + 1) by omega, List.range_add, List.map_append]
    rw [firstAppearances_append]
    · unfold orb
      rw [List.map_map]
      rfl
    · have := (nodup_orb π i).map (f := Fin.val) Fin.val_injective
      unfold orb at this
      rwa [List.map_map] at this
    · intro x hx
      obtain ⟨k, -, rfl⟩ := List.mem_map.1 hx
      have := (mem_orb π i (π^[k] i)).2 ⟨k, rfl⟩
      unfold orb at this
      obtain ⟨k', hk', e'⟩ := List.mem_map.1 this
      exact List.mem_map.2 ⟨k', hk', by rw [e']⟩
  -- both folds in step
  have key : ∀ (l : List (Fin n)) (cs : List (List (Fin n))),
      (l.map Fin.val).foldl (fun cycles ii =>
        if ii ∈ cycles.flatten then cycles
        else cycles ++ [firstAppearances ((powCols n t m).map fun c => c.getD ii 0)]) (siteNumbers cs) =
      siteNumbers (l.foldl (fun cs i => if i ∈ cs.flatten then cs else cs ++ [orb π i]) cs) := by
    intro l
    induction l with
    | nil => intro cs; rfl
    | cons i l ih =>
      intro cs
      rw [List.map_cons, List.foldl_cons, List.foldl_cons, ← ih]
      congr 1
      have hmem : (i : ℕ) ∈ (siteNumbers cs).flatten ↔ i ∈ cs.flatten := by
        unfold siteNumbers
        rw [← List.map_flatten, List.mem_map]
        constructor
        · rintro ⟨j, hj, e⟩
          rwa [← Fin.ext e]
        · exact fun h => ⟨i, h, rfl⟩
      by_cases h : i ∈ cs.flatten
      · rw [if_pos h, if_pos (hmem.2 h)]
      · rw [if_neg h, if_neg (fun h' => h (hmem.1 h')), hrow]
        unfold siteNumbers
        rw [List.map_append]
        rfl
  have := key (List.finRange n) []
  rw [List.map_coe_finRange_eq_range] at this
  exact this

/-! ## Where the sites land -/

/-- Reduction acts point by point, or always raises. -/
theorem reducePoints_cases (g : Geometry) :
    (∃ R : ℝ × ℝ → ℝ × ℝ, (∀ ps, g.reducePoints ps = .ok (ps.map R)) ∧
      (∀ tol p q, Lands g tol p q ↔ close tol (R p) (R q)) ∧
      (∀ L, g.lattice = some L → Periods L.per1 L.per2 →
        ∀ p q, SameClass L.per1 L.per2 p q → R q = R p)) ∨
    ((∀ ps, ∃ e, g.reducePoints ps = .error e) ∧ ∀ tol p q, ¬ Lands g tol p q) := by
  cases hL : g.lattice with
  | none =>
    left
    refine ⟨id, fun ps => ?_, fun tol p q => ?_, fun L h => absurd h (by simp)⟩
    · unfold reducePoints
      rw [hL]
      simp [pure, Except.pure]
    · unfold Lands
      rw [hL]
      rfl
  | some L =>
    cases hr : projRows L.per1 L.per2 with
    | ok r =>
      left
      have hone : ∀ p : ℝ × ℝ, reduceVectors L.per1 L.per2 [p.1] [p.2] "centered" =
          .ok [reduceCol L.per1 L.per2 r ("centered" = "centered") p.1 p.2] := fun p => by
        rw [reduceVectors_ok hr [p.1] [p.2] rfl (Or.inr rfl)]
        rfl
      refine ⟨fun p => redPoint L.per1 L.per2 r true p, fun ps => ?_, fun tol p q => ?_, ?_⟩
      · unfold reducePoints
        rw [hL]
        simp only [Lattice.reduceToUnitCell]
        rw [reduceVectors_ok hr _ _ (by simp) (Or.inr rfl)]
        simp only [bind, Except.bind, pure, Except.pure]
        congr 1
        induction ps with
        | nil => rfl
        | cons p ps ih =>
          rw [List.map_cons, List.map_cons, List.zipWith_cons_cons, List.map_cons, List.map_cons, ih,
            reduceCol_eq]
          simp
      · unfold Lands
        rw [hL]
        simp only [hone]
        constructor
        · rintro ⟨c, d, hc, hd, h1, h2⟩
          injection hc with hc
          injection hd with hd
          injection hc with hc
          injection hd with hd
          rw [← hc, ← hd, reduceCol_eq, reduceCol_eq] at h1 h2
          simp only [decide_true] at h1 h2
          exact ⟨h1, h2⟩
        · rintro ⟨h1, h2⟩
          refine ⟨_, _, rfl, rfl, ?_, ?_⟩
          · rw [reduceCol_eq, reduceCol_eq]
            simp only [decide_true]
            exact h1
          · rw [reduceCol_eq, reduceCol_eq]
            simp only [decide_true]
            exact h2
      · intro L' h hp p q hpq
        obtain rfl : L = L' := by injection h
        obtain ⟨r', hr', hd⟩ := projRows_ok hp
        rw [hr] at hr'
        injection hr' with hr'
        subst hr'
        exact redPoint_shift hp hd true p q hpq
    | error e =>
      right
      have herr : ∀ xs ys : List ℝ, ∃ e', reduceVectors L.per1 L.per2 xs ys "centered" = .error e' := by
        intro xs ys
        unfold reduceVectors
        by_cases hl : xs.length = ys.length
        · rw [if_neg (by simpa using hl), if_neg (by simp), hr]
          exact ⟨_, rfl⟩
        · rw [if_pos hl]
          exact ⟨_, rfl⟩
      refine ⟨fun ps => ?_, fun tol p q => ?_⟩
      · obtain ⟨e', he'⟩ := herr (ps.map Prod.fst) (ps.map Prod.snd)
        unfold reducePoints
        rw [hL]
        simp only [Lattice.reduceToUnitCell]
        rw [he']
        exact ⟨_, rfl⟩
      · unfold Lands
        rw [hL]
        rintro ⟨c, -, hc, -⟩
        obtain ⟨e', he'⟩ := herr [p.1] [p.2]
        rw [he'] at hc
        cases hc

theorem points_getElem (g : Geometry) (hy : g.ylocs.length = g.nsites) {i : ℕ} (hi : i < g.nsites) :
    g.points[i]? = some (g.at i) := by
  unfold points
  have h1 : i < g.xlocs.length := hi
  have h2 : i < g.ylocs.length := by omega
  rw [List.getElem?_zip_eq_some.2]
  unfold Geometry.at
  simp [h1, h2]

theorem points_length (g : Geometry) (hy : g.ylocs.length = g.nsites) : g.points.length = g.nsites := by
  unfold points
  rw [List.length_zip, hy]
  exact Nat.min_self _

/-- The image of every site as an index found by the library. -/
def Images (g : Geometry) (tol : ℝ) (f : ℝ × ℝ → ℝ × ℝ) (R : ℝ × ℝ → ℝ × ℝ) (t : ℕ → ℕ) : Prop :=
  ∀ i < g.nsites, ∃ p, ((g.points.map f).map R)[i]? = some p ∧
    (g.points.map R).findIdx? (fun q => decide (close tol p q)) = some (t i)

theorem images_iff {g : Geometry} (hy : g.ylocs.length = g.nsites) {tol : ℝ} {f R : ℝ × ℝ → ℝ × ℝ}
    (hR : ∀ p q, Lands g tol p q ↔ close tol (R p) (R q)) {t : ℕ → ℕ} (ht : ∀ i < g.nsites, t i < g.nsites) :
    Images g tol f R t ↔
      MovesSites g tol f (fun i : Fin g.nsites => ⟨t i, ht i i.isLt⟩) := by
  unfold Images MovesSites
  have hp : ∀ i < g.nsites, ((g.points.map f).map R)[i]? = some (R (f (g.at i))) := by
    intro i hi
    rw [List.getElem?_map, List.getElem?_map, points_getElem g hy hi]
    rfl
  have hq : ∀ (p : ℝ × ℝ) (j : ℕ), j < g.nsites →
      ((g.points.map R).findIdx? (fun q => decide (close tol p q)) = some j ↔
        close tol p (R (g.at j)) ∧ ∀ k < j, ¬ close tol p (R (g.at k))) := by
    intro p j hj
    have hlen : (g.points.map R).length = g.nsites := by rw [List.length_map, points_length g hy]
    have hget : ∀ (k : ℕ) (hk : k < (g.points.map R).length), (g.points.map R)[k] = R (g.at k) := by
      intro k hk
      have := points_getElem g hy (i := k) (by omega)
      have h2 : (g.points.map R)[k]? = some (R (g.at k)) := by rw [List.getElem?_map, this]; rfl
      exact (List.getElem?_eq_some_iff.1 h2).2
    rw [List.findIdx?_eq_some_iff_getElem]
    constructor
    · rintro ⟨h, h1, h2⟩
      rw [hget, decide_eq_true_iff] at h1
      refine ⟨h1, fun k hk => ?_⟩
      have := h2 k hk
      rwa [hget, decide_eq_true_iff] at this
    · rintro ⟨h1, h2⟩
      refine ⟨by omega, ?_, fun k hk => ?_⟩
      · rw [hget, decide_eq_true_iff]; exact h1
      · rw [hget, decide_eq_true_iff]; exact h2 k hk
  constructor
  · intro h i
    obtain ⟨p, hp1, hp2⟩ := h i i.isLt
    rw [hp i i.isLt] at hp1
    injection hp1 with hp1
    subst hp1
    obtain ⟨h1, h2⟩ := (hq _ _ (ht i i.isLt)).1 hp2
    exact ⟨(hR _ _).2 h1, fun j hj hl => h2 j hj ((hR _ _).1 hl)⟩
  · intro h i hi
    refine ⟨_, hp i hi, (hq _ _ (ht i hi)).2 ?_⟩
    obtain ⟨h1, h2⟩ := h ⟨i, hi⟩
    refine ⟨(hR _ _).1 h1, fun k hk hc => h2 ⟨k, by have := ht i hi; omega⟩ hk ((hR _ _).2 hc)⟩

end Geometry

end ED
