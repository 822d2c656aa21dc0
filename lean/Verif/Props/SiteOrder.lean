import Verif.Props.Constructors

/-! # Property C50: the order of the sites of a square lattice -/

namespace ED.Props

open ED ED.Geometry

/-- C50: the sites of `createSquareGeometry` are numbered column by column: site `i` is at `(i / ny, i % ny)`. -/
theorem C50_square_order (nx ny : ℕ) (hx : 0 < nx) (hy : 0 < ny) (harea : nx * ny ≤ 10 ^ 14) (f1 f2 : ℝ)
    (o1 o2 : Bool) (h1 : nx = 1 → o1 = true) (h2 : ny = 1 → o2 = true) {g : Geometry}
    (hg : createSquare nx ny f1 f2 o1 o2 = .ok g) {i : ℕ} (hi : i < nx * ny) :
    g.xlocs[i]? = some ((i / ny : ℕ) : ℝ) ∧ g.ylocs[i]? = some ((i % ny : ℕ) : ℝ) := by
  have hd : (nx : ℤ) * (ny : ℤ) - 0 * 0 ≠ 0 := by
    rw [mul_zero, sub_zero]
    exact_mod_cast (Nat.mul_pos hx hy).ne'
  have data := square_data (p1 := ((nx : ℝ), 0)) (p2 := (0, (ny : ℝ)))
    (n := nx) (m := 0) (i := 0) (j := ny) (by simp) (by simp) hd
  obtain ⟨H, L, sites, g', hH, hlp, hs, -, -, -, -, hgx, hgy, -, hc⟩ := data.create [(0, 0)] f1 f2 o1 o2
  obtain ⟨sites', hs', -, hsort, -⟩ := hlp.uniqueSites_ok
  rw [hs] at hs'
  injection hs' with hs'
  subst hs'
  obtain ⟨g'', hg'', -, hnd, hgrid⟩ := C50_square_grid nx ny hx hy harea f1 f2 o1 o2 h1 h2
  rw [hg] at hg''
  injection hg'' with e
  subst e
  have hgg : g' = g := by
    unfold createSquare at hg
    rw [if_neg (guard_ok h1), if_neg (guard_ok h2)] at hg
    have := hc.symm.trans hg
    injection this
  subst hgg
  have hzip : g'.xlocs.zip g'.ylocs = sites := by
    rw [hgx, hgy, List.zip_map']
    simp
  rw [hzip] at hnd hgrid
  have key : sites = (List.range (nx * ny)).map fun k : ℕ => (((k / ny : ℕ) : ℝ), ((k % ny : ℕ) : ℝ)) := by
    have hsort' : ((List.range (nx * ny)).map fun k : ℕ => (((k / ny : ℕ) : ℝ), ((k % ny : ℕ) : ℝ))).Pairwise
        Lattice.colLE := by
      rw [List.pairwise_map]
      refine List.Pairwise.imp ?_ List.pairwise_lt_range
      intro a b hab
      have d := Nat.div_le_div_right (c := ny) hab.le
      rcases Nat.lt_or_ge (a / ny) (b / ny) with h | h
      · left
        exact Nat.cast_lt.2 h
      · right
        have e : a / ny = b / ny := le_antisymm d h
        refine ⟨by simp only; rw [e], ?_⟩
        have q1 := Nat.div_add_mod a ny
        have q2 := Nat.div_add_mod b ny
        rw [e] at q1
        have : a % ny ≤ b % ny := by omega
        exact Nat.cast_le.2 this
    refine List.Perm.eq_of_pairwise (le := Lattice.colLE) ?_ hsort hsort' ?_
    · rintro ⟨a, b⟩ ⟨c, d⟩ - - hab hba
      unfold Lattice.colLE at hab hba
      simp only at hab hba
      rcases hab with h | ⟨h, h'⟩ <;> rcases hba with k | ⟨k, k'⟩
      · exact absurd h (not_lt.2 k.le)
      · exact absurd k h.ne'
      · exact absurd h k.ne'
      · rw [h, le_antisymm h' k']
    · rw [List.perm_ext_iff_of_nodup hnd]
      · rintro ⟨x, y⟩
        rw [hgrid, List.mem_map]
        constructor
        · rintro ⟨a, b, ha, hb, rfl, rfl⟩
          refine ⟨a * ny + b, List.mem_range.2 (by nlinarith), ?_⟩
          have e1 : (a * ny + b) / ny = a := by
            rw [mul_comm, Nat.mul_add_div hy, Nat.div_eq_of_lt hb, add_zero]
          have e2 : (a * ny + b) % ny = b := by
            rw [mul_comm, Nat.mul_add_mod, Nat.mod_eq_of_lt hb]
          rw [e1, e2]
        · rintro ⟨k, hk, e⟩
          rw [List.mem_range] at hk
          obtain ⟨rfl, rfl⟩ := Prod.mk.injEq .. ▸ e
          exact ⟨_, _, Nat.div_lt_of_lt_mul (by rwa [mul_comm] at hk), Nat.mod_lt _ hy, rfl, rfl⟩
      · refine List.Nodup.map ?_ List.nodup_range
        intro a b e
        simp only [Prod.mk.injEq, Nat.cast_inj] at e
        rw [← Nat.div_add_mod a ny, ← Nat.div_add_mod b ny, e.1, e.2]
  rw [hgx, hgy, key]
  simp [hi]

/-- Six sites in two rows: site 3 is the second site of the second column. -/
example : ∃ g, createSquare 3 2 0 0 true true = .ok g ∧ g.xlocs[3]? = some 1 ∧ g.ylocs[3]? = some 1 := by
  obtain ⟨g, hg, -⟩ := C50_square 3 2 (by omega) (by omega) 0 0 true true (by simp) (by simp)
  refine ⟨g, hg, ?_⟩
  have h := C50_square_order 3 2 (by omega) (by omega) (by norm_num) 0 0 true true (by simp) (by simp) hg
    (i := 3) (by norm_num)
  simpa using h

end ED.Props
