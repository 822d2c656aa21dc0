import Verif.Props.Constructors
import Verif.Props.FermionInit
import Verif.Model.FermionModel

/-! # Lemmas: fermion models on square lattices -/

namespace ED.Props

open ED ED.Geometry Classical

/-- Without boundary phases all phases are one. -/
theorem phaseMat_one {L : Lattice} (h1 : L.phase1 = 0) (h2 : L.phase2 = 0) (X Y : Arr ℝ) (i j : ℕ) :
    (L.phaseMat X Y).e i j = 1 := by
  unfold Lattice.phaseMat
  simp only [h1, h2]
  split_ifs <;> simp

/-- What the fermion models use about a square lattice without boundary phases. -/
theorem square_distances {nx ny : ℕ} (hx : 0 < nx) (hy : 0 < ny) (harea : nx * ny < 10 ^ 14)
    {o1 o2 : Bool} (h1 : nx = 1 → o1 = true) (h2 : ny = 1 → o2 = true) {g : Geometry}
    (hg : createSquare nx ny 0 0 o1 o2 = .ok g) :
    Regular g ∧ (∀ i j, g.phase.e i j = 1) ∧
    (∀ i j, g.xdist.e j i = -g.xdist.e i j ∧ g.ydist.e j i = -g.ydist.e i j) ∧ ∀ i < g.nsites, ∀ j < g.nsites,
      (o1 = true → g.xdist.e i j = g.xlocs.getD i 0 - g.xlocs.getD j 0) ∧
      (o2 = true → g.ydist.e i j = g.ylocs.getD i 0 - g.ylocs.getD j 0) ∧
      (g.adjacency.e i j = 1 → (|g.xdist.e i j| = 1 ∧ g.ydist.e i j = 0) ∨ (g.xdist.e i j = 0 ∧ |g.ydist.e i j| = 1)) := by
  have hd : (nx : ℤ) * (ny : ℤ) - 0 * 0 ≠ 0 := by
    rw [mul_zero, sub_zero]
    exact_mod_cast (Nat.mul_pos hx hy).ne'
  have data := square_data (p1 := ((nx : ℝ), 0)) (p2 := (0, (ny : ℝ)))
    (n := nx) (m := 0) (i := 0) (j := ny) (by simp) (by simp) hd
  obtain ⟨H, L, sites, g', hH, hlp, hs, hL, c1, c2, hgi, hgx, hgy, -, hc⟩ :=
    data.create [(0, 0)] 0 0 o1 o2
  obtain ⟨g'', hg'', hlen, -, hgrid⟩ := C50_square_grid nx ny hx hy harea.le 0 0 o1 o2 h1 h2
  rw [hg] at hg''
  injection hg'' with e
  subst e
  have hgg : g' = g := by
    unfold createSquare at hg
    rw [if_neg (guard_ok h1), if_neg (guard_ok h2)] at hg
    have := hc.symm.trans hg
    injection this
  subst hgg
  obtain ⟨-, -, -, q4, q5, q6, q7, -⟩ := Lattice.init_fields hL
  have hgood := Lattice.init_good hL c1 c2
  have hlen' : (sites.map Prod.fst).length ≤ (sites.map Prod.snd).length := by simp
  obtain ⟨X, Y, N1, N2, a1, a2, a3, a4, a5, a6, a7⟩ := distances hgood (sites.map Prod.fst) (sites.map Prod.snd) hlen'
  have hinit := hgood.init_ok (sites.map Prod.fst) (sites.map Prod.snd) hlen' none none a1 a2
    (fun i j => (a6 i j).1) (fun i j => (a6 i j).2.1)
  rw [hgi] at hinit
  injection hinit with hgeq
  have hN : g'.nsites = (sites.map Prod.fst).length := by rw [hgeq]; rfl
  have hph : ∀ i j, g'.phase.e i j = 1 := fun i j => by
    rw [hgeq]
    exact phaseMat_one q6 q7 X Y i j
  have hva := Lattice.unitAdjacency_valid a2.1 a2.2 (fun i j => (a6 i j).1) (fun i j => (a6 i j).2.1)
  have hvp := Lattice.phaseMat_valid L (n := (sites.map Prod.fst).length) a2.1 (fun i j => (a6 i j).1)
    (fun i j => (a6 i j).2.1)
  refine ⟨⟨?_, ?_, ?_, ?_⟩, hph, fun i j => ?_, ?_⟩
  · rw [hN, hgeq]
    exact ⟨hva.2.2.1, hva.2.2.2⟩
  · rw [hN, hgeq]
    exact ⟨hvp.1, hvp.2.1⟩
  · intro i _ j _
    rw [hgeq]
    simp only [unitAdjacency]
    rw [(a6 i j).1, (a6 i j).2.1, neg_sq, neg_sq]
  · intro i _ j _
    rw [hph, hph, map_one]
  · rw [hgeq]
    exact ⟨(a6 j i).1, (a6 j i).2.1⟩
  · intro i hi j hj
    rw [hN] at hi hj
    have pos : ∀ k < (sites.map Prod.fst).length, ∃ u v : ℤ,
        (sites.map Prod.fst).getD k 0 = u ∧ (sites.map Prod.snd).getD k 0 = v := by
      intro k hk
      have hk' : k < (sites.map Prod.snd).length := lt_of_lt_of_le hk hlen'
      have hm : ((sites.map Prod.fst)[k], (sites.map Prod.snd)[k]) ∈ g'.xlocs.zip g'.ylocs := by
        rw [hgx, hgy, List.mem_iff_getElem?]
        refine ⟨k, ?_⟩
        rw [List.getElem?_zip_eq_some]
        exact ⟨List.getElem?_eq_getElem hk, List.getElem?_eq_getElem hk'⟩
      obtain ⟨u, v, -, -, e1, e2⟩ := (hgrid _ _).1 hm
      refine ⟨u, v, ?_, ?_⟩
      · rw [List.getD_eq_getElem?_getD, List.getElem?_eq_getElem hk, Option.getD_some, e1]; simp
      · rw [List.getD_eq_getElem?_getD, List.getElem?_eq_getElem hk', Option.getD_some, e2]; simp
    obtain ⟨ui, vi, p1, p2⟩ := pos i hi
    obtain ⟨uj, vj, p3, p4⟩ := pos j hj
    obtain ⟨k, l, hkl⟩ := a7 i hi j hj
    rw [p1, p2, p3, p4, q4, q5] at hkl
    obtain ⟨x, hxx⟩ : ∃ x : ℤ, X.e i j = x := by
      have := congrArg Prod.fst hkl
      cases o1 <;> cases o2 <;> simp at this
      · exact ⟨ui - uj + k * nx, by rw [this]; push_cast; ring⟩
      · exact ⟨ui - uj + k * nx, by rw [this]; push_cast; ring⟩
      · exact ⟨ui - uj, by rw [this]; push_cast; ring⟩
      · exact ⟨ui - uj, by rw [this]; push_cast; ring⟩
    obtain ⟨y, hyy⟩ : ∃ y : ℤ, Y.e i j = y := by
      have := congrArg Prod.snd hkl
      cases o1 <;> cases o2 <;> simp at this
      · exact ⟨vi - vj + l * ny, by rw [this]; push_cast; ring⟩
      · exact ⟨vi - vj, by rw [this]; push_cast; ring⟩
      · exact ⟨vi - vj + l * ny, by rw [this]; push_cast; ring⟩
      · exact ⟨vi - vj, by rw [this]; push_cast; ring⟩
    refine ⟨fun ho => ?_, fun ho => ?_, fun hadj => ?_⟩
    · rw [hgx, p1, p3, hgeq]
      subst ho
      have := congrArg Prod.fst hkl
      cases o2 <;> simp at this <;> exact this
    · rw [hgy, p2, p4, hgeq]
      subst ho
      have := congrArg Prod.snd hkl
      cases o1 <;> simp at this <;> exact this
    have hsq : x ^ 2 + y ^ 2 = 1 := by
      rw [hgeq] at hadj
      simp only [unitAdjacency] at hadj
      rw [hxx, hyy] at hadj
      have h : npRound 14 (Real.sqrt ((x : ℝ) ^ 2 + (y : ℝ) ^ 2)) = 1 := by
        by_contra hc
        rw [if_neg hc] at hadj
        norm_num at hadj
      have h' : npRound 14 (Real.sqrt ((x : ℝ) ^ 2 + (y : ℝ) ^ 2) - ((1 : ℤ) : ℝ)) = 0 := by
        rw [npRound_sub_int 14 (by norm_num), h]
        norm_num
      rw [npRound_eq_zero, abs_le] at h'
      set s := Real.sqrt ((x : ℝ) ^ 2 + (y : ℝ) ^ 2) with hs
      have hs2 : s ^ 2 = (x : ℝ) ^ 2 + (y : ℝ) ^ 2 := Real.sq_sqrt (by positivity)
      have small : (1 : ℝ) / 2 / 10 ^ 14 < 1 / 10 := by norm_num
      push_cast at h'
      have b1 : (0 : ℝ) < (x : ℝ) ^ 2 + (y : ℝ) ^ 2 := by rw [← hs2]; nlinarith
      have b2 : (x : ℝ) ^ 2 + (y : ℝ) ^ 2 < 2 := by rw [← hs2]; nlinarith
      have b1' : 0 < x ^ 2 + y ^ 2 := by exact_mod_cast b1
      have b2' : x ^ 2 + y ^ 2 < 2 := by exact_mod_cast b2
      omega
    rw [hgeq]
    simp only
    rw [hxx, hyy]
    rcases (hunit x y).1 hsq with ⟨h, rfl⟩ | ⟨rfl, h⟩
    · have : (|x| : ℝ) = 1 := by exact_mod_cast h
      exact Or.inl ⟨by simpa using this, by simp⟩
    · have : (|y| : ℝ) = 1 := by exact_mod_cast h
      exact Or.inr ⟨by simp, by simpa using this⟩

theorem square_facts {nx ny : ℕ} (hx : 0 < nx) (hy : 0 < ny) (harea : nx * ny < 10 ^ 14)
    {o1 o2 : Bool} (h1 : nx = 1 → o1 = true) (h2 : ny = 1 → o2 = true) {g : Geometry}
    (hg : createSquare nx ny 0 0 o1 o2 = .ok g) :
    Regular g ∧ (∀ i j, g.phase.e i j = 1) ∧ ∀ i < g.nsites, ∀ j < g.nsites, g.adjacency.e i j = 1 →
      |g.xdist.e i j| + |g.ydist.e i j| = 1 := by
  obtain ⟨e1, e2, -, e3⟩ := square_distances hx hy harea h1 h2 hg
  refine ⟨e1, e2, fun i hi j hj h => ?_⟩
  rcases (e3 i hi j hj).2.2 h with ⟨h1, h2⟩ | ⟨h1, h2⟩ <;> rw [h1, h2] <;> simp

/-- A model whose arguments are numbers, except for the chemical potentials. -/
theorem fermionModel_square_mus {nx ny : ℕ} (hx : 0 < nx) (hy : 0 < ny) (harea : nx * ny < 10 ^ 14)
    {o1 o2 : Bool} (h1 : nx = 1 → o1 = true) (h2 : ny = 1 → o2 = true) {g : Geometry}
    (hg : createSquare nx ny 0 0 o1 o2 = .ok g) (b : ℕ) (u t w v : ℝ) (mus : ℕ → ℝ) {M : ND ℂ}
    (hM : ∃ r, initMus b M = .ok r ∧ ∀ s < b, r.data [s] = mus s) :
    ∃ p : FermionParams, fermionModel g ⟨[], fun _ => u⟩ ⟨[], fun _ => t⟩ M
        ⟨[], fun _ => w⟩ ⟨[], fun _ => v⟩ b = .ok (p.model g b) ∧
      (∀ i < g.nsites, (p.model g b).us i = u) ∧ ∀ i < g.nsites, ∀ s < b, (p.model g b).mus s = mus s ∧ (p.model g b).pots i s = w ∧
        ∀ j < g.nsites, (p.model g b).ts i j s = t * g.adjacency.e i j ∧
          (p.model g b).usSame i j s = v * g.adjacency.e i j ∧
          ((p.model g b).ts i j s * ((|(p.model g b).xdist i j| + |(p.model g b).ydist i j| : ℝ) : ℂ) =
            t * g.adjacency.e i j) := by
  obtain ⟨hreg, hp, hdist⟩ := square_facts hx hy harea h1 h2 hg
  obtain ⟨r1, a1, b1, c1⟩ := ts_scalar hreg (n := b) (m := 0) (by omega) ⟨[], fun _ => (t : ℂ)⟩ rfl (Complex.ofReal_im t)
  obtain ⟨r2, a2, b2, c2⟩ := (C29_us_partial g ⟨[], fun _ => (u : ℂ)⟩).1 0 (by omega) rfl
  obtain ⟨r3, a3, b3, c3⟩ := us_same_scalar hreg (n := b) (m := 0) (by omega) ⟨[], fun _ => (v : ℂ)⟩ rfl
    (Complex.ofReal_im v)
  obtain ⟨r4, a4, c4⟩ := hM
  obtain ⟨r5, a5, b5, c5⟩ := potentials_scalar g (n := b) (m := 0) (by omega) ⟨[], fun _ => (w : ℂ)⟩ rfl
  refine ⟨⟨r1, r2, r3, r4, r5⟩, ?_, c2, ?_⟩
  · unfold fermionModel initFermions
    rw [a1, a2, a3, a4, a5]
    rfl
  · intro i hi s hs
    refine ⟨c4 s hs, c5 i hi s hs, fun j hj => ?_⟩
    have ht : ((⟨r1, r2, r3, r4, r5⟩ : FermionParams).model g b).ts i j s = t * g.adjacency.e i j := by
      change r1.data [i, j, s] = _
      rw [c1 i hi j hj s hs, hp]
      simp
    refine ⟨ht, c3 i hi j hj s hs, ?_⟩
    rw [ht]
    have hva : g.adjacency.e i j = 0 ∨ g.adjacency.e i j = 1 := by
      obtain ⟨g', hg', -⟩ := C50_square nx ny hx hy 0 0 o1 o2 h1 h2
      obtain ⟨g'', hg'', hlen, -⟩ := C50_square_grid nx ny hx hy harea.le 0 0 o1 o2 h1 h2
      rw [hg] at hg''
      injection hg'' with e
      subst e
      have hi' : i < g.ylocs.length := hlen ▸ hi
      have hj' : j < g.ylocs.length := hlen ▸ hj
      exact (C51_square nx ny hx hy harea 0 0 o1 o2 h1 h2 hg (List.getElem?_eq_getElem hi)
        (List.getElem?_eq_getElem hi') (List.getElem?_eq_getElem hj) (List.getElem?_eq_getElem hj')).1
    rcases hva with h | h
    · rw [h]; simp
    · change _ * ((|g.xdist.e i j| + |g.ydist.e i j| : ℝ) : ℂ) = _
      rw [hdist i hi j hj h]
      simp

/-- A model whose arguments are numbers, except for the chemical potentials. -/
theorem fermionModel_square {nx ny : ℕ} (hx : 0 < nx) (hy : 0 < ny) (harea : nx * ny < 10 ^ 14)
    {o1 o2 : Bool} (h1 : nx = 1 → o1 = true) (h2 : ny = 1 → o2 = true) {g : Geometry}
    (hg : createSquare nx ny 0 0 o1 o2 = .ok g) (b : ℕ) (u t w v : ℝ) (mus : ℕ → ℝ) :
    ∃ p : FermionParams, fermionModel g ⟨[], fun _ => u⟩ ⟨[], fun _ => t⟩ ⟨[b], fun idx => mus (idx.getD 0 0)⟩
        ⟨[], fun _ => w⟩ ⟨[], fun _ => v⟩ b = .ok (p.model g b) ∧
      (∀ i < g.nsites, (p.model g b).us i = u) ∧ ∀ i < g.nsites, ∀ s < b, (p.model g b).mus s = mus s ∧ (p.model g b).pots i s = w ∧
        ∀ j < g.nsites, (p.model g b).ts i j s = t * g.adjacency.e i j ∧
          (p.model g b).usSame i j s = v * g.adjacency.e i j ∧
          ((p.model g b).ts i j s * ((|(p.model g b).xdist i j| + |(p.model g b).ydist i j| : ℝ) : ℂ) =
            t * g.adjacency.e i j) := by
  obtain ⟨r4, a4, b4, c4⟩ := (C29_mus_partial (n := b) ⟨[b], fun idx => (mus (idx.getD 0 0) : ℂ)⟩).2.1 rfl
  exact fermionModel_square_mus hx hy harea h1 h2 hg b u t w v mus ⟨r4, a4, c4⟩

end ED.Props
