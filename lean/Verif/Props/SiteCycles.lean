import Verif.Lemmas.Cycles
import Verif.Model.Isometry
import Verif.Props.Lattice
import Verif.Lemmas.UniqueSites
import Mathlib.GroupTheory.OrderOfElement
import Mathlib.Tactic.FinCases
import Mathlib.Tactic.NormNum

/-! # C39: site cycles -/

namespace ED.Props

open ED ED.Geometry Classical

/-- The numbers of the images of the sites, continued by zero. -/
private noncomputable def num {n : ℕ} (π : Fin n → Fin n) (i : ℕ) : ℕ := if h : i < n then π ⟨i, h⟩ else 0

private theorem num_lt {n : ℕ} (π : Fin n → Fin n) {i : ℕ} (h : i < n) : num π i < n := by
  unfold num
  rw [dif_pos h]
  exact (π ⟨i, h⟩).isLt

private theorem num_fin {n : ℕ} (π : Fin n → Fin n) (i : Fin n) : num π i = π i := by
  unfold num
  rw [dif_pos i.isLt]

private theorem num_iter {n : ℕ} (π : Equiv.Perm (Fin n)) (k : ℕ) (i : Fin n) :
    (num π)^[k] i = ((π ^ k) i : Fin n) := by
  induction k generalizing i with
  | zero => rfl
  | succ k ih =>
    rw [Function.iterate_succ_apply, num_fin, ih, pow_succ]
    rfl

private theorem num_pow_one {n : ℕ} (π : Equiv.Perm (Fin n)) (k : ℕ) :
    (∀ i < n, (num π)^[k] i = i) ↔ π ^ k = 1 := by
  constructor
  · intro h
    ext i
    rw [← num_iter]
    exact h i i.isLt
  · intro h i hi
    have := num_iter π k ⟨i, hi⟩
    rw [h] at this
    exact this

/-- The search for a transformation that maps sites to sites. -/
private theorem search {g : Geometry} (hy : g.ylocs.length = g.nsites) (hn : 2 ≤ g.nsites) {tol : ℝ}
    {f : ℝ × ℝ → ℝ × ℝ} {t : ℕ → ℕ}
    (hstep : ∀ k, getTransformedSites f (powCol g.nsites t k) g tol = .ok (powCol g.nsites t (k + 1))) :
    ∃ m, 1 ≤ m ∧ m ≤ g.nsites + 1 ∧
      (∀ j, 1 ≤ j → j < m → ¬ ∀ i < g.nsites, t^[j] i = i) ∧
      (m ≤ g.nsites → ∀ i < g.nsites, t^[m] i = i) ∧
      findSiteCycles f g tol = if m = g.nsites + 1 then .error .generic else
        .ok ((List.range g.nsites).foldl (fun cycles ii =>
          if ii ∈ cycles.flatten then cycles
          else cycles ++ [firstAppearances ((powCols g.nsites t m).map fun c => c.getD ii 0)]) [], m) := by
  have hstart : cycleLoop f g tol (g.nsites + 1) [List.range g.nsites] (List.replicate g.nsites 0) =
      cycleLoop f g tol g.nsites (powCols g.nsites t 1) (powCol g.nsites t 1) := by
    have hne : List.replicate g.nsites 0 ≠ List.range g.nsites := by
      intro h
      have := congrArg (fun l : List ℕ => l[1]?) h
      simp only [List.getElem?_replicate, List.getElem?_range (show 1 < g.nsites by omega)] at this
      rw [if_pos (by omega)] at this
      simp at this
    have h0 := hstep 0
    rw [powCol_zero] at h0
    conv_lhs => unfold cycleLoop
    rw [if_neg hne]
    simp only [List.getLastD_cons, List.getLastD_nil]
    rw [h0]
    simp only [bind, Except.bind]
    congr 1
    rw [← powCols_succ]
    unfold powCols
    simp [powCol_zero]
  obtain ⟨m, m1, m2, hm, hlt, hend⟩ := cycleLoop_ok hstep g.nsites 1
  refine ⟨m, m1, by omega, fun j j1 j2 h => hlt j j1 j2 (powCol_eq_range.2 h),
    fun h => powCol_eq_range.1 (hend (by omega)), ?_⟩
  unfold findSiteCycles
  simp only
  rw [hstart, hm]
  simp only [bind, Except.bind]
  have hlen : (powCols g.nsites t m).length - 1 = m := by simp [powCols]
  rw [hlen]
  by_cases h : m = g.nsites + 1
  · rw [if_pos h, if_pos h]
    rfl
  · rw [if_neg h, if_neg h]
    rfl

/-- C39: if finding the cycles succeeds, the transformation moves the sites by a permutation; every site is
in exactly one cycle, each entry is followed by its image, cyclically, each cycle starts with its smallest
site, and the returned number is the smallest positive number of applications that return every site to
itself. -/
theorem C39_sound {g : Geometry} (hg : g.WellFormed) (hn : 2 ≤ g.nsites) {tol : ℝ}
    {f : ℝ × ℝ → ℝ × ℝ} {cycles : List (List ℕ)} {m : ℕ} (h : findSiteCycles f g tol = .ok (cycles, m)) :
    ∃ π : Equiv.Perm (Fin g.nsites), MovesSites g tol f π ∧
      (∃ cs : List (List (Fin g.nsites)), cycles = siteNumbers cs ∧ CyclesOf cs π ∧
        (∀ i, ∃ c ∈ cs, i ∈ c) ∧ ∀ c ∈ cs, ∃ i, c.head? = some i ∧ ∀ x ∈ c, i ≤ x) ∧
      π ^ m = 1 ∧ 1 ≤ m ∧ m ≤ g.nsites ∧ ∀ j, 1 ≤ j → j < m → π ^ j ≠ 1 := by
  have hy : g.ylocs.length = g.nsites := hg.ylocs
  -- the first application succeeded
  have hfirst : ∃ cur, getTransformedSites f (List.range g.nsites) g tol = .ok cur := by
    have hne : List.replicate g.nsites 0 ≠ List.range g.nsites := by
      intro h
      have := congrArg (fun l : List ℕ => l[1]?) h
      simp only [List.getElem?_replicate, List.getElem?_range (show 1 < g.nsites by omega)] at this
      rw [if_pos (by omega)] at this
      simp at this
    cases hc : getTransformedSites f (List.range g.nsites) g tol with
    | ok cur => exact ⟨cur, rfl⟩
    | error e =>
      exfalso
      unfold findSiteCycles at h
      simp only at h
      unfold cycleLoop at h
      rw [if_neg hne] at h
      simp only [List.getLastD_cons, List.getLastD_nil] at h
      rw [hc] at h
      simp only [bind, Except.bind] at h
      cases h
  obtain ⟨cur, hcur⟩ := hfirst
  obtain ⟨red, tred, hr, ht, himg⟩ := transformed_error hcur (by simp)
  rcases reducePoints_cases g with ⟨R, hRok, hRl, -⟩ | ⟨herr, -⟩
  swap
  · obtain ⟨e, he⟩ := herr g.points
    rw [he] at hr
    cases hr
  have hr' := hr
  have ht' := ht
  rw [hRok] at hr' ht'
  injection hr' with hr'
  injection ht' with ht'
  subst hr' ht'
  choose! p hp j hj hfind using himg
  have hImg : Images g tol f R j := fun i hi => ⟨p i, hp i hi, hfind i hi⟩
  have hmoves := (images_iff hy (fun p q => hRl tol p q) hj).1 hImg
  have hstep := transformed_pow hr ht hj (fun i hi => ⟨p i, hp i hi, hfind i hi⟩)
  obtain ⟨m', m1, m2, hmin, hid, hres⟩ := search hy hn hstep
  rw [hres] at h
  split_ifs at h with hm'
  injection h with h
  injection h with hc hm
  subst hm
  have hid' := hid (by omega)
  -- the images are a permutation
  set φ : Fin g.nsites → Fin g.nsites := fun i => ⟨j i, hj i i.isLt⟩ with hφ
  have hφi : ∀ (k : ℕ) (i : Fin g.nsites), ((φ^[k] i : Fin g.nsites) : ℕ) = j^[k] i := by
    intro k
    induction k with
    | zero => intro i; rfl
    | succ k ih =>
      intro i
      rw [Function.iterate_succ_apply, Function.iterate_succ_apply, ih]
  have hinj : Function.Injective φ := by
    intro a b hab
    have h1 : φ^[m'] a = φ^[m'] b := by
      obtain ⟨k, rfl⟩ := Nat.exists_eq_succ_of_ne_zero (by omega : m' ≠ 0)
      rw [Function.iterate_succ_apply, Function.iterate_succ_apply, hab]
    apply Fin.ext
    have := congrArg Fin.val h1
    rwa [hφi, hφi, hid' a a.isLt, hid' b b.isLt] at this
  set π : Equiv.Perm (Fin g.nsites) := Equiv.ofBijective φ (Finite.injective_iff_bijective.1 hinj) with hπ
  have hπi : ∀ i, π i = φ i := fun i => rfl
  have hpow : ∀ k, π ^ k = 1 ↔ ∀ i < g.nsites, j^[k] i = i := by
    intro k
    have e : ∀ i, ((π ^ k) i : Fin g.nsites) = φ^[k] i := by
      intro i
      rw [Equiv.Perm.coe_pow]
      rfl
    constructor
    · intro hk i hi
      have := hφi k ⟨i, hi⟩
      rw [← e, hk] at this
      exact this.symm
    · intro hk
      ext i
      rw [e, hφi, hk i i.isLt]
      rfl
  have hcoll := permCycles_ok π
  refine ⟨π, hmoves, ⟨permCycles π, ?_, permCycles_cyclesOf π, fun i => ?_, hcoll.least⟩,
    (hpow m').2 hid', m1, by omega, fun k k1 k2 hk => hmin k k1 k2 ((hpow k).1 hk)⟩
  · rw [← hc]
    exact fold_numbers π (fun i => rfl) hid' (by omega)
  · exact List.mem_flatten.1 (hcoll.all i (List.mem_finRange i))

/-- A geometry with one site. -/
private theorem one_site {g : Geometry} (f : ℝ × ℝ → ℝ × ℝ) (tol : ℝ) (h : g.nsites = 1) :
    findSiteCycles f g tol = .ok ([[0]], 0) := by
  unfold findSiteCycles
  unfold cycleLoop
  simp only [h]
  rw [if_pos (by rfl)]
  simp only [bind, Except.bind]
  rw [if_neg (by simp)]
  simp [firstAppearances, pure, Except.pure]

/-- C39: finding the cycles succeeds for every transformation that permutes the sites, if some positive
number of applications, at most the number of sites, returns every site to itself. -/
theorem C39_complete {g : Geometry} (hg : g.WellFormed) (hn : 1 ≤ g.nsites) {tol : ℝ} {f : ℝ × ℝ → ℝ × ℝ}
    {π : Equiv.Perm (Fin g.nsites)} (hπ : MovesSites g tol f π) {k : ℕ} (hk1 : 1 ≤ k) (hk : k ≤ g.nsites)
    (hpow : π ^ k = 1) : ∃ cycles m, findSiteCycles f g tol = .ok (cycles, m) := by
  have hy : g.ylocs.length = g.nsites := hg.ylocs
  by_cases hn2 : 2 ≤ g.nsites
  swap
  · exact ⟨_, _, one_site f tol (by omega)⟩
  have hlt : ∀ i < g.nsites, num π i < g.nsites := fun i hi => num_lt π hi
  have hmoves : MovesSites g tol f (fun i : Fin g.nsites => ⟨num π i, hlt i i.isLt⟩) := by
    have : (fun i : Fin g.nsites => (⟨num π i, hlt i i.isLt⟩ : Fin g.nsites)) = π := by
      funext i
      exact Fin.ext (num_fin π i)
    rw [this]
    exact hπ
  rcases reducePoints_cases g with ⟨R, hRok, hRl, -⟩ | ⟨-, hno⟩
  swap
  · exact absurd (hπ ⟨0, by omega⟩).1 (hno _ _ _)
  have hImg := (images_iff hy (fun p q => hRl tol p q) hlt).2 hmoves
  have hstep := transformed_pow (hRok g.points) (hRok (g.points.map f)) hlt hImg
  obtain ⟨m, m1, m2, hmin, hid, hres⟩ := search hy hn2 hstep
  rw [hres, if_neg]
  · exact ⟨_, _, rfl⟩
  · intro hm
    exact hmin k hk1 (by omega) ((num_pow_one π k).2 hpow)

/-- C39: if the transformation does not permute the sites the search raises. -/
theorem C39_rejects {g : Geometry} (hg : g.WellFormed) (hn : 2 ≤ g.nsites) {tol : ℝ} {f : ℝ × ℝ → ℝ × ℝ}
    {i : Fin g.nsites} (h : (∀ j : Fin g.nsites, ¬ Lands g tol (f (g.at i)) (g.at j))) :
    ∃ e, findSiteCycles f g tol = .error e := by
  cases hc : findSiteCycles f g tol with
  | error e => exact ⟨e, rfl⟩
  | ok r =>
    obtain ⟨π, hπ, -⟩ := C39_sound hg hn (cycles := r.1) (m := r.2) hc
    exact absurd (hπ i).1 (h _)

/-- C39: sites that a transformation maps onto each other modulo the periodicity vectors are found, if
no two sites are within the tolerance of each other. -/
theorem C39_periodic {g : Geometry} {L : Lattice} (hL : g.lattice = some L)
    (hp : Periods L.per1 L.per2) {tol : ℝ} (htol : 0 < tol) {f : ℝ × ℝ → ℝ × ℝ}
    {π : Fin g.nsites → Fin g.nsites}
    (hmap : ∀ i, SameClass L.per1 L.per2 (g.at (π i)) (f (g.at i)))
    (hsep : ∀ i j : Fin g.nsites, i ≠ j → ¬ Lands g tol (g.at i) (g.at j)) : MovesSites g tol f π := by
  rcases reducePoints_cases g with ⟨R, -, hRl, hinv⟩ | ⟨hno, -⟩
  · intro i
    have e := hinv L hL hp _ _ (hmap i)
    refine ⟨?_, fun j hj hl => hsep (π i) j (by rintro rfl; exact lt_irrefl _ hj) ?_⟩
    · rw [hRl, e]
      exact ⟨by simpa using htol, by simpa using htol⟩
    · rw [hRl] at hl ⊢
      rwa [e] at hl
  · obtain ⟨e, he⟩ := hno []
    obtain ⟨rs, hrs, -⟩ : ∃ rs, reduceVectors L.per1 L.per2 [] [] "centered" = .ok rs ∧ True := by
      obtain ⟨r, hr, -⟩ := projRows_ok hp
      exact ⟨_, reduceVectors_ok hr [] [] rfl (Or.inr rfl), trivial⟩
    unfold reducePoints at he
    rw [hL] at he
    simp only [Lattice.reduceToUnitCell, List.map_nil] at he
    rw [hrs] at he
    cases he

/-! ## Sites on a line -/

/-- Sites at the points `(0, 0), …, (n - 1, 0)` without a lattice and without couplings. -/
private noncomputable def line (n : ℕ) : Geometry where
  lattice := none
  xlocs := (List.range n).map fun k : ℕ => (k : ℝ)
  ylocs := (List.range n).map fun _ => 0
  xdist := ⟨n, n, fun i j => (i : ℝ) - j⟩
  ydist := ⟨n, n, fun _ _ => 0⟩
  adjacency := ⟨n, n, fun _ _ => 0⟩
  phase := ⟨n, n, fun _ _ => 1⟩

private theorem line_wf (n : ℕ) : (line n).WellFormed := by
  constructor <;> simp [line]

private theorem line_nsites (n : ℕ) : (line n).nsites = n := by simp [line, Geometry.nsites]

private theorem line_at {n i : ℕ} (h : i < n) : (line n).at i = ((i : ℝ), 0) := by
  unfold Geometry.at line
  simp [h]

private theorem line_lands (n : ℕ) {i j : ℕ} : Lands (line n) (1 / 10 ^ 10) ((i : ℝ), 0) ((j : ℝ), 0) ↔ i = j := by
  unfold Lands
  simp only [line]
  constructor
  · rintro ⟨h, -⟩
    have h' : |((i : ℤ) - (j : ℤ) : ℤ)| < 1 := by
      have : |(((i : ℤ) - (j : ℤ) : ℤ) : ℝ)| < 1 := by
        push_cast
        refine lt_of_lt_of_le h (by norm_num)
      rw [← Int.cast_abs] at this
      exact_mod_cast this
    rw [Int.abs_lt_one_iff] at h'
    omega
  · rintro rfl
    norm_num

private theorem line_moves {n : ℕ} (π : Equiv.Perm (Fin (line n).nsites)) {f : ℝ × ℝ → ℝ × ℝ}
    (hf : ∀ i : Fin (line n).nsites, f (((i : ℕ) : ℝ), 0) = ((((π i : Fin _) : ℕ) : ℝ), 0)) :
    MovesSites (line n) (1 / 10 ^ 10) f π := by
  intro i
  have hlt : ∀ i : Fin (line n).nsites, (i : ℕ) < n := fun i =>
    i.isLt.trans_eq (line_nsites n)
  rw [line_at (hlt i), line_at (hlt (π i)), hf, line_lands]
  refine ⟨rfl, fun j hj => ?_⟩
  rw [line_at (hlt j), line_lands]
  intro e
  exact absurd (Fin.ext e) hj.ne'

/-- The hypotheses of `C39_sound` and `C39_complete` are met by an inversion of a chain: the two ends are
exchanged, and the number returned is two. -/
example : ∃ cycles, findSiteCycles (getInversionFn (1, 0)) (line 3) (1 / 10 ^ 10) = .ok (cycles, 2) ∧
    ∃ cs : List (List (Fin (line 3).nsites)), cycles = siteNumbers cs ∧ CyclesOf cs Fin.revPerm := by
  have hn : (line 3).nsites = 3 := line_nsites 3
  have hmove : MovesSites (line 3) (1 / 10 ^ 10) (getInversionFn (1, 0)) Fin.revPerm := by
    refine line_moves _ fun i => ?_
    have h1 : ((Fin.revPerm i : Fin (line 3).nsites) : ℕ) + i = 2 := by
      have := i.isLt
      rw [Fin.revPerm_apply, Fin.val_rev]
      omega
    have h2 : (((Fin.revPerm i : Fin (line 3).nsites) : ℕ) : ℝ) + (i : ℕ) = 2 := by exact_mod_cast h1
    unfold getInversionFn
    ext
    · simp only; linarith
    · simp
  have hsq : (Fin.revPerm : Equiv.Perm (Fin (line 3).nsites)) ^ 2 = 1 := by
    ext i
    simp [pow_two]
  obtain ⟨cycles, m, h⟩ := C39_complete (line_wf 3) (by omega) hmove (k := 2) (by norm_num) (by omega) hsq
  obtain ⟨π, hπ, ⟨cs, hcs, hcyc, -⟩, hpow, m1, m2, hmin⟩ := C39_sound (line_wf 3) (by omega) h
  have heq : π = Fin.revPerm := by
    ext i
    rcases lt_trichotomy (π i) (Fin.revPerm i) with hlt | heq | hgt
    · exact absurd (hπ i).1 ((hmove i).2 _ hlt)
    · rw [heq]
    · exact absurd (hmove i).1 ((hπ i).2 _ hgt)
  subst heq
  have h1 : (Fin.revPerm : Equiv.Perm (Fin (line 3).nsites)) ^ 1 ≠ 1 := by
    intro h1
    have := congrArg (fun σ : Equiv.Perm (Fin (line 3).nsites) => (σ ⟨0, by omega⟩ : ℕ)) h1
    simp [Fin.val_rev] at this
    omega
  have hm : m = 2 := by
    rcases Nat.lt_or_ge 2 m with hlt | hge
    · exact absurd hsq (hmin 2 (by norm_num) hlt)
    · rcases (by omega : m = 1 ∨ m = 2) with rfl | rfl
      · exact absurd hpow h1
      · rfl
  subst hm
  exact ⟨cycles, h, cs, hcs, hcyc⟩

/-- The sites of a ring: the points of the line modulo `(3, 0)`. -/
private noncomputable def ring3 : Geometry :=
  { line 3 with lattice := some ⟨(1, 0), (0, 1), (1, 0), (0, 1), [(0, 0)], (3, 0), (0, 0), (1 / 3, 0), (0, 0), 0, 0⟩ }

private theorem ring3_at {i : ℕ} (h : i < 3) : ring3.at i = ((i : ℝ), 0) := line_at h

/-- The hypotheses of `C39_periodic` are met by a translation of a ring. -/
example : MovesSites ring3 (1 / 10 ^ 10) (getTranslFn (1, 0)) (finRotate ring3.nsites) := by
  have hper : Periods ((3, 0) : ℝ × ℝ) (0, 0) := by
    refine ⟨Or.inr ?_, Or.inl rfl, fun _ h => absurd rfl h⟩
    unfold NonNegligible
    have h3 : (1 : ℝ) ≤ √(3 ^ 2 + 0 ^ 2) := by
      rw [Real.one_le_sqrt]
      norm_num
    refine lt_of_lt_of_le ?_ h3
    norm_num
  have hlt : ∀ i : Fin ring3.nsites, (i : ℕ) < 3 := fun i => i.isLt.trans_eq (line_nsites 3)
  have hrot : ∀ i : Fin 3, ((finRotate 3 i : Fin 3) : ℤ) = i + 1 ∨ ((finRotate 3 i : Fin 3) : ℤ) = i + 1 - 3 := by
    decide
  have hrot' : ∀ (n : ℕ) (hn : n = 3) (i : Fin n), ((finRotate n i : Fin n) : ℤ) = i + 1 ∨
      ((finRotate n i : Fin n) : ℤ) = i + 1 - 3 := by
    rintro _ rfl i
    exact hrot i
  refine C39_periodic rfl hper (by norm_num) (fun i => ?_) fun i j hij hl => hij (Fin.ext ?_)
  · rw [ring3_at (hlt i), ring3_at (hlt _)]
    rcases hrot' _ (line_nsites 3) i with h | h
    · refine ⟨0, 0, ?_⟩
      have h' : ((finRotate ring3.nsites i : Fin _) : ℝ) = (i : ℕ) + 1 := by exact_mod_cast h
      unfold getTranslFn
      generalize finRotate ring3.nsites i = k at h'
      ext
      · simp [h']
      · simp
    · refine ⟨1, 0, ?_⟩
      have h' : (((finRotate ring3.nsites i : Fin _) : ℕ) : ℝ) = (i : ℕ) + 1 - 3 := by exact_mod_cast h
      unfold getTranslFn
      generalize finRotate ring3.nsites i = k at h'
      ext
      · simp [h']
      · simp
  · rw [ring3_at (hlt i), ring3_at (hlt j)] at hl
    obtain ⟨c, d, hc, hd, h1, h2⟩ := hl
    -- the reduced points differ from the sites by multiples of the period
    have hred : ∀ (k : ℕ) (c : Reduced), reduceVectors (3, 0) (0, 0) [((k : ℕ) : ℝ)] [0] "centered" = .ok [c] →
        ∃ a : ℤ, c.x = k - 3 * a := by
      intro k c hc
      obtain ⟨rs, hrs, -, h⟩ := C48_subtracts hper (xs := [((k : ℕ) : ℝ)]) (ys := [0]) rfl (Or.inr rfl)
      rw [hc] at hrs
      injection hrs with hrs
      subst hrs
      obtain ⟨c', hc', e⟩ := h 0 _ _ rfl rfl
      injection hc' with hc'
      subst hc'
      refine ⟨c.n1, ?_⟩
      rw [zsmul_pair, zsmul_pair] at e
      have := congrArg Prod.fst e
      simp only [Prod.fst_add, mul_zero, add_zero] at this
      linarith
    obtain ⟨a, ha⟩ := hred i c hc
    obtain ⟨b, hb⟩ := hred j d hd
    have h' : |((i : ℤ) - 3 * a - (j - 3 * b) : ℤ)| < 1 := by
      have : |(((i : ℤ) - 3 * a - (j - 3 * b) : ℤ) : ℝ)| < 1 := by
        push_cast
        rw [← ha, ← hb]
        exact lt_of_lt_of_le h1 (by norm_num)
      rw [← Int.cast_abs] at this
      exact_mod_cast this
    rw [Int.abs_lt_one_iff] at h'
    have := hlt i
    have := hlt j
    omega

/-- A geometry with one site is never checked: a translation moves the site away from every site, but the
search succeeds and reports that no application is needed. -/
theorem C39_one_site_violated : (∀ i j : Fin (line 1).nsites,
      ¬ Lands (line 1) (1 / 10 ^ 10) (getTranslFn (1, 0) ((line 1).at i)) ((line 1).at j)) ∧
    findSiteCycles (getTranslFn (1, 0)) (line 1) (1 / 10 ^ 10) = .ok ([[0]], 0) := by
  constructor
  · intro i j
    have hlt : ∀ i : Fin (line 1).nsites, (i : ℕ) < 1 := fun i =>
      i.isLt.trans_eq (line_nsites 1)
    have hi : (i : ℕ) = 0 := by have := hlt i; omega
    have hj : (j : ℕ) = 0 := by have := hlt j; omega
    rw [line_at (hlt i), line_at (hlt j), hi, hj]
    have : getTranslFn (1, 0) (((0 : ℕ) : ℝ), 0) = (((1 : ℕ) : ℝ), 0) := by
      unfold getTranslFn
      simp
    rw [this, line_lands]
    norm_num
  · exact one_site _ _ (line_nsites 1)

/-- The permutation with cycles `(0 1)` and `(2 3 4)`. -/
private def mixed : Equiv.Perm (Fin 6) where
  toFun := ![1, 0, 3, 4, 2, 5]
  invFun := ![1, 0, 4, 2, 3, 5]
  left_inv := by decide
  right_inv := by decide

/-- The second value returned is not the length of the longest cycle, as documented, but the number of
applications that return every site to itself: here six, where no cycle is longer than three. -/
theorem C39_longest_violated : ∃ (g : Geometry) (f : ℝ × ℝ → ℝ × ℝ) (cycles : List (List ℕ)),
    g.WellFormed ∧ findSiteCycles f g (1 / 10 ^ 10) = .ok (cycles, 6) ∧ ∀ c ∈ cycles, c.length ≤ 3 := by
  have hn : 6 = (line 6).nsites := (line_nsites 6).symm
  -- the permutation on the sites of the geometry
  obtain ⟨ρ, hρ⟩ : ∃ ρ : Equiv.Perm (Fin (line 6).nsites), ∀ i : Fin 6,
      ((ρ (Fin.cast hn i) : Fin (line 6).nsites) : ℕ) = mixed i :=
    ⟨(finCongr hn).symm.trans (mixed.trans (finCongr hn)), fun i => rfl⟩
  have hρpow : ∀ (k : ℕ) (i : Fin 6), ((ρ ^ k) (Fin.cast hn i) : Fin (line 6).nsites) =
      Fin.cast hn ((mixed ^ k) i) := by
    intro k
    induction k with
    | zero => intro i; rfl
    | succ k ih =>
      intro i
      rw [pow_succ, pow_succ, Equiv.Perm.mul_apply, Equiv.Perm.mul_apply,
        show ρ (Fin.cast hn i) = Fin.cast hn (mixed i) from Fin.ext (hρ i), ih]
  have hcast : ∀ i : Fin (line 6).nsites, ∃ i' : Fin 6, i = Fin.cast hn i' := fun i =>
    ⟨Fin.cast hn.symm i, rfl⟩
  have hpow : ∀ k, ρ ^ k = 1 ↔ mixed ^ k = 1 := by
    intro k
    constructor
    · intro h
      ext i
      have := hρpow k i
      rw [h] at this
      exact (congrArg Fin.val this).symm
    · intro h
      ext i
      obtain ⟨i', rfl⟩ := hcast i
      rw [hρpow, h]
      rfl
  set f : ℝ × ℝ → ℝ × ℝ := fun p => if h : ∃ i : Fin 6, p.1 = ((i : ℕ) : ℝ) then
    (((mixed h.choose : Fin 6) : ℕ), p.2) else p with hf
  have hfi : ∀ i : Fin (line 6).nsites, f (((i : ℕ) : ℝ), 0) = ((((ρ i : Fin _) : ℕ) : ℝ), 0) := by
    intro i
    obtain ⟨i', rfl⟩ := hcast i
    have hex : ∃ j : Fin 6, ((((Fin.cast hn i' : Fin (line 6).nsites) : ℕ) : ℝ), (0 : ℝ)).1 = ((j : ℕ) : ℝ) :=
      ⟨i', rfl⟩
    have hch : hex.choose = i' := by
      apply Fin.ext
      have := hex.choose_spec
      have h' : ((i' : ℕ) : ℝ) = ((hex.choose : Fin 6) : ℕ) := this
      exact_mod_cast h'.symm
    rw [hf]
    simp only
    rw [dif_pos hex, hch, hρ]
  have hmove := line_moves ρ hfi
  obtain ⟨cycles, m, h⟩ := C39_complete (line_wf 6) (by omega) hmove (k := 6) (by norm_num) (by omega)
    ((hpow 6).2 (by decide))
  obtain ⟨π, hπ, ⟨cs, hcs, hcyc, -⟩, hp, m1, m2, hmin⟩ := C39_sound (line_wf 6) (by omega) h
  have heq : π = ρ := by
    ext i
    rcases lt_trichotomy (π i) (ρ i) with hlt | heq | hgt
    · exact absurd (hπ i).1 ((hmove i).2 _ hlt)
    · rw [heq]
    · exact absurd (hmove i).1 ((hπ i).2 _ hgt)
  subst heq
  have hm : m = 6 := by
    rcases Nat.lt_or_ge 6 m with hlt | hge
    · exact absurd ((hpow 6).2 (by decide)) (hmin 6 (by norm_num) hlt)
    · rw [hpow] at hp
      rcases (by omega : m = 1 ∨ m = 2 ∨ m = 3 ∨ m = 4 ∨ m = 5 ∨ m = 6) with rfl | rfl | rfl | rfl | rfl | rfl
      · exact absurd hp (by decide)
      · exact absurd hp (by decide)
      · exact absurd hp (by decide)
      · exact absurd hp (by decide)
      · exact absurd hp (by decide)
      · rfl
  subst hm
  refine ⟨line 6, f, cycles, line_wf 6, h, fun c hc => ?_⟩
  rw [hcs] at hc
  obtain ⟨c, hc', rfl⟩ := List.mem_map.1 hc
  rw [List.length_map]
  by_contra hlen
  push Not at hlen
  have n1 := hcyc.next c hc' 0 (by omega)
  have n2 := hcyc.next c hc' 1 (by omega)
  have n3 := hcyc.next c hc' 2 (by omega)
  simp only [zero_add, Nat.mod_eq_of_lt (show 1 < c.length by omega),
    Nat.mod_eq_of_lt (show 1 + 1 < c.length by omega), Nat.mod_eq_of_lt (show 2 + 1 < c.length by omega)] at n1 n2 n3
  have hnd : c.Nodup := (List.nodup_flatten.1 hcyc.nodup).1 c hc'
  have q2 : (π ^ 2) c[0] = c[2] := by
    rw [pow_two, Equiv.Perm.mul_apply, n1, n2]
  have q3 : (π ^ 3) c[0] = c[3] := by
    rw [pow_succ', Equiv.Perm.mul_apply, q2, n3]
  obtain ⟨x, hx⟩ := hcast c[0]
  rw [hx, hρpow] at q2 q3
  have hdec : ∀ x : Fin 6, (mixed ^ 2) x = x ∨ (mixed ^ 3) x = x := by decide
  rcases hdec x with hd | hd
  · rw [hd, ← hx] at q2
    exact absurd ((List.Nodup.getElem_inj_iff hnd).1 q2) (by norm_num)
  · rw [hd, ← hx] at q3
    exact absurd ((List.Nodup.getElem_inj_iff hnd).1 q3) (by norm_num)

end ED.Props
