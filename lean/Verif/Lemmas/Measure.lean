import Verif.Model.Measure
import Verif.Lemmas.FreeThermo
import Verif.Lemmas.Hubbard

/-! # Lemmas: the observables of `measure_hubbard.py` -/

namespace ED

open Matrix

/-- Occupation of a mode in a configuration. -/
def nfun {N : ℕ} (p : Fin N) : Conf N 2 → ℂ := fun s => if s p = 1 then 1 else 0

theorem number_eq {N : ℕ} (p : Fin N) : (number p : Op N 2) = diagonal (nfun p) := rfl

/-- What the dictionary of operators contains. -/
theorem hubbardOps_is (F : Fermions) (i j : Fin F.nsites) (u d : Fin F.nspecies) (hu : (u : ℕ) = 0) (hd : (d : ℕ) = 1) :
    ∃ ops, hubbardOps F.sys i j = .ok ops ∧
      ∀ a a' b b' : Conf (F.nsites * F.nspecies) 2 → ℂ, a = nfun (mode i u) → a' = nfun (mode j u) →
        b = nfun (mode i d) → b' = nfun (mode j d) →
      ops.nup1.Is (diagonal a) ∧ ops.nup2.Is (diagonal a') ∧ ops.ndn1.Is (diagonal b) ∧ ops.ndn2.Is (diagonal b') ∧
      ops.nupNup.Is (diagonal (a * a')) ∧ ops.ndnNdn.Is (diagonal (b * b')) ∧ ops.nupNdn.Is (diagonal (a * b')) ∧
      ops.d1.Is (diagonal (a * b)) ∧ ops.d2.Is (diagonal (a' * b')) ∧
      ops.sz1.Is (diagonal (a - b)) ∧ ops.sz2.Is (diagonal (a' - b')) ∧
      ops.ns1.Is (diagonal (a + b - (2 : ℂ) • (a * b))) ∧ ops.ns2.Is (diagonal (a' + b' - (2 : ℂ) • (a' * b'))) ∧
      ops.szSz.Is (diagonal ((a - b) * (a' - b'))) ∧ ops.dd.Is (diagonal ((a * b) * (a' * b'))) ∧
      ops.nsNs.Is (diagonal ((a + b - (2 : ℂ) • (a * b)) * (a' + b' - (2 : ℂ) • (a' * b')))) := by
  have mulI : ∀ {A B : Mat} {f g : Conf (F.nsites * F.nspecies) 2 → ℂ}, A.Is (diagonal f) → B.Is (diagonal g) →
      ∃ C, A.mul B = .ok C ∧ C.Is (diagonal (f * g)) := fun hA hB => by
    obtain ⟨C, h1, h2⟩ := hA.mul hB
    rw [diagonal_mul_diagonal] at h2
    exact ⟨C, h1, h2⟩
  have addI : ∀ {A B : Mat} {f g : Conf (F.nsites * F.nspecies) 2 → ℂ}, A.Is (diagonal f) → B.Is (diagonal g) →
      ∃ C, A.add B = .ok C ∧ C.Is (diagonal (f + g)) := fun hA hB => by
    obtain ⟨C, h1, h2⟩ := hA.add hB
    rw [diagonal_add] at h2
    exact ⟨C, h1, h2⟩
  have subI : ∀ {A B : Mat} {f g : Conf (F.nsites * F.nspecies) 2 → ℂ}, A.Is (diagonal f) → B.Is (diagonal g) →
      ∃ C, A.sub B = .ok C ∧ C.Is (diagonal (f - g)) := fun hA hB => by
    obtain ⟨C, h1, h2⟩ := hA.sub hB
    rw [diagonal_sub] at h2
    exact ⟨C, h1, h2⟩
  have smulI : ∀ {A : Mat} {f : Conf (F.nsites * F.nspecies) 2 → ℂ} (z : ℂ), A.Is (diagonal f) →
      (A.smul z).Is (diagonal (z • f)) := fun z hA => by
    have := hA.smul z
    rwa [← diagonal_smul] at this
  obtain ⟨A, e1, hA⟩ := F_single F i u
  obtain ⟨A', e2, hA'⟩ := F_single F j u
  obtain ⟨B, e3, hB⟩ := F_single F i d
  obtain ⟨B', e4, hB'⟩ := F_single F j d
  rw [hu] at e1 e2
  rw [hd] at e3 e4
  rw [number_eq] at hA hA' hB hB'
  obtain ⟨c5, e5, h5⟩ := mulI hA hA'
  obtain ⟨c6, e6, h6⟩ := mulI hB hB'
  obtain ⟨c7, e7, h7⟩ := mulI hA hB'
  obtain ⟨c8, e8, h8⟩ := mulI hA hB
  obtain ⟨c9, e9, h9⟩ := mulI hA' hB'
  obtain ⟨c10, e10, h10⟩ := subI hA hB
  obtain ⟨c11, e11, h11⟩ := subI hA' hB'
  obtain ⟨c12, e12, h12⟩ := addI hA hB
  obtain ⟨c13, e13, h13⟩ := subI h12 (smulI 2 h8)
  obtain ⟨c14, e14, h14⟩ := addI hA' hB'
  obtain ⟨c15, e15, h15⟩ := subI h14 (smulI 2 h9)
  obtain ⟨c16, e16, h16⟩ := mulI h10 h11
  obtain ⟨c17, e17, h17⟩ := mulI h8 h9
  obtain ⟨c18, e18, h18⟩ := mulI h13 h15
  refine ⟨⟨A, A', B, B', c5, c6, c7, c8, c9, c10, c11, c13, c15, c16, c17, c18⟩, ?_, ?_⟩
  · unfold hubbardOps
    simp only [e1, e2, e3, e4, e5, e6, e7, e8, e9, e10, e11, e12, e13, e14, e15, e16, e17, e18, bind, Except.bind, pure,
      Except.pure]
  · rintro a a' b b' rfl rfl rfl rfl
    exact ⟨hA, hA', hB, hB', h5, h6, h7, h8, h9, h10, h11, h13, h15, h16, h17, h18⟩

namespace FreeData

variable {a b : ℕ} {κ : Type} [Fintype κ] [DecidableEq κ] {h : Fin b → Matrix (Fin a) (Fin a) ℂ}
  {φ : Fin b → Matrix (Fin a) κ ℂ} {ε : Fin b → κ → ℝ}

/-- Covariance of the densities of one species at two sites. -/
noncomputable def covar (φ : Matrix (Fin a) κ ℂ) (ε : κ → ℝ) (T : ℝ) (i j : Fin a) : ℝ :=
  (if i = j then siteDensity φ ε T i else 0) - ‖oneDensity φ ε T i j‖ ^ 2

/-- Averages of products of occupations of two species. -/
theorem occupations (D : FreeData h φ ε) (T : ℝ) (i j : Fin a) (u d : Fin b) (hud : u ≠ d) :
    ∃ μ : (Conf (a * b) 2 → ℂ) → ℂ, (∀ f, cAvg (secondQuant (modeMat h)) T (diagonal f) = μ f) ∧
      (∀ f g, μ (f + g) = μ f + μ g) ∧ (∀ f g, μ (f - g) = μ f - μ g) ∧ (∀ (z : ℂ) f, μ (z • f) = z * μ f) ∧
      ∀ n n' m m' c e : ℂ, n = siteDensity (φ u) (ε u) T i → n' = siteDensity (φ u) (ε u) T j →
        m = siteDensity (φ d) (ε d) T i → m' = siteDensity (φ d) (ε d) T j →
        c = covar (φ u) (ε u) T i j → e = covar (φ d) (ε d) T i j →
      ∀ x x' y y' : Conf (a * b) 2 → ℂ, x = nfun (mode i u) → x' = nfun (mode j u) → y = nfun (mode i d) →
        y' = nfun (mode j d) →
      μ x = n ∧ μ x' = n' ∧ μ y = m ∧ μ y' = m' ∧ μ (x * x') = n * n' + c ∧ μ (y * y') = m * m' + e ∧
      μ (x * y) = n * m ∧ μ (x * y') = n * m' ∧ μ (x' * y) = n' * m ∧ μ (x' * y') = n' * m' ∧
      μ (x * x' * y) = (n * n' + c) * m ∧ μ (x * x' * y') = (n * n' + c) * m' ∧
      μ (x * (y * y')) = n * (m * m' + e) ∧ μ (x' * (y * y')) = n' * (m * m' + e) ∧
      μ (x * x' * (y * y')) = (n * n' + c) * (m * m' + e) := by
  have hH := secondQuant_star (modeMat_star D.herm)
  refine ⟨fun f => cAvg (secondQuant (modeMat h)) T (diagonal f), fun _ => rfl, fun f g => ?_, fun f g => ?_,
    fun z f => ?_, ?_⟩
  · change cAvg _ _ (diagonal (f + g)) = _
    rw [← cAvg_add, diagonal_add]; rfl
  · change cAvg _ _ (diagonal (f - g)) = _
    rw [← cAvg_sub, diagonal_sub]; rfl
  · change cAvg _ _ (diagonal (z • f)) = _
    rw [← cAvg_smul, diagonal_smul]
  rintro n n' m m' c e rfl rfl rfl rfl rfl rfl x x' y y' rfl rfl rfl rfl
  have comm1 : ∀ s l, (1 : Op (a * b) 2) * create (mode l s) = create (mode l s) * 1 := fun _ _ => by
    rw [Matrix.one_mul, Matrix.mul_one]
  have comm : ∀ k l, (number (mode k d) : Op (a * b) 2) * create (mode l u) = create (mode l u) * number (mode k d) :=
    fun k l => number_create_comm fun h => hud (mode_eq_iff.1 h).2.symm
  have comm2 : ∀ l, (number (mode i d) * number (mode j d) : Op (a * b) 2) * create (mode l u) =
      create (mode l u) * (number (mode i d) * number (mode j d)) := fun l => by
    rw [Matrix.mul_assoc, comm, ← Matrix.mul_assoc, comm, Matrix.mul_assoc]
  have one' : ∀ k s, cAvg (secondQuant (modeMat h)) T (diagonal (nfun (mode k s))) = siteDensity (φ s) (ε s) T k :=
    fun k s => by
      have := D.one T k s 1 (comm1 s)
      rwa [Matrix.mul_one, cAvg_one hH, mul_one] at this
  have two' : ∀ s, cAvg (secondQuant (modeMat h)) T (diagonal (nfun (mode i s) * nfun (mode j s))) =
      (siteDensity (φ s) (ε s) T i : ℂ) * siteDensity (φ s) (ε s) T j + covar (φ s) (ε s) T i j := fun s => by
    have := D.two T i j s 1 (comm1 s)
    rw [Matrix.mul_one, cAvg_one hH, mul_one, number_eq, number_eq, diagonal_mul_diagonal] at this
    unfold covar
    rw [← Complex.ofReal_mul, ← Complex.ofReal_add, ← this]
    rfl
  have mixed : ∀ k g, (∀ l, (diagonal g : Op (a * b) 2) * create (mode l u) = create (mode l u) * diagonal g) →
      cAvg (secondQuant (modeMat h)) T (diagonal (nfun (mode k u) * g)) =
        siteDensity (φ u) (ε u) T k * cAvg (secondQuant (modeMat h)) T (diagonal g) := fun k g hg => by
    have := D.one T k u _ hg
    rwa [number_eq, diagonal_mul_diagonal] at this
  have mixed2 : ∀ g, (∀ l, (diagonal g : Op (a * b) 2) * create (mode l u) = create (mode l u) * diagonal g) →
      cAvg (secondQuant (modeMat h)) T (diagonal (nfun (mode i u) * nfun (mode j u) * g)) =
        ((siteDensity (φ u) (ε u) T i : ℂ) * siteDensity (φ u) (ε u) T j + covar (φ u) (ε u) T i j) *
          cAvg (secondQuant (modeMat h)) T (diagonal g) := fun g hg => by
    have := D.two T i j u _ hg
    rw [number_eq, number_eq, diagonal_mul_diagonal, diagonal_mul_diagonal] at this
    unfold covar
    rw [← Complex.ofReal_mul, ← Complex.ofReal_add, ← this]
    rfl
  have hc : ∀ k l, (diagonal (nfun (mode k d)) : Op (a * b) 2) * create (mode l u) =
      create (mode l u) * diagonal (nfun (mode k d)) := comm
  have hc2 : ∀ l, (diagonal (nfun (mode i d) * nfun (mode j d)) : Op (a * b) 2) * create (mode l u) =
      create (mode l u) * diagonal (nfun (mode i d) * nfun (mode j d)) := fun l => by
    have := comm2 l
    rw [number_eq, number_eq, diagonal_mul_diagonal] at this
    exact this
  refine ⟨one' _ _, one' _ _, one' _ _, one' _ _, two' _, two' _, ?_, ?_, ?_, ?_, ?_, ?_, ?_, ?_, ?_⟩
  · exact (mixed i _ (hc i)).trans (by rw [one'])
  · exact (mixed i _ (hc j)).trans (by rw [one'])
  · exact (mixed j _ (hc i)).trans (by rw [one'])
  · exact (mixed j _ (hc j)).trans (by rw [one'])
  · exact (mixed2 _ (hc i)).trans (by rw [one'])
  · exact (mixed2 _ (hc j)).trans (by rw [one'])
  · exact (mixed i _ hc2).trans (by rw [two'])
  · exact (mixed j _ hc2).trans (by rw [two'])
  · exact (mixed2 _ hc2).trans (by rw [two'])

end FreeData

end ED
