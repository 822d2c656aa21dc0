import Verif.Lemmas.Algebra

/-! # Helper lemmas: reading results of matrix-building programs -/

namespace ED

open scoped BigOperators

variable {ι κ μ : Type} [Fintype ι] [Fintype κ] [Fintype μ] [Basis ι] [Basis κ] [Basis μ]

/-- Configurations in the documented basis order. -/
instance (n b : ℕ) : Basis (Fin n → Fin b) :=
  ⟨idx, idx_injective, fun s => by simpa using idx_lt s⟩

theorem num_conf {n b : ℕ} (s : Conf n b) : Basis.num s = idx s := rfl

theorem Basis.surj (x : ℕ) (hx : x < Fintype.card ι) : ∃ i : ι, Basis.num i = x := by
  have hinj : Function.Injective (fun i : ι => (⟨Basis.num i, Basis.lt i⟩ : Fin (Fintype.card ι))) := by
    intro s t h
    exact Basis.inj (by simpa using h)
  obtain ⟨s, hs⟩ := ((Fintype.bijective_iff_injective_and_card _).2 ⟨hinj, by simp⟩).2 ⟨x, hx⟩
  exact ⟨s, by simpa using congrArg Fin.val hs⟩

theorem Basis.sum_range {α : Type} [AddCommMonoid α] (f : ℕ → α) :
    ∑ k ∈ Finset.range (Fintype.card ι), f k = ∑ i : ι, f (Basis.num i) := by
  refine (Finset.sum_bij (fun s _ => Basis.num s) ?_ ?_ ?_ ?_).symm
  · intro s _; exact Finset.mem_range.2 (Basis.lt s)
  · intro s _ t _ h; exact Basis.inj h
  · intro x hx
    obtain ⟨s, hs⟩ := Basis.surj x (Finset.mem_range.1 hx)
    exact ⟨s, Finset.mem_univ _, hs⟩
  · intro s _; rfl

theorem Mat.Is.mul {A B : Mat} {X : Matrix ι κ ℂ} {Y : Matrix κ μ ℂ} (hA : A.Is X) (hB : B.Is Y) :
    Gives (A.mul B) (X * Y) := by
  obtain ⟨C, h1, h2, h3, h4⟩ := Mat.mul_ok (A := A) (B := B) (hA.2.1.trans hB.1.symm)
  refine ⟨C, h1, h2.trans hA.1, h3.trans hB.2.1, fun i j => ?_⟩
  rw [h4, hA.2.1, Basis.sum_range (ι := κ), Matrix.mul_apply]
  refine Finset.sum_congr rfl fun k _ => ?_
  rw [hA.2.2, hB.2.2]

theorem Mat.Is.add {A B : Mat} {X Y : Matrix ι κ ℂ} (hA : A.Is X) (hB : B.Is Y) :
    Gives (A.add B) (X + Y) := by
  refine ⟨⟨A.rows, A.cols, _⟩, if_pos ⟨hA.1.trans hB.1.symm, hA.2.1.trans hB.2.1.symm⟩,
    hA.1, hA.2.1, fun i j => ?_⟩
  simp only [Matrix.add_apply]
  rw [hA.2.2, hB.2.2]

theorem Mat.Is.smul {A : Mat} {X : Matrix ι κ ℂ} (hA : A.Is X) (z : ℂ) : (A.smul z).Is (z • X) :=
  ⟨hA.1, hA.2.1, fun i j => by simp [Mat.smul, hA.2.2]⟩

theorem Mat.Is.sub {A B : Mat} {X Y : Matrix ι κ ℂ} (hA : A.Is X) (hB : B.Is Y) :
    Gives (A.sub B) (X - Y) := by
  have := hA.add (hB.smul (-1))
  rwa [neg_one_smul, ← sub_eq_add_neg] at this

theorem Mat.Is.dagger {A : Mat} {X : Matrix ι κ ℂ} (hA : A.Is X) : A.dagger.Is X.conjTranspose :=
  ⟨hA.2.1, hA.1, fun i j => by simp [Mat.dagger, hA.2.2, Matrix.conjTranspose_apply]⟩

theorem Mat.Is.transpose {A : Mat} {X : Matrix ι κ ℂ} (hA : A.Is X) : A.transpose.Is X.transpose :=
  ⟨hA.2.1, hA.1, fun i j => by simp [Mat.transpose, hA.2.2, Matrix.transpose_apply]⟩

theorem Mat.is_eye [DecidableEq ι] {n : ℕ} (hn : n = Fintype.card ι) :
    (Mat.eye n).Is (1 : Matrix ι ι ℂ) := by
  refine ⟨hn, hn, fun i j => ?_⟩
  simp only [Mat.eye, Matrix.one_apply, Basis.inj.eq_iff]

theorem Mat.is_zero {r c : ℕ} (hr : r = Fintype.card ι) (hc : c = Fintype.card κ) :
    (Mat.zero r c).Is (0 : Matrix ι κ ℂ) := ⟨hr, hc, fun _ _ => rfl⟩

theorem Mat.Is.ext {A : Mat} {X Y : Matrix ι κ ℂ} (hX : A.Is X) (hY : A.Is Y) : X = Y := by
  ext i j; rw [← hX.2.2, hY.2.2]

theorem Gives.of_eq {r : Res Mat} {X Y : Matrix ι κ ℂ} (h : Gives r X) (e : X = Y) : Gives r Y :=
  e ▸ h

theorem Gives.bind {r : Res Mat} {X : Matrix ι κ ℂ} {f : Mat → Res Mat} {Y : Matrix μ μ ℂ}
    (h : Gives r X) (hf : ∀ M : Mat, M.Is X → Gives (f M) Y) : Gives (r >>= f) Y := by
  obtain ⟨M, rfl, hM⟩ := h
  exact hf M hM

theorem Gives.bind' {ν : Type} [Fintype ν] [Basis ν] {r : Res Mat} {X : Matrix ι κ ℂ}
    {f : Mat → Res Mat} {Y : Matrix μ ν ℂ}
    (h : Gives r X) (hf : ∀ M : Mat, M.Is X → Gives (f M) Y) : Gives (r >>= f) Y := by
  obtain ⟨M, rfl, hM⟩ := h
  exact hf M hM

theorem Mat.Is.pure {A : Mat} {X : Matrix ι κ ℂ} (hA : A.Is X) : Gives (pure A) X := ⟨A, rfl, hA⟩

theorem Mat.Is.ok {A : Mat} {X : Matrix ι κ ℂ} (hA : A.Is X) : Gives (.ok A) X := ⟨A, rfl, hA⟩

/-- Accumulating loops. -/
theorem foldlM_gives {α : Type} (l : List α) (step : Mat → α → Res Mat) (T : α → Matrix ι κ ℂ)
    (h : ∀ a ∈ l, ∀ (acc : Mat) (A : Matrix ι κ ℂ), acc.Is A → Gives (step acc a) (A + T a)) :
    ∀ (acc : Mat) (A : Matrix ι κ ℂ), acc.Is A →
      Gives (l.foldlM step acc) (A + (l.map T).sum) := by
  induction l with
  | nil => intro acc A hA; simpa using hA.pure
  | cons a l ih =>
    intro acc A hA
    rw [List.foldlM_cons]
    refine (h a (by simp) acc A hA).bind' fun M hM => ?_
    refine (ih (fun b hb => h b (by simp [hb])) M _ hM).of_eq ?_
    simp [add_assoc]

theorem sum_map_range {β : Type} [AddCommMonoid β] (n : ℕ) (T : ℕ → β) :
    ((List.range n).map T).sum = ∑ i : Fin n, T i := by
  rw [← List.sum_ofFn]
  congr 1
  apply List.ext_getElem <;> simp

theorem foldlM_range_gives (n : ℕ) (step : Mat → ℕ → Res Mat) (T : Fin n → Matrix ι κ ℂ)
    (h : ∀ (a : Fin n) (acc : Mat) (A : Matrix ι κ ℂ), acc.Is A → Gives (step acc a) (A + T a))
    (acc : Mat) (A : Matrix ι κ ℂ) (hA : acc.Is A) :
    Gives ((List.range n).foldlM step acc) (A + ∑ i : Fin n, T i) := by
  have e : ∑ i : Fin n, T i =
      ((List.range n).map fun k => if hk : k < n then T ⟨k, hk⟩ else 0).sum := by
    rw [sum_map_range]
    exact Finset.sum_congr rfl fun i _ => by simp
  rw [e]
  refine foldlM_gives _ _ _ (fun a ha acc A hA => ?_) acc A hA
  have ha' := List.mem_range.1 ha
  rw [dif_pos ha']
  exact h ⟨a, ha'⟩ acc A hA

/-! ### The operator builders -/

theorem Mat.is_of_op {n b : ℕ} {M : Mat} {O : Matrix (Conf n b) (Conf n b) ℂ} (hd : M.HasDim n b)
    (ho : M.op n b = O) : M.Is O :=
  ⟨by simpa using hd.1, by simpa using hd.2, fun i j => congrFun (congrFun ho i) j⟩

theorem Mat.Is.op {n b : ℕ} {M : Mat} {O : Matrix (Conf n b) (Conf n b) ℂ} (h : M.Is O) :
    M.HasDim n b ∧ M.op n b = O :=
  ⟨⟨by simpa using h.1, by simpa using h.2.1⟩, by ext i j; exact h.2.2 i j⟩

theorem gives_single_boson {S : Sys} (hb : S.nbasis = 2) (site : Fin S.nsites)
    (sp : Fin S.nspecies) {op : Mat} (hop : op.IsLoc 2) :
    Gives (getSingleSiteOp S site sp op "boson") (bop (mode site sp) (op.loc 2)) := by
  obtain ⟨M, h1, h2, h3⟩ := getSingle_boson hb site sp hop
  exact ⟨M, h1, Mat.is_of_op h2 h3⟩

theorem gives_single_fermion {S : Sys} (hb : S.nbasis = 2) (site : Fin S.nsites)
    (sp : Fin S.nspecies) {op : Mat} (hop : op.IsLoc 2) :
    Gives (getSingleSiteOp S site sp op "fermion") (fop (mode site sp) (op.loc 2)) := by
  obtain ⟨M, h1, h2, h3⟩ := getSingle_fermion hb site sp hop
  exact ⟨M, h1, Mat.is_of_op h2 h3⟩

theorem gives_two_boson {S : Sys} (hb : S.nbasis = 2) (site1 site2 : Fin S.nsites)
    (sp1 sp2 : Fin S.nspecies) {op1 op2 : Mat} (h1 : op1.IsLoc 2) (h2 : op2.IsLoc 2) :
    Gives (getTwoSiteOp S site1 sp1 site2 sp2 op1 op2 "boson")
      (bop (mode site1 sp1) (op1.loc 2) * bop (mode site2 sp2) (op2.loc 2)) := by
  obtain ⟨M, h1, h2, h3⟩ := getTwo_boson hb site1 site2 sp1 sp2 h1 h2
  exact ⟨M, h1, Mat.is_of_op h2 h3⟩

theorem gives_two_fermion {S : Sys} (hb : S.nbasis = 2) (site1 site2 : Fin S.nsites)
    (sp1 sp2 : Fin S.nspecies) {op1 op2 : Mat} (h1 : op1.IsLoc 2) (h2 : op2.IsLoc 2) :
    Gives (getTwoSiteOp S site1 sp1 site2 sp2 op1 op2 "fermion")
      (fop (mode site1 sp1) (op1.loc 2) * fop (mode site2 sp2) (op2.loc 2)) := by
  obtain ⟨M, h1, h2, h3⟩ := getTwo_fermion hb site1 site2 sp1 sp2 h1 h2
  exact ⟨M, h1, Mat.is_of_op h2 h3⟩

end ED
