import Verif.Lemmas.SectorTree

/-! # All sectors of `examples/heisenberg_chain.py` -/

namespace ED

open Matrix Spec

variable {d : ℕ} {T F I H : Matrix (Fin d) (Fin d) ℂ} {lab : Fin d → ℂ} {n : ℕ}

/-- The sectors of all magnetizations. -/
theorem total_covers (hd : 0 < d) (h : ChainSymmetries T F I H lab n) {tx flip inv : Mat} (htx : tx.Is T) (hflip : flip.Is F)
    (hinv : inv.Is I) (L : List (Mat × ℂ)) (hnd : (L.map Prod.snd).Nodup) (hmem : ∀ j, lab j ∈ L.map Prod.snd)
    (hsel : ∀ s ∈ L, s.1.Selects d fun j => lab j = s.2) {Q₀ : Rows d} (hQ₀ : Q₀.length = d) :
    ∃ outs, (L.mapM fun s => magnetizationSectors tx flip inv n s.2 s.1) = .ok outs ∧
      Covers H Q₀ (1 : Matrix (Fin d) (Fin d) ℂ) (1 / 10 ^ 11) (HasNumbers T F I lab n) outs.flatten := by
  classical
  have hs : ∀ s ∈ L, ∃ sel : Fin s.1.rows → Fin d, Function.Injective sel ∧ (∀ j, lab j = s.2 ↔ ∃ a, sel a = j) ∧
      s.1.Is (selMat sel) := fun s hs => Props.selects_is (hsel s hs)
  have hs' : ∀ s : Mat × ℂ, ∃ (sel : Fin s.1.rows → Fin d) (out : List SpinSector), s ∈ L → Function.Injective sel ∧
      (∀ j, lab j = s.2 ↔ ∃ a, sel a = j) ∧ magnetizationSectors tx flip inv n s.2 s.1 = .ok out ∧
      Covers H (List.ofFn fun a => selMat sel a) (selMat sel) (1 / 10 ^ 11) (fun l => HasNumbers T F I lab n l ∧ l.s.mz = s.2) out := by
    intro s
    by_cases hm : s ∈ L
    · obtain ⟨sel, h1, h2, h3⟩ := hs s hm
      obtain ⟨out, o1, o2⟩ := magnetization_covers h htx hflip hinv h1 h2 h3
      exact ⟨sel, out, fun _ => ⟨h1, h2, o1, o2⟩⟩
    · exact ⟨fun _ => ⟨0, hd⟩, [], fun h => absurd h hm⟩
  choose sel out ho using hs'
  refine ⟨L.map out, mapM_ok (g := out) fun s hs => (ho s hs).2.2.1, ?_⟩
  have hb := Covers.bind (Q₀ := Q₀) (X₀ := (1 : Matrix (Fin d) (Fin d) ℂ)) (L := L) (fun s hs => (ho s hs).2.2.2)
    (fun s _ => ⟨selMat (sel s), (Matrix.mul_one _).symm⟩) ?_ ?_
  · exact hb.mono le_rfl fun l hl => by
      obtain ⟨p, -, hl⟩ := hl
      exact hl.1
  · have hp : L.Pairwise fun s s' => s.2 ≠ s'.2 := List.pairwise_map.1 hnd
    refine List.Pairwise.imp_of_mem ?_ hp
    intro s s' hm hm' hne
    have hl : ∀ s ∈ L, ∀ a, lab (sel s a) = s.2 := fun s hs a => ((ho s hs).2.1 _).2 ⟨a, rfl⟩
    have e0 : ∀ a b, (selMat (sel s) * H * (selMat (sel s'))ᴴ) a b = H (sel s a) (sel s' b) := by
      intro a b
      simp [selMat, mul_apply]
    refine ⟨?_, ?_, fun l l' hP hP' e => hne ?_⟩
    · ext a b
      simp only [selMat, mul_apply, conjTranspose_apply, of_apply, Matrix.zero_apply]
      refine Finset.sum_eq_zero fun j _ => ?_
      by_cases ha : j = sel s a
      · have : j ≠ sel s' b := by
          rintro e
          exact hne ((hl s hm a).symm.trans ((congrArg lab (ha.symm.trans e)).trans (hl s' hm' b)))
        rw [if_neg this, star_zero, mul_zero]
      · rw [if_neg ha, zero_mul]
    · ext a b
      rw [e0, Matrix.zero_apply]
      refine h.labH _ _ fun e => hne ?_
      rw [← hl s hm a, e, hl s' hm' b]
    · rw [← hP.2, ← hP'.2]
      exact congrArg (fun t => t.1) e
  · rw [hQ₀]
    have := label_total lab (L.map Prod.swap) 
      (by rw [List.map_map]; exact hnd) (by rw [List.map_map]; exact hmem) (by
      intro s hs
      obtain ⟨x, hx, rfl⟩ := List.mem_map.1 hs
      exact hsel x hx)
    rw [List.map_map] at this
    refine Eq.trans ?_ this
    congr 1
    exact List.map_congr_left fun s _ => by simp

/-- Sectors that divide the whole space. -/
theorem Covers.total {κ : ℝ} {P : Leaf d → Prop} {out : List SpinSector} {Q₀ : Rows d} (hQ₀ : Q₀.length = d) (hH : H.IsHermitian)
    (h : Covers H Q₀ (1 : Matrix (Fin d) (Fin d) ℂ) κ P out) :
    ∃ projs : List (Rows d), List.Forall₂ RowsOf (out.map SpinSector.proj) projs ∧ NearSectors projs H κ ∧
      (out.map SpinSector.label).Nodup ∧ ∀ s ∈ out, ∃ l : Leaf d, l.s = s ∧ RowsOf s.proj l.Q ∧ NearRows l.Q l.X κ ∧
        l.X * l.Xᴴ = 1 ∧ P l := by
  obtain ⟨ls, h1, h2, h3, h4⟩ := h
  refine ⟨ls.map Leaf.Q, ?_, ?_, ?_, ?_⟩
  · rw [h1, List.map_map, List.forall₂_map_left_iff, List.forall₂_map_right_iff, List.forall₂_same]
    exact fun l hl => (h2 l hl).1
  · have hsymm : Std.Symm (Leaf.Apart H) := by
      constructor
      rintro l l' ⟨a1, a2, a3⟩
      refine ⟨?_, ?_, a3.symm⟩
      · have := congrArg conjTranspose a1
        rwa [conjTranspose_mul, conjTranspose_conjTranspose, conjTranspose_zero] at this
      · have := congrArg conjTranspose a2
        rwa [conjTranspose_mul, conjTranspose_mul, conjTranspose_conjTranspose, hH.eq, conjTranspose_zero, ← Matrix.mul_assoc] at this
    have hnd : ls.Nodup := h3.imp fun h e => h.2.2 (by rw [e])
    exact NearSectors.of (X := Leaf.X) hnd (fun l hl => (h2 l hl).2.1) (fun l hl => (h2 l hl).2.2.1) (fun l hl => (h2 l hl).2.2.2.1)
      (fun l hl l' hl' hne => (h3.forall hl hl' hne).1) (fun l hl l' hl' hne => (h3.forall hl hl' hne).2.1) (h4.trans hQ₀)
  · rw [h1, List.map_map, List.nodup_iff_pairwise_ne, List.pairwise_map]
    exact h3.imp fun h => h.2.2
  · intro s hs
    rw [h1] at hs
    obtain ⟨l, hl, rfl⟩ := List.mem_map.1 hs
    obtain ⟨a1, a2, a3, a4, a5, a6⟩ := h2 l hl
    exact ⟨l, rfl, a1, a3, a4, a6⟩

end ED
