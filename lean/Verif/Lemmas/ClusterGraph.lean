import Verif.Spec.Clusters
import Mathlib.Combinatorics.SimpleGraph.Acyclic
import Mathlib.Combinatorics.SimpleGraph.Connectivity.Subgraph

/-! # Connected sets of sites -/

namespace ED

open Classical

variable {G : SimpleGraph (ℤ × ℤ)} {S T : Finset (ℤ × ℤ)}

theorem ConnectedSites.nonempty (h : ConnectedSites G S) : S.Nonempty := by
  obtain ⟨p⟩ := SimpleGraph.Connected.nonempty h
  exact ⟨p.1, p.2⟩

theorem connected_singleton (G : SimpleGraph (ℤ × ℤ)) (p : ℤ × ℤ) : ConnectedSites G {p} := by
  unfold ConnectedSites
  rw [Finset.coe_singleton]
  exact { preconnected := fun a b => by rw [Subsingleton.elim a b], nonempty := ⟨⟨p, rfl⟩⟩ }

theorem ConnectedSites.insert (h : ConnectedSites G S) {p q : ℤ × ℤ} (hp : p ∈ S) (ha : G.Adj p q) :
    ConnectedSites G (insert q S) := by
  have hq := connected_singleton G q
  unfold ConnectedSites at *
  have := SimpleGraph.connected_induce_union (G := G) (s := (S : Set (ℤ × ℤ)))
    (t := (({q} : Finset (ℤ × ℤ)) : Set (ℤ × ℤ))) (v := p) (w := q)
    h.preconnected hq.preconnected hp (by simp) ha
  have e : ((Insert.insert q S : Finset (ℤ × ℤ)) : Set (ℤ × ℤ)) = (S : Set (ℤ × ℤ)) ∪ (({q} : Finset (ℤ × ℤ)) : Set (ℤ × ℤ)) := by
    ext x
    simp [or_comm]
  rw [e]
  exact this

/-- A boundary edge of a proper part. -/
theorem ConnectedSites.boundary (h : ConnectedSites G S) (hT : T.Nonempty) (hTS : T ⊂ S) :
    ∃ p ∈ T, ∃ q ∈ S, q ∉ T ∧ G.Adj p q := by
  have hsub := hTS.1
  obtain ⟨x, hx, hxT⟩ := Finset.exists_of_ssubset hTS
  obtain ⟨t, ht⟩ := hT
  obtain ⟨w⟩ := h.preconnected ⟨t, hsub ht⟩ ⟨x, hx⟩
  obtain ⟨d, _, h1, h2⟩ := w.exists_boundary_dart {y | y.1 ∈ T} ht hxT
  exact ⟨d.fst.1, h1, d.snd.1, d.snd.2, h2, d.adj⟩

/-- A site whose removal keeps the rest connected. -/
theorem ConnectedSites.remove (h : ConnectedSites G S) (hc : 1 < S.card) :
    ∃ v ∈ S, ConnectedSites G (S.erase v) := by
  have hnt : Nontrivial (S : Set (ℤ × ℤ)) := by
    obtain ⟨a, ha, b, hb, hab⟩ := Finset.one_lt_card.1 hc
    exact ⟨⟨a, ha⟩, ⟨b, hb⟩, fun e => hab (congrArg Subtype.val e)⟩
  obtain ⟨v, hv⟩ := SimpleGraph.Connected.exists_connected_induce_compl_singleton_of_finite_nontrivial h
  refine ⟨v.1, v.2, ?_⟩
  unfold ConnectedSites
  let f : ((G.induce (S : Set (ℤ × ℤ))).induce {v}ᶜ) →g G.induce ((S.erase v.1 : Finset _) : Set (ℤ × ℤ)) :=
    { toFun := fun y => ⟨y.1.1, by
        simp only [Finset.coe_erase, Set.mem_diff, Set.mem_singleton_iff]
        exact ⟨y.1.2, fun e => y.2 (Subtype.ext e)⟩⟩
      map_rel' := fun hab => hab }
  refine hv.map f ?_
  rintro ⟨y, hy⟩
  simp only [Finset.coe_erase, Set.mem_diff, Set.mem_singleton_iff] at hy
  exact ⟨⟨⟨y, hy.1⟩, fun e => hy.2 (congrArg Subtype.val e)⟩, rfl⟩

/-- Images under maps that preserve neighbours. -/
theorem ConnectedSites.image {H : SimpleGraph (ℤ × ℤ)} (h : ConnectedSites G S) (f : ℤ × ℤ → ℤ × ℤ)
    (hf : ∀ p q, G.Adj p q → H.Adj (f p) (f q)) : ConnectedSites H (S.image f) := by
  unfold ConnectedSites at *
  let φ : G.induce (S : Set (ℤ × ℤ)) →g H.induce ((S.image f : Finset _) : Set (ℤ × ℤ)) :=
    { toFun := fun y => ⟨f y.1, by
        rw [Finset.coe_image]
        exact ⟨y.1, y.2, rfl⟩⟩
      map_rel' := fun hab => hf _ _ hab }
  refine h.map φ ?_
  rintro ⟨y, hy⟩
  rw [Finset.coe_image] at hy
  obtain ⟨x, hx, rfl⟩ := hy
  exact ⟨⟨x, hx⟩, rfl⟩

end ED
