import Verif.Model.Geometry
import Verif.Model.Isometry
import Verif.Model.Numpy
import Mathlib.Data.List.Dedup

/-!
# Model of `exact_diag/ed_nlce.py` 16-500: clusters and subclusters

Lists of `Geometry` instances are lists, sparse matrices are two-dimensional arrays. Printing of progress is
not modelled.
-/

namespace ED

open Classical
open scoped BigOperators

/-- `[x for x in l if p(x)]`, where evaluating `p` may raise. -/
def pyFilter {α : Type} (p : α → Res Bool) : List α → Res (List α)
  | [] => pure []
  | a :: l => do
    let b ← p a
    let r ← pyFilter p l
    pure (if b then a :: r else r)

namespace Geometry

/-- `list(zip(xlocs, ylocs))`, ed_nlce.py 46. -/
def coords (g : Geometry) : List (ℝ × ℝ) := g.xlocs.zip g.ylocs

/-- A geometry without lattice from its coordinates, sorted by its sorting permutation in the default mode,
ed_nlce.py 56-57, 259-260 and 495-496. -/
noncomputable def createSorted (xs ys : List ℝ) : Res Geometry := do
  let g ← createNonPeriodic xs ys none none
  let p ← g.sortingPermutation "top_alternating"
  g.permuteSites p

/-- The cluster with one more site, ed_nlce.py 54-57 and 256-260. -/
noncomputable def addSite (g : Geometry) (p : ℝ × ℝ) : Res Geometry :=
  createSorted (g.xlocs ++ [p.1]) (g.ylocs ++ [p.2])

end Geometry

open Geometry

/-- `np.round(..., 14)` of a point, ed_nlce.py 483-491. -/
noncomputable def roundPoint (p : ℝ × ℝ) : ℝ × ℝ := (npRound 14 p.1, npRound 14 p.2)

/-- The coordinates `xys_list` of the seven images, ed_nlce.py 482-491. -/
noncomputable def symmetryImages (rot refl : ℝ × ℝ → ℝ × ℝ) (pts : List (ℝ × ℝ)) : List (List (ℝ × ℝ)) :=
  let x0 := pts.map fun p => roundPoint (rot p)
  let x1 := x0.map fun p => roundPoint (rot p)
  let x2 := x1.map fun p => roundPoint (rot p)
  [x0, x1, x2, pts.map fun p => roundPoint (refl p), x0.map fun p => roundPoint (refl p),
    x1.map fun p => roundPoint (refl p), x2.map fun p => roundPoint (refl p)]

/-- `get_clusters_rel_by_symmetry`, ed_nlce.py 468-500. -/
noncomputable def clustersRelBySymmetry (cluster : Geometry) : Res (List Geometry) := do
  let rot ← getRotFn 4 (0, 0)
  let refl ← getReflFn (0, 1) (0, 0)
  (symmetryImages rot refl cluster.coords).foldlM (fun partners xys => do
    let c ← createSorted (xys.map Prod.fst) (xys.map Prod.snd)
    let same ← pyFilter (fun h => h.isequalAdjacency c) partners
    pure (if same.isEmpty then partners ++ [c] else partners)) [cluster]

/-- `[cluster]` or all clusters related by symmetry, ed_nlce.py 59-61, 200-202 and 385-387. -/
noncomputable def symmPartners (useSymmetry : Bool) (cluster : Geometry) : Res (List Geometry) :=
  if useSymmetry then clustersRelBySymmetry cluster else pure [cluster]

/-- `[cn for cn in partners if cn.isequal_adjacency(c)]` is not empty, ed_nlce.py 65 and 390. -/
noncomputable def anyEqual (partners : List Geometry) (c : Geometry) : Res Bool := do
  let l ← pyFilter (fun cn => cn.isequalAdjacency c) partners
  pure (!l.isEmpty)

/-- `vect_list`, ed_nlce.py 34. -/
def vectList (lv1 lv2 : ℝ × ℝ) : List (ℝ × ℝ) := [lv1, (-lv1.1, -lv1.2), lv2, (-lv2.1, -lv2.2)]

/-- The body of the innermost loop of `get_clusters_next_order`, ed_nlce.py 51-67: site `p` of `cluster` and
vector `v`. -/
noncomputable def tryVector (useSymmetry : Bool) (cluster : Geometry) (p : ℝ × ℝ)
    (st : List Geometry × List ℕ) (v : ℝ × ℝ) : Res (List Geometry × List ℕ) :=
  let q := (p.1 + v.1, p.2 + v.2)
  if q ∈ cluster.coords then pure st
  else do
    let new ← cluster.addSite q
    let partners ← symmPartners useSymmetry new
    let known ← pyFilter (fun c => anyEqual partners c) st.1
    pure (if known.isEmpty then (st.1 ++ [new], st.2 ++ [partners.length]) else st)

/-- `get_clusters_next_order`, ed_nlce.py 16-69. -/
noncomputable def clustersNextOrder (clusters : Option (List Geometry)) (lv1 lv2 : ℝ × ℝ)
    (useSymmetry : Bool) : Res (List Geometry × List ℕ) :=
  match clusters with
  | none => do
    let gm ← createNonPeriodic [0] [0] none none
    pure ([gm], [1])
  | some cl =>
    cl.foldlM (fun st cluster => cluster.coords.foldlM (fun st p =>
      (vectList lv1 lv2).foldlM (tryVector useSymmetry cluster p) st) st) ([], [])

/-- `get_all_clusters`, ed_nlce.py 72-106: `(clusters, multiplicities, order_inds)`. -/
noncomputable def allClusters (maxOrder : ℕ) (lv1 lv2 : ℝ × ℝ) (useSymmetry : Bool) :
    Res (List Geometry × List ℕ × List ℕ) := do
  let first ← clustersNextOrder none lv1 lv2 useSymmetry
  -- `for ii in range(1, max_cluster_order)`, with `ii = k + 1`
  let st ← (List.range (maxOrder - 1)).foldlM
    (fun (st : List (List Geometry) × List (List ℕ) × List ℕ) (k : ℕ) => do
      let r ← clustersNextOrder (some (st.1.getD k [])) lv1 lv2 useSymmetry
      pure (st.1 ++ [r.1], st.2.1 ++ [r.2], st.2.2 ++ [r.1.length + st.2.2.getD (k + 1) 0]))
    ([first.1], [first.2], [0, first.1.length])
  pure (st.1.flatten, st.2.1.flatten, st.2.2)

/-- The body of the innermost loop of `get_subclusters_next_order`, ed_nlce.py 250-271: site `jj` of the
parent belongs to `cluster`, which has index `cIndex`, and site `kk` of the parent is tried. -/
noncomputable def trySite (parent cluster : Geometry) (cIndex jj : ℕ)
    (st : List Geometry × List (List ℕ)) (kk : ℕ) : Res (List Geometry × List (List ℕ)) :=
  let q := (parent.xlocs.getD kk 0, parent.ylocs.getD kk 0)
  if parent.adjacency.e jj kk = 1 ∧ q ∉ cluster.coords then do
    let new ← cluster.addSite q
    let dups ← pyFilter (fun gi : Geometry × ℕ => new.isequal gi.1) st.1.zipIdx
    match dups.head? with
    | none => pure (st.1 ++ [new], st.2 ++ [[cIndex]])
    | some gi => pure (st.1, st.2.modify gi.2 (· ++ [cIndex]))
  else pure st

/-- `get_subclusters_next_order`, ed_nlce.py 212-273. -/
noncomputable def subclustersNextOrder (parent : Geometry) (clusters : Option (List Geometry)) :
    Res (List Geometry × List (List ℕ)) :=
  match clusters with
  | none => do
    let l ← (List.range parent.nsites).mapM fun ii =>
      createNonPeriodic [parent.xlocs.getD ii 0] [parent.ylocs.getD ii 0] none none
    pure (l, l.map fun _ => [])
  | some cl =>
    cl.zipIdx.foldlM (fun st ci => ci.1.coords.foldlM (fun st p =>
      match parent.coords.findIdx? fun c => decide (c = p) with
      | none => throw .index
      | some jj => (List.range parent.nsites).foldlM (trySite parent ci.1 ci.2 jj) st) st) ([], [])

/-- `sub_cluster_indices[ci]`, ed_nlce.py 318-319. -/
def knownIndices (known : List (List ℕ)) (ci : ℕ) : Res (List ℕ) :=
  match known[ci]? with
  | none => throw .index
  | some l => pure l

/-- `curr_indices` for one new cluster, ed_nlce.py 314-321: `contained` are the indices in the previous order,
`offset` is the number of clusters before it and `known` is `sub_cluster_indices`. -/
noncomputable def subIndices (known : List (List ℕ)) (offset : ℕ) (contained : List ℕ) : Res (List ℕ) :=
  let direct := contained.map (· + offset)
  if contained = [] then pure []
  else do
    let rest ← direct.mapM (knownIndices known)
    pure ((direct ++ rest.flatten).dedup.insertionSort (· ≤ ·))

/-- The `while` loop of `get_all_subclusters`, ed_nlce.py 311-332. `fuel` is
`parent_geometry.nsites - current_order`, `next` and `contained` are the results for the next order, `orders`
and `known` are `cluster_orders_list` and `sub_cluster_indices`, `total` and `previous` are the running
totals. -/
noncomputable def subclusterLoop (parent : Geometry) :
    ℕ → List Geometry → List (List ℕ) → List (List Geometry) → List (List ℕ) → ℕ → ℕ →
      Res (List (List Geometry) × List (List ℕ))
  | 0, _, _, orders, known, _, _ => pure (orders, known)
  | fuel + 1, next, contained, orders, known, total, previous =>
    if next.isEmpty then pure (orders, known)
    else do
      let known' ← contained.foldlM (fun known c => do
        pure (known ++ [← subIndices known previous c])) known
      let r ← subclustersNextOrder parent (some next)
      subclusterLoop parent fuel r.1 r.2 (orders ++ [next]) known' (total + next.length) total

/-- `get_all_subclusters`, ed_nlce.py 276-343: `(cluster_orders_list, sub_cluster_indices, sub_cluster_mat)`.
All indices are in range, because they number clusters of lower orders. Without clusters the sum of the
lengths is the float `0.0`, which is no dimension of a matrix. -/
noncomputable def allSubclusters (parent : Geometry) :
    Res (List (List Geometry) × List (List ℕ) × Arr ℝ) := do
  let first ← subclustersNextOrder parent none
  let r ← subclusterLoop parent parent.nsites first.1 first.2 [] [] 0 0
  if r.1.isEmpty then throw .type
  let n := (r.1.map List.length).sum
  pure (r.1, r.2, ⟨n, n, fun i j => if j ∈ r.2.getD i [] then 1 else 0⟩)

/-- The body of the inner loop of `reduce_clusters_by_geometry`, ed_nlce.py 379-403. The state is
`clusters_this_order`, `multiplicity_this_order` and, for the clusters visited so far, the column with the
entry one in `cluster_reduction_mat`; `before` is `running_reduced_cluster_total`. -/
noncomputable def groupCluster (useSymmetry : Bool) (before : ℕ) (st : List Geometry × List ℕ × List ℕ)
    (cluster : Geometry) : Res (List Geometry × List ℕ × List ℕ) := do
  let partners ← symmPartners useSymmetry cluster
  let dups ← pyFilter (fun gj : Geometry × ℕ => anyEqual partners gj.1) st.1.zipIdx
  match dups.head? with
  | none => pure (st.1 ++ [cluster], st.2.1 ++ [1], st.2.2 ++ [before + st.1.length])
  | some gj => pure (st.1, st.2.1.modify gj.2 (· + 1), st.2.2 ++ [gj.2 + before])

/-- The body of the outer loop of `reduce_clusters_by_geometry`, ed_nlce.py 375-409. The state is
`clusters_geom_distinct`, `clusters_geom_multiplicity`, the columns as above and
`running_reduced_cluster_total`. -/
noncomputable def groupOrder (useSymmetry : Bool)
    (st : List (List Geometry) × List (List ℕ) × List ℕ × ℕ) (clusters : List Geometry) :
    Res (List (List Geometry) × List (List ℕ) × List ℕ × ℕ) := do
  let r ← clusters.foldlM (groupCluster useSymmetry st.2.2.2) ([], [], st.2.2.1)
  pure (st.1 ++ [r.1], st.2.1 ++ [r.2.1], r.2.2, st.2.2.2 + r.1.length)

/-- `reduce_clusters_by_geometry`, ed_nlce.py 346-415. Every row of the matrix is assigned once, so it is
given by the list of the columns. Without orders the number of clusters is the float `0.0`. -/
noncomputable def reduceByGeometry (orders : List (List Geometry)) (useSymmetry : Bool) :
    Res (List (List Geometry) × List (List ℕ) × Arr ℝ) := do
  if orders.isEmpty then throw .type
  let st ← orders.foldlM (groupOrder useSymmetry) ([], [], [], 0)
  pure (st.1, st.2.1,
    ⟨st.2.2.2, (orders.map List.length).sum, fun i j => if st.2.2.1[j]? = some i then 1 else 0⟩)

/-- `sp.diags(v)`. -/
def diagArr (n : ℕ) (v : ℕ → ℝ) : Arr ℝ := ⟨n, n, fun i j => if i = j then v i else 0⟩

/-- `order_edge_indices`, ed_nlce.py 441-443. -/
def edgeIndices (lengths : List ℕ) : List ℕ := lengths.scanl (· + ·) 0

/-- `get_reduced_subclusters`, ed_nlce.py 418-465: `(clusters_list, reduced_sub_cluster_mat,
order_edge_indices)`. -/
noncomputable def reducedSubclusters (parent : Geometry) : Res (List Geometry × Arr ℝ × List ℕ) := do
  let (orders, _, S) ← allSubclusters parent
  let (distinct, _, C) ← reduceByGeometry orders true
  let RF ← S.dot C.transpose
  let CRF ← C.dot RF
  let M ← (diagArr C.rows fun i => 1 / ∑ j ∈ Finset.range C.cols, C.e i j).dot CRF
  pure (distinct.flatten, M, edgeIndices (distinct.map List.length))

/-- The body of the innermost loop of `map_between_cluster_bases`, ed_nlce.py 199-205. -/
noncomputable def matchBases (larger smaller : List Geometry) (useSymmetry : Bool) (ii : ℕ) (B : Arr ℝ)
    (jj : ℕ) : Res (Arr ℝ) :=
  match smaller[ii]?, larger[jj]? with
  | some sub, some c => do
    let partners ← symmPartners useSymmetry sub
    if ← anyEqual partners c then B.set ii jj 1 else pure B
  | _, _ => throw .index

/-- `range(inds[order], inds[order + 1])`, ed_nlce.py 197-198. -/
def orderRange (inds : List ℕ) (order : ℕ) : List ℕ :=
  List.range' (inds.getD order 0) (inds.getD (order + 1) 0 - inds.getD order 0)

/-- `map_between_cluster_bases`, ed_nlce.py 166-207. -/
noncomputable def mapBetweenBases (larger : List Geometry) (orderL : List ℕ) (smaller : List Geometry)
    (orderS : List ℕ) (useSymmetry : Bool) : Res (Arr ℝ) :=
  (List.range (min (orderL.length - 1) (orderS.length - 1))).foldlM (fun B order =>
    (orderRange orderS order).foldlM (fun B ii =>
      (orderRange orderL order).foldlM (matchBases larger smaller useSymmetry ii) B) B)
    (Arr.zeros smaller.length larger.length)

/-- The body of the loop of `get_all_clusters_with_subclusters`, ed_nlce.py 144-161: rows of the matrix which are
not zero are kept, the others are taken from the subclusters of `cluster`. -/
noncomputable def addSubclusters (full : List Geometry) (orderFull : List ℕ) (useSymmetry : Bool)
    (A : Arr ℝ) (cluster : Geometry) : Res (Arr ℝ) := do
  let (subs, M, orderSub) ← reducedSubclusters cluster
  let R ← mapBetweenBases full orderFull subs orderSub useSymmetry
  let MR ← M.dot R
  let final ← R.transpose.dot MR
  let fresh ← (diagArr A.rows fun i => 1 - if 0 < ∑ j ∈ Finset.range A.cols, A.e i j then 1 else 0).dot final
  pure ⟨A.rows, A.cols, fun i j => A.e i j + fresh.e i j⟩

/-- `get_all_clusters_with_subclusters`, ed_nlce.py 109-163. -/
noncomputable def allClustersWithSubclusters (maxOrder : ℕ) (lv1 lv2 : ℝ × ℝ) (useSymmetry : Bool) :
    Res (List Geometry × List ℕ × Arr ℝ × List ℕ) := do
  let (full, mult, inds) ← allClusters maxOrder lv1 lv2 useSymmetry
  let start := inds.getD (inds.length - 2) 0
  let stop := inds.getD (inds.length - 1) 0
  let A ← ((full.take stop).drop start).foldlM (addSubclusters full inds useSymmetry)
    (Arr.zeros full.length full.length)
  pure (full, mult, A, inds)

end ED
