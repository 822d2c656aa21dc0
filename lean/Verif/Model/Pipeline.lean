import Verif.Model.Clusters
import Verif.Model.Nlce

/-!
# Model of the scripts in `cluster/`: the expansion distributed over many jobs

A directory is the list of its files in the order in which `glob.glob` lists them (which python leaves open); a file
is its name and its unpickled content. Submitting and running jobs, waiting for them, log files and run times are not
modelled. Digits in file names are ASCII digits.
-/

namespace ED

open Classical
open scoped BigOperators

/-! ## Job arrays -/

/-- The loop of run_on_cluster.sh 53-65 and 79-91: offset and number of jobs of each array. The quotient of the
shell is the quotient of natural numbers; `limit` is `num_limit_per_job`. -/
def jobArrays (num limit : ℕ) : List (ℕ × ℕ) :=
  let loops := num / limit + 1
  (List.range' 1 loops).map fun i =>
    let offset := (i - 1) * limit
    (offset, if i = loops then num - offset else limit)

/-- The values of `cluster_index` of all jobs, slurm_array.sh 20, run_on_cluster.sh 64: the tasks of an array are
numbered from one. -/
def jobIndices (num limit : ℕ) : List ℕ :=
  (jobArrays num limit).flatMap fun a => (List.range' 1 a.2).map fun task => task + a.1

/-- `"$dat_prefix$cluster_index.dat"`, slurm_array.sh 25. -/
def jobFile (pre : List Char) (k : ℕ) : List Char := pre ++ Nat.toDigits 10 k ++ ['.', 'd', 'a', 't']

/-- `glob.glob("prefix*.dat")` in the current directory, run_on_cluster.sh 74 and 100. -/
def globDat {α : Type} (pre : List Char) (dir : List (List Char × α)) : List (List Char × α) :=
  dir.filter fun f => pre.isPrefixOf f.1 && ['.', 'd', 'a', 't'].isSuffixOf (f.1.drop pre.length)

/-- `int(re.match('[^\d]*(\d+)[^\d]*', file).group(1))`, aggregate_subclusters.py 27-31 and aggregate_results.py
17-21: the first number in the name. -/
def fileNumber (name : List Char) : Res ℕ :=
  let d := (name.dropWhile fun c => !c.isDigit).takeWhile Char.isDigit
  if d = [] then throw .attribute else pure (Nat.ofDigitChars 10 d 0)

/-- The files, sorted by the numbers in their names; the sort is stable. aggregate_subclusters.py 26-34 and
aggregate_results.py 16-25. -/
def sortFiles {α : Type} (files : List (List Char × α)) : Res (List (List Char × α)) := do
  let nums ← files.mapM fun f => fileNumber f.1
  pure (((nums.zip files).insertionSort fun a b => a.1 ≤ b.1).map Prod.snd)

/-! ## Subclusters -/

/-- find_subclusters.py 11-35: the content of the file of one job. `arg` is the argument of the script, the index
is one less; index zero less one is the last cluster. -/
noncomputable def findSubclusters (clusters : List Geometry) (inds : List ℕ) (arg : ℕ) : Res (Arr ℝ) := do
  let some cluster := if arg = 0 then clusters.getLast? else clusters[arg - 1]? | throw .index
  let (subs, M, orderSub) ← reducedSubclusters cluster
  let R ← mapBetweenBases clusters inds subs orderSub true
  let MR ← M.dot R
  R.transpose.dot MR

/-- The body of the loop in aggregate_subclusters.py 39-47. -/
noncomputable def addRows (A F : Arr ℝ) : Res (Arr ℝ) := do
  let fresh ← (diagArr A.rows fun i => 1 - if 0 < ∑ j ∈ Finset.range A.cols, A.e i j then 1 else 0).dot F
  if fresh.cols ≠ A.cols then throw .value
  pure ⟨A.rows, A.cols, fun i j => A.e i j + fresh.e i j⟩

/-- aggregate_subclusters.py 10-53: the matrix appended to the cluster data. -/
noncomputable def aggregateSubclusters (nclusters : ℕ) (files : List (List Char × Arr ℝ)) : Res (Arr ℝ) := do
  if files.length ≠ nclusters then throw .generic
  let sorted ← sortFiles files
  (sorted.map Prod.snd).foldlM addRows (Arr.zeros nclusters nclusters)

/-! ## Cluster data files -/

/-- The values in the files with cluster data. -/
inductive Datum
  | int (n : ℕ)
  | float (x : ℝ)
  | clusters (l : List Geometry)
  /-- A one-dimensional integer array or a list of integers. -/
  | ints (l : List ℕ)
  /-- An array of integers with one row. -/
  | row (l : List ℕ)
  | mat (A : Arr ℝ)

/-- The content of a file with cluster data: a list or a dictionary whose keys are strings. -/
inductive Pickled
  | list (l : List Datum)
  | dict (d : List (String × Datum))

/-- `data[k]` for a number `k`; a number is not among the keys of a dictionary. -/
def Pickled.item (p : Pickled) (k : ℕ) : Res Datum :=
  match p with
  | .list l => match l[k]? with
    | some v => pure v
    | none => throw .index
  | .dict _ => throw .key

/-- `len(v)`. The length of a sparse matrix is ambiguous. -/
def Datum.len (v : Datum) : Res ℕ :=
  match v with
  | .int _ => throw .type
  | .float _ => throw .type
  | .clusters l => pure l.length
  | .ints l => pure l.length
  | .row _ => pure 1
  | .mat _ => throw .type

/-- `generate_clusters_no_subs`, generate_clusters_no_subs.py 8-27: the returned number and the file afterwards.
`file` is the content of the file before, if it exists; `time` is the measured time. -/
noncomputable def generateNoSubs (file : Option Pickled) (maxOrder : ℕ) (time : ℝ) : Res (ℕ × Pickled) :=
  match file with
  | some data => do
    let v ← data.item 1
    let n ← v.len
    pure (n, data)
  | none => do
    let (clusters, _, inds) ← allClusters maxOrder (1, 0) (0, 1) true
    pure (clusters.length, .list [.int maxOrder, .clusters clusters, .ints inds, .float time])

/-- `generate_clusters`, generate_clusters.py 7-33: the returned number and the file afterwards. -/
noncomputable def generateWithSubs (file : Option Pickled) (maxOrder : ℕ) : Res (ℕ × Pickled) :=
  match file with
  | some data => do
    let v ← data.item 2
    let n ← v.len
    pure (n, data)
  | none => do
    let (clusters, mult, A, inds) ← allClustersWithSubclusters maxOrder (1, 0) (0, 1) true
    pure (clusters.length, .dict [("max_cluster_order", .int maxOrder), ("cluster_multiplicities", .row mult),
      ("cluster_list", .clusters clusters), ("sub_cluster_mult", .mat A), ("order_start_indices", .ints inds)])

/-- The file which find_subclusters.py 14-19 and diag_cluster.py 13-16 read: the list of clusters and the indices. -/
def Pickled.clusterData (p : Pickled) : Res (List Geometry × List ℕ) := do
  let i ← p.item 2
  let c ← p.item 1
  match c, i with
  | .clusters c, .ints i => pure (c, i)
  | _, _ => throw .type

/-- aggregate_subclusters.py 10-53: the content of the written file. A dictionary has no key one. -/
noncomputable def aggregateSubclustersFile (data : Pickled) (files : List (List Char × Arr ℝ)) : Res Pickled := do
  let v ← data.item 1
  let n ← v.len
  let A ← aggregateSubclusters n files
  match data with
  | .list l => pure (.list (l ++ [.mat A]))
  | .dict _ => throw .attribute

/-! ## Results -/

/-- The content of the file of one diagonalized cluster, diag_cluster.py 59: the entries used afterwards. Each of the
four quantities is an array with one row. -/
structure DiagFile where
  cluster : Geometry
  energies : List ℝ
  entropies : List ℝ
  specificHeats : List ℝ
  szsz : List ℝ
  temps : List ℝ

/-- The loop aggregate_results.py 38-46 for one quantity: `table[ii, :] = data`, with the rules of assignment of
arrays. -/
noncomputable def stackRows (numTemps : ℕ) (rows : List (List ℝ)) : Res (ND ℝ) :=
  (List.range rows.length).foldlM (fun T ii =>
    let d := rows.getD ii []
    T.setRow ii ⟨[1, d.length], fun idx => d.getD (idx.getD 1 0) 0⟩)
    (⟨[rows.length, numTemps], fun _ => 0⟩ : ND ℝ)

/-- The expansion of one quantity: `(nlce, orders, weights, euler_resum)`. -/
structure Expansion where
  table : ND ℝ
  total : ND ℝ
  orders : ND ℝ
  weights : ND ℝ
  euler : ND ℝ

/-- `l[0:k]` on the first axis. -/
def ND.takeRows (A : ND ℝ) (k : ℕ) : ND ℝ := ⟨min (A.shape.headD 0) k :: A.shape.tail, A.data⟩

/-- `A[0:k, 0:k]`. -/
def Arr.corner (A : Arr ℝ) (k : ℕ) : ND ℝ :=
  ⟨[min A.rows k, min A.cols k], fun idx => A.e (idx.getD 0 0) (idx.getD 1 0)⟩

/-- `v[k]` used as the end of a slice, aggregate_results.py 59. A row of a matrix is not an index; neither is a
cluster. -/
def Datum.stopAt (v : Datum) (k : ℕ) : Res ℕ :=
  match v with
  | .ints l => match l[k]? with
    | some n => pure n
    | none => throw .index
  | .clusters l => if k < l.length then throw .type else throw .index
  | .row _ => if k = 0 then throw .type else throw .index
  | .mat A => if k < A.rows then throw .type else throw .index
  | .int _ => throw .type
  | .float _ => throw .type

/-- aggregate_results.py 57-66 for one quantity; `order`, `mult`, `sub` and `inds` are the entries 0, 1, 3 and 4 of the
cluster data. The arguments are evaluated from left to right. -/
noncomputable def expand (table : ND ℝ) (order mult sub inds : Datum) : Res Expansion := do
  let .int N := order | throw .type
  let stop ← inds.stopAt N
  let .mat A := sub | throw .type
  let .row m := mult | throw .type
  let .ints o := inds | throw .type
  let r ← getNlceExpVal (table.takeRows stop) (A.corner stop) ((m.take stop).map fun k : ℕ => (k : ℝ))
    (o.take (N + 1)) 1
  pure ⟨table, r.1, r.2.1, r.2.2, (eulerResum r.2.1 1).1⟩

/-- The returned list of aggregate_results.py. -/
structure Results where
  clusters : List Geometry
  energy : Expansion
  entropy : Expansion
  specificHeat : Expansion
  szsz : Expansion
  temps : List ℝ

/-- `aggregate_results`, aggregate_results.py 9-103. The import of `ed_nlce` without its package is not modelled. -/
noncomputable def aggregateResults (data : Pickled) (files : List (List Char × DiagFile)) : Res Results := do
  let sorted ← sortFiles files
  let some first := sorted.head? | throw .index
  let numTemps := first.2.energies.length
  let es ← stackRows numTemps (sorted.map fun f => f.2.energies)
  let ss ← stackRows numTemps (sorted.map fun f => f.2.entropies)
  let cs ← stackRows numTemps (sorted.map fun f => f.2.specificHeats)
  let zs ← stackRows numTemps (sorted.map fun f => f.2.szsz)
  let order ← data.item 0
  let mult ← data.item 1
  let _ ← data.item 2
  let sub ← data.item 3
  let inds ← data.item 4
  let e ← expand es order mult sub inds
  let s ← expand ss order mult sub inds
  let c ← expand cs order mult sub inds
  let z ← expand zs order mult sub inds
  pure ⟨sorted.map fun f => f.2.cluster, e, s, c, z, first.2.temps⟩

end ED
