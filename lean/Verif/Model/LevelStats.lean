import Verif.Model.FermiGas
import Mathlib.Data.Real.Basic
import Mathlib.Data.List.MinMax

/-! # Model: statistics of level spacings in examples/wannier_stark_ladder.py -/

namespace ED

/-- The values numpy can return for a quotient of floating point numbers (the sign of zero is not modelled). -/
inductive Num
  | fin (x : ℝ)
  | inf
  | ninf
  | nan

open Classical in
/-- `np.divide`, as used in wannier_stark_ladder.py 27, 28 and 31. -/
noncomputable def Num.div : Num → Num → Num
  | .fin x, .fin y => if y = 0 then (if x = 0 then .nan else if 0 < x then .inf else .ninf) else .fin (x / y)
  | .fin _, .inf => .fin 0
  | .fin _, .ninf => .fin 0
  | .inf, .fin y => if 0 ≤ y then .inf else .ninf
  | .ninf, .fin y => if 0 ≤ y then .ninf else .inf
  | _, _ => .nan

/-- `np.min` of two values, wannier_stark_ladder.py 28. -/
noncomputable def Num.min : Num → Num → Num
  | .nan, _ => .nan
  | _, .nan => .nan
  | .ninf, _ => .ninf
  | _, .ninf => .ninf
  | .inf, y => y
  | x, .inf => x
  | .fin x, .fin y => .fin (Min.min x y)

/-- The sum of two values, in `np.mean`, wannier_stark_ladder.py 31. -/
noncomputable def Num.add : Num → Num → Num
  | .fin x, .fin y => .fin (x + y)
  | .nan, _ => .nan
  | _, .nan => .nan
  | .inf, .ninf => .nan
  | .ninf, .inf => .nan
  | .inf, _ => .inf
  | _, .inf => .inf
  | .ninf, _ => .ninf
  | _, .ninf => .ninf

/-- `rn[np.isnan(rn)] = 0`, wannier_stark_ladder.py 29. -/
def Num.nanToZero : Num → Num
  | .nan => .fin 0
  | x => x

/-- `rn`, wannier_stark_ladder.py 26-29: the quotient of neighbouring spacings or its inverse, whichever is smaller, with `nan`
replaced by zero. -/
noncomputable def levelRatios (es : List ℝ) : List Num :=
  let diffs := List.zipWith (fun a b => a - b) es.tail es
  let ratios := List.zipWith (fun a b => Num.div (.fin a) (.fin b)) diffs.tail diffs
  ratios.map fun r => (Num.min r (Num.div (.fin 1) r)).nanToZero

/-- `r_mean`, wannier_stark_ladder.py 31. -/
noncomputable def ratioMean (rn : List Num) : Num := (rn.foldl Num.add (.fin 0)).div (.fin rn.length)

/-- The finite values of an array, if all are. -/
def Num.allFin : List Num → Option (List ℝ)
  | [] => some []
  | .fin x :: l => (Num.allFin l).map (x :: ·)
  | _ :: _ => none

/-- The edges of the bins `np.histogram` chooses, wannier_stark_ladder.py 32: equal bins between the smallest and the largest value; a
range without width is extended by one half in both directions. -/
noncomputable def histEdges (bins : ℕ) (x : ℝ) (xs : List ℝ) : List ℝ :=
  let lo := xs.foldl Min.min x
  let hi := xs.foldl Max.max x
  let (lo, hi) := if lo = hi then (lo - 1 / 2, hi + 1 / 2) else (lo, hi)
  (List.range (bins + 1)).map fun i : ℕ => lo + (hi - lo) * i / bins

/-- `pr` and `bin_mean`, wannier_stark_ladder.py 32-34, with 30 bins. `np.histogram` raises `ValueError` if the range is not finite; of an
empty array all `pr` are `nan`, which is reported as an error here. -/
noncomputable def ratioHist (rn : List Num) : Res (List ℝ × List ℝ) :=
  match Num.allFin rn with
  | none => .error .value
  | some [] => .error .generic
  | some (x :: xs) =>
    let ends := histEdges 30 x xs
    .ok ((List.range 30).map fun i =>
        let a := ends.getD i 0
        let b := ends.getD (i + 1) 0
        (((x :: xs).filter fun e => a ≤ e ∧ (e < b ∨ (i + 2 = ends.length ∧ e = b))).length : ℝ) / ((x :: xs).length : ℝ),
      (List.range 30).map fun i => (ends.getD (i + 1) 0 + ends.getD i 0) / 2)

end ED
