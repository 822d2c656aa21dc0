import Verif.Model.Numpy

/-!
# Numpy primitives: broadcasting and assignment to a row of an array
-/

namespace ED

/-- Broadcasting of two shapes, given from the last axis to the first. -/
def bcRev : List ℕ → List ℕ → Option (List ℕ)
  | [], t => some t
  | a :: s, [] => some (a :: s)
  | a :: s, b :: t =>
    match bcRev s t with
    | none => none
    | some r =>
      if a = b then some (a :: r) else if a = 1 then some (b :: r)
      else if b = 1 then some (a :: r) else none

/-- The shape of an elementwise operation on arrays of shapes `s` and `t` (numpy's broadcasting rule:
axes are aligned at the last one, axes of length one are stretched); `none` if they do not fit. -/
def broadcastShape (s t : List ℕ) : Option (List ℕ) :=
  (bcRev s.reverse t.reverse).map List.reverse

/-- Multi-index into an array of shape `s` for a multi-index of the broadcast result, both from the last
axis to the first. -/
def bcIdxRev : List ℕ → List ℕ → List ℕ
  | [], _ => []
  | _ :: s, [] => 0 :: bcIdxRev s []
  | n :: s, i :: idx => (if n = 1 then 0 else i) :: bcIdxRev s idx

/-- Multi-index into an array of shape `s` for a multi-index of the broadcast result. -/
def bcIdx (s idx : List ℕ) : List ℕ := (bcIdxRev s.reverse idx.reverse).reverse

/-- Elementwise operation on two arrays with broadcasting; `ValueError` if the shapes do not fit. -/
def ND.zip {α : Type} (f : α → α → α) (a b : ND α) : Res (ND α) :=
  match broadcastShape a.shape b.shape with
  | none => .error .value
  | some s => .ok ⟨s, fun idx => f (a.data (bcIdx a.shape idx)) (b.data (bcIdx b.shape idx))⟩

/-- `v` can be assigned to an array of shape `s`: leading axes of length one in excess of the rank are
ignored, the rest must broadcast to `s`. -/
def assignable (v s : List ℕ) : Prop :=
  (∀ n ∈ v.take (v.length - s.length), n = 1) ∧
    broadcastShape (v.drop (v.length - s.length)) s = some s

instance (v s : List ℕ) : Decidable (assignable v s) := by unfold assignable; infer_instance

/-- `a[i, ...]`. -/
def ND.row {α : Type} (a : ND α) (i : ℕ) : ND α := ⟨a.shape.tail, fun idx => a.data (i :: idx)⟩

/-- `a[i, ...] = v` for an index inside the first axis. -/
def ND.setRow {α : Type} (a : ND α) (i : ℕ) (v : ND α) : Res (ND α) :=
  if assignable v.shape a.shape.tail then
    .ok ⟨a.shape, fun idx =>
      match idx with
      | [] => a.data []
      | j :: idx => if j = i then v.data (bcIdx v.shape idx) else a.data (j :: idx)⟩
  else .error .value

end ED
