import Verif.Model.Mat

/-!
# Model of `save` and `load` (ed_base.py 1207-1261)

The file system is a map from file names to contents. `pickle` is exact. `scipy.io.savemat` is modelled
by its documented behaviour: keys that start with an underscore are skipped, numbers become 1x1 arrays,
one-dimensional arrays become rows, `None` cannot be stored (the file has been opened by then, so its
old content is lost). Attributes that are objects themselves are not modelled.
-/

namespace ED

/-- Attribute values. -/
inductive PyVal where
  | none
  | num (x : ℚ)
  | arr (shape : List ℕ) (data : List ℚ)
deriving DecidableEq

/-- `self.__dict__`. -/
abbrev PyDict := List (String × PyVal)

/-- What a file can hold. -/
inductive Content where
  | pickle (d : PyDict)
  | mat (d : PyDict)
  | broken

/-- The file system. -/
abbrev Files := String → Option Content

/-- Extension part of `os.path.splitext` (CPython, posixpath): with `base` the part of the name after
the last slash, the extension starts at the last dot of `base`, provided something other than dots comes
before it. -/
def splitextExt (name : String) : String :=
  let base := (name.toList.reverse.takeWhile (· ≠ '/')).reverse
  let suffix := (base.reverse.takeWhile (· ≠ '.')).reverse
  let root := (base.reverse.dropWhile (· ≠ '.')).tail.reverse
  if '.' ∈ base ∧ ∃ c ∈ root, c ≠ '.' then String.ofList ('.' :: suffix) else ""

/-- Conversion of one value by `savemat`. -/
def toMatVal : PyVal → Option PyVal
  | .none => none
  | .num x => some (.arr [1, 1] [x])
  | .arr [] data => some (.arr [1, 1] data)
  | .arr [n] data => some (.arr [1, n] data)
  | .arr shape data => some (.arr shape data)

/-- `scipy.io.savemat(file_name, self.__dict__)`: the stored dictionary. -/
def toMat (d : PyDict) : Option PyDict :=
  (d.filter fun p => ¬ p.1.toList.head? = some '_').mapM fun p => (toMatVal p.2).map fun v => (p.1, v)

/-- `scipy.io.loadmat`: three header entries and the stored dictionary. -/
def loadmat (d : PyDict) : PyDict :=
  [("__header__", .none), ("__version__", .none), ("__globals__", .none)] ++ d

/-- `save`, ed_base.py 1207-1231. `now` is the formatted current time. Returns the outcome and the file
system afterwards. -/
def edSave (fs : Files) (self : PyDict) (fileName : Option String) (now : String) :
    Res String × Files :=
  let name := fileName.getD (now ++ "_ed.pkl")
  let ext := splitextExt name
  if ext = ".mat" then
    match toMat self with
    | some m => (.ok name, fun f => if f = name then some (.mat m) else fs f)
    | none => (.error .type, fun f => if f = name then some .broken else fs f)
  else if ext = ".pkl" then (.ok name, fun f => if f = name then some (.pickle self) else fs f)
  else (.error .value, fs)

/-- `load`, ed_base.py 1233-1261: the attributes of the object afterwards. -/
def edLoad (fs : Files) (fileName : String) : Res PyDict :=
  let ext := splitextExt fileName
  if ext = ".mat" then
    match fs fileName with
    | some (.mat m) => .ok ((loadmat m).filter fun p => p.1.toList.take 2 ≠ ['_', '_'])
    | _ => .error .generic
  else if ext = ".pkl" then
    match fs fileName with
    | some (.pickle d) => .ok d
    | _ => .error .generic
  else .error .value

end ED
