/-
Model of `slice_by_keyvals` (/repo/probayes/rf_utils.py:68-164) and of the
function returned by `bool_perm_freq` (/repo/probayes/likelihoods.py:71-101).
-/
import Verif.Base.Arr
import Verif.Base.Dict
import Verif.Model.Likelihoods
import Mathlib.Data.Rat.Cast.Defs
import Mathlib.Data.Real.Basic

namespace Probayes

/-- A value in the dictionaries `spec` and `vals` (rf_utils.py:71-72): a number,
or an array, of which only the number of axes and the elements in row-major
order matter here. -/
inductive Cell (α : Type) where
  | scalar (x : α)
  | array (ndim : ℕ) (xs : List α)

/-- `np.ravel`. -/
def Cell.flat {α : Type} : Cell α → List α
  | .scalar x => [x]
  | .array _ xs => xs

/-- `isscalar` (vtypes.py:99-109). -/
def Cell.isscalar {α : Type} : Cell α → Bool
  | .scalar _ => true
  | .array _ _ => false

/-- `np.all(a == b)` for flat arrays: an array of one element is broadcast.
Arrays of other unequal lengths compare false (or raise ValueError, depending
on the version of numpy; the callers below raise in either case). -/
def eqAll {α : Type} [DecidableEq α] : List α → List α → Bool
  | xs, [y] => xs.all fun x => decide (x = y)
  | [x], ys => ys.all fun y => decide (x = y)
  | xs, ys => decide (xs = ys)

/-- An entry of `slices` (rf_utils.py:140, 154-156): `slice(None)`, the array of
the one matching position, or `slice(0, 0)`. -/
inductive Sel where
  | full
  | at (p : ℕ)
  | empty
  deriving DecidableEq

/-- Size of a selected axis. -/
def Sel.size : Sel → ℕ → ℕ
  | .full, n => n
  | .at _, _ => 1
  | .empty, _ => 0

/-- Position on the axis of the array selected from. -/
def Sel.place : Sel → ℕ → ℕ
  | .at p, _ => p
  | _, j => j

/-- Whether a selection is within an axis (`slice`s always are). -/
def Sel.within : Sel → ℕ → Bool
  | .at p, n => decide (p < n)
  | _, _ => true

/-- `prob[tuple(slices)]` (rf_utils.py:164).  More slices than axes, and
positions beyond an axis, raise IndexError; axes without slice are kept.
Simplified: an axis selected by an array of one position is kept with size one,
where numpy merges all such axes into a single one of size one; the elements in
row-major order are the same, and the only use reshapes the result. -/
def Arr.select (sels : List Sel) (a : Arr) : Py Arr :=
  if a.shape.length < sels.length then .error .index
  else
    let sels := sels ++ List.replicate (a.shape.length - sels.length) .full
    if (List.zipWith Sel.within sels a.shape).all id then
      .ok ⟨List.zipWith Sel.size sels a.shape, fun j => a.get (List.zipWith Sel.place sels j)⟩
    else .error .index

/-- `set(a.keys()) == set(b.keys())` (rf_utils.py:85, 108, 113). -/
def sameKeys {V W : Type} (a : Dict Str V) (b : Dict Str W) : Bool :=
  a.keys.all (fun k => decide (k ∈ b.keys)) && b.keys.all (fun k => decide (k ∈ a.keys))

/-- rf_utils.py:117-120. -/
def valsNdim (dims : Dict Str (Option ℕ)) : ℕ :=
  dims.foldl (fun m kd => match kd.2 with | some d => max m d | none => m) 0

/-- rf_utils.py:125-128, one dimension.  `max(ndim, None)` raises TypeError. -/
def specNdimStep {α : Type} (spec : Dict Str (Cell α)) (m : ℕ) (kd : Str × Option ℕ) : Py ℕ :=
  let m := match kd.2 with | some d => max m d | none => m
  match Dict.get? spec kd.1 with
  | none => .error .key
  | some (.scalar _) => .ok m
  | some (.array ndim _) =>
      match kd.2 with
      | none => .error .type
      | some d => .ok (max ndim d)

/-- rf_utils.py:124-128. -/
def specNdim {α : Type} (spec : Dict Str (Cell α)) (dims : Dict Str (Option ℕ)) : Py ℕ :=
  dims.foldlM (specNdimStep spec) 0

/-- `np.min(np.diff(dims)) > 0` where there are several (rf_utils.py:131-136). -/
def increasing : List ℕ → Bool
  | a :: b :: l => decide (a < b) && increasing (b :: l)
  | _ => true

/-- The dimensions that are not `None` (rf_utils.py:131 and 134). -/
def dimList (dims : Dict Str (Option ℕ)) : List ℕ := dims.filterMap Prod.snd

/-- `slices[dim] = ...` (rf_utils.py:154, 156): an index `None` raises TypeError. -/
def setSel (slices : List Sel) (dim : Option ℕ) (s : Sel) : Py (List Sel) :=
  match dim with
  | none => .error .type
  | some d => if d < slices.length then .ok (slices.set d s) else .error .index

/-- rf_utils.py:142-149: whether a variable without dimension in the source
agrees with the specification.  `false` stands for the early return in line 147.
An array with other than one element has no truth value (ValueError).
Simplified: arrays without dimension are compared flat. -/
def sliceScalar {α : Type} [DecidableEq α] (s v : Cell α) (vdim : Option ℕ) : Py Bool :=
  match vdim with
  | some _ => .ok true
  | none =>
      if !s.isscalar then
        if eqAll s.flat v.flat then .ok true else .error .assertion
      else match v.flat with
        | [y] => .ok (decide (s.flat = [y]))
        | _ => .error .value

/-- `np.nonzero(np.ravel(vals[key]) == spec[key])[0]` for a scalar specification. -/
def hits {α : Type} [DecidableEq α] (xs : List α) (x : α) : List ℕ :=
  (List.range xs.length).filter fun i => decide (xs[i]? = some x)

/-- rf_utils.py:150-163, one key.  An array specification without dimension has
already raised in `specNdim`.  A Python number has no attribute `size`
(AttributeError in line 163). -/
def sliceKey {α : Type} [DecidableEq α] (s v : Cell α) (sdim vdim : Option ℕ)
    (st : List Sel × List ℕ) : Py (List Sel × List ℕ) :=
  match sdim with
  | none =>
      match s with
      | .array _ _ => .error .type
      | .scalar x =>
          match hits v.flat x with
          | [] => do return (← setSel st.1 vdim .empty, st.2)
          | [p] => do return (← setSel st.1 vdim (.at p), st.2)
          | _ => .error .value
  | some d =>
      if eqAll v.flat s.flat then
        match v with
        | .scalar _ => .error .attribute
        | .array _ xs => if d < st.2.length then .ok (st.1, st.2.set d xs.length) else .error .index
      else .error .assertion

/-- rf_utils.py:141-163: the loop; `none` is the early return in line 147. -/
def sliceLoop {α : Type} [DecidableEq α] (spec vals : Dict Str (Cell α))
    (sdims vdims : Dict Str (Option ℕ)) :
    List Str → List Sel × List ℕ → Py (Option (List Sel × List ℕ))
  | [], st => .ok (some st)
  | k :: ks, st =>
      match Dict.get? spec k, Dict.get? vals k, Dict.get? sdims k, Dict.get? vdims k with
      | some s, some v, some sd, some vd => do
          if ← sliceScalar s v vd then
            let st ← sliceKey s v sd vd st
            sliceLoop spec vals sdims vdims ks st
          else return none
      | _, _, _, _ => .error .key

/-- rf_utils.py:115-164, with both dimensions given.  `junk` is the content of
uninitialised memory (line 147, `np.empty` with no axes has one entry). -/
def sliceDims {α : Type} [DecidableEq α] (junk : ℝ) (spec vals : Dict Str (Cell α)) (prob : Arr)
    (vdims sdims : Dict Str (Option ℕ)) : Py Arr := do
  let ndim ← specNdim spec sdims
  if !increasing (dimList vdims) then .error .assertion
  else if !increasing (dimList sdims) then .error .assertion
  else
    match ← sliceLoop spec vals sdims vdims spec.keys
        (List.replicate (valsNdim vdims + 1) .full, List.replicate ndim 1) with
    | none => return ⟨List.replicate (dimList sdims).length 0, fun _ => junk⟩
    | some (slices, shape) => do reshape shape (← prob.select slices)

/-- rf_utils.py:68-164.  `dims_from_vals` (88-102) has no return statement, and
for an array it asks the dictionary for its shape: leaving out a dimension
raises AttributeError. -/
def sliceByKeyvals {α : Type} [DecidableEq α] (junk : ℝ) (spec vals : Dict Str (Cell α)) (prob : Arr)
    (vdims sdims : Option (Dict Str (Option ℕ))) : Py Arr :=
  if !sameKeys spec vals then .error .assertion
  else match sdims with
    | none => .error .attribute
    | some sd =>
        if !sameKeys spec sd then .error .assertion
        else match vdims with
          | none => .error .attribute
          | some vd =>
              if !sameKeys vals vd then .error .assertion
              else sliceDims junk spec vals prob vd sd

/-- likelihoods.py:75-82: dimensions by label. -/
def permDims (labels : List Str) : Dict Str (Option ℕ) :=
  Dict.ofUpdates (labels.zipIdx.map fun ld => (ld.1, some ld.2))

/-- likelihoods.py:76-82: values by label, along the axis of the label. -/
def permVals (labels : List Str) : Dict Str (Cell Bool) :=
  Dict.ofUpdates (labels.map fun l => (l, .array labels.length [false, true]))

/-- likelihoods.py:85: relative frequencies as an array.  For a table without
rows the entries are NaN, which are not modelled (any number here). -/
noncomputable def permArr (rows : List (List Bool)) (cols : ℕ) : Arr :=
  ⟨List.replicate cols 2, fun i =>
    (((permRelFreq rows 0 (i.map fun b => decide (b = 1))).getD 0 : ℚ) : ℝ)⟩

/-- likelihoods.py:71-101: `bool_perm_freq(table, labels)` and a call of the
function it returns, with dimensions `dims`, positional `spec` and keywords. -/
noncomputable def permCall (junk : ℝ) (rows : List (List Bool)) (cols : ℕ) (labels : List Str)
    (dims : Option (Dict Str (Option ℕ))) (spec : Option (Dict Str (Cell Bool)))
    (kwds : Dict Str (Cell Bool)) : Py Arr :=
  if labels.length ≠ cols then .error .assertion
  else match dims with
    | none => .error .assertion
    | some sd =>
        match spec with
        | none => sliceByKeyvals junk kwds (permVals labels) (permArr rows cols) (some (permDims labels)) (some sd)
        | some s =>
            if kwds ≠ [] then .error .assertion
            else sliceByKeyvals junk s (permVals labels) (permArr rows cols) (some (permDims labels)) (some sd)

end Probayes
