/-
Model of evaluating joint densities given as scipy multivariate distributions
(/repo/probayes/prob.py:331-380, /repo/probayes/rf.py:307-337 and
/repo/probayes/func.py:326-347).
-/
import Verif.Base.Dict
import Verif.Model.Expr

namespace Probayes

/-- `multivariate_normal(mean, cov)` after instantiation (prob.py:207-209,
func.py:124-132): the number of its components and its density and log density at
a point. -/
structure Mvar where
  dim : ℕ
  pdf : List ℝ → ℝ
  logpdf : List ℝ → ℝ

/-- Index of the array before `squeeze` for an index after it. -/
def unsqueeze : List ℕ → List ℕ → List ℕ
  | n :: s, j => if n = 1 then 0 :: unsqueeze s j else
      match j with
      | i :: j => i :: unsqueeze s j
      | [] => []
  | [], _ => []

/-- `np.squeeze`: axes of size one are dropped. -/
def squeeze (a : Arr) : Arr :=
  ⟨a.shape.filter (· ≠ 1), fun j => a.get (unsqueeze a.shape j)⟩

/-- prob.py:353-356, func.py:340-342: the order in which the values are passed to
`np.meshgrid`. -/
def mvarOrder {α : Type} (vals : List α) : List α :=
  let vals := vals.reverse
  if 2 < vals.length then vals.tail ++ vals.take 1 else vals

/-- The density at every entry of `np.stack(np.meshgrid(*arrs), axis=-1)`
(prob.py:357-358, func.py:344).  From the scipy source: the last axis runs over
the components; one component is broadcast against the mean; any other number but
that of the components raises (in subtracting the mean or in multiplying by the
factor of the covariance); the output is squeezed. -/
def mvarMesh (dim : ℕ) (f : List ℝ → ℝ) (arrs : List Arr) : Py Arr :=
  if arrs.length = dim ∨ arrs.length = 1 then
    .ok (squeeze ⟨meshShape (arrs.map fun a => a.shape.prod), fun j => f ((List.range dim).map fun i =>
      meshGet arrs (if arrs.length = 1 then 0 else i) j)⟩)
  else .error .value

/-- prob.py:351-352, a single value `a`: the density at `np.array([a])`.  A scalar
becomes an array of one point with one component; otherwise the last axis runs
over the components.  One component is broadcast against the mean. -/
def mvarSingle (dim : ℕ) (f : List ℝ → ℝ) (a : Arr) : Py Arr :=
  if a.shape.getLastD 1 = dim ∨ a.shape.getLastD 1 = 1 then
    .ok (squeeze ⟨1 :: a.shape.dropLast, fun j => f ((List.range dim).map fun c =>
      a.get (if a.shape.isEmpty then [] else
        j.tail ++ [if a.shape.getLastD 1 = 1 then 0 else c]))⟩)
  else .error .value

/-- prob.py:347-358: the values are those of a dictionary, in its order. -/
def mvarProb (P : Mvar) (logp : Bool) (values : Dict Str Arr) : Py Arr :=
  let f := if logp then P.logpdf else P.pdf
  match values.map Prod.snd with
  | [] => .error .value          -- `np.stack` of nothing
  | [a] => mvarSingle P.dim f a
  | vals => mvarMesh P.dim f (mvarOrder vals)

/-- rf.py:307-337 for a field with these variables: the names must be those of the
variables, in any order. -/
def mvarField (names : List Str) (P : Mvar) (logp : Bool) (values : Dict Str Arr) : Py Arr :=
  if values.all (fun kv => decide (kv.1 ∈ names)) &&
      names.all (fun k => decide (k ∈ Dict.keys values)) then
    mvarProb P logp values
  else .error .assertion

/-- What `Func` is called with (func.py:334-338): one dictionary, keywords, or
positional arguments. -/
inductive FuncArgs where
  | dict (d : Dict Str Arr)
  | kwds (d : Dict Str Arr)
  | args (l : List Arr)

/-- `np.ravel` as an array. -/
def Arr.flat (a : Arr) : Arr := ⟨[a.shape.prod], fun j => a.get (unravelIx a.shape (j.headD 0))⟩

/-- func.py:326-345 for the density (index 0) and the log density (index 1).  The
values of a dictionary are flattened first. -/
def mvarFunc (P : Mvar) (logp : Bool) (args : FuncArgs) : Py Arr :=
  let f := if logp then P.logpdf else P.pdf
  let (vals, isList) : List Arr × Bool := match args with
    | .dict d => (d.map fun kv => kv.2.flat, true)
    | .kwds d => (d.map Prod.snd, !d.isEmpty)
    | .args l => (l, false)
  let vals := if isList && !(vals.all fun a => decide (a.shape.prod = 1)) then mvarOrder vals else vals
  if vals.isEmpty then .error .value else mvarMesh P.dim f vals

end Probayes
