/-
Specification vocabulary for distributions: what it means to be internally
consistent, which index lists of two distributions stand for the same values,
and the probability represented at an index list.
-/
import Verif.Model.PD
import Verif.Spec.Scale
import Verif.Props.Names

namespace Probayes

/-- A shape with `n` on axis `a` and one elsewhere. -/
def Spec.OneAxis (ndim a n : ℕ) (s : List ℕ) : Prop :=
  s.length = ndim ∧ s[a]? = some n ∧ ∀ b < ndim, b ≠ a → s[b]? = some 1

/-- Internal consistency of a distribution (C13). -/
structure Spec.Consistent (d : Dist) : Prop where
  nodup : d.vals.keys.Nodup
  /-- a dimension entry for every key, `None` exactly for scalars -/
  entry : ∀ k v, Dict.get? d.vals k = some v →
    ∃ o, Dict.get? d.dims k = some o ∧ (o = none ↔ v.issingleton = true)
  /-- every array has its size on its own axis, one elsewhere, and the shape has
  that size on that axis -/
  array : ∀ k v a, Dict.get? d.vals k = some v → Dict.get? d.dims k = some (some a) →
    ∃ s data, v = .arr s data ∧ Spec.OneAxis d.ndim a data.length s ∧
      d.shape[a]? = some data.length
  /-- the shape lists nothing but the sizes of the variables' axes -/
  rank : d.shape.length = d.ndim
  cover : ∀ a < d.ndim, ∃ k v, Dict.get? d.vals k = some v ∧ Dict.get? d.dims k = some (some a)
  size : d.size = d.shape.prod

/-- The axis of a key (`none` for scalars and unknown keys). -/
def PD.axis (d : PD) (k : Str) : Option ℕ := (Dict.get? d.dims k).join

/-- A PD as the library's operations produce them: consistent, named after its
own variables, scalars named with their values. -/
structure PD.WF (fmt : Val → Str) (d : PD) : Prop where
  ne : d.vals ≠ []
  nodup : d.vals.keys.Nodup
  allowed : ∀ k ∈ d.vals.keys, k ∉ disallowed
  margSide : Spec.Side d.marg
  condSide : Spec.Side d.cond
  disj : ∀ k ∈ d.marg.keys, k ∉ d.cond.keys
  keys : ∀ k, k ∈ d.vals.keys ↔ k ∈ d.marg.keys ∨ k ∈ d.cond.keys
  dimNodup : d.dims.keys.Nodup
  dimKeys : ∀ k ∈ d.dims.keys, k ∈ d.vals.keys
  single : ∀ k v, Dict.get? d.vals k = some v → v.issingleton = true →
    Dict.get? d.dims k = some none ∧
    (Dict.get? d.marg k = some (eqText fmt k v) ∨ Dict.get? d.cond k = some (eqText fmt k v))
  array : ∀ k v, Dict.get? d.vals k = some v → v.issingleton = false →
    ∃ a s data, v = .arr s data ∧ (0 < data.length → data.length = s.foldl max 0) ∧
      Dict.get? d.dims k = some (some a) ∧ d.shape[a]? = some data.length
  cover : ∀ a < d.ndim, ∃ k, d.axis k = some a
  rank : d.shape.length = d.ndim
  size : d.dist.size = d.shape.prod
  are : d.dist.aresingleton = d.vals.map (fun kv => kv.2.issingleton)
  is : d.dist.issingleton = d.vals.all (fun kv => kv.2.issingleton)
  probShape : d.prob.shape = d.shape
  stable : evalPscale d.pscale.spec = .ok d.pscale
  name : d.name = margcondStr d.marg d.cond

/-- The probability represented at an index list. -/
noncomputable def PD.at (d : PD) (i : List ℕ) : ℝ := Spec.value d.pscale (d.prob.get i)

/-- Index list `i` of `d` and index list `j` of `r` pick the same position for
the key `k` (vacuous unless `k` is an array variable of both). -/
def Spec.SameAt (d r : PD) (k : Str) (i j : List ℕ) : Prop :=
  ∀ a b, d.axis k = some a → r.axis k = some b → i[a]? = j[b]?

/-- Index lists agreeing on every common array variable. -/
def Spec.Agree (d r : PD) (i j : List ℕ) : Prop := ∀ k, Spec.SameAt d r k i j

end Probayes

namespace Probayes

/-- The values of a variable irrespective of the axis they lie on (`np.ravel`). -/
def Val.flat : Val → Val
  | .arr [] data => .arr [] data
  | .arr _ data => .arr [data.length] data
  | v => v

/-- The values of key `k`, irrespective of axes. -/
def PD.values (d : PD) (k : Str) : Option Val := (Dict.get? d.vals k).map Val.flat

/-- Every array of values lies along its own axis of the distribution (it has the
distribution's number of axes).  Distributions built without dimensions may lack
this: `C13_default_shape_fails`. -/
def PD.Placed (d : PD) : Prop :=
  ∀ k a, d.axis k = some a →
    ∃ data, Dict.get? d.vals k = some (.arr (axisShape d.ndim a data.length) data)

/-- No axis is empty. -/
def PD.Pos (d : PD) : Prop := ∀ n ∈ d.shape, 0 < n

end Probayes
