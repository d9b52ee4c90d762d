/-
Model of `singleton`, `lookup` and `redim` of /repo/probayes/distribution.py and of
`redim` of /repo/probayes/pd.py.
-/
import Verif.Model.PDRemarg

namespace Probayes

/-- Argument of `singleton`: nothing, a position or a key. -/
inductive SingleKey where
  | none
  | pos (i : ℤ)
  | key (k : Str)

/-- distribution.py:196-208.  The class has no member `_keys` (AttributeError), and
`_issingleton` is a boolean, which cannot be indexed (TypeError). -/
def Dist.singleton (d : Dist) : SingleKey → Py Bool
  | .none => .ok d.issingleton
  | .key _ => .error .attribute
  | .pos _ => .error .type

/-- A value returned by `lookup`: a scalar or set as it is, the values of an array
variable, or the tuple of the values of several. -/
inductive LookVal where
  | single (v : Val)
  | flat (xs : List ℚ)
  | tuple (xss : List (List ℚ))

/-- distribution.py:230-234: the later requested array variables on the same axis.
`rest` are the keys after `k` with their entries of `_aresingleton`; the
constructor gives every key a dimension, so the lookups of dimensions succeed. -/
def lookShared (d : Dist) (keys : List Str) (k : Str) (rest : List (Str × Bool)) : List Str :=
  (rest.filter fun c => decide (c.1 ∈ keys) && !c.2 &&
    decide (Dict.get? d.dims k = Dict.get? d.dims c.1)).map (·.1)

/-- `np.ravel(self[key])`. -/
def lookRavel (d : Dist) (k : Str) : Py (List ℚ) := do ravelVal (← getVal d.vals k)

/-- distribution.py:224-243: the loop over the keys from some position on; `vals` is
what has been collected, `seen` the keys in it. -/
def lookLoop (d : Dist) (keys : List Str) : List (Str × Bool) → Dict Str LookVal → List Str →
    Py (Dict Str LookVal)
  | [], vals, _ => .ok vals
  | (k, single) :: rest, vals, seen =>
      if k ∈ keys ∧ k ∉ seen then
        if single then do
          let v ← getVal d.vals k
          lookLoop d keys rest (Dict.set vals k (.single v)) (k :: seen)
        else match lookShared d keys k rest with
          | [] => do
              let xs ← lookRavel d k
              lookLoop d keys rest (Dict.set vals k (.flat xs)) (k :: seen)
          | more => do
              let xss ← (k :: more).mapM (lookRavel d)
              lookLoop d keys rest (Dict.set vals ([','].intercalate (k :: more)) (.tuple xss))
                ((k :: more) ++ seen)
      else lookLoop d keys rest vals seen

/-- distribution.py:213: no keys means all. -/
def lookKeys (d : Dist) (keys : List Str) : List Str := if keys = [] then d.vals.keys else keys

/-- distribution.py:211-244 with `as_dist=False`. -/
def Dist.lookup (d : Dist) (keys : List Str) : Py (Dict Str LookVal) :=
  lookLoop d (lookKeys d keys) (d.vals.keys.zip d.aresingleton) [] []

/-- distribution.py:216-223 with `as_dist=True`. -/
def Dist.lookupDist (d : Dist) (keys : List Str) : Py Dist :=
  let ks := lookKeys d keys
  let vals := d.vals.filter fun kv => decide (kv.1 ∈ ks)
  distDims vals (some (vals.map fun kv => (kv.1, (Dict.get? d.dims kv.1).join)))

/-- distribution.py:252-259: one iteration of the check. -/
def redimCheck (d : Dist) (dims : Dict Str (Option ℕ)) (k : Str) : Py Unit := do
  match ← dimOf d.dims k with
  | some _ => if k ∈ dims.keys then return () else .error .assertion
  | none =>
    match Dict.get? dims k with
    | some (some _) => .error .assertion
    | _ => return ()

/-- distribution.py:249-262. -/
def Dist.redim (d : Dist) (dims : Dict Str (Option ℕ)) : Py Dist := do
  let _ ← d.vals.keys.mapM (redimCheck d dims)
  let vals ← dims.keys.mapM fun k => do return (k, ← getVal d.vals k)
  distDims vals (some dims)

/-- pd.py:298-317.  `_aresingletons` (line 311) does not exist: AttributeError for
any distribution that is not a singleton. -/
noncomputable def PD.redim (fmt : Val → Str) (d : PD) (dims : Dict Str (Option ℕ)) : Py PD := do
  let r ← d.dist.redim dims
  if !d.dist.issingleton then .error .attribute
  else pdInit fmt d.name r.vals (some r.dims) d.prob d.pscale.spec

end Probayes
