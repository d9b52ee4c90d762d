/-
Lists of dictionaries collected in one dictionary: `probayes/pd_utils.py`, `iterdict`, also exported by the package.
-/
import Verif.Base.Dict
import Verif.Base.Py
import Mathlib.Data.List.Lattice

namespace Probayes

variable {V : Type}

/-- `functools.reduce(set.union, [set(_dict.keys()) for _dict in dicts])`: pd_utils.py 428-429. Without dictionaries,
`reduce` of nothing raises TypeError. The set is a list of its members, without the order in which it is iterated. -/
def unionKeys : List (Dict Str V) → Py (List Str)
  | [] => .error .type
  | d :: ds => .ok (ds.foldl (fun s d => Dict.keys d ∪ s) (Dict.keys d))

/-- `[_dict[key] for _dict in dicts if key in _dict]`: pd_utils.py 427. -/
def collectKey (dicts : List (Dict Str V)) (k : Str) : List V :=
  match dicts with
  | [] => []
  | d :: ds => match Dict.get? d k with
    | some v => v :: collectKey ds k
    | none => collectKey ds k

/-- `iterdict`: pd_utils.py 424-430. The order in which a set is iterated depends on the hashes of its members
and is the parameter `order`. -/
def iterdict (order : List Str → List Str) (dicts : List (Dict Str V)) : Py (Dict Str (List V)) :=
  match unionKeys dicts with
  | .error e => .error e
  | .ok ks => .ok (Dict.ofUpdates ((order ks).map fun k => (k, collectKey dicts k)))

end Probayes
