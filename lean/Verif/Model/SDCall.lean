/-
Model of calling a stochastic dependence with a probability function, with the
keywords `iid` and `joint` (`SD.__call__` of /repo/probayes/sd.py, `RF.__call__` and
`RF._eval_iid` of /repo/probayes/rf.py, `eval_dist_name` of
/repo/probayes/dependence.py).  Variables are as in Model/RFCall.lean.  No functions
have been added, so that values are evaluated as in a field (dependence.py:431-437).
-/
import Verif.Model.RFCall
import Verif.Model.DistOps
import Verif.Model.PDOps

namespace Probayes

/-- A stochastic dependence: its leafs and roots, all its variables in the order of the
graph's vertices, the function set as its probability, and its scale as evaluated
by the setter.  The function receives the evaluated values and their axes and
returns an array (of rank zero for a number). -/
structure SDep where
  leafs : List Drawn
  roots : List Drawn
  vars : List Drawn
  prob : Dict Str Laid → Dict Str (Option ℕ) → Py Arr
  pscale : PScale

/-- dependence.py:342-376 with `suffix` None. -/
def SDep.distName (fmt : Val → Str) (D : SDep) (values : Dict Str Req) : Str :=
  let marg := rfDistName fmt D.leafs values []
  let cond := rfDistName fmt D.roots values []
  if cond = [] then marg else marg ++ '|' :: cond

/-- The keyword `iid`: a boolean, one key, or a collection of keys. -/
inductive Iid where
  | bool (b : Bool)
  | key (k : Str)
  | keys (ks : List Str)

/-- rf.py:571-573 with field.py:206: the keys iterated over by `for key in iid`; a
string is iterated over character by character. -/
def SDep.iidIter (D : SDep) : Iid → List Str
  | .bool false => []
  | .bool true => D.leafs.map Drawn.name
  | .key k => k.map fun c => [c]
  | .keys ks => ks

/-- The keys seen by `PD.prod` (pd.py:334-335): a string is one key. -/
def SDep.iidKeys (D : SDep) : Iid → List Str
  | .key k => [k]
  | i => D.iidIter i

/-- `len`: of an array its first length, of a set of one number one. -/
def Val.len : Val → Py ℕ
  | .arr (n :: _) _ => .ok n
  | .arr [] _ => .error .type
  | .scalar _ => .error .type
  | .setint _ | .setflt _ | .setnone => .ok 1
  | .other => .error .type

/-- rf.py:557-559: replace the values of the keys by their lengths. -/
def iidCounts : List Str → Dict Str Val → Dict Str (Option ℕ) →
    Py (Dict Str Val × Dict Str (Option ℕ))
  | [], vals, dims => .ok (vals, dims)
  | k :: ks, vals, dims =>
      match Dict.get? vals k with
      | none => .error .key
      | some v => do
          let n ← v.len
          iidCounts ks (Dict.set vals k (.setint n)) (Dict.set dims k none)

/-- rf.py:541-562.  `fieldNdims dims` is zero if `max_dim` is None and `max_dim + 1`
otherwise. -/
noncomputable def SDep.evalIid (fmt : Val → Str) (D : SDep) (name : Str) (vals : Dict Str Val)
    (dims : Dict Str (Option ℕ)) (prob : Arr) (iid : Iid) : Py PD :=
  if D.iidIter iid = [] then pdInit fmt name vals (some dims) prob D.pscale.spec
  else if fieldNdims dims = 0 ∨ fieldNdims dims = prob.shape.length then do
    let d ← pdInit fmt name vals (some dims) prob D.pscale.spec
    d.prod fmt (D.iidKeys iid)
  else do
    let (vals, dims) ← iidCounts (D.iidIter iid) vals dims
    pdInit fmt name vals (some dims) prob D.pscale.spec

/-- rf.py:565-581 for a dependence. -/
noncomputable def SDep.call (fmt : Val → Str) (D : SDep) (values : Dict Str Req) (iid : Iid) :
    Py PD := do
  let values ← rfParse D.vars values
  let (vals, dims) ← rfEvaluate D.vars values
  let prob ← D.prob vals dims
  D.evalIid fmt (D.distName fmt values) (vals.map fun kl => (kl.1, kl.2.toVal)) dims prob iid

/-- A value looked up in a distribution as a request.  Variables asked for jointly are
not modelled. -/
def LookVal.req : LookVal → Py Req
  | .single (.scalar x) => .ok (.scalar x)
  | .single (.setint n) => .ok (.count n)
  | .flat xs => .ok (.array xs)
  | _ => .error .notImplemented

/-- pd.py:505-509 with `'cond'`, as the request made to the roots. -/
def PD.condReq (d : PD) : Py (Dict Str Req) := do
  (← d.dist.lookup d.cond.keys).mapM fun kv => do return (kv.1, ← kv.2.req)

/-- sd.py:148-161 with `joint=True`; without roots `None` is called (TypeError). -/
noncomputable def SDep.callJoint (fmt : Val → Str) (D : SDep) (values : Dict Str Req) (iid : Iid) :
    Py PD := do
  let d ← D.call fmt values iid
  let vals ← d.condReq
  if D.roots = [] then .error .type
  else do
    let prior ← rfCall fmt D.roots vals
    match ← product fmt [prior, d] with
    | none => .error .type
    | some r => return r

end Probayes
