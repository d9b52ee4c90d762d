/-
Model of the probabilities of stochastic dependences composed of others:
`SD.__init__`, `SD.set_prob` of /repo/probayes/sd.py, `arch_prob` of
/repo/probayes/sd_utils.py, and `RF.set_prob`, `RF.eval_prob` of
/repo/probayes/rf.py as far as they use them.
-/
import Verif.Model.Dependence
import Verif.Model.RFCall
import Verif.Model.ProbObj

namespace Probayes

/-- A function set as a probability, of the values and their axes.  Functions that
do not take the axes (`passdims` False) ignore the second argument. -/
abbrev SDFunc (V : Type) := Dict Str V → Dict Str (Option ℕ) → Py Arr

/-- The variables at hand: their names, evaluated scales and own probabilities. -/
structure SDVars (V : Type) where
  info : ℕ → VarInfo
  scale : ℕ → PScale
  prob : ℕ → V → Py Arr

/-- A stochastic dependence: its graph, scale and probability.  Proposals,
transitions, deltas and explicit dependences are not modelled, nor are symbolic
(iconic) probabilities, whose default is multiplied symbolically
(rf.py:116-130). -/
structure SDObj (V : Type) where
  dep : DepObj
  scale : PScale
  prob : SDFunc V

variable {V : Type}

/-- The names of the variables (`keylist`). -/
def SDObj.keys (E : SDVars V) (o : SDObj V) : List Str := o.dep.nodes.map fun v => (E.info v).name

/-- rf.py:307-315: values must be given for exactly the variables of the object. -/
def SDObj.evalProb (E : SDVars V) (o : SDObj V) : SDFunc V := fun values dims =>
  if (values.keys.all fun k => decide (k ∈ o.keys E)) &&
      ((o.keys E).all fun k => decide (k ∈ values.keys)) then o.prob values dims
  else .error .assertion

/-- sd_utils.py:43-44: the entries of `d` for the `ks` among `keys`. -/
def restrictTo {W : Type} (keys ks : List Str) (d : Dict Str W) : Py (Dict Str W) :=
  (ks.filter fun k => decide (k ∈ keys)).mapM fun k =>
    match Dict.get? d k with
    | some v => .ok (k, v)
    | none => .error .key

/-- sd_utils.py:41-45 for one part. -/
def partProb (E : SDVars V) (dims : Dict Str (Option ℕ)) (values : Dict Str V) (o : SDObj V) :
    Py Arr := do
  let vals ← restrictTo (o.keys E) dims.keys values
  let subdims ← restrictTo (o.keys E) dims.keys dims
  o.evalProb E vals subdims

/-- sd_utils.py:33-50.  The parts are in the order of `arch`. -/
noncomputable def archProb (E : SDVars V) (serial : Bool) (arch : List (SDObj V)) : SDFunc V :=
  fun values dims => do
    let probs ← arch.mapM (partProb E dims values)
    if serial then
      match probs.getLast? with
      | some p => return p
      | none => .error .index
    else prodRuleArr probs (arch.map SDObj.scale)

/-- rf.py:317-324 with rf_utils.py:10-21: the variables taken as independent. -/
noncomputable def sdIndep (E : SDVars V) (nodes : List ℕ) : SDFunc V := fun values _ => do
  let probs ← nodes.mapM fun v =>
    match Dict.get? values (E.info v).name with
    | some x => E.prob v x
    | none => .error .key
  match probs with
  | [p] => return p
  | probs => prodRuleArr probs (nodes.map E.scale)

/-- The scales of the variables. -/
def sdScales (E : SDVars V) (nodes : List ℕ) : List PScale := nodes.map E.scale

/-- rf.py:91-114 with prob.py:122-147 (returns nothing) for an object on scale `old`. -/
noncomputable def rfSetProb (E : SDVars V) (dep : DepObj) (old : PScale) (fn : Option (SDFunc V))
    (pscale : Option PSpec) : Py (SDObj V) := do
  let s ← fieldSetScale (sdScales E dep.nodes) old pscale
  return ⟨dep, s, fn.getD (sdIndep E dep.nodes)⟩

/-- sd.py:71-86.  `RF.set_prob` returns `None` whatever is set, so that the second
condition on line 83 decides. -/
noncomputable def sdSetProb (E : SDVars V) (dep : DepObj) (arch : Option (Bool × List (SDObj V)))
    (old : PScale) (fn : Option (SDFunc V)) (pscale : Option PSpec) : Py (SDObj V) := do
  let o ← rfSetProb E dep old fn pscale
  match arch with
  | none => return o
  | some (serial, parts) => rfSetProb E dep o.scale (some (archProb E serial parts)) none

/-- dependence.py:135-178: whether the parts are in series (`some true`), in
parallel (`some false`) or neither. -/
def archKind (lr : List (List ℕ × List ℕ)) : Option Bool :=
  if 1 < lr.length && isSerial lr then some true
  else if 1 < lr.length && (parallelLoop lr [] []).1 then some false
  else none

/-- sd.py:39-42 with dependence.py:64-178 for arguments that are dependences, and a
further call of `set_prob` with what is given. -/
noncomputable def sdCompose (E : SDVars V) (args : List (SDObj V)) (fn : Option (SDFunc V))
    (pscale : Option PSpec) : Py (SDObj V) := do
  let dep ← depOfDeps E.info true (args.map SDObj.dep)
  let lr ← (args.map SDObj.dep).mapM runLeafsRoots
  let arch := (archKind lr).map fun serial => (serial, args.reverse)
  let s ← fieldRefresh (sdScales E dep.nodes)
  let o ← sdSetProb E dep arch s none none
  sdSetProb E dep arch o.scale fn pscale

/-- rf.py:565-581 up to the evaluation of the probability, for discrete variables
(`Verif.Model.RFCall`). -/
noncomputable def sdEvalCall (E : SDVars Laid) (o : SDObj Laid) (vs : List Drawn)
    (values : Dict Str Req) : Py Arr := do
  let values ← rfParse vs values
  let (vals, dims) ← rfEvaluate vs values
  o.evalProb E vals dims

end Probayes
