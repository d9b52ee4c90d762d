/-
Model of stepping a random field (`RF.step`, `RF.eval_step`, `RF.eval_tran` of
/repo/probayes/rf.py, `Field.eval_step` of /repo/probayes/field.py).  The variables
are discrete, not boolean and not of float type, and every variable is asked for
separately (no keys joined by commas).
-/
import Verif.Model.RFCall
import Verif.Model.RF

namespace Probayes

/-- What `set_tran` left on a field: nothing, something that is not called (a
number, a covariance matrix or a SciPy object), one function for both directions,
or one for each.  A function is given the values of predecessors and successors. -/
inductive RFTran where
  | none
  | const
  | fn (f : Dict Str Val → Py Arr)
  | pair (fwd rev : Dict Str Val → Py Arr)

/-- What `set_tfun` left on a field: nothing, a matrix, or a function drawing the
successors of given predecessors (rf.py:412-487, see `evalTfun`). -/
inductive RFTfun where
  | none
  | matrix
  | fn (f : Dict Str Val → Py (Dict Str Val))

/-- A random field.  `delta` is the effect of applying the field's own delta to the
predecessors (`apply_delta(·, eval_delta())`, see `Model/FieldDelta`), `none` when
none is set. -/
structure RField where
  vars : List Drawn
  tran : RFTran
  tfun : RFTfun
  delta : Option (Dict Str Val → Py (Dict Str Val))

/-- The names of the variables. -/
abbrev RField.names (F : RField) : List Str := F.vars.map Drawn.name

/-- What is asked for as successor: `{n}` or values by name.  Deltas passed by the
caller and sets of a float are not modelled. -/
inductive FSucc where
  | unitInt (n : ℤ)
  | given (d : Dict Str Val)

/-- The draws of the successor when the only variable draws it itself. -/
structure SuccDraw where
  r : ℕ
  perm : List ℕ
  u : ℝ

/-- field.py:328-370 with `pass_all` True: variables not mentioned are asked for all
their values, keys that are no variables are dropped. -/
def rfParseAll (vs : List Drawn) (values : Dict Str Req) : Dict Str Req :=
  let names := vs.map Drawn.name
  (values ++ (names.filter fun k => decide (k ∉ values.keys)).map fun k => (k, Req.all)).filter
    fun kv => decide (kv.1 ∈ names)

/-- `isscalar` on evaluated values. -/
def Val.isscalar : Val → Bool
  | .scalar _ => true
  | .arr s _ => s.isEmpty
  | _ => false

/-- The successor after defaults: `none` stands for applying the field's delta.
rf.py:629-635. -/
def rfDefaultSucc (F : RField) (pred : Dict Str Val) : Option FSucc → Option FSucc
  | some s => some s
  | none =>
      match F.delta with
      | some _ => none
      | none => if pred.all fun kv => kv.2.isscalar then some (.unitInt 0) else some (.given pred)

/-- rf.py:397-398, field.py:586-587: a predecessor by name. -/
def rfPred (pred : Dict Str Val) (k : Str) : Py (Str × Val) :=
  match Dict.get? pred k with
  | none => .error .key
  | some v => .ok (k, v)

/-- rf.py:403-406, field.py:592-594: a successor, given under the name with a prime
or else under the name. -/
def rfSucc (succ : Dict Str Val) (k : Str) : Py (Str × Val) :=
  match Dict.get? succ (if k ++ ['\''] ∈ succ.keys then k ++ ['\''] else k) with
  | none => .error .key
  | some v => .ok (k ++ ['\''], v)

/-- rf.py:394-408, field.py:583-596: predecessors by name, then successors under the
name with a prime. -/
def rfJoin (names : List Str) (pred succ : Dict Str Val) : Py (Dict Str Val) := do
  let ps ← names.mapM (rfPred pred)
  let ss ← names.mapM (rfSucc succ)
  return Dict.ofUpdates (ps ++ ss)

/-- A value as the argument of a variable's own step. -/
def Val.varg : Val → Py (VArg ℚ)
  | .scalar x => .ok (.scalar x)
  | .arr _ xs => .ok (.array xs)
  | _ => .error .type

/-- rf.py:388: has the variable a transition that is not callable? -/
def RVTran.fixed : RVTran → Bool
  | .scalar _ | .matrix _ | .pair _ _ => true
  | _ => false

/-- rf.py:369-410 and field.py:555-596: the values, their dimensions, and the
positions in the only variable's matrix if the successor was drawn from it.  The
function drawing successors is called in forward direction whatever `reverse` is
(rf.py:382). -/
noncomputable def rfEvalStep (F : RField) (pred : Dict Str Val) (succ : Option FSucc) (reverse : Bool)
    (w : SuccDraw) : Py (Dict Str Val × Dict Str (Option ℕ) × Option (ℕ × ℕ)) :=
  match succ with
  | some (.unitInt n) =>
      match F.tfun with
      | .fn f => do
          let s ← f pred
          return (← rfJoin F.names pred s, [], none)
      | _ =>
          match F.vars with
          | [v] =>
              if v.var.tran.fixed then
                match Dict.get? pred v.name with
                | none => .error .key
                | some p => do
                    let p ← p.varg
                    let (s, ij) ← v.var.succVals p (.unitInt n) reverse w.r w.perm w.u
                    let vd := v.var.stepVals p s
                    return (vd.1, vd.2, ij)
              else .error .value
          | _ => .error .value
  | some (.given d) => do
      return (← rfJoin F.names pred d, [], none)
  | none =>
      match F.delta with
      | none => .error .value
      | some f => do
          let s ← f pred
          return (← rfJoin F.names pred s, [], none)

/-- A number as an array without axes. -/
def Arr.num (x : ℝ) : Arr := ⟨[], fun _ => x⟩

/-- rf.py:20, 493. -/
noncomputable def condDefault (s : PScale) : Arr := .num (if s.iscomplex then 0 else 1)

/-- rf.py:500-508: values by name, of the predecessors or of the successors. -/
def rfSide (names : List Str) (primed : Bool) (vals : Dict Str Val) : Dict Str Val :=
  Dict.ofUpdates (vals.filterMap fun kv =>
    let prime := decide (kv.1.getLast? = some '\'')
    let key := if prime then kv.1.dropLast else kv.1
    if prime = primed ∧ key ∈ names then some (key, kv.2) else none)

/-- rf_utils.py:18 on a number.  A probability with axes could not be stored with
numbers as values and counts as refused here. -/
noncomputable def rfVarNum (vals : Dict Str Val) (v : Drawn) : Py ℝ :=
  match Dict.get? vals v.name with
  | none => .error .key
  | some (.scalar x) => do
      let a ← v.var.evalProb (.scalar x)
      if a.shape = [] then return a.get [] else .error .assertion
  | some _ => .error .type

/-- rf.py:509, rf_utils.py:10-42: the default transition probability from the
variables' own probabilities. -/
noncomputable def rfMean (vs : List Drawn) (s : PScale) (vals : Dict Str Val) : Py Arr := do
  let ps ← vs.mapM (rfVarNum (rfSide (vs.map Drawn.name) false vals))
  let ss ← rfScales vs
  let qs ← vs.mapM (rfVarNum (rfSide (vs.map Drawn.name) true vals))
  let (z, _) ← rvProdRuleN ps [qs] (ss.map PScale.spec) s.spec
  return .num z

/-- rf.py:497-499: the only variable's own transition probability. -/
noncomputable def rfOwnTran (v : Drawn) (vals : Dict Str Val) (ij : Option (ℕ × ℕ))
    (reverse : Bool) : Py Arr :=
  match Dict.get? vals v.name, Dict.get? vals v.var.prime with
  | some p, some s => do v.var.evalTran (← p.varg) (← s.varg) ij reverse
  | _, _ => .error .key

/-- Has the variable a transition of its own? -/
def RVTran.isNone : RVTran → Bool
  | .none => true
  | _ => false

/-- rf.py:490-517.  `arrays` is what the default transition comes to if some values
are arrays: the distribution is refused then whatever it is. -/
noncomputable def rfEvalTran (F : RField) (s : PScale) (arrays : Dict Str Val → Py Arr) (vals : Dict Str Val)
    (ij : Option (ℕ × ℕ)) (reverse : Bool) : Py Arr :=
  match F.tran with
  | .none =>
      match F.tfun with
      | .none =>
          let mean := if vals.all fun kv => kv.2.isscalar then rfMean F.vars s vals else arrays vals
          match F.vars with
          | [v] => if v.var.tran.isNone then mean else rfOwnTran v vals ij reverse
          | _ => mean
      | _ => .ok (condDefault s)
  | .const => .ok (condDefault s)
  | .fn f => f vals
  | .pair fwd rev => (if reverse then rev else fwd) vals

/-- How a value is asked for, as far as names are concerned. -/
def Val.asReq : Val → Req
  | .scalar x => .scalar x
  | .arr _ xs => .array xs
  | _ => .array []

/-- rf.py:639: `{key[:-1]: val for key, val in vals.items() if key[-1] == "'"}`. -/
def primedPart (vals : Dict Str Val) : Dict Str Val :=
  Dict.ofUpdates (vals.filterMap fun kv =>
    if kv.1.getLast? = some '\'' then some (kv.1.dropLast, kv.2) else none)

/-- rf.py:605-644 with the predecessors given by name. -/
noncomputable def rfStep (fmt : Val → Str) (F : RField) (arrays : Dict Str Val → Py Arr)
    (pred : Dict Str Req) (succ : Option FSucc) (reverse : Bool) (w : SuccDraw) : Py PD := do
  let s ← evalPscale (← rfScale F.vars).spec
  let asked := rfParseAll F.vars pred
  let (laid, _) ← rfEvaluate F.vars (← rfParse F.vars asked)
  let pv : Dict Str Val := laid.map fun kl => (kl.1, kl.2.toVal)
  let (vals, dims, ij) ← rfEvalStep F pv (rfDefaultSucc F pv succ) reverse w
  let cond ← rfEvalTran F s arrays vals ij reverse
  let succName := rfDistName fmt F.vars ((primedPart vals).map fun kv => (kv.1, kv.2.asReq)) ['\'']
  pdInit fmt (succName ++ '|' :: rfDistName fmt F.vars asked []) vals (some dims) cond s.spec

end Probayes
