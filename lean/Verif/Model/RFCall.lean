/-
Model of calling a random field of independent variables (`RF.__call__`,
`RF.propose`, `RF.eval_prob` of /repo/probayes/rf.py, `rv_prod_rule` of
/repo/probayes/rf_utils.py on arrays, and `parse_args`, `eval_dist_name`,
`evaluate` of /repo/probayes/field.py with the values themselves).  The variables
are discrete, not boolean and not of float type, no joint probability has been
set, and every variable is asked for separately (no keys joined by commas).
-/
import Verif.Model.RVCall
import Verif.Model.Field
import Verif.Model.PDProduct

namespace Probayes

/-- A variable of a field with the random draws its evaluation uses. -/
structure Drawn where
  var : DRV
  r : ℕ
  perm : List ℕ

/-- The variable's name. -/
abbrev Drawn.name (v : Drawn) : Str := v.var.name

/-- vtypes.py:143-153. -/
def Req.dimless : Req → Bool
  | .scalar _ => true
  | .count n => decide (n = 0)
  | _ => false

/-- `np.isscalar`, with the number. -/
def Req.scalar? : Req → Option ℚ
  | .scalar x => some x
  | _ => none

/-- field.py:328-370 with `pass_all` False: unknown keys are refused, variables not
mentioned are asked for all their values. -/
def rfParse (vs : List Drawn) (values : Dict Str Req) : Py (Dict Str Req) :=
  let names := vs.map Drawn.name
  if values.keys.all fun k => decide (k ∈ names) then
    .ok (values ++ (names.filter fun k => decide (k ∉ values.keys)).map fun k => (k, .all))
  else .error .assertion

/-- field.py:372-391 with rv.py:322-333. -/
def rfDistName (fmt : Val → Str) (vs : List Drawn) (values : Dict Str Req) (suffix : Str) : Str :=
  [','].intercalate (vs.map fun v =>
    distName fmt (v.name ++ suffix) ((Dict.get? values v.name).getD .all))

/-- An evaluated value with the shape it has been given (`[]` for a scalar). -/
structure Laid where
  vals : VArg ℚ
  shape : List ℕ

/-- The value as stored in a distribution. -/
def Laid.toVal (l : Laid) : Val :=
  match l.vals with
  | .scalar x => .scalar x
  | .array xs => .arr l.shape xs

/-- field.py:418-434: the axes from position `n` on. -/
def rfAxes (values : Dict Str Req) : List Str → ℕ → Py (Dict Str (Option ℕ))
  | [], _ => .ok []
  | k :: ks, n =>
      match Dict.get? values k with
      | none => .error .key
      | some q =>
          if q.dimless then do return (k, none) :: (← rfAxes values ks n)
          else do return (k, some n) :: (← rfAxes values ks (n + 1))

/-- field.py:441-460 for one variable. -/
def rfLay (values : Dict Str Req) (dims : Dict Str (Option ℕ)) (v : Drawn) : Py (Str × Laid) :=
  match Dict.get? values v.name with
  | none => .error .key
  | some q => do
      match ← v.var.evaluate q v.r v.perm with
      | .scalar x => return (v.name, ⟨.scalar x, []⟩)
      | .array xs =>
          return (v.name, ⟨.array xs, ← reShape (fieldNdims dims) (Dict.get? dims v.name).join xs.length⟩)

/-- field.py:462-465 for one entry. -/
def rfUndim (vals : Dict Str Laid) (kd : Str × Option ℕ) : Str × Option ℕ :=
  match Dict.get? vals kd.1 with
  | some ⟨.scalar _, _⟩ => (kd.1, none)
  | _ => kd

/-- field.py:394-466 after parsing, with `min_dim = 0`.  If all values are numbers
they are returned in the order given (402-404). -/
def rfEvaluate (vs : List Drawn) (values : Dict Str Req) :
    Py (Dict Str Laid × Dict Str (Option ℕ)) :=
  match values.mapM fun kq => kq.2.scalar?.map fun x => (kq.1, (⟨.scalar x, []⟩ : Laid)) with
  | some vals => .ok (vals, [])
  | none => do
      let dims ← rfAxes values (vs.map Drawn.name) 0
      let vals ← vs.mapM (rfLay values dims)
      return (vals, dims.map (rfUndim vals))

/-- rv.py:305-320 on a value laid out along its axis.  The probabilities have the
shape of the values; callable probabilities are taken to treat every value alone. -/
noncomputable def Laid.prob (v : DRV) (l : Laid) : Py Arr := do
  let a ← v.evalProb l.vals
  match l.vals with
  | .scalar _ => return a
  | .array _ => reshape l.shape a

/-- rf_utils.py:18 for one variable. -/
noncomputable def rfVarProb (vals : Dict Str Laid) (v : Drawn) : Py Arr :=
  match Dict.get? vals v.name with
  | none => .error .key
  | some l => l.prob v.var

/-- rv.py: the scale of a variable is evaluated by its setter. -/
noncomputable def rfScales (vs : List Drawn) : Py (List PScale) :=
  vs.mapM fun v => evalPscale v.var.pscale

/-- rf.py:66-72: the scale of the field, before the setter evaluates it. -/
noncomputable def rfScale (vs : List Drawn) : Py PScale := do
  match ← prodPscale ((← rfScales vs).map PScale.spec) none with
  | none => .error .type
  | some s => return s

/-- rf.py:304-324 and rf_utils.py:10-21 for a field without joint probability.  The
scale passed is the product of the variables' scales, as `prodRuleArr` expects. -/
noncomputable def rfProb (vs : List Drawn) (vals : Dict Str Laid) : Py Arr := do
  match vs with
  | [v] => rfVarProb vals v
  | vs => prodRuleArr (← vs.mapM (rfVarProb vals)) (← rfScales vs)

/-- rf.py:565-581 without `iid` (541-543). -/
noncomputable def rfCall (fmt : Val → Str) (vs : List Drawn) (values : Dict Str Req) : Py PD := do
  let s ← evalPscale (← rfScale vs).spec
  let values ← rfParse vs values
  let (vals, dims) ← rfEvaluate vs values
  let prob ← rfProb vs vals
  pdInit fmt (rfDistName fmt vs values []) (vals.map fun kl => (kl.1, kl.2.toVal)) (some dims) prob
    s.spec

/-- rf.py:595-601: rename the keys.  A new key equal to a later one would replace it;
`Dict.set` after `Dict.erase` as in the code. -/
def suffixKeys {V : Type} (suffix : Str) : List Str → Dict Str V → Py (Dict Str V)
  | [], d => .ok d
  | k :: ks, d =>
      match Dict.get? d k with
      | none => .error .key
      | some v => suffixKeys suffix ks (Dict.set (Dict.erase d k) (k ++ suffix) v)

/-- rf.py:600-601: the same for dimensions, skipping keys without. -/
def suffixDims {V : Type} (suffix : Str) : List Str → Dict Str V → Dict Str V
  | [], d => d
  | k :: ks, d =>
      match Dict.get? d k with
      | none => suffixDims suffix ks d
      | some v => suffixDims suffix ks (Dict.set (Dict.erase d k) (k ++ suffix) v)

/-- rf.py:584-602 when no proposal has been set. -/
noncomputable def rfPropose (fmt : Val → Str) (vs : List Drawn) (values : Dict Str Req) (suffix : Str) :
    Py PD := do
  let s ← evalPscale (← rfScale vs).spec
  let values ← rfParse vs values
  let (vals, dims) ← rfEvaluate vs values
  let prob ← rfProb vs vals
  let keys := vals.keys
  let vals ← if suffix = [] then .ok vals else suffixKeys suffix keys vals
  let dims := if suffix = [] then dims else suffixDims suffix keys dims
  pdInit fmt (rfDistName fmt vs values suffix) (vals.map fun kl => (kl.1, kl.2.toVal)) (some dims) prob
    s.spec

end Probayes
