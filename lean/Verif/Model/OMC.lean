/-
Model of calling random fields and stochastic dependences with variables asked for
jointly (keys joined by commas) and with variables of float type: `parse_args`,
`eval_dist_name` and `evaluate` of /repo/probayes/field.py, `__call__` of
/repo/probayes/rf.py and /repo/probayes/sd.py (with `joint=True`, which does what
/repo/examples/omc/omc_rs_circle.py:27-29 does by hand).

Model/RFCall.lean and Model/SDCall.lean model the same calls for discrete variables
asked for separately.  No functions have been added to the dependence, no joint
probability set to the field of its roots, and the keyword `iid` is not modelled here.
-/
import Verif.Model.SDCall

namespace Probayes

/-- A continuous variable of a field with the values its evaluation uses: `draw k` is
the `k`th of the random values of variable.py:577 and `grid n` the values for a
positive request `{n}`, both after a transform if there is one.  Limits are finite;
`inside` is membership of the support, `prob` the number set as probability (rv.py:
153-177 sets one over the length of the support by default).  Values are rationals, as
floats are. -/
structure FCont where
  name : Str
  draw : ℕ → ℚ
  grid : ℕ → List ℚ
  inside : ℚ → Bool
  prob : ℝ
  pscale : PSpec

/-- A variable of a field: discrete, or continuous.  A boolean variable is a discrete
one with values 0 (False) and 1 (True). -/
inductive JVar where
  | disc (v : Drawn)
  | cont (v : FCont)

/-- The variable's name. -/
def JVar.name : JVar → Str
  | .disc v => v.var.name
  | .cont v => v.name

/-- Is the variable of float type (field.py:199)? -/
def JVar.isFloat : JVar → Bool
  | .disc _ => false
  | .cont _ => true

/-- variable.py:543-587 for a continuous variable. -/
def FCont.evaluate (v : FCont) : Req → VArg ℚ
  | .all => .scalar (v.draw 0)                                     -- 555-556
  | .count (.ofNat 0) => .scalar (v.draw 0)
  | .count (.ofNat (n + 1)) => .array (v.grid (n + 1))
  | .count (.negSucc n) => .array ((List.range (n + 1)).map v.draw)    -- `{-(n + 1)}`
  | .scalar x => .scalar x
  | .array xs => .array xs

/-- variable.py:543-587. -/
def JVar.evaluate : JVar → Req → Py (VArg ℚ)
  | .disc v, q => v.var.evaluate q v.r v.perm
  | .cont v, q => .ok (v.evaluate q)

/-- A parsed values dictionary: the variables of each key (`key.split(',')`) with one
request for each. -/
abbrev JReqs := List (List Str × List Req)

/-- A value of the dictionary passed: one request, or a list or tuple of requests. -/
inductive JRaw where
  | one (q : Req)
  | list (qs : List Req)

/-- The kind of a request. -/
def Req.spec : Req → FSpec
  | .all => .none
  | .count n => .unit n
  | .scalar _ => .scalar
  | .array xs => .array xs.length

/-- field.py:333-348 for one entry.  Only the last of the variables of a joint key is
checked (line 346).  A list for a single variable has no `size` (line 459). -/
def jParseEntry (names : List Str) (e : List Str × JRaw) : Py (List Str × List Req) :=
  let qs : Py (List Req) :=
    if 2 ≤ e.1.length then
      match e.2 with
      | .one q => .ok (List.replicate e.1.length q)
      | .list qs => if qs.length = e.1.length then .ok qs else .error .assertion
    else
      match e.2 with
      | .one q => .ok [q]
      | .list _ => .error .attribute
  match qs with
  | .error err => .error err
  | .ok qs =>
      match e.1.getLast? with
      | none => .error .assertion
      | some k => if k ∈ names then .ok (e.1, qs) else .error .assertion

/-- field.py:358-360: the value of an entry is `{0}`; those of joint keys are lists by
then (line 341). -/
def jGivenZero (e : List Str × JRaw) : Bool :=
  e.1.length < 2 && match e.2 with
    | .one (.count n) => decide (n = 0)
    | _ => false

/-- field.py:351-361: the default for variables not mentioned. -/
def jDefault (anyFloat : Bool) (raw : List (List Str × JRaw)) : Req :=
  if anyFloat then
    if raw.any jGivenZero then .all else .count 0
  else .all

/-- field.py:328-370 with `pass_all` False. -/
def jParse (vs : List JVar) (raw : List (List Str × JRaw)) : Py JReqs :=
  match raw.mapM (jParseEntry (vs.map JVar.name)) with
  | .error e => .error e
  | .ok es =>
      let seen := (es.map Prod.fst).flatten
      .ok (es ++ ((vs.map JVar.name).filter (· ∉ seen)).map
        fun k => ([k], [jDefault (vs.any JVar.isFloat) raw]))

/-- field.py:375-383: the requests by variable. -/
def jFlat (es : JReqs) : Dict Str Req := Dict.ofUpdates (es.flatMap fun e => e.1.zip e.2)

/-- field.py:372-391 with rv.py:322-333. -/
def jDistName (fmt : Val → Str) (vs : List JVar) (es : JReqs) : Str :=
  [','].intercalate (vs.map fun v => distName fmt v.name ((Dict.get? (jFlat es) v.name).getD .all))

/-- `values[key]` for a key without comma. -/
def jSingle : JReqs → Str → Option Req
  | [], _ => none
  | (g, qs) :: es, k => if g = [k] then qs.head? else jSingle es k

/-- field.py:407-412, 450-451: the request in the joint entry the key is (last) listed
in. -/
def jJoint : JReqs → Str → Option Req
  | [], _ => none
  | (g, qs) :: es, k =>
      match jJoint es k with
      | some q => some q
      | none => if 2 ≤ g.length ∧ k ∈ g then qs[g.idxOf k]? else none

/-- field.py:444-455: the request of a variable. -/
def jRequest (es : JReqs) (k : Str) : Option Req := (jSingle es k).or (jJoint es k)

/-- field.py:441-460 for one variable. -/
def jLay (es : JReqs) (dims : Dict Str (Option ℕ)) (v : JVar) : Py (Str × Laid) :=
  match jRequest es v.name with
  | none => .error .key
  | some q => do
      match ← v.evaluate q with
      | .scalar x => return (v.name, ⟨.scalar x, []⟩)
      | .array xs =>
          return (v.name, ⟨.array xs, ← reShape (fieldNdims dims) (Dict.get? dims v.name).join xs.length⟩)

/-- field.py:403: the values as they are, if all are numbers. -/
def jScalars (es : JReqs) : Option (Dict Str Laid) :=
  es.mapM fun e => match e.1, e.2 with
    | [k], [.scalar x] => some (k, ⟨.scalar x, []⟩)
    | _, _ => none

/-- field.py:394-466 after parsing, with `min_dim = 0`. -/
def jEvaluate (vs : List JVar) (es : JReqs) : Py (Dict Str Laid × Dict Str (Option ℕ)) :=
  match jScalars es with
  | some vals => .ok (vals, [])
  | none => do
      let names := vs.map JVar.name
      let st ← dimLoop (es.map fun e => (e.1, e.2.map Req.spec)) names
        ⟨0, names.map fun k => (k, none), []⟩
      let vals ← vs.mapM (jLay es st.dims)
      return (vals, st.dims.map (rfUndim vals))

/-- rv.py:305-320 for a continuous variable with a number as probability. -/
noncomputable def FCont.evalProb (v : FCont) : VArg ℚ → Py Arr
  | .scalar x => do
      let q ← rvEvalProb v.inside v.prob v.pscale x
      return ⟨[], fun _ => q⟩
  | .array xs => do
      let qs ← rvEvalProbArr v.inside v.prob v.pscale xs
      return listArr qs

/-- rf_utils.py:18 for one variable. -/
noncomputable def jVarProb (vals : Dict Str Laid) (v : JVar) : Py Arr :=
  match Dict.get? vals v.name with
  | none => .error .key
  | some l =>
      match v with
      | .disc v => l.prob v.var
      | .cont v => do
          let a ← v.evalProb l.vals
          match l.vals with
          | .scalar _ => return a
          | .array _ => reshape l.shape a

/-- The scale of a variable as evaluated by its setter. -/
noncomputable def JVar.scale : JVar → Py PScale
  | .disc v => evalPscale v.var.pscale
  | .cont v => evalPscale v.pscale

/-- rf.py:66-72: the scale of the field. -/
noncomputable def jScale (vs : List JVar) : Py PScale := do
  match ← prodPscale ((← vs.mapM JVar.scale).map PScale.spec) none with
  | none => .error .type
  | some s => return s

/-- rf.py:304-324 and rf_utils.py:10-21 for a field without joint probability. -/
noncomputable def jProb (vs : List JVar) (vals : Dict Str Laid) : Py Arr := do
  match vs with
  | [v] => jVarProb vals v
  | vs => prodRuleArr (← vs.mapM (jVarProb vals)) (← vs.mapM JVar.scale)

/-- rf.py:565-581 for a field of independent variables. -/
noncomputable def jCall (fmt : Val → Str) (vs : List JVar) (raw : List (List Str × JRaw)) : Py PD := do
  let s ← evalPscale (← jScale vs).spec
  let es ← jParse vs raw
  let (vals, dims) ← jEvaluate vs es
  let prob ← jProb vs vals
  pdInit fmt (jDistName fmt vs es) (vals.map fun kl => (kl.1, kl.2.toVal)) (some dims) prob s.spec

/-- A stochastic dependence, as in Model/SDCall.lean: its leafs, its roots, all its
variables in the order of the graph's vertices, the function set as its probability
(of the evaluated values and their axes), and its scale. -/
structure JDep where
  leafs : List JVar
  roots : List JVar
  vars : List JVar
  prob : Dict Str Laid → Dict Str (Option ℕ) → Py Arr
  pscale : PScale

/-- dependence.py:342-376 with `suffix` None. -/
def JDep.distName (fmt : Val → Str) (D : JDep) (es : JReqs) : Str :=
  let marg := jDistName fmt D.leafs es
  let cond := jDistName fmt D.roots es
  if cond = [] then marg else marg ++ '|' :: cond

/-- rf.py:565-581 for a dependence. -/
noncomputable def JDep.call (fmt : Val → Str) (D : JDep) (raw : List (List Str × JRaw)) : Py PD := do
  let es ← jParse D.vars raw
  let (vals, dims) ← jEvaluate D.vars es
  let prob ← D.prob vals dims
  pdInit fmt (D.distName fmt es) (vals.map fun kl => (kl.1, kl.2.toVal)) (some dims) prob
    D.pscale.spec

/-- A value looked up in a distribution, as the value of a dictionary passed to a
field. -/
def LookVal.jraw : LookVal → Py JRaw
  | .single (.scalar x) => .ok (.one (.scalar x))
  | .single (.setint n) => .ok (.one (.count n))
  | .flat xs => .ok (.one (.array xs))
  | .tuple xss => .ok (.list (xss.map .array))
  | _ => .error .notImplemented

/-- pd.py:505-509 with `'cond'` (omc_rs_circle.py:27), as the dictionary passed to the
roots, whose keys field.py:334-337 splits. -/
def PD.jCondReq (d : PD) : Py (List (List Str × JRaw)) := do
  (← d.dist.lookup d.cond.keys).mapM fun kv => do return (kv.1.splitOn ',', ← kv.2.jraw)

/-- sd.py:148-161 with `joint=True`, and omc_rs_circle.py:27-29. -/
noncomputable def JDep.callJoint (fmt : Val → Str) (D : JDep) (raw : List (List Str × JRaw)) :
    Py PD := do
  let d ← D.call fmt raw
  let vals ← d.jCondReq
  if D.roots = [] then .error .type
  else do
    let prior ← jCall fmt D.roots vals
    match ← product fmt [prior, d] with
    | none => .error .type
    | some r => return r

/-- The evaluated value as an array of floats. -/
noncomputable def Laid.arr (l : Laid) : Arr :=
  match l.vals with
  | .scalar x => ⟨[], fun _ => (x : ℝ)⟩
  | .array xs => valArr l.shape xs

/-- omc_rs_circle.py:11-12: `o == (condition of x and y)`, elementwise with
broadcasting, as a function of the evaluated values passed by name.  The condition is
a parameter; True and False are 1 and 0. -/
noncomputable def regionProb (region : ℝ → ℝ → Bool) (vals : Dict Str Laid)
    (_dims : Dict Str (Option ℕ)) : Py Arr :=
  match Dict.get? vals ['o'], Dict.get? vals ['x'], Dict.get? vals ['y'] with
  | some lo, some lx, some ly => do
      let c ← Arr.zip (fun a b => if region a b then 1 else 0) lx.arr ly.arr
      Arr.zip (fun a b => if a = b then 1 else 0) lo.arr c
  | _, _, _ => .error .type

/-- omc_rs_circle.py:17: the boolean `o`; `r` and `perm` are its draws. -/
noncomputable def omcBool (r : ℕ) (perm : List ℕ) : JVar :=
  .disc ⟨⟨['o'], [0, 1], .flt 1, .scalar (1 / 2), .none, none⟩, r, perm⟩

/-- omc_rs_circle.py:15-22: `oxy = o | (x & y)` with the function set as its
probability. -/
noncomputable def omcDep (o x y : JVar) (region : ℝ → ℝ → Bool) : JDep :=
  ⟨[o], [x, y], [o, x, y], regionProb region, .lin 1⟩

/-- omc_rs_circle.py:25-32: the expectation of `o`, which times the area of the square
is the estimate. -/
noncomputable def omcEstimate (fmt : Val → Str) (D : JDep) (raw : List (List Str × JRaw)) :
    Py (Option Expt) := do
  let joint ← D.callJoint fmt raw
  let e ← joint.expectation none none
  return Dict.get? e ['o']

end Probayes
