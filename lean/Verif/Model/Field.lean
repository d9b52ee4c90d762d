/-
Model of /repo/probayes/field.py (membership, evaluation of axes, deltas) and of
the field part of /repo/probayes/ops.py.
-/
import Verif.Base.Dict
import Verif.Model.PScales

namespace Probayes

/-! ### Membership (field.py:98-138, 193-212; ops.py:4-73)

Variable objects are numbers (object identities: `Variable` defines no equality
of its own); `info v` gives the attributes of object `v`. -/

/-- The attributes of a variable the field looks at. -/
structure VarInfo where
  name : Str
  stoch : Bool

/-- The state of a field: graph nodes in insertion order, the number of
variables and the name-keyed dictionary as last refreshed.  `nvars = 0` also
stands for the initial `None`. -/
structure FieldState where
  nodes : List ℕ
  nvars : ℕ
  vars : Dict Str ℕ

/-- A field object before `set_vars`. -/
def FieldState.empty : FieldState := ⟨[], 0, []⟩

/-- `networkx` `add_node`: adding a present node changes nothing. -/
def addNode (nodes : List ℕ) (v : ℕ) : List ℕ := if v ∈ nodes then nodes else nodes ++ [v]

/-- The argument of `add_var`: one variable, or a collection of variables
(list, tuple, set in iteration order, dictionary values, or a field's
variables).  Non-variable members (AssertionError) are not modelled. -/
inductive AddArg where
  | single (v : ℕ)
  | many (vs : List ℕ)

/-- field.py:124-130: the loop; stops at the first variable already present in a
field that has been refreshed before.  Returns the nodes and whether it
completed. -/
def addLoop (nvars : ℕ) : List ℕ → List ℕ → List ℕ × Bool
  | [], nodes => (nodes, true)
  | v :: vs, nodes =>
      if nvars ≠ 0 ∧ v ∈ nodes then (nodes, false)
      else addLoop nvars vs (addNode nodes v)

/-- field.py:193-212.  Returns the refreshed state and whether the assertion on
line 202 holds. -/
def refresh (info : ℕ → VarInfo) (fieldStoch : Bool) (nodes : List ℕ) : FieldState × Bool :=
  let vars := Dict.ofUpdates (nodes.map fun v => ((info v).name, v))
  (⟨nodes, nodes.length, vars⟩, fieldStoch || !(vars.vals.any fun v => (info v).stoch))

/-- field.py:112-138.  The `else` block (131-137) of the `for` loop always runs
after a completed loop, on the variable last bound to `var`.  The result is the
state after the call and the exception raised, if any. -/
def addVar (info : ℕ → VarInfo) (fieldStoch : Bool) (s : FieldState) (arg : AddArg) :
    FieldState × Option Err :=
  let vs := match arg with
    | .single _ => []
    | .many vs => vs
  let l := addLoop s.nvars vs s.nodes
  if l.2 = false then ({ s with nodes := l.1 }, some .assertion)
  else
    let last : Option ℕ := match arg with
      | .single v => some v
      | .many vs => vs.getLast?     -- an empty collection: `var` is the collection itself
    match last with
    | none => ({ s with nodes := l.1 }, some .assertion)
    | some v =>
        if s.nvars ≠ 0 ∧ v ∈ l.1 then ({ s with nodes := l.1 }, some .assertion)
        else
          let r := refresh info fieldStoch (addNode l.1 v)
          (r.1, if r.2 then none else some .assertion)

/-- field.py:56-109: the constructor with the given variables. -/
def mkField (info : ℕ → VarInfo) (fieldStoch : Bool) (vs : List ℕ) : FieldState × Option Err :=
  match vs with
  | [v] => addVar info fieldStoch FieldState.empty (.single v)
  | vs => addVar info fieldStoch FieldState.empty (.many vs)

/-- ops.py:27-46, 52-69: `a & b` where each operand is a field or a variable,
given by its variables; the result is stochastic if any operand is. -/
def andOp (info : ℕ → VarInfo) (fieldStoch : Bool) (a b : List ℕ) : FieldState × Option Err :=
  mkField info fieldStoch (a ++ b)

/-! ### Evaluation of axes (field.py:328-466) -/

/-- A value specification for one variable. -/
inductive FSpec where
  | none
  | unit (n : ℤ)          -- a set {n}
  | scalar                -- any `np.isscalar` value
  | array (size : ℕ)      -- a one-dimensional array
deriving DecidableEq

/-- vtypes.py:143-153. -/
def FSpec.dimless : FSpec → Bool
  | .unit n => n = 0
  | .scalar => true
  | _ => false

/-- What a variable contributes: whether it is of float type and the length of
its set. -/
structure FVar where
  name : Str
  isFloat : Bool
  len : ℕ

/-- An evaluated value: scalar or array of given size. -/
inductive FOut where
  | scalar
  | array (size : ℕ)
deriving DecidableEq

/-- variable.py:543-587 as called at field.py:447-455: the kind of the evaluated
value. -/
def FVar.eval (v : FVar) : FSpec → FOut
  | .none => if v.isFloat then .scalar else .array v.len
  | .unit n => if n = 0 then .scalar else .array n.natAbs
  | .scalar => .scalar
  | .array k => .array k

/-- A parsed values dictionary: each entry has the variables of its key
(`key.split(',')`) and one specification for each. -/
abbrev FEntries := List (List Str × List FSpec)

/-- `values[key]` for a key without comma. -/
def singleSpec : FEntries → Str → Option FSpec
  | [], _ => none
  | (g, vs) :: es, k => if g = [k] then vs.head? else singleSpec es k

/-- field.py:407-412: the joint entry a key is (last) listed in, with its
position. -/
def jointRef : FEntries → Str → Option (List Str × List FSpec × ℕ)
  | [], _ => none
  | (g, vs) :: es, k =>
      match jointRef es k with
      | some r => some r
      | none => if 2 ≤ g.length ∧ k ∈ g then some (g, vs, g.idxOf k) else none

/-- State of the loop 415-434. -/
structure DimState where
  ndim : ℕ
  dims : Dict Str (Option ℕ)
  seen : List Str

/-- field.py:428-430. -/
def setGroup (d : ℕ) : List Str → Dict Str (Option ℕ) → Dict Str (Option ℕ)
  | [], dims => dims
  | k :: ks, dims => setGroup d ks (dims.set k (some d))

/-- field.py:418-434: one pass of the loop. -/
def dimStep (es : FEntries) (s : DimState) (key : Str) : Py DimState :=
  match jointRef es key with
  | none =>
      match singleSpec es key with
      | none => .error .key
      | some v =>
          if v.dimless then .ok { s with seen := key :: s.seen }
          else .ok ⟨s.ndim + 1, s.dims.set key (some s.ndim), key :: s.seen⟩
  | some (g, vs, i) =>
      if key ∈ s.seen then .ok s
      else
        match vs[i]? with
        | none => .error .index
        | some v => .ok ⟨if v.dimless then s.ndim else s.ndim + 1,
                         setGroup s.ndim g s.dims, g ++ s.seen⟩

/-- field.py:418-434. -/
def dimLoop (es : FEntries) : List Str → DimState → Py DimState
  | [], s => .ok s
  | k :: ks, s => match dimStep es s k with
    | .error e => .error e
    | .ok s' => dimLoop es ks s'

/-- The specification of a variable, alone or in a joint entry (442-455). -/
def specOf (es : FEntries) (key : Str) : Option FSpec :=
  match singleSpec es key with
  | some v => some v
  | none => match jointRef es key with
    | some (_, vs, i) => vs[i]?
    | none => none

/-- field.py:462-465: drop the axis of singletons. -/
def dropSingletons (es : FEntries) : List FVar → Dict Str (Option ℕ) → Py (Dict Str (Option ℕ))
  | [], dims => .ok dims
  | v :: vs, dims => match specOf es v.name with
    | none => .error .key
    | some sp => dropSingletons es vs
        (match v.eval sp with
         | .scalar => dims.set v.name none
         | .array _ => dims)

/-- field.py:395-466 after parsing, with `min_dim = 0`: the axis of every
variable.  If all values are scalars (line 403; joint entries are lists and do
not count as scalars) no axes are assigned.  Reshaping (456-460) is `fieldShapes`
below; the values themselves are not modelled. -/
def fieldDims (vars : List FVar) (es : FEntries) : Py (Dict Str (Option ℕ)) :=
  if es.all (fun e => e.1.length = 1 && e.2 == [.scalar]) then .ok []
  else
    match dimLoop es (vars.map FVar.name)
        ⟨0, vars.map (fun v => (v.name, none)), []⟩ with
    | .error e => .error e
    | .ok s => dropSingletons es vars s.dims

/-- field.py:437-438: one more than the largest axis, before singletons lose
theirs. -/
def fieldNdims (dims : Dict Str (Option ℕ)) : ℕ :=
  (dims.filterMap Prod.snd).foldr (fun d m => max (d + 1) m) 0

/-- field.py:456-460: the shape given to an array of `size` values: ones, with the
size on its axis.  Without an axis `re_shape[None] = size` fills the whole shape,
and `reshape` raises ValueError unless the number of values agrees. -/
def reShape (ndims : ℕ) (dim : Option ℕ) (size : ℕ) : Py (List ℕ) :=
  match dim with
  | some d => if d < ndims then .ok ((List.replicate ndims 1).set d size) else .error .index
  | none => if size ^ ndims = size then .ok (List.replicate ndims size) else .error .value

/-- field.py:441-460 for one variable: the shape of its evaluated value (`[]` for
scalars). -/
def varShape (es : FEntries) (dims : Dict Str (Option ℕ)) (v : FVar) : Py (Str × List ℕ) :=
  match specOf es v.name with
  | none => .error .key
  | some sp => match v.eval sp with
    | .scalar => .ok (v.name, [])
    | .array n => match reShape (fieldNdims dims) (dims.get? v.name).join n with
      | .error e => .error e
      | .ok sh => .ok (v.name, sh)

/-- field.py:395-460, with `min_dim = 0`: the shape of every evaluated value. -/
def fieldShapes (vars : List FVar) (es : FEntries) : Py (Dict Str (List ℕ)) :=
  if es.all (fun e => e.1.length = 1 && e.2 == [.scalar]) then
    .ok (vars.map fun v => (v.name, []))
  else
    match dimLoop es (vars.map FVar.name)
        ⟨0, vars.map (fun v => (v.name, none)), []⟩ with
    | .error e => .error e
    | .ok s => vars.mapM (varShape es s.dims)

/-- A raw value: one specification or a list of them. -/
inductive RawVal where
  | one (v : FSpec)
  | list (vs : List FSpec)

/-- field.py:333-348: normalise one entry.  Only the last of the variables of a
joint key is checked (line 346). -/
def parseEntry (keys : List Str) (e : List Str × RawVal) : Py (List Str × List FSpec) :=
  let vs : Py (List FSpec) :=
    if 2 ≤ e.1.length then
      match e.2 with
      | .one v => .ok (List.replicate e.1.length v)
      | .list vs => if vs.length = e.1.length then .ok vs else .error .assertion
    else
      match e.2 with
      | .one v => .ok [v]
      | .list _ => .error .attribute   -- line 459: a list has no `size`
  match vs with
  | .error err => .error err
  | .ok vs =>
      match e.1.getLast? with
      | none => .error .assertion
      | some k => if k ∈ keys then .ok (e.1, vs) else .error .assertion

/-- field.py:358-359: the value of an entry is `{0}`.  A `{0}` given for a joint key
has been turned into a list by line 341 and does not count. -/
def givenZero (e : List Str × RawVal) : Bool :=
  e.1.length < 2 && match e.2 with
    | .one (.unit n) => decide (n = 0)
    | _ => false

/-- field.py:351-360: the default for unmentioned variables. -/
def defVal (anyFloat : Bool) (raw : List (List Str × RawVal)) : FSpec :=
  if anyFloat then
    if raw.any givenZero then .none
    else .unit 0
  else .none

/-- field.py:328-370 with `pass_all` False. -/
def parseArgs (vars : List FVar) (raw : List (List Str × RawVal)) : Py FEntries :=
  match raw.mapM (parseEntry (vars.map FVar.name)) with
  | .error e => .error e
  | .ok es =>
      let seen := (es.map Prod.fst).flatten
      .ok (es ++ ((vars.map FVar.name).filter (· ∉ seen)).map
        fun k => ([k], [defVal (vars.any FVar.isFloat) raw]))

/-! ### Deltas (field.py:220-325, 469-552; rf.py:133-138) -/

/-- A variable as seen by deltas. -/
structure DVar where
  name : Str
  len : ℝ
  stoch : Bool

/-- field.py:320-325 and, for random fields, rf.py:133-138 (only the stochastic
variables are listed). -/
def fieldLengths (isRF : Bool) (vars : List DVar) : List ℝ :=
  ((vars.filter fun v => !isRF || v.stoch)).map DVar.len

/-- `lengths[i]`; IndexError outside. -/
def lengthAt (lengths : List ℝ) (i : ℕ) : Py ℝ :=
  match lengths[i]? with
  | some l => .ok l
  | none => .error .index

/-- field.py:295-303: scale the entries from position `i` on.  Lengths are taken
to be finite. -/
noncomputable def prescale (scale : Bool) (lengths : List ℝ) (unscale : Dict Str ℝ) :
    ℕ → Dict Str ℝ → Py (Dict Str ℝ)
  | _, [] => .ok []
  | i, (k, v) :: d =>
      match (if scale ∧ k ∉ unscale.keys then
          (match lengthAt lengths i with
           | .ok l => .ok (v * l)
           | .error e => .error e) else (.ok v : Py ℝ)) with
      | .error e => .error e
      | .ok x => match prescale scale lengths unscale (i + 1) d with
        | .error e => .error e
        | .ok r => .ok ((k, x) :: r)

/-- field.py:285-304 for a scalar delta `d`: the delta of every variable.
`namedtuple(**delta_dict)` (line 304) raises TypeError unless the keys are
exactly the field's. -/
noncomputable def setDeltaScalar (isRF : Bool) (vars : List DVar) (d : ℝ) (scale : Bool)
    (unscale : Dict Str ℝ) : Py (Dict Str ℝ) :=
  let base : Dict Str ℝ := vars.map fun v => (v.name, d)
  let deltas := unscale.foldl (fun acc kv => acc.set kv.1 kv.2) base
  match prescale scale (fieldLengths isRF vars) unscale 0 deltas with
  | .error e => .error e
  | .ok r => if r.length = vars.length then .ok r else .error .type

/-- A float result: `none` when it is not finite (division by zero). -/
noncomputable def fdiv (x y : ℝ) : Option ℝ := if y = 0 then none else some (x / y)

/-- field.py:521-529 without `unscale`: name each component and, with `scale`,
multiply by `lengths[i]`. -/
noncomputable def sphereVals (scale : Bool) (lengths : List ℝ) :
    ℕ → List (Str × Option ℝ) → Py (Dict Str (Option ℝ))
  | _, [] => .ok []
  | i, (k, v) :: r =>
      match (if scale then
          (match lengthAt lengths i with
           | .ok l => .ok (v.map (· * l))
           | .error e => .error e) else (.ok v : Py (Option ℝ))) with
      | .error e => .error e
      | .ok x => match sphereVals scale lengths (i + 1) r with
        | .error e => .error e
        | .ok r => .ok ((k, x) :: r)

/-- field.py:314-317: a variable with its length. -/
def sphEntry (lengths : List ℝ) (k : Str × ℕ) : Py (Str × ℝ) :=
  match lengthAt lengths k.2 with
  | .ok l => .ok (k.1, l)
  | .error e => .error e

/-- field.py:503-531 for a tuple delta `(d,)`, with the names listed in the
optional argument of `set_delta` in `unscaled`.  `draw i` is the i-th uniform draw
from `[0,1)`.  Line 505 takes the argument *tuple* for the dictionary, so that
`key in unscale` is False for every key, the unscaled variables get no
entry and line 530 raises TypeError; likewise line 507. -/
noncomputable def sphericalDelta (isRF : Bool) (vars : List DVar) (unscaled : List Str)
    (scale : Bool) (d : ℝ) (draw : ℕ → ℝ) : Py (Dict Str (Option ℝ)) :=
  -- field.py:310-317, with the i-th length for the i-th variable
  match ((vars.map DVar.name).zipIdx.filter (fun k => k.1 ∉ unscaled)).mapM
      (sphEntry (fieldLengths isRF vars)) with
  | .error e => .error e
  | .ok sph =>
    if sph.isEmpty then .error .type
    else
      let rss := realSqrt ((sph.map fun kl => kl.2 ^ 2).sum)
      let d := if scale then d * rss else d
      let deltas := (List.range sph.length).map fun i => -d + (d - -d) * draw i
      let rssd := realSqrt ((deltas.map fun x => x ^ 2).sum)
      let vals := deltas.map fun x => fdiv (x * d) rssd
      match sphereVals scale (fieldLengths isRF vars) 0 ((sph.map Prod.fst).zip vals) with
      | .error e => .error e
      | .ok r => if r.length = vars.length then .ok r else .error .type

/-- field.py:546-552: apply a delta to the values; `apply k v x` is the variable's
own `apply_delta`.  KeyError if a variable has no value. -/
def applyFieldDelta {V D : Type} (apply : Str → V → D → V) (values : Dict Str V) :
    Dict Str D → Dict Str V → Py (Dict Str V)
  | [], vals => .ok vals
  | (k, x) :: ds, vals => match values.get? k with
    | none => .error .key
    | some v => applyFieldDelta apply values ds (vals.set k (apply k v x))

end Probayes
