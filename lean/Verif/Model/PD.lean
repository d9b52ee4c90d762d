/-
Model of construction in /repo/probayes/named_dict.py, /repo/probayes/distribution.py
(`Distribution.__init__` 43-52, `dims` setter 94-192) and /repo/probayes/pd.py
(`PD.__init__` 30-46, `name` 60-64, `pscale` 79-81, `prob` 88-102, `dims` 109-133).

Simplifications: values are rationals; dimension indices are natural numbers
(negative Python indices are not modelled); a PD always has a probability
(`prob=None` is not modelled); `{}`-formatting of a value is the parameter `fmt`.
-/
import Mathlib.Data.Rat.Defs
import Verif.Base.Arr
import Verif.Model.PScales
import Verif.Model.Names

namespace Probayes

/-- The value held by a variable of a distribution. -/
inductive Val where
  /-- a Python or numpy scalar -/
  | scalar (x : ℚ)
  /-- `{n}`: a set of one integer -/
  | setint (n : ℤ)
  /-- `{x}`: a set of one float -/
  | setflt (x : ℚ)
  /-- `{None}` -/
  | setnone
  /-- a numpy array: its shape and its entries in row-major order -/
  | arr (shape : List ℕ) (data : List ℚ)
  /-- anything else (lists, tuples, larger sets, `None`, ...) -/
  | other
deriving DecidableEq

/-- vtypes.py:57-109 (`issingleton`, `isunitset`, `isscalar`). -/
def Val.issingleton : Val → Bool
  | .scalar _ | .setint _ | .setflt _ => true
  | .arr s _ => s.isEmpty
  | _ => false

/-- vtypes.py:77-86. -/
def Val.isunitsetint : Val → Bool
  | .setint _ => true
  | _ => false

/-- distribution.py:40. -/
def disallowed : List Str := ["attrs".toList, "prob".toList, "pscale".toList]

/-- distribution.py:131-135: `{None}` becomes `{0}`. -/
def Val.fixNone : Val → Val
  | .setnone => .setint 0
  | v => v

/-- distribution.py:184-185: ones with `n` at axis `a`. -/
def axisShape (ndim a n : ℕ) : List ℕ := (List.replicate ndim 1).set a n

/-- distribution.py:139-143. -/
def maxDim (dims : Dict Str (Option ℕ)) : ℕ :=
  dims.foldl (fun m kv => match kv.2 with | some d => max m (d + 1) | none => m) 0

/-- State of the loop distribution.py:148-190. -/
structure AxState where
  vals : Dict Str Val
  dims : Dict Str (Option ℕ)
  shape : List (Option ℕ)
  ndim : ℕ
  /-- `nonsingleton_count + 1` -/
  count : ℕ
  sizes : List ℕ

/-- distribution.py:152-161: a scalar entry. -/
def dimsScalar (evalDims : Bool) (st : AxState) (k : Str) (v : Val) : Py AxState :=
  if evalDims then .ok { st with vals := st.vals ++ [(k, v)], dims := Dict.set st.dims k none }
  else match Dict.get? st.dims k with
    | some (some _) => .error .assertion
    | some none => .ok { st with vals := st.vals ++ [(k, v)] }
    | none => .ok { st with vals := st.vals ++ [(k, v)], dims := Dict.set st.dims k none }

/-- distribution.py:182-190: record the size on the axis and reshape the values. -/
def dimsPlace (st : AxState) (k : Str) (data : List ℚ) (a : ℕ) : AxState :=
  { st with
    vals := st.vals ++ [(k, .arr (axisShape st.ndim a data.length) data)]
    shape := st.shape.set a (some data.length)
    sizes := st.sizes ++ [data.length] }

/-- distribution.py:164-190: a non-scalar entry. -/
def dimsArray (evalDims : Bool) (st : AxState) (k : Str) (v : Val) : Py AxState :=
  match v with
  | .arr s data =>
      if data.length ≠ s.foldl max 0 then .error .assertion            -- 169-172
      else if evalDims then                                            -- 173-178
        let st' := { st with
          dims := Dict.set st.dims k (some st.count)
          shape := if st.shape.length = st.count then st.shape ++ [none] else st.shape
          ndim := if st.shape.length = st.count then st.shape.length + 1 else st.ndim
          count := st.count + 1 }
        .ok (dimsPlace st' k data st.count)
      else match Dict.get? st.dims k with                              -- 179-181
        | none => .error .assertion
        | some none => .error .type                                    -- 183: list index None
        | some (some a) => .ok (dimsPlace { st with count := st.count + 1 } k data a)
  | _ => .error .assertion

/-- distribution.py:148-190: one iteration. -/
def dimsStep (evalDims : Bool) (st : AxState) (kv : Str × Val) : Py AxState :=
  if kv.2.issingleton then dimsScalar evalDims st kv.1 kv.2
  else dimsArray evalDims st kv.1 kv.2

/-- A Distribution object. -/
structure Dist where
  vals : Dict Str Val
  dims : Dict Str (Option ℕ)
  ndim : ℕ
  sizes : List ℕ
  shape : List ℕ
  size : ℕ
  aresingleton : List Bool
  /-- `None` (falsy) for an empty distribution -/
  issingleton : Bool

/-- distribution.py:94-192.  For an empty dictionary `_ndim` and `_size` stay
`None`; they are 0 here. -/
def distDims (vals : Dict Str Val) (dims? : Option (Dict Str (Option ℕ))) : Py Dist :=
  let evalDims := dims?.isNone
  let dims := dims?.getD []
  if vals.isEmpty then .ok ⟨[], dims, 0, [], [], 0, [], false⟩                  -- 125-126
  else if vals.keys.any (· ∈ disallowed) then .error .value                   -- 129-130
  else do
    let vals := vals.map fun kv => (kv.1, kv.2.fixNone)                       -- 131-135
    let n := maxDim dims
    let st ← vals.foldlM (dimsStep evalDims)
      ⟨[], dims, List.replicate n none, n, 0, []⟩
    match st.shape.mapM id with                                               -- 191
    | none => .error .type
    | some shape =>
      return ⟨st.vals, st.dims, st.ndim, st.sizes, shape, shape.prod,
        vals.map (fun kv => kv.2.issingleton), vals.all (fun kv => kv.2.issingleton)⟩

/-- A PD object. -/
structure PD where
  name : Str
  marg : Dict Str Str
  cond : Dict Str Str
  dist : Dist
  prob : Arr
  pscale : PScale

namespace PD
/-- The dictionary of values. -/
abbrev vals (d : PD) : Dict Str Val := d.dist.vals
/-- `_dims`. -/
abbrev dims (d : PD) : Dict Str (Option ℕ) := d.dist.dims
/-- `_ndim`. -/
abbrev ndim (d : PD) : ℕ := d.dist.ndim
/-- `_shape`. -/
abbrev shape (d : PD) : List ℕ := d.dist.shape
/-- `_keylist`. -/
abbrev keylist (d : PD) : List Str := d.dist.vals.keys
end PD

/-- `"{}={}".format(key, self[key])`. -/
def eqText (fmt : Val → Str) (k : Str) (v : Val) : Str := k ++ '=' :: fmt v

/-- pd.py:122-132: one iteration; state is `(marg, cond)`. -/
def nameStep (fmt : Val → Str) (mc : Dict Str Str × Dict Str Str) (kv : Str × Val) :
    Py (Dict Str Str × Dict Str Str) :=
  if kv.2.issingleton then
    if kv.1 ∈ mc.1.keys then .ok (Dict.set mc.1 kv.1 (eqText fmt kv.1 kv.2), mc.2)
    else if kv.1 ∈ mc.2.keys then .ok (mc.1, Dict.set mc.2 kv.1 (eqText fmt kv.1 kv.2))
    else .error .value
  else .ok mc

/-- pd.py:88-102: may this probability be assigned? -/
def probOK (dist : Dist) (prob : Arr) : Bool :=
  if dist.issingleton then prob.isscalar
  else !prob.isscalar && !dist.vals.isEmpty && dist.ndim == prob.shape.length
    && dist.shape == prob.shape

/-- pd.py:30-46 with named_dict.py:12-14 and distribution.py:43-52. -/
noncomputable def pdInit (fmt : Val → Str) (name : Str) (vals : Dict Str Val)
    (dims? : Option (Dict Str (Option ℕ))) (prob : Arr) (pscale : PSpec) : Py PD := do
  let mc ← strMargcond name                                     -- name setter
  let dist ← distDims vals dims?                                -- pd.py:120
  let mc ← dist.vals.foldlM (nameStep fmt) mc                   -- pd.py:122-132
  let ps ← evalPscale pscale                                    -- pd.py:45
  if probOK dist prob then                                      -- pd.py:46
    return ⟨margcondStr mc.1 mc.2, mc.1, mc.2, dist, prob, ps⟩
  else .error .assertion

end Probayes
