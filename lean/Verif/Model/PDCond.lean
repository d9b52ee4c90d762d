/-
Model of /repo/probayes/pd.py: `conditionalise` (214-295), with
/repo/probayes/distribution.py: `redim` (249-262).

`keys` lists the elements of Python's `set(keys)` (219) in its iteration order
(a single string is a list of one).  The set `marg_scalars` (228) always stays
empty, as line 238 is only reached for a non-singleton; the assertion 267-270 on
it is vacuous.
-/
import Verif.Model.PDOps

namespace Probayes

/-- distribution.py:253-260: are the requested dimensions those of arrays? -/
def redimOK (d : PD) (dims : Dict Str (Option ℕ)) (k : Str) : Bool :=
  match (Dict.get? d.dims k).join, Dict.get? dims k with
  | some _, none => false
  | none, some (some _) => false
  | _, _ => true

/-- `(key, self[key])`. -/
def itemOf (d : PD) (k : Str) : Py (Str × Val) :=
  match Dict.get? d.vals k with
  | some v => .ok (k, v)
  | none => .error .key

/-- distribution.py:249-262. -/
def PD.distRedim (d : PD) (dims : Dict Str (Option ℕ)) : Py Dist :=
  if d.keylist.all (redimOK d dims) then do
    let vals ← (Dict.keys dims).mapM (itemOf d)                             -- 261
    distDims vals (some dims)                                               -- 262
  else .error .assertion

/-- State of the loop pd.py:229-246. -/
structure CondState where
  marg : Dict Str Str
  cond : Dict Str Str
  dims : Dict Str (Option ℤ)
  normalise : Bool
  delta : ℕ

/-- pd.py:230-231: move a key from the marginal to the conditional side. -/
def condMove (keys : List Str) (st : CondState) (k : Str) : Py CondState :=
  if k ∈ keys then
    match Dict.get? st.marg k with
    | some t => .ok { st with marg := st.marg.erase k, cond := Dict.set st.cond k t }
    | none => .error .key
  else .ok st

/-- pd.py:229-246: one iteration. -/
def condStep (d : PD) (keys : List Str) (st : CondState) (kv : Str × Val) : Py CondState := do
  let st ← condMove keys st kv.1
  if kv.2.issingleton then                                                  -- 232-235
    return { st with dims := Dict.set st.dims kv.1 none
                     normalise := st.normalise || decide (kv.1 ∈ keys) }
  else if kv.1 ∈ d.marg.keys then                                           -- 236
    if kv.1 ∈ keys then return { st with delta := st.delta + 1 }            -- 239-240
    else do
      let o ← dimOf d.dims kv.1
      return { st with dims := Dict.set st.dims kv.1 (o.map Int.ofNat) }    -- 242-243
  else do
    match ← dimOf d.dims kv.1 with
    | none => .error .type                                                  -- `None - delta`
    | some a => return { st with dims := Dict.set st.dims kv.1 (some ((a : ℤ) - st.delta)) }

/-- pd.py:249-257: the remaining axes lowered to start at 0, and the highest. -/
def condLower (dims : Dict Str (Option ℤ)) : Dict Str (Option ℤ) × ℤ :=
  match dims.filterMap Prod.snd with
  | [] => (dims, 0)
  | x :: xs =>
      let low := xs.foldl min x
      let dims' := dims.map fun kv => (kv.1, kv.2.map (· - low))
      (dims', (dims'.filterMap Prod.snd).foldl max 0)

/-- pd.py:260-262: one iteration. -/
def condMinStep (d : PD) (m : ℕ) (k : Str) : Py ℕ := do
  match ← dimOf d.dims k with
  | some a => return min m a
  | none => return m

/-- pd.py:264-266: one iteration. -/
def condSetStep (d : PD) (shift : ℕ → ℤ) (dims : Dict Str (Option ℤ)) (k : Str) :
    Py (Dict Str (Option ℤ)) := do
  match ← dimOf d.dims k with
  | some a => return Dict.set dims k (some (shift a))
  | none => return dims

/-- pd.py:258-266: the conditioned arrays take the axes above. -/
def condRaise (d : PD) (keys : List Str) (dims : Dict Str (Option ℤ)) (dimMax : ℤ) :
    Py (Dict Str (Option ℤ)) := do
  let low ← keys.foldlM (condMinStep d) d.ndim
  keys.foldlM (condSetStep d fun a => (a : ℤ) - low + dimMax + 1) dims

/-- State of the loop pd.py:275-284. -/
structure CondAxes where
  old : List ℕ
  new : List ℕ
  sum : List ℕ

/-- pd.py:278-284: one iteration.  (`None` as a new axis is a TypeError in
`np.moveaxis`.) -/
def condAxesStep (d : PD) (keys : List Str) (dims : Dict Str (Option ℕ)) (st : CondAxes)
    (k : Str) : Py CondAxes := do
  match ← dimOf d.dims k with
  | none => return st
  | some a =>
    if a ∈ st.old then return st
    else match ← dimOf dims k with
      | none => .error .type
      | some b => return ⟨st.old ++ [a], st.new ++ [b],
          if k ∉ keys ∧ k ∈ d.marg.keys then st.sum ++ [b] else st.sum⟩

/-- `prob - prob.max()` (ValueError for an empty array). -/
noncomputable def subMax (a : Arr) : Py Arr :=
  match a.ravel with
  | [] => .error .value
  | x :: xs => .ok (a.map (· - xs.foldl max x))

/-- pd.py:286-294: normalisation of the moved probabilities. -/
noncomputable def condProb (s : PScale) (normalise : Bool) (sum : List ℕ) (prob : Arr) : Py Arr := do
  let prob ← (if normalise && s.iscomplex then subMax prob else .ok prob)    -- 286-287
  let prob ← rescaleArr prob s.spec (.flt 1)                                 -- 288
  let prob ← (if normalise then divArr prob ⟨[], fun _ => sumAll prob⟩ else .ok prob)
  let prob ← (if sum.isEmpty then .ok prob else do                           -- 291-293
    let total ← sumAxesKeep sum prob
    divArr prob total)
  rescaleArr prob (.flt 1) s.spec                                            -- 294

/-- pd.py:214-295.  The axes are never negative when the natural numbers are
taken: lowered axes are at least 0 and raised axes at least 1. -/
noncomputable def PD.conditionalise (fmt : Val → Str) (d : PD) (keys : List Str) : Py PD :=
  if keys.all (· ∈ d.marg.keys) then do                                      -- 220-222
    let st ← d.vals.foldlM (condStep d keys) ⟨d.marg, d.cond, [], false, 0⟩
    let low := condLower st.dims
    let dims ← condRaise d keys low.1 low.2
    let dims := dims.map fun kv => (kv.1, kv.2.map Int.toNat)
    let dist ← d.distRedim dims                                              -- 274
    let ax ← d.keylist.foldlM (condAxesStep d keys dims) ⟨[], [], []⟩
    let prob ← moveaxis d.prob ax.old ax.new                                 -- 285
    let prob ← condProb d.pscale st.normalise ax.sum prob
    pdInit fmt (margcondStr st.marg st.cond) dist.vals (some dims) prob d.pscale.spec
  else .error .assertion

end Probayes
