/-
Model of /repo/probayes/pd.py: `marginalise` (136-165) and `marginal` (168-211).

`keys` is the list of given keys (a single string is a list of one); they are
only tested for membership.  `self._aresingleton[i]` is `issingleton` of the
i-th value (distribution.py:138).
-/
import Verif.Model.PD

namespace Probayes

/-- pscales.py:100-131 applied to every entry of an array. -/
noncomputable def rescaleArr (x : Arr) (s t : PSpec) : Py Arr := do
  let a ← evalPscale s
  let b ← evalPscale t
  return x.map (fun p => rescaleE p a b)

/-- `self._dims[key]` (KeyError if absent). -/
def dimOf (dims : Dict Str (Option ℕ)) (k : Str) : Py (Option ℕ) :=
  match Dict.get? dims k with
  | some o => .ok o
  | none => .error .key

/-- `self._dims[key] - delta` for an array.  A negative axis (which Python would
count from the end) is outside the model and shown as IndexError; subtracting
from `None` is a TypeError. -/
def shiftDim (o : Option ℕ) (delta : ℕ) : Py ℕ :=
  match o with
  | none => .error .type
  | some a => if delta ≤ a then .ok (a - delta) else .error .index

/-- State of the loop pd.py:150-160. -/
structure MargState where
  marg : Dict Str Str
  vals : Dict Str Val
  dims : Dict Str (Option ℕ)
  delta : ℕ
  axes : List ℕ

/-- pd.py:150-160: one iteration. -/
def margStep (d : PD) (keys : List Str) (st : MargState) (kv : Str × Val) : Py MargState :=
  if kv.1 ∈ keys then
    if kv.2.issingleton then .error .assertion                             -- 152-153
    else do
      match ← dimOf d.dims kv.1 with
      | none => .error .type      -- `axis=(None,)`: not reached for constructed PDs
      | some a =>
        if kv.1 ∈ st.marg.keys then                                        -- 155
          return { st with marg := st.marg.erase kv.1, delta := st.delta + 1,
                           axes := st.axes ++ [a] }
        else .error .key
  else if kv.2.issingleton then .ok { st with vals := st.vals ++ [kv] }
  else do
    let o ← dimOf d.dims kv.1
    let a ← shiftDim o st.delta                                            -- 159
    return { st with dims := Dict.set st.dims kv.1 (some a), vals := st.vals ++ [kv] }

/-- pd.py:136-165. -/
noncomputable def PD.marginalise (fmt : Val → Str) (d : PD) (keys : List Str) : Py PD :=
  if keys.all (· ∈ d.marg.keys) then do                                    -- 140-142
    let st ← d.vals.foldlM (margStep d keys) ⟨d.marg, [], [], 0, []⟩
    let prob ← rescaleArr d.prob d.pscale.spec (.flt 1)
    let sum ← sumAxes st.axes prob
    let prob ← rescaleArr sum (.flt 1) d.pscale.spec
    pdInit fmt (margcondStr st.marg d.cond) st.vals (some st.dims) prob d.pscale.spec
  else .error .assertion

/-- pd.py:175-180: axes of the requested keys. -/
def marginalDims (d : PD) : List Str → Py (List ℕ)
  | [] => .ok []
  | k :: ks =>
      if k ∈ d.marg.keys then do
        let o ← dimOf d.dims k
        let rest ← marginalDims d ks
        return (match o with | some a => a :: rest | none => rest)
      else .error .assertion

/-- pd.py:184-186: `key` lies on none of the axes (`None in dims` is false). -/
def offAxes (dims : Dict Str (Option ℕ)) (axes : List ℕ) (k : Str) : Bool :=
  match (Dict.get? dims k).join with
  | some a => decide (a ∉ axes)
  | none => true

/-- pd.py:168-211. -/
noncomputable def PD.marginal (fmt : Val → Str) (d : PD) (keys : List Str) : Py PD := do
  let axes ← marginalDims d keys
  -- 183-188: keys sharing an axis must be requested together
  if d.vals.keys.all (fun k => offAxes d.dims axes k || decide (k ∈ keys)) then
    -- 194-203
    let rest := d.vals.filter fun kv =>
      decide (kv.1 ∈ d.marg.keys) && !kv.2.issingleton && !decide (kv.1 ∈ keys)
    let scalars := d.vals.filter fun kv => decide (kv.1 ∈ d.marg.keys) && kv.2.issingleton
    -- 206-209
    if (Dict.keys scalars).all (· ∈ keys) then d.marginalise fmt (Dict.keys rest)
    else .error .assertion
  else .error .assertion

end Probayes
