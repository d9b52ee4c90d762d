/-
Model of slicing by values, /repo/probayes/pd.py:502-561 (`PD.__call__` with a
dictionary; the string call is `lookup`, not modelled here).

`self._prob[()]` of a scalar probability is the probability (as for numpy floats;
a plain Python float raises TypeError).
-/
import Verif.Model.PDMarg

namespace Probayes

/-- An entry of the index tuple built by `__call__`. -/
inductive Slice where
  /-- `slice(None)` -/
  | all
  /-- `slice(0, 0)` -/
  | empty
  /-- an integer -/
  | at (n : ℕ)
  /-- an integer array -/
  | ix (l : List ℕ)
deriving DecidableEq

namespace Slice
/-- Is the entry an index array? -/
def isIx : Slice → Bool
  | .ix _ => true
  | _ => false

/-- Is the entry a slice (not an integer or index array)? -/
def basic : Slice → Bool
  | .all | .empty => true
  | _ => false

/-- In range for an axis of size `m`? -/
def inRange (m : ℕ) : Slice → Bool
  | .all | .empty => true
  | .at n => n < m
  | .ix l => l.all (· < m)
end Slice

/-- Sizes of the axes indexed by slices. -/
def basicShape : List Slice → List ℕ → List ℕ
  | .all :: s, m :: t => m :: basicShape s t
  | .empty :: s, _ :: t => 0 :: basicShape s t
  | _ :: s, _ :: t => basicShape s t
  | _, _ => []

/-- The index of the source: `q` is the position along the broadcast index arrays,
`j` the index along the axes indexed by slices. -/
def sourceIx (q : ℕ) : List Slice → List ℕ → List ℕ
  | [], _ => []
  | .at n :: s, j => n :: sourceIx q s j
  | .ix l :: s, j => l.getD (if l.length = 1 then 0 else q) 0 :: sourceIx q s j
  | .all :: s, i :: j => i :: sourceIx q s j
  | .empty :: s, i :: j => i :: sourceIx q s j
  | _ :: s, [] => 0 :: sourceIx q s []

/-- Common length of the index arrays (broadcasting lengths one). -/
def ixLength : List Slice → Py ℕ
  | [] => .ok 1
  | .ix l :: s => do
      let n ← ixLength s
      if l.length = n ∨ n = 1 then return l.length
      else if l.length = 1 then return n
      else .error .index
  | _ :: s => ixLength s

/-- Position of the broadcast axis in the result: after the slices that precede the
first integer or index array if all integers and index arrays are next to each
other, otherwise in front. -/
def ixPlace (s : List Slice) : ℕ :=
  let pre := s.takeWhile Slice.basic
  let mid := (s.drop pre.length).takeWhile (fun x => !x.basic)
  let post := s.drop (pre.length + mid.length)
  if post.all Slice.basic then pre.length else 0

/-- `a[tuple(slices)]` (numpy indexing documentation): integers remove their axis;
with index arrays present, integers and index arrays are broadcast together to
one axis. -/
def Arr.index (a : Arr) (s : List Slice) : Py Arr :=
  if s.length ≠ a.shape.length then .error .index
  else if !((s.zip a.shape).all fun p => p.1.inRange p.2) then .error .index
  else if s.any Slice.isIx then do
    let n ← ixLength s
    let p := ixPlace s
    return ⟨(basicShape s a.shape).insertIdx p n,
      fun j => a.get (sourceIx (j.getD p 0) s (j.eraseIdx p))⟩
  else .ok ⟨basicShape s a.shape, fun j => a.get (sourceIx 0 s j)⟩

/-- `v[ix]` for an array of values: an index array on axis 0. -/
def Val.takeRows (v : Val) (ix : List ℕ) : Py Val :=
  match v with
  | .arr (m :: t) data =>
      if ix.all (· < m) then
        .ok (.arr (ix.length :: t) (ix.flatMap fun i => (data.drop (i * t.prod)).take t.prod))
      else .error .index
  | _ => .error .index

/-- Positions of the values equal to `x` (`np.nonzero(match)[0]`). -/
def matching (data : List ℚ) (x : ℚ) : List ℕ :=
  (List.range data.length).filter fun i => data[i]? = some x

/-- State of the loop pd.py:521-557. -/
structure CallState where
  marg : Dict Str Str
  cond : Dict Str Str
  dims : Dict Str (Option ℕ)
  vals : Dict Str Val
  slices : List Slice
  delta : ℕ

/-- pd.py:550-554: the new text of the sliced key. -/
def CallState.retext (st : CallState) (k : Str) (s : Str) : CallState :=
  if k ∈ st.marg.keys then { st with marg := Dict.set st.marg k (k ++ '=' :: s) }
  else if k ∈ st.cond.keys then { st with cond := Dict.set st.cond k (k ++ '=' :: s) }
  else st

/-- pd.py:545-549: variables sharing the axis are taken along. -/
def callShared (d : PD) (values : Dict Str Val) (dim : ℕ) (ix : List ℕ) (vals : Dict Str Val) :
    Py (Dict Str Val) :=
  d.vals.foldlM (fun acc kv => do
    let o ← dimOf d.dims kv.1
    if o = some dim ∧ kv.1 ∉ values.keys then
      let w ← kv.2.takeRows ix
      return Dict.set acc kv.1 w
    else return acc) vals

/-- pd.py:524-554: a key with a given value. -/
def callKey (fmt : Val → Str) (d : PD) (values : Dict Str Val) (keepdims : Bool) (st : CallState)
    (k : Str) (data : List ℚ) (v : Val) (dim : ℕ) (x : Val) : Py CallState :=
  match x with
  | .scalar q =>
      match matching data q with
      | [] => .ok (CallState.retext { st with slices := st.slices.set dim .empty,
                                              vals := Dict.set st.vals k (.arr [0] []) } k (fmt x))
      | [n] =>
          if !keepdims then
            .ok (CallState.retext { st with
              delta := st.delta + 1
              slices := st.slices.set dim (.at n)
              vals := Dict.set st.vals k x
              dims := Dict.set st.dims k none } k (fmt x))
          else do
            let w ← v.takeRows [n]
            let vals ← callShared d values dim [n] (Dict.set st.vals k w)
            return CallState.retext { st with slices := st.slices.set dim (.ix [n]), vals := vals } k "[]".toList
      | ix => do
            let w ← v.takeRows ix
            let vals ← callShared d values dim ix (Dict.set st.vals k w)
            return CallState.retext { st with slices := st.slices.set dim (.ix ix), vals := vals } k "[]".toList
  | _ => .error .assertion                                              -- 526-528

/-- pd.py:521-557: one iteration. -/
def callStep (fmt : Val → Str) (d : PD) (values : Dict Str Val) (keepdims : Bool) (st : CallState)
    (kv : Str × Val) : Py CallState :=
  if kv.2.issingleton then .ok st
  else do
    let o ← dimOf d.dims kv.1
    match Dict.get? values kv.1 with
    | some x =>
        match o, kv.2 with
        | some dim, .arr _ data => callKey fmt d values keepdims st kv.1 data kv.2 dim x
        | _, _ => .error .type        -- not reached for constructed PDs
    | none =>
        if st.delta = 0 then .ok st
        else do
          let a ← shiftDim o st.delta                                   -- 556-557
          return { st with dims := Dict.set st.dims kv.1 (some a) }

/-- pd.py:502-561.  (The message of the assertion of line 516 raises TypeError.) -/
noncomputable def PD.call (fmt : Val → Str) (d : PD) (values : Dict Str Val) (keepdims : Bool) : Py PD :=
  if values.keys.all (· ∈ d.keylist) then do
    let st ← d.vals.foldlM (callStep fmt d values keepdims)
      ⟨d.marg, d.cond, d.dims, d.vals, List.replicate d.ndim .all, 0⟩
    let prob ← d.prob.index st.slices
    pdInit fmt (margcondStr st.marg st.cond) st.vals (some st.dims) prob d.pscale.spec
  else .error .type

end Probayes
