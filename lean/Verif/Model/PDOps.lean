/-
Model of the simpler operations of /repo/probayes/pd.py: `rekey` (320-329, with
distribution.py:265-283), `prod` (332-370), `expectation` (373-405), `sorted`
(464-493) and `rescaled` (496-499).

`keys` is the list of given keys (a single string is a list of one).
-/
import Verif.Model.PDMarg

namespace Probayes

/-! ### rescaled -/

/-- pd.py:496-499. -/
noncomputable def PD.rescaled (fmt : Val → Str) (d : PD) (t : PSpec) : Py PD := do
  let prob ← rescaleArr d.prob d.pscale.spec t
  pdInit fmt d.name d.vals (some d.dims) prob t

/-! ### sorted -/

/-- `l[ix]` for an integer index array (IndexError if out of range). -/
def gather {α : Type _} (l : List α) (ix : List ℕ) : Py (List α) :=
  ix.mapM fun i => match l[i]? with
    | some x => (.ok x : Py α)
    | none => .error .index

/-- `a[:, ..., ix, ..., :]`: an index array on axis `ax`, all of the others. -/
def gatherAxis (a : Arr) (ax : ℕ) (ix : List ℕ) : Py Arr :=
  match a.shape[ax]? with
  | none => .error .index
  | some n =>
    if ix.all (· < n) then
      .ok ⟨a.shape.set ax ix.length, fun j => a.get (j.set ax (ix.getD (j.getD ax 0) 0))⟩
    else .error .index

/-- pd.py:485-491: one iteration.  (`keyval` of line 489 is `ravals[keyidx]`, the
same expression as line 491 for the sorted key itself.)  `np.ravel` of something
other than an array does not occur on an axis. -/
def sortStep (d : PD) (dim : ℕ) (ix : List ℕ) (kv : Str × Val) : Py (Str × Val) := do
  let o ← dimOf d.dims kv.1
  if o ≠ some dim then return kv
  else match kv.2 with
    | .arr _ data => do
        let data' ← gather data ix
        return (kv.1, .arr [ix.length] data')
    | _ => .error .index

/-- pd.py:464-493.  `argsort` is `np.argsort`. -/
noncomputable def PD.sorted (fmt : Val → Str) (argsort : List ℚ → List ℕ) (d : PD) (key : Str) :
    Py PD := do
  match ← dimOf d.dims key with
  | none => pdInit fmt d.name d.vals (some d.dims) d.prob d.pscale.spec      -- 469-471
  | some dim =>
    match Dict.get? d.vals key with
    | some (.arr _ ravals) => do
        let ix := argsort ravals
        let prob ← gatherAxis d.prob dim ix
        let vals ← d.vals.mapM (sortStep d dim ix)
        pdInit fmt d.name vals (some d.dims) prob d.pscale.spec
    | _ => .error .key

/-! ### prod -/

/-- State of the loop pd.py:346-358. -/
structure ProdState where
  marg : Dict Str Str
  vals : Dict Str Val
  dims : Dict Str (Option ℕ)
  delta : ℕ
  axes : List ℕ

/-- pd.py:346-358: one iteration. -/
def prodStep (d : PD) (keys : List Str) (st : ProdState) (kv : Str × Val) : Py ProdState :=
  if kv.1 ∈ keys then
    match kv.2 with
    | .arr (_ :: _) data => do
        let o ← dimOf d.dims kv.1
        match o with
        | none => .error .type     -- index by `None`: not reached for constructed PDs
        | some a =>
          let fresh := !decide (a ∈ st.axes)                                -- 350
          return ⟨Dict.set st.marg kv.1 (kv.1 ++ "={}".toList),
            st.vals ++ [(kv.1, .setint data.length)], st.dims,
            if fresh then st.delta + 1 else st.delta,
            if fresh then st.axes ++ [a] else st.axes⟩
    | _ => .error .assertion                                                -- 348-349
  else if kv.2.issingleton then
    .ok ⟨st.marg, st.vals ++ [kv], st.dims, st.delta, st.axes⟩
  else do
    let o ← dimOf d.dims kv.1
    let a ← shiftDim o st.delta                                             -- 357
    return ⟨st.marg, st.vals ++ [kv], Dict.set st.dims kv.1 (some a), st.delta, st.axes⟩

/-- `pscale not in [0., 1.]` (pd.py:362). -/
noncomputable def PScale.plain : PScale → Bool
  | .lin c => decide (c = 0 ∨ c = 1)
  | .log re im => decide ((re = 0 ∨ re = 1) ∧ im = 0)

/-- pd.py:360-367; `n` is `pscale_scaling`. -/
noncomputable def prodScale (s : PScale) (n : ℕ) : PScale :=
  if s.plain then s
  else match s with
    | .lin c => .lin (c * c ^ n)
    | .log re im => .log (re + re * n) (im + im * n)

/-- pd.py:332-370. -/
noncomputable def PD.prod (fmt : Val → Str) (d : PD) (keys : List Str) : Py PD :=
  if keys.all (· ∈ d.marg.keys) then do
    let st ← d.vals.foldlM (prodStep d keys) ⟨d.marg, [], [], 0, []⟩
    let n := (st.axes.map (d.shape.getD · 0)).prod
    let prob ← (if d.pscale.iscomplex then sumAxes st.axes d.prob else prodAxes st.axes d.prob)
    pdInit fmt (margcondStr st.marg d.cond) st.vals (some st.dims) prob (prodScale d.pscale n).spec
  else .error .assertion

/-! ### expectation -/

/-- An array of values as an array of floats. -/
noncomputable def valArr (s : List ℕ) (data : List ℚ) : Arr :=
  ⟨s, fun i => ((data.getD (ravelIx s i) 0 : ℚ) : ℝ)⟩

/-- `self[key] if not exponent else self[key]**exponent` (natural exponents;
sets and other objects raise TypeError). -/
def Val.pow (v : Val) (exponent : Option ℕ) : Py Val :=
  match exponent with
  | none | some 0 => .ok v
  | some e => match v with
    | .scalar x => .ok (.scalar (x ^ e))
    | .arr s data => .ok (.arr s (data.map (· ^ e)))
    | _ => .error .type

/-- An entry of the result of `expectation`. -/
inductive Expt where
  | given (v : Val)
  | mean (a : Arr)

/-- pscales.py:219-236 without scales, on arrays. -/
noncomputable def divArr (x y : Arr) : Py Arr := Arr.zip (fun a b => a / max npz b) x y

/-- pd.py:394-404: one iteration. -/
noncomputable def exptStep (d : PD) (keys : List Str) (exponent : Option ℕ) (axes : List ℕ)
    (prob sumProb : Arr) (acc : Dict Str Expt) (kv : Str × Val) : Py (Dict Str Expt) :=
  if kv.1 ∈ keys then do
    let v ← kv.2.pow exponent
    if kv.2.issingleton then return acc ++ [(kv.1, .given v)]
    else match v with
      | .arr s data => do
          let w ← Arr.zip (· * ·) prob (valArr s data)
          let num ← sumAxes axes w
          let q ← divArr num sumProb
          return acc ++ [(kv.1, .mean q)]
      | _ => .error .type
  else if kv.1 ∈ d.cond.keys then .ok (acc ++ [(kv.1, .given kv.2)])
  else .ok acc

/-- pd.py:381-387: the axes of the keys. -/
def exptAxes (d : PD) (keys : List Str) : Py (List ℕ) :=
  d.vals.foldlM (fun acc kv =>
    if kv.1 ∈ keys then do
      match ← dimOf d.dims kv.1 with
      | some a => return acc ++ [a]
      | none => return acc
    else .ok acc) []

/-- pd.py:373-405.  No keys, or none given, means all marginal keys. -/
noncomputable def PD.expectation (d : PD) (keys : Option (List Str)) (exponent : Option ℕ) :
    Py (Dict Str Expt) :=
  let keys := match keys with
    | none | some [] => d.marg.keys
    | some ks => ks
  if keys.all (· ∈ d.marg.keys) then do
    let axes ← exptAxes d keys
    let prob ← rescaleArr d.prob d.pscale.spec (.flt 1)
    let sumProb ← (if axes.isEmpty then (.ok ⟨[], fun _ => sumAll prob⟩ : Py Arr)
      else sumAxes axes prob)
    d.vals.foldlM (exptStep d keys exponent axes prob sumProb) []
  else .error .assertion

/-! ### rekey -/

/-- distribution.py:272-282: one iteration; state is `(vals, dims)`. -/
def rekeyStep (d : PD) (keymap : Dict Str Str)
    (acc : Dict Str Val × Dict Str (Option ℕ)) (kv : Str × Val) :
    Py (Dict Str Val × Dict Str (Option ℕ)) := do
  let o ← dimOf d.dims kv.1
  match Dict.get? keymap kv.1 with
  | none => return (Dict.set acc.1 kv.1 kv.2, Dict.set acc.2 kv.1 o)
  | some mk =>
    if mk ∈ acc.1.keys then .error .assertion
    else return (Dict.set acc.1 mk kv.2, Dict.set acc.2 mk o)

/-- pd.py:320-329. -/
noncomputable def PD.rekey (fmt : Val → Str) (d : PD) (keymap : Dict Str Str) : Py PD := do
  let vd ← d.vals.foldlM (rekeyStep d keymap) ([], [])
  let dist ← distDims vd.1 (some vd.2)                        -- Distribution(...)
  let marg ← rekeyDict d.marg keymap
  let cond ← rekeyDict d.cond keymap
  pdInit fmt (margcondStr marg cond) dist.vals (some dist.dims) d.prob d.pscale.spec

end Probayes
