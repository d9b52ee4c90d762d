/-
Model of `product` in /repo/probayes/pd_utils.py:85-328 (and `PD.__mul__`,
pd.py:564-565, which calls it), without keywords.

Simplifications: values are rationals and `np.allclose` compares them exactly
with its documented tolerances; adding two values under a unit-set key of which
one is not a set of one integer is a TypeError.
-/
import Mathlib.Algebra.Order.Ring.Unbundled.Rat
import Mathlib.Algebra.Order.Group.Abs
import Verif.Model.PD

namespace Probayes

/-- `np.isclose(a, b)` with the default tolerances. -/
def iscloseQ (a b : ℚ) : Bool := |a - b| ≤ 1 / 10 ^ 8 + 1 / 10 ^ 5 * |b|

/-- `np.allclose(a, b)` of two flat arrays (a scalar is a list of one), with
broadcasting. -/
def allclose (a b : List ℚ) : Py Bool :=
  if a.length = b.length then .ok ((a.zip b).all fun xy => iscloseQ xy.1 xy.2)
  else if a.length = 1 then .ok (b.all fun y => iscloseQ (a.headD 0) y)
  else if b.length = 1 then .ok (a.all fun x => iscloseQ x (b.headD 0))
  else .error .value

/-- pd_utils.py:216-218: a scalar, or `np.ravel` of an array (sets and other
objects make `np.allclose` raise TypeError). -/
def Val.raveled : Val → Py (List ℚ)
  | .scalar x => .ok [x]
  | .arr _ data => .ok data
  | _ => .error .type

/-- `{list(a)[0] + list(b)[0]}`. -/
def addSets : Val → Val → Py Val
  | .setint m, .setint n => .ok (.setint (m + n))
  | _, _ => .error .type

/-- `arg[key]`. -/
def PD.getItem (d : PD) (k : Str) : Py Val :=
  match Dict.get? d.vals k with
  | some v => .ok v
  | none => .error .key

/-- pd_utils.py:117-143: do all factors have the same marginal and conditional
keys and the same unit sets of integers?  The result is `marg_sets`, `none` if
the assertion at 141 fails. -/
def unitSets : List PD → Option (List Str) → Option (List Str) → Option (List Bool) →
    Py (Option (List Bool))
  | [], _, _, sets => .ok sets
  | arg :: rest, margKeys, condKeys, sets =>
      let mk := margKeys.getD arg.marg.keys
      let ck := condKeys.getD arg.cond.keys
      if mk ≠ arg.marg.keys then .ok none                                  -- 119-123
      else if ck ≠ arg.cond.keys then .ok none                             -- 124-128
      else if mk.isEmpty then unitSets rest (some mk) (some ck) sets       -- 129
      else do
        let flags ← mk.mapM fun k => do return (← arg.getItem k).isunitsetint
        match sets with
        | none => if flags.any id then unitSets rest (some mk) (some ck) (some flags)
                  else return none                                         -- 132-137
        | some ms => if ms = flags then unitSets rest (some mk) (some ck) (some ms)
                     else return none                                      -- 138-140

/-- pd_utils.py:170-185: one factor's values merged on the fast track. -/
def fastVals (sets : Option (List Bool)) (pv val : Dict Str Val) : Py (Dict Str Val) :=
  let flags := val.map fun kv => kv.2.isunitsetint
  if ¬ flags.any id then .ok (val.foldl (fun d kv => Dict.set d kv.1 kv.2) pv)
  else match sets with
    | none => .error .assertion
    | some ms =>
      if ms ≠ flags.take ms.length then .error .assertion
      else if pv.isEmpty then .ok (val.foldl (fun d kv => Dict.set d kv.1 kv.2) pv)
      else pv.keys.zipIdx.foldlM (fun acc kj =>
        match flags[kj.2]? with
        | none => .error .index
        | some false => .ok acc
        | some true => match Dict.get? acc kj.1, Dict.get? val kj.1 with
          | some a, some b => do return Dict.set acc kj.1 (← addSets a b)
          | _, _ => .error .key) pv

/-- pscales.py:180-191 `_apply_prod` on arrays, with broadcasting. -/
noncomputable def applyProdArr (useLogp : Bool) : List Arr → Py Arr
  | [] => .error .index
  | p :: ps => ps.foldlM (fun acc q =>
      Arr.zip (fun x y => if useLogp then x + y else x * y) acc q) p

/-- pscales.py:160-216 `prod_rule` on arrays, called with
`pscale = prod_pscale(pscales)` (so that lines 194-195 and 213-214 do not apply):
factors of mixed kinds are brought to logarithms first. -/
noncomputable def prodRuleArr (args : List Arr) (pscales : List PScale) : Py Arr :=
  let u := pscales.any PScale.iscomplex
  if args.length ≠ pscales.length then .error .assertion
  else if pscales.all PScale.iscomplex || !u then applyProdArr u args
  else applyProdArr u (List.zipWith (fun a s => a.map fun x => toCommon u x s.spec) args pscales)

/-- Python `==` between two scales. -/
noncomputable def PScale.numEq : PScale → PScale → Bool
  | .lin a, .lin b => decide (a = b)
  | .log re im, .log re' im' => decide (re = re' ∧ im = im')
  | .lin a, .log re im => decide (a = re ∧ im = 0)
  | .log re im, .lin a => decide (a = re ∧ im = 0)

/-- `pscale in [0, 1.]`. -/
noncomputable def PScale.zeroOne (s : PScale) : Bool := s.numEq (.lin 0) || s.numEq (.lin 1)

/-- `prod_pscale(pscales)` of a nonempty list. -/
noncomputable def productPscale (args : List PD) : Py PScale := do
  match ← prodPscale (args.map fun a => a.pscale.spec) none with
  | some s => return s
  | none => .error .type

/-- `float(sum(probs))` or `float(np.prod(probs))` of scalar probabilities. -/
noncomputable def scalarProd (s : PScale) (args : List PD) : Arr :=
  let ps := args.map fun a => a.prob.get []
  ⟨[], fun _ => if s.iscomplex then ps.sum else ps.prod⟩

/-- `','.join(names)`. -/
def joinNames (names : List Str) : Str := [','].intercalate names

/-- pd_utils.py:164-191: the fast track for factors with the same variables. -/
noncomputable def productFast (fmt : Val → Str) (args : List PD) (first : PD) (s : PScale)
    (sets : Option (List Bool)) : Py PD := do
  let name := joinNames first.marg.vals ++ '|' :: joinNames first.cond.vals
  let pv ← args.foldlM (fun pv a => fastVals sets pv a.vals) []
  if sets.isSome then do
    let prob ← prodRuleArr (args.map PD.prob) (args.map PD.pscale)
    pdInit fmt name pv (some first.dims) prob s.spec
  else pdInit fmt name pv none (scalarProd s args) s.spec

/-- pd_utils.py:194-195. -/
def prodMarg (args : List PD) : List Str := args.flatMap fun a => a.marg.vals

/-- pd_utils.py:197-198. -/
def flatCond (args : List PD) : List Str := args.flatMap fun a => a.cond.vals

/-- pd_utils.py:199-200: conditions that are marginal variables of some factor. -/
def cond2marg (args : List PD) : List Str := (flatCond args).filter (· ∈ prodMarg args)

/-- pd_utils.py:201-202: the remaining conditions, with repetitions. -/
def prodCond (args : List PD) : List Str := (flatCond args).filter (· ∉ cond2marg args)

/-- pd_utils.py:214-222: the values of one factor for the met conditions. -/
def condValues (c2m : List Str) (st : Dict Str (List ℚ)) (arg : PD) : Py (Dict Str (List ℚ)) :=
  c2m.foldlM (fun st name =>
    match Dict.get? arg.vals name with
    | none => .ok st
    | some v => do
      let r ← v.raveled
      match Dict.get? st name with
      | none => return Dict.set st name r
      | some r0 => if ← allclose r0 r then return st else .error .value) st

/-- pd_utils.py:208-222: one factor. -/
def condCheck (args : List PD) (st : Dict Str (List ℚ)) (arg : PD) : Py (Dict Str (List ℚ)) :=
  let cs := arg.cond.vals.filter (· ∉ cond2marg args)
  if cs ≠ [] ∧ ¬ ((∀ n ∈ prodCond args, n ∈ cs) ∧ ∀ n ∈ cs, n ∈ prodCond args) then
    .error .assertion
  else condValues (cond2marg args) st arg

/-- pd_utils.py:225. -/
def prodKeys (args : List PD) : List Str := (prodMarg args ++ prodCond args).map str2key

/-- pd_utils.py:235-241: the value of the first factor having the key. -/
def firstVal (args : List PD) (k : Str) : Option Val := args.findSome? fun a => Dict.get? a.vals k

/-- pd_utils.py:238 (`prod_areunitsetints`). -/
def unitKey (args : List PD) (k : Str) : Bool := ((firstVal args k).map Val.isunitsetint).getD false

/-- pd_utils.py:243 (`prod_aresingleton`; `{0}` is a singleton as is the set it
stands for). -/
def singleKey (args : List PD) (k : Str) : Bool := ((firstVal args k).map Val.issingleton).getD false

/-- pd_utils.py:233-244: one key. -/
def prodValsStep (args : List PD) (pv : Dict Str Val) (k : Str) : Py (Dict Str Val) :=
  match firstVal args k with
  | none => .error .assertion
  | some v => .ok (Dict.set pv k (if v.isunitsetint then .setint 0 else v))

/-- pd_utils.py:245-252: add up the unit sets of one key over the factors. -/
def prodSetsStep (args : List PD) (pv : Dict Str Val) (k : Str) : Py (Dict Str Val) :=
  if unitKey args k then
    args.foldlM (fun pv a => match Dict.get? a.vals k with
      | none => .ok pv
      | some v =>
        if ¬ v.isunitsetint then .error .assertion
        else match Dict.get? pv k with
          | none => .error .key
          | some u => do return Dict.set pv k (← addSets u v)) pv
  else .ok pv

/-- pd_utils.py:254-258. -/
def dimsShared (args : List PD) : Bool :=
  args.any fun a => ¬ (a.dims.filterMap Prod.snd).Nodup

/-- pd_utils.py:269-274: one entry of a factor's dimensions. -/
def sharedEntry (keys : List Str) (k : Str) (dim : Option ℕ) (st : List Bool × List Str)
    (kd : Str × Option ℕ) : Py (List Bool × List Str) :=
  let seen := kd.1 :: st.2
  if kd.1 ≠ k ∧ kd.2.isSome ∧ dim = kd.2 then
    if kd.1 ∈ keys then .ok (st.1.set (keys.idxOf kd.1) false, seen) else .error .value
  else .ok (st.1, seen)

/-- pd_utils.py:263-274: one key of the product; the state is
`(prod_newdims, seen_keys)`. -/
def sharedStep (args : List PD) (keys : List Str) (st : List Bool × List Str) (ik : Str × ℕ) :
    Py (List Bool × List Str) :=
  if st.1.getD ik.2 false = true ∧ ik.1 ∉ st.2 then
    args.foldlM (fun st a => match Dict.get? a.dims ik.1 with
      | none => .ok st
      | some dim => a.dims.foldlM (sharedEntry keys ik.1 dim) (st.1, ik.1 :: st.2)) st
  else .ok st

/-- pd_utils.py:253-274 (`prod_newdims`). -/
def newDims (args : List PD) (keys : List Str) : Py (List Bool) :=
  let nd := keys.map fun k => !singleKey args k
  if dimsShared args then do return (← keys.zipIdx.foldlM (sharedStep args keys) (nd, [])).1
  else .ok nd

/-- `np.cumsum` of flags, starting after `n`. -/
def cumFlags (n : ℕ) : List Bool → List ℕ
  | [] => []
  | b :: l => let m := n + b.toNat; m :: cumFlags m l

/-- State of the loop pd_utils.py:289-299. -/
structure ProductState where
  dims : Dict Str (Option ℕ)
  shape : List ℕ
  vals : Dict Str Val

/-- pd_utils.py:289-299: one key with its `prod_cdims` entry (never zero for an
array: the first array key keeps its new dimension). -/
def prodDimsStep (args : List PD) (n : ℕ) (st : ProductState) (kc : Str × ℕ) : Py ProductState :=
  if singleKey args kc.1 then .ok st
  else match Dict.get? st.vals kc.1 with
    | some (.arr _ data) => .ok
        ⟨Dict.set st.dims kc.1 (some (kc.2 - 1)), st.shape.set (kc.2 - 1) data.length,
          Dict.set st.vals kc.1 (.arr (axisShape n (kc.2 - 1) data.length) data)⟩
    | _ => .error .attribute

/-- pd_utils.py:305-308: old axis to new axis. -/
def axisMap (prodDims : Dict Str (Option ℕ)) (dims : Dict Str (Option ℕ)) : Py (Dict ℕ ℕ) :=
  dims.foldlM (fun d kv => match kv.2 with
    | none => .ok d
    | some a => match (Dict.get? prodDims kv.1).join with
      | none => .error .key
      | some b => .ok (Dict.set d a b)) []

/-- pd_utils.py:316-318: `np.expand_dims(prob, -1)` up to `n` axes. -/
def expandTo (n : ℕ) (a : Arr) : Arr :=
  ⟨a.shape ++ List.replicate (n - a.shape.length) 1, fun i => a.get (i.take a.shape.length)⟩

/-- pd_utils.py:320-322. -/
def placedShape (prodShape new : List ℕ) : List ℕ :=
  new.foldl (fun s d => s.set d (prodShape.getD d 1)) (List.replicate prodShape.length 1)

/-- pd_utils.py:302-323: the probabilities of one factor on the product's axes. -/
def placeProb (prodDims : Dict Str (Option ℕ)) (prodShape : List ℕ) (arg : PD) : Py Arr :=
  if arg.prob.isscalar then .ok arg.prob
  else do
    let m ← axisMap prodDims arg.dims
    let old := Dict.keys m
    let new := Dict.vals m
    let prob ← if 1 < old.length ∧ old ≠ new then
        moveaxis (expandTo (new.foldl max 0 + 1) arg.prob) old new
      else .ok arg.prob
    reshape (placedShape prodShape new) prob

/-- pd_utils.py:196, 229-231. -/
def productName (args : List PD) : Str :=
  let c := joinNames (prodCond args)
  if c = [] then joinNames (prodMarg args) else joinNames (prodMarg args) ++ '|' :: c

/-- pd_utils.py:193-328: the general case. -/
noncomputable def productGeneral (fmt : Val → Str) (args : List PD) (s : PScale)
    (maybeFast : Bool) : Py PD := do
  let _ ← args.foldlM (condCheck args) []
  let keys := prodKeys args
  let pv ← keys.foldlM (prodValsStep args) []
  let pv ← keys.foldlM (prodSetsStep args) pv
  let nd ← newDims args keys
  let cdims := cumFlags 0 nd
  match cdims.getLast? with
  | none => .error .index                                                     -- 277
  | some n =>
    if maybeFast ∧ n = 0 then                                                 -- 280-282
      pdInit fmt (productName args) pv none (scalarProd s args) s.spec
    else do
      let st ← (keys.zip cdims).foldlM (prodDimsStep args n) ⟨[], List.replicate n 1, pv⟩
      let probs ← args.mapM (placeProb st.dims st.shape)
      let prob ← prodRuleArr probs (args.map PD.pscale)
      pdInit fmt (productName args) st.vals (some st.dims) prob s.spec

/-- pd_utils.py:85-328 (`None` for no factors). -/
noncomputable def product (fmt : Val → Str) : List PD → Py (Option PD)
  | [] => .ok none
  | first :: rest => do
    let args := first :: rest
    let s ← productPscale args
    let fast := args.all (fun a => a.dist.issingleton) && args.all (fun a => s.numEq a.pscale)
      && s.zeroOne
    let r ← if ¬ (args.flatMap fun a => a.marg.keys).Nodup then do           -- 112-144
        match ← unitSets args none none none with
        | none => .error .assertion
        | some sets => productFast fmt args first s (some sets)
      else if fast ∧ args.all (fun a => a.marg.vals = first.marg.vals) ∧
          (args.all (fun a => a.cond.isEmpty) ∨
            args.all (fun a => a.cond.vals = first.cond.vals)) then          -- 147-163
        productFast fmt args first s none
      else productGeneral fmt args s fast
    return some r

end Probayes
