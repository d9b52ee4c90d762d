/-
Model of `remarginalise` in /repo/probayes/pd.py:618-689.

The mapping is a dictionary (lines 632-641: a single positional dictionary or
keywords).  Its values are numpy arrays of rationals; Python scalars have no
`shape` (AttributeError at line 646).
-/
import Verif.Model.PDQuant

namespace Probayes

/-- `np.all(np.array(s) == np.array(t))` for two shapes: compared elementwise with
broadcasting; shapes of other ranks cannot be broadcast (ValueError; older
versions of numpy return False and line 646 raises AssertionError). -/
def shapesAgree (s t : List ℕ) : Py Bool :=
  if s.length = t.length then .ok (s == t)
  else match s, t with
    | [m], t => .ok (t.all (· == m))
    | s, [n] => .ok (s.all (· == n))
    | _, _ => .error .value

/-- pd.py:644-649: one iteration. -/
def remCheck (d : PD) (bins : Dist) (kv : Str × Val) : Py Unit := do
  match ← dimOf bins.dims kv.1 with
  | none => return ()
  | some _ =>
    match kv.2 with
    | .arr s _ => do
        let ok ← shapesAgree s d.shape
        if !ok then .error .assertion
        else if kv.1 ∈ bins.vals.keys then return ()
        else .error .assertion
    | _ => .error .attribute

/-- `np.array(np.ravel(v), dtype=float)` (TypeError for sets and other objects). -/
def ravelVal : Val → Py (List ℚ)
  | .scalar x => .ok [x]
  | .arr _ data => .ok data
  | _ => .error .type

/-- pd.py:658-659: the bin of one value. -/
noncomputable def binOf (edges : List ℚ) (x : ℚ) : Py ℕ := do
  let n ← npDigitize x (edges.map fun (e : ℚ) => (e : ℝ))
  return max 0 (min (edges.length - 1) (n - 1))

/-- `d[k]` (KeyError if absent). -/
def getVal (vals : Dict Str Val) (k : Str) : Py Val :=
  match Dict.get? vals k with
  | some v => .ok v
  | none => .error .key

/-- pd.py:654-659: one iteration.  `indices` starts with uninitialised arrays,
shown as `none`. -/
noncomputable def remBins (bins : Dist) (mapping : Dict Str Val) (ix : List (Option (List ℕ)))
    (kd : Str × Option ℕ) : Py (List (Option (List ℕ))) :=
  match kd.2 with
  | none => .ok ix
  | some a => do
      let edges ← ravelVal (← getVal bins.vals kd.1)
      let xs ← ravelVal (← getVal mapping kd.1)
      let bs ← xs.mapM (binOf edges)
      if a < ix.length then return ix.set a (some bs) else .error .index

/-- pd.py:665: `tuple([idx[i] for idx in indices])`.  An axis on which no variable
lies is never assigned (not reached for constructed distributions). -/
def remTarget (ix : List (Option (List ℕ))) (n : ℕ) : Py (List ℕ) :=
  ix.mapM fun l => match l.bind (·[n]?) with
    | some b => .ok b
    | none => .error .index

/-- pd.py:662-666: `rem_prob[rem_idx] += rav_prob[i]` for all `i`. -/
noncomputable def remAccumulate (shape : List ℕ) (targets : List (List ℕ)) (rav : List ℝ) : Py Arr :=
  if targets.all (· ∈ idx shape) then
    .ok ⟨shape, fun j => ((targets.zip rav).map fun tp => if tp.1 = j then tp.2 else 0).sum⟩
  else .error .index

/-- pd.py:671-677: the text for a variable in the name. -/
def remText (fmt : Val → Str) (kv : Str × Val) : Str :=
  match kv.2 with
  | .scalar _ => eqText fmt kv.1 kv.2
  | _ => kv.1 ++ "=[]".toList

/-- pd.py:671-680.  `name.split('|')[1]` exists when `'|'` occurs. -/
def remName (fmt : Val → Str) (d : PD) (bins : Dist) : Str :=
  let name := [','].intercalate (bins.vals.map (remText fmt))
  if '|' ∈ d.name then name ++ (d.name.splitOn '|').getD 1 [] else name

/-- pd.py:681-685: one iteration; state is `(rem_vals, rem_dims)`. -/
def remCond (d : PD) (st : Dict Str Val × Dict Str (Option ℕ)) (k : Str) :
    Py (Dict Str Val × Dict Str (Option ℕ)) := do
  let v ← getVal d.vals k
  let o ← dimOf d.dims k
  return (Dict.set st.1 k v, Dict.set st.2 k o)

/-- pd.py:618-689. -/
noncomputable def PD.remarginalise (fmt : Val → Str) (d : PD) (bins : Dist)
    (mapping : Dict Str Val) : Py PD :=
  if d.dist.issingleton then .error .assertion                              -- 625-626
  else do
    let _ ← mapping.mapM (remCheck d bins)                                  -- 644-649
    let ix ← bins.dims.foldlM (remBins bins mapping) (bins.shape.map fun _ => none)
    let prob ← rescaleArr d.prob d.pscale.spec (.flt 1)                     -- 662
    let targets ← (List.range d.dist.size).mapM (remTarget ix)
    let rem ← remAccumulate bins.shape targets prob.ravel
    let vd ← d.cond.keys.foldlM (remCond d) (bins.vals, bins.dims)
    let rem ← rescaleArr rem (.flt 1) d.pscale.spec
    pdInit fmt (remName fmt d bins) vd.1 (some vd.2) rem d.pscale.spec

end Probayes
