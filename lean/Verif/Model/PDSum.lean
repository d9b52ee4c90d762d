/-
Model of `summate` in /repo/probayes/pd_utils.py:332-411 (`PD.__add__` in pd.py:568-569
calls it with two distributions).
-/
import Verif.Model.PDRemarg

namespace Probayes

/-- `sum_vals[key]` while it is being accumulated: an integer or a list. -/
inductive SumVal where
  | count (n : ℤ)
  | list (l : List Val)

/-- `{key: isunitsetint(args[0][key]) for key in sum_keys}` (pd_utils.py:366;
KeyError for an unknown key). -/
def sumUnits (first : PD) (keys : List Str) : Py (Dict Str Bool) :=
  keys.foldlM (fun acc k => do
    let v ← getVal first.vals k
    return Dict.set acc k v.isunitsetint) []

/-- pd_utils.py:371-379: one variable of one distribution. -/
def sumStep (units : Dict Str Bool) (st : Dict Str SumVal) (kv : Str × Val) : Py (Dict Str SumVal) :=
  match Dict.get? units kv.1, Dict.get? st kv.1 with
  | some true, some (.count n) =>
      match kv.2 with
      | .setint m => .ok (Dict.set st kv.1 (.count (n + m)))
      | _ => .error .assertion
  | some false, some (.list l) =>
      match kv.2 with
      | .setint _ => .error .assertion
      | v => .ok (Dict.set st kv.1 (.list (l ++ [v])))
  | _, _ => .error .key

/-- An element of a list passed to `np.ravel`.  Sets of a float give an array of
objects; these are outside the model and shown as a TypeError. -/
def ravelElem : Val → Py ℚ
  | .scalar x => .ok x
  | .arr [] [x] => .ok x
  | _ => .error .type

/-- pd_utils.py:381-385: the final value of a variable. -/
def sumFinal (kv : Str × SumVal) : Py (Str × Val) :=
  match kv.2 with
  | .count n => .ok (kv.1, .setint n)
  | .list l => do
      let xs ← l.mapM ravelElem
      return (kv.1, .arr [xs.length] xs)

/-- `np.ravel` of the list of probabilities (pd_utils.py:380, 386), each a scalar. -/
def sumProb (args : List PD) : Arr :=
  ⟨[args.length], fun i => ((args.map fun a => a.prob.get [])[i.getD 0 0]?).getD 0⟩

/-- The initial value of a variable (pd_utils.py:368). -/
def sumInit (unit : Bool) : SumVal := if unit then .count 0 else .list []

/-- pd_utils.py:356-359: the name. -/
def sumName (mk ck : List Str) : Str :=
  let m := [','].intercalate mk
  if ck = [] then m else m ++ '|' :: [','].intercalate ck

/-- pd_utils.py:365-387: only scalars. -/
noncomputable def sumSingletons (fmt : Val → Str) (first : PD) (args : List PD) : Py PD := do
  let keys := first.marg.keys ++ first.cond.keys
  let units ← sumUnits first keys
  let dims := units.map fun kv => (kv.1, if kv.2 then none else some 0)
  let st ← args.foldlM (fun st a => a.vals.foldlM (sumStep units) st)
    (units.map fun kv => (kv.1, sumInit kv.2))
  let vals ← st.mapM sumFinal
  pdInit fmt (sumName first.marg.keys first.cond.keys) vals (some dims) (sumProb args) first.pscale.spec

open Classical in
/-- pd_utils.py:332-411; `None` is `none`.  Otherwise than for scalars,
`arg.singleton(key)` (line 398) refers to an attribute `_keys` that does not exist
(distribution.py:205), and without a second distribution or a marginal variable the
assertion at line 403 fails. -/
noncomputable def summate (fmt : Val → Str) : List PD → Py (Option PD)
  | [] => .ok none                                                          -- 335-336
  | first :: rest =>
      if ¬ ∀ a ∈ rest, first.pscale = a.pscale then .error .assertion       -- 342-345
      else if ¬ ∀ a ∈ rest, first.marg.keys = a.marg.keys ∧ first.cond.keys = a.cond.keys then
        .error .assertion                                                   -- 348-354
      else if ∀ a ∈ first :: rest, a.dist.issingleton = true then
        (sumSingletons fmt first (first :: rest)).map some                  -- 362-387
      else if rest ≠ [] ∧ first.marg.keys ≠ [] then .error .attribute       -- 391-402
      else .error .assertion                                                -- 403

end Probayes
