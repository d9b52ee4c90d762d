/-
Model of /repo/probayes/rv.py: calling a discrete (non-boolean) random variable
and stepping it (`RV.__call__`, `RV.step`, `RV.eval_step`, `RV.eval_tran`,
`RV.eval_prob`, `RV.eval_dist_name`).  Values are rationals, probabilities reals.
Random draws are parameters.
-/
import Mathlib.Data.Rat.Defs
import Mathlib.Algebra.Order.Ring.Rat
import Verif.Model.RV
import Verif.Model.Variable
import Verif.Model.PD

namespace Probayes

/-- What is asked of a variable: `None`, `{n}`, a scalar or a one-dimensional
array.  Other requests (lists, larger arrays) are not modelled. -/
inductive Req where
  | all
  | count (n : ℤ)
  | scalar (x : ℚ)
  | array (xs : List ℚ)

/-- What successor is asked for: `{n}`, `{u}`, a scalar or an array. -/
inductive SReq where
  | unitInt (n : ℤ)
  | unitFlt (u : ℝ)
  | scalar (x : ℚ)
  | array (xs : List ℚ)

/-- What `set_prob` was given: a number, an array, or a callable of the values. -/
inductive RVProb where
  | scalar (p : ℝ)
  | table (ps : List ℝ)
  | fn (f : VArg ℚ → Py Arr)

/-- What `set_tran` was given: nothing, a number, a matrix, a pair of matrices
(forward, reverse), or a callable of predecessor and successor. -/
inductive RVTran where
  | none
  | scalar (p : ℝ)
  | matrix (m : List (List ℝ))
  | pair (fwd rev : List (List ℝ))
  | fn (f : VArg ℚ → VArg ℚ → Py Arr)

/-- A discrete random variable, not boolean, without `pfun` and `tfun`.
`delta` is the effect of `apply_delta(·, eval_delta())` on a value (modelled in
Variable.lean), `none` when no delta is set. -/
structure DRV where
  name : Str
  vset : List ℚ
  pscale : PSpec
  prob : RVProb
  tran : RVTran
  delta : Option (ℚ → ℚ)

namespace VArg
/-- The shape contributed: nothing for a scalar, the length of an array. -/
def sizes {α : Type} : VArg α → List ℕ
  | .scalar _ => []
  | .array xs => [xs.length]

/-- Entry at an index list of that shape. -/
def entry {α : Type} : VArg α → List ℕ → Option α
  | .scalar x, [] => some x
  | .array xs, [i] => xs[i]?
  | _, _ => none

/-- Apply to every value. -/
def map {α β : Type} (f : α → β) : VArg α → VArg β
  | .scalar x => .scalar (f x)
  | .array xs => .array (xs.map f)

/-- The value of a distribution. -/
def toVal : VArg ℚ → Val
  | .scalar x => .scalar x
  | .array xs => .arr [xs.length] xs

/-- `isscalar`. -/
def isscalar {α : Type} : VArg α → Bool
  | .scalar _ => true
  | .array _ => false
end VArg

/-- variable.py:537-566 for a discrete variable: the values asked for.  Scalars
and arrays are returned as they are, members of the set or not.  `r` and `perm`
are the draws. -/
def DRV.evaluate (v : DRV) (req : Req) (r : ℕ) (perm : List ℕ) : Py (VArg ℚ) :=
  match req with
  | .all => .ok (.array v.vset)
  | .count n =>
      match evaluateD false v.vset (some n) r perm with
      | .error e => .error e
      | .ok (.scalar x) => .ok (.scalar x)
      | .ok (.array xs) => .ok (.array xs)
  | .scalar x => .ok (.scalar x)
  | .array xs => .ok (.array xs)

/-- rv.py:322-333. -/
def distName (fmt : Val → Str) (name : Str) : Req → Str
  | .all => name
  | .scalar x => eqText fmt name (.scalar x)
  | _ => name ++ "=[]".toList

/-- One-dimensional array of numbers. -/
def listArr (xs : List ℝ) : Arr := ⟨[xs.length], fun i => xs.getD (i.headD 0) 0⟩

/-- rv.py:305-320 and prob.py:331-375: the probabilities of the values.  Array
probabilities are not callable, so no values may be passed. -/
noncomputable def DRV.evalProb (v : DRV) (vals : VArg ℚ) : Py Arr :=
  match v.prob with
  | .scalar p =>
      match vals with
      | .scalar x => do
          let q ← rvEvalProb (insideD v.vset) p v.pscale x
          return ⟨[], fun _ => q⟩
      | .array xs => do
          let qs ← rvEvalProbArr (insideD v.vset) p v.pscale xs
          return listArr qs
  | .table _ => .error .assertion
  | .fn f => f vals

/-- rv.py:495-501. -/
noncomputable def DRV.call (fmt : Val → Str) (v : DRV) (req : Req) (r : ℕ) (perm : List ℕ) :
    Py PD := do
  let vals ← v.evaluate req r perm
  let prob ← v.evalProb vals
  let dims : Dict Str (Option ℕ) := [(v.name, if vals.isscalar then none else some 0)]
  pdInit fmt (distName fmt v.name req) [(v.name, vals.toVal)] (some dims) prob v.pscale

/-- The key of the successor. -/
def DRV.prime (v : DRV) : Str := v.name ++ ['\'']

/-- rv.py:350-360: the default successor. -/
def DRV.defaultSucc (v : DRV) (pred : VArg ℚ) : Option SReq → Py SReq
  | some s => .ok s
  | none =>
      match v.tran with
      | .none => .error .assertion
      | _ => match v.delta with
        | none => match pred with
          | .scalar _ => .ok (.unitInt 0)
          | .array xs => .ok (.array xs)
        | some f => match pred with
          | .scalar x => .ok (.scalar (f x))
          | .array xs => .ok (.array (xs.map f))

/-- rv.py:410-411, 472-473: the matrix for the direction. -/
def RVTran.mat (t : RVTran) (reverse : Bool) : Option (List (List ℝ)) :=
  match t with
  | .matrix m => some m
  | .pair f r => some (if reverse then r else f)
  | _ => Option.none

/-- rv.py:386-420 and 424-428 for a discrete variable: the successor values, with
the positions used if it was sampled from a matrix. -/
noncomputable def DRV.succVals (v : DRV) (pred : VArg ℚ) (succ : SReq) (reverse : Bool) (r : ℕ)
    (perm : List ℕ) (u : ℝ) : Py (VArg ℚ × Option (ℕ × ℕ)) :=
  match v.tran.mat reverse with
  | some m =>
      let sample (req : SuccReq) : Py (VArg ℚ × Option (ℕ × ℕ)) :=
        match pred with
        | .array _ => .error .assertion
        | .scalar x => do
            let (s, i, j) ← matrixCondSample x req m v.vset u
            return (.scalar s, some (i, j))
      match succ with
      | .unitInt n => sample (.int n)
      | .unitFlt w => sample (.flt w)
      | .scalar x => .ok (.scalar x, none)
      | .array xs => .ok (.array xs, none)
  | none =>
      match v.tran, succ with
      | .fn _, .unitInt _ => .error .assertion
      | .fn _, .unitFlt _ => .error .assertion
      | _, .unitInt n => do
          let s ← v.evaluate (.count n) r perm
          return (s, none)
      | _, .unitFlt _ => .error .assertion
      | _, .scalar x => .ok (.scalar x, none)
      | _, .array xs => .ok (.array xs, none)

/-- The result of a lookup as an array. -/
def LookupOut.toArr (rows cols : ℕ) : LookupOut → Arr
  | .scalar x => ⟨[], fun _ => x⟩
  | .vec xs => listArr xs
  | .mat xss => ⟨[rows, cols], fun i => (xss.getD (i.headD 0) []).getD (i.getD 1 0) 0⟩

/-- The value at a position, by the index lists of successor and predecessor. -/
def outer (succ pred : VArg ℚ) (f : ℚ → ℚ → ℝ) : Arr :=
  ⟨succ.sizes ++ pred.sizes, fun i =>
    match succ.entry (i.take succ.sizes.length), pred.entry (i.drop succ.sizes.length) with
    | some s, some p => f s p
    | _, _ => 0⟩

/-- rv.py:449-492, and rv.py:533-537 when there is no transition.  Arrays of
predecessor and successor are broadcast against each other, the successor on the
outer axis (rv.py:363-384). -/
noncomputable def DRV.evalTran (v : DRV) (pred succ : VArg ℚ) (idx : Option (ℕ × ℕ)) (reverse : Bool) :
    Py Arr :=
  match v.tran.mat reverse with
  | some m =>
      match idx with
      | some (i, j) => do
          let x ← matEntry m j i
          return ⟨[], fun _ => x⟩
      | none => do
          let out ← lookupSquareMatrix pred succ m v.vset
          return out.toArr (succ.sizes.headD 0) (pred.sizes.headD 0)
  | none =>
      match v.tran with
      | .scalar p => .ok (outer succ pred fun s q => rvEvalTranScalar (insideD v.vset) p q s)
      | .fn f => f pred succ
      | _ => .ok (outer succ pred fun _ _ => 1)

/-- rv.py:363-384: dimensions and reshaped values, successor first. -/
def DRV.stepVals (v : DRV) (pred succ : VArg ℚ) : Dict Str Val × Dict Str (Option ℕ) :=
  match succ, pred with
  | .scalar s, .scalar p => ([(v.prime, .scalar s), (v.name, .scalar p)],
      [(v.prime, none), (v.name, none)])
  | .scalar s, .array ps => ([(v.prime, .scalar s), (v.name, .arr [ps.length] ps)],
      [(v.prime, none), (v.name, some 0)])
  | .array ss, .scalar p => ([(v.prime, .arr [ss.length] ss), (v.name, .scalar p)],
      [(v.prime, some 0), (v.name, none)])
  | .array ss, .array ps =>
      ([(v.prime, .arr [ss.length, 1] ss), (v.name, .arr [1, ps.length] ps)],
       [(v.prime, some 0), (v.name, some 1)])

/-- rv.py:523-531: the name of the successor. -/
def DRV.succName (fmt : Val → Str) (v : DRV) (pred : Req) (succ : Option SReq) (s : VArg ℚ) : Str :=
  match pred, succ with
  | .all, none => v.prime
  | _, _ => match s with
    | .scalar x => eqText fmt v.prime (.scalar x)
    | .array _ => v.prime ++ "=[]".toList

/-- rv.py:504-539.  Two positional arguments; `r, perm` are the draws evaluating
the predecessor, `r', perm', u` those for the successor. -/
noncomputable def DRV.step (fmt : Val → Str) (v : DRV) (pred : Req) (succ : Option SReq) (reverse : Bool)
    (r : ℕ) (perm : List ℕ) (r' : ℕ) (perm' : List ℕ) (u : ℝ) : Py PD := do
  let p ← v.evaluate pred r perm
  let req ← v.defaultSucc p succ
  let (s, idx) ← v.succVals p req reverse r' perm' u
  let cond ← v.evalTran p s idx reverse
  let vd := v.stepVals p s
  pdInit fmt (v.succName fmt pred succ s ++ '|' :: distName fmt v.name pred) vd.1 (some vd.2) cond
    v.pscale

end Probayes
