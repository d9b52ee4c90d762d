/-
Model of parts of /repo/probayes/rv.py and /repo/probayes/rv_utils.py: default
and Bernoulli probabilities, transition matrices; and of `ismonotonic`
(/repo/probayes/pd_utils.py:414-421).
-/
import Mathlib.Data.List.Sort
import Verif.Model.PScales
import Verif.Model.Vtypes

namespace Probayes

/-! ### Uniform probabilities -/

/-- variable.py:330-332 `_nlhv` of a discrete variable of length `n`. -/
noncomputable def nlhv (n : ℕ) : ℝ := -logProb n

/-- rv.py:160 (without transform): the default probability. -/
noncomputable def defaultProb (n : ℕ) (pscale : PSpec) : Py ℝ :=
  rescale (nlhv n) (.str "log") pscale

/-- rv_utils.py:30: the probability of values outside the set. -/
noncomputable def pZero (useLogs : Bool) : ℝ := if useLogs then nni else 0

/-- rv_utils.py:8-33 for a scalar value, `prob` given and `inside` callable. -/
noncomputable def uniformProb {α : Type _} (inside : α → Bool) (prob : ℝ) (useLogs : Bool) (v : α) : ℝ :=
  if inside v then prob else pZero useLogs

/-- rv_utils.py:35-38 for an array. -/
noncomputable def uniformProbArr {α : Type _} (inside : α → Bool) (prob : ℝ) (useLogs : Bool)
    (vs : List α) : List ℝ :=
  vs.map fun v => if inside v then prob else pZero useLogs

/-- rv.py:305-320 for scalar probabilities: the stored number for a value, on the
variable's scale. -/
noncomputable def rvEvalProb {α : Type _} (inside : α → Bool) (prob : ℝ) (pscale : PSpec) (v : α) :
    Py ℝ := do
  let ps ← evalPscale pscale
  return uniformProb inside prob ps.iscomplex v

/-- rv.py:305-320 for an array of values. -/
noncomputable def rvEvalProbArr {α : Type _} (inside : α → Bool) (prob : ℝ) (pscale : PSpec)
    (vs : List α) : Py (List ℝ) := do
  let ps ← evalPscale pscale
  return uniformProbArr inside prob ps.iscomplex vs

/-- rv.py:464-469 with rv_utils.py:40-46: the transition probability from a
scalar transition; `uniform_prob` is called without `pscale`, i.e. linear. -/
noncomputable def rvEvalTranScalar {α : Type _} (inside : α → Bool) (prob : ℝ) (pred succ : α) : ℝ :=
  uniformProb inside prob false pred * uniformProb inside 1 false succ

/-! ### Booleans -/

/-- `np.isclose(a, b)` with default tolerances. -/
noncomputable def isclose (a b : ℝ) : Bool := decide (|a - b| ≤ 1e-8 + 1e-5 * |b|)

/-- sympy_prob.py:71-80 evaluated at a boolean. -/
noncomputable def bernoulliProb (v : Bool) (bias : ℝ) : ℝ :=
  (if v then 1 else 0) * (2 * bias - 1) + (1 - bias)

/-- rv.py:145-149 and 305-320: the stored probability of a boolean variable given
a scalar probability, on scale `pscale`. -/
noncomputable def boolProb (prob : ℝ) (pscale : PSpec) (v : Bool) : Py ℝ :=
  if isclose prob (1/2) then rvEvalProb (fun _ => true) prob pscale v
  else do
    let _ ← evalPscale pscale
    return bernoulliProb v prob

/-! ### Transition matrices -/

/-- A square matrix as list of rows; entry lookup raises IndexError. -/
def matEntry (m : List (List ℝ)) (i j : ℕ) : Py ℝ :=
  match m[i]? with
  | none => .error .index
  | some r => match r[j]? with
    | none => .error .index
    | some x => .ok x

/-- `mat.ndim == 2 and len(set(mat.shape)) == 1` (rv_utils.py:56, 79). -/
def isSquare (m : List (List ℝ)) : Bool := m.all fun r => r.length = m.length

/-- `r[j]` of one row. -/
def rowEntry (j : ℕ) (r : List ℝ) : Py ℝ :=
  match r[j]? with
  | some x => .ok x
  | none => .error .index

/-- `np.cumsum` with running total `acc`. -/
noncomputable def cumsumFrom (acc : ℝ) : List ℝ → List ℝ
  | [] => []
  | x :: xs => (acc + x) :: cumsumFrom (acc + x) xs

/-- `np.cumsum`. -/
noncomputable def cumsum (xs : List ℝ) : List ℝ := cumsumFrom 0 xs

/-- `np.digitize(x, bins)` for one number (numpy documentation: bins must be
monotonic, else ValueError; `bins[i-1] <= x < bins[i]` if they increase,
`bins[i-1] > x >= bins[i]` if they decrease). -/
noncomputable def npDigitize (x : ℝ) (bins : List ℝ) : Py ℕ :=
  if bins.Pairwise (· ≤ ·) then .ok (bins.countP (fun b => decide (b ≤ x)))
  else if bins.Pairwise (· ≥ ·) then .ok (bins.countP (fun b => decide (x < b)))
  else .error .value

/-- `vset.index(v)`: first position, ValueError if absent. -/
def indexOf {α : Type _} [DecidableEq α] (vset : List α) (v : α) : Py ℕ :=
  match vset.findIdx? (fun w => decide (w = v)) with
  | some i => .ok i
  | none => .error .value

/-- What successor is requested: `{n}` or `{u}`. -/
inductive SuccReq where
  | int (n : ℤ)
  | flt (u : ℝ)

/-- rv_utils.py:50-74 for a unit set as successor and a scalar predecessor.
`vset` is the variable set, sorted at line 65.  `u` is the uniform draw used for
`{0}`; only then `succ_cmf` is a scalar.  In every other case `succ_idx` is a
one-dimensional array, with which a list cannot be indexed (line 74: TypeError). -/
noncomputable def matrixCondSample {α : Type _} [LinearOrder α] (pred : α) (req : SuccReq)
    (prob : List (List ℝ)) (vset : List α) (u : ℝ) : Py (α × ℕ × ℕ) :=
  if !isSquare prob then .error .assertion
  else if vset.length ≠ prob.length then .error .assertion
  else do
    let sorted := vset.mergeSort (· ≤ ·)
    let predIdx ← indexOf sorted pred
    let col ← prob.mapM (rowEntry predIdx)
    let idx ← npDigitize u (cumsum col)
    match req with
    | .int 0 =>
        let i := max 0 (min (prob.length - 1) idx)
        match sorted[i]? with
        | some v => .ok (v, predIdx, i)
        | none => .error .index
    | _ => .error .type

/-- A scalar or an array of values. -/
inductive VArg (α : Type _) where
  | scalar (v : α)
  | array (vs : List α)

/-- Result of a lookup: scalar, vector or matrix. -/
inductive LookupOut where
  | scalar (x : ℝ)
  | vec (xs : List ℝ)
  | mat (xs : List (List ℝ))

/-- rv_utils.py:77-115 without precomputed indices. -/
def lookupSquareMatrix {α : Type _} [LinearOrder α] (colVals rowVals : VArg α)
    (m : List (List ℝ)) (vset : List α) : Py LookupOut :=
  if !isSquare m then .error .assertion
  else if vset.length ≠ m.length then .error .assertion
  else do
    let sorted := vset.mergeSort (· ≤ ·)
    match rowVals, colVals with
    | .scalar r, .scalar c => do
        let i ← indexOf sorted r
        let j ← indexOf sorted c
        return .scalar (← matEntry m i j)
    | .scalar r, .array cs => do
        let i ← indexOf sorted r
        let js ← cs.mapM (indexOf sorted)
        return .vec (← js.mapM (fun j => matEntry m i j))
    | .array rs, .scalar c => do
        let is ← rs.mapM (indexOf sorted)
        let j ← indexOf sorted c
        return .vec (← is.mapM (fun i => matEntry m i j))
    | .array rs, .array cs => do
        let is ← rs.mapM (indexOf sorted)
        let js ← cs.mapM (indexOf sorted)
        return .mat (← is.mapM (fun i => js.mapM (fun j => matEntry m i j)))

/-! ### ismonotonic -/

/-- pd_utils.py:418: `vals[1:] >= vals[:-1]`. -/
def isGe {α : Type _} [LinearOrder α] : List α → List Bool
  | x :: y :: xs => decide (x ≤ y) :: isGe (y :: xs)
  | _ => []

/-- pd_utils.py:414-421 for an array (singletons return True at line 416). -/
def ismonotonic {α : Type _} [LinearOrder α] (vals : List α) : Bool :=
  decide ((isGe vals).dedup.length = 1)

end Probayes
