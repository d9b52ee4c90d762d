/-
Model of /repo/probayes/variable.py: random deltas of integer variables
(`eval_delta`, 600-638).  Float variables are in `Model/Variable.lean`.
-/
import Verif.Model.Variable

namespace Probayes

/-- Integer delta specifications (variable.py:385-391). -/
inductive IntDelta where
  | scalar (d : ℤ)
  | orand (d : ℤ)
  | urand (d : ℤ)
deriving DecidableEq

/-- `np.random.randint(lo, hi)` with outcome `r` (documented: `lo ≤ r < hi`);
ValueError for an empty range. -/
def randint (lo hi r : ℤ) : Py ℤ := if lo < hi then .ok r else .error .value

/-- variable.py:609: `delta or self._delta`. -/
def intOrDefault (delta default : Option IntDelta) : Option IntDelta :=
  match delta with
  | some (.scalar 0) => default
  | some d => some d
  | none => default

/-- variable.py:619-632 for integer variables; `u` is the draw of
`np.random.uniform()`, `r` that of `np.random.randint`. -/
noncomputable def intDraw (s : IntDelta) (u : ℝ) (r : ℤ) : Py ℤ :=
  match s with
  | .scalar d => .ok d
  | .orand d => .ok (if u > 1/2 then d else -d)                 -- 621-625
  | .urand d => randint (-d) d r                                -- 626-632

/-- variable.py:600-638 for integer variables (callable deltas and `Delta`
instances are not modelled); `len` is the length of the variable (finite). -/
noncomputable def evalDeltaInt (default : Option IntDelta) (scale : Bool) (len : ℤ)
    (delta : Option IntDelta) (u : ℝ) (r : ℤ) : Py (Option ℤ) :=
  match intOrDefault delta default with
  | none => .ok none
  | some s => do
      let d ← intDraw s u r
      if default = some (.scalar d) ∧ scale then return some (d * len)  -- 634-636
      else return some d

end Probayes
