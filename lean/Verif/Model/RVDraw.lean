/-
Model of the random draws of a Boolean random variable: `evaluate` of
/repo/probayes/rv.py:274-292 for a variable without cumulative functions,
`bernoulli_sfun` of /repo/probayes/sympy_prob.py:83-88, and calling the variable
(rv.py:495-501) with the values so drawn.
-/
import Verif.Model.RVState

namespace Probayes

/-- A truth value as a number. -/
def truthQ (b : Bool) : ℚ := if b then 1 else 0

/-- sympy_prob.py:83-88.  `coin p i` is the `i`th draw of SciPy's Bernoulli distribution with
parameter `p`, whose `rvs` raises ValueError unless `p` is between 0 and 1. -/
noncomputable def bernoulliSfun (coin : ℝ → ℕ → Bool) (bias : ℝ) (size : ℕ) : Py (VArg ℚ) :=
  if 0 ≤ bias ∧ bias ≤ 1 then
    .ok (if size = 0 then .scalar (truthQ (coin bias 0))
      else .array ((List.range size).map fun i => truthQ (coin bias i)))
  else .error .value

/-- rv.py:274-287. -/
noncomputable def RVState.evaluate (s : RVState) (coin : ℝ → ℕ → Bool) (req : Req) (r : ℕ) (perm : List ℕ) :
    Py (VArg ℚ) :=
  match req, s.drawBias with
  | .count n, some b =>
      if n ≤ 0 then bernoulliSfun coin b n.natAbs                            -- 280-285
      else s.toDRV.evaluate (.count n) r perm
  | req, _ => s.toDRV.evaluate req r perm                                    -- 287

/-- rv.py:495-501. -/
noncomputable def RVState.call (fmt : Val → Str) (s : RVState) (coin : ℝ → ℕ → Bool) (req : Req) (r : ℕ)
    (perm : List ℕ) : Py PD := do
  let vals ← s.evaluate coin req r perm
  let prob ← s.toDRV.evalProb vals
  let dims : Dict Str (Option ℕ) := [(s.name, if vals.isscalar then none else some 0)]
  pdInit fmt (distName fmt s.name req) [(s.name, vals.toVal)] (some dims) prob s.scale.spec

end Probayes
