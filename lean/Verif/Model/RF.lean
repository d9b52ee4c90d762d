/-
Model of parts of /repo/probayes/rf.py (transition evaluation, independent
probabilities), /repo/probayes/rf_utils.py (rv_prod_rule) and
/repo/probayes/cond_cov.py (conditional Gaussian sampling).
-/
import Mathlib.LinearAlgebra.Matrix.NonsingularInverse
import Mathlib.Data.EReal.Inv
import Mathlib.Analysis.SpecialFunctions.Pow.Real
import Verif.Base.Dict
import Verif.Model.PScales
import Verif.Model.Vtypes

namespace Probayes

/-! ### Transition evaluation one block of variables at a time -/

section Sweep

variable {K V : Type} [DecidableEq K]

/-- rf.py:445-452: the keys to update and the new cursor.  `tsteps = 0` stands
for `None` or 0 (falsy); negative step sizes (which line 191 would accept) are
not modelled.  `keys` are the candidate keys (line 445), `nvals` is
`len(succ_vals)`. -/
def tfunBlock (tsteps : ℕ) (cursor : Option ℕ) (keys : List K) (nvals : ℕ) :
    List K × Option ℕ :=
  if tsteps = 0 then (keys, cursor)
  else
    let m := cursor.getD 0
    ((keys.drop m).take tsteps, some (if nvals ≤ m + tsteps then 0 else m + tsteps))

/-- rf.py:455-462: update the keys one after the other.  `f d k` is the result of
the user's function called with the current values `d` and `unknown=k`. -/
def updateKeys (f : Dict K V → K → V) : List K → Dict K V → Dict K V
  | [], d => d
  | k :: ks, d => updateKeys f ks (d.set k (f d k))

/-- What a transition evaluation returns and does: the successor values, the new
cursor, and the keys for which the user's function was called, in order. -/
structure TfunOut (K V : Type) where
  succ : Dict K V
  cursor : Option ℕ
  called : List K

/-- rf.py:438-462 for a callable without explicit conditioning (`inp` None). -/
def evalTfun (f : Dict K V → K → V) (tsteps : ℕ) (cursor : Option ℕ) (values : Dict K V) :
    TfunOut K V :=
  let b := tfunBlock tsteps cursor values.keys values.length
  { succ := updateKeys f b.1 values, cursor := b.2, called := b.1 }

/-- Successive evaluations, each with its own values and function (random draws
make the function differ from call to call): the final cursor and all keys
updated, in order. -/
def tfunRun (tsteps : ℕ) : Option ℕ → List (Dict K V × (Dict K V → K → V)) → Option ℕ × List K
  | c, [] => (c, [])
  | c, (v, f) :: es =>
      let o := evalTfun f tsteps c v
      let r := tfunRun tsteps o.cursor es
      (r.1, o.called ++ r.2)

/-- What an explicit conditional function returns: a dictionary or a value. -/
inductive TOut (K V : Type) where
  | val (v : V)
  | dict (d : Dict K V)

/-- rf.py:470-486 for one key.  At line 471 `',' not in keys` tests membership of
the string "," in the *list* of keys, so `rv_names = [key]` for every key that is
not itself ","; the branch 472-478 is unreachable for valid keys. -/
def explicitStep (f : Dict K V → K → TOut K V) (k : K) (d : Dict K V) : Py (Dict K V) :=
  match f d k with
  | .val v => .ok (d.set k v)
  | .dict m => match m.get? k with
    | some v => .ok (d.set k v)
    | none => .error .assertion

/-- rf.py:469-487 over all keys. -/
def explicitUpdate (f : Dict K V → K → TOut K V) : List K → Dict K V → Py (Dict K V)
  | [], d => .ok d
  | k :: ks, d => match explicitStep f k d with
    | .error e => .error e
    | .ok d' => explicitUpdate f ks d'

end Sweep

/-! ### Independent probabilities -/

/-- The scale `pscale or prod_pscale(pscales)` (rf_utils.py:16). -/
noncomputable def orProdPscale (pscale : PSpec) (pscales : List PSpec) : Py PSpec :=
  if pscale.truthy then .ok pscale
  else match prodPscale pscales none with
    | .error e => .error e
    | .ok none => .ok .none
    | .ok (some s) => .ok s.spec

/-- rf_utils.py:14-21: `rv_prod_rule` with one positional argument; `probs` are the
variables' own probabilities (line 18). -/
noncomputable def rvProdRule (probs : List ℝ) (pscales : List PSpec) (pscale : PSpec) :
    Py (ℝ × PSpec) := do
  let ps ← orProdPscale pscale pscales
  prodRule probs pscales none (some ps)

/-- rf_utils.py:29-36: multiply in the further arguments. -/
noncomputable def rvProdMore (useLogs : Bool) (pscales : List PSpec) : List (List ℝ) → ℝ → Py ℝ
  | [], acc => .ok acc
  | ps :: pss, acc => do
      let (c, _) ← rvProdRule ps pscales (if useLogs then .cplx 0 0 else .flt 1)
      rvProdMore useLogs pscales pss (if useLogs then acc + c else acc * c)

/-- rf_utils.py:10-42 with several positional arguments (one list of
probabilities for each): the geometric mean of the products. -/
noncomputable def rvProdRuleN (probs : List ℝ) (more : List (List ℝ)) (pscales : List PSpec)
    (pscale : PSpec) : Py (ℝ × PSpec) := do
  let ps ← orProdPscale pscale pscales
  let (prob, ps') ← prodRule probs pscales none (some ps)
  if more.isEmpty then return (prob, ps')
  else do
    let prob ← rescale prob ps' (if ps.iscomplex then .cplx 0 0 else .flt 1)
    let prob ← rvProdMore ps.iscomplex pscales more prob
    let n : ℝ := more.length + 1
    if ps.iscomplex then do
      let p ← rescale (prob / n) (.cplx 0 0) ps'
      return (p, ps')
    else do
      let p ← rescale (prob ^ (1 / n)) (.flt 1) ps'
      return (p, ps')

/-- rf.py:70-72 (the field's scale, evaluated by its setter), rf.py:317-324 (the
probability of a value combination when no joint probability has been set) and
rf.py:543 (the distribution is built on the field's scale).  `probs` are the
variables' own probabilities.  Symbolic variables (rf.py:119-130) are not
modelled. -/
noncomputable def rfEvalProb (probs : List ℝ) (pscales : List PSpec) : Py (ℝ × PScale) := do
  match ← prodPscale pscales none with
  | none => .error .type
  | some s => do
      let ps ← evalPscale s.spec
      if pscales.length = 1 then
        match probs with
        | p :: _ => return (p, ps)
        | [] => .error .key
      else do
        let (p, _) ← rvProdRule probs pscales ps.spec
        return (p, ps)

/-! ### Conditional Gaussian sampling -/

/-- cond_cov.py:22-26: means, covariance and limits of `n+1` variables; limits may
be infinite. -/
structure CondCov (n : ℕ) where
  mean : Fin (n + 1) → ℝ
  cov : Matrix (Fin (n + 1)) (Fin (n + 1)) ℝ
  lims : Fin (n + 1) → EReal × EReal

namespace CondCov
variable {n : ℕ}

/-- cond_cov.py:34-36: regression coefficients of variable `i` on the others. -/
noncomputable def coef (c : CondCov n) (i : Fin (n + 1)) (j : Fin n) : ℝ :=
  ∑ k, c.cov i (i.succAbove k) * (c.cov.submatrix i.succAbove i.succAbove)⁻¹ k j

/-- cond_cov.py:37: conditional standard deviation. -/
noncomputable def stdv (c : CondCov n) (i : Fin (n + 1)) : ℝ :=
  Real.sqrt (c.cov i i - ∑ j, c.coef i j * c.cov (i.succAbove j) i)

/-- cond_cov.py:26, 38-39: `norm.cdf(lims - mean, loc=0, scale=stdv)`.  `Φ` is the
standard normal distribution function, as the order isomorphism it is between the
extended reals and the unit interval. -/
noncomputable def cdfs (Φ : EReal ≃o Set.Icc (0 : ℝ) 1) (c : CondCov n) (i : Fin (n + 1)) :
    ℝ × ℝ :=
  (Φ (((c.lims i).1 - (c.mean i : EReal)) / (c.stdv i : EReal)),
   Φ (((c.lims i).2 - (c.mean i : EReal)) / (c.stdv i : EReal)))

/-- cond_cov.py:60: how far the conditional mean is from the mean, given the other
variables' values. -/
noncomputable def shift (c : CondCov n) (i : Fin (n + 1)) (others : Fin n → ℝ) : ℝ :=
  ∑ j, c.coef i j * (others j - c.mean (i.succAbove j))

/-- `norm.ppf(u, loc, scale)` for `0 ≤ u ≤ 1` (NaN, here `none`, elsewhere). -/
noncomputable def ppf (Φ : EReal ≃o Set.Icc (0 : ℝ) 1) (loc scale u : ℝ) : Option EReal :=
  if h : u ∈ Set.Icc (0 : ℝ) 1 then
    some ((loc : EReal) + (scale : EReal) * Φ.symm ⟨u, h⟩)
  else none

/-- cond_cov.py:42-64 with variable `i` requested as `{number}`, the others at
`others`: the list of samples (one for `{0}`). -/
noncomputable def interp (Φ : EReal ≃o Set.Icc (0 : ℝ) 1) (c : CondCov n) (i : Fin (n + 1))
    (number : ℤ) (others : Fin n → ℝ) (rand : ℕ → ℝ) : List (Option EReal) :=
  let l := c.cdfs Φ i
  let loc := c.mean i + c.shift i others
  match uniform l.1 l.2 number false false rand with
  | .scalar u => [ppf Φ loc (c.stdv i) u]
  | .array us => us.map (ppf Φ loc (c.stdv i))

end CondCov

end Probayes
