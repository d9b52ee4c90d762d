/-
Model of the simulations of /repo/examples/markov/markov_matrix.py 29-41: repeated steps of a
discrete random variable, each from the successor of the one before, and the proportion of runs
that are in a state after each step.
-/
import Verif.Model.RVCall

namespace Probayes

/-- `cond[i][j]["x'"]` (markov_matrix.py:38), assigned to an entry of an array: one number. -/
def PD.number (d : PD) (key : Str) : Py ℚ :=
  match Dict.get? d.vals key with
  | some (.scalar y) => .ok y
  | some _ => .error .value
  | none => .error .key

/-- markov_matrix.py:35-39: one run from `pred`, with one draw for each step; `{0}` asks for a
random successor. -/
noncomputable def DRV.simulate (fmt : Val → Str) (v : DRV) : ℚ → List ℝ → Py (List ℚ)
  | _, [] => .ok []
  | pred, u :: us => do
      let d ← v.step fmt (.scalar pred) (some (.unitInt 0)) false 0 [] 0 [] u
      let y ← d.number v.prime
      let ys ← v.simulate fmt y us
      return y :: ys

/-- markov_matrix.py:33-39: all runs, each with its own draws. -/
noncomputable def DRV.simulateAll (fmt : Val → Str) (v : DRV) (pred : ℚ) (draws : List (List ℝ)) :
    Py (List (List ℚ)) :=
  draws.mapM (v.simulate fmt pred)

/-- markov_matrix.py:41: `np.sum(succ==z, axis=0) / n_sims`, the entry of step `j` (from 0). -/
noncomputable def proportion (succ : List (List ℚ)) (z : ℚ) (j : ℕ) : ℝ :=
  (succ.countP fun row => row[j]? = some z : ℕ) / (succ.length : ℝ)

end Probayes
