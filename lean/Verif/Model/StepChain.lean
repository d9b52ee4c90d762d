/-
Model of the loop of /repo/examples/markov/markov_rw_norm.py 36-43 (and markov_delta.py 39-46):
repeated steps of a continuous random variable, each from the successor of the one before.
-/
import Verif.Model.RVCont

namespace Probayes

/-- `steps[i]["x'"]`, assigned to an entry of an array of floats: one number. -/
def CDist.number (d : CDist) (key : Str) : Py ℝ :=
  match d.vals.find? fun e => decide (e.1 = key) with
  | some (_, .scalar y, _) => .ok y
  | some _ => .error .value
  | none => .error .key

/-- markov_rw_norm.py:36-43: the steps, the first with the predecessor `pred` (`{0}` in that file,
a number in markov_delta.py), each other from the successor before it.  `us` are the draws of the
successors, one for each step, `r0` those of the predecessor. -/
noncomputable def CRV.simulate (fmt : ℝ → Str) (v : CRV) (r0 : ℕ → ℝ) : CReq → List ℝ → Py (List CDist)
  | _, [] => .ok []
  | pred, u :: us => do
      let d ← v.step fmt pred .none false r0 (fun _ => u)
      let y ← d.number v.prime
      let ds ← v.simulate fmt r0 (.scalar y) us
      return d :: ds

end Probayes
