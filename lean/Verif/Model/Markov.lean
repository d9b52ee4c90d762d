/-
Model of a process of one variable that steps by the variable's own transition matrix
(/repo/examples/markov/markov_sp_matrix.py): /repo/probayes/sd.py:61-68, 184-226, 253-288 with
/repo/probayes/rf.py:369-390, 490-499, 605-642 (`rfStep`) for the steps,
/repo/probayes/rf.py:546-581 (`rfCall`) for the probabilities, and /repo/probayes/sp.py:221-258
for the sampler, with or without the rules of /repo/probayes/sp_utils.py:19-72.
-/
import Verif.Model.SP
import Verif.Model.Names
import Verif.Model.RFStep
import Verif.Model.Walk

namespace Probayes

/-- The draws of a step: those of the successor (rv_utils.py:61) and that of the threshold
(sp_utils.py:31). -/
structure MDraw where
  w : SuccDraw
  t : ℝ

/-- sd.py:273, 281 with sd_utils.py:22-30: the successors of a proposal, by the names of the
variables, as they are passed on to `step` and to a call. -/
def succReqs (d : PD) : Py (Dict Str Req) := do
  let vals ← getSuffixed d.vals
  return vals.map fun kv => (kv.1, kv.2.asReq)

/-- What `sample` needs (sd.py:253-288) of a field whose only variable has a transition, the
field itself having none (`_unit_tran`, sd.py:64-67): steps from the start or from the
successor last accepted, no reverse proposal (line 277), and a call at the successor.
`fmt` writes numbers, `arrays` see `rfEvalTran`. -/
noncomputable def matrixOps (fmt : Val → Str) (F : RField) (arrays : Dict Str Val → Py Arr)
    (start : Dict Str Req) : TranOps Unit PD MDraw where
  stepArg ω st := (st, rfStep fmt F arrays start none false ω.w)
  stepFrom d ω st := (st, do rfStep fmt F arrays (← succReqs d) none false ω.w)
  reval := none
  call d _ := do rfCall fmt F.vars (← succReqs d)

/-- The process, without scores nor update (sp.py:249-255). -/
noncomputable def matrixProc (fmt : Val → Str) (F : RField) (arrays : Dict Str Val → Py Arr)
    (start : Dict Str Req) : Proc Unit PD MDraw :=
  ⟨none, sampleTran (matrixOps fmt F arrays start), false, none, none, none⟩

/-- The probability of a distribution as scores read it; of arrays only that they are none of
a number matters there (sp_utils.py:23, 26). -/
noncomputable def PD.sa (d : PD) : SA := if d.shape = [] then .scalar (d.prob.get []) else .array []

/-- The process with `set_scores('metropolis')` or, `hastings` being set, with
`set_scores('hastings')` (sp.py:56-66, 73-83, 90-98): the scale passed on is that of the
process. -/
noncomputable def matrixWalk (fmt : Val → Str) (F : RField) (arrays : Dict Str Val → Py Arr)
    (start : Dict Str Req) (hastings : Bool) (pscale : PSpec) : Proc Unit PD MDraw :=
  ⟨none, sampleTran (matrixOps fmt F arrays start), false,
    some fun x => if hastings then hastingsScores PD.sa x pscale else metropolisScores PD.sa x pscale,
    some MDraw.t, some walkUpdate⟩

end Probayes
