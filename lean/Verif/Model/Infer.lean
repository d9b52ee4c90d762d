/-
Model of exact inference on a grid as in /repo/examples/dgei/dgei_norm1d.py:36-41 and of
Bayes' rule as in /repo/examples/checks/bern_bayes.py:26-30: compositions of the
operations modelled in Model/SDCall.lean, Model/RFCall.lean, Model/PDProduct.lean,
Model/PDMarg.lean and Model/PDDiv.lean.
-/
import Verif.Model.SDCall
import Verif.Model.PDMarg
import Verif.Model.PDDiv

namespace Probayes

/-- dgei_norm1d.py:39-41, bern_bayes.py:28-30: the product of prior and likelihood, divided by
its marginal over `keys`.  A product of two distributions is never `None`. -/
noncomputable def bayes (fmt : Val → Str) (prior like : PD) (keys : List Str) : Py PD := do
  match ← product fmt [prior, like] with
  | none => .error .type
  | some joint => do
      let evidence ← joint.marginal fmt keys
      joint.truediv fmt evidence

/-- dgei_norm1d.py:36-41: the likelihood of the observations, the roots called with
`likelihood('cond')`, and Bayes' rule. -/
noncomputable def SDep.infer (fmt : Val → Str) (D : SDep) (values : Dict Str Req) (iid : Iid) :
    Py PD := do
  let like ← D.call fmt values iid
  let vals ← like.condReq
  let prior ← rfCall fmt D.roots vals
  bayes fmt prior like (D.leafs.map Drawn.name)

/-- bern_bayes.py:26-30: the roots and the dependence called separately. -/
noncomputable def SDep.bayesRule (fmt : Val → Str) (D : SDep) (prior values : Dict Str Req) :
    Py PD := do
  let prior ← rfCall fmt D.roots prior
  let like ← D.call fmt values (.bool false)
  bayes fmt prior like (D.leafs.map Drawn.name)

end Probayes
