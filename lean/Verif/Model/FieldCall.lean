/-
Model of calling a field: `Field.__call__` of /repo/probayes/field.py:628-638, with `parse_args`
(328-370) and `evaluate` (394-466) as in Model/OMC.lean and the distribution of
/repo/probayes/distribution.py:94-192 as in Model/PD.lean.  `Probability` and scales are no part
of it: a field has none.
-/
import Verif.Model.OMC

namespace Probayes

/-- field.py:628-638.  The keyword `iid` is taken off and has no effect (632-634); `None` for a
field without variables (630-631).  The distribution is returned with its name. -/
def fieldCall (vs : List JVar) (raw : List (List Str × JRaw)) : Py (Option (Str × Dist)) :=
  if vs.isEmpty then .ok none
  else do
    let es ← jParse vs raw                                                     -- 635
    let (vals, dims) ← jEvaluate vs es                                         -- 636
    let d ← distDims (vals.map fun kl => (kl.1, kl.2.toVal)) (some dims)       -- 638
    return some ([','].intercalate vals.keys, d)                               -- 637

end Probayes
