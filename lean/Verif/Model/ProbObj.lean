/-
Model of the scale of a probability object (/repo/probayes/prob.py:125-137, 240-256,
322-380) and of a field (/repo/probayes/rf.py:66-72, 91-107).
-/
import Verif.Model.PScales

namespace Probayes

/-- prob.py:136-137, 247-256: the scale after `set_prob` with the keyword `pscale`
(`none` if not given), for a previous scale (`none` at initialisation). -/
noncomputable def setScale (old : Option PScale) (pscale : PSpec) : Py PScale :=
  evalPscale (if pscale.truthy then pscale else
    match old with
    | none => .none
    | some s => s.spec)

/-- The scale after an initialisation (prob.py:84-87) followed by calls of
`set_prob`, given their `pscale`s in order, of which the first is that of the
initialisation. -/
noncomputable def setScales : Option PScale → List PSpec → Py (Option PScale)
  | old, [] => .ok old
  | old, s :: l => do
      let a ← setScale old s
      setScales (some a) l

/-- prob.py:322-327: the method `rescale` (the keyword `pscale`, if given). -/
noncomputable def probRescale (own : PScale) (prob : ℝ) (pscale : Option PSpec) : Py ℝ :=
  match pscale with
  | none => .ok prob
  | some s => rescale prob own.spec s

/-- prob.py:331-380: `raw` is what the expression evaluates to without rescaling
(lines 345-374).  Line 342 removes the keyword `pscale`, which line 378 reads. -/
noncomputable def probEval (raw : Py ℝ) (pscale : Option PSpec) : Py ℝ := do
  let prob ← raw
  match pscale with
  | none => return prob
  | some s => if s.truthy then .error .key else return prob

/-- rf.py:66-72: the scale of a field when its variables are set. -/
noncomputable def fieldRefresh (pscales : List PScale) : Py PScale := do
  let p ← prodPscale (pscales.map PScale.spec) none
  evalPscale (match p with
    | none => .none
    | some s => s.spec)

/-- rf.py:103-107: the scale of a field with at least one variable after
`set_prob` (`pscale` is `none` if the keyword is not given). -/
noncomputable def fieldSetScale (pscales : List PScale) (old : PScale) (pscale : Option PSpec) : Py PScale :=
  match pscale with
  | some s => setScale (some old) s
  | none => do
      let p ← prodPscale (pscales.map PScale.spec) none
      setScale (some old) (match p with
        | none => .none
        | some s => s.spec)

end Probayes
