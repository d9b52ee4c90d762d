/-
Model of a process of continuous variables with a proposal function and thresholds that
are drawn uniformly (rejection sampling): /repo/probayes/rf.py:357-366 (`eval_prop`) and
584-602 (`propose`), /repo/probayes/rf.py:307-337 and 562-581 (`eval_prob`, `__call__`) at
single values, /repo/probayes/field.py:395-466 (`evaluate`) at the request `{0}`,
/repo/probayes/sd.py:228-250 (`_sample_prop`) and /repo/probayes/sp.py:221-258 (`next`).

The set-up is that of /repo/examples/omc/omc_rejection_sp_circle.py: `set_prob(f)`,
`set_prop(g)`, `set_scores(lambda opqr: opqr.p.prob)`, `set_thresh(np.random.uniform,
low=..., high=...)`, `set_update(lambda stu: stu.s >= stu.t)`, no delta, no transition.
Values are exact reals.
-/
import Verif.Model.SP
import Verif.Model.RVCont
import Verif.Model.Names
import Verif.Model.RFCall

namespace Probayes

/-- A distribution at single values: the values by their keys and the probability.
Simplification: the name of the distribution and its dimensions (all `None`, since the
values are single) are left out. -/
structure Spot where
  vals : Dict Str ℝ
  prob : ℝ

/-- The draws of one sample: one of `np.random.uniform` for each variable (vtypes.py:188)
and that of the threshold, all as fractions of their ranges. -/
structure RDraw (n : ℕ) where
  u : Fin n → ℝ
  t : ℝ

/-- field.py:441-460 when every variable is asked for `{0}` (the broadcast of rf.py:588-589):
each variable in order evaluates its own request (448) with its own draw.  The values are
single (C07), so that the last case does not arise. -/
noncomputable def evaluateZero : (n : ℕ) → (Fin n → CRV) → (Fin n → ℝ) → Dict Str ℝ → Py (Dict Str ℝ)
  | 0, _, _, vals => .ok vals
  | n + 1, vars, u, vals => do
      match ← (vars 0).evaluate true (.count 0) (fun _ => u 0) with
      | .scalar x => evaluateZero n (fun i => vars i.succ) (fun i => u i.succ) (vals.set (vars 0).name x)
      | .array _ => .error .value

/-- rf.py:584-602 with 357-366 for the argument `{0}`; `g` is the proposal function, called
with the values by their names (366), before the keys get the suffix (595-601). -/
noncomputable def proposeZero {n : ℕ} (vars : Fin n → CRV) (g : Dict Str ℝ → ℝ) (u : Fin n → ℝ) :
    Py Spot := do
  let vals ← evaluateZero n vars u []
  let prop := g vals
  return ⟨← suffixKeys ['\''] vals.keys vals, prop⟩

/-- sd.py:242-248 with rf.py:562-581 at single values: without suffixes the keys must be
those of the variables (rf.py:313-315); `f` is the probability function, called with the
values by their names (337). -/
def callSpot {n : ℕ} (vars : Fin n → CRV) (f : Dict Str ℝ → ℝ) (prop : Spot) : Py Spot := do
  let vals ← desuffix prop.vals
  if (∀ i, (vars i).name ∈ vals.keys) ∧ ∀ k ∈ vals.keys, ∃ i, (vars i).name = k then
    return ⟨vals, f vals⟩
  else .error .assertion

/-- What `sample` needs (sd.py:228-250).  Without a delta the last sample is never refed
(sp.py:239-241), hence the second component, which proposes the last values again, is not
reached. -/
noncomputable def rejectOps {n : ℕ} (vars : Fin n → CRV) (f g : Dict Str ℝ → ℝ) :
    PropOps Unit Spot (RDraw n) where
  proposeArg ω st := (st, proposeZero vars g ω.u)
  proposeFrom d _ st := (st, do
    let vals ← desuffix d.vals
    return ⟨← suffixKeys ['\''] vals.keys vals, g vals⟩)
  call d _ := callSpot vars f d

/-- The scores of the example: the probability of the value (`None` has none). -/
def spotScore (x : OPQR Spot) : Py (Option ℝ) :=
  match x.p with
  | some d => .ok (some d.prob)
  | none => .error .attribute

open Classical in
/-- The update rule of the example, `stu.s >= stu.t`. -/
noncomputable def reachUpdate (s t : Option ℝ) : Py (Option Bool) :=
  match s, t with
  | some s, some t => .ok (some (decide (t ≤ s)))
  | _, _ => .error .type

/-- The process: thresholds are `np.random.uniform(low, high)`. -/
noncomputable def rejectProc {n : ℕ} (vars : Fin n → CRV) (f g : Dict Str ℝ → ℝ) (low high : ℝ) :
    Proc Unit Spot (RDraw n) :=
  ⟨none, sampleProp (rejectOps vars f g), true, some spotScore,
    some fun ω => low + (high - low) * ω.t, some reachUpdate⟩

end Probayes
