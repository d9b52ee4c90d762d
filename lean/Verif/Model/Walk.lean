/-
Model of a process of one variable that steps by its deltas and is judged by the
Metropolis rule: /repo/probayes/sd.py:253-288 with /repo/probayes/field.py:468-501, 535-597
and /repo/probayes/variable.py:600-740 for what a step is, and /repo/probayes/sp_utils.py:19-37
for the rule.  The process is set up by `set_delta(process.Delta(delta), bound=...)`, a
symmetric `set_tran`, `set_scores('metropolis')` and `set_update('metropolis')`.
-/
import Verif.Model.SP
import Verif.Model.VarDelta

namespace Probayes

/-- A distribution of a single value of the variable: the value and its probability. -/
structure Row (V : Type) where
  val : V
  prob : SA

/-- What `sample` needs (sd.py:253-288): `step` from the start or from the successor last
accepted, to the value `step` gives, with the probability `tran` of the transition, a
number; and the probability `prob` of the value, on the scale of the process. -/
def walkOps {V Ω : Type} (step : V → Ω → Py V) (prob : V → ℝ) (tran : ℝ) (start : V) :
    TranOps Unit (Row V) Ω where
  stepArg ω st := (st, do return ⟨← step start ω, .scalar tran⟩)
  stepFrom d ω st := (st, do return ⟨← step d.val ω, .scalar tran⟩)
  reval := none
  call d _ := .ok ⟨d.val, .scalar (prob d.val)⟩

/-- sp_utils.py:34-37 on what `eval_expr` passes (sp.py:103-110, 249-254). -/
noncomputable def walkUpdate (s t : Option ℝ) : Py (Option Bool) :=
  match t with
  | none => .error .type
  | some t => .ok (metropolisUpdate s t)

/-- The process; `thresh` is the uniform draw of sp_utils.py:30-31. -/
noncomputable def walkProc {V Ω : Type} (step : V → Ω → Py V) (prob : V → ℝ) (tran : ℝ) (start : V)
    (pscale : PSpec) (thresh : Ω → ℝ) : Proc Unit (Row V) Ω :=
  ⟨none, sampleTran (walkOps step prob tran start), false,
    some fun x => metropolisScores Row.prob x pscale, some thresh, some walkUpdate⟩

/-- The draws of a step: those of `np.random.uniform()` in variable.py:625 (or of
`np.random.uniform(-delta, delta)` in line 634, as a fraction of the range) and in
sp_utils.py:31, and that of `np.random.randint` in variable.py:632. -/
structure WDraw where
  u : ℝ
  t : ℝ
  r : ℤ

/-- The step of an integer variable (field.py:476-484, 546-552; variable.py:600-638, 663-714):
the delta of the variable is evaluated, added and bounded.  `scale` is not modelled here. -/
noncomputable def intStep (vset : List ℤ) (delta : IntDelta) (bound : Bool) (v : ℤ) (ω : WDraw) : Py ℤ :=
  match vlimsD vset with
  | none => .error .value
  | some (lo, hi) => do
      match ← evalDeltaInt (some delta) false vset.length none ω.u ω.r with
      | none => return v
      | some d => return intApply lo hi v d bound

/-- A float variable of a field: with its transform, the settings of its deltas and its
length (variable.py:376-409). -/
structure FCoord where
  x : FloatVar
  uf : UFun
  o : DeltaOpts
  len : ℝ

/-- The draws of a step of `n` float variables: one uniform draw each (variable.py:625, 634)
and that of the threshold (sp_utils.py:31). -/
structure FDraw (n : ℕ) where
  u : Fin n → ℝ
  t : ℝ

/-- The step of one float variable of a field (field.py:476-484, 546-552): its delta is
evaluated, then applied with the bounding of the field. -/
noncomputable def floatStep (c : FCoord) (bound : Bool) (v u : ℝ) : ℝ :=
  c.x.applyScalar c.uf c.o c.len v ((evalDelta c.o c.len none u).map .named) (some bound) u

/-- The step of a field of float variables (field.py:468-488, 535-553), the values by the
positions of the variables.  Spherised deltas are not modelled here. -/
noncomputable def fieldStep {n : ℕ} (cs : Fin n → FCoord) (bound : Bool) (v : Fin n → ℝ) (ω : FDraw n) :
    Py (Fin n → ℝ) :=
  .ok fun i => floatStep (cs i) bound (v i) (ω.u i)

end Probayes
