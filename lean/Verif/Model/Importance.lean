/-
Model of fitting parameters by random samples weighted with their likelihood, as
/repo/examples/omc/omc_rs_norm1d.py does: a stochastic dependence is called with data for
its leaf and joint random samples of its roots, with `iid=True` and `joint=True`, and the
result is conditionalised on the data.

Variables and requests are as in Model/OMC.lean, to which the keyword `iid` is added.
-/
import Verif.Model.OMC
import Verif.Model.PDCond

namespace Probayes

/-- rf.py:541-562 with `iid=True`, which stands for the leafs (rf.py:571-573 with
field.py:206). -/
noncomputable def JDep.evalIid (fmt : Val → Str) (D : JDep) (name : Str) (vals : Dict Str Val)
    (dims : Dict Str (Option ℕ)) (prob : Arr) : Py PD :=
  if D.leafs = [] then pdInit fmt name vals (some dims) prob D.pscale.spec
  else if fieldNdims dims = 0 ∨ fieldNdims dims = prob.shape.length then do
    let d ← pdInit fmt name vals (some dims) prob D.pscale.spec
    d.prod fmt (D.leafs.map JVar.name)
  else do
    let (vals, dims) ← iidCounts (D.leafs.map JVar.name) vals dims
    pdInit fmt name vals (some dims) prob D.pscale.spec

/-- rf.py:565-581 for a dependence with `iid=True`. -/
noncomputable def JDep.callIid (fmt : Val → Str) (D : JDep) (raw : List (List Str × JRaw)) : Py PD := do
  let es ← jParse D.vars raw
  let (vals, dims) ← jEvaluate D.vars es
  let prob ← D.prob vals dims
  D.evalIid fmt (D.distName fmt es) (vals.map fun kl => (kl.1, kl.2.toVal)) dims prob

/-- sd.py:148-161 with `iid=True` and `joint=True` (omc_rs_norm1d.py:37-38). -/
noncomputable def JDep.callIidJoint (fmt : Val → Str) (D : JDep) (raw : List (List Str × JRaw)) :
    Py PD := do
  let d ← D.callIid fmt raw
  let vals ← d.jCondReq
  if D.roots = [] then .error .type
  else do
    let prior ← jCall fmt D.roots vals
    match ← product fmt [prior, d] with
    | none => .error .type
    | some r => return r

/-- A function of three arrays that works elementwise with broadcasting, as
`scipy.stats.norm.logpdf` of data, `loc` and `scale` (omc_rs_norm1d.py:32-34), of the values
passed by name. -/
noncomputable def elementwise (f : ℝ → ℝ → ℝ → ℝ) (vals : Dict Str Laid)
    (_dims : Dict Str (Option ℕ)) : Py Arr :=
  match Dict.get? vals ['o'], Dict.get? vals ['x'], Dict.get? vals ['y'] with
  | some lo, some lx, some ly => do
      let s ← bshape lx.arr.shape ly.arr.shape
      let t ← bshape lo.arr.shape s
      return ⟨t, fun j => f (lo.arr.bget j) (lx.arr.bget j) (ly.arr.bget j)⟩
  | _, _, _ => .error .type

/-- omc_rs_norm1d.py:20-34: `pb.SD(stats, paras)` with a function set as probability.  The
names are `o` for the data, and `x` and `y` for the parameters. -/
noncomputable def fitDep (o x y : FCont) (f : ℝ → ℝ → ℝ → ℝ) (s : PScale) : JDep :=
  ⟨[.cont o], [.cont x, .cont y], [.cont o, .cont x, .cont y], elementwise f, s⟩

/-- omc_rs_norm1d.py:37-39: the posterior of the parameters. -/
noncomputable def fitPosterior (fmt : Val → Str) (D : JDep) (raw : List (List Str × JRaw)) : Py PD := do
  let joint ← D.callIidJoint fmt raw
  joint.conditionalise fmt (D.leafs.map JVar.name)

/-- The expectation of a parameter over the posterior. -/
noncomputable def fitEstimate (fmt : Val → Str) (D : JDep) (raw : List (List Str × JRaw)) (k : Str) :
    Py (Option Expt) := do
  let post ← fitPosterior fmt D raw
  let e ← post.expectation none none
  return Dict.get? e k

end Probayes
