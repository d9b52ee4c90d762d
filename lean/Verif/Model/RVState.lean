/-
Model of the states of a discrete random variable under reassignment of its set, its
probability, its transition and its scale: /repo/probayes/rv.py 55-76, 90-166, 216-247,
/repo/probayes/prob.py 125-155 and 240-256, /repo/probayes/variable.py 140-188 and
226-236.
-/
import Verif.Model.RVCall
import Verif.Model.ProbObj

namespace Probayes

/-- A discrete random variable: `vset`, `_length`, scale, probability, the flag
`def_prob`, transition and, for Boolean variables, the bias of the Bernoulli sampling
function if there is one.  Values of Boolean variables are 0 and 1.  Not modelled:
types and their assignment (C74), transformations and cumulative functions, sampling
functions set by the user, symbolic probabilities and distribution objects. -/
structure RVState where
  name : Str
  isBool : Bool
  vset : List ℚ
  len : ℕ
  scale : PScale
  prob : RVProb
  defProb : Bool
  tran : RVTran
  sfun : Option ℝ

/-- The variable that is called and stepped. -/
def RVState.toDRV (s : RVState) : DRV := ⟨s.name, s.vset, s.scale.spec, s.prob, s.tran, none⟩

/-- rv.py:153-166 with the probability unset: uniform, also as transition. -/
noncomputable def RVState.defaulted (s : RVState) : RVState × Option Err :=
  match defaultProb s.len s.scale.spec with
  | .error e => (s, some e)
  | .ok p => ({ s with prob := .scalar p, tran := .scalar p, defProb := true }, none)

/-- `bernoulli_prob(icon, bias)` (sympy_prob.py:71-80) evaluated at values. -/
noncomputable def bernoulliFn (bias : ℝ) (vals : VArg ℚ) : Py Arr :=
  .ok (match vals with
    | .scalar x => ⟨[], fun _ => x * (2 * bias - 1) + (1 - bias)⟩
    | .array xs => listArr (xs.map fun (x : ℚ) => x * (2 * bias - 1) + (1 - bias)))

/-- rv.py:145-150: scalar probabilities of Boolean variables. -/
noncomputable def RVState.bernoulli (s : RVState) : RVState :=
  match s.isBool, s.prob with
  | true, .scalar q =>
      if isclose q (1 / 2) then s
      else { s with prob := .fn (bernoulliFn q), sfun := some q }
  | _, _ => s

/-- rv.py:122-150: `set_prob(prob, pscale=ps)` (`ps` is `none` if not given).  When the
scale is refused nothing has changed; when an array is, it has been assigned. -/
noncomputable def RVState.setProb (s : RVState) (prob : Option RVProb) (ps : PSpec) :
    RVState × Option Err :=
  match setScale (some s.scale) ps with
  | .error e => (s, some e)
  | .ok b =>
    match prob with
    | none =>
        match RVState.defaulted { s with scale := b } with
        | (s', some e) => (s', some e)
        | (s', none) => (s'.bernoulli, none)
    | some (.table qs) =>
        ({ s with scale := b, prob := .table qs, defProb := false },
          if qs.length = s.vset.length then none else some .assertion)
    | some q => (RVState.bernoulli { s with scale := b, prob := q, defProb := false }, none)

/-- variable.py:140-188, 226-236 and rv.py:94-99: assigning `vset`, for values already
of the variable's type and sorted as C74 says.  Of an empty list there is no minimum:
ValueError after it has been assigned. -/
noncomputable def RVState.setVset (s : RVState) (vals : List ℚ) : RVState × Option Err :=
  if vals.isEmpty then ({ s with vset := vals }, some .value)
  else
    let s' := { s with vset := vals, len := if s.isBool then 2 else vals.length }
    if s.defProb then s'.defaulted else (s', none)

/-- rv.py:244-246: a two-dimensional array with as many rows and columns as there are
values. -/
def fitsSet (n : ℕ) (m : List (List ℝ)) : Bool := m.length = n && m.all fun r => r.length = n

/-- rv.py:216-247: `set_tran`.  The transition is assigned before it is checked; of a
pair only the first matrix is checked (line 241). -/
def RVState.setTran (s : RVState) (t : RVTran) : RVState × Option Err :=
  ({ s with tran := t },
    match t with
    | .matrix m => if fitsSet s.vset.length m then none else some .assertion
    | .pair fwd _ => if fitsSet s.vset.length fwd then none else some .assertion
    | _ => none)

/-- prob.py:244-256: assigning `pscale`. -/
noncomputable def RVState.setPscale (s : RVState) (ps : PSpec) : RVState × Option Err :=
  match evalPscale ps with
  | .error e => (s, some e)
  | .ok b => ({ s with scale := b }, none)

/-- What can be done to a variable. -/
inductive RVOp where
  | vset (vals : List ℚ)
  | prob (p : Option RVProb) (ps : PSpec)
  | tran (t : RVTran)
  | pscale (ps : PSpec)

/-- One operation: the state left, and the exception if one is raised. -/
noncomputable def RVState.apply (s : RVState) : RVOp → RVState × Option Err
  | .vset vals => s.setVset vals
  | .prob p ps => s.setProb p ps
  | .tran t => s.setTran t
  | .pscale ps => s.setPscale ps

/-- Several operations, exceptions being caught. -/
noncomputable def RVState.run (s : RVState) (ops : List RVOp) : RVState :=
  ops.foldl (fun s op => (s.apply op).1) s

/-- rv.py:55-76: a new variable; the transition is set to None at last (line 76). -/
noncomputable def newRV (name : Str) (isBool : Bool) (vset : List ℚ) (prob : Option RVProb)
    (ps : PSpec) : Py RVState :=
  if vset.isEmpty then .error .value
  else do
    let b ← setScale none ps
    let s : RVState := ⟨name, isBool, vset, if isBool then 2 else vset.length, b, .table [], false,
      .none, none⟩
    match s.setProb prob .none with
    | (_, some e) => .error e
    | (s', none) => return { s' with tran := .none }

/-- rv.py:271-292: how a Boolean variable without cumulative functions draws `{0}` or
`{-n}`: by the Bernoulli sampling function, if it has been set, with its bias; otherwise
(`none`) from its set. -/
def RVState.drawBias (s : RVState) : Option ℝ := if s.isBool then s.sfun else none

end Probayes
