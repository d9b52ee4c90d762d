/-
Model of the states of a continuous random variable under reassignment of its set, its
transform, its cumulative functions, its transition and their functions, its probability and
its scale: /repo/probayes/rv.py 55-76, 90-268, /repo/probayes/prob.py 125-155, 240-288,
/repo/probayes/variable.py 140-220, 250-276, 313-369, 466-497 and 574-587.
-/
import Verif.Model.RVCont
import Verif.Model.ProbObj

namespace Probayes

/-- A bounded set of floats: two limits, each of them exclusive or not.  (A tuple of two numbers is
two exclusive limits, variable.py:179-183.) -/
structure BSet where
  a : ℝ
  exA : Bool
  b : ℝ
  exB : Bool

/-- The set as given to the `vset` setter. -/
def BSet.toFSet (s : BSet) : FSet := .list ⟨(s.a : EReal), s.exA⟩ ⟨(s.b : EReal), s.exB⟩

/-- A continuous random variable with finite limits: `_vset` and `_vlims`, `_ufun`, `_ulims`,
`_length`, scale, probability, the flag `def_prob`, `_pfun`, `_tran` and `_tfun`.  Not modelled:
infinite limits, symbolic transforms, symbolic probabilities and distribution objects, arguments
that are no pairs of functions. -/
structure CState where
  name : Str
  var : FloatVar
  ufun : UFun
  ulo : ℝ
  uhi : ℝ
  len : ℝ
  scale : PScale
  prob : CProb
  defProb : Bool
  pfun : Option ((ℝ → ℝ) × (ℝ → ℝ))
  tran : CTran
  tfun : Option ((ℝ → EReal → ℝ) × (ℝ → ℝ → ℝ))

/-- variable.py:334-341: the transformed limits and the length between them. -/
noncomputable def CState.evalUlims (s : CState) : CState :=
  let lo := s.ufun.fwd s.var.lo.toReal
  let hi := s.ufun.fwd s.var.hi.toReal
  { s with ulo := lo, uhi := hi, len := max lo hi - min lo hi }

/-- rv.py:153-166: the default probability, also as transition; nothing if a probability has been
set (158-159). -/
noncomputable def CState.default (s : CState) : CState × Option Err :=
  match rescale (-logProb s.len) (.str "log") s.scale.spec with
  | .error e => (s, some e)
  | .ok p => ({ s with prob := .scalar p, tran := .scalar p, defProb := true }, none)

/-- variable.py:170-220 and rv.py:94-99: assigning `vset`. -/
noncomputable def CState.setVset (s : CState) (v : BSet) : CState × Option Err :=
  let s' := CState.evalUlims { s with var := FloatVar.make v.toFSet }
  if s'.defProb then s'.default else (s', none)

/-- variable.py:466-497 and rv.py:187-208: `set_ufun`.  Without a transform both methods return at
once (variable.py:478-479, rv.py:199-200), before the limits are evaluated; with one, the default probability is
evaluated anew and then cumulative functions are refused. -/
noncomputable def CState.setUfun (s : CState) (u : UFun) : CState × Option Err :=
  match u with
  | none => ({ s with ufun := none }, none)
  | some fg =>
      let s' := CState.evalUlims { s with ufun := some fg }
      match (if s'.defProb then s'.default else (s', none)) with
      | (s'', some e) => (s'', some e)
      | (s'', none) => (s'', if s''.pfun.isSome then some .assertion else none)

/-- prob.py:265-288 and rv.py:169-184: `set_pfun`.  The functions are assigned before a transform
is found to be there. -/
def CState.setPfun (s : CState) (p : Option ((ℝ → ℝ) × (ℝ → ℝ))) : CState × Option Err :=
  ({ s with pfun := p }, if s.ufun.isNone || p.isNone then none else some .assertion)

/-- rv.py:216-239: `set_tran` with nothing, a number, a callable or two. -/
def CState.setTran (s : CState) (t : CTran) : CState × Option Err := ({ s with tran := t }, none)

/-- rv.py:255-268: `set_tfun`. -/
def CState.setTfun (s : CState) (t : Option ((ℝ → EReal → ℝ) × (ℝ → ℝ → ℝ))) : CState × Option Err :=
  ({ s with tfun := t }, none)

/-- rv.py:122-142 with prob.py:125-155: `set_prob(prob, pscale=ps)` (`ps` is `none` if not
given). -/
noncomputable def CState.setProb (s : CState) (prob : Option CProb) (ps : PSpec) : CState × Option Err :=
  match setScale (some s.scale) ps with
  | .error e => (s, some e)
  | .ok b =>
    match prob with
    | none => CState.default { s with scale := b }
    | some q => ({ s with scale := b, prob := q, defProb := false }, none)

/-- prob.py:244-256: assigning `pscale`. -/
noncomputable def CState.setPscale (s : CState) (ps : PSpec) : CState × Option Err :=
  match evalPscale ps with
  | .error e => (s, some e)
  | .ok b => ({ s with scale := b }, none)

/-- What can be done to a variable. -/
inductive COp where
  | vset (v : BSet)
  | ufun (u : UFun)
  | pfun (p : Option ((ℝ → ℝ) × (ℝ → ℝ)))
  | tran (t : CTran)
  | tfun (t : Option ((ℝ → EReal → ℝ) × (ℝ → ℝ → ℝ)))
  | prob (p : Option CProb) (ps : PSpec)
  | pscale (ps : PSpec)

/-- One operation: the state left, and the exception if one is raised. -/
noncomputable def CState.apply (s : CState) : COp → CState × Option Err
  | .vset v => s.setVset v
  | .ufun u => s.setUfun u
  | .pfun p => s.setPfun p
  | .tran t => s.setTran t
  | .tfun t => s.setTfun t
  | .prob p ps => s.setProb p ps
  | .pscale ps => s.setPscale ps

/-- Several operations, exceptions being caught. -/
noncomputable def CState.run (s : CState) (ops : List COp) : CState :=
  ops.foldl (fun s op => (s.apply op).1) s

/-- rv.py:55-76: a new variable; transition and its functions are None at last (line 76). -/
noncomputable def newCState (name : Str) (v : BSet) (prob : Option CProb) (ps : PSpec) : Py CState := do
  let b ← setScale none ps
  let s := CState.evalUlims ⟨name, FloatVar.make v.toFSet, none, 0, 0, 0, b, .scalar 0, false, none, .none, none⟩
  match s.setProb prob .none with
  | (_, some e) => .error e
  | (s', none) => return { s' with tran := .none, tfun := none }

/-- rv.py:271-303 and variable.py:574-587 for `{n}`: values between the limits as stored. -/
noncomputable def CState.evaluate (s : CState) (usePfun : Bool) (n : ℤ) (rand : ℕ → ℝ) : Py (VArg ℝ) :=
  match usePfun, s.pfun with
  | true, some (F, G) => evaluatePfun True F G s.ulo s.uhi s.var.s0.excl s.var.s1.excl n rand
  | _, _ => .ok ((uniform s.ulo s.uhi n s.var.s0.excl s.var.s1.excl rand).toVArg.map s.ufun.inv)

/-- The variable with the settings of the state. -/
def CState.toCRV (s : CState) : CRV :=
  ⟨s.name, s.var, s.ufun, s.scale.spec, s.prob, s.pfun, s.tran, s.tfun, none⟩

end Probayes
