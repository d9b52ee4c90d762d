/-
Model of calling and stepping a continuous random variable: /repo/probayes/rv.py
(`evaluate` 271-303, `eval_prob` 305-320, `eval_dist_name` 322-333, `eval_step`
335-447, `eval_tran` 449-492, `__call__` 495-501, `step` 504-539), with
/repo/probayes/variable.py:499-586 and the limits of 313-347.

Values are exact reals and random draws parameters.  The constructor of the
distribution is modelled for its checks of shapes (pd.py:89-102) and the texts it
gives to single values (C13); symbolic functions and transforms without change of
variables are not modelled.
-/
import Verif.Model.RV
import Verif.Model.Variable
import Verif.Model.RVCall

namespace Probayes

/-- What is asked of a continuous variable: `None`, `{n}`, `{u}` for a float `u`, a
number or a one-dimensional array. -/
inductive CReq where
  | none
  | count (n : ℤ)
  | unit (u : ℝ)
  | scalar (x : ℝ)
  | array (xs : List ℝ)

/-- What `set_prob` was given: a number or a callable of the values. -/
inductive CProb where
  | scalar (p : ℝ)
  | fn (f : VArg ℝ → Py Arr)

/-- What `set_tran` was given: nothing, a number, a callable of predecessor and
successor, or a pair of callables (forward, reverse). -/
inductive CTran where
  | none
  | scalar (p : ℝ)
  | fn (f : VArg ℝ → VArg ℝ → Py Arr)
  | pair (f r : VArg ℝ → VArg ℝ → Py Arr)

/-- A continuous random variable.  `pfun` is the pair of cumulative function and its
inverse; `tfun` the same given the predecessor (first argument), at possibly infinite
limits.  `delta` is the effect of `apply_delta(·, eval_delta())` on a value. -/
structure CRV where
  name : Str
  var : FloatVar
  ufun : UFun
  pscale : PSpec
  prob : CProb
  pfun : Option ((ℝ → ℝ) × (ℝ → ℝ))
  tran : CTran
  tfun : Option ((ℝ → EReal → ℝ) × (ℝ → ℝ → ℝ))
  delta : Option (ℝ → ℝ)

/-- Scalars and arrays of floats as values. -/
def SA.toVArg : SA → VArg ℝ
  | .scalar x => .scalar x
  | .array xs => .array xs

/-- Are both limits finite (variable.py:337)? -/
def FloatVar.isfinite (x : FloatVar) : Prop := ¬ (x.lo = ⊥ ∨ x.lo = ⊤ ∨ x.hi = ⊤ ∨ x.hi = ⊥)

open Classical in
/-- rv.py:291-303: values from the inverse of the cumulative function.  `fin` is the
flag `isfinite` of the variable, `lo` and `hi` its limits, `ex0` and `ex1` whether
they are exclusive. -/
noncomputable def evaluatePfun (fin : Prop) (F G : ℝ → ℝ) (lo hi : ℝ) (ex0 ex1 : Bool) (n : ℤ)
    (rand : ℕ → ℝ) : Py (VArg ℝ) :=
  if ¬ fin then .error .assertion                                        -- 293-294
  else .ok ((uniform (F lo) (F hi) n ex0 ex1 rand).toVArg.map G)         -- 295-303

/-- variable.py:332: the flag `isfinite` of variables that are not continuous. -/
def discreteIsfinite : Prop := False

/-- rv.py:271-303 for a discrete variable with cumulative functions and the request
`{n}`: `F` and `G` as for continuous ones, limits the extreme members. -/
noncomputable def discretePfun (F G : ℝ → ℝ) (lo hi : ℝ) (n : ℤ) (rand : ℕ → ℝ) : Py (VArg ℝ) :=
  evaluatePfun discreteIsfinite F G lo hi false false n rand

/-- variable.py:565-586 for a unit set with a float: `not number` is a random draw,
anything else a TypeError of NumPy (sizes are integers). -/
noncomputable def FloatVar.evaluateUnit (x : FloatVar) (uf : UFun) (u : ℝ) (rand : ℕ → ℝ) : Py SA :=
  match x.evaluate uf 0 rand with
  | .error e => .error e
  | .ok v => if u = 0 then .ok v else .error .type

/-- rv.py:271-303 (and variable.py:499-586): the values asked for. -/
noncomputable def CRV.evaluate (v : CRV) (usePfun : Bool) (req : CReq) (rand : ℕ → ℝ) :
    Py (VArg ℝ) :=
  match req with
  | .scalar x => .ok (.scalar x)
  | .array xs => .ok (.array xs)
  | .none => do return (← v.var.evaluate v.ufun 0 rand).toVArg            -- variable.py:545-547
  | .unit u => do return (← v.var.evaluateUnit v.ufun u rand).toVArg
  | .count n =>
    match usePfun, v.pfun with
    | true, some (F, G) =>
        evaluatePfun v.var.isfinite F G (v.ufun.fwd v.var.lo.toReal) (v.ufun.fwd v.var.hi.toReal)
          v.var.s0.excl v.var.s1.excl n rand
    | _, _ => do return (← v.var.evaluate v.ufun n rand).toVArg

/-- rv.py:305-320: the density at values. -/
noncomputable def CRV.evalProb (v : CRV) (vals : VArg ℝ) : Py Arr :=
  match v.prob with
  | .scalar p =>
      match vals with
      | .scalar x => do
          let q ← rvEvalProb v.var.inside p v.pscale x
          return ⟨[], fun _ => q⟩
      | .array xs => do
          let qs ← rvEvalProbArr v.var.inside p v.pscale xs
          return listArr qs
  | .fn f => f vals

/-- The distribution returned: texts of variables, values and axes, the probabilities
and the scale.  `cond` is empty for calls. -/
structure CDist where
  marg : Str
  cond : Str
  vals : List (Str × VArg ℝ × Option ℕ)
  prob : Arr
  pscale : PScale

/-- rv.py:322-333 and the text of single values in distributions (C13). -/
def CRV.text (fmt : ℝ → Str) (name : Str) : VArg ℝ → Str
  | .scalar x => name ++ '=' :: fmt x
  | .array _ => name ++ "=[]".toList

/-- pd.py:79-102: the checks of the constructor. -/
noncomputable def CDist.build (marg cond : Str) (vals : List (Str × VArg ℝ × Option ℕ)) (prob : Arr)
    (ps : PSpec) : Py CDist := do
  let b ← evalPscale ps
  if prob.shape = vals.flatMap (fun x => x.2.1.sizes) then return ⟨marg, cond, vals, prob, b⟩
  else .error .assertion

/-- rv.py:495-501. -/
noncomputable def CRV.call (fmt : ℝ → Str) (v : CRV) (req : CReq) (rand : ℕ → ℝ) : Py CDist := do
  let vals ← v.evaluate true req rand
  let prob ← v.evalProb vals
  CDist.build (CRV.text fmt v.name vals) []
    [(v.name, vals, if vals.isscalar then none else some 0)] prob v.pscale

/-- variable.py:335-341: the length of the variable, between its transformed limits. -/
noncomputable def CRV.length (v : CRV) : ℝ :=
  max (v.ufun.fwd v.var.lo.toReal) (v.ufun.fwd v.var.hi.toReal) -
    min (v.ufun.fwd v.var.lo.toReal) (v.ufun.fwd v.var.hi.toReal)

/-- rv.py:160 with variable.py:338-341 for finite limits: the default probability. -/
noncomputable def CRV.defaultProb (v : CRV) : Py ℝ := rescale (-logProb v.length) (.str "log") v.pscale

/-! ### Steps -/

/-- The key of the successor (rv.py:88). -/
def CRV.prime (v : CRV) : Str := v.name ++ ['\'']

/-- variable.py:335-336: a limit transformed.  Simplification: transforms keep
infinite limits. -/
noncomputable def CRV.ulim (v : CRV) (x : EReal) : EReal :=
  match v.ufun with
  | none => x
  | some (f, _) => if x = ⊥ ∨ x = ⊤ then x else (f x.toReal : ℝ)

/-- rv.py:350-360: the default successor. -/
def CRV.defaultSucc (v : CRV) (pred : VArg ℝ) : CReq → Py CReq
  | .none =>
      match v.tran with
      | .none => .error .assertion                                        -- 350-351
      | _ =>
        match v.delta with
        | none => match pred with                                         -- 356-357
          | .scalar _ => .ok (.count 0)
          | .array xs => .ok (.array xs)
        | some f => match pred with                                       -- 358-360
          | .scalar x => .ok (.scalar (f x))
          | .array xs => .ok (.array (xs.map f))
  | s => .ok s

/-- rv.py:386-446: the successor values.  A unit set with a float looks up `_limits`,
which no variable has (line 394: AttributeError), or with a callable transition
`VTYPES[np.uint]`, which is no key (line 431: KeyError). -/
noncomputable def CRV.succVals (v : CRV) (pred : VArg ℝ) (succ : CReq) (rand : ℕ → ℝ) :
    Py (VArg ℝ) :=
  let callable : Py (VArg ℝ) :=
    match succ with
    | .scalar x => .ok (.scalar x)
    | .array xs => .ok (.array xs)                                        -- 443-444
    | .none => .error .assertion
    | .count n =>
        match v.tfun, pred with
        | none, _ => .error .assertion                                    -- 424-426
        | _, .array _ => .error .assertion                                -- 427-428
        | some (F, G), .scalar x =>                                       -- 429-442
            let a := F x (min (v.ulim v.var.lo) (v.ulim v.var.hi))
            let b := F x (max (v.ulim v.var.lo) (v.ulim v.var.hi))
            .ok ((uniform (min a b) (max a b) n v.var.s0.excl v.var.s1.excl rand).toVArg.map (G x))
    | .unit _ =>
        match v.tfun, pred with
        | none, _ => .error .assertion
        | _, .array _ => .error .assertion
        | _, _ => .error .key
  match v.tran with
  | .fn _ => callable
  | .pair _ _ => callable
  | _ =>
    match succ with
    | .count n => v.evaluate false (.count n) rand                        -- 388-389
    | .unit _ => .error .attribute                                        -- 390-394
    | .scalar x => .ok (.scalar x)
    | .array xs => .ok (.array xs)
    | .none => .error .assertion

/-- The value at a position, by the index lists of successor and predecessor. -/
def outerC (succ pred : VArg ℝ) (f : ℝ → ℝ → ℝ) : Arr :=
  ⟨succ.sizes ++ pred.sizes, fun i =>
    match succ.entry (i.take succ.sizes.length), pred.entry (i.drop succ.sizes.length) with
    | some s, some p => f s p
    | _, _ => 0⟩

/-- rv.py:449-492, and 533-537 when there is no transition. -/
noncomputable def CRV.evalTran (v : CRV) (pred succ : VArg ℝ) (reverse : Bool) : Py Arr :=
  match v.tran with
  | .none => .ok (outerC succ pred fun _ _ => 1)
  | .scalar p => .ok (outerC succ pred fun s q => rvEvalTranScalar v.var.inside p q s)
  | .fn f => f pred succ
  | .pair f r => if reverse then r pred succ else f pred succ

/-- rv.py:363-384: axes, the successor first. -/
def stepDims (succ pred : VArg ℝ) : Option ℕ × Option ℕ :=
  match succ, pred with
  | .scalar _, .scalar _ => (none, none)
  | .scalar _, .array _ => (none, some 0)
  | .array _, .scalar _ => (some 0, none)
  | .array _, .array _ => (some 0, some 1)

/-- rv.py:504-539.  `r0` are the draws for the predecessor, `r1` for the successor. -/
noncomputable def CRV.step (fmt : ℝ → Str) (v : CRV) (pred succ : CReq) (reverse : Bool)
    (r0 r1 : ℕ → ℝ) : Py CDist := do
  let p ← v.evaluate true pred r0
  let q ← v.defaultSucc p succ
  let s ← v.succVals p q r1
  let cond ← v.evalTran p s reverse
  CDist.build (CRV.text fmt v.prime s) (CRV.text fmt v.name p)
    [(v.prime, s, (stepDims s p).1), (v.name, p, (stepDims s p).2)] cond v.pscale

end Probayes
