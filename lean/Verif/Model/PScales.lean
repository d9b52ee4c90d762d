/-
Model of /repo/probayes/constants.py and /repo/probayes/pscales.py.

Simplifications: numbers are exact reals; numpy arrays are handled entry by
entry, so every function here is the scalar version (the array versions in the
source apply the same formula to every entry).  `np.log` of a non-positive
number (NaN / -inf with a warning in numpy) is Lean's totalised `Real.log`;
theorems therefore restrict scales to positive coefficients where it matters.
-/
import Mathlib.Analysis.SpecialFunctions.Log.Basic
import Mathlib.Analysis.SpecialFunctions.Trigonometric.Basic
import Verif.Base.Py

namespace Probayes

/-- constants.py:11 (64-bit, the default precision): `2.2250738585072014e-308`,
written as a fraction. -/
noncomputable def npz : ℝ := 22250738585072014 / (10 ^ 162 * 10 ^ 162)
/-- constants.py:12. -/
noncomputable def npi : ℝ := 1.7976931348623158e+308
/-- constants.py:31. -/
noncomputable def nni : ℝ := -npi
/-- constants.py:32. -/
noncomputable def logNpi : ℝ := Real.log npi

/-- A probability-scale argument as a Python value (before evaluation).
Booleans are Python ints.  `other` is any value that is neither `None`, a
string, nor a number (e.g. a list). -/
inductive PSpec where
  | none
  | str (s : String)
  | int (n : ℤ)
  | flt (r : ℝ)
  | cplx (re im : ℝ)
  | other

/-- An evaluated scale: a Python float or complex. -/
inductive PScale where
  | lin (c : ℝ)
  | log (re im : ℝ)

/-- Passing an evaluated scale as argument. -/
def PScale.spec : PScale → PSpec
  | .lin c => .flt c
  | .log re im => .cplx re im

/-- pscales.py:16-18 on raw arguments. -/
def PSpec.iscomplex : PSpec → Bool
  | .cplx _ _ => true
  | _ => false

/-- pscales.py:16-18 on evaluated scales. -/
def PScale.iscomplex : PScale → Bool
  | .log _ _ => true
  | .lin _ => false

/-- constants.py:8 -/
noncomputable def complexZero : PScale := .log 0 0

/-- pscales.py:21-41.  The comparison `pscale == 1` (line 29) also holds for the
complex number `1+0j`, and `pscale in [..., 0]` (line 31) for `0j`. -/
noncomputable def evalPscale : PSpec → Py PScale
  | .none => .ok (.lin 1)
  | .str s => if s = "log" ∨ s = "ln" then .ok complexZero else .error .value
  | .int n => if n = 1 then .ok (.lin 1)
              else if n = 0 then .ok complexZero else .ok (.lin n)
  | .flt r => if r = 1 then .ok (.lin 1)
              else if r = 0 then .ok complexZero else .ok (.lin r)
  | .cplx re im => if re = 1 ∧ im = 0 then .ok (.lin 1)
                   else if re = 0 ∧ im = 0 then .ok complexZero
                   else .ok (.log re im)
  | .other => .error .value

/-- pscales.py:44-53 -/
noncomputable def logProb (p : ℝ) : ℝ := if npz ≤ p then Real.log p else nni

/-- pscales.py:56-65 -/
noncomputable def expLogp (l : ℝ) : ℝ := if l ≤ logNpi then Real.exp l else npi

/-- pscales.py:68-75, after evaluation of the scale. -/
noncomputable def logpOffs : PScale → ℝ
  | .lin c => Real.log c
  | .log re im => if |im| < npz then re else -re

/-- pscales.py:78-85, after evaluation of the scale. -/
noncomputable def probCoef : PScale → ℝ
  | .lin c => c
  | .log re im => if |im| < npz then Real.exp re else Real.exp (-re)

/-- pscales.py:88-97 -/
noncomputable def realSqrt (x : ℝ) : ℝ := if npz ≤ x then Real.sqrt x else 0

/-- pscales.py:113-131: the numeric part of `rescale` once both scales are
evaluated. -/
noncomputable def rescaleE (prob : ℝ) (a b : PScale) : ℝ :=
  match a, b with
  | .lin c, .lin d =>
      if c = d then prob                              -- line 114
      else if c / d = 1 then prob else c / d * prob   -- lines 118-123
  | .log re im, .log re' im' =>
      if re = re' ∧ im = im' then prob                -- line 114
      else
        let d := logpOffs (.log re im) - logpOffs (.log re' im')
        if npz ≤ |d| then prob + d else prob          -- lines 127-130
  | .lin c, .log re' im' =>
      let prob := logProb prob                        -- line 126
      let d := logpOffs (.lin c) - logpOffs (.log re' im')
      if npz ≤ |d| then prob + d else prob
  | .log re im, .lin c =>
      let d := logpOffs (.log re im) - logpOffs (.lin c)
      expLogp (if npz ≤ |d| then prob + d else prob)  -- line 131

/-- pscales.py:100-131, called with two scales.  (With fewer arguments the
missing ones are `None`; without any the input is returned.) -/
noncomputable def rescale (prob : ℝ) (pscale rtype : PSpec) : Py ℝ := do
  let a ← evalPscale pscale
  let b ← evalPscale rtype
  return rescaleE prob a b

/-- Loop of pscales.py:144-149 with `use_logp`. -/
noncomputable def prodPscaleLog : List PSpec → ℝ → Py ℝ
  | [], acc => .ok acc
  | s :: ss, acc => do
      let e ← evalPscale s
      prodPscaleLog ss (acc + logpOffs e)

/-- Loop of pscales.py:144-149 without `use_logp`. -/
noncomputable def prodPscaleLin : List PSpec → ℝ → Py ℝ
  | [], acc => .ok acc
  | s :: ss, acc => do
      let e ← evalPscale s
      prodPscaleLin ss (acc * probCoef e)

/-- pscales.py:150-156: encoding of the accumulated log offset. -/
noncomputable def encodeOffs (r : ℝ) : PScale :=
  if |r| < npz then complexZero
  else if 0 < r then .log (Real.log r) 0
  else .log (Real.log (-r)) Real.pi

/-- pscales.py:134-157.  `None` is returned for the empty list. -/
noncomputable def prodPscale (pscales : List PSpec) (useLogp : Option Bool) :
    Py (Option PScale) :=
  if pscales.isEmpty then .ok none
  else
    let u := useLogp.getD (pscales.any PSpec.iscomplex)
    if u then do
      let r ← prodPscaleLog pscales 0
      return some (encodeOffs r)
    else do
      let r ← prodPscaleLin pscales 1
      return some (.lin r)

/-- pscales.py:180-191 `_apply_prod` (`np.copy(probs[0])` for one element; an
empty list raises IndexError at `probs[0]`). -/
noncomputable def applyProd (useLogp : Bool) : List ℝ → Py ℝ
  | [] => .error .index
  | p :: ps => .ok (ps.foldl (fun acc q => if useLogp then acc + q else acc * q) p)

/-- Python `ppscale == pscale` between the evaluated product scale and the raw
requested scale. -/
noncomputable def specEq (a : Option PScale) (b : PSpec) : Bool :=
  match a, b with
  | none, .none => true
  | some (.lin c), .int n => decide (c = n)
  | some (.lin c), .flt r => decide (c = r)
  | some (.lin c), .cplx re im => decide (c = re ∧ im = 0)
  | some (.log re im), .cplx re' im' => decide (re = re' ∧ im = im')
  | some (.log re im), .int n => decide (re = n ∧ im = 0)
  | some (.log re im), .flt r => decide (re = r ∧ im = 0)
  | _, _ => false

/-- pscales.py:203-211: bring one factor to log or linear form (its own scale
coefficient is accounted for by the product scale). -/
noncomputable def toCommon (useLogp : Bool) (p : ℝ) (s : PSpec) : ℝ :=
  if useLogp then (if s.iscomplex then p else logProb p)
  else (if s.iscomplex then expLogp p else p)

/-- pscales.py:160-216.  `pscale? = none` means the keyword is absent.  The
branch at lines 194-195 (`use_logp != iscomplex(ppscale)`) needs an empty list
with `use_logp=True`; there `np.log(None)` raises TypeError. -/
noncomputable def prodRule (args : List ℝ) (pscales : List PSpec)
    (useLogp : Option Bool) (pscale? : Option PSpec) : Py (ℝ × PSpec) := do
  let u := useLogp.getD (pscales.any PSpec.iscomplex)
  let ppscale ← prodPscale pscales (some u)
  let pscale : PSpec := pscale?.getD (match ppscale with
    | none => .none
    | some s => s.spec)
  if args.length ≠ pscales.length then .error .assertion
  else
    let pcx := match ppscale with | none => false | some s => s.iscomplex
    if u ≠ pcx then .error .type
    else if u == pscale.iscomplex && specEq ppscale pscale &&
        (pscales.all PSpec.iscomplex || !pscales.any PSpec.iscomplex)
        && !pscales.isEmpty then do
      let prob ← applyProd u args
      return (prob, pscale)
    else do
      let probs := List.zipWith (toCommon u) args pscales
      let prob ← applyProd u probs
      if u ≠ pscale.iscomplex then do
        -- line 214 passes the *list* `pscales` as target scale
        let _ ← rescale prob ((match ppscale with | none => PSpec.none | some s => s.spec)) .other
        return (prob, pscale)
      else return (prob, pscale)

/-- Python truth value of a scale argument (line 232 `pscale or ...`). -/
noncomputable def PSpec.truthy : PSpec → Bool
  | .none => false
  | .str s => s ≠ ""
  | .int n => n ≠ 0
  | .flt r => decide (r ≠ 0)
  | .cplx re im => decide (¬ (re = 0 ∧ im = 0))
  | .other => true

/-- pscales.py:219-236.  `pscales? = none` when no positional scales are given. -/
noncomputable def divProb (dividend divisor : ℝ) (pscales? : Option (PSpec × PSpec))
    (pscale : PSpec) : Py ℝ := do
  let (s0, s1, out) ← (match pscales? with
    | none => (.ok (PSpec.none, PSpec.none, pscale) : Py (PSpec × PSpec × PSpec))
    | some (a, b) => do
        let a' ← evalPscale a
        let b' ← evalPscale b
        return (a'.spec, b'.spec, if pscale.truthy then pscale else a'.spec))
  let x ← rescale dividend s0 .none
  let y ← rescale divisor s1 .none
  rescale (x / max npz y) .none out

end Probayes
