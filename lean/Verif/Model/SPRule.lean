/-
Model of the acceptance rule of a process: /repo/probayes/sp.py:53-110
(`set_scores`, `set_thresh`, `set_update`, `eval_expr`), the table of samplers of
/repo/probayes/sp_utils.py:75-91 and the verdict of /repo/probayes/sp.py:247-258.

Functions given by the user are elements of a type `F` (with their arguments and
keywords); what they return is a parameter of the evaluation.
-/
import Verif.Model.MCMC

namespace Probayes

/-- sp_utils.py:87-91: the entries of `MCMC_SAMPLERS`. -/
inductive MSampler where
  | metropolis
  | hastings
  | gibbs
  deriving DecidableEq

/-- sp_utils.py:87-91: looking up a name in `MCMC_SAMPLERS`. -/
def samplerOf (x : String) : Option MSampler :=
  if x = "metropolis" then some .metropolis
  else if x = "hastings" then some .hastings
  else if x = "gibbs" then some .gibbs
  else none

/-- What scores, thresholds and updates may be: `None`, a number, `np.nan`, a
string or a Boolean. -/
inductive RuleVal where
  | none
  | num (x : ℝ)
  | nan
  | str (x : String)
  | bool (b : Bool)

/-- The argument of the three settings: `None`, a string, a function, a number
or a value that cannot be hashed (a list, an array). -/
inductive RuleArg (F : Type _) where
  | none
  | str (x : String)
  | fn (f : F)
  | num (x : ℝ)
  | unhashable

/-- What the process holds for scores, threshold or update: nothing, the function
of a sampler (for scores with the scale it was given, sp.py:64), a function, a
constant expression, or a value that was assigned but never made an expression
(sp.py:58 before 61-64 raises). -/
inductive RulePart (F : Type _) where
  | unset
  | named (k : MSampler) (pscale : PSpec)
  | fn (f : F)
  | const (v : RuleVal)
  | raw

/-- The three expressions (sp.py:22-24) and the scale of the process. -/
structure Rule (F : Type _) where
  scores : RulePart F
  thresh : RulePart F
  update : RulePart F
  scale : PScale

/-- A process on which nothing was set (sp.py:22-24, prob.py:85). -/
def Rule.new {F : Type _} (s : PScale) : Rule F := ⟨.unset, .unset, .unset, s⟩

/-- `Expression(value, *args, **kwds)` for a value that is not the name of a
sampler (expression.py:181-191): constants take no arguments.  `extra` tells
whether arguments or keywords are given. -/
def expressionOf {F : Type _} (a : RuleArg F) (extra : Bool) : Py (RulePart F) :=
  match a with
  | .none => .ok .unset
  | .fn f => .ok (.fn f)
  | .str x => if extra then .error .assertion else .ok (.const (.str x))
  | .num x => if extra then .error .assertion else .ok (.const (.num x))
  | .unhashable => .error .type

/-- The name of a sampler, if that is what is given (sp.py:61, 78, 95). -/
def RuleArg.sampler {F : Type _} : RuleArg F → Option MSampler
  | .str x => samplerOf x
  | _ => Option.none

/-- sp.py:91-100 `set_update`. -/
def Rule.setUpdate {F : Type _} (r : Rule F) (a : RuleArg F) (extra : Bool) : Rule F × Py Unit :=
  match a.sampler with
  | some k =>
      if extra then ({r with update := .raw}, .error .assertion)             -- 96-97
      else ({r with update := .named k .none}, .ok ())                       -- 98
  | none =>
    match expressionOf a extra with
    | .error e => ({r with update := .raw}, .error e)                        -- 92, 95, 100
    | .ok p => ({r with update := p}, .ok ())

/-- sp.py:73-83 `set_thresh`. -/
def Rule.setThresh {F : Type _} (r : Rule F) (a : RuleArg F) (extra : Bool) : Rule F × Py Unit :=
  match a.sampler with
  | some k =>
      if extra then ({r with thresh := .raw}, .error .assertion)             -- 79-80
      else ({r with thresh := .named k .none} : Rule F).setUpdate a false    -- 81-82
  | none =>
    match expressionOf a extra with
    | .error e => ({r with thresh := .raw}, .error e)                        -- 74, 78, 83
    | .ok p => ({r with thresh := p}, .ok ())

/-- sp.py:57-67 `set_scores`. -/
def Rule.setScores {F : Type _} (r : Rule F) (a : RuleArg F) (extra : Bool) : Rule F × Py Unit :=
  match a.sampler with
  | some k =>
      if extra then ({r with scores := .raw}, .error .assertion)             -- 62-63
      else ({r with scores := .named k r.scale.spec} : Rule F).setThresh a false  -- 64-65
  | none =>
    match expressionOf a extra with
    | .error e => ({r with scores := .raw}, .error e)                        -- 58, 61, 67
    | .ok p => ({r with scores := p}, .ok ())

/-- prob.py:243-258: assigning a scale to the process. -/
noncomputable def Rule.setScale {F : Type _} (r : Rule F) (p : PSpec) : Rule F × Py Unit :=
  match evalPscale p with
  | .error e => (r, .error e)
  | .ok s => ({r with scale := s}, .ok ())

/-- The settings of a process that bear on its acceptance rule. -/
inductive RuleOp (F : Type _) where
  | scores (a : RuleArg F) (extra : Bool)
  | thresh (a : RuleArg F) (extra : Bool)
  | update (a : RuleArg F) (extra : Bool)
  | scale (p : PSpec)

/-- One setting. -/
noncomputable def Rule.apply {F : Type _} (r : Rule F) : RuleOp F → Rule F × Py Unit
  | .scores a x => r.setScores a x
  | .thresh a x => r.setThresh a x
  | .update a x => r.setUpdate a x
  | .scale p => r.setScale p

/-- A sequence of settings, exceptions being caught by the user. -/
noncomputable def Rule.run {F : Type _} (r : Rule F) : List (RuleOp F) → Rule F
  | [] => r
  | op :: l => (r.apply op).1.run l

/-- What functions given by the user return. -/
structure RuleEnv (F D Ω : Type _) where
  prob : D → SA
  scores : F → OPQR D → Py RuleVal
  thresh : F → Ω → Py RuleVal
  update : F → RuleVal → RuleVal → Py RuleVal
  uniform : Ω → ℝ

/-- `None` or a number as a value. -/
def RuleVal.ofScore : Option ℝ → RuleVal
  | Option.none => .none
  | some x => .num x

/-- Evaluating the scores (sp.py:103-110 and sp_utils.py:19-27, 40-64, 75-76). -/
noncomputable def RulePart.evalScores {F D Ω : Type _} (E : RuleEnv F D Ω) (p : RulePart F)
    (x : OPQR D) : Py RuleVal :=
  match p with
  | .unset => .ok .none
  | .raw => .error .assertion
  | .const v => .ok v
  | .fn f => E.scores f x
  | .named .metropolis ps => do return .ofScore (← metropolisScores E.prob x ps)
  | .named .hastings ps => do return .ofScore (← hastingsScores E.prob x ps)
  | .named .gibbs _ => .ok .nan

/-- Evaluating the threshold (sp.py:103-110 and sp_utils.py:30-31, 67-68, 79-80). -/
def RulePart.evalThresh {F D Ω : Type _} (E : RuleEnv F D Ω) (p : RulePart F) (ω : Ω) :
    Py RuleVal :=
  match p with
  | .unset => .ok .none
  | .raw => .error .assertion
  | .const v => .ok v
  | .fn f => E.thresh f ω
  | .named .gibbs _ => .ok .nan
  | .named _ _ => .ok (.num (E.uniform ω))

/-- A Boolean as a number in comparisons. -/
def boolNum (b : Bool) : ℝ := if b then 1 else 0

/-- `s >= t` of Python for these values: `nan` compares false, strings compare
with strings only, `None` with nothing. -/
noncomputable def RuleVal.ge (s t : RuleVal) : Py Bool :=
  match s, t with
  | .num a, .num b => .ok (decide (b ≤ a))
  | .num a, .bool b => .ok (decide (boolNum b ≤ a))
  | .bool a, .num b => .ok (decide (b ≤ boolNum a))
  | .bool a, .bool b => .ok (decide (boolNum b ≤ boolNum a))
  | .nan, .nan | .nan, .num _ | .num _, .nan | .nan, .bool _ | .bool _, .nan => .ok false
  | .str a, .str b => .ok (decide (b ≤ a))
  | _, _ => .error .type

/-- sp_utils.py:34-37 on any values. -/
noncomputable def metropolisVerdict (s t : RuleVal) : Py RuleVal :=
  match s with
  | .none => .ok (.bool true)
  | s => do return if ← s.ge t then .bool true else .none

/-- Evaluating the update (sp.py:103-110 and sp_utils.py:34-37, 71-72, 83-84). -/
noncomputable def RulePart.evalUpdate {F D Ω : Type _} (E : RuleEnv F D Ω) (p : RulePart F)
    (s t : RuleVal) : Py RuleVal :=
  match p with
  | .unset => .ok .none
  | .raw => .error .assertion
  | .const v => .ok v
  | .fn f => E.update f s t
  | .named .gibbs _ => .ok (.bool true)
  | .named _ _ => metropolisVerdict s t

/-- Truth of a value. -/
noncomputable def RuleVal.truthy : RuleVal → Bool
  | .none => false
  | .num x => decide (x ≠ 0)
  | .nan => true
  | .str x => decide (x ≠ "")
  | .bool b => b

/-- Whether the part is `None`. -/
def RulePart.isUnset {F : Type _} : RulePart F → Bool
  | .unset => true
  | _ => false

/-- sp.py:247-258: whether the sample is accepted; `first` when the sampler has no
last sample. -/
noncomputable def Rule.accepts {F D Ω : Type _} (E : RuleEnv F D Ω) (r : Rule F) (first : Bool)
    (x : OPQR D) (ω : Ω) : Py Bool := do
  let s ← r.scores.evalScores E x
  let t ← r.thresh.evalThresh E ω
  let u ← r.update.evalUpdate E s t
  return r.update.isUnset || first || u.truthy

end Probayes
