/-
Model of processes moved by a function given to `set_delta`, with functions given to
`set_tran`: /repo/probayes/field.py:254-256, 478-509, 534-553, 556-597 for the steps,
/repo/probayes/rf.py:201-239, 496-538, 605-644 for their probabilities, and
/repo/probayes/sd.py:253-288 and /repo/probayes/sp_utils.py:19-72 for how they are judged.
-/
import Verif.Model.SP
import Verif.Model.RFCov

namespace Probayes

/-- What a function given to `set_delta` may return: an instance of the field's `Delta` of
numbers, another tuple, or something else. -/
inductive DeltaRet (n : ℕ) where
  | delta (δ : Fin n → ℝ)
  | tuple
  | other

/-- field.py:496-509 on what the function returned.  Other tuples are passed to line 509,
where there are no keyword arguments for the fields. -/
def DeltaRet.eval {n : ℕ} : DeltaRet n → Py (Fin n → ℝ)
  | .delta δ => .ok δ
  | .tuple => .error .type
  | .other => .error .assertion

/-- A float variable on which no delta was set (variable.py:376-380). -/
def bareCoord (x : FloatVar) (uf : UFun) : FCoord := ⟨x, uf, ⟨none, false, false⟩, 1⟩

/-- The draws of a step: those of the user's function, and that of sp_utils.py:31. -/
structure DDraw (Ω : Type) where
  d : Ω
  t : ℝ

/-- The step of the field (field.py:478-479, 546-553): the function is called without
further arguments (line 255 keeps those given to `set_delta`), and its numbers are applied.
`bound` is what `set_delta` was given under that name, which is passed to the function as
well (field.py:255, 549).  Variables with deltas of their own are not modelled here. -/
noncomputable def deltaStep {n : ℕ} {Ω : Type} (xs : Fin n → FloatVar) (ufs : Fin n → UFun) (bound : Bool)
    (f : Ω → Py (DeltaRet n)) (v : Fin n → ℝ) (ω : DDraw Ω) : Py (Fin n → ℝ) := do
  return applyNums (fun i => bareCoord (xs i) (ufs i)) bound v (← (← f ω.d).eval) 0

/-- What `sample` needs (sd.py:253-288).  `q v y` is what the function given to `set_tran`, or
the first of a pair, returns for a move from `v` to `y` (rf.py:515-517).  For pairs, there is a
reverse proposal (sd.py:276-277, rf.py:206, 239), which keeps the probability (rf.py:536). -/
def funOps {V Ω : Type} (step : V → Ω → Py V) (prob : V → ℝ) (q : V → V → ℝ) (pair : Bool) (start : V) :
    TranOps Unit (Row V) Ω where
  stepArg ω st := (st, do let y ← step start ω; return ⟨y, .scalar (q start y)⟩)
  stepFrom d ω st := (st, do let y ← step d.val ω; return ⟨y, .scalar (q d.val y)⟩)
  reval := if pair then some fun d => .ok d else none
  call d _ := .ok ⟨d.val, .scalar (prob d.val)⟩

/-- The process, with `set_scores('metropolis')` or `set_scores('hastings')`, which set the
threshold and the update as well (sp.py:61-66, 78-82). -/
noncomputable def funProc {V Ω : Type} (step : V → DDraw Ω → Py V) (prob : V → ℝ) (q : V → V → ℝ)
    (pair hastings : Bool) (start : V) (pscale : PSpec) : Proc Unit (Row V) (DDraw Ω) :=
  ⟨none, sampleTran (funOps step prob q pair start), false,
    some fun x => if hastings then hastingsScores Row.prob x pscale else metropolisScores Row.prob x pscale,
    some DDraw.t, some walkUpdate⟩

end Probayes
