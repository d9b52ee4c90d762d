/-
Model of a process of float variables whose transition is a multivariate normal
distribution: `set_tran(scipy.stats.multivariate_normal, means, covar, tsteps=...)` and
`set_scores('gibbs')` (/repo/examples/mcmc/gibbs_norm2d.py).  /repo/probayes/rf.py:217-221,
276-284 make a conditional sampler of the distribution, /repo/probayes/rf_utils.py:50-65 calls
it for one variable, /repo/probayes/rf.py:369-410, 412-462 and 605-642 step by it, and
/repo/probayes/sd.py:253-288, /repo/probayes/sp.py:221-258 and
/repo/probayes/sp_utils.py:75-84 sample.  Variables are without transforms.
-/
import Verif.Model.Walk
import Verif.Model.RF

namespace Probayes

/-- The values of the others, if all are finite numbers. -/
noncomputable def allSome {n : ℕ} (f : Fin n → Option ℝ) : Option (Fin n → ℝ) :=
  open Classical in if h : ∀ j, (f j).isSome then some fun j => (f j).get (h j) else none

/-- rf_utils.py:50-65 with a dictionary as argument: the values are passed in the order of the
dictionary (not by their keys), the one of the unknown replaced by a request of one
sample.  `none` stands for a value that is not finite, of which every sum in
cond_cov.py:50-60 is not finite either.  The dictionary is taken to have as many entries
as there are means; `draw i` is the uniform draw at the `i`-th place. -/
noncomputable def sampleCondCov {K : Type} [DecidableEq K] {n : ℕ} (Φ : EReal ≃o Set.Icc (0 : ℝ) 1) (c : CondCov n)
    (draw : Fin (n + 1) → ℝ) (d : Dict K (Option ℝ)) (unknown : K) : Option ℝ :=
  if h : d.keys.idxOf unknown < n + 1 then
    let i : Fin (n + 1) := ⟨d.keys.idxOf unknown, h⟩
    match allSome fun j => (d.vals[(i.succAbove j : ℕ)]?).join with
    | none => none
    | some others =>
        match c.interp Φ i 0 others fun _ => draw i with
        | some z :: _ => open Classical in if z = ⊥ ∨ z = ⊤ then none else some z.toReal
        | _ => none
  else none

/-- rf.py:396-408: the successors in the order of the variables, KeyError if one is missing. -/
def inOrder {V : Type} (names : List Str) (d : Dict Str V) : Py (Dict Str V) :=
  names.mapM fun k =>
    match d.get? k with
    | some v => .ok (k, v)
    | none => .error .key

/-- rf.py:605-642 from a dictionary of numbers, one for each variable (in its order, see
field.py:403-404): the variables due are sampled given the others; `cursor` is the
process' counter of the variables (rf.py:446-452).  The transition probability is the default
(rf.py:493, 512-513). -/
noncomputable def gibbsStep {n : ℕ} (names : Fin (n + 1) → Str) (Φ : EReal ≃o Set.Icc (0 : ℝ) 1) (c : CondCov n)
    (tsteps : ℕ) (tran : ℝ) (d : Dict Str (Option ℝ)) (draw : Fin (n + 1) → ℝ) (cursor : Option ℕ) :
    Option ℕ × Py (Row (Dict Str (Option ℝ))) :=
  let o := evalTfun (sampleCondCov Φ c draw) tsteps cursor d
  (o.cursor, do return ⟨← inOrder (List.ofFn names) o.succ, .scalar tran⟩)

/-- What `sample` needs (sd.py:253-288): steps from the start or from the successor of the
last proposal, no reverse proposal as the transition counts as symmetric (rf.py:203), and
the probability `prob` of the values, a number. -/
noncomputable def gibbsOps {n : ℕ} (names : Fin (n + 1) → Str) (Φ : EReal ≃o Set.Icc (0 : ℝ) 1) (c : CondCov n)
    (tsteps : ℕ) (tran : ℝ) (prob : Dict Str (Option ℝ) → ℝ) (start : Dict Str (Option ℝ)) :
    TranOps (Option ℕ) (Row (Dict Str (Option ℝ))) (Fin (n + 1) → ℝ) where
  stepArg ω st := gibbsStep names Φ c tsteps tran start ω st
  stepFrom d ω st := gibbsStep names Φ c tsteps tran d.val ω st
  reval := none
  call d _ := .ok ⟨d.val, .scalar (prob d.val)⟩

/-- The process: scores and threshold are NaN (`none` here, not compared) and the update is
always `True` (sp_utils.py:75-84). -/
noncomputable def gibbsProc {n : ℕ} (names : Fin (n + 1) → Str) (Φ : EReal ≃o Set.Icc (0 : ℝ) 1) (c : CondCov n)
    (tsteps : ℕ) (tran : ℝ) (prob : Dict Str (Option ℝ) → ℝ) (start : Dict Str (Option ℝ)) :
    Proc (Option ℕ) (Row (Dict Str (Option ℝ))) (Fin (n + 1) → ℝ) :=
  ⟨none, sampleTran (gibbsOps names Φ c tsteps tran prob start), false, some fun _ => .ok none, none,
    some fun _ _ => .ok (some true)⟩

end Probayes
