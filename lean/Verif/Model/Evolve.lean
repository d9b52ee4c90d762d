/-
The evolution of a Markov chain by conditional distributions, as the example
/repo/examples/markov/markov_norm.py:26-35 writes it with the operations of the
library.
-/
import Verif.Model.PDMarg
import Verif.Model.PDOps
import Verif.Model.PDProduct

namespace Probayes

/-- examples/markov/markov_norm.py:27-28: the conditional distribution between two successive
times, named by the times. -/
noncomputable def PD.timed (fmt : Val → Str) (cond : PD) (x x' : Str) (name : ℕ → Str) (i : ℕ) : Py PD :=
  cond.rekey fmt [(x, name i), (x', name (i + 1))]

/-- examples/markov/markov_norm.py:32-33: `joint = recond * last_cond` (pd.py:564-565, the product
of two distributions) and `joint.marginalise(name)` (pd.py:136-165; a single key
stands for the list of it). -/
noncomputable def PD.chainOn (fmt : Val → Str) (recond last : PD) (key : Str) : Py PD := do
  match ← product fmt [recond, last] with
  | some joint => joint.marginalise fmt [key]
  | none => .error .type

/-- examples/markov/markov_norm.py:26-33: `last_cond` after round `i` of the loop. -/
noncomputable def PD.evolve (fmt : Val → Str) (cond : PD) (x x' : Str) (name : ℕ → Str) : ℕ → Py PD
  | 0 => cond.timed fmt x x' name 0
  | i + 1 => do
    let last ← cond.evolve fmt x x' name i
    let recond ← cond.timed fmt x x' name (i + 1)
    recond.chainOn fmt last (name (i + 1))

/-- examples/markov/markov_norm.py:34: `conds[i] = last_cond.rescaled()`. -/
noncomputable def PD.conds (fmt : Val → Str) (cond : PD) (x x' : Str) (name : ℕ → Str) (i : ℕ) : Py PD := do
  let last ← cond.evolve fmt x x' name i
  last.rescaled fmt .none

end Probayes
