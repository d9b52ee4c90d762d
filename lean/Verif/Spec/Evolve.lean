/-
Specification of the conditional distributions of a Markov chain (C95).
-/
import Verif.Spec.PD
import Mathlib.Data.Matrix.Mul

namespace Probayes

/-- `d` is the conditional distribution of the variable `y`, with values `ys`, given the
variable `x`, with values `xs`: one row of the probabilities for every value of `y` and
one column for every value of `x`.  In its name every variable is followed by the text
`sfx`. -/
structure Spec.Kernel (fmt : Val → Str) (d : PD) (y x sfx : Str) (ys xs : List ℚ)
    (T : Matrix (Fin ys.length) (Fin xs.length) ℝ) : Prop where
  wf : d.WF fmt
  marg : d.marg = [(y, y ++ sfx)]
  cond : d.cond = [(x, x ++ sfx)]
  succ : d.values y = some (.arr [ys.length] ys)
  pred : d.values x = some (.arr [xs.length] xs)
  axes : d.axis y = some 0 ∧ d.axis x = some 1
  entry : ∀ (i : Fin ys.length) (j : Fin xs.length), d.at [i.1, j.1] = T i j

/-- Distinct names of variables for the times 0, 1, 2, ... -/
structure Spec.Times (name : ℕ → Str) : Prop where
  distinct : Function.Injective name
  usable : ∀ i, name i ≠ [] ∧ ',' ∉ name i ∧ '|' ∉ name i ∧ '(' ∉ name i ∧ ')' ∉ name i ∧
    '=' ∉ name i ∧ name i ∉ disallowed

end Probayes
