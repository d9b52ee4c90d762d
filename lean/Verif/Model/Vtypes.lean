/-
Model of the numeric part of /repo/probayes/vtypes.py: `uniform` (169-204).
Values are exact reals.  Random draws are parameters in `[0,1)`.
-/
import Mathlib.Data.Real.Basic
import Verif.Base.Py

namespace Probayes

/-- `np.linspace(a, b, m)`: `m` points from `a` to `b` inclusive; a single point
is `a`. -/
noncomputable def linspace (a b : ℝ) (m : ℕ) : List ℝ :=
  (List.range m).map fun (i : ℕ) => a + (i : ℝ) * ((b - a) / ((m : ℝ) - 1))

/-- A scalar or a one-dimensional array of floats. -/
inductive SA where
  | scalar (x : ℝ)
  | array (xs : List ℝ)

/-- vtypes.py:169-204.  `rand i` is the i-th uniform draw from `[0,1)`;
`np.random.uniform(lo, hi)` is `lo + (hi - lo) * u`.  `n = 0` also stands for
`None` (line 187 `if not n`). -/
noncomputable def uniform (v0 v1 : ℝ) (n : ℤ) (ex0 ex1 : Bool) (rand : ℕ → ℝ) : SA :=
  if n = 0 then .scalar (v0 + (v1 - v0) * rand 0)                        -- 187-188
  else if n < 0 then
    .array ((List.range n.natAbs).map fun i => v0 + (v1 - v0) * rand i)   -- 189-190
  else
    let k := n.natAbs
    match ex0, ex1 with
    | false, false =>                                                     -- 193-197
        if k = 1 then .array (linspace v0 v1 3).tail.dropLast
        else .array (linspace v0 v1 k)
    | true, true => .array (linspace v0 v1 (k + 2)).tail.dropLast         -- 198-199
    | true, false => .array (linspace v0 v1 (k + 1)).tail                 -- 200-201
    | false, true => .array (linspace v0 v1 (k + 1)).dropLast             -- 202-203

end Probayes
