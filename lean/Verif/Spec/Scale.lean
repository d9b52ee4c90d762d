/-
Specification of probability scales (module docstring of pscales.py, lines 1-5:
"probability coefficients (positive float scalars) or log probability offsets
(complex float scalars)"): what probability a stored number denotes.
-/
import Verif.Model.PScales

namespace Probayes

/-- Log offset a complex scale stands for: its real part, negated when the
imaginary part is (numerically) non-zero. -/
noncomputable def Spec.offset (re im : ℝ) : ℝ := if |im| < npz then re else -re

/-- The probability denoted by the stored number `x` on a given scale. -/
noncomputable def Spec.value : PScale → ℝ → ℝ
  | .lin c, x => c * x
  | .log re im, x => Real.exp (x + Spec.offset re im)

/-- The factor a scale contributes. -/
noncomputable def Spec.factor : PScale → ℝ
  | .lin c => c
  | .log re im => Real.exp (Spec.offset re im)

/-- A meaningful scale: linear coefficients are positive. -/
def Spec.Valid : PScale → Prop
  | .lin c => 0 < c
  | .log _ _ => True

end Probayes
