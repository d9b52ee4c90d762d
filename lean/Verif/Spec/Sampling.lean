/-
C97: independent uniform draws, monotone transforms.
-/
import Verif.Model.Variable
import Verif.Lemmas.WalkField
import Mathlib.Probability.ProductMeasure

namespace Probayes

/-- The law of an endless sequence of independent draws from the uniform distribution on [0, 1). -/
noncomputable def Spec.streamLaw : MeasureTheory.Measure (ℕ → ℝ) :=
  MeasureTheory.Measure.infinitePi fun _ : ℕ =>
    MeasureTheory.volume.restrict (Set.Ico (0 : ℝ) 1)

/-- A transform that is continuous and strictly monotone (either way) over the interval, with its
inverse; no transform is the identity. -/
def Spec.Monotone (uf : UFun) (lo hi : ℝ) : Prop :=
  match uf with
  | none => True
  | some (f, g) => ContinuousOn f (Set.Icc lo hi) ∧
      (StrictMonoOn f (Set.Icc lo hi) ∨ StrictAntiOn f (Set.Icc lo hi)) ∧
      ∀ x ∈ Set.Icc lo hi, g (f x) = x

/-- The transform. -/
def Spec.through (uf : UFun) (x : ℝ) : ℝ :=
  match uf with
  | none => x
  | some (f, _) => f x

/-- The share of the transformed interval below `t`. -/
noncomputable def Spec.portion (uf : UFun) (lo hi t : ℝ) : ℝ :=
  (Spec.through uf t - Spec.through uf lo) / (Spec.through uf hi - Spec.through uf lo)

end Probayes
