/-
Properties C54 and C55: random boolean deltas and the `scale` option.
-/
import Verif.Props.Variable

namespace Probayes

/-! ### C54 random boolean deltas -/

/-- C54 for arrays: an entry is flipped exactly when its draw is below the
requested flip probability. -/
theorem C54_array_flip (v : Bool) (p u : ℝ) :
    (boolRandEntry v p u = !v ↔ u < p) ∧ (boolRandEntry v p u = v ↔ p ≤ u) := by
  unfold boolRandEntry
  by_cases h : p > u
  · cases v <;> simp [h]
  · have h' : p ≤ u := not_lt.mp h
    cases v <;> simp [h, not_lt.mpr h', h']

/-- C54 full claim for scalars: flipped exactly when the draw is below `p`. -/
def C54_scalar_claim : Prop :=
  ∀ (v : Bool) (p u : ℝ), 0 ≤ p → p ≤ 1 → 0 ≤ u → u < 1 →
    (boolRandScalar v p u = !v ↔ u < p)

/-- C54 fails for scalars: with flip probability 0 the value is always flipped. -/
theorem C54_scalar_claim_fails : ¬ C54_scalar_claim := by
  intro h
  have := (h true 0 0 (le_refl _) zero_le_one (le_refl _) one_pos).mp (by simp [boolRandScalar])
  exact absurd this (lt_irrefl _)

/-- C54: what the scalar code does: the value is kept exactly for draws strictly
between one half and `p`. -/
theorem C54_scalar_partial (v : Bool) (p u : ℝ) :
    boolRandScalar v p u = v ↔ 1/2 < u ∧ u < p := by
  unfold boolRandScalar
  by_cases h : p > u ∧ u > 1/2
  · rw [if_pos h]; exact ⟨fun _ => ⟨h.2, h.1⟩, fun _ => rfl⟩
  · rw [if_neg h]
    constructor
    · intro hc; cases v <;> simp at hc
    · intro hc; exact absurd ⟨hc.2, hc.1⟩ h

/-! ### C55 the `scale` option -/

/-- C55: `eval_delta()` multiplies a plain default delta by the variable's
length when `scale` is set. -/
theorem C55_eval_scaled (d len u : ℝ) (bound : Bool) (hd : d ≠ 0) :
    evalDelta ⟨some (.scalar d), true, bound⟩ len none u = some (d * len) ∧
    evalDelta ⟨some (.scalar d), false, bound⟩ len none u = some d := by
  simp [evalDelta, orDefault, isDefaultScalar]

/-- C55 full claim: the default delta applied by `apply_delta` is scaled. -/
def C55_claim : Prop :=
  ∀ (x : FloatVar) (d len v u : ℝ),
    x.applyScalar none ⟨some (.scalar d), true, false⟩ len v none none u = v + d * len

/-- C55 fails: `apply_delta` adds the unscaled default delta, ... -/
theorem C55_claim_fails : ¬ C55_claim := by
  intro h
  have := h ⟨⟨0, false⟩, ⟨2, false⟩, 0, 2⟩ 1 2 0 0
  simp [FloatVar.applyScalar, effectiveDelta, orDefault, shift] at this

/-- ... indeed the option and the length never matter when the default delta is
applied, whatever its kind. -/
theorem C55_scale_ignored_partial (x : FloatVar) (uf : UFun) (d : Option DeltaSpec)
    (scale scale' bound : Bool) (len len' v u : ℝ) (b : Option Bool) :
    x.applyScalar uf ⟨d, scale, bound⟩ len v none b u =
      x.applyScalar uf ⟨d, scale', bound⟩ len' v none b u := by
  rcases d with _ | ⟨d | d | d | d⟩ <;>
    simp [FloatVar.applyScalar, effectiveDelta, orDefault, evalDelta, DeltaSpec.truthy,
      isDefaultScalar]

end Probayes
