/-
Moves by vectors whose law is unchanged by changing the signs of some components, with
bounces, are reversible for the uniform measure on a box; used for C90.
-/
import Verif.Lemmas.WalkJoint

namespace Probayes

open MeasureTheory

/-- The vector with the signs of the components in `S` changed. -/
def Spec.negated {n : ℕ} (S : Finset (Fin n)) (δ : Fin n → ℝ) : Fin n → ℝ := fun i => if i ∈ S then - δ i else δ i

theorem negated_measurable {n : ℕ} (S : Finset (Fin n)) : Measurable (Spec.negated S) := by
  refine measurable_pi_iff.mpr fun i => ?_
  by_cases h : i ∈ S
  · simp only [Spec.negated, h, if_true]
    exact (measurable_pi_apply i).neg
  · simp only [Spec.negated, h, if_false]
    exact measurable_pi_apply i

/-- The move of the coordinates in `S`, and the vector that leads back. -/
noncomputable def shearBy {n : ℕ} (S : Finset (Fin n)) (p : (Fin n → ℝ) × (Fin n → ℝ)) :
    (Fin n → ℝ) × (Fin n → ℝ) :=
  (p.1 + fun i => if i ∈ S then p.2 i else 0, Spec.negated S p.2)

theorem shearBy_measurable {n : ℕ} (S : Finset (Fin n)) : Measurable (shearBy S) :=
  (measurable_fst.add ((part_measurable S measurable_id).comp measurable_snd)).prodMk
    ((negated_measurable S).comp measurable_snd)

theorem shearBy_lintegral {n : ℕ} {ν : Measure (Fin n → ℝ)} [SFinite ν] (S : Finset (Fin n))
    (hS : ν.map (Spec.negated S) = ν) (H : (Fin n → ℝ) × (Fin n → ℝ) → ENNReal) (hH : Measurable H) :
    ∫⁻ p, H (shearBy S p) ∂(volume : Measure (Fin n → ℝ)).prod ν =
      ∫⁻ p, H p ∂(volume : Measure (Fin n → ℝ)).prod ν := by
  rw [lintegral_prod_symm' (fun p => H (shearBy S p)) (hH.comp (shearBy_measurable S)),
    lintegral_prod_symm' _ hH]
  have h1 : ∀ δ, ∫⁻ s, H (shearBy S (s, δ)) = ∫⁻ s, H (s, Spec.negated S δ) := by
    intro δ
    exact lintegral_add_right_eq_self (μ := (volume : Measure (Fin n → ℝ))) (fun s => H (s, Spec.negated S δ))
      fun i => if i ∈ S then δ i else 0
  simp only [h1]
  have hm : Measurable fun δ => ∫⁻ s, H (s, δ) := hH.lintegral_prod_left'
  conv_rhs => rw [← hS]
  rw [lintegral_map hm (negated_measurable S)]

theorem flips_reversible {n : ℕ} {ν : Measure (Fin n → ℝ)} [SFinite ν] {B : Fin n → Set ℝ}
    (hB : ∀ i, MeasurableSet (B i)) (hS : ∀ S, ν.map (Spec.negated S) = ν)
    (G : (Fin n → ℝ) → (Fin n → ℝ) → ENNReal) (hG : Measurable fun p : (Fin n → ℝ) × (Fin n → ℝ) => G p.1 p.2) :
    ∫⁻ s in Set.univ.pi B, ∫⁻ δ, G s (jointTo B id s δ) ∂ν =
      ∫⁻ s in Set.univ.pi B, ∫⁻ δ, G (jointTo B id s δ) s ∂ν := by
  classical
  have hmv := jointTo_measurable (e := id) hB measurable_id
  have hbox : MeasurableSet (Set.univ.pi B) := MeasurableSet.univ_pi hB
  have m1 : Measurable fun p : (Fin n → ℝ) × (Fin n → ℝ) => G p.1 (jointTo B id p.1 p.2) :=
    hG.comp (measurable_fst.prodMk hmv)
  have m2 : Measurable fun p : (Fin n → ℝ) × (Fin n → ℝ) => G (jointTo B id p.1 p.2) p.1 :=
    hG.comp (hmv.prodMk measurable_fst)
  -- the pieces
  let P : Finset (Fin n) → Set ((Fin n → ℝ) × (Fin n → ℝ)) := fun S =>
    {p | p.1 ∈ Set.univ.pi B ∧ ∀ i, (p.1 i + p.2 i ∈ B i ↔ i ∈ S)}
  have hPm : ∀ S, MeasurableSet (P S) := by
    intro S
    have h1 : MeasurableSet {p : (Fin n → ℝ) × (Fin n → ℝ) | p.1 ∈ Set.univ.pi B} := measurable_fst hbox
    have h2 : ∀ i, MeasurableSet {p : (Fin n → ℝ) × (Fin n → ℝ) | p.1 i + p.2 i ∈ B i ↔ i ∈ S} := by
      intro i
      have h3 : Measurable fun p : (Fin n → ℝ) × (Fin n → ℝ) => p.1 i + p.2 i :=
        ((measurable_pi_apply i).comp measurable_fst).add ((measurable_pi_apply i).comp measurable_snd)
      by_cases hi : i ∈ S
      · simp only [hi, iff_true]
        exact h3 (hB i)
      · simp only [hi, iff_false]
        exact (h3 (hB i)).compl
    have : P S = {p | p.1 ∈ Set.univ.pi B} ∩ ⋂ i, {p | p.1 i + p.2 i ∈ B i ↔ i ∈ S} := by
      ext p; simp [P]
    rw [this]
    exact h1.inter (MeasurableSet.iInter h2)
  -- the integrals over the pieces
  have hsplit : ∀ H : (Fin n → ℝ) × (Fin n → ℝ) → ENNReal, Measurable H →
      ∫⁻ s in Set.univ.pi B, ∫⁻ δ, H (s, δ) ∂ν =
        ∑ S : Finset (Fin n), ∫⁻ p, (P S).indicator H p ∂(volume : Measure (Fin n → ℝ)).prod ν := by
    intro H hH
    rw [← lintegral_prod H hH.aemeasurable, ← lintegral_finsetSum _ fun S _ => hH.indicator (hPm S)]
    have hr : (volume.restrict (Set.univ.pi B)).prod ν =
        ((volume : Measure (Fin n → ℝ)).prod ν).restrict (Set.univ.pi B ×ˢ Set.univ) := by
      rw [← Measure.prod_restrict, Measure.restrict_univ]
    rw [hr, ← lintegral_indicator (hbox.prod MeasurableSet.univ)]
    congr 1
    funext p
    by_cases hp : p.1 ∈ Set.univ.pi B
    · have hp' : p ∈ Set.univ.pi B ×ˢ (Set.univ : Set (Fin n → ℝ)) := ⟨hp, trivial⟩
      rw [Set.indicator_of_mem hp']
      rw [Finset.sum_eq_single (Finset.univ.filter fun i => p.1 i + p.2 i ∈ B i)]
      · rw [Set.indicator_of_mem]
        exact ⟨hp, fun i => by simp⟩
      · intro S _ hS
        rw [Set.indicator_of_notMem]
        rintro ⟨_, h⟩
        exact hS (by ext i; simp [h i])
      · simp
    · have hp' : p ∉ Set.univ.pi B ×ˢ (Set.univ : Set (Fin n → ℝ)) := fun h => hp h.1
      rw [Set.indicator_of_notMem hp', Finset.sum_eq_zero]
      intro S _
      rw [Set.indicator_of_notMem]
      exact fun h => hp h.1
  rw [hsplit (fun p => G p.1 (jointTo B id p.1 p.2)) m1, hsplit (fun p => G (jointTo B id p.1 p.2) p.1) m2]
  refine Finset.sum_congr rfl fun S _ => ?_
  rw [← shearBy_lintegral S (hS S) _ (m1.indicator (hPm S))]
  congr 1
  funext p
  have hmem : shearBy S p ∈ P S ↔ p ∈ P S := by
    simp only [P, Set.mem_setOf_eq, shearBy, Set.mem_pi, Set.mem_univ, true_imp_iff, Pi.add_apply, Spec.negated]
    rw [← forall_and, ← forall_and]
    refine forall_congr' fun i => ?_
    by_cases hi : i ∈ S
    · simp only [hi, if_true, add_neg_cancel_right, iff_true]
      exact and_comm
    · simp only [hi, if_false, add_zero]
  by_cases hp : p ∈ P S
  · rw [Set.indicator_of_mem (hmem.mpr hp), Set.indicator_of_mem hp]
    have e1 : (shearBy S p).1 = jointTo B id p.1 p.2 := by
      funext i
      simp only [shearBy, jointTo, Pi.add_apply, id, hp.2 i]
      by_cases hi : i ∈ S <;> simp [hi]
    have e2 : jointTo B id (shearBy S p).1 (shearBy S p).2 = p.1 := by
      funext i
      have hp' := (hmem.mpr hp).2 i
      simp only [jointTo, id, hp']
      simp only [shearBy, Pi.add_apply, Spec.negated]
      by_cases hi : i ∈ S <;> simp [hi]
    rw [e2, e1]
  · rw [Set.indicator_of_notMem (mt hmem.mp hp), Set.indicator_of_notMem hp]

end Probayes
