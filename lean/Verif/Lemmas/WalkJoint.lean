/-
Moves whose coordinates depend on all draws, with bounces, are reversible for the uniform
measure on a box if coordinates change sign with their draws; used for C85.
-/
import Verif.Lemmas.Moments

namespace Probayes

open MeasureTheory

/-- Where a move leads, coordinate by coordinate. -/
noncomputable def jointTo {n : ℕ} (B : Fin n → Set ℝ) (e : (Fin n → ℝ) → Fin n → ℝ) (s u : Fin n → ℝ) : Fin n → ℝ :=
  open Classical in fun i => if s i + e u i ∈ B i then s i + e u i else s i

theorem jointTo_measurable {n : ℕ} {B : Fin n → Set ℝ} (hB : ∀ i, MeasurableSet (B i))
    {e : (Fin n → ℝ) → Fin n → ℝ} (he : Measurable e) :
    Measurable fun p : (Fin n → ℝ) × (Fin n → ℝ) => jointTo B e p.1 p.2 := by
  refine measurable_pi_iff.mpr fun i => ?_
  have h1 : Measurable fun p : (Fin n → ℝ) × (Fin n → ℝ) => p.1 i := (measurable_pi_apply i).comp measurable_fst
  have h2 : Measurable fun p : (Fin n → ℝ) × (Fin n → ℝ) => p.1 i + e p.2 i :=
    h1.add ((measurable_pi_apply i).comp (he.comp measurable_snd))
  exact Measurable.ite (h2 (hB i)) h2 h1

/-- The move of the coordinates in `A`, and the draws that lead back. -/
noncomputable def shear {n : ℕ} (A : Finset (Fin n)) (e : (Fin n → ℝ) → Fin n → ℝ)
    (p : (Fin n → ℝ) × (Fin n → ℝ)) : (Fin n → ℝ) × (Fin n → ℝ) :=
  (p.1 + fun i => if i ∈ A then e p.2 i else 0, flipOn A p.2)

theorem part_measurable {n : ℕ} (A : Finset (Fin n)) {e : (Fin n → ℝ) → Fin n → ℝ} (he : Measurable e) :
    Measurable fun u : Fin n → ℝ => fun i => if i ∈ A then e u i else 0 := by
  refine measurable_pi_iff.mpr fun i => ?_
  by_cases h : i ∈ A
  · simp only [h, if_true]
    exact (measurable_pi_apply i).comp he
  · simp only [h, if_false]
    exact measurable_const

theorem shear_measurable {n : ℕ} (A : Finset (Fin n)) {e : (Fin n → ℝ) → Fin n → ℝ} (he : Measurable e) :
    Measurable (shear A e) :=
  (measurable_fst.add ((part_measurable A he).comp measurable_snd)).prodMk
    ((flipOn_measurable A).comp measurable_snd)

theorem shear_lintegral {n : ℕ} (A : Finset (Fin n)) {e : (Fin n → ℝ) → Fin n → ℝ} (he : Measurable e)
    (H : (Fin n → ℝ) × (Fin n → ℝ) → ENNReal) (hH : Measurable H) :
    ∫⁻ p, H (shear A e p) ∂(volume : Measure (Fin n → ℝ)).prod (cubeLaw n) =
      ∫⁻ p, H p ∂(volume : Measure (Fin n → ℝ)).prod (cubeLaw n) := by
  rw [lintegral_prod_symm' (fun p => H (shear A e p)) (hH.comp (shear_measurable A he)),
    lintegral_prod_symm' _ hH]
  have h1 : ∀ u, ∫⁻ s, H (shear A e (s, u)) = ∫⁻ s, H (s, flipOn A u) := by
    intro u
    exact lintegral_add_right_eq_self (μ := (volume : Measure (Fin n → ℝ))) (fun s => H (s, flipOn A u))
      fun i => if i ∈ A then e u i else 0
  simp only [h1]
  exact (flipOn_preserving A).lintegral_comp (f := fun u => ∫⁻ s, H (s, u)) hH.lintegral_prod_left'

theorem jointTo_reversible {n : ℕ} {B : Fin n → Set ℝ} (hB : ∀ i, MeasurableSet (B i))
    {e : (Fin n → ℝ) → Fin n → ℝ} (he : Measurable e)
    (hsym : ∀ A : Finset (Fin n), (∀ i, i ∉ A → B i ≠ Set.univ) → ∀ u i,
      e (flipOn A u) i = if i ∈ A then - e u i else e u i)
    (G : (Fin n → ℝ) → (Fin n → ℝ) → ENNReal) (hG : Measurable fun p : (Fin n → ℝ) × (Fin n → ℝ) => G p.1 p.2) :
    ∫⁻ s in Set.univ.pi B, ∫⁻ u, G s (jointTo B e s u) ∂cubeLaw n =
      ∫⁻ s in Set.univ.pi B, ∫⁻ u, G (jointTo B e s u) s ∂cubeLaw n := by
  classical
  have hmv := jointTo_measurable hB he
  have hbox : MeasurableSet (Set.univ.pi B) := MeasurableSet.univ_pi hB
  have m1 : Measurable fun p : (Fin n → ℝ) × (Fin n → ℝ) => G p.1 (jointTo B e p.1 p.2) :=
    hG.comp (measurable_fst.prodMk hmv)
  have m2 : Measurable fun p : (Fin n → ℝ) × (Fin n → ℝ) => G (jointTo B e p.1 p.2) p.1 :=
    hG.comp (hmv.prodMk measurable_fst)
  -- the pieces
  let P : Finset (Fin n) → Set ((Fin n → ℝ) × (Fin n → ℝ)) := fun A =>
    {p | p.1 ∈ Set.univ.pi B ∧ ∀ i, (p.1 i + e p.2 i ∈ B i ↔ i ∈ A)}
  have hPm : ∀ A, MeasurableSet (P A) := by
    intro A
    have h1 : MeasurableSet {p : (Fin n → ℝ) × (Fin n → ℝ) | p.1 ∈ Set.univ.pi B} := measurable_fst hbox
    have h2 : ∀ i, MeasurableSet {p : (Fin n → ℝ) × (Fin n → ℝ) | p.1 i + e p.2 i ∈ B i ↔ i ∈ A} := by
      intro i
      have h3 : Measurable fun p : (Fin n → ℝ) × (Fin n → ℝ) => p.1 i + e p.2 i :=
        ((measurable_pi_apply i).comp measurable_fst).add ((measurable_pi_apply i).comp (he.comp measurable_snd))
      by_cases hi : i ∈ A
      · simp only [hi, iff_true]
        exact h3 (hB i)
      · simp only [hi, iff_false]
        exact (h3 (hB i)).compl
    have : P A = {p | p.1 ∈ Set.univ.pi B} ∩ ⋂ i, {p | p.1 i + e p.2 i ∈ B i ↔ i ∈ A} := by
      ext p; simp [P]
    rw [this]
    exact h1.inter (MeasurableSet.iInter h2)
  -- the integrals over the pieces
  have hsplit : ∀ H : (Fin n → ℝ) × (Fin n → ℝ) → ENNReal, Measurable H →
      ∫⁻ s in Set.univ.pi B, ∫⁻ u, H (s, u) ∂cubeLaw n =
        ∑ A : Finset (Fin n), ∫⁻ p, (P A).indicator H p ∂(volume : Measure (Fin n → ℝ)).prod (cubeLaw n) := by
    intro H hH
    rw [← lintegral_prod H hH.aemeasurable, ← lintegral_finsetSum _ fun A _ => hH.indicator (hPm A)]
    have hr : (volume.restrict (Set.univ.pi B)).prod (cubeLaw n) =
        ((volume : Measure (Fin n → ℝ)).prod (cubeLaw n)).restrict (Set.univ.pi B ×ˢ Set.univ) := by
      rw [← Measure.prod_restrict, Measure.restrict_univ]
    rw [hr, ← lintegral_indicator (hbox.prod MeasurableSet.univ)]
    congr 1
    funext p
    by_cases hp : p.1 ∈ Set.univ.pi B
    · have hp' : p ∈ Set.univ.pi B ×ˢ (Set.univ : Set (Fin n → ℝ)) := ⟨hp, trivial⟩
      rw [Set.indicator_of_mem hp']
      rw [Finset.sum_eq_single (Finset.univ.filter fun i => p.1 i + e p.2 i ∈ B i)]
      · rw [Set.indicator_of_mem]
        exact ⟨hp, fun i => by simp⟩
      · intro A _ hA
        rw [Set.indicator_of_notMem]
        rintro ⟨_, h⟩
        exact hA (by ext i; simp [h i])
      · simp
    · have hp' : p ∉ Set.univ.pi B ×ˢ (Set.univ : Set (Fin n → ℝ)) := fun h => hp h.1
      rw [Set.indicator_of_notMem hp', Finset.sum_eq_zero]
      intro A _
      rw [Set.indicator_of_notMem]
      exact fun h => hp h.1
  rw [hsplit (fun p => G p.1 (jointTo B e p.1 p.2)) m1, hsplit (fun p => G (jointTo B e p.1 p.2) p.1) m2]
  refine Finset.sum_congr rfl fun A _ => ?_
  by_cases hA : ∀ i, i ∉ A → B i ≠ Set.univ
  · rw [← shear_lintegral A he _ (m1.indicator (hPm A))]
    congr 1
    funext p
    have hs := hsym A hA p.2
    -- where the piece is mapped
    have hmem : shear A e p ∈ P A ↔ p ∈ P A := by
      simp only [P, Set.mem_setOf_eq, shear, Set.mem_pi, Set.mem_univ, true_imp_iff, Pi.add_apply, hs]
      rw [← forall_and, ← forall_and]
      refine forall_congr' fun i => ?_
      by_cases hi : i ∈ A
      · simp only [hi, if_true, add_neg_cancel_right, iff_true]
        exact and_comm
      · simp only [hi, if_false, add_zero]
    by_cases hp : p ∈ P A
    · rw [Set.indicator_of_mem (hmem.mpr hp), Set.indicator_of_mem hp]
      have e1 : (shear A e p).1 = jointTo B e p.1 p.2 := by
        funext i
        simp only [shear, jointTo, Pi.add_apply, hp.2 i]
        by_cases hi : i ∈ A <;> simp [hi]
      have e2 : jointTo B e (shear A e p).1 (shear A e p).2 = p.1 := by
        funext i
        have hp' := (hmem.mpr hp).2 i
        simp only [jointTo, hp']
        simp only [shear, Pi.add_apply, hs i]
        by_cases hi : i ∈ A <;> simp [hi]
      rw [e2, e1]
    · rw [Set.indicator_of_notMem (mt hmem.mp hp), Set.indicator_of_notMem hp]
  · -- no such piece
    push Not at hA
    obtain ⟨i, hi, hu⟩ := hA
    have hempty : P A = ∅ := by
      ext p
      simp only [P, Set.mem_setOf_eq, Set.mem_empty_iff_false, iff_false, not_and]
      intro _ h
      exact hi ((h i).mp (by rw [hu]; trivial))
    simp [hempty]

end Probayes
