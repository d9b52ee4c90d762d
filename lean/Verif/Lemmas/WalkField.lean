/-
Symmetric moves with bounces, in several coordinates, are reversible for the uniform measure
on a box; used for C83.
-/
import Mathlib.MeasureTheory.Measure.Lebesgue.Basic
import Mathlib.MeasureTheory.Measure.Lebesgue.VolumeOfBalls
import Mathlib.MeasureTheory.Constructions.Pi
import Mathlib.MeasureTheory.Group.LIntegral

namespace Probayes

open MeasureTheory

/-- The uniform measure on `[0, 1)`. -/
noncomputable abbrev unitLaw : Measure ℝ := volume.restrict (Set.Ico 0 1)

theorem unitLaw_flip (f : ℝ → ENNReal) : ∫⁻ u, f (1 - u) ∂unitLaw = ∫⁻ u, f u ∂unitLaw := by
  unfold unitLaw
  have h : ∫⁻ u in Set.Ico (0:ℝ) 1, f (1 - u) = ∫⁻ u, (Set.Ioc (0:ℝ) 1).indicator f (1 - u) := by
    rw [← lintegral_indicator measurableSet_Ico]
    congr 1
    funext u
    by_cases hu : u ∈ Set.Ico (0:ℝ) 1
    · rw [Set.indicator_of_mem hu, Set.indicator_of_mem (by constructor <;> linarith [hu.1, hu.2])]
    · rw [Set.indicator_of_notMem hu, Set.indicator_of_notMem]
      rintro ⟨h1, h2⟩
      exact hu ⟨by linarith, by linarith⟩
  rw [h, lintegral_sub_left_eq_self (fun u => (Set.Ioc (0:ℝ) 1).indicator f u) 1,
    lintegral_indicator measurableSet_Ioc, setLIntegral_congr Ico_ae_eq_Ioc]

/-- A move by `e u` that bounces off the outside of `B`, together with the draw that leads
back. -/
noncomputable def bounce (B : Set ℝ) (e : ℝ → ℝ) (p : ℝ × ℝ) : ℝ × ℝ :=
  open Classical in if p.1 + e p.2 ∈ B then (p.1 + e p.2, 1 - p.2) else p

theorem bounce_measurable {B : Set ℝ} (hB : MeasurableSet B) {e : ℝ → ℝ} (he : Measurable e) :
    Measurable (bounce B e) := by
  have h1 : Measurable fun p : ℝ × ℝ => p.1 + e p.2 := measurable_fst.add (he.comp measurable_snd)
  exact Measurable.ite (h1 hB) (h1.prodMk (measurable_const.sub measurable_snd)) measurable_id

theorem bounce_lintegral {B : Set ℝ} (hB : MeasurableSet B) {e : ℝ → ℝ} (he : Measurable e)
    (hsym : ∀ u, u ≠ 1/2 → e (1 - u) = - e u) (H : ℝ × ℝ → ENNReal) (hH : Measurable H) :
    ∫⁻ p, H (bounce B e p) ∂(volume.restrict B).prod unitLaw = ∫⁻ p, H p ∂(volume.restrict B).prod unitLaw := by
  classical
  rw [lintegral_prod_symm' (fun p => H (bounce B e p)) (hH.comp (bounce_measurable hB he)),
    lintegral_prod_symm' _ hH]
  have hm : ∀ u, Measurable fun s : ℝ => H (s, u) := fun u => hH.comp (measurable_id.prodMk measurable_const)
  have hin : ∀ c : ℝ, MeasurableSet {s : ℝ | s + c ∈ B} := fun c => (measurable_id.add_const c) hB
  have hpart : ∀ u, Measurable fun s : ℝ =>
      (B.indicator (1 : ℝ → ENNReal) s * Bᶜ.indicator 1 (s + e u)) * H (s, u) := fun u =>
    ((measurable_one.indicator hB).mul
      ((measurable_one.indicator hB.compl).comp (measurable_id.add_const (e u)))).mul (hm u)
  -- the part that moves and the part that bounces
  have h1 : ∀ u, ∫⁻ s in B, H (bounce B e (s, u)) =
      (∫⁻ s, (B.indicator 1 s * B.indicator 1 (s + e u)) * H (s + e u, 1 - u)) +
        ∫⁻ s, (B.indicator 1 s * Bᶜ.indicator 1 (s + e u)) * H (s, u) := by
    intro u
    rw [← lintegral_add_right _ (hpart u), ← lintegral_indicator hB]
    congr 1
    funext s
    by_cases hs : s ∈ B <;> by_cases hs' : s + e u ∈ B <;> simp [hs, hs', bounce]
  have h2 : ∀ u, ∫⁻ s in B, H (s, u) =
      (∫⁻ s, (B.indicator 1 s * B.indicator 1 (s + e u)) * H (s, u)) +
        ∫⁻ s, (B.indicator 1 s * Bᶜ.indicator 1 (s + e u)) * H (s, u) := by
    intro u
    rw [← lintegral_add_right _ (hpart u), ← lintegral_indicator hB]
    congr 1
    funext s
    by_cases hs : s ∈ B <;> by_cases hs' : s + e u ∈ B <;> simp [hs, hs']
  have hjoint : Measurable fun p : ℝ × ℝ => B.indicator (1 : ℝ → ENNReal) p.1 * Bᶜ.indicator 1 (p.1 + e p.2) * H p :=
    (((measurable_one.indicator hB).comp measurable_fst).mul
      ((measurable_one.indicator hB.compl).comp (measurable_fst.add (he.comp measurable_snd)))).mul hH
  have hR : Measurable fun u => ∫⁻ s, (B.indicator 1 s * Bᶜ.indicator 1 (s + e u)) * H (s, u) :=
    hjoint.lintegral_prod_left'
  simp only [h1, h2]
  rw [lintegral_add_right _ hR, lintegral_add_right _ hR]
  congr 1
  have h3 : ∀ u, u ≠ 1/2 → ∫⁻ s, (B.indicator 1 s * B.indicator 1 (s + e u)) * H (s + e u, 1 - u) =
      ∫⁻ s, (B.indicator 1 s * B.indicator 1 (s + e (1 - u))) * H (s, 1 - u) := by
    intro u hu
    rw [← lintegral_add_right_eq_self
      (fun s => (B.indicator 1 s * B.indicator 1 (s + e (1 - u))) * H (s, 1 - u)) (e u)]
    congr 1
    funext s
    rw [hsym u hu, add_neg_cancel_right, mul_comm (B.indicator 1 s)]
  have hne : ∀ᵐ u ∂unitLaw, u ≠ 1/2 := Measure.ae_ne unitLaw _
  rw [lintegral_congr_ae (hne.mono h3)]
  exact unitLaw_flip fun u => ∫⁻ s, (B.indicator 1 s * B.indicator 1 (s + e u)) * H (s, u)

theorem bounce_preserving {B : Set ℝ} (hB : MeasurableSet B) {e : ℝ → ℝ} (he : Measurable e)
    (hsym : ∀ u, u ≠ 1/2 → e (1 - u) = - e u) :
    MeasurePreserving (bounce B e) ((volume.restrict B).prod unitLaw) ((volume.restrict B).prod unitLaw) := by
  refine ⟨bounce_measurable hB he, Measure.ext fun A hA => ?_⟩
  rw [Measure.map_apply (bounce_measurable hB he) hA, ← lintegral_indicator_one hA,
    ← lintegral_indicator_one (bounce_measurable hB he hA), 
    ← bounce_lintegral hB he hsym (A.indicator 1) (measurable_one.indicator hA)]
  rfl

/-- Where a move leads, coordinate by coordinate. -/
noncomputable def walkTo {n : ℕ} (B : Fin n → Set ℝ) (e : Fin n → ℝ → ℝ) (s u : Fin n → ℝ) : Fin n → ℝ :=
  open Classical in fun i => if s i + e i (u i) ∈ B i then s i + e i (u i) else s i

theorem walkTo_measurable {n : ℕ} {B : Fin n → Set ℝ} (hB : ∀ i, MeasurableSet (B i)) {e : Fin n → ℝ → ℝ}
    (he : ∀ i, Measurable (e i)) : Measurable fun p : (Fin n → ℝ) × (Fin n → ℝ) => walkTo B e p.1 p.2 := by
  refine measurable_pi_iff.mpr fun i => ?_
  have h1 : Measurable fun p : (Fin n → ℝ) × (Fin n → ℝ) => p.1 i := (measurable_pi_apply i).comp measurable_fst
  have h2 : Measurable fun p : (Fin n → ℝ) × (Fin n → ℝ) => p.1 i + e i (p.2 i) :=
    h1.add ((he i).comp ((measurable_pi_apply i).comp measurable_snd))
  exact Measurable.ite (h2 (hB i)) h2 h1

/-- The uniform measure on the unit cube. -/
noncomputable abbrev cubeLaw (n : ℕ) : Measure (Fin n → ℝ) := volume.restrict (Set.univ.pi fun _ => Set.Ico 0 1)

theorem walkTo_reversible {n : ℕ} {B : Fin n → Set ℝ} (hB : ∀ i, MeasurableSet (B i)) {e : Fin n → ℝ → ℝ}
    (he : ∀ i, Measurable (e i)) (hsym : ∀ i u, u ≠ 1/2 → e i (1 - u) = - e i u)
    (G : (Fin n → ℝ) → (Fin n → ℝ) → ENNReal) (hG : Measurable fun p : (Fin n → ℝ) × (Fin n → ℝ) => G p.1 p.2) :
    ∫⁻ s in Set.univ.pi B, ∫⁻ u, G s (walkTo B e s u) ∂cubeLaw n =
      ∫⁻ s in Set.univ.pi B, ∫⁻ u, G (walkTo B e s u) s ∂cubeLaw n := by
  classical
  have hmv := walkTo_measurable hB he
  have m1 : Measurable fun p : (Fin n → ℝ) × (Fin n → ℝ) => G p.1 (walkTo B e p.1 p.2) :=
    hG.comp (measurable_fst.prodMk hmv)
  have m2 : Measurable fun p : (Fin n → ℝ) × (Fin n → ℝ) => G (walkTo B e p.1 p.2) p.1 :=
    hG.comp (hmv.prodMk measurable_fst)
  rw [← lintegral_prod _ m1.aemeasurable, ← lintegral_prod _ m2.aemeasurable]
  -- as one integral over pairs, coordinate by coordinate
  have hpi : (volume.restrict (Set.univ.pi B)).prod (cubeLaw n) =
      (Measure.pi fun i => volume.restrict (B i)).prod (Measure.pi fun _ => unitLaw) := by
    congr 1
    · rw [volume_pi]; exact Measure.restrict_pi_pi _ _
    · unfold cubeLaw; rw [volume_pi]; exact Measure.restrict_pi_pi _ _
  have hE := measurePreserving_arrowProdEquivProdArrow ℝ ℝ (Fin n) (fun i => volume.restrict (B i)) fun _ => unitLaw
  have hbp := measurePreserving_pi _ _ fun i => bounce_preserving (hB i) (he i) (hsym i)
  rw [hpi, ← hE.lintegral_comp m1, ← hE.lintegral_comp m2,
    ← hbp.lintegral_comp (f := fun q => G (MeasurableEquiv.arrowProdEquivProdArrow ℝ ℝ (Fin n) q).1
        (walkTo B e (MeasurableEquiv.arrowProdEquivProdArrow ℝ ℝ (Fin n) q).1
          (MeasurableEquiv.arrowProdEquivProdArrow ℝ ℝ (Fin n) q).2)) (m1.comp (MeasurableEquiv.measurable _))]
  refine lintegral_congr_ae ?_
  have hae : ∀ᵐ q ∂Measure.pi fun i => (volume.restrict (B i)).prod unitLaw,
      ∀ i, (q i).1 ∈ B i ∧ (q i).2 ≠ 1/2 := by
    rw [ae_all_iff]
    intro i
    refine (Measure.tendsto_eval_ae_ae (μ := fun i => (volume.restrict (B i)).prod unitLaw) (i := i)).eventually
      (p := fun p => p.1 ∈ B i ∧ p.2 ≠ 1/2) ?_
    exact (Measure.quasiMeasurePreserving_fst.ae (ae_restrict_mem (hB i))).and
      (Measure.quasiMeasurePreserving_snd.ae (Measure.ae_ne unitLaw _))
  filter_upwards [hae] with q hq
  have e1 : (fun i => (bounce (B i) (e i) (q i)).1) = walkTo B e (fun i => (q i).1) fun i => (q i).2 := by
    funext i
    simp only [bounce, walkTo]
    split <;> rfl
  have e2 : walkTo B e (fun i => (bounce (B i) (e i) (q i)).1) (fun i => (bounce (B i) (e i) (q i)).2) =
      fun i => (q i).1 := by
    funext i
    simp only [bounce, walkTo]
    by_cases h : (q i).1 + e i (q i).2 ∈ B i
    · simp only [if_pos h, hsym i _ (hq i).2, add_neg_cancel_right, if_pos (hq i).1]
    · simp only [if_neg h]
  show G (fun i => (bounce (B i) (e i) (q i)).1)
      (walkTo B e (fun i => (bounce (B i) (e i) (q i)).1) fun i => (bounce (B i) (e i) (q i)).2) =
    G (walkTo B e (fun i => (q i).1) fun i => (q i).2) fun i => (q i).1
  rw [e2, e1]

end Probayes
