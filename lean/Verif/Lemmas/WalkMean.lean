/-
Visits of a random walk whose steps keep the uniform measure on a box; used for C102.
-/
import Verif.Model.WalkMean
import Verif.Props.WalkSphere

namespace Probayes

open MeasureTheory

/-- The mean over `k` independent draws from the unit cube. -/
noncomputable def overCubes {n : ℕ} : ℕ → (List (Fin n → ℝ) → ENNReal) → ENNReal
  | 0, f => f []
  | k + 1, f => ∫⁻ u, overCubes k (fun us => f (u :: us)) ∂cubeLaw n

theorem overCubes_mul {n : ℕ} (c : ENNReal) (hc : c ≠ ⊤) :
    ∀ (k : ℕ) (f : List (Fin n → ℝ) → ENNReal), overCubes k (fun us => c * f us) = c * overCubes k f := by
  intro k
  induction k with
  | zero => intro f; rfl
  | succ k ih =>
      intro f
      simp only [overCubes, ih]
      exact lintegral_const_mul' _ _ hc

theorem overCubes_zero {n : ℕ} : ∀ k : ℕ, overCubes (n := n) k (fun _ => 0) = 0 := by
  intro k
  induction k with
  | zero => rfl
  | succ k ih => simp [overCubes, ih]

/-- The expected number of visits to `A` in `k` steps from `v`, over the runs in which no draw is
outside `T`. -/
noncomputable def visits {n : ℕ} (A T : Set (Fin n → ℝ)) (mv : (Fin n → ℝ) → (Fin n → ℝ) → Fin n → ℝ) :
    ℕ → (Fin n → ℝ) → ENNReal
  | 0, _ => 0
  | k + 1, v => A.indicator 1 v * cubeLaw n T ^ (k + 1) +
      ∫⁻ u, T.indicator (fun u => visits A T mv k (mv v u)) u ∂cubeLaw n

theorem overCubes_visits {n : ℕ} {A T : Set (Fin n → ℝ)} (hT : MeasurableSet T)
    {step : (Fin n → ℝ) → (Fin n → ℝ) → Py (Fin n → ℝ)} {mv : (Fin n → ℝ) → (Fin n → ℝ) → Fin n → ℝ}
    (hstep : ∀ᵐ u ∂cubeLaw n, ∀ v, (u ∈ T → step v u = .ok (mv v u)) ∧ (u ∉ T → Raises (step v u))) :
    ∀ (k : ℕ) (c : ENNReal) (v : Fin n → ℝ), overCubes k (fun us => match stepRun step v us with
        | .ok vs => c + (vs.map (A.indicator 1)).sum
        | .error _ => 0) = c * cubeLaw n T ^ k + visits A T mv k v := by
  intro k
  induction k with
  | zero => intro c v; simp [overCubes, stepRun, visits]
  | succ k ih =>
      intro c v
      have hone : ∀ᵐ u ∂cubeLaw n, overCubes k (fun us => match stepRun step v (u :: us) with
          | .ok vs => c + (vs.map (A.indicator 1)).sum
          | .error _ => 0) =
          T.indicator (fun _ => (c + A.indicator 1 v) * cubeLaw n T ^ k) u +
            T.indicator (fun u => visits A T mv k (mv v u)) u := by
        filter_upwards [hstep] with u hu
        by_cases h : u ∈ T
        · rw [Set.indicator_of_mem h, Set.indicator_of_mem h, ← ih]
          congr 1
          funext us
          simp only [stepRun, (hu v).1 h, bind, Except.bind]
          rcases stepRun step (mv v u) us with e | vs
          · rfl
          · simp [pure, Except.pure, add_assoc]
        · rw [Set.indicator_of_notMem h, Set.indicator_of_notMem h, add_zero]
          obtain ⟨e, he⟩ := (hu v).2 h
          simp only [stepRun, he, bind, Except.bind]
          exact overCubes_zero k
      simp only [overCubes]
      rw [lintegral_congr_ae hone, lintegral_add_left (measurable_const.indicator hT),
        lintegral_indicator_const hT]
      simp only [visits]
      ring

theorem visits_measurable {n : ℕ} {A T : Set (Fin n → ℝ)} (hA : MeasurableSet A) (hT : MeasurableSet T)
    {mv : (Fin n → ℝ) → (Fin n → ℝ) → Fin n → ℝ} (hmv : Measurable fun p : (Fin n → ℝ) × (Fin n → ℝ) => mv p.1 p.2)
    (k : ℕ) : Measurable (visits A T mv k) := by
  induction k with
  | zero => exact measurable_const
  | succ k ih =>
      have h1 : Measurable fun p : (Fin n → ℝ) × (Fin n → ℝ) => T.indicator (fun u => visits A T mv k (mv p.1 u)) p.2 := by
        have : (fun p : (Fin n → ℝ) × (Fin n → ℝ) => T.indicator (fun u => visits A T mv k (mv p.1 u)) p.2) =
            {p : (Fin n → ℝ) × (Fin n → ℝ) | p.2 ∈ T}.indicator fun p => visits A T mv k (mv p.1 p.2) := by
          funext p
          by_cases h : p.2 ∈ T
          · rw [Set.indicator_of_mem h, Set.indicator_of_mem (by exact h)]
          · rw [Set.indicator_of_notMem h, Set.indicator_of_notMem (by exact h)]
        rw [this]
        exact (ih.comp hmv).indicator (measurable_snd hT)
      exact ((measurable_one.indicator hA).mul_const _).add (Measurable.lintegral_prod_right' h1)

theorem cube_mass (n : ℕ) : cubeLaw n Set.univ = 1 := by
  rw [cubeLaw_pi]
  exact measure_univ

theorem visits_box {n : ℕ} {A T S : Set (Fin n → ℝ)} (hA : MeasurableSet A) (hT : MeasurableSet T)
    (hS : volume S ≠ ⊤)
    {mv : (Fin n → ℝ) → (Fin n → ℝ) → Fin n → ℝ} (hmv : Measurable fun p : (Fin n → ℝ) × (Fin n → ℝ) => mv p.1 p.2)
    (hinv : ∀ φ : (Fin n → ℝ) → ENNReal, Measurable φ → ∫⁻ s in S, φ s ≠ ⊤ →
      ∫⁻ s in S, ∫⁻ u, T.indicator (fun u => φ (mv s u)) u ∂cubeLaw n = cubeLaw n T * ∫⁻ s in S, φ s) (k : ℕ) :
    ∫⁻ s in S, visits A T mv k s = k * cubeLaw n T ^ k * volume (S ∩ A) := by
  have hp : cubeLaw n T ≠ ⊤ := ((measure_mono (Set.subset_univ T)).trans_lt (by rw [cube_mass]; simp)).ne
  have hv : volume (S ∩ A) ≠ ⊤ := ((measure_mono Set.inter_subset_left).trans_lt hS.lt_top).ne
  induction k with
  | zero => simp [visits]
  | succ k ih =>
      simp only [visits]
      rw [lintegral_add_left ((measurable_one.indicator hA).mul_const _),
        hinv _ (visits_measurable hA hT hmv k) (by
          rw [ih]
          exact ENNReal.mul_ne_top (ENNReal.mul_ne_top (ENNReal.natCast_ne_top k) (ENNReal.pow_ne_top hp)) hv), ih,
        lintegral_mul_const _ (measurable_one.indicator hA), lintegral_indicator_one hA,
        Measure.restrict_apply hA, Set.inter_comm A S]
      push_cast
      ring

/-- Moves that are nothing for draws outside `T`, and keep the uniform measure, keep it also over
the draws in `T`. -/
theorem kept_on {n : ℕ} {B : Fin n → Set ℝ} (hB : ∀ i, MeasurableSet (B i))
    {e : (Fin n → ℝ) → Fin n → ℝ} (he : Measurable e) {T : Set (Fin n → ℝ)} (hT : MeasurableSet T)
    (h0 : ∀ u, u ∉ T → e u = 0)
    (hsym : ∀ A : Finset (Fin n), (∀ i, i ∉ A → B i ≠ Set.univ) → ∀ u i, e (flipOn A u) i = if i ∈ A then - e u i else e u i)
    (φ : (Fin n → ℝ) → ENNReal) (hφ : Measurable φ) (hfin : ∫⁻ s in Set.univ.pi B, φ s ≠ ⊤) :
    ∫⁻ s in Set.univ.pi B, ∫⁻ u, T.indicator (fun u => φ (jointTo B e s u)) u ∂cubeLaw n =
      cubeLaw n T * ∫⁻ s in Set.univ.pi B, φ s := by
  classical
  have hmv := jointTo_measurable hB he
  have hrev := jointTo_reversible hB he hsym (fun _ t => φ t) (hφ.comp measurable_snd)
  have hm1 : Measurable fun p : (Fin n → ℝ) × (Fin n → ℝ) => T.indicator (fun u => φ (jointTo B e p.1 u)) p.2 := by
    have : (fun p : (Fin n → ℝ) × (Fin n → ℝ) => T.indicator (fun u => φ (jointTo B e p.1 u)) p.2) =
        {p : (Fin n → ℝ) × (Fin n → ℝ) | p.2 ∈ T}.indicator fun p => φ (jointTo B e p.1 p.2) := by
      funext p
      by_cases h : p.2 ∈ T
      · rw [Set.indicator_of_mem h, Set.indicator_of_mem (by exact h)]
      · rw [Set.indicator_of_notMem h, Set.indicator_of_notMem (by exact h)]
    rw [this]
    exact (hφ.comp hmv).indicator (measurable_snd hT)
  have hsplit : ∀ s, ∫⁻ u, φ (jointTo B e s u) ∂cubeLaw n =
      (∫⁻ u, T.indicator (fun u => φ (jointTo B e s u)) u ∂cubeLaw n) + cubeLaw n Tᶜ * φ s := by
    intro s
    have : ∀ u, φ (jointTo B e s u) =
        T.indicator (fun u => φ (jointTo B e s u)) u + Tᶜ.indicator (fun _ => φ s) u := by
      intro u
      by_cases h : u ∈ T
      · rw [Set.indicator_of_mem h, Set.indicator_of_notMem (by simpa using h), add_zero]
      · rw [Set.indicator_of_notMem h, Set.indicator_of_mem (by simpa using h), zero_add]
        congr 1
        funext i
        simp [jointTo, h0 u h]
    rw [lintegral_congr this, lintegral_add_right _ (measurable_const.indicator hT.compl),
      lintegral_indicator_const hT.compl, mul_comm (φ s)]
  simp only [hsplit] at hrev
  rw [lintegral_add_left (Measurable.lintegral_prod_right' hm1), lintegral_const_mul _ hφ] at hrev
  simp only [lintegral_const, cube_mass, mul_one] at hrev
  have hsum : cubeLaw n T + cubeLaw n Tᶜ = 1 := by rw [measure_add_measure_compl hT, cube_mass]
  have hc : cubeLaw n Tᶜ * ∫⁻ s in Set.univ.pi B, φ s ≠ ⊤ :=
    ENNReal.mul_ne_top (fun h => by rw [h] at hsum; simp at hsum) hfin
  have h2 : (∫⁻ s in Set.univ.pi B, φ s) = cubeLaw n T * (∫⁻ s in Set.univ.pi B, φ s) +
      cubeLaw n Tᶜ * ∫⁻ s in Set.univ.pi B, φ s := by rw [← add_mul, hsum, one_mul]
  rw [h2] at hrev
  exact (ENNReal.add_left_inj hc).mp (by
    first
    | exact hrev
    | (rw [← h2] at hrev; rw [← h2]; exact hrev))

end Probayes
