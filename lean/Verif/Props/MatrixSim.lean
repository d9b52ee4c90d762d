/-
C107: repeated steps of a variable with a transition matrix, as in examples/markov/markov_matrix.py.
-/
import Mathlib.Probability.StrongLaw
import Mathlib.Probability.Independence.InfinitePi
import Mathlib.Analysis.SpecialFunctions.Trigonometric.Basic
import Verif.Model.MatrixSim
import Verif.Props.MarkovLimit
import Verif.Props.Sampling

namespace Probayes

open MeasureTheory Filter Topology

/-! ### What is claimed -/

/-- A variable whose values in increasing order are `val 0`, `val 1`, ..., with the transition
matrix `M` (and perhaps another one for the reverse direction). -/
structure Spec.MatrixVar {n : ℕ} (fmt : Val → Str) (v : DRV) (val : Fin n → ℚ) (M : Matrix (Fin n) (Fin n) ℝ) :
    Prop where
  good : Spec.GoodName fmt v
  nodup : v.vset.Nodup
  mono : StrictMono val
  range : ∀ x, x ∈ v.vset ↔ ∃ i, val i = x
  matrix : v.tran = .matrix (Spec.rows M) ∨ ∃ r, v.tran = .pair (Spec.rows M) r
  scale : ∃ b, evalPscale v.pscale = .ok b

/-- Independent uniform draws for `k` steps. -/
noncomputable def Spec.stepDraws (k : ℕ) : Measure (Fin k → ℝ) :=
  Measure.pi fun _ => volume.restrict (Set.Ico (0 : ℝ) 1)

variable {n : ℕ} {fmt : Val → Str} {v : DRV} {val : Fin n → ℚ} {M : Matrix (Fin n) (Fin n) ℝ}

/-! ### One step and one run -/

theorem matrix_step (H : Spec.MatrixVar fmt v val M) (hM : Spec.Stochastic M) (i : Fin n) (u : ℝ) (h0 : 0 ≤ u)
    (h1 : u < 1) : ∃ d j, v.step fmt (.scalar (val i)) (some (.unitInt 0)) false 0 [] 0 [] u = .ok d ∧
      d.number v.prime = .ok (val j) ∧ Spec.Falls M i j u := by
  have hperm : v.vset.Perm (List.ofFn val) := by
    rw [List.perm_ext_iff_of_nodup H.nodup (List.nodup_ofFn.mpr H.mono.injective)]
    intro x
    rw [H.range, List.mem_ofFn]
  have hrank : ∀ i : Fin n, Spec.rank v.vset (val i) = i := by
    intro i
    rw [Spec.rank, hperm.countP_eq]
    refine countP_rank _ ?_ _ _ (by rw [List.getElem?_ofFn, dif_pos i.2])
    rw [List.pairwise_ofFn]
    exact fun a b h => H.mono h
  have hlen : v.vset.length = (Spec.rows M).length := by
    rw [hperm.length_eq]; simp [Spec.rows]
  have huses : Spec.Uses v false (Spec.rows M) := by
    rcases H.matrix with h | ⟨r, h⟩
    · exact .inl h
    · exact .inr (.inl ⟨r, h, rfl⟩)
  obtain ⟨b, hb⟩ := H.scale
  obtain ⟨d, y, e1, e2, e3, -, -, e6, e7, -, -, -, -, e12, e13⟩ := C61_sampled H.good H.nodup false (Spec.rows M) huses
    (rows_square M) hlen b hb (val i) ((H.range _).2 ⟨i, rfl⟩) (List.ofFn fun z => M z i)
    (by rw [hrank]; exact rows_column M i) (by
      intro y hy
      obtain ⟨z, rfl⟩ := (List.mem_ofFn' _ _).1 hy
      exact hM.nonneg z i) (by rw [List.sum_ofFn]; exact hM.sum i) u h0 h1 (some (.unitInt 0)) (.inr rfl) (by simp) 0 []
    0 []
  obtain ⟨j, rfl⟩ := (H.range y).1 e3
  rw [hrank, prefix_Iio] at e12
  rw [hrank, prefix_Iic] at e13
  refine ⟨d, j, e1, ?_, e12, e13⟩
  have : Dict.get? d.vals v.prime = some (.scalar (val j)) := by
    have h7 : (Dict.get? d.vals v.prime).map Val.flat = some (.scalar (val j)) := e7
    rcases hv : Dict.get? d.vals v.prime with _ | w
    · rw [hv] at h7; simp at h7
    · rw [hv] at h7
      cases w with
      | arr sh x => cases sh <;> simp [Val.flat] at h7
      | _ => simpa [Val.flat] using h7
  simp only [PD.number, this]

theorem matrix_run (H : Spec.MatrixVar fmt v val M) (hM : Spec.Stochastic M) : ∀ (k : ℕ) (i : Fin n) (u : Fin k → ℝ),
    (∀ t, u t ∈ Set.Ico (0 : ℝ) 1) → ∃ y : Fin k → Fin n,
      v.simulate fmt (val i) (List.ofFn u) = .ok (List.ofFn fun t => val (y t)) ∧
      ∀ t, Spec.Falls M ((Fin.cons i y : Fin (k + 1) → Fin n) t.castSucc) (y t) (u t)
  | 0, i, u, hu => ⟨fun t => t.elim0, rfl, fun t => t.elim0⟩
  | k + 1, i, u, hu => by
    obtain ⟨d, j, e1, e2, e3⟩ := matrix_step H hM i (u 0) (hu 0).1 (hu 0).2
    obtain ⟨y, f1, f2⟩ := matrix_run H hM k j (fun t => u t.succ) fun t => hu t.succ
    refine ⟨Fin.cons j y, ?_, ?_⟩
    · rw [List.ofFn_succ, List.ofFn_succ]
      simp only [DRV.simulate, e1, e2, Bind.bind, Except.bind, f1, Pure.pure, Except.pure, Fin.cons_zero, Fin.cons_succ]
    · intro t
      refine Fin.cases ?_ (fun t => ?_) t
      · simpa using e3
      · have := f2 t
        rw [← Fin.succ_castSucc, Fin.cons_succ, Fin.cons_succ]
        exact this

/-- The draws of a path. -/
def pathBox (M : Matrix (Fin n) (Fin n) ℝ) (i : Fin n) {k : ℕ} (y : Fin k → Fin n) : Set (Fin k → ℝ) :=
  Set.univ.pi fun t => Set.Ico (∑ z ∈ Finset.Iio (y t), M z ((Fin.cons i y : Fin (k + 1) → Fin n) t.castSucc))
    (∑ z ∈ Finset.Iic (y t), M z ((Fin.cons i y : Fin (k + 1) → Fin n) t.castSucc))

theorem path_unique (hM : Spec.Stochastic M) (i : Fin n) {k : ℕ} (y y' : Fin k → Fin n) (u : Fin k → ℝ)
    (h : ∀ t, Spec.Falls M ((Fin.cons i y : Fin (k + 1) → Fin n) t.castSucc) (y t) (u t))
    (h' : ∀ t, Spec.Falls M ((Fin.cons i y' : Fin (k + 1) → Fin n) t.castSucc) (y' t) (u t)) : y = y' := by
  have : ∀ t : ℕ, ∀ ht : t < k, y ⟨t, ht⟩ = y' ⟨t, ht⟩ := by
    intro t
    induction t with
    | zero =>
      intro ht
      have h1 := h ⟨0, ht⟩
      have h2 := h' ⟨0, ht⟩
      have : (⟨0, ht⟩ : Fin k).castSucc = 0 := rfl
      rw [this, Fin.cons_zero] at h1 h2
      exact falls_unique hM h1 h2
    | succ t ih =>
      intro ht
      have h1 := h ⟨t + 1, ht⟩
      have h2 := h' ⟨t + 1, ht⟩
      have : (⟨t + 1, ht⟩ : Fin k).castSucc = (⟨t, by omega⟩ : Fin k).succ := rfl
      rw [this, Fin.cons_succ] at h1 h2
      rw [ih (by omega)] at h1
      exact falls_unique hM h1 h2
  funext t
  exact this t t.2

theorem sum_all_paths (hM : Spec.Stochastic M) : ∀ (k : ℕ) (i : Fin n),
    ∑ y : Fin k → Fin n, ∏ t : Fin k, M (y t) ((Fin.cons i y : Fin (k + 1) → Fin n) t.castSucc) = 1
  | 0, i => by simp
  | k + 1, i => by
    rw [← (Fin.consEquiv fun _ => Fin n).sum_comp, Fintype.sum_prod_type]
    rw [← hM.sum i]
    refine Finset.sum_congr rfl fun a _ => ?_
    calc _ = ∑ y : Fin k → Fin n, M a i * ∏ t : Fin k, M (y t) ((Fin.cons a y : Fin (k + 1) → Fin n) t.castSucc) := by
          refine Finset.sum_congr rfl fun y _ => ?_
          rw [Fin.prod_univ_succ]
          rfl
      _ = M a i := by rw [← Finset.mul_sum, sum_all_paths hM k a, mul_one]

theorem sum_paths_at (hM : Spec.Stochastic M) (z : Fin n) : ∀ (k : ℕ) (i : Fin n) (s : Fin k),
    ∑ y : Fin k → Fin n, (if y s = z then
      ∏ t : Fin k, M (y t) ((Fin.cons i y : Fin (k + 1) → Fin n) t.castSucc) else 0) = (M ^ ((s : ℕ) + 1)) z i
  | 0, _, s => s.elim0
  | k + 1, i, s => by
    rw [← (Fin.consEquiv fun _ => Fin n).sum_comp, Fintype.sum_prod_type]
    have hp : ∀ (a : Fin n) (y : Fin k → Fin n),
        ∏ t : Fin (k + 1), M (((Fin.consEquiv fun _ => Fin n) (a, y)) t)
          ((Fin.cons i ((Fin.consEquiv fun _ => Fin n) (a, y)) : Fin (k + 2) → Fin n) t.castSucc) =
        M a i * ∏ t : Fin k, M (y t) ((Fin.cons a y : Fin (k + 1) → Fin n) t.castSucc) := by
      intro a y
      rw [Fin.prod_univ_succ]
      rfl
    simp only [hp]
    refine Fin.cases ?_ (fun s => ?_) s
    · have : ∀ a : Fin n, ∀ y : Fin k → Fin n, ((Fin.consEquiv fun _ => Fin n) (a, y)) 0 = a := fun _ _ => rfl
      simp only [this]
      rw [Finset.sum_eq_single z]
      · simp only [if_true]
        rw [← Finset.mul_sum, sum_all_paths hM k z]
        simp
      · intro a _ ha
        simp [ha]
      · simp
    · have : ∀ a : Fin n, ∀ y : Fin k → Fin n, ((Fin.consEquiv fun _ => Fin n) (a, y)) s.succ = y s := fun _ _ => rfl
      simp only [this]
      rw [Fin.val_succ, pow_succ, Matrix.mul_apply]
      refine Finset.sum_congr rfl fun a _ => ?_
      rw [← sum_paths_at hM z k a s, Finset.sum_mul]
      refine Finset.sum_congr rfl fun y _ => ?_
      split
      · ring
      · simp

instance stepDraws_prob (k : ℕ) : IsProbabilityMeasure (Spec.stepDraws k) := by
  unfold Spec.stepDraws
  haveI : ∀ _ : Fin k, IsProbabilityMeasure (volume.restrict (Set.Ico (0 : ℝ) 1)) := fun _ => unitLaw_prob
  infer_instance

theorem stepDraws_unit (k : ℕ) : ∀ᵐ u ∂Spec.stepDraws k, ∀ t, u t ∈ Set.Ico (0 : ℝ) 1 := by
  rw [ae_all_iff]
  intro t
  haveI : ∀ _ : Fin k, IsProbabilityMeasure (volume.restrict (Set.Ico (0 : ℝ) 1)) := fun _ => unitLaw_prob
  have h : ∀ᵐ u ∂(volume.restrict (Set.Ico (0 : ℝ) 1)), u ∈ Set.Ico (0 : ℝ) 1 := ae_restrict_mem measurableSet_Ico
  have hp := (measurePreserving_eval (fun _ : Fin k => volume.restrict (Set.Ico (0 : ℝ) 1)) t)
  rw [← hp.map_eq] at h
  exact ae_of_ae_map hp.measurable.aemeasurable h

theorem pathBox_sub (hM : Spec.Stochastic M) (i : Fin n) {k : ℕ} (y : Fin k → Fin n) (u : Fin k → ℝ)
    (h : u ∈ pathBox M i y) (t : Fin k) : u t ∈ Set.Ico (0 : ℝ) 1 :=
  falls_mem hM (h t trivial)

theorem pathBox_law (hM : Spec.Stochastic M) (i : Fin n) {k : ℕ} (y : Fin k → Fin n) :
    Spec.stepDraws k (pathBox M i y) =
      ENNReal.ofReal (∏ t : Fin k, M (y t) ((Fin.cons i y : Fin (k + 1) → Fin n) t.castSucc)) := by
  haveI : ∀ _ : Fin k, IsProbabilityMeasure (volume.restrict (Set.Ico (0 : ℝ) 1)) := fun _ => unitLaw_prob
  rw [pathBox, Spec.stepDraws, Measure.pi_pi, ENNReal.ofReal_prod_of_nonneg fun t _ => hM.nonneg _ _]
  refine Finset.prod_congr rfl fun t _ => ?_
  have hsub : Set.Ico (∑ z ∈ Finset.Iio (y t), M z ((Fin.cons i y : Fin (k + 1) → Fin n) t.castSucc))
      (∑ z ∈ Finset.Iic (y t), M z ((Fin.cons i y : Fin (k + 1) → Fin n) t.castSucc)) ⊆ Set.Ico (0 : ℝ) 1 :=
    fun u hu => falls_mem (M := M) hM hu
  rw [Measure.restrict_apply measurableSet_Ico, Set.inter_eq_left.2 hsub, Real.volume_Ico, Iic_eq]
  congr 1
  ring

/-! ### The theorems -/

/-- The draws for which the run is at `val z` after `s + 1` steps. -/
def Spec.isThere (fmt : Val → Str) (v : DRV) (x z : ℚ) {k : ℕ} (s : Fin k) : _root_.Set (Fin k → ℝ) :=
  {u | ∃ ys, v.simulate fmt x (List.ofFn u) = .ok ys ∧ ys[(s : ℕ)]? = some z}

theorem isThere_ae (H : Spec.MatrixVar fmt v val M) (hM : Spec.Stochastic M) (i z : Fin n) {k : ℕ} (s : Fin k) :
    Spec.isThere fmt v (val i) (val z) s =ᵐ[Spec.stepDraws k]
      (⋃ y ∈ Finset.univ.filter fun y : Fin k → Fin n => y s = z, pathBox M i y : Set (Fin k → ℝ)) := by
  filter_upwards [stepDraws_unit k] with u hu
  obtain ⟨y, e1, e2⟩ := matrix_run H hM k i u hu
  apply propext
  show u ∈ Spec.isThere fmt v (val i) (val z) s ↔ u ∈ ⋃ y ∈ Finset.univ.filter fun y : Fin k → Fin n => y s = z, pathBox M i y
  simp only [Spec.isThere, Set.mem_setOf_eq, Set.mem_iUnion, Finset.mem_filter, Finset.mem_univ, true_and, exists_prop]
  constructor
  · rintro ⟨ys, f1, f2⟩
    rw [e1] at f1
    obtain rfl := Except.ok.inj f1
    rw [List.getElem?_ofFn, dif_pos s.2] at f2
    exact ⟨y, H.mono.injective (Option.some.inj f2), fun t _ => e2 t⟩
  · rintro ⟨y', f1, f2⟩
    obtain rfl := path_unique hM i y y' u e2 fun t => f2 t trivial
    exact ⟨_, e1, by rw [List.getElem?_ofFn, dif_pos s.2]; simp [f1]⟩

theorem boxes_measurable (i z : Fin n) {k : ℕ} (s : Fin k) : MeasurableSet
    (⋃ y ∈ Finset.univ.filter fun y : Fin k → Fin n => y s = z, pathBox M i y : Set (Fin k → ℝ)) :=
  Finset.measurableSet_biUnion _ fun _ _ => MeasurableSet.univ_pi fun _ => measurableSet_Ico

/-- C107: after any number of steps, a run that starts at `val i` is at `val z` with the entry of the
power of the matrix as probability. -/
theorem C107_law (H : Spec.MatrixVar fmt v val M) (hM : Spec.Stochastic M) (i z : Fin n) {k : ℕ} (s : Fin k) :
    Spec.stepDraws k (Spec.isThere fmt v (val i) (val z) s) = ENNReal.ofReal ((M ^ ((s : ℕ) + 1)) z i) := by
  rw [measure_congr (isThere_ae H hM i z s), measure_biUnion_finset]
  · simp only [pathBox_law hM]
    rw [← ENNReal.ofReal_sum_of_nonneg fun y _ => Finset.prod_nonneg fun t _ => hM.nonneg _ _, ← sum_paths_at hM z k i s,
      Finset.sum_filter]
  · intro y _ y' _ hne
    refine Set.disjoint_left.mpr fun u hu hu' => hne ?_
    exact path_unique hM i y y' u (fun t => hu t trivial) fun t => hu' t trivial
  · exact fun y _ => MeasurableSet.univ_pi fun _ => measurableSet_Ico

/-- C107: the proportion of independent runs that are at `val z` after a number of steps tends to the
entry of the power of the matrix, almost surely, for all values and all numbers of steps at once. -/
theorem C107_limit (H : Spec.MatrixVar fmt v val M) (hM : Spec.Stochastic M) (i : Fin n) (k : ℕ) :
    ∀ᵐ ω ∂Measure.infinitePi fun _ : ℕ => Spec.stepDraws k, ∃ succ : ℕ → List (List ℚ),
      (∀ m, v.simulateAll fmt (val i) ((List.range m).map fun r => List.ofFn (ω r)) = .ok (succ m)) ∧
      ∀ (z : Fin n) (s : Fin k),
        Tendsto (fun m => proportion (succ m) (val z) s) atTop (𝓝 ((M ^ ((s : ℕ) + 1)) z i)) := by
  classical
  set μ := Measure.infinitePi fun _ : ℕ => Spec.stepDraws k with hμ
  have heval : ∀ r : ℕ, MeasurePreserving (Function.eval r) μ (Spec.stepDraws k) :=
    measurePreserving_eval_infinitePi (fun _ : ℕ => Spec.stepDraws k)
  have hunit : ∀ᵐ ω ∂μ, ∀ r t, ω r t ∈ Set.Ico (0 : ℝ) 1 := by
    rw [ae_all_iff]
    intro r
    exact (heval r).quasiMeasurePreserving.ae (stepDraws_unit k)
  let E : Fin n → Fin k → Set (Fin k → ℝ) := fun z s =>
    ⋃ y ∈ Finset.univ.filter fun y : Fin k → Fin n => y s = z, pathBox M i y
  have hE : ∀ z s, MeasurableSet (E z s) := fun z s => boxes_measurable i z s
  have hmem : ∀ᵐ ω ∂μ, ∀ z s r, ω r ∈ Spec.isThere fmt v (val i) (val z) s ↔ ω r ∈ E z s := by
    simp only [ae_all_iff]
    intro z s r
    have := (heval r).quasiMeasurePreserving.ae (isThere_ae H hM i z s)
    filter_upwards [this] with ω hω
    exact Iff.of_eq hω
  have hslln : ∀ z s, ∀ᵐ ω ∂μ, Tendsto (fun m : ℕ =>
      (∑ r ∈ Finset.range m, (E z s).indicator (fun _ => (1 : ℝ)) (ω r)) / m) atTop
      (𝓝 ((M ^ ((s : ℕ) + 1)) z i)) := by
    intro z s
    have hind : Measurable ((E z s).indicator fun _ => (1 : ℝ)) := measurable_const.indicator (hE z s)
    have hXm : ∀ r : ℕ, Measurable fun ω : ℕ → Fin k → ℝ => (E z s).indicator (fun _ => (1 : ℝ)) (ω r) :=
      fun r => hind.comp (measurable_pi_apply r)
    have hlaw := ProbabilityTheory.strong_law_ae_real (μ := μ)
      (fun r ω => (E z s).indicator (fun _ => (1 : ℝ)) (ω r))
      (by
        refine Integrable.of_bound (hXm 0).aestronglyMeasurable 1 (Filter.Eventually.of_forall fun ω => ?_)
        by_cases hω : ω 0 ∈ E z s
        · simp [Set.indicator_of_mem hω]
        · simp [Set.indicator_of_notMem hω])
      (by
        intro a b hab
        exact (ProbabilityTheory.iIndepFun_infinitePi (P := fun _ : ℕ => Spec.stepDraws k)
          (X := fun _ => (E z s).indicator fun _ => (1 : ℝ)) (fun _ => hind)).indepFun hab)
      (by
        intro r
        refine ⟨(hXm r).aemeasurable, (hXm 0).aemeasurable, ?_⟩
        show μ.map (((E z s).indicator fun _ => (1 : ℝ)) ∘ Function.eval r) =
          μ.map (((E z s).indicator fun _ => (1 : ℝ)) ∘ Function.eval 0)
        rw [← Measure.map_map hind (heval r).measurable, ← Measure.map_map hind (heval 0).measurable,
          (heval r).map_eq, (heval 0).map_eq])
    have hmean : ∫ ω, (E z s).indicator (fun _ => (1 : ℝ)) (ω 0) ∂μ = (M ^ ((s : ℕ) + 1)) z i := by
      have h1 : ∫ ω, (E z s).indicator (fun _ => (1 : ℝ)) (Function.eval 0 ω) ∂μ =
          ∫ u, (E z s).indicator (fun _ => (1 : ℝ)) u ∂Spec.stepDraws k := by
        rw [← (heval 0).map_eq, integral_map (heval 0).measurable.aemeasurable hind.aestronglyMeasurable]
      have h2 : Spec.stepDraws k (E z s) = ENNReal.ofReal ((M ^ ((s : ℕ) + 1)) z i) := by
        rw [← C107_law H hM i z s, measure_congr (isThere_ae H hM i z s)]
      have h3 : 0 ≤ (M ^ ((s : ℕ) + 1)) z i := by
        rw [← sum_paths_at hM z k i s]
        refine Finset.sum_nonneg fun y _ => ?_
        split
        · exact Finset.prod_nonneg fun t _ => hM.nonneg _ _
        · exact le_rfl
      refine h1.trans ?_
      rw [integral_indicator_const _ (hE z s), Measure.real, h2, ENNReal.toReal_ofReal h3]
      simp
    rw [hmean] at hlaw
    exact hlaw
  have hall : ∀ᵐ ω ∂μ, ∀ z s, Tendsto (fun m : ℕ =>
      (∑ r ∈ Finset.range m, (E z s).indicator (fun _ => (1 : ℝ)) (ω r)) / m) atTop
      (𝓝 ((M ^ ((s : ℕ) + 1)) z i)) := by
    simp only [ae_all_iff]
    exact hslln
  filter_upwards [hunit, hmem, hall] with ω hu hm hl
  have hrun : ∀ r, ∃ ys, v.simulate fmt (val i) (List.ofFn (ω r)) = .ok ys := fun r =>
    let ⟨_, h, _⟩ := matrix_run H hM k i (ω r) (hu r)
    ⟨_, h⟩
  choose ys hys using hrun
  have hmap : ∀ l : List ℕ, (l.map fun r => List.ofFn (ω r)).mapM (v.simulate fmt (val i)) = .ok (l.map ys) := by
    intro l
    induction l with
    | nil => rfl
    | cons a l ih =>
      simp only [List.map_cons, List.mapM_cons, hys a, ih, Bind.bind, Except.bind, Pure.pure, Except.pure]
  refine ⟨fun m => (List.range m).map ys, fun m => hmap _, fun z s => ?_⟩
  refine (hl z s).congr fun m => ?_
  simp only [proportion, List.length_map, List.length_range]
  congr 1
  have hat : ∀ r, ω r ∈ E z s ↔ (ys r)[(s : ℕ)]? = some (val z) := by
    intro r
    rw [← hm z s r]
    constructor
    · rintro ⟨ys', h1, h2⟩
      rw [hys r] at h1
      obtain rfl := Except.ok.inj h1
      exact h2
    · exact fun h => ⟨_, hys r, h⟩
  induction m with
  | zero => simp
  | succ m ih =>
    rw [Finset.sum_range_succ, ih, List.range_succ, List.map_append, List.countP_append]
    push_cast
    congr 1
    by_cases h : ω m ∈ E z s
    · rw [Set.indicator_of_mem h]
      simp [(hat m).1 h]
    · rw [Set.indicator_of_notMem h]
      simp [mt (hat m).2 h]

/-! ### The chain of the example -/

/-- `x = pb.RV('x', range(3)); x.set_tran(tran)`. -/
noncomputable def norrisRV : DRV := ⟨['x'], [0, 1, 2], .none, .scalar (1 / 3), .matrix (Spec.rows norris), none⟩

theorem norris_good : Spec.MatrixVar (fun _ => ['v']) norrisRV (fun i : Fin 3 => (i : ℚ)) norris where
  good := by constructor <;> simp [norrisRV, disallowed]
  nodup := by simp [norrisRV]
  mono := fun a b h => by
    show ((a : ℕ) : ℚ) < ((b : ℕ) : ℚ)
    exact_mod_cast h
  range := by
    intro x
    simp only [norrisRV, List.mem_cons, List.not_mem_nil, or_false]
    constructor
    · rintro (rfl | rfl | rfl)
      · exact ⟨0, by simp⟩
      · exact ⟨1, by simp⟩
      · exact ⟨2, by simp⟩
    · rintro ⟨i, rfl⟩
      fin_cases i <;> simp
  matrix := .inl rfl
  scale := ⟨.lin 1, by simp [norrisRV, evalPscale]⟩

/-- C107: the proportion of simulations of examples/markov/markov_matrix.py at 0 after each of any
number of steps tends to the probability the example plots, almost surely. -/
theorem C107_example (k : ℕ) : ∀ᵐ ω ∂Measure.infinitePi fun _ : ℕ => Spec.stepDraws k,
    ∃ succ : ℕ → List (List ℚ),
      (∀ m, norrisRV.simulateAll (fun _ => ['v']) 0 ((List.range m).map fun r => List.ofFn (ω r)) = .ok (succ m)) ∧
      ∀ s : Fin k, Tendsto (fun m => proportion (succ m) 0 s) atTop (𝓝 (0.2 + 0.5 ^ ((s : ℕ) + 1) *
        (0.8 * Real.cos (((s : ℕ) + 1 : ℕ) * Real.pi / 2) - 0.4 * Real.sin (((s : ℕ) + 1 : ℕ) * Real.pi / 2)))) := by
  filter_upwards [C107_limit norris_good norris_stochastic 0 k] with ω hω
  obtain ⟨succ, h1, h2⟩ := hω
  refine ⟨succ, fun m => by simpa using h1 m, fun s => ?_⟩
  have := h2 0 s
  rw [norris_hatp, Spec.hatp, ← mul_div_assoc] at this
  norm_num at this ⊢
  exact this

/-- Three steps from 0 return to it with a quarter probability. -/
example : Spec.stepDraws 3 (Spec.isThere (fun _ => ['v']) norrisRV 0 0 (2 : Fin 3)) = ENNReal.ofReal (1 / 4) := by
  have := C107_law norris_good norris_stochastic 0 0 (2 : Fin 3)
  have e : (norris ^ 3) 0 0 = 1 / 4 := by
    simp [norris, pow_succ, Matrix.mul_apply, Fin.sum_univ_three]; norm_num
  have h : ((2 : Fin 3) : ℕ) + 1 = 3 := rfl
  rw [h, e] at this
  simpa using this

end Probayes
