/-
C102: a random walk of a random field within its limits estimates an area without bias.
-/
import Verif.Lemmas.WalkMean
import Verif.Props.RejectCircle

namespace Probayes

open MeasureTheory

/-! ### What is claimed -/

/-- A float variable with the limits `set`, of the length between `a` and `b`, without transform. -/
def Spec.limited (set : FSet) (a b : ℝ) (o : DeltaOpts) : Spec.Coord := ⟨set, none, o, b - a⟩

/-- The mean over `k` steps, with independent draws for each. -/
noncomputable def Spec.overSteps {n : ℕ} : ℕ → (List (Fin n → ℝ) → ENNReal) → ENNReal
  | 0, f => f []
  | k + 1, f => Spec.means fun u => Spec.overSteps k fun us => f (u :: us)

/-- The mean of `f` over runs of `k` steps from a start drawn at random (runs that raise an
exception count nothing). -/
noncomputable def Spec.overRuns {n : ℕ} (run : (Fin n → ℝ) → List (Fin n → ℝ) → Py (List (Fin n → ℝ))) (k : ℕ)
    (f : List (Fin n → ℝ) → ENNReal) : ENNReal :=
  Spec.means fun u₀ => Spec.overSteps k fun us => match run u₀ us with
    | .ok vs => f vs
    | .error _ => 0

/-- The estimate from runs of `k` steps is unbiased: runs complete with positive probability, and
the mean over those that do is the volume of the region within the limits. -/
def Spec.Unbiased {n : ℕ} (run : (Fin n → ℝ) → List (Fin n → ℝ) → Py (List (Fin n → ℝ))) (a b : Fin n → ℝ)
    (k : ℕ) : Prop :=
  ∀ inside : (Fin n → ℝ) → Bool, MeasurableSet {v | inside v = true} →
    Spec.overRuns run k (fun _ => 1) ≠ 0 ∧
    Spec.overRuns run k (fun vs => ENNReal.ofReal (areaEstimate (∏ i, (b i - a i)) inside vs)) /
      Spec.overRuns run k (fun _ => 1) = volume (Spec.box a b ∩ {v | inside v = true})

/-- The square of a step of `d`, scaled by the lengths or not, is not too small for a float, nor is
the sum of squares of lengths by which it is scaled. -/
def Spec.Resolved {n : ℕ} (a b : Fin n → ℝ) (d : ℝ) (scale : Bool) : Prop :=
  npz < d ^ 2 * (if scale then ∑ i, (b i - a i) ^ 2 else 1) ∧ (scale = true → npz ≤ ∑ i, (b i - a i) ^ 2)

/-- C102, full claim: whatever the kind of the limits `a` and `b` of the variables, and however
the step is scaled. -/
def C102_claim : Prop :=
  ∀ (n : ℕ), 0 < n → ∀ (names : Fin n → Str) (a b : Fin n → ℝ), (∀ i, a i < b i) →
    ∀ (set : Fin n → FSet), (∀ i, set i = .tuple (a i) (b i) ∨ ∃ e f, set i = .list ⟨a i, e⟩ ⟨b i, f⟩) →
    ∀ (o : Fin n → DeltaOpts) (d : ℝ) (scale : Bool), Spec.Resolved a b d scale → ∀ k, 0 < k →
    Spec.Unbiased (walkRun RFTrans.fresh names
      (fun i => (Spec.limited (set i) (a i) (b i) (o i)).coord) (.sphere d scale) true) a b k

/-! ### Runs -/

theorem overSteps_eq {n : ℕ} : ∀ (k : ℕ) (f : List (Fin n → ℝ) → ENNReal), Spec.overSteps k f = overCubes k f := by
  intro k
  induction k with
  | zero => intro f; rfl
  | succ k ih =>
      intro f
      simp only [Spec.overSteps, overCubes, ih]
      rfl

theorem stepRun_length {V Ω : Type} (step : V → Ω → Py V) : ∀ (ωs : List Ω) (v : V) (vs : List V),
    stepRun step v ωs = .ok vs → vs.length = ωs.length := by
  intro ωs
  induction ωs with
  | nil => intro v vs h; simp only [stepRun, Except.ok.injEq] at h; subst h; rfl
  | cons ω ωs ih =>
      intro v vs h
      simp only [stepRun, bind, Except.bind] at h
      rcases hw : step v ω with e | w
      · rw [hw] at h; cases h
      · rw [hw] at h
        simp only at h
        rcases hr : stepRun step w ωs with e | r
        · rw [hr] at h; cases h
        · rw [hr] at h
          simp only [pure, Except.pure, Except.ok.injEq] at h
          subst h
          simp [ih w r hr]

theorem overCubes_congr {n : ℕ} : ∀ (k : ℕ) (f g : List (Fin n → ℝ) → ENNReal),
    (∀ us, us.length = k → f us = g us) → overCubes k f = overCubes k g := by
  intro k
  induction k with
  | zero => intro f g h; exact h [] rfl
  | succ k ih =>
      intro f g h
      simp only [overCubes]
      congr 1
      funext u
      exact ih _ _ fun us hus => h (u :: us) (by simp [hus])

theorem evaluate_one (x : FloatVar) (a b : ℝ) (hlo : x.lo = (a : EReal)) (hhi : x.hi = (b : EReal)) (r : ℕ → ℝ) :
    x.evaluate none 0 r = .ok (.scalar (a + (b - a) * r 0)) := by
  simp [FloatVar.evaluate, hlo, hhi, uniform, UFun.fwd, UFun.inv]

theorem fieldDraw_ok {n : ℕ} (cs : Fin n → FCoord) (a b : Fin n → ℝ) (hlo : ∀ i, (cs i).x.lo = (a i : EReal))
    (hhi : ∀ i, (cs i).x.hi = (b i : EReal)) (huf : ∀ i, (cs i).uf = none) (u : Fin n → ℝ) :
    fieldDraw cs u = .ok fun i => a i + (b i - a i) * u i := by
  have h : ∀ i, (cs i).x.evaluate (cs i).uf 0 (fun _ => u i) = .ok (.scalar (a i + (b i - a i) * u i)) := by
    intro i
    rw [huf i]
    exact evaluate_one _ _ _ (hlo i) (hhi i) _
  unfold fieldDraw
  rw [if_pos fun i => ⟨_, h i⟩]
  congr 1
  funext i
  rw [h i]

theorem sphStep_cases {n : ℕ} (hn : 0 < n) (names : Fin n → Str) (cs : Fin n → FCoord)
    (d : ℝ) (scale bound : Bool) (v u : Fin n → ℝ) (t : ℝ) :
    (npz ≤ drawSq (radius cs d scale) u → RFTrans.fresh.step names cs (.sphere d scale) bound v ⟨u, t⟩ =
      .ok (sphTo cs d scale bound 1 v u)) ∧
    (¬ npz ≤ drawSq (radius cs d scale) u →
      Raises (RFTrans.fresh.step names cs (.sphere d scale) bound v ⟨u, t⟩)) := by
  classical
  have hF : ∀ δ : Fin n → ℝ, RFTrans.fresh.evalMoves (.nums δ) = .ok (.nums ((1 : Matrix (Fin n) (Fin n) ℝ).mulVec δ)) := by
    simp [RFTrans.evalMoves, RFTrans.fresh]
  unfold RFTrans.step sphTo
  simp only
  rw [fieldMoves_sphere hn]
  constructor
  · intro hfin
    simp only [if_pos hfin, bind, Except.bind, hF, pure, Except.pure]
  · intro hfin
    simp only [if_neg hfin, bind, Except.bind]
    exact ⟨_, rfl⟩

theorem estimate_sum {n : ℕ} (size : ℝ) (hs : 0 ≤ size) (inside : (Fin n → ℝ) → Bool) (vs : List (Fin n → ℝ)) :
    ENNReal.ofReal (areaEstimate size inside vs) =
      ENNReal.ofReal size / vs.length * (vs.map ({v | inside v = true}.indicator 1)).sum := by
  have h : ENNReal.ofReal (vs.map fun v => if inside v then (1:ℝ) else 0).sum =
      (vs.map ({v | inside v = true}.indicator 1)).sum ∧ 0 ≤ (vs.map fun v => if inside v then (1:ℝ) else 0).sum := by
    induction vs with
    | nil => simp
    | cons v vs ih =>
        simp only [List.map_cons, List.sum_cons]
        have h0 : (0:ℝ) ≤ if inside v then (1:ℝ) else 0 := by split <;> norm_num
        refine ⟨?_, add_nonneg h0 ih.2⟩
        rw [ENNReal.ofReal_add h0 ih.2, ih.1]
        congr 1
        by_cases hv : inside v = true <;> simp [hv]
  rw [areaEstimate, ENNReal.ofReal_mul hs]
  rcases Nat.eq_zero_or_pos vs.length with h0 | h0
  · have : vs = [] := List.length_eq_zero_iff.mp h0
    subst this
    simp
  · rw [ENNReal.ofReal_div_of_pos (by exact_mod_cast h0), h.1, ENNReal.ofReal_natCast, div_eq_mul_inv, div_eq_mul_inv]
    ring

theorem visits_none {n : ℕ} (T : Set (Fin n → ℝ)) (mv : (Fin n → ℝ) → (Fin n → ℝ) → Fin n → ℝ) (k : ℕ) :
    ∀ v, visits ∅ T mv k v = 0 := by
  induction k with
  | zero => intro v; rfl
  | succ k ih =>
      intro v
      simp [visits, ih]

theorem finite_positive {n : ℕ} (hn : 0 < n) (ρ : ℝ) (hρ : npz < ρ ^ 2) :
    cubeLaw n {u | npz ≤ drawSq ρ u} ≠ 0 := by
  have hρ0 : 0 < ρ ^ 2 := npz_pos.trans hρ
  set c := Real.sqrt (npz / ρ ^ 2) with hc
  have hc1 : c < 1 := by
    rw [hc, Real.sqrt_lt' one_pos, one_pow, div_lt_one hρ0]; exact hρ
  have hc0 : 0 ≤ c := Real.sqrt_nonneg _
  have hcc : ρ ^ 2 * c ^ 2 = npz := by
    rw [hc, Real.sq_sqrt (by have := npz_pos; positivity), mul_div_cancel₀ _ hρ0.ne']
  set ε := (1 - c) / 2 with hε
  have hsub : (Set.univ.pi fun _ : Fin n => Set.Ico (0:ℝ) ε) ⊆ {u | npz ≤ drawSq ρ u} := by
    intro u hu
    have h0 := hu ⟨0, hn⟩ trivial
    simp only [Set.mem_Ico] at h0
    have h1 : (ρ * (2 * u ⟨0, hn⟩ - 1)) ^ 2 ≤ drawSq ρ u :=
      Finset.single_le_sum (f := fun i => (ρ * (2 * u i - 1)) ^ 2) (fun i _ => sq_nonneg _) (Finset.mem_univ _)
    refine le_trans ?_ h1
    rw [mul_pow, ← hcc]
    refine mul_le_mul_of_nonneg_left ?_ hρ0.le
    nlinarith
  have hpos : cubeLaw n (Set.univ.pi fun _ : Fin n => Set.Ico (0:ℝ) ε) ≠ 0 := by
    unfold cubeLaw
    rw [Measure.restrict_apply (MeasurableSet.univ_pi fun _ => measurableSet_Ico), ← Set.pi_inter_distrib,
      volume_pi_pi]
    refine Finset.prod_ne_zero_iff.mpr fun i _ => ?_
    rw [Set.Ico_inter_Ico, Real.volume_Ico]
    have : (0:ℝ) < min ε 1 - max 0 0 := by
      rw [max_self, sub_zero]
      exact lt_min (by rw [hε]; linarith) one_pos
    simpa using this
  exact fun h => hpos (measure_mono_null hsub h)

/-- C102, proved part: for limits that are excluded, as those given by a tuple. -/
theorem C102_unbiased_partial {n : ℕ} (hn : 0 < n) (names : Fin n → Str) (a b : Fin n → ℝ) (hab : ∀ i, a i < b i)
    (o : Fin n → DeltaOpts) (d : ℝ) (scale : Bool) (hd : Spec.Resolved a b d scale) (k : ℕ) (hk : 0 < k) :
    Spec.Unbiased (walkRun RFTrans.fresh names
      (fun i => (Spec.limited (.tuple (a i) (b i)) (a i) (b i) (o i)).coord) (.sphere d scale) true) a b k := by
  classical
  intro inside hA
  set A := {v | inside v = true} with hAdef
  set cs : Fin n → Spec.Coord := fun i => Spec.limited (.tuple (a i) (b i)) (a i) (b i) (o i) with hcs
  set ρ := radius (fun i => (cs i).coord) d scale with hρ
  set T : Set (Fin n → ℝ) := {u | npz ≤ drawSq ρ u} with hT
  have hTm : MeasurableSet T := measurableSet_le measurable_const (drawSq_measurable _)
  have hw : ∀ i, Spec.Walkable (cs i) scale true := fun i =>
    ⟨fun _ => rfl, measurable_id, fun _ => (sub_pos.mpr (hab i)).ne', fun _ => trivial⟩
  set B := sides cs true with hB
  have hBi : ∀ i, B i = Set.Ioo (a i) (b i) := by
    intro i
    ext s
    have hmm : min (a i : EReal) (b i) = a i := min_eq_left (by exact_mod_cast (hab i).le)
    have hMM : max (a i : EReal) (b i) = b i := max_eq_right (by exact_mod_cast (hab i).le)
    simp only [hB, sides, hcs, Spec.limited, UFun.inv, id, Set.mem_setOf_eq, true_imp_iff, Spec.MemF, hmm, hMM,
      EReal.coe_lt_coe_iff, Set.mem_Ioo]
  have hBm : ∀ i, MeasurableSet (B i) := fun i => by rw [hBi]; exact measurableSet_Ioo
  set e := sphMove (fun i => (cs i).coord) d scale 1 with he
  have hem : Measurable e := sphMove_measurable _ d scale 1
  set mv := jointTo B e with hmvdef
  have hmv : Measurable fun p : (Fin n → ℝ) × (Fin n → ℝ) => mv p.1 p.2 := jointTo_measurable hBm hem
  set step : (Fin n → ℝ) → (Fin n → ℝ) → Py (Fin n → ℝ) := fun v u =>
    RFTrans.fresh.step names (fun i => (cs i).coord) (.sphere d scale) true v ⟨u, 0⟩ with hstepdef
  have hstep : ∀ᵐ u ∂cubeLaw n, ∀ v, (u ∈ T → step v u = .ok (mv v u)) ∧ (u ∉ T → Raises (step v u)) := by
    filter_upwards [sphTo_joint cs d scale true 1 hw (by simp)] with u hu v
    have h := sphStep_cases hn names (fun i => (cs i).coord) d scale true v u 0
    refine ⟨fun ht => ?_, fun ht => h.2 ht⟩
    rw [hstepdef]
    simp only
    rw [h.1 ht]
    congr 1
    exact hu v
  have hrun : ∀ u₀ us, walkRun RFTrans.fresh names (fun i => (cs i).coord) (.sphere d scale) true u₀ us =
      stepRun step (fun i => a i + (b i - a i) * u₀ i) us := by
    intro u₀ us
    have hmm : ∀ i, ¬ max (a i : EReal) (b i) < min (a i : EReal) (b i) := fun i => not_lt.mpr min_le_max
    unfold walkRun
    rw [fieldDraw_ok (fun i => (cs i).coord) a b
      (by
        intro i
        simp only [hcs, Spec.limited, Spec.Coord.coord, FloatVar.make, FSet.toList, hmm, if_false]
        exact min_eq_left (by exact_mod_cast (hab i).le))
      (by
        intro i
        simp only [hcs, Spec.limited, Spec.Coord.coord, FloatVar.make, FSet.toList, hmm, if_false]
        exact max_eq_right (by exact_mod_cast (hab i).le))
      (fun i => rfl)]
    rfl
  set p := cubeLaw n T with hp
  have hρ2 : npz < ρ ^ 2 := by
    obtain ⟨h1, h2⟩ := hd
    rw [hρ]
    unfold radius
    cases hs : scale with
    | false => rw [hs] at h1; simpa using h1
    | true =>
        rw [hs] at h1 h2
        simp only [if_true] at h1 ⊢
        rw [mul_pow]
        have hl : ∀ i, (cs i).coord.len = b i - a i := fun i => rfl
        simp only [hl]
        rw [realSqrt, if_pos (h2 rfl), Real.sq_sqrt (npz_pos.le.trans (h2 rfl))]
        exact h1
  have hp0 : p ≠ 0 := finite_positive hn ρ hρ2
  have hptop : p ≠ ⊤ := ((measure_mono (Set.subset_univ T)).trans_lt (by rw [cube_mass]; simp)).ne
  have hpk0 : p ^ k ≠ 0 := pow_ne_zero k hp0
  have hpkt : p ^ k ≠ ⊤ := ENNReal.pow_ne_top hptop
  have hone : Spec.overRuns (walkRun RFTrans.fresh names (fun i => (cs i).coord) (.sphere d scale) true) k
      (fun _ => 1) = p ^ k := by
    unfold Spec.overRuns
    simp only [hrun, overSteps_eq]
    have : ∀ v, overCubes k (fun us => match stepRun step v us with
        | .ok _ => (1 : ENNReal)
        | .error _ => 0) = p ^ k := by
      intro v
      have := overCubes_visits (A := ∅) hTm hstep k 1 v
      rw [visits_none, add_zero, one_mul] at this
      rw [hp, ← this]
      congr 1
      funext us
      rcases stepRun step v us with err | vs <;> simp
    simp only [this]
    change ∫⁻ _, p ^ k ∂cubeLaw n = p ^ k
    rw [lintegral_const, cube_mass, mul_one]
  have hsize : 0 ≤ ∏ i, (b i - a i) := Finset.prod_nonneg fun i _ => (sub_pos.mpr (hab i)).le
  have hsize' : 0 < ∏ i, (b i - a i) := Finset.prod_pos fun i _ => sub_pos.mpr (hab i)
  have hkt : ENNReal.ofReal (∏ i, (b i - a i)) / k ≠ ⊤ :=
    ENNReal.div_ne_top ENNReal.ofReal_ne_top (by exact_mod_cast hk.ne')
  have hbox : (Spec.box a b : Set (Fin n → ℝ)) =ᵐ[volume] Set.univ.pi B := by
    have h1 : Set.univ.pi B = Set.univ.pi fun i => Set.Ioo (a i) (b i) := by
      congr 1
      funext i
      exact hBi i
    rw [h1, Spec.box]
    exact Measure.univ_pi_Ico_ae_eq_Icc.trans Measure.univ_pi_Ioo_ae_eq_Icc.symm
  have hmean : Spec.overRuns (walkRun RFTrans.fresh names (fun i => (cs i).coord) (.sphere d scale) true) k
      (fun vs => ENNReal.ofReal (areaEstimate (∏ i, (b i - a i)) inside vs)) =
      p ^ k * volume (Spec.box a b ∩ A) := by
    unfold Spec.overRuns
    simp only [hrun, overSteps_eq]
    have hin : ∀ v, overCubes k (fun us => match stepRun step v us with
        | .ok vs => ENNReal.ofReal (areaEstimate (∏ i, (b i - a i)) inside vs)
        | .error _ => 0) = ENNReal.ofReal (∏ i, (b i - a i)) / k * visits A T mv k v := by
      intro v
      have h := overCubes_visits (A := A) hTm hstep k 0 v
      rw [zero_mul, zero_add] at h
      rw [← h, ← overCubes_mul _ hkt]
      refine overCubes_congr k _ _ fun us hus => ?_
      rcases hr : stepRun step v us with err | vs
      · simp
      · simp only [zero_add]
        rw [estimate_sum _ hsize, stepRun_length step us v vs hr, hus]
    simp only [hin]
    have hvm : Measurable (visits A T mv k) := visits_measurable hA hTm hmv k
    have haff : Measurable fun (u : Fin n → ℝ) i => a i + (b i - a i) * u i := by fun_prop
    have hmap : Spec.means (fun u₀ : Fin n → ℝ => ENNReal.ofReal (∏ i, (b i - a i)) / k *
        visits A T mv k fun i => a i + (b i - a i) * u₀ i) =
        ENNReal.ofReal (∏ i, (b i - a i)) / k * ((ENNReal.ofReal (∏ i, (b i - a i)))⁻¹ *
          ∫⁻ s in Spec.box a b, visits A T mv k s) := by
      change ∫⁻ u₀, _ ∂cubeLaw n = _
      rw [lintegral_const_mul' _ _ hkt]
      congr 1
      have := draws_affine a b hab
      rw [← lintegral_map (f := visits A T mv k) hvm haff, cubeLaw_pi]
      have h2 : (Measure.pi fun _ : Fin n => unitLaw) = Measure.pi fun _ : Fin n => volume.restrict (Set.Ico (0:ℝ) 1) := rfl
      rw [h2, this, lintegral_smul_measure, smul_eq_mul]
    rw [hmap, Measure.restrict_congr_set hbox,
      visits_box hA hTm (by
        rw [← measure_congr hbox, Spec.box, volume_pi_pi]
        exact ENNReal.prod_ne_top fun i _ => by rw [Real.volume_Ico]; exact ENNReal.ofReal_ne_top) hmv
        (kept_on hBm hem hTm (fun u hu => if_neg hu) (sphMove_sym cs d scale true 1
          (fun _ i j h => Matrix.one_apply_ne h))) k]
    have hvol : volume (Set.univ.pi B ∩ A) = volume (Spec.box a b ∩ A) :=
      (measure_congr (hbox.inter (ae_eq_refl A))).symm
    rw [hvol]
    have hs0 : ENNReal.ofReal (∏ i, (b i - a i)) ≠ 0 := by simpa using hsize'
    have hk0 : (k : ENNReal) ≠ 0 := by exact_mod_cast hk.ne'
    rw [div_eq_mul_inv]
    calc _ = (ENNReal.ofReal (∏ i, (b i - a i)) * (ENNReal.ofReal (∏ i, (b i - a i)))⁻¹) *
          ((k : ENNReal)⁻¹ * k) * (p ^ k * volume (Spec.box a b ∩ A)) := by ring
      _ = _ := by
          rw [ENNReal.mul_inv_cancel hs0 ENNReal.ofReal_ne_top, ENNReal.inv_mul_cancel hk0 (ENNReal.natCast_ne_top k),
            one_mul, one_mul]
  refine ⟨by rw [hone]; exact hpk0, ?_⟩
  rw [hone, hmean, mul_comm, ENNReal.mul_div_cancel_right hpk0 hpkt]

/-! ### The circle -/

theorem disc_within (r : ℝ) (hr : 0 < r) :
    volume (Spec.box (fun _ : Fin 2 => -r) (fun _ => r) ∩ {y : Fin 2 → ℝ | (y 0) ^ 2 + (y 1) ^ 2 ≤ r ^ 2}) =
      ENNReal.ofReal (Real.pi * r ^ 2) := by
  have hnull : volume ({y : Fin 2 → ℝ | (y 0) ^ 2 + (y 1) ^ 2 ≤ r ^ 2} \
      Spec.box (fun _ => -r) fun _ => r) = 0 := by
    refine measure_mono_null (t := {y : Fin 2 → ℝ | y 0 = r} ∪ {y | y 1 = r}) ?_ ?_
    · rintro y ⟨hy1, hy2⟩
      simp only [Set.mem_setOf_eq] at hy1
      have h0 : |y 0| ≤ r := abs_le_of_sq_le_sq (by nlinarith [sq_nonneg (y 1)]) hr.le
      have h1 : |y 1| ≤ r := abs_le_of_sq_le_sq (by nlinarith [sq_nonneg (y 0)]) hr.le
      rw [abs_le] at h0 h1
      by_contra hc
      simp only [Set.mem_union, Set.mem_setOf_eq, not_or] at hc
      refine hy2 fun i _ => ?_
      fin_cases i
      · exact ⟨h0.1, lt_of_le_of_ne h0.2 hc.1⟩
      · exact ⟨h1.1, lt_of_le_of_ne h1.2 hc.2⟩
    · rw [measure_union_null_iff]
      have hp : ∀ i : Fin 2, volume {y : Fin 2 → ℝ | y i = r} = 0 := fun i => by
        rw [volume_pi]
        exact Measure.pi_hyperplane (α := fun _ : Fin 2 => ℝ) (fun _ => volume) i r
      exact ⟨hp 0, hp 1⟩
  have := measure_inter_add_diff (μ := volume) {y : Fin 2 → ℝ | (y 0) ^ 2 + (y 1) ^ 2 ≤ r ^ 2}
    (box_measurable (fun _ : Fin 2 => -r) fun _ => r)
  rw [hnull, add_zero, disc_volume r hr, Set.inter_comm] at this
  exact this

/-- C102 on the example: over the runs of any number of steps that complete, the mean of the
estimate of the area of the circle is its area. -/
theorem C102_circle (r : ℝ) (hr : 0 < r) (d : ℝ) (hd : npz < d ^ 2) (names : Fin 2 → Str) (o : DeltaOpts) (k : ℕ)
    (hk : 0 < k) :
    Spec.overRuns (walkRun RFTrans.fresh names
        (fun _ => (Spec.limited (.tuple (-r : ℝ) (r : ℝ)) (-r) r o).coord) (.sphere d false) true) k
      (fun vs => ENNReal.ofReal (areaEstimate (4 * r ^ 2)
        (fun v => decide ((v 0) ^ 2 + (v 1) ^ 2 ≤ r ^ 2)) vs)) /
      Spec.overRuns (walkRun RFTrans.fresh names
        (fun _ => (Spec.limited (.tuple (-r : ℝ) (r : ℝ)) (-r) r o).coord) (.sphere d false) true) k (fun _ => 1) =
      ENNReal.ofReal (Real.pi * r ^ 2) := by
  have hdm : MeasurableSet {y : Fin 2 → ℝ | (y 0) ^ 2 + (y 1) ^ 2 ≤ r ^ 2} :=
    measurableSet_le (by fun_prop) measurable_const
  have h := (C102_unbiased_partial (by norm_num) names (fun _ => -r) (fun _ => r) (fun _ => by linarith)
    (fun _ => o) d false ⟨by simpa using hd, by simp⟩ k hk
    (fun v => decide ((v 0) ^ 2 + (v 1) ^ 2 ≤ r ^ 2)) (by simpa using hdm)).2
  simp only [decide_eq_true_eq] at h
  rw [disc_within r hr] at h
  rw [← h]
  have hs : (∏ _i : Fin 2, (r - -r)) = 4 * r ^ 2 := by rw [Fin.prod_univ_two]; ring
  rw [hs]

/-- The hypotheses are met in the example: steps of 0.15 in the unit circle, 6000 of them. -/
example (names : Fin 2 → Str) (o : DeltaOpts) :
    Spec.overRuns (walkRun RFTrans.fresh names
        (fun _ => (Spec.limited (.tuple (-1 : ℝ) (1 : ℝ)) (-1) 1 o).coord) (.sphere 0.15 false) true) 6000
      (fun vs => ENNReal.ofReal (areaEstimate (4 * 1 ^ 2)
        (fun v => decide ((v 0) ^ 2 + (v 1) ^ 2 ≤ 1 ^ 2)) vs)) /
      Spec.overRuns (walkRun RFTrans.fresh names
        (fun _ => (Spec.limited (.tuple (-1 : ℝ) (1 : ℝ)) (-1) 1 o).coord) (.sphere 0.15 false) true) 6000 (fun _ => 1) =
      ENNReal.ofReal (Real.pi * 1 ^ 2) :=
  C102_circle 1 one_pos 0.15 (by unfold npz; norm_num) names o 6000 (by norm_num)

/-! ### Limits that are included -/

theorem means_lower (f : (Fin 1 → ℝ) → ENNReal) (c : ENNReal)
    (h : ∀ u : Fin 1 → ℝ, 0 < u 0 → u 0 < 1/4 → c ≤ f u) : c * ENNReal.ofReal (1/4) ≤ Spec.means f := by
  have hQ : MeasurableSet (Set.univ.pi fun _ : Fin 1 => Set.Ioo (0:ℝ) (1/4)) :=
    MeasurableSet.univ_pi fun _ => measurableSet_Ioo
  have hsub : (Set.univ.pi fun _ : Fin 1 => Set.Ioo (0:ℝ) (1/4)) ⊆ Set.univ.pi fun _ => Set.Ico 0 1 :=
    Set.pi_mono fun _ _ x hx => ⟨hx.1.le, by linarith [hx.2]⟩
  calc c * ENNReal.ofReal (1/4) = ∫⁻ _ in Set.univ.pi fun _ : Fin 1 => Set.Ioo (0:ℝ) (1/4), c := by
        rw [setLIntegral_const, volume_pi_pi]
        simp
    _ ≤ ∫⁻ u in Set.univ.pi fun _ : Fin 1 => Set.Ioo (0:ℝ) (1/4), f u :=
        setLIntegral_mono' hQ fun u hu => h u (hu 0 trivial).1 (hu 0 trivial).2
    _ ≤ Spec.means f := lintegral_mono_set hsub

/-- A variable on the unit interval with its limits. -/
noncomputable def shutVar (o : DeltaOpts) : FCoord :=
  (Spec.limited (.list ⟨(0:ℝ), false⟩ ⟨(1:ℝ), false⟩) 0 1 o).coord

theorem shut_step (names : Fin 1 → Str) (o : DeltaOpts) (v u : Fin 1 → ℝ) (hu1 : u 0 < 1/4) :
    RFTrans.fresh.step names (fun _ => shutVar o) (.sphere (1/2) false) true v ⟨u, 0⟩ =
      .ok fun _ => max 0 (min 1 (v 0 - 1/2)) := by
  have hrad : radius (fun _ : Fin 1 => shutVar o) (1/2) false = 1/2 := by simp [radius]
  have hsq : drawSq (1/2) u = (1/2 * (2 * u 0 - 1)) ^ 2 := by simp [drawSq]
  have hfin : npz ≤ drawSq (radius (fun _ : Fin 1 => shutVar o) (1/2) false) u := by
    rw [hrad, hsq]
    have : npz ≤ (1/16 : ℝ) := by unfold npz; norm_num
    nlinarith
  rw [(sphStep_cases one_pos names (fun _ => shutVar o) (1/2) false true v u 0).1 hfin]
  congr 1
  funext i
  have hi : i = 0 := Subsingleton.elim _ _
  subst hi
  have hcomp : sphComp (fun _ : Fin 1 => shutVar o) (1/2) false u 0 = -(1/2) := by
    unfold sphComp
    rw [hrad, hsq, show (1/2 * (2 * u 0 - 1)) ^ 2 = (1/2 * (1 - 2 * u 0)) ^ 2 by ring,
      Real.sqrt_sq (by linarith)]
    have : (1 - 2 * u 0) ≠ 0 := by linarith
    simp only [Bool.false_eq_true, if_false, mul_one]
    field_simp
    ring
  unfold sphTo
  rw [if_pos hfin, Matrix.one_mulVec]
  have hlt : ¬ ((1:ℝ) : EReal) < ((0:ℝ) : EReal) := by
    rw [EReal.coe_lt_coe_iff]; norm_num
  simp only [applyNums, hcomp]
  simp only [shutVar, Spec.limited, Spec.Coord.coord, FloatVar.applyScalar, effectiveDelta,
    orDefault, DeltaSpec.truthy, shift, FloatVar.make, FSet.toList, hlt, if_false, FloatVar.boundScalar,
    npMax, npMin, Option.getD_some, EReal.coe_le_coe_iff, EReal.toReal_coe]
  have hne : decide (-(1/2 : ℝ) ≠ 0) = true := by norm_num
  simp only [hne, if_true]
  rw [← sub_eq_add_neg]
  by_cases h1 : v 0 - 1/2 ≤ 1
  · rw [if_pos h1, min_eq_right h1]
    by_cases h2 : 0 ≤ v 0 - 1/2
    · rw [if_pos h2, max_eq_right h2]
    · rw [if_neg h2, max_eq_left (not_le.mp h2).le]
  · rw [if_neg h1, min_eq_left (not_le.mp h1).le, if_pos zero_le_one, max_eq_right zero_le_one]

theorem C102_claim_fails : ¬ C102_claim := by
  intro hc
  have h := (hc 1 one_pos (fun _ => ['x']) (fun _ => 0) (fun _ => 1) (fun _ => one_pos)
    (fun _ => .list ⟨(0:ℝ), false⟩ ⟨(1:ℝ), false⟩) (fun _ => Or.inr ⟨false, false, rfl⟩)
    (fun _ => ⟨none, false, false⟩) (1/2) false ⟨by unfold npz; norm_num, by simp⟩ 2 (by norm_num)
    (fun v => decide (v 0 = 0)) (by
      simp only [decide_eq_true_eq]
      exact (measurable_pi_apply 0) (measurableSet_singleton 0))).2
  have hvol : volume (Spec.box (fun _ : Fin 1 => (0:ℝ)) (fun _ => 1) ∩ {v | decide (v 0 = 0) = true}) = 0 := by
    refine measure_mono_null (t := {y : Fin 1 → ℝ | y 0 = 0}) (fun v hv => by simpa using hv.2) ?_
    rw [volume_pi]
    exact Measure.pi_hyperplane (α := fun _ : Fin 1 => ℝ) (fun _ => volume) 0 0
  rw [hvol, ENNReal.div_eq_zero_iff] at h
  have hrun : ∀ u₀ u₁ u₂ : Fin 1 → ℝ, 0 < u₀ 0 → u₀ 0 < 1/4 → u₁ 0 < 1/4 → u₂ 0 < 1/4 →
      walkRun RFTrans.fresh (fun _ => ['x']) (fun _ => shutVar ⟨none, false, false⟩) (.sphere (1/2) false) true u₀
        [u₁, u₂] = .ok [fun _ => u₀ 0, fun _ => 0] := by
    intro u₀ u₁ u₂ h0 h1 h2 h3
    have hlt : ¬ ((1:ℝ) : EReal) < ((0:ℝ) : EReal) := by
      rw [EReal.coe_lt_coe_iff]; norm_num
    have hdraw := fieldDraw_ok (fun _ : Fin 1 => shutVar ⟨none, false, false⟩) (fun _ => 0) (fun _ => 1)
      (fun _ => by simp only [shutVar, Spec.limited, Spec.Coord.coord, FloatVar.make, FSet.toList, hlt, if_false])
      (fun _ => by simp only [shutVar, Spec.limited, Spec.Coord.coord, FloatVar.make, FSet.toList, hlt, if_false])
      (fun _ => rfl) u₀
    have hu0 : (fun i : Fin 1 => (0:ℝ) + (1 - 0) * u₀ i) = fun _ => u₀ 0 := by
      funext i
      rw [Subsingleton.elim i 0]
      ring
    rw [hu0] at hdraw
    unfold walkRun
    rw [hdraw]
    simp only [bind, Except.bind, stepRun, shut_step _ _ _ u₁ h2, shut_step _ _ _ u₂ h3, pure, Except.pure]
    rw [min_eq_right (by linarith), max_eq_left (by linarith)]
  rcases h with h | h
  · have hlow : ENNReal.ofReal (1/2) * ENNReal.ofReal (1/4) * ENNReal.ofReal (1/4) * ENNReal.ofReal (1/4) ≤ 0 := by
      rw [← h]
      unfold Spec.overRuns
      refine means_lower _ _ fun u₀ h0 h1 => ?_
      simp only [Spec.overSteps]
      refine means_lower _ _ fun u₁ _ h2 => ?_
      refine means_lower _ _ fun u₂ _ h3 => ?_
      have := hrun u₀ u₁ u₂ h0 h1 h2 h3
      unfold shutVar at this
      rw [this]
      simp [areaEstimate, h0.ne']
    have : (0:ENNReal) < ENNReal.ofReal (1/2) * ENNReal.ofReal (1/4) * ENNReal.ofReal (1/4) * ENNReal.ofReal (1/4) := by
      refine ENNReal.mul_pos (ENNReal.mul_pos (ENNReal.mul_pos ?_ ?_).ne' ?_).ne' ?_ <;> simp
    exact absurd hlow (not_le.mpr this)
  · have hle : Spec.overRuns (walkRun RFTrans.fresh (fun _ : Fin 1 => ['x'])
        (fun _ => shutVar ⟨none, false, false⟩) (.sphere (1/2) false) true) 2 (fun _ => 1) ≤ 1 := by
      have hm : ∀ f : (Fin 1 → ℝ) → ENNReal, (∀ u, f u ≤ 1) → Spec.means f ≤ 1 := by
        intro f hf
        calc Spec.means f ≤ ∫⁻ _ in Set.univ.pi fun _ : Fin 1 => Set.Ico (0:ℝ) 1, 1 := lintegral_mono hf
          _ = 1 := by rw [setLIntegral_const, volume_pi_pi]; simp
      refine hm _ fun u₀ => hm _ fun u₁ => hm _ fun u₂ => ?_
      simp only [Spec.overSteps]
      generalize walkRun RFTrans.fresh (fun _ : Fin 1 => ['x']) (fun _ => shutVar ⟨none, false, false⟩)
        (.sphere (1/2) false) true u₀ [u₁, u₂] = R
      rcases R with e | vs <;> simp
    unfold shutVar at hle
    rw [h] at hle
    simp at hle

end Probayes
